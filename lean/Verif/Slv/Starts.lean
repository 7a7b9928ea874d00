import Mathlib.Data.Rat.Lemmas
import Mathlib.Algebra.Order.Field.Rat
import Mathlib.Tactic.NormNum
/-! # C91: where the NLP solves start

src/Interfaces/BonOsiTMINLPInterface.cpp: `resolveForCost` 835-986, `resolveForRobustness` 988-1093, `setColSolution` 1403-1410, `setRowPrice` 1423-1427, warm starts
1440-1464 and 1495-1536, `randomStartingPoint` 1792-1793, `initialSolve` 2779-2836, `resolve` 2845-2900; src/Interfaces/Ipopt/BonIpoptSolver.cpp:346-430;
src/Interfaces/Ipopt/BonIpoptWarmStart.cpp:22-74; src/Interfaces/BonTMINLP2TNLP.cpp: 280-303, `get_starting_point` 360-397.

Simplifications: the problem keeps its numbers of variables and constraints, with at least one variable; Ipopt is an oracle: solve number `k` has outcome `o k`, its
arrays have the right sizes where a theorem needs it; statuses that make `solveAndCheckErrors` throw are left out; the option `warm_start_init_point` and
`enable_warm_start_` are one flag; random points are a parameter; the interior warm starter is never created (`WARM_STARTER` is not defined, BonTMINLP2TNLP.cpp:523). -/
namespace Verif.Slv.Starts

/-- `IpoptWarmStart`: primal and dual part, `empty_`. -/
structure WS where
  primal : List ℚ
  dual : List ℚ
  empty : Bool
  deriving DecidableEq, Repr

/-- What `get_starting_point` gives: a point with or without multipliers, `false`, or undefined. -/
inductive Start
  | point (x : List ℚ) (d : Option (List ℚ))
  | refused
  | undefined
  deriving DecidableEq, Repr

/-- Outcome of a solve: `isAbandoned`, `isProvenOptimal`, `isProvenPrimalInfeasible`, infeasible by less than the threshold, value, point and multipliers. -/
structure Out where
  fail : Bool
  opt : Bool
  infeas : Bool
  small : Bool
  obj : ℚ
  x : List ℚ
  d : List ℚ
  deriving DecidableEq, Repr

/-- Settings: `warmStartMode_` (0 None, 1 FakeBasis, 2 Optimum, 3 InteriorPoint) and retries; `pretend` = `pretendFailIsInfeasible_` is not 0. -/
structure Cfg where
  mode : ℕ
  retryUnsolved : ℕ
  retryResolve : ℕ
  retryInfeas : ℕ
  pretend : Bool
  dbg : Bool
  deriving DecidableEq, Repr

/-- The interface with its problem and solver; `log` = the starting points of all solves. -/
structure I where
  n : ℕ
  m : ℕ
  user : List ℚ
  xinit : List ℚ
  duals : Bool
  xsol : List ℚ
  dsol : List ℚ
  warmOpt : Bool
  ws : Option WS
  first : Bool
  retryInitial : ℕ
  sticky : Bool
  last : Out
  log : List Start
  deriving DecidableEq, Repr

/-- Normal return, exception, undefined behaviour or failed assertion. -/
inductive R
  | ok (i : I)
  | thrown (i : I)
  | undef
  deriving DecidableEq, Repr

def R.bind (r : R) (f : I → R) : R := match r with | .ok i => f i | .thrown i => .thrown i | .undef => .undef

/-- `get_starting_point` (BonTMINLP2TNLP.cpp:360-397); multipliers are asked for if the solver warm starts. -/
def start (i : I) : Start :=
  let x := if i.xinit = [] then i.user.take i.n else i.xinit.take i.n
  if i.xinit ≠ [] ∧ i.xinit.length < i.n then .undefined
  else if ¬ i.warmOpt then .point x none
  else if ¬ i.duals then .refused
  else if i.xinit.length = 3 * i.n + i.m then .point x (some (i.xinit.drop i.n))
  else .undefined

/-- `setxInit` (BonTMINLP2TNLP.cpp:286-292) with an array of the right size. -/
def setx (x : List ℚ) (i : I) : I := { i with xinit := x ++ i.xinit.drop i.n }

/-- `setDualsInit` (BonTMINLP2TNLP.cpp:294-303) with an array of the right size. -/
def setd (d : List ℚ) (i : I) : I := { i with xinit := (i.xinit ++ List.replicate i.n 0).take i.n ++ d, duals := true }

/-- `IpoptSolver::setWarmStart` (BonIpoptSolver.cpp:369-401) with a warm start; `undef` = wrong sizes. -/
def applyWS (dbg : Bool) (w : WS) (i : I) : R :=
  if w.empty then .ok { i with warmOpt := false }
  else if w.primal.length = i.n ∧ w.dual.length = 2 * i.n + i.m then .ok { setx w.primal (setd w.dual i) with warmOpt := true }
  else if ¬ dbg ∧ w.primal = [] ∧ w.dual = [] then .ok { i with warmOpt := false }
  else .undef

/-- `IpoptSolver::getUsedWarmStart` (BonIpoptSolver.cpp:346-355); outer `none` = reads past the array. -/
def used (i : I) : Option (Option WS) :=
  if i.xinit = [] ∨ i.duals = false then some none
  else if i.xinit.length = 3 * i.n + i.m then some (some ⟨i.xinit.take i.n, i.xinit.drop i.n, false⟩)
  else none

/-- `setWarmStart` with what `getUsedWarmStart` gave; a null pointer changes nothing (373-376). -/
def restore (dbg : Bool) (b : Option WS) (i : I) : R := match b with | none => .ok i | some w => applyWS dbg w i

/-- `solveAndCheckErrors` (cpp:2607-2766). -/
def solve (o : ℕ → Out) (i : I) : I :=
  { i with log := i.log ++ [start i], last := o i.log.length, xsol := (o i.log.length).x, dsol := (o i.log.length).d }

/-- `isAbandoned` (cpp:2907-2920). -/
def failed (i : I) : Bool := i.last.fail && !i.sticky

/-- `randomStartingPoint` (cpp:1792-1793). -/
def random (rnd : ℕ → List ℚ) (i : I) : I := setx (rnd i.log.length) { i with warmOpt := false }

/-- Random restarts (cpp:1035-1069): stops at the first solve that is not abandoned. -/
def robLoop (rnd : ℕ → List ℚ) (o : ℕ → Out) : ℕ → I → I × Bool
  | 0, i => (i, false)
  | k + 1, i => if failed (solve o (random rnd i)) then robLoop rnd o k (solve o (random rnd i)) else (solve o (random rnd i), true)

/-- `resolveForRobustness` (cpp:988-1093). -/
def robust (c : Cfg) (rnd : ℕ → List ℚ) (o : ℕ → Out) (i : I) : R :=
  match (if c.mode < 2 then used i else some none) with
  | none => .undef
  | some b =>
    let j := solve o { i with ws := none, warmOpt := false, xinit := [] }
    let r := if failed j then robLoop rnd o c.retryUnsolved j else (j, true)
    if r.2 then (if c.mode < 2 then restore c.dbg b { r.1 with warmOpt := true } else .ok { r.1 with warmOpt := true })
    else (if c.mode < 2 then restore c.dbg b r.1 else .ok r.1).bind fun i => if c.pretend then .ok { i with sticky := true } else .thrown i

/-- Loop of `resolveForCost` (cpp:880-944) with the best outcome so far. -/
def costLoop (rnd : ℕ → List ℚ) (o : ℕ → Out) : ℕ → I → Out → I × Out
  | 0, i, b => (i, b)
  | k + 1, i, b =>
    let j := solve o (random rnd i)
    costLoop rnd o k j (if j.last.opt ∧ (¬ b.opt ∨ j.last.obj < b.obj) then j.last else b)

/-- `resolveForCost` (cpp:835-986). -/
def cost (c : Cfg) (rnd : ℕ → List ℚ) (o : ℕ → Out) (num : ℕ) (keep : Bool) (i : I) : R :=
  match (if c.mode ≤ 2 ∧ keep then used i else some none) with
  | none => .undef
  | some b =>
    let r := costLoop rnd o num { i with ws := none } i.last
    let j := { r.1 with last := r.2, xsol := r.2.x, dsol := r.2.d }
    if c.mode < 2 ∧ keep then restore c.dbg b j else .ok j

/-- Acquisition of the warm start (cpp:2831-2835, 2895-2899; BonIpoptSolver.cpp:357-366, BonIpoptWarmStart.cpp:32-45). -/
def finish (c : Cfg) (i : I) : I := if i.ws = none ∧ failed i = false ∧ 2 ≤ c.mode then { i with ws := some ⟨i.xsol, i.dsol, false⟩ } else i

/-- `numRetry` (cpp:2816). -/
def numRetry (c : Cfg) (i : I) : ℕ := if i.first then i.retryInitial else c.retryResolve

/-- What follows the first solve of `initialSolve` (cpp:2817-2826). -/
def afterInitial (c : Cfg) (rnd : ℕ → List ℚ) (o : ℕ → Out) (j : I) : R :=
  if failed j ∨ j.last.small then robust c rnd o j
  else if numRetry c j ≠ 0 then (cost c rnd o (numRetry c j) (decide (0 < j.retryInitial)) j).bind fun i => .ok { i with retryInitial := 0 }
  else .ok j

/-- What follows the solve of `resolve` (cpp:2885-2891). -/
def afterResolve (c : Cfg) (rnd : ℕ → List ℚ) (o : ℕ → Out) (j : I) : R :=
  if failed j ∨ j.last.small then robust c rnd o j
  else if c.retryResolve ≠ 0 ∨ (c.retryInfeas ≠ 0 ∧ j.last.infeas) then cost c rnd o (max c.retryResolve c.retryInfeas) false j
  else .ok j

/-- The interface as the first solve of `initialSolve` sees it (cpp:2785-2796). -/
def coldStart (c : Cfg) (i : I) : I := { i with ws := none, warmOpt := if 2 ≤ c.mode then false else i.warmOpt }

/-- `initialSolve` (cpp:2779-2836). -/
def initial (c : Cfg) (rnd : ℕ → List ℚ) (o : ℕ → Out) (i : I) : R :=
  (afterInitial c rnd o (solve o (coldStart c i))).bind fun i => .ok (finish c { i with first := false })

/-- `resolve` (cpp:2845-2900). -/
def resolve (c : Cfg) (rnd : ℕ → List ℚ) (o : ℕ → Out) (i : I) : R :=
  match i.ws with
  | none => initial c rnd o i
  | some w =>
    if w.empty then initial c rnd o i
    else
      (applyWS c.dbg w i).bind fun i => (afterResolve c rnd o (solve o { i with ws := none, warmOpt := i.duals })).bind fun i => .ok (finish c i)

/-- `getWarmStart` (cpp:1440-1452, 1495-1504) for the modes that expose warm starts, and the empty one (BonIpoptSolver.cpp:412-416). -/
def getWS (i : I) : WS := match i.ws with | some w => w | none => ⟨[], [], true⟩

/-- `setWarmStart` (cpp:1455-1464, 1507-1536): an empty warm start is not valid, but it has a primal-dual part from which a warm start that counts as not empty is made
(BonIpoptWarmStart.cpp:68-74). -/
def setWS (c : Cfg) (w : Option WS) (i : I) : I :=
  if c.mode < 2 then i
  else match w with
  | none => { i with ws := none }
  | some w => { i with ws := some { w with empty := false } }

/-- `setColSolution` (cpp:1403-1410), `setRowPrice` (cpp:1423-1427). -/
def setCol (x : Option (List ℚ)) (i : I) : I := match x with | some x => setx x i | none => { i with xinit := [] }
def setPrice (d : List ℚ) (i : I) : I := setd d i

/-! ### Warm start modes -/

/-- The state after a call that returned or threw. -/
def R.Gives (r : R) (j : I) : Prop := r = .ok j ∨ r = .thrown j

theorem gives_bind {r : R} {f : I → R} {j : I} (h : (r.bind f).Gives j) : r = .thrown j ∨ ∃ i, r = .ok i ∧ (f i).Gives j := by
  cases r with
  | ok i => exact .inr ⟨i, rfl, h⟩
  | thrown i =>
    rcases h with h | h
    · cases h
    · cases h; exact .inl rfl
  | undef => rcases h with h | h <;> cases h

theorem applyWS_ok {dbg : Bool} {w : WS} {i j : I} (h : (applyWS dbg w i).Gives j) : applyWS dbg w i = .ok j ∧ j.log = i.log ∧ j.n = i.n ∧ j.m = i.m := by
  have ht : applyWS dbg w i ≠ .thrown j := by unfold applyWS; split_ifs <;> simp
  rcases h with h | h
  · refine ⟨h, ?_⟩
    unfold applyWS at h
    split at h
    · cases h; exact ⟨rfl, rfl, rfl⟩
    · split at h
      · cases h; exact ⟨rfl, rfl, rfl⟩
      · split at h
        · cases h; exact ⟨rfl, rfl, rfl⟩
        · cases h
  · exact absurd h ht

theorem restore_ok {dbg : Bool} {b : Option WS} {i j : I} (h : (restore dbg b i).Gives j) : restore dbg b i = .ok j ∧ j.log = i.log ∧ j.n = i.n ∧ j.m = i.m := by
  cases b with
  | none => rcases h with h | h <;> cases h; exact ⟨rfl, rfl, rfl, rfl⟩
  | some w => exact applyWS_ok h

theorem robLoop_log (rnd : ℕ → List ℚ) (o : ℕ → Out) : ∀ k i, i.log <+: (robLoop rnd o k i).1.log := by
  intro k
  induction k with
  | zero => intro i; exact List.prefix_refl _
  | succ k ih =>
    intro i
    have h : i.log <+: (solve o (random rnd i)).log := List.prefix_append _ _
    rw [robLoop]
    split
    · exact h.trans (ih _)
    · exact h

theorem costLoop_log (rnd : ℕ → List ℚ) (o : ℕ → Out) : ∀ k i b, i.log <+: (costLoop rnd o k i b).1.log := by
  intro k
  induction k with
  | zero => intro i b; exact List.prefix_refl _
  | succ k ih =>
    intro i b
    have h : i.log <+: (solve o (random rnd i)).log := List.prefix_append _ _
    rw [costLoop]
    exact h.trans (ih _ _)

theorem robust_log {c : Cfg} {rnd : ℕ → List ℚ} {o : ℕ → Out} {i j : I} (h : (robust c rnd o i).Gives j) : i.log <+: j.log := by
  unfold robust at h
  split at h
  · rcases h with h | h <;> cases h
  · rename_i b hb
    dsimp only at h
    generalize hj : solve o { i with ws := none, warmOpt := false, xinit := [] } = k at h
    have hk : i.log <+: k.log := by rw [← hj]; exact List.prefix_append _ _
    generalize hr : (if failed k = true then robLoop rnd o c.retryUnsolved k else (k, true)) = r at h
    have hr1 : k.log <+: r.1.log := by
      rw [← hr]
      split
      · exact robLoop_log _ _ _ _
      · exact List.prefix_refl _
    refine (hk.trans hr1).trans ?_
    split at h
    · split at h
      · exact (restore_ok h).2.1 ▸ List.prefix_refl _
      · rcases h with h | h <;> cases h; exact List.prefix_refl _
    · rcases gives_bind h with h | ⟨l, h1, h2⟩
      · split at h
        · exact (restore_ok (.inr h)).2.1 ▸ List.prefix_refl _
        · cases h
      · have : r.1.log = l.log := by
          split at h1
          · exact (restore_ok (.inl h1)).2.1.symm
          · cases h1; rfl
        rw [this]
        split at h2
        · rcases h2 with h | h <;> cases h; exact List.prefix_refl _
        · rcases h2 with h | h <;> cases h; exact List.prefix_refl _

theorem cost_log {c : Cfg} {rnd : ℕ → List ℚ} {o : ℕ → Out} {num : ℕ} {keep : Bool} {i j : I} (h : (cost c rnd o num keep i).Gives j) : i.log <+: j.log := by
  unfold cost at h
  split at h
  · rcases h with h | h <;> cases h
  · dsimp only at h
    have := costLoop_log rnd o num { i with ws := none } i.last
    split at h
    · exact (restore_ok h).2.1 ▸ this
    · rcases h with h | h <;> cases h; exact this

theorem finish_log (c : Cfg) (i : I) : (finish c i).log = i.log := by unfold finish; split <;> rfl

theorem afterInitial_log {c : Cfg} {rnd : ℕ → List ℚ} {o : ℕ → Out} {k l : I} (hl : (afterInitial c rnd o k).Gives l) : k.log <+: l.log := by
  unfold afterInitial at hl
  split at hl
  · exact robust_log hl
  · split at hl
    · rcases gives_bind hl with hl | ⟨q, h1, h2⟩
      · exact cost_log (.inr hl)
      · rcases h2 with h2 | h2 <;> cases h2; exact cost_log (j := q) (.inl h1)
    · rcases hl with h | h <;> cases h; exact List.prefix_refl _

theorem afterResolve_log {c : Cfg} {rnd : ℕ → List ℚ} {o : ℕ → Out} {k l : I} (hl : (afterResolve c rnd o k).Gives l) : k.log <+: l.log := by
  unfold afterResolve at hl
  split at hl
  · exact robust_log hl
  · split at hl
    · exact cost_log hl
    · rcases hl with h | h <;> cases h; exact List.prefix_refl _

/-- The first solve of an `initialSolve`. -/
theorem initial_log {c : Cfg} {rnd : ℕ → List ℚ} {o : ℕ → Out} {i j : I} (h : (initial c rnd o i).Gives j) : i.log ++ [start (coldStart c i)] <+: j.log := by
  have hkl : (solve o (coldStart c i)).log = i.log ++ [start (coldStart c i)] := rfl
  rw [← hkl]
  rcases gives_bind h with h | ⟨l, h1, h2⟩
  · exact afterInitial_log (.inr h)
  · rcases h2 with h2 | h2
    · have e := R.ok.inj h2
      rw [← e, finish_log]
      exact afterInitial_log (l := l) (.inl h1)
    · cases h2

theorem resolve_log {c : Cfg} {rnd : ℕ → List ℚ} {o : ℕ → Out} {i j k : I} {w : WS} (hw : i.ws = some w) (he : w.empty = false) (hk : applyWS c.dbg w i = .ok k)
    (h : (resolve c rnd o i).Gives j) : i.log ++ [start { k with ws := none, warmOpt := k.duals }] <+: j.log := by
  unfold resolve at h
  rw [hw] at h
  dsimp only at h
  rw [if_neg (by simp [he]), hk] at h
  simp only [R.bind] at h
  have hlog : k.log = i.log := (applyWS_ok (.inl hk)).2.1
  have hql : (solve o { k with ws := none, warmOpt := k.duals }).log = i.log ++ [start { k with ws := none, warmOpt := k.duals }] := by rw [← hlog]; rfl
  rw [← hql]
  rcases gives_bind h with h | ⟨l, h1, h2⟩
  · exact afterResolve_log (.inr h)
  · rcases h2 with h2 | h2
    · have e := R.ok.inj h2
      rw [← e, finish_log]
      exact afterResolve_log (l := l) (.inl h1)
    · cases h2

theorem applied_start (dbg : Bool) (i : I) (w : WS) (he : w.empty = false) (hp : w.primal.length = i.n) (hd : w.dual.length = 2 * i.n + i.m) :
    ∃ j, applyWS dbg w i = .ok j ∧ j.xinit = w.primal ++ w.dual ∧ j.duals = true ∧ j.warmOpt = true ∧ j.n = i.n ∧ j.m = i.m ∧ j.user = i.user ∧ j.log = i.log ∧
      j.sticky = i.sticky ∧ j.retryInitial = i.retryInitial ∧ j.first = i.first ∧ j.ws = i.ws := by
  refine ⟨{ setx w.primal (setd w.dual i) with warmOpt := true }, ?_, ?_, rfl, rfl, rfl, rfl, rfl, rfl, rfl, rfl, rfl, rfl⟩
  · rw [applyWS, if_neg (by simp [he]), if_pos ⟨hp, hd⟩]
  · have : List.drop i.n (List.take i.n (i.xinit ++ List.replicate i.n 0) ++ w.dual) = w.dual := by
      have e : (List.take i.n (i.xinit ++ List.replicate i.n 0)).length = i.n := by simp
      rw [List.drop_append_of_le_length e.ge, List.drop_of_length_le e.le, List.nil_append]
    simp only [setx, setd, this]

/-- The start given by a full starting point. -/
theorem start_full (i : I) (x d : List ℚ) (hn : 0 < i.n) (hx : i.xinit = x ++ d) (hp : x.length = i.n) (hd : d.length = 2 * i.n + i.m) (hdu : i.duals = true) :
    start i = .point x (if i.warmOpt then some d else none) := by
  have h2 : (x ++ d).length = 3 * i.n + i.m := by rw [List.length_append, hp, hd]; omega
  have h1 : x ++ d ≠ [] := by intro q; rw [q] at h2; simp at h2; omega
  unfold start
  rw [hx, if_neg (by rintro ⟨_, q⟩; omega), if_neg h1, List.take_append_of_le_length hp.ge, List.take_of_length_le hp.le, List.drop_append_of_le_length hp.ge,
    List.drop_of_length_le hp.le, List.nil_append, if_pos h2, hdu]
  cases i.warmOpt <;> rfl

/-- C91: in the modes that warm start, a solve after a warm start was set starts at its point with its multipliers, whatever happened before. -/
theorem warm_start_used (c : Cfg) (rnd : ℕ → List ℚ) (o : ℕ → Out) (i j : I) (w : WS) (hm : 2 ≤ c.mode) (hn : 0 < i.n) (hp : w.primal.length = i.n)
    (hd : w.dual.length = 2 * i.n + i.m) (h : (resolve c rnd o (setWS c (some w) i)).Gives j) : i.log ++ [.point w.primal (some w.dual)] <+: j.log := by
  have hs : setWS c (some w) i = { i with ws := some { w with empty := false } } := by simp [setWS, not_lt.2 hm]
  rw [hs] at h
  obtain ⟨k, hk, h1, h2, h3, h4, h5, h6, h7, _⟩ := applied_start c.dbg { i with ws := some { w with empty := false } } { w with empty := false } rfl hp hd
  have := resolve_log rfl rfl hk h
  rw [start_full { k with ws := none, warmOpt := k.duals } w.primal w.dual (by dsimp only; rw [h4]; exact hn) h1 (by dsimp only; rw [h4]; exact hp) (by dsimp only; rw [h4, h5]; exact hd) h2] at this
  dsimp only at this
  rwa [h2] at this

/-! ### The warm start after a solve -/

theorem applyWS_ws {dbg : Bool} {w : WS} {i j : I} (h : applyWS dbg w i = .ok j) : j.ws = i.ws ∧ j.user = i.user := by
  unfold applyWS at h
  split at h
  · cases h; exact ⟨rfl, rfl⟩
  · split at h
    · cases h; exact ⟨rfl, rfl⟩
    · split at h
      · cases h; exact ⟨rfl, rfl⟩
      · cases h

theorem restore_ws {dbg : Bool} {b : Option WS} {i j : I} (h : restore dbg b i = .ok j) : j.ws = i.ws ∧ j.user = i.user := by
  cases b with
  | none => cases h; exact ⟨rfl, rfl⟩
  | some w => exact applyWS_ws h

theorem robLoop_keep (rnd : ℕ → List ℚ) (o : ℕ → Out) : ∀ k i, (robLoop rnd o k i).1.ws = i.ws ∧ (robLoop rnd o k i).1.n = i.n ∧ (robLoop rnd o k i).1.m = i.m ∧
    (robLoop rnd o k i).1.duals = i.duals ∧ (robLoop rnd o k i).1.retryInitial = i.retryInitial ∧ (robLoop rnd o k i).1.user = i.user ∧
    ((robLoop rnd o k i).2 = true → failed (robLoop rnd o k i).1 = false) := by
  intro k
  induction k with
  | zero => intro i; exact ⟨rfl, rfl, rfl, rfl, rfl, rfl, by simp [robLoop]⟩
  | succ k ih =>
    intro i
    rw [robLoop]
    split
    · exact ih _
    · rename_i hf
      exact ⟨rfl, rfl, rfl, rfl, rfl, rfl, fun _ => by simpa using hf⟩

theorem costLoop_keep (rnd : ℕ → List ℚ) (o : ℕ → Out) : ∀ k i b, (costLoop rnd o k i b).1.ws = i.ws ∧ (costLoop rnd o k i b).1.n = i.n ∧ (costLoop rnd o k i b).1.m = i.m ∧
    (costLoop rnd o k i b).1.duals = i.duals := by
  intro k
  induction k with
  | zero => intro i b; exact ⟨rfl, rfl, rfl, rfl⟩
  | succ k ih => intro i b; rw [costLoop]; exact ih _ _

theorem robust_ws {c : Cfg} {rnd : ℕ → List ℚ} {o : ℕ → Out} {i j : I} (h : robust c rnd o i = .ok j) : j.ws = none := by
  unfold robust at h
  split at h
  · cases h
  · rename_i b hb
    dsimp only at h
    generalize hj : solve o { i with ws := none, warmOpt := false, xinit := [] } = k at h
    have hk : k.ws = none := by rw [← hj]; rfl
    generalize hr : (if failed k = true then robLoop rnd o c.retryUnsolved k else (k, true)) = r at h
    have hr1 : r.1.ws = none := by
      rw [← hr]
      split
      · rw [(robLoop_keep _ _ _ _).1, hk]
      · exact hk
    split at h
    · split at h
      · rw [(restore_ws h).1]; exact hr1
      · cases h; exact hr1
    · rcases gives_bind (.inl h) with h1 | ⟨l, h1, h2⟩
      · rw [h1] at h; cases h
      · have hl : l.ws = none := by
          split at h1
          · rw [(restore_ws h1).1]; exact hr1
          · cases h1; exact hr1
        rcases h2 with h2 | h2
        · split at h2
          · rw [← R.ok.inj h2]; exact hl
          · cases h2
        · rw [h1] at h; simp only [R.bind] at h; rw [h2] at h; cases h

theorem cost_ws {c : Cfg} {rnd : ℕ → List ℚ} {o : ℕ → Out} {num : ℕ} {keep : Bool} {i j : I} (h : cost c rnd o num keep i = .ok j) : j.ws = none := by
  unfold cost at h
  split at h
  · cases h
  · dsimp only at h
    have := (costLoop_keep rnd o num { i with ws := none } i.last).1
    split at h
    · rw [(restore_ws h).1]; exact this
    · cases h; exact this

theorem finish_ws (c : Cfg) (i : I) (hm : 2 ≤ c.mode) (hw : i.ws = none) (hf : failed i = false) : (finish c i).ws = some ⟨i.xsol, i.dsol, false⟩ := by
  rw [finish, if_pos ⟨hw, hf, hm⟩]

theorem bind_ok {r : R} {f : I → R} {j : I} (h : r.bind f = .ok j) : ∃ i, r = .ok i ∧ f i = .ok j := by
  cases r with
  | ok i => exact ⟨i, rfl, h⟩
  | thrown i => cases h
  | undef => cases h

theorem finish_failed (c : Cfg) (i : I) : failed (finish c i) = failed i ∧ (finish c i).xsol = i.xsol ∧ (finish c i).dsol = i.dsol := by
  unfold finish; split <;> exact ⟨rfl, rfl, rfl⟩

/-- C91: in the modes that warm start, the warm start after a successful solve is its point and multipliers. -/
theorem initial_gives_ws (c : Cfg) (rnd : ℕ → List ℚ) (o : ℕ → Out) (i j : I) (hm : 2 ≤ c.mode) (h : initial c rnd o i = .ok j) (hf : failed j = false) :
    getWS j = ⟨j.xsol, j.dsol, false⟩ := by
  obtain ⟨k, h1, h2⟩ := bind_ok h
  have h2 := R.ok.inj h2
  have hk : k.ws = none := by
    unfold afterInitial at h1
    split at h1
    · exact robust_ws h1
    · split at h1
      · obtain ⟨l, h3, h4⟩ := bind_ok h1
        have h4 := R.ok.inj h4
        rw [← h4]
        exact cost_ws (j := l) h3
      · rw [← R.ok.inj h1]; rfl
  have e := finish_failed c { k with first := false }
  rw [← h2] at hf ⊢
  rw [e.1] at hf
  rw [getWS, finish_ws c { k with first := false } hm hk hf, e.2.1, e.2.2]

/-- C91: the same for `resolve`. -/
theorem resolve_gives_ws (c : Cfg) (rnd : ℕ → List ℚ) (o : ℕ → Out) (i j : I) (hm : 2 ≤ c.mode) (h : resolve c rnd o i = .ok j) (hf : failed j = false) :
    getWS j = ⟨j.xsol, j.dsol, false⟩ := by
  unfold resolve at h
  split at h
  · exact initial_gives_ws c rnd o i j hm h hf
  · split at h
    · exact initial_gives_ws c rnd o i j hm h hf
    · obtain ⟨q, hq, h⟩ := bind_ok h
      obtain ⟨k, h1, h2⟩ := bind_ok h
      have h2 := R.ok.inj h2
      have hk : k.ws = none := by
        unfold afterResolve at h1
        split at h1
        · exact robust_ws h1
        · split at h1
          · exact cost_ws h1
          · rw [← R.ok.inj h1]; rfl
      have e := finish_failed c k
      rw [← h2] at hf ⊢
      rw [e.1] at hf
      rw [getWS, finish_ws c _ hm hk hf, e.2.1, e.2.2]

/-! ### Modes without warm start: the point put there once -/

/-- The starting point is `x` with multipliers `d`. -/
def Holds (x d : List ℚ) (i : I) : Prop := i.xinit = x ++ d ∧ i.duals = true ∧ x.length = i.n ∧ d.length = 2 * i.n + i.m ∧ 0 < i.n

theorem holds_used {x d : List ℚ} {i : I} (h : Holds x d i) : used i = some (some ⟨x, d, false⟩) := by
  obtain ⟨h1, h2, h3, h4, h5⟩ := h
  have hl : (x ++ d).length = 3 * i.n + i.m := by simp [h3, h4]; omega
  have hne : x ++ d ≠ [] := by intro q; rw [q] at hl; simp at hl; omega
  rw [used, h1, if_neg (by simp [hne, h2]), if_pos hl, List.take_append_of_le_length h3.ge, List.take_of_length_le h3.le, List.drop_append_of_le_length h3.ge,
    List.drop_of_length_le h3.le, List.nil_append]

theorem restore_holds {dbg : Bool} {x d : List ℚ} {i j : I} (hn : 0 < i.n) (hx : x.length = i.n) (hd : d.length = 2 * i.n + i.m)
    (h : restore dbg (some ⟨x, d, false⟩) i = .ok j) : Holds x d j ∧ j.warmOpt = true ∧ j.retryInitial = i.retryInitial := by
  obtain ⟨k, hk, h1, h2, h3, h4, h5, _, _, _, h6, _⟩ := applied_start dbg i ⟨x, d, false⟩ rfl hx hd
  have : k = j := by have := hk.symm.trans h; cases this; rfl
  subst this
  exact ⟨⟨h1, h2, by rw [h4]; exact hx, by rw [h4, h5]; exact hd, by rw [h4]; exact hn⟩, h3, h6⟩

theorem robust_holds {c : Cfg} {rnd : ℕ → List ℚ} {o : ℕ → Out} {x d : List ℚ} {i j : I} (hm : c.mode < 2) (hi : Holds x d i) (h : (robust c rnd o i).Gives j) :
    Holds x d j ∧ j.retryInitial = i.retryInitial := by
  unfold robust at h
  rw [if_pos hm, holds_used hi] at h
  dsimp only at h
  obtain ⟨_, _, h3, h4, h5⟩ := hi
  generalize hj : solve o { i with ws := none, warmOpt := false, xinit := [] } = k at h
  have hk : k.n = i.n ∧ k.m = i.m ∧ k.retryInitial = i.retryInitial := by rw [← hj]; exact ⟨rfl, rfl, rfl⟩
  generalize hr : (if failed k = true then robLoop rnd o c.retryUnsolved k else (k, true)) = r at h
  have hr1 : r.1.n = i.n ∧ r.1.m = i.m ∧ r.1.retryInitial = i.retryInitial := by
    rw [← hr]
    split
    · have := robLoop_keep rnd o c.retryUnsolved k
      exact ⟨this.2.1.trans hk.1, this.2.2.1.trans hk.2.1, this.2.2.2.2.1.trans hk.2.2⟩
    · exact hk
  split at h
  · have e := (restore_ok h).1
    have := restore_holds (i := { r.1 with warmOpt := true }) (by dsimp only; rw [hr1.1]; exact h5) (by dsimp only; rw [hr1.1]; exact h3) (by dsimp only; rw [hr1.1, hr1.2.1]; exact h4) e
    exact ⟨this.1, this.2.2.trans hr1.2.2⟩
  · rcases gives_bind h with h | ⟨l, e, h2⟩
    · have := (restore_ok (.inr h)).1; rw [h] at this; cases this
    · have := restore_holds (i := r.1) (by rw [hr1.1]; exact h5) (by rw [hr1.1]; exact h3) (by rw [hr1.1, hr1.2.1]; exact h4) e
      split at h2
      · rcases h2 with h2 | h2 <;> cases h2; exact ⟨this.1, this.2.2.trans hr1.2.2⟩
      · rcases h2 with h2 | h2 <;> cases h2; exact ⟨this.1, this.2.2.trans hr1.2.2⟩

/-- C91: without warm starts and without retries for better optima, once a point with multipliers was put in (as after the root), every solve starts there, also after
failures were recovered from or led to an exception. -/
theorem root_start_kept_partial (c : Cfg) (rnd : ℕ → List ℚ) (o : ℕ → Out) (x d : List ℚ) (i j : I) (hm : c.mode < 2) (hr : c.retryResolve = 0) (hi0 : i.retryInitial = 0)
    (hi : Holds x d i) (h : (initial c rnd o i).Gives j) :
    Holds x d j ∧ j.retryInitial = 0 ∧ i.log ++ [.point x (if i.warmOpt then some d else none)] <+: j.log := by
  have hl := initial_log h
  have hs : start (coldStart c i) = .point x (if i.warmOpt then some d else none) := by
    rw [start_full (coldStart c i) x d hi.2.2.2.2 hi.1 hi.2.2.1 hi.2.2.2.1 hi.2.1]
    simp only [coldStart, if_neg (not_le.2 hm)]
  rw [hs] at hl
  have hkh : Holds x d (solve o (coldStart c i)) := hi
  have hk0 : (solve o (coldStart c i)).retryInitial = 0 := hi0
  have hnum : numRetry c (solve o (coldStart c i)) = 0 := by unfold numRetry; split <;> assumption
  have key : ∀ l, (afterInitial c rnd o (solve o (coldStart c i))).Gives l → Holds x d l ∧ l.retryInitial = 0 := by
    intro l hl
    unfold afterInitial at hl
    split at hl
    · have := robust_holds hm hkh hl; exact ⟨this.1, this.2.trans hk0⟩
    · rw [if_neg (by simp [hnum])] at hl
      rcases hl with h | h
      · rw [← R.ok.inj h]; exact ⟨hkh, hk0⟩
      · cases h
  rcases gives_bind h with h | ⟨l, h1, h2⟩
  · have := key j (.inr h); exact ⟨this.1, this.2, hl⟩
  · have := key l (.inl h1)
    have e : finish c { l with first := false } = { l with first := false } := by rw [finish, if_neg]; rintro ⟨_, _, q⟩; omega
    rcases h2 with h2 | h2
    · have h2 := R.ok.inj h2
      rw [e] at h2
      rw [← h2]
      rw [← h2] at hl
      exact ⟨this.1, this.2, hl⟩
    · cases h2

/-- Solving node after node, going on after exceptions. -/
inductive Nodes (c : Cfg) (rnd : ℕ → List ℚ) (o : ℕ → Out) : I → List Start → I → Prop
  | nil (i : I) : Nodes c rnd o i [] i
  | cons {i j k : I} {s : Start} {ss : List Start} (h : (initial c rnd o i).Gives j) (hs : i.log ++ [s] <+: j.log) (t : Nodes c rnd o j ss k) : Nodes c rnd o i (s :: ss) k

/-- C91: the same over all nodes of a tree. -/
theorem nodes_start_partial (c : Cfg) (rnd : ℕ → List ℚ) (o : ℕ → Out) (x d : List ℚ) (i k : I) (ss : List Start) (hm : c.mode < 2) (hr : c.retryResolve = 0) (hi0 : i.retryInitial = 0)
    (hi : Holds x d i) (h : Nodes c rnd o i ss k) : ∀ s ∈ ss, s = .point x (some d) ∨ s = .point x none := by
  induction h with
  | nil => intro s hs; cases hs
  | @cons i j k s ss h hs t ih =>
    obtain ⟨h1, h2, h3⟩ := root_start_kept_partial c rnd o x d i j hm hr hi0 hi h
    intro q hq
    rcases List.mem_cons.1 hq with rfl | hq
    · have e : q = .point x (if i.warmOpt then some d else none) := by
        obtain ⟨t1, e1⟩ := hs
        obtain ⟨t2, e2⟩ := h3
        rw [← e2, List.append_assoc, List.append_assoc, List.append_cancel_left_eq] at e1
        simpa using (List.cons.inj e1).1
      rw [e]
      cases i.warmOpt <;> simp
    · exact ih h2 h1 q hq

/-! ### First solve, examples -/

/-- C91: the first solve of a new problem starts at the user's point. -/
theorem first_start (c : Cfg) (rnd : ℕ → List ℚ) (o : ℕ → Out) (i j : I) (hx : i.xinit = []) (hu : i.user.length = i.n) (hw : i.warmOpt = false ∨ 2 ≤ c.mode)
    (h : (initial c rnd o i).Gives j) : i.log ++ [.point i.user none] <+: j.log := by
  have hl := initial_log h
  have : start (coldStart c i) = .point i.user none := by
    rcases hw with hw | hw <;> simp [start, coldStart, hx, hw, ← hu]
  rwa [this] at hl


/-- One variable, no constraint; the user starts at 7. -/
def i0 : I := { n := 1, m := 0, user := [7], xinit := [], duals := false, xsol := [], dsol := [], warmOpt := false, ws := none, first := true, retryInitial := 0, sticky := false, last := ⟨false, true, false, false, 0, [], []⟩, log := [] }

/-- Outcomes: solve `k` fails if `f k`, otherwise ends at `k` with multipliers `k + 1`. -/
def o0 (f : ℕ → Bool) (k : ℕ) : Out := ⟨f k, !f k, false, false, k, [k], [k + 1, k + 1]⟩
def r0 (k : ℕ) : List ℚ := [100 + k]

/-- The starting points so far and whether all went well. -/
def R.view (r : R) : Option (Bool × List Start) := match r with | .ok i => some (true, i.log) | .thrown i => some (false, i.log) | .undef => none

/-- Modes: no warm start; optimum. -/
def c0 : Cfg := ⟨0, 2, 0, 0, false, false⟩
def c2 : Cfg := ⟨2, 2, 0, 0, false, false⟩

example : (initial c0 r0 (o0 fun _ => false) i0).view = some (true, [.point [7] none]) := by decide +kernel
example : ((initial c2 r0 (o0 fun _ => false) i0).bind (resolve c2 r0 (o0 fun _ => false))).view = some (true, [.point [7] none, .point [0] (some [1, 1])]) := by decide +kernel
example : ((initial c2 r0 (o0 fun _ => false) i0).bind fun i => resolve c2 r0 (o0 fun _ => false) (setWS c2 (some ⟨[5], [6, 6], false⟩) i)).view =
    some (true, [.point [7] none, .point [5] (some [6, 6])]) := by decide +kernel
example : (initial c2 r0 (o0 fun _ => false) i0).bind (fun i => if failed i then .undef else .ok { i with ws := some (getWS i) }) = initial c2 r0 (o0 fun _ => false) i0 := by decide +kernel
/-- Root, then a point with multipliers put there, then two nodes, the first of which fails once. -/
example : ((initial c0 r0 (o0 (· == 1)) i0).bind fun i => (initial c0 r0 (o0 (· == 1)) (setPrice [3, 3] (setCol (some [2]) i))).bind (initial c0 r0 (o0 (· == 1)))).view =
    some (true, [.point [7] none, .point [2] none, .point [7] none, .point [2] (some [3, 3])]) := by decide +kernel
example : Holds [2] [3, 3] (setPrice [3, 3] (setCol (some [2]) i0)) := by simp [Holds, setPrice, setCol, setx, setd, i0]

/-! ### Refutations -/

/-- C91, refuted: a failed solve that was recovered from leaves the solver in warm start mode; without warm starts and without multipliers put in before, the next solve asks for
multipliers the problem does not have and cannot start. -/
theorem recovered_then_refused : ∃ c rnd o i, c.mode = 0 ∧ i.xinit = [] ∧ i.duals = false ∧ ((initial c rnd o i).bind (initial c rnd o)).view =
    some (true, [.point [7] none, .point [7] none, .refused]) :=
  ⟨c0, r0, o0 (· == 0), i0, by decide +kernel⟩

/-- C91, refuted: with retries for better optima at the nodes the point put there is replaced: the next node starts at the last random point. -/
theorem node_retry_moves_start : ∃ c rnd o i, c.mode = 0 ∧ Holds [2] [3, 3] i ∧ ((initial c rnd o i).bind (initial c rnd o)).view.map (fun p => (p.1, p.2.take 3)) =
    some (true, [.point [2] none, .point [101] none, .point [101] none]) :=
  ⟨{ c0 with retryResolve := 1 }, r0, o0 fun _ => false, { setPrice [3, 3] (setCol (some [2]) i0) with first := false }, rfl, by simp [Holds, setPrice, setCol, setx, setd, i0],
    by decide +kernel⟩

/-- C91, refuted: a point put there without multipliers does not survive the treatment of a failure: the next solve does not start there. -/
theorem point_lost_after_failure : ∃ c rnd o i, c.mode = 0 ∧ c.retryResolve = 0 ∧
    ((initial c rnd o (setCol (some [2]) i)).bind fun j => .ok { j with warmOpt := false }).bind (initial c rnd o) ≠ .undef ∧
    (((initial c rnd o (setCol (some [2]) i)).bind fun j => .ok { j with warmOpt := false }).bind (initial c rnd o)).view =
    some (true, [.point [2] none, .point [7] none, .point [7] none]) :=
  ⟨c0, r0, o0 (· == 0), i0, by decide +kernel⟩

/-- C91, refuted: the warm start taken before any solve, put back, counts as a warm start: with assertions `resolve` stops, without them it starts at the point put there
before, not at the user's. -/
theorem empty_warm_start_counts : ∃ c rnd o i, c.mode = 2 ∧ getWS i = ⟨[], [], true⟩ ∧ resolve { c with dbg := true } rnd o (setWS c (some (getWS i)) i) = .undef ∧
    (resolve c rnd o (setWS c (some (getWS i)) (setPrice [3, 3] (setCol (some [2]) i)))).view = some (true, [.point [2] (some [3, 3])]) :=
  ⟨c2, r0, o0 fun _ => false, i0, by decide +kernel⟩

/-- C91, refuted: forgetting the point put there (a null pointer) keeps the note that multipliers were given; if the solver warm starts it is given multipliers from beyond the
array. -/
theorem reset_keeps_multipliers : ∃ i, start { setCol none (setPrice [3, 3] (setCol (some [2]) i)) with warmOpt := true } = .undefined :=
  ⟨i0, by decide +kernel⟩

/-! ### Retries, exactly -/

/-- Among `b` and the outcomes `o L, …, o (L + k - 1)`, `r` is the one to keep: `b` unless an optimal one is better, then the first of the best. -/
def Kept (o : ℕ → Out) (L k : ℕ) (b r : Out) : Prop :=
  (r = b ∧ ∀ t < k, (o (L + t)).opt = true → b.opt = true ∧ b.obj ≤ (o (L + t)).obj) ∨
  ∃ t < k, r = o (L + t) ∧ (o (L + t)).opt = true ∧ (b.opt = true → (o (L + t)).obj < b.obj) ∧
    ∀ s < k, (o (L + s)).opt = true → (o (L + t)).obj ≤ (o (L + s)).obj ∧ (s < t → (o (L + t)).obj < (o (L + s)).obj)

/-- C91: of the solve before and the retries for a better optimum the result kept is the best optimal one, and the first of these. -/
theorem best_of_retries (rnd : ℕ → List ℚ) (o : ℕ → Out) : ∀ (k : ℕ) (i : I) (b : Out), Kept o i.log.length k b (costLoop rnd o k i b).2
  | 0, i, b => Or.inl ⟨rfl, fun t ht => absurd ht (Nat.not_lt_zero t)⟩
  | k + 1, i, b => by
    have hlen : (solve o (random rnd i)).log.length = i.log.length + 1 := by simp [solve, random, setx]
    have hlast : (solve o (random rnd i)).last = o i.log.length := by simp [solve, random, setx]
    have ih := best_of_retries rnd o k (solve o (random rnd i)) (if (o i.log.length).opt ∧ (¬ b.opt ∨ (o i.log.length).obj < b.obj) then o i.log.length else b)
    rw [hlen] at ih
    have e : (costLoop rnd o (k + 1) i b).2 =
        (costLoop rnd o k (solve o (random rnd i)) (if (o i.log.length).opt ∧ (¬ b.opt ∨ (o i.log.length).obj < b.obj) then o i.log.length else b)).2 := by
      rw [costLoop, hlast]
    rw [e]
    generalize (costLoop rnd o k (solve o (random rnd i)) (if (o i.log.length).opt ∧ (¬ b.opt ∨ (o i.log.length).obj < b.obj) then o i.log.length else b)).2 = r at ih
    have sh : ∀ t, i.log.length + 1 + t = i.log.length + (t + 1) := fun t => by omega
    by_cases hc : (o i.log.length).opt = true ∧ (¬ b.opt = true ∨ (o i.log.length).obj < b.obj)
    · rw [if_pos hc] at ih
      refine Or.inr ?_
      rcases ih with ⟨rfl, h⟩ | ⟨t, ht, rfl, h1, h2, h3⟩
      · refine ⟨0, by omega, rfl, hc.1, fun hb => ?_, fun s hs hso => ⟨?_, fun h => absurd h (by omega)⟩⟩
        · rcases hc.2 with q | q
          · exact absurd hb q
          · exact q
        · rcases s with _ | s
          · exact le_refl _
          · exact (h s (by omega) (by rw [sh]; exact hso)).2 |>.trans_eq (by rw [sh])
      · rw [sh] at h1 h2 h3 ⊢
        refine ⟨t + 1, by omega, rfl, h1, fun hb => ?_, fun s hs hso => ?_⟩
        · rcases hc.2 with q | q
          · exact absurd hb q
          · exact (h2 hc.1).trans q
        · rcases s with _ | s
          · exact ⟨(h2 hc.1).le, fun _ => h2 hc.1⟩
          · have := h3 s (by omega) (by rw [sh]; exact hso)
            rw [sh] at this
            exact ⟨this.1, fun h => this.2 (by omega)⟩
    · rw [if_neg hc] at ih
      have h0 : (o i.log.length).opt = true → b.opt = true ∧ b.obj ≤ (o i.log.length).obj := by
        intro q
        by_cases hb : b.opt = true
        · exact ⟨hb, not_lt.mp fun h => hc ⟨q, Or.inr h⟩⟩
        · exact absurd ⟨q, Or.inl hb⟩ hc
      rcases ih with ⟨rfl, h⟩ | ⟨t, ht, rfl, h1, h2, h3⟩
      · refine Or.inl ⟨rfl, fun t ht hto => ?_⟩
        rcases t with _ | t
        · exact h0 hto
        · have := h t (by omega) (by rw [sh]; exact hto)
          rwa [sh] at this
      · rw [sh] at h1 h2 h3 ⊢
        refine Or.inr ⟨t + 1, by omega, rfl, h1, h2, fun s hs hso => ?_⟩
        rcases s with _ | s
        · have := h0 hso
          exact ⟨(h2 this.1).le.trans this.2, fun _ => (h2 this.1).trans_le this.2⟩
        · have := h3 s (by omega) (by rw [sh]; exact hso)
          rw [sh] at this
          exact ⟨this.1, fun h => this.2 (by omega)⟩

/-- The starting points of `k` random restarts after `L` solves. -/
def randomStarts (rnd : ℕ → List ℚ) (L k : ℕ) : List Start := (List.range k).map fun t => .point (rnd (L + t)) none

theorem randomStarts_succ (rnd : ℕ → List ℚ) (L k : ℕ) : randomStarts rnd L (k + 1) = .point (rnd L) none :: randomStarts rnd (L + 1) k := by
  unfold randomStarts
  rw [List.range_succ_eq_map, List.map_cons, List.map_map]
  congr 1
  apply List.map_congr_left
  intro t _
  simp only [Function.comp]
  rw [show L + (t.succ) = L + 1 + t by omega]

theorem solve_random (rnd : ℕ → List ℚ) (o : ℕ → Out) (i : I) (hr : ∀ k, (rnd k).length = i.n) (hn : 0 < i.n) :
    (solve o (random rnd i)).log = i.log ++ [.point (rnd i.log.length) none] ∧ (solve o (random rnd i)).last = o i.log.length ∧
    (solve o (random rnd i)).n = i.n ∧ (solve o (random rnd i)).sticky = i.sticky ∧ (solve o (random rnd i)).warmOpt = false ∧
    (solve o (random rnd i)).xinit = rnd i.log.length ++ i.xinit.drop i.n := by
  have hne : ¬ rnd i.log.length = [] := by intro q; have := hr i.log.length; rw [q] at this; simp at this; omega
  refine ⟨?_, rfl, rfl, rfl, rfl, rfl⟩
  have h1 : ¬ (rnd i.log.length ++ i.xinit.drop i.n ≠ [] ∧ (rnd i.log.length ++ i.xinit.drop i.n).length < i.n) := by
    intro q; have := q.2; rw [List.length_append, hr] at this; omega
  have h2 : ¬ rnd i.log.length ++ i.xinit.drop i.n = [] := by intro q; exact hne (List.append_eq_nil_iff.mp q).1
  have hst : start (random rnd i) = .point (rnd i.log.length) none := by
    simp only [start]
    rw [if_neg (show ¬ ((random rnd i).xinit ≠ [] ∧ (random rnd i).xinit.length < (random rnd i).n) from h1), if_pos (by simp [random, setx])]
    show Start.point (if rnd i.log.length ++ i.xinit.drop i.n = [] then _ else (rnd i.log.length ++ i.xinit.drop i.n).take i.n) none = _
    rw [if_neg h2, List.take_append_of_le_length (hr _).ge, List.take_of_length_le (hr _).le]
  show i.log ++ [start (random rnd i)] = _
  rw [hst]

/-- C91: every retry for a better optimum starts at its random point, without multipliers; nothing else is solved. -/
theorem retries_random (rnd : ℕ → List ℚ) (o : ℕ → Out) : ∀ (k : ℕ) (i : I) (b : Out), (∀ t, (rnd t).length = i.n) → 0 < i.n →
    (costLoop rnd o k i b).1.log = i.log ++ randomStarts rnd i.log.length k
  | 0, i, b, _, _ => by simp [costLoop, randomStarts]
  | k + 1, i, b, hr, hn => by
    have h := solve_random rnd o i hr hn
    rw [costLoop]
    rw [retries_random rnd o k _ _ (by rw [h.2.2.1]; exact hr) (by rw [h.2.2.1]; exact hn), h.1, randomStarts_succ]
    simp

theorem costLoop_rest (rnd : ℕ → List ℚ) (o : ℕ → Out) : ∀ (k : ℕ) (i : I) (b : Out), (costLoop rnd o k i b).1.retryInitial = i.retryInitial ∧
    (costLoop rnd o k i b).1.log.length = i.log.length + k ∧ (costLoop rnd o k i b).1.sticky = i.sticky ∧ (costLoop rnd o k i b).1.first = i.first
  | 0, i, b => ⟨rfl, rfl, rfl, rfl⟩
  | k + 1, i, b => by
    have h := costLoop_rest rnd o k (solve o (random rnd i))
      (if (solve o (random rnd i)).last.opt ∧ (¬ b.opt ∨ (solve o (random rnd i)).last.obj < b.obj) then (solve o (random rnd i)).last else b)
    rw [costLoop]
    refine ⟨h.1, h.2.1.trans ?_, h.2.2.1, h.2.2.2⟩
    simp [solve, random, setx]
    omega

theorem robLoop_exact (rnd : ℕ → List ℚ) (o : ℕ → Out) : ∀ (k : ℕ) (i : I), (∀ t, (rnd t).length = i.n) → 0 < i.n → i.sticky = false →
    (∀ t < k, (∀ s < t, (o (i.log.length + s)).fail = true) → (o (i.log.length + t)).fail = false →
      (robLoop rnd o k i).2 = true ∧ (robLoop rnd o k i).1.last = o (i.log.length + t) ∧
      (robLoop rnd o k i).1.log = i.log ++ randomStarts rnd i.log.length (t + 1)) ∧
    ((∀ s < k, (o (i.log.length + s)).fail = true) → (robLoop rnd o k i).2 = false ∧
      (robLoop rnd o k i).1.log = i.log ++ randomStarts rnd i.log.length k)
  | 0, i, _, _, _ => ⟨fun t ht => absurd ht (Nat.not_lt_zero t), fun _ => ⟨rfl, by simp [robLoop, randomStarts]⟩⟩
  | k + 1, i, hr, hn, hs => by
    have h := solve_random rnd o i hr hn
    have hf : failed (solve o (random rnd i)) = (o i.log.length).fail := by rw [failed, h.2.1, h.2.2.2.1, hs]; simp
    have ih := robLoop_exact rnd o k (solve o (random rnd i)) (by rw [h.2.2.1]; exact hr) (by rw [h.2.2.1]; exact hn) (by rw [h.2.2.2.1]; exact hs)
    have hlen : (solve o (random rnd i)).log.length = i.log.length + 1 := by rw [h.1]; simp
    rw [hlen] at ih
    have sh : ∀ t, i.log.length + 1 + t = i.log.length + (t + 1) := fun t => by omega
    simp only [robLoop, hf]
    refine ⟨fun t ht h1 h2 => ?_, fun h1 => ?_⟩
    · rcases t with _ | t
      · rw [Nat.add_zero] at h2
        rw [if_neg (by simp [h2])]
        refine ⟨rfl, by simpa using h.2.1, by rw [h.1]; simp [randomStarts]⟩
      · have h0 := h1 0 (by omega)
        rw [Nat.add_zero] at h0
        rw [if_pos h0]
        have := ih.1 t (by omega) (fun s hs => by rw [sh]; exact h1 (s + 1) (by omega)) (by rw [sh]; exact h2)
        refine ⟨this.1, this.2.1.trans (by rw [sh]), this.2.2.trans ?_⟩
        rw [h.1, randomStarts_succ rnd i.log.length (t + 1)]
        simp
    · have h0 := h1 0 (by omega)
      rw [Nat.add_zero] at h0
      rw [if_pos h0]
      have := ih.2 (fun s hs => by rw [sh]; exact h1 (s + 1) (by omega))
      refine ⟨this.1, this.2.trans ?_⟩
      rw [h.1, randomStarts_succ rnd i.log.length k]
      simp

theorem reset_solve (o : ℕ → Out) (i : I) (hu : i.user.length = i.n) :
    (solve o { i with ws := none, warmOpt := false, xinit := [] }).log = i.log ++ [.point i.user none] := by
  simp [solve, start, ← hu]

/-- C91: after a failure in a mode with warm starts the first solve starts at the user's point and the further ones at random points, up to the first that is not a failure:
its result is the one kept, and the solver warm starts again. -/
theorem recovered_exact (c : Cfg) (rnd : ℕ → List ℚ) (o : ℕ → Out) (i : I) (t : ℕ) (hm : 2 ≤ c.mode) (hr : ∀ k, (rnd k).length = i.n) (hn : 0 < i.n)
    (hu : i.user.length = i.n) (hs : i.sticky = false) (ht : t ≤ c.retryUnsolved) (hf : ∀ s < t, (o (i.log.length + s)).fail = true)
    (hok : (o (i.log.length + t)).fail = false) :
    ∃ j, robust c rnd o i = .ok j ∧ j.last = o (i.log.length + t) ∧ j.warmOpt = true ∧ j.sticky = false ∧
      j.log = i.log ++ .point i.user none :: randomStarts rnd (i.log.length + 1) t := by
  have h0 := reset_solve o i hu
  have hfail : failed (solve o { i with ws := none, warmOpt := false, xinit := [] }) = (o i.log.length).fail := by simp [failed, solve, hs]
  have hm' : ¬ c.mode < 2 := by omega
  unfold robust
  simp only [if_neg hm', hfail]
  rcases t with _ | t
  · rw [Nat.add_zero] at hok
    simp only [hok]
    exact ⟨_, rfl, rfl, rfl, hs, by simpa [randomStarts] using h0⟩
  · have hz := hf 0 (by omega)
    rw [Nat.add_zero] at hz
    simp only [hz, if_true]
    have hlen : (solve o { i with ws := none, warmOpt := false, xinit := [] }).log.length = i.log.length + 1 := by rw [h0]; simp
    have sh : ∀ t, i.log.length + 1 + t = i.log.length + (t + 1) := fun t => by omega
    have hk := robLoop_keep rnd o c.retryUnsolved (solve o { i with ws := none, warmOpt := false, xinit := [] })
    have := (robLoop_exact rnd o c.retryUnsolved (solve o { i with ws := none, warmOpt := false, xinit := [] }) hr hn hs).1 t (by omega)
      (fun s hs => by rw [hlen, sh]; exact hf (s + 1) (by omega)) (by rw [hlen, sh]; exact hok)
    rw [hlen] at this
    rw [if_pos this.1]
    refine ⟨_, rfl, this.2.1.trans (by rw [sh]), rfl, ?_, this.2.2.trans (by rw [h0]; simp)⟩
    have hst : ∀ (k : ℕ) (i : I), (robLoop rnd o k i).1.sticky = i.sticky := by
      intro k
      induction k with
      | zero => intro i; rfl
      | succ k ih => intro i; rw [robLoop]; split
                     · rw [ih]; rfl
                     · rfl
    exact (hst _ _).trans hs

/-- C91: if all fail, `1 + num_retry_unsolved` solves were done; then the problem is called infeasible if so asked, otherwise the exception is thrown. -/
theorem not_recovered (c : Cfg) (rnd : ℕ → List ℚ) (o : ℕ → Out) (i : I) (hm : 2 ≤ c.mode) (hr : ∀ k, (rnd k).length = i.n) (hn : 0 < i.n)
    (hu : i.user.length = i.n) (hs : i.sticky = false) (hf : ∀ s ≤ c.retryUnsolved, (o (i.log.length + s)).fail = true) :
    ∃ j, robust c rnd o i = (if c.pretend then .ok { j with sticky := true } else .thrown j) ∧
      j.log = i.log ++ .point i.user none :: randomStarts rnd (i.log.length + 1) c.retryUnsolved := by
  have h0 := reset_solve o i hu
  have hfail : failed (solve o { i with ws := none, warmOpt := false, xinit := [] }) = (o i.log.length).fail := by simp [failed, solve, hs]
  have hm' : ¬ c.mode < 2 := by omega
  unfold robust
  simp only [if_neg hm', hfail]
  have hz := hf 0 (by omega)
  rw [Nat.add_zero] at hz
  simp only [hz, if_true]
  have hlen : (solve o { i with ws := none, warmOpt := false, xinit := [] }).log.length = i.log.length + 1 := by rw [h0]; simp
  have sh : ∀ t, i.log.length + 1 + t = i.log.length + (t + 1) := fun t => by omega
  have := (robLoop_exact rnd o c.retryUnsolved (solve o { i with ws := none, warmOpt := false, xinit := [] }) hr hn hs).2
    (fun s hs => by rw [hlen, sh]; exact hf (s + 1) (by omega))
  rw [hlen] at this
  rw [if_neg (by simp [this.1])]
  exact ⟨_, rfl, this.2.trans (by rw [h0]; simp)⟩

theorem cost_log_length {c : Cfg} {rnd : ℕ → List ℚ} {o : ℕ → Out} {num : ℕ} {keep : Bool} {i j : I} (h : (cost c rnd o num keep i).Gives j) :
    j.log.length = i.log.length + num := by
  unfold cost at h
  split at h
  · simp [R.Gives] at h
  · have e := (costLoop_rest rnd o num { i with ws := none } i.last).2.1
    dsimp only at h
    split at h
    · have := restore_ok h
      rw [this.2.1]
      exact e
    · rcases h with h | h
      · rw [← R.ok.inj h]; exact e
      · simp at h

theorem finish_log_length (c : Cfg) (i : I) : (finish c i).log.length = i.log.length := by rw [finish_log]

/-- C91: a `resolve` whose solve is neither a failure nor nearly feasible does as many solves again as the larger of the two numbers of retries, if retries at nodes are asked
for, or if retries of infeasible problems are and the problem was infeasible; otherwise none. -/
theorem resolve_solves (c : Cfg) (rnd : ℕ → List ℚ) (o : ℕ → Out) (i j : I) (w : WS) (hw : i.ws = some w) (he : w.empty = false) (hp : w.primal.length = i.n)
    (hd : w.dual.length = 2 * i.n + i.m) (hf : (o i.log.length).fail = false) (hsm : (o i.log.length).small = false) (h : resolve c rnd o i = .ok j) :
    j.log.length = i.log.length + 1 +
      (if c.retryResolve > 0 ∨ ((o i.log.length).infeas = true ∧ c.retryInfeas > 0) then max c.retryResolve c.retryInfeas else 0) := by
  have ha : applyWS c.dbg w i = .ok { setx w.primal (setd w.dual i) with warmOpt := true } := by
    rw [applyWS, if_neg (by simp [he]), if_pos ⟨hp, hd⟩]
  rw [resolve, hw] at h
  simp only [he] at h
  rw [if_neg (by simp), ha] at h
  simp only [R.bind] at h
  obtain ⟨k, h1, h2⟩ := bind_ok (r := afterResolve c rnd o _) (f := fun i => .ok (finish c i)) h
  have h2 := (R.ok.inj h2).symm
  rw [h2, finish_log_length]
  generalize hj : solve o _ = j0 at h1
  have hlast : j0.last = o i.log.length := by rw [← hj]; rfl
  have hlen : j0.log.length = i.log.length + 1 := by rw [← hj]; simp [solve, setx, setd]
  have hnf : failed j0 = false := by rw [failed, hlast, hf]; rfl
  rw [afterResolve, if_neg (by rw [hlast]; simp [hnf, hsm])] at h1
  by_cases hc : c.retryResolve ≠ 0 ∨ (c.retryInfeas ≠ 0 ∧ j0.last.infeas)
  · rw [if_pos hc] at h1
    rw [cost_log_length (Or.inl h1), hlen, if_pos]
    rcases hc with hc | hc
    · exact Or.inl (by omega)
    · rw [hlast] at hc
      exact Or.inr ⟨hc.2, by omega⟩
  · rw [if_neg hc] at h1
    rw [← R.ok.inj h1, hlen, if_neg]
    · rw [hlast] at hc
      rintro (q | q)
      · exact hc (Or.inl (by omega))
      · exact hc (Or.inr ⟨by omega, q.1⟩)

/-- C91: the first solve of the root is followed by `num_resolve_at_root` retries, those of later calls by `num_resolve_at_node` ones, unless it failed or is nearly feasible. -/
theorem initial_solves (c : Cfg) (rnd : ℕ → List ℚ) (o : ℕ → Out) (i j : I) (hf : (o i.log.length).fail = false) (hsm : (o i.log.length).small = false)
    (h : initial c rnd o i = .ok j) : j.log.length = i.log.length + 1 + (if i.first then i.retryInitial else c.retryResolve) ∧ j.first = false := by
  obtain ⟨k, h1, h2⟩ := bind_ok (r := afterInitial c rnd o _) (f := fun i => .ok (finish c { i with first := false })) h
  have h2 := (R.ok.inj h2).symm
  have hfin : ∀ i : I, (finish c i).first = i.first := by intro i; unfold finish; split <;> rfl
  refine ⟨?_, by rw [h2, hfin]⟩
  rw [h2, finish_log_length]
  show k.log.length = _
  generalize hj : solve o (coldStart c i) = j0 at h1
  have hlast : j0.last = o i.log.length := by rw [← hj]; rfl
  have hlen : j0.log.length = i.log.length + 1 := by rw [← hj]; simp [solve, coldStart]
  have hnum : numRetry c j0 = if i.first then i.retryInitial else c.retryResolve := by rw [← hj]; rfl
  have hnf : failed j0 = false := by rw [failed, hlast, hf]; rfl
  rw [afterInitial, if_neg (by rw [hlast]; simp [hnf, hsm])] at h1
  by_cases hc : numRetry c j0 ≠ 0
  · rw [if_pos hc] at h1
    obtain ⟨l, h3, h4⟩ := bind_ok h1
    rw [← R.ok.inj h4]
    show l.log.length = _
    rw [cost_log_length (Or.inl h3), hlen, hnum]
  · rw [if_neg hc] at h1
    rw [← R.ok.inj h1, hlen]
    have : numRetry c j0 = 0 := by omega
    rw [← hnum, this]

/-- C91: without warm starts, a point with multipliers put there survives any number of retries at the root, of which there are none in later calls of this kind. -/
theorem root_retries_restore (c : Cfg) (rnd : ℕ → List ℚ) (o : ℕ → Out) (x d : List ℚ) (i : I) (hm : c.mode < 2) (hi : Holds x d i) (h1 : i.first = true)
    (hret : 0 < i.retryInitial) (hf : (o i.log.length).fail = false) (hsm : (o i.log.length).small = false) :
    ∃ j, initial c rnd o i = .ok j ∧ Holds x d j ∧ j.warmOpt = true ∧ j.retryInitial = 0 := by
  have hcold : Holds x d (solve o (coldStart c i)) := hi
  have hnf : failed (solve o (coldStart c i)) = false := by
    show ((o i.log.length).fail && !i.sticky) = false
    rw [hf]; rfl
  have hsm' : (solve o (coldStart c i)).last.small = false := hsm
  have hnum : numRetry c (solve o (coldStart c i)) = i.retryInitial := by show (if i.first then _ else _) = _; rw [if_pos h1]; rfl
  have hri : (solve o (coldStart c i)).retryInitial = i.retryInitial := rfl
  unfold initial afterInitial
  rw [if_neg (by rw [hnf, hsm']; simp), if_pos (by rw [hnum]; omega), hnum]
  have hk : decide (0 < (solve o (coldStart c i)).retryInitial) = true := by rw [hri]; simpa using hret
  rw [hk]
  unfold cost
  rw [if_pos ⟨by omega, rfl⟩, holds_used hcold]
  simp only [hm, true_and, if_true]
  have kp := costLoop_keep rnd o i.retryInitial { solve o (coldStart c i) with ws := none } (solve o (coldStart c i)).last
  have kn : (costLoop rnd o i.retryInitial { solve o (coldStart c i) with ws := none } (solve o (coldStart c i)).last).1.n = i.n := kp.2.1
  have km : (costLoop rnd o i.retryInitial { solve o (coldStart c i) with ws := none } (solve o (coldStart c i)).last).1.m = i.m := kp.2.2.1
  generalize costLoop rnd o i.retryInitial { solve o (coldStart c i) with ws := none } (solve o (coldStart c i)).last = r at kn km
  obtain ⟨k, hk1, hk2⟩ := applied_start c.dbg { r.1 with last := r.2, xsol := r.2.x, dsol := r.2.d } ⟨x, d, false⟩ rfl
    (by show x.length = r.1.n; rw [kn]; exact hi.2.2.1) (by show d.length = 2 * r.1.n + r.1.m; rw [kn, km]; exact hi.2.2.2.1)
  have hh := restore_holds (dbg := c.dbg) (x := x) (d := d) (i := { r.1 with last := r.2, xsol := r.2.x, dsol := r.2.d }) (j := k)
    (by show 0 < r.1.n; rw [kn]; exact hi.2.2.2.2) (by show x.length = r.1.n; rw [kn]; exact hi.2.2.1) (by show d.length = 2 * r.1.n + r.1.m; rw [kn, km]; exact hi.2.2.2.1) hk1
  rw [restore, hk1]
  have hfin : ∀ i : I, finish c i = i := by intro i; unfold finish; rw [if_neg (by omega)]
  simp only [R.bind, hfin]
  exact ⟨_, rfl, hh.1, hh.2.1, rfl⟩

theorem costLoop_xinit (rnd : ℕ → List ℚ) (o : ℕ → Out) : ∀ (k : ℕ) (i : I) (b : Out), (∀ t, (rnd t).length = i.n) → 0 < i.n → 0 < k →
    (costLoop rnd o k i b).1.xinit = rnd (i.log.length + k - 1) ++ i.xinit.drop i.n ∧ (costLoop rnd o k i b).1.warmOpt = false
  | 0, _, _, _, _, h => absurd h (Nat.lt_irrefl 0)
  | 1, i, b, hr, hn, _ => by simp [costLoop, solve, random, setx]
  | k + 2, i, b, hr, hn, _ => by
    have h := solve_random rnd o i hr hn
    rw [costLoop]
    have ih := costLoop_xinit rnd o (k + 1) (solve o (random rnd i)) (if (solve o (random rnd i)).last.opt ∧ (¬ b.opt ∨ (solve o (random rnd i)).last.obj < b.obj)
      then (solve o (random rnd i)).last else b) (by rw [h.2.2.1]; exact hr) (by rw [h.2.2.1]; exact hn) (by omega)
    refine ⟨ih.1.trans ?_, ih.2⟩
    rw [h.1, h.2.2.1, h.2.2.2.2.2, List.drop_append_of_le_length (hr _).ge, List.drop_of_length_le (hr _).le, List.nil_append]
    simp only [List.length_append, List.length_singleton]
    rw [show i.log.length + 1 + (k + 1) - 1 = i.log.length + (k + 2) - 1 by omega]

/-- C91: with warm starts at the optimum the starting point left by retries is the last random point. -/
theorem optimum_retries (c : Cfg) (rnd : ℕ → List ℚ) (o : ℕ → Out) (num : ℕ) (keep : Bool) (i j : I) (hm : 2 ≤ c.mode) (hr : ∀ k, (rnd k).length = i.n) (hn : 0 < i.n)
    (hk : 0 < num) (h : cost c rnd o num keep i = .ok j) : start j = .point (rnd (i.log.length + num - 1)) none := by
  have hx := costLoop_xinit rnd o num { i with ws := none } i.last hr hn hk
  unfold cost at h
  split at h
  · simp at h
  · simp only [show ¬ c.mode < 2 by omega, false_and, if_false] at h
    rw [← R.ok.inj h]
    have kp := costLoop_keep rnd o num { i with ws := none } i.last
    unfold start
    simp only [hx.1, hx.2, kp.2.1]
    have hne : rnd (i.log.length + num - 1) ++ i.xinit.drop i.n ≠ [] := by
      intro q; have := congrArg List.length q; rw [List.length_append, hr] at this; simp at this; omega
    rw [if_neg, if_pos (by simp), if_neg hne, List.take_append_of_le_length (hr _).ge, List.take_of_length_le (hr _).le]
    intro q; have := q.2; rw [List.length_append, hr] at this; omega

/-- C91: with interior point warm starts retries never read beyond the starting point; with those at the optimum they do so at the root exactly if a point was put there whose
multipliers are noted but missing. -/
theorem interior_retries (c : Cfg) (rnd : ℕ → List ℚ) (o : ℕ → Out) (num : ℕ) (keep : Bool) (i : I) (hm : 2 ≤ c.mode) :
    cost c rnd o num keep i = .undef ↔ c.mode = 2 ∧ keep = true ∧ i.xinit ≠ [] ∧ i.duals = true ∧ i.xinit.length ≠ 3 * i.n + i.m := by
  have hm2 : ¬ c.mode < 2 := by omega
  unfold cost
  by_cases hc : c.mode ≤ 2 ∧ keep = true
  · rw [if_pos hc]
    unfold used
    by_cases h1 : i.xinit = [] ∨ i.duals = false
    · rw [if_pos h1]
      simp only [hm2, false_and, if_false]
      constructor
      · intro h; simp at h
      · rintro ⟨_, _, q1, q2, _⟩
        rcases h1 with h1 | h1
        · exact absurd h1 q1
        · rw [h1] at q2; simp at q2
    · rw [if_neg h1]
      by_cases h2 : i.xinit.length = 3 * i.n + i.m
      · rw [if_pos h2]
        simp only [hm2, false_and, if_false]
        constructor
        · intro h; simp at h
        · rintro ⟨_, _, _, _, q⟩; exact absurd h2 q
      · rw [if_neg h2]
        simp only [true_iff]
        refine ⟨by omega, hc.2, fun q => h1 (Or.inl q), ?_, h2⟩
        cases hd : i.duals
        · exact absurd (Or.inr hd) h1
        · rfl
  · rw [if_neg hc]
    simp only [hm2, false_and, if_false]
    constructor
    · intro h; simp at h
    · rintro ⟨q1, q2, _⟩; exact absurd ⟨by omega, q2⟩ hc

/-- C91: after a null pointer was put in as point the next cold solve starts at the user's point. -/
theorem reset_user_point (i : I) (hu : i.user.length = i.n) : start { setCol none i with warmOpt := false } = .point i.user none := by
  simp [start, setCol, ← hu]

/-- C91: an empty warm start switches warm starting off and leaves the rest. -/
theorem empty_warm_start_off (dbg : Bool) (w : WS) (i j : I) (he : w.empty = true) (h : applyWS dbg w i = .ok j) :
    j.warmOpt = false ∧ j.xinit = i.xinit ∧ j.duals = i.duals ∧ start j ≠ .refused := by
  rw [applyWS, if_pos he] at h
  rw [← R.ok.inj h]
  refine ⟨rfl, rfl, rfl, ?_⟩
  unfold start
  by_cases h1 : i.xinit ≠ [] ∧ i.xinit.length < i.n
  · simp [h1]
  · simp [h1]

/-- Two retries at the root, the second finds a better optimum. -/
example : (match initial c0 r0 (fun k => ⟨false, true, false, false, 5 - k, [k], [k, k]⟩) { i0 with retryInitial := 2 } with | .ok i => i.last.obj | _ => 0) = 3 := by decide +kernel
example : Kept (fun k => ⟨false, true, false, false, 5 - k, [k], [k, k]⟩) 1 2 ⟨false, true, false, false, 5, [0], [0, 0]⟩ ⟨false, true, false, false, 3, [2], [2, 2]⟩ :=
  Or.inr ⟨1, by decide, by norm_num, rfl, fun _ => by norm_num, fun s hs _ => by
    have : s = 0 ∨ s = 1 := by omega
    rcases this with rfl | rfl <;> norm_num⟩
example : (robust c2 r0 (o0 fun k => decide (k < 2)) i0) = .ok { i0 with xinit := [102], warmOpt := true, last := o0 (fun k => decide (k < 2)) 2, xsol := [2], dsol := [3, 3], log := [.point [7] none, .point [101] none, .point [102] none] } := by decide +kernel
example : (cost { c2 with dbg := true } r0 (o0 fun _ => false) 1 true { i0 with xinit := [1], duals := true }) = .undef := by decide +kernel

theorem robust_once {c : Cfg} {rnd : ℕ → List ℚ} {o : ℕ → Out} {k j : I} (hf : (o k.log.length).fail = false) (h : robust c rnd o k = .ok j) : j.log.length = k.log.length + 1 := by
  unfold robust at h
  have hnf : failed (solve o { k with ws := none, warmOpt := false, xinit := [] }) = false := by
    show ((o k.log.length).fail && !k.sticky) = false
    rw [hf]; rfl
  have hlen : (solve o { k with ws := none, warmOpt := false, xinit := [] }).log.length = k.log.length + 1 := by simp [solve]
  have hap : ∀ (w : WS) (i l : I), applyWS c.dbg w i = .ok l → l.log = i.log := by
    intro w i l hl
    unfold applyWS at hl
    split_ifs at hl <;> first | (rw [← R.ok.inj hl]; simp [setx, setd]; done) | (rw [← R.ok.inj hl]) | (exact absurd hl (by simp))
  cases hu : (if c.mode < 2 then used k else some none) with
  | none => rw [hu] at h; cases h
  | some b =>
    rw [hu] at h
    simp only [hnf, Bool.false_eq_true, if_false, if_true] at h
    split_ifs at h
    · unfold restore at h
      cases b with
      | none => rw [← R.ok.inj h]; exact hlen
      | some w => rw [hap w _ _ h]; exact hlen
    · rw [← R.ok.inj h]; exact hlen

/-- C91: a solve that is nearly feasible is repeated although it did not fail: once, from the problem's own point, if that solve does not fail; the retries for a better objective are then left out. -/
theorem small_solves_again (c : Cfg) (rnd : ℕ → List ℚ) (o : ℕ → Out) (i j : I) (hs : (o i.log.length).small = true) (hf : (o (i.log.length + 1)).fail = false) :
    (initial c rnd o i = .ok j → j.log.length = i.log.length + 2) ∧
    (∀ w, i.ws = some w → w.empty = false → w.primal.length = i.n → w.dual.length = 2 * i.n + i.m → resolve c rnd o i = .ok j → j.log.length = i.log.length + 2) := by
  constructor
  · intro h
    obtain ⟨k, h1, h2⟩ := bind_ok (r := afterInitial c rnd o _) (f := fun i => .ok (finish c { i with first := false })) h
    rw [(R.ok.inj h2).symm, finish_log_length]
    show k.log.length = _
    have hlen : (solve o (coldStart c i)).log.length = i.log.length + 1 := by simp [solve, coldStart]
    have hs' : (solve o (coldStart c i)).last.small = true := hs
    rw [afterInitial, if_pos (Or.inr hs')] at h1
    rw [robust_once (by rw [hlen]; exact hf) h1, hlen]
  · intro w hw he hp hd h
    have ha : applyWS c.dbg w i = .ok { setx w.primal (setd w.dual i) with warmOpt := true } := by
      rw [applyWS, if_neg (by simp [he]), if_pos ⟨hp, hd⟩]
    rw [resolve, hw] at h
    simp only [he] at h
    rw [if_neg (by simp), ha] at h
    simp only [R.bind] at h
    obtain ⟨k, h1, h2⟩ := bind_ok (r := afterResolve c rnd o _) (f := fun i => .ok (finish c i)) h
    rw [(R.ok.inj h2).symm, finish_log_length]
    generalize hj : solve o _ = j0 at h1
    have hlast : j0.last = o i.log.length := by rw [← hj]; rfl
    have hlen : j0.log.length = i.log.length + 1 := by rw [← hj]; simp [solve, setx, setd]
    rw [afterResolve, if_pos (Or.inr (by rw [hlast]; exact hs))] at h1
    rw [robust_once (by rw [hlen]; exact hf) h1, hlen]
example : (match initial { c0 with retryUnsolved := 3 } r0 (fun k => ⟨false, true, false, decide (k = 0), 5 - k, [k], [k, k]⟩) { i0 with retryInitial := 2 } with | .ok i => i.log | _ => []) = [.point [7] none, .point [7] none] := by decide +kernel

end Verif.Slv.Starts

import Mathlib.Data.List.Basic
import Mathlib.Data.List.Perm.Basic
import Mathlib.Algebra.Order.Field.Rat
import Mathlib.Tactic.Linarith
import Mathlib.Tactic.NormNum

/-!
# The MILP solver with CPLEX, and who owns its LP
`SubMipSolver` (`src/Algorithms/BonSubMipSolver.cpp` and `.hpp`): the branches for CPLEX of `find_good_sol` (243-318), `optimize` (374-430) and
`optimize_with_lazy_constraints` (449-536); constructor, copy, destructor and `setLpSolver` with Cbc (44-177).

CPLEX is an oracle.  The array `integerSolution_` is an `Option (List ℚ)`, where `Cell` is a written number or memory never written.
-/
namespace Verif.Dec.SubMipCpx

/-! ## Answers of CPLEX -/

/-- Status of a MIP solve (`CPXgetstat`).  Those ending in `Feas` are limits with an integer solution, those in `Infeas` without. -/
inductive Stat where
  | optimal | optimalTol | infeasible | infOrUnbd | unbounded | solLim
  | nodeLimFeas | nodeLimInfeas | timeLimFeas | timeLimInfeas | failFeas | failInfeas | memLimFeas | memLimInfeas | abortFeas | abortInfeas
deriving DecidableEq, Repr

/-- The variable `infeasible` (294-296, 407-408, 512-513). -/
def infeasibleFlag (s : Stat) : Bool :=
  decide (s = .infeasible) || decide (s = .abortInfeas) || decide (s = .timeLimInfeas) || decide (s = .nodeLimInfeas) || decide (s = .failInfeas) ||
  decide (s = .memLimInfeas) || decide (s = .infOrUnbd)

/-- `optimal_` (274, 409, 514). -/
def optimalFlag (s : Stat) : Bool := decide (s = .infeasible) || decide (s = .optimal) || decide (s = .optimalTol) || decide (s = .infOrUnbd)

/-- An answer of `CPXmipopt`: status, incumbent if there is one, best bound, number of nodes, time used. -/
structure Ans where
  stat : Stat
  inc : Option (List ℚ)
  bound : ℚ
  nodes : ℕ
  time : ℚ

/-- A cell of the array: `none` = never written. -/
abbrev Cell := Option ℚ

/-- Result of a solve: `integerSolution_`, `optimal_`, `lowBound_`, `nodeCount_`. -/
structure Res where
  sol : Option (List Cell)
  opt : Bool
  low : ℚ
  nodes : ℕ
deriving DecidableEq

/-- The end of a solve (301-315, 415-427, 520-532) for `n` columns: the array is allocated if there is none; `CPXgetmipx` fails without an incumbent, and its
return value is not looked at (the check after it tests the value of the call before). -/
def takeSol (n : ℕ) (old : Option (List Cell)) (a : Ans) : Option (List Cell) :=
  if infeasibleFlag a.stat then none
  else match a.inc with
    | some x => some (x.map some)
    | none => some (old.getD (List.replicate n none))

/-- `optimize` (374-430) and the same lines of `optimize_with_lazy_constraints`. -/
def optimize (n : ℕ) (old : Option (List Cell)) (a : Ans) : Res := ⟨takeSol n old a, optimalFlag a.stat, a.bound, a.nodes⟩

/-- The test of the loop of `find_good_sol` (281-282); `noSol` is `type == CPX_NO_SOLN`, which is asked once, before the loop. -/
def goOn (noSol : Bool) (maxTime used : ℚ) (s : Stat) : Bool :=
  !optimalFlag s && noSol && decide (s ≠ .solLim) && decide (s ≠ .timeLimInfeas) && decide (s ≠ .timeLimFeas) && decide (used ≤ maxTime)

/-- The loop (281-293) on the answers to come; `none` = CPLEX is called once more than there are answers. -/
def loop (noSol : Bool) (maxTime : ℚ) (a : Ans) (used : ℚ) : List Ans → Option Ans
  | [] => if goOn noSol maxTime used a.stat then none else some a
  | b :: bs => if goOn noSol maxTime used a.stat then loop noSol maxTime b (used + b.time) bs else some a

/-- `find_good_sol` (243-318): the number of nodes is added once more if there is a solution (302). -/
def findGood (n : ℕ) (old : Option (List Cell)) (maxTime : ℚ) (a : Ans) (as : List Ans) : Option Res :=
  (loop (decide (a.inc = none)) maxTime a a.time as).map fun b =>
    ⟨takeSol n old b, optimalFlag b.stat, b.bound, if infeasibleFlag b.stat then b.nodes else b.nodes + b.nodes⟩

/-- CPLEX says what it has: statuses without an integer solution are those ending in `Infeas`, `infeasible`, `infOrUnbd`, `unbounded`. -/
def Truthful (a : Ans) : Prop :=
  a.inc = none ↔ a.stat ∈ [Stat.infeasible, .infOrUnbd, .unbounded, .nodeLimInfeas, .timeLimInfeas, .failInfeas, .memLimInfeas, .abortInfeas]

/-- **The solution.**  After `optimize` the solution is the incumbent of CPLEX, and there is none if CPLEX has none; `optimal_` says that CPLEX ended by itself. -/
theorem optimize_partial (n : ℕ) (old : Option (List Cell)) (a : Ans) (h : Truthful a) (hu : a.stat ≠ .unbounded) :
    (optimize n old a).sol = a.inc.map (fun x => x.map some) ∧
      ((optimize n old a).opt = true ↔ a.stat = .infeasible ∨ a.stat = .optimal ∨ a.stat = .optimalTol ∨ a.stat = .infOrUnbd) ∧
      (optimize n old a).low = a.bound ∧ (optimize n old a).nodes = a.nodes := by
  refine ⟨?_, by simp [optimize, optimalFlag, or_assoc], rfl, rfl⟩
  simp only [optimize, takeSol]
  cases hi : a.inc with
  | none =>
    have hm := h.1 hi
    rw [if_pos]
    · rfl
    · revert hm hu
      cases a.stat <;> decide
  | some x =>
    have hm : ¬ a.stat ∈ _ := fun hh => absurd (h.2 hh) (by simp [hi])
    rw [if_neg]
    · rfl
    · revert hm
      cases a.stat <;> decide

example : optimize 2 (some [some 7, some 7]) ⟨.timeLimFeas, some [1, 2], 3, 10, 1⟩ = ⟨some [some 1, some 2], false, 3, 10⟩ ∧
    optimize 2 (some [some 7, some 7]) ⟨.infeasible, none, 3, 10, 1⟩ = ⟨none, true, 3, 10⟩ := by decide +kernel

theorem loop_spec (noSol : Bool) (maxTime : ℚ) (as : List Ans) (a b : Ans) (used : ℚ) (h : loop noSol maxTime a used as = some b) :
    ∃ k, (a :: as)[k]? = some b ∧ (∀ j c, j < k → (a :: as)[j]? = some c → goOn noSol maxTime (used + ((as.take j).map (·.time)).sum) c.stat = true) ∧
      goOn noSol maxTime (used + ((as.take k).map (·.time)).sum) b.stat = false := by
  induction as generalizing a used with
  | nil =>
    simp only [loop] at h
    split at h
    · exact absurd h (by simp)
    · rename_i hg
      cases h
      exact ⟨0, rfl, fun j c hj => absurd hj (by omega), by simpa using hg⟩
  | cons c cs ih =>
    simp only [loop] at h
    split at h
    · rename_i hg
      obtain ⟨k, h1, h2, h3⟩ := ih c (used + c.time) h
      refine ⟨k + 1, by simpa using h1, ?_, by simpa [add_assoc] using h3⟩
      intro j d hj hd
      cases j with
      | zero =>
        simp only [List.getElem?_cons_zero, Option.some.injEq] at hd
        subst hd
        simpa using hg
      | succ j => simpa [add_assoc] using h2 j d (by omega) (by simpa using hd)
    · rename_i hg
      cases h
      exact ⟨0, rfl, fun j c hj => absurd hj (by omega), by simpa using hg⟩

/-- **`find_good_sol`.**  It takes the first answer at which it stops: if the first call found a solution this is the first answer.  Its solution is the incumbent of that answer. -/
theorem find_good_partial (n : ℕ) (old : Option (List Cell)) (maxTime : ℚ) (a : Ans) (as : List Ans) (r : Res) (hr : findGood n old maxTime a as = some r)
    (ht : ∀ b ∈ a :: as, Truthful b ∧ b.stat ≠ .unbounded) :
    ∃ b ∈ a :: as, (a.inc ≠ none → b = a) ∧ r.sol = b.inc.map (fun x => x.map some) ∧ r.opt = optimalFlag b.stat ∧ r.low = b.bound ∧
      (b.inc = none → a.inc = none ∧ (r.opt = true ∨ b.stat = .timeLimInfeas ∨ ∃ k, maxTime < a.time + ((as.take k).map (·.time)).sum)) := by
  simp only [findGood] at hr
  obtain ⟨b, hb, rfl⟩ := Option.map_eq_some_iff.1 hr
  obtain ⟨k, h1, h2, h3⟩ := loop_spec _ _ _ _ _ _ hb
  have hmem : b ∈ a :: as := List.mem_of_getElem? h1
  refine ⟨b, hmem, ?_, (optimize_partial n old b (ht b hmem).1 (ht b hmem).2).1, rfl, rfl, ?_⟩
  · intro hi
    rcases Nat.eq_zero_or_pos k with rfl | hk
    · simpa using h1.symm
    · have := h2 0 a hk rfl
      simp [goOn, hi] at this
  · intro hi
    have hai : a.inc = none := by
      by_contra hi'
      rcases Nat.eq_zero_or_pos k with rfl | hk
      · simp only [List.getElem?_cons_zero, Option.some.injEq] at h1
        exact hi' (h1 ▸ hi)
      · have := h2 0 a hk rfl
        simp [goOn, hi'] at this
    refine ⟨hai, ?_⟩
    have hm := (ht b hmem).1.1 hi
    simp only [goOn, hai] at h3
    by_cases ho : optimalFlag b.stat = true
    · exact Or.inl ho
    · by_cases hs : b.stat = .timeLimInfeas
      · exact Or.inr (Or.inl hs)
      · have h4 : b.stat ≠ .solLim := by intro e; rw [e] at hm; revert hm; decide
        have h5 : b.stat ≠ .timeLimFeas := by intro e; rw [e] at hm; revert hm; decide
        simp only [Bool.not_eq_true] at ho
        simp [ho, h4, h5, hs] at h3
        exact Or.inr (Or.inr ⟨k, by rwa [List.map_take]⟩)

example : findGood 1 none 10 ⟨.nodeLimInfeas, none, 0, 1000, 1⟩ [⟨.solLim, some [4], 1, 1500, 2⟩] = some ⟨some [some 4], false, 1, 3000⟩ := by decide +kernel

/-! ## Lazy constraints -/

/-- A row or cut: coefficients as a list, sides; `|side| ≥ infty` = no side. -/
structure Row where
  coef : List ℚ
  lb : ℚ
  ub : ℚ
deriving DecidableEq

/-- Value of the row. -/
def act (c x : List ℚ) : ℚ := ((c.zip x).map fun p => p.1 * p.2).sum

/-- Feasible for a row. -/
def Sat (infty : ℚ) (r : Row) (x : List ℚ) : Prop := (r.lb ≤ -infty ∨ r.lb ≤ act r.coef x) ∧ (infty ≤ r.ub ∨ act r.coef x ≤ r.ub)

/-- The row CPLEX gets for a cut (469-486): sense `G`, else sense `L` if `lb <= infty`, else (assertion that the sides are equal) sense `E`; as a row. -/
def lazy (infty : ℚ) (r : Row) : Row :=
  if infty ≤ r.ub then ⟨r.coef, r.lb, infty⟩
  else if r.lb ≤ infty then ⟨r.coef, -infty, r.ub⟩
  else ⟨r.coef, r.ub, r.ub⟩

/-- The rows of the problem that is solved and the lazy constraints (457-459, 500): the last `k` rows are deleted, where `k` is the number of cuts; deleting nothing or more rows
than there are is an error of CPLEX, which is not looked at. -/
def keptRows (rows : List Row) (k : ℕ) : List Row := if k = 0 ∨ rows.length < k then rows else rows.take (rows.length - k)

/-- The problem after the call (535): the rows kept, and the rows made for the cuts. -/
def after (infty : ℚ) (rows cuts : List Row) : List Row := keptRows rows cuts.length ++ cuts.map (lazy infty)

/-- Feasible for all rows. -/
def SatAll (infty : ℚ) (rs : List Row) (x : List ℚ) : Prop := ∀ r ∈ rs, Sat infty r x

/-- A cut with one side. -/
def OneSided (infty : ℚ) (r : Row) : Prop := r.lb ≤ -infty ∨ infty ≤ r.ub

theorem lazy_sat (infty : ℚ) (r : Row) (hl : r.lb ≤ infty) (hs : OneSided infty r) (x : List ℚ) : Sat infty (lazy infty r) x ↔ Sat infty r x := by
  unfold lazy
  by_cases hu : infty ≤ r.ub
  · rw [if_pos hu]
    simp [Sat, hu]
  · rw [if_neg hu, if_pos hl]
    have h1 : r.lb ≤ -infty := hs.resolve_right hu
    simp [Sat, h1]

/-- **Lazy constraints.**  If the cuts have one side each and are the last rows of the problem, the problem solved with them as lazy constraints has the same feasible points, and
so has the problem left behind. -/
theorem lazy_partial (infty : ℚ) (base cuts : List Row) (h : ∀ r ∈ cuts, r.lb ≤ infty ∧ OneSided infty r) (x : List ℚ) :
    SatAll infty (after infty (base ++ cuts) cuts) x ↔ SatAll infty (base ++ cuts) x := by
  have hk : SatAll infty (keptRows (base ++ cuts) cuts.length) x ∧ SatAll infty (cuts.map (lazy infty)) x ↔ SatAll infty (base ++ cuts) x := by
    have hc : SatAll infty (cuts.map (lazy infty)) x ↔ SatAll infty cuts x := by
      simp only [SatAll, List.mem_map, forall_exists_index, and_imp, forall_apply_eq_imp_iff₂]
      exact forall₂_congr fun r hr => lazy_sat infty r (h r hr).1 (h r hr).2 x
    rw [hc]
    by_cases hz : cuts.length = 0
    · have : cuts = [] := List.length_eq_zero_iff.1 hz
      subst this
      simp [keptRows, SatAll]
    · have : keptRows (base ++ cuts) cuts.length = base := by
        rw [keptRows, if_neg]
        · simp
        · simp [hz]
      rw [this]
      simp only [SatAll, List.mem_append]
      exact ⟨fun ⟨a, b⟩ r hr => hr.elim (a r) (b r), fun hh => ⟨fun r hr => hh r (Or.inl hr), fun r hr => hh r (Or.inr hr)⟩⟩
  rw [← hk, after]
  simp only [SatAll, List.mem_append]
  exact ⟨fun hh => ⟨fun r hr => hh r (Or.inl hr), fun r hr => hh r (Or.inr hr)⟩, fun ⟨a, b⟩ r hr => hr.elim (a r) (b r)⟩

example : after 1000 [⟨[1], 0, 1⟩, ⟨[2], -1000, 4⟩, ⟨[3], 2, 1000⟩] [⟨[2], -1000, 4⟩, ⟨[3], 2, 1000⟩] = [⟨[1], 0, 1⟩, ⟨[2], -1000, 4⟩, ⟨[3], 2, 1000⟩] := by decide +kernel

/-! ## Who owns the LP -/

/-- An LP: one made by a `SubMipSolver`, or one of the caller. -/
inductive Ref where
  | heap (k : ℕ)
  | ext (e : ℕ)
deriving DecidableEq

/-- `clp_` and `ownClp_`. -/
structure Obj where
  lp : Option Ref
  own : Bool
deriving DecidableEq

/-- LPs made and not yet freed, and the objects (`none` = destroyed). -/
structure St where
  next : ℕ
  live : List ℕ
  objs : List (Option Obj)
deriving DecidableEq

/-- `delete` of an LP; `none` = undefined (freed twice, or not ours). -/
def free (live : List ℕ) : Option Ref → Option (List ℕ)
  | none => some live
  | some (.heap k) => if k ∈ live then some (live.erase k) else none
  | some (.ext _) => none

/-- Operations; `assign` is the operator the compiler generates. -/
inductive Op where
  | create
  | copy (i : ℕ)
  | setLp (i e : ℕ)
  | destroy (i : ℕ)
  | assign (i j : ℕ)
deriving DecidableEq

/-- One operation (constructor 59-72, copy 126-129, destructor 142, `setLpSolver` 163-167); objects not there are left alone. -/
def step (s : St) : Op → Option St
  | .create => some ⟨s.next + 1, s.next :: s.live, s.objs ++ [some ⟨some (.heap s.next), true⟩]⟩
  | .copy i =>
    match s.objs[i]? with
    | some (some o) =>
      if o.own ∧ o.lp ≠ none then some ⟨s.next + 1, s.next :: s.live, s.objs ++ [some ⟨some (.heap s.next), true⟩]⟩
      else some { s with objs := s.objs ++ [some o] }
    | _ => some s
  | .setLp i e =>
    match s.objs[i]? with
    | some (some o) => (if o.own then free s.live o.lp else some s.live).map fun l => { s with live := l, objs := s.objs.set i (some ⟨some (.ext e), false⟩) }
    | _ => some s
  | .destroy i =>
    match s.objs[i]? with
    | some (some o) => (if o.own then free s.live o.lp else some s.live).map fun l => { s with live := l, objs := s.objs.set i none }
    | _ => some s
  | .assign i j =>
    match s.objs[i]?, s.objs[j]? with
    | some (some _), some (some o) => some { s with objs := s.objs.set i (some o) }
    | _, _ => some s

/-- A sequence of operations. -/
def run (s : St) : List Op → Option St
  | [] => some s
  | op :: ops => (step s op).bind fun t => run t ops

/-- The LP an object has to free. -/
def owned : Option Obj → Option ℕ
  | some ⟨some (.heap k), true⟩ => some k
  | _ => none

/-- The invariant: the LPs not yet freed are those owned, each by one object; an owner has an LP of its own. -/
structure Inv (s : St) : Prop where
  perm : (s.objs.filterMap owned).Perm s.live
  nodup : s.live.Nodup
  lt : ∀ k ∈ s.live, k < s.next
  own : ∀ o, some o ∈ s.objs → o.own = true → ∃ k, o.lp = some (.heap k)

theorem inv_add {s : St} (h : Inv s) : Inv ⟨s.next + 1, s.next :: s.live, s.objs ++ [some ⟨some (.heap s.next), true⟩]⟩ := by
  refine ⟨?_, ?_, ?_, ?_⟩
  · simp only [List.filterMap_append, List.filterMap_cons, owned, List.filterMap_nil]
    exact (List.perm_append_singleton _ _).trans (h.perm.cons _)
  · exact List.nodup_cons.2 ⟨fun hm => absurd (h.lt _ hm) (by omega), h.nodup⟩
  · intro k hk
    rcases List.mem_cons.1 hk with rfl | hk
    · exact Nat.lt_succ_self _
    · exact Nat.lt_succ_of_lt (h.lt k hk)
  · intro o ho hown
    simp only [List.mem_append, List.mem_singleton, Option.some.injEq] at ho
    rcases ho with ho | rfl
    · exact h.own o ho hown
    · exact ⟨_, rfl⟩

theorem inv_set {s : St} (h : Inv s) (i : ℕ) (o : Obj) (ho : s.objs[i]? = some (some o)) (n : Option Obj) (hn : owned n = none) (hn' : ∀ p, n = some p → p.own = false) :
    ∃ l, (if o.own then free s.live o.lp else some s.live) = some l ∧ Inv { s with live := l, objs := s.objs.set i n } := by
  obtain ⟨hi, he⟩ := List.getElem?_eq_some_iff.1 ho
  have hp : s.objs.Perm (some o :: s.objs.eraseIdx i) := by
    have := List.getElem_cons_eraseIdx_perm hi
    rw [he] at this
    exact this.symm
  have hq : (s.objs.set i n).Perm (n :: s.objs.eraseIdx i) := List.set_perm_cons_eraseIdx hi n
  have hown' : ∀ p, some p ∈ s.objs.set i n → p.own = true → ∃ k, p.lp = some (.heap k) := by
    intro p hpm hpo
    rcases List.mem_or_eq_of_mem_set hpm with hm | hm
    · exact h.own p hm hpo
    · rw [hn' p hm.symm] at hpo
      exact absurd hpo (by simp)
  have hf2 := hq.filterMap owned
  rw [List.filterMap_cons, hn] at hf2
  have hf1 := hp.filterMap owned
  by_cases hown : o.own = true
  · obtain ⟨k, hk⟩ := h.own o (List.mem_of_getElem? ho) hown
    have hoo : owned (some o) = some k := by
      cases o with
      | mk lp own => simp only at hk hown; subst hk; subst hown; rfl
    rw [List.filterMap_cons, hoo] at hf1
    have hlive := hf1.symm.trans h.perm
    have hk1 : k ∈ s.live := hlive.mem_iff.1 (by simp)
    have hrest : (s.objs.eraseIdx i).filterMap owned |>.Perm (s.live.erase k) := by
      have := hlive.erase k
      simpa using this
    refine ⟨s.live.erase k, by simp [hown, hk, free, hk1], ⟨hf2.trans hrest, h.nodup.erase k, fun j hj => h.lt j (List.mem_of_mem_erase hj), hown'⟩⟩
  · simp only [Bool.not_eq_true] at hown
    have hoo : owned (some o) = none := by
      cases o with
      | mk lp own => simp only at hown; subst hown; cases lp with
        | none => rfl
        | some r => cases r <;> rfl
    rw [List.filterMap_cons, hoo] at hf1
    exact ⟨s.live, by simp [hown], ⟨hf2.trans (hf1.symm.trans h.perm), h.nodup, h.lt, hown'⟩⟩

theorem inv_step {s : St} (h : Inv s) (op : Op) (ha : ∀ i j, op ≠ .assign i j) : ∃ t, step s op = some t ∧ Inv t := by
  cases op with
  | create => exact ⟨_, rfl, inv_add h⟩
  | copy i =>
    simp only [step]
    split
    · rename_i o ho
      split
      · exact ⟨_, rfl, inv_add h⟩
      · rename_i hc
        have hown : o.own = false := by
          by_contra hh
          simp only [Bool.not_eq_false] at hh
          obtain ⟨k, hk⟩ := h.own o (List.mem_of_getElem? ho) hh
          exact hc ⟨hh, by simp [hk]⟩
        refine ⟨_, rfl, ⟨?_, h.nodup, h.lt, ?_⟩⟩
        · have hoo : owned (some o) = none := by
            cases o with
            | mk lp own => simp only at hown; subst hown; cases lp with
              | none => rfl
              | some r => cases r <;> rfl
          simpa [List.filterMap_append, hoo] using h.perm
        · intro p hp hpo
          simp only [List.mem_append, List.mem_singleton, Option.some.injEq] at hp
          rcases hp with hp | rfl
          · exact h.own p hp hpo
          · rw [hown] at hpo; exact absurd hpo (by simp)
    · exact ⟨s, rfl, h⟩
  | setLp i e =>
    simp only [step]
    split
    · rename_i o ho
      obtain ⟨l, hl, hi⟩ := inv_set h i o ho (some ⟨some (.ext e), false⟩) rfl (by rintro p ⟨⟩; rfl)
      exact ⟨_, by rw [hl]; rfl, hi⟩
    · exact ⟨s, rfl, h⟩
  | destroy i =>
    simp only [step]
    split
    · rename_i o ho
      obtain ⟨l, hl, hi⟩ := inv_set h i o ho none rfl (by simp)
      exact ⟨_, by rw [hl]; rfl, hi⟩
    · exact ⟨s, rfl, h⟩
  | assign i j => exact absurd rfl (ha i j)

/-- **Ownership.**  In any sequence of constructions, copies, calls of `setLpSolver` and destructions no LP is freed twice and none of the caller is freed; and
when all objects are destroyed no LP is left. -/
theorem lp_owned_partial (ops : List Op) (ha : ∀ i j, Op.assign i j ∉ ops) :
    ∃ s, run ⟨0, [], []⟩ ops = some s ∧ s.live.Nodup ∧ ((∀ o ∈ s.objs, o = none) → s.live = []) := by
  have key : ∀ (ops : List Op) (s : St), Inv s → (∀ i j, Op.assign i j ∉ ops) → ∃ t, run s ops = some t ∧ Inv t := by
    intro ops
    induction ops with
    | nil => exact fun s h _ => ⟨s, rfl, h⟩
    | cons op ops ih =>
      intro s h ha
      obtain ⟨t, ht, hi⟩ := inv_step h op (fun i j e => ha i j (by simp [e]))
      obtain ⟨u, hu, hj⟩ := ih t hi (fun i j hm => ha i j (by simp [hm]))
      exact ⟨u, by simp [run, ht, hu], hj⟩
  obtain ⟨s, hs, hi⟩ := key ops ⟨0, [], []⟩ ⟨by simp, by simp, by simp, by simp⟩ ha
  refine ⟨s, hs, hi.nodup, fun hn => ?_⟩
  have : s.objs.filterMap owned = [] := by
    rw [List.filterMap_eq_nil_iff]
    intro o ho
    rw [hn o ho]; rfl
  have hp := hi.perm
  rw [this] at hp
  exact hp.nil_eq.symm

example : run ⟨0, [], []⟩ [.create, .copy 0, .setLp 0 5, .copy 0, .destroy 0, .destroy 1, .destroy 2] = some ⟨2, [], [none, none, none]⟩ := by decide +kernel

/-! ## Where the code differs from what is claimed -/

/-- An unbounded problem: a solution is reported, with the values of the solve before, or with memory never written. -/
theorem unbounded_stale (old : List Cell) (b : ℚ) (k : ℕ) (t : ℚ) (n : ℕ) :
    (optimize n (some old) ⟨.unbounded, none, b, k, t⟩).sol = some old ∧ (optimize n none ⟨.unbounded, none, b, k, t⟩).sol = some (List.replicate n none) := by
  constructor <;> rfl

/-- A problem that may be unbounded (`CPXMIP_INForUNBD`) is reported as solved, without a solution, that is as infeasible. -/
theorem inf_or_unbd_infeasible (n : ℕ) (old : Option (List Cell)) (b : ℚ) (k : ℕ) (t : ℚ) :
    (optimize n old ⟨.infOrUnbd, none, b, k, t⟩).sol = none ∧ (optimize n old ⟨.infOrUnbd, none, b, k, t⟩).opt = true := by
  constructor <;> rfl

/-- The number of nodes reported by `find_good_sol` with a solution is twice the number CPLEX needed. -/
theorem nodes_doubled (n : ℕ) (old : Option (List Cell)) (x : List ℚ) (b maxTime t : ℚ) (k : ℕ) :
    (findGood n old maxTime ⟨.optimal, some x, b, k, t⟩ []).map (·.nodes) = some (2 * k) := by
  simp only [findGood, loop]
  rw [if_neg (by simp [goOn, optimalFlag])]
  simp [infeasibleFlag, two_mul]

/-- After a solve that stopped with a solution for lack of memory, having found none at first, CPLEX is called again although there is a solution. -/
theorem called_again (maxTime t : ℚ) (ht : t ≤ maxTime) (x : List ℚ) (b : ℚ) (k : ℕ) :
    loop true maxTime ⟨.memLimFeas, some x, b, k, t⟩ t [] = none := by
  simp [loop, goOn, optimalFlag, ht]

/-- An equality cut loses its lower side, also in the problem left behind: points cut off become feasible. -/
theorem equality_lost : ∃ (r : Row) (x : List ℚ), r.lb = r.ub ∧ ¬ SatAll 1000 [r] x ∧ SatAll 1000 (after 1000 [r] [r]) x := by
  refine ⟨⟨[1], 2, 2⟩, [0], rfl, ?_, ?_⟩
  · intro h
    have := (h ⟨[1], 2, 2⟩ (by simp)).1
    norm_num [act] at this
  · intro r hr
    have e : after 1000 [⟨[1], 2, 2⟩] [⟨[1], 2, 2⟩] = [⟨[1], -1000, 2⟩] := by decide +kernel
    have : r = ⟨[1], -1000, 2⟩ := by simpa [e] using hr
    subst this
    norm_num [Sat, act]

/-- If the cuts are not the last rows of the problem other rows are deleted. -/
theorem other_rows_deleted : ∃ (rows cuts : List Row) (x : List ℚ), (∀ r ∈ cuts, r ∈ rows ∧ OneSided 1000 r) ∧ ¬ SatAll 1000 rows x ∧ SatAll 1000 (after 1000 rows cuts) x := by
  refine ⟨[⟨[1], -1000, 4⟩, ⟨[1], 1, 1000⟩], [⟨[1], -1000, 4⟩], [0], ?_, ?_, ?_⟩
  · intro r hr
    have : r = ⟨[1], -1000, 4⟩ := by simpa using hr
    subst this
    norm_num [OneSided]
  · intro h
    have := (h ⟨[1], 1, 1000⟩ (by simp)).1
    norm_num [act] at this
  · intro r hr
    have e : after 1000 [⟨[1], -1000, 4⟩, ⟨[1], 1, 1000⟩] [⟨[1], -1000, 4⟩] = [⟨[1], -1000, 4⟩, ⟨[1], -1000, 4⟩] := by decide +kernel
    have : r = ⟨[1], -1000, 4⟩ := by simpa [e] using hr
    subst this
    norm_num [Sat, act]

/-- The assignment the compiler generates: the LP of one object is never freed and that of the other freed twice. -/
theorem assigned_freed_twice : run ⟨0, [], []⟩ [.create, .create, .assign 0 1, .destroy 0, .destroy 1] = none := by decide +kernel

/-- C100: an LP can be freed exactly if it was made here and not yet freed; then it is no longer live. -/
theorem free_exact (live l : List ℕ) (r : Option Ref) : free live r = some l ↔ (r = none ∧ l = live) ∨ ∃ k, r = some (.heap k) ∧ k ∈ live ∧ l = live.erase k := by
  match r with
  | none => simp [free, eq_comm]
  | some (.heap k) => by_cases h : k ∈ live <;> simp [free, h, eq_comm]
  | some (.ext e) => simp [free]

example : act [1, 2] [3, 4] = 11 := by norm_num [act]
example : Sat 100 ⟨[1, 2], 11, 11⟩ [3, 4] ∧ ¬ Sat 100 ⟨[1, 2], 12, 100⟩ [3, 4] := by norm_num [Sat, act]

end Verif.Dec.SubMipCpx

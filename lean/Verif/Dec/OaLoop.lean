import Mathlib.Algebra.Order.Field.Rat
import Mathlib.Algebra.Order.Field.Basic
import Mathlib.Algebra.Order.Ring.Abs
import Mathlib.Data.List.Nodup
import Mathlib.Data.List.Perm.Subperm
import Mathlib.Tactic.Linarith
import Mathlib.Tactic.NormNum
import Mathlib.Tactic.Ring

/-!
# C32: the outer approximation loop
`src/Algorithms/OaGenerators/BonOACutGenerator2.cpp`: `performOa` (61-284); `BonOaDecBase.cpp`: `post_nlp_solve` (357-400).

The MILP solver, the NLP solver, the LP solver, the cut generation and the clock are oracles: arbitrary functions of the cuts, the cutoff and the number of
the pass.  `P` is the type of points, `κ` that of cuts.  Messages and statistics are left out; the second computation of the gap (216-223) is left out, because it repeats the
first one with the same numbers.  A failed assert is `none`.
-/
namespace Verif.Dec

/-- Answer of `subMip_->solve`: `lowBound()` and `getLastSolution()`. -/
structure MilpAns (P : Type) where
  low : ℚ
  sol : Option P

/-- Answer of the NLP solver: `isProvenOptimal()`, `getObjValue()`, `getColSolution()`. -/
structure NlpAns (P : Type) where
  optimal : Bool
  obj : ℚ
  pt : P

/-- Answer of the LP solver after installing the cuts: `isProvenOptimal()`, `isDualObjectiveLimitReached()`, `getObjValue()`, `getColSolution()`. -/
structure LpAns (P : Type) where
  optimal : Bool
  limit : Bool
  obj : ℚ
  pt : P

/-- The oracles; the last argument is the number of the pass. -/
structure Oracles (P κ : Type) where
  milp : List κ → ℚ → Nat → MilpAns P
  nlp : P → Nat → NlpAns P
  cuts : P → P → Nat → List κ
  lp : List κ → ℚ → Nat → LpAns P
  integral : P → Bool
  differ : P → P → Bool
  differ01 : P → P → Bool
  late : Nat → Bool

/-- Parameters: `cbcCutoffIncrement_`, `gap_tol_`, `maxLocalSearch_`, `maxSols_`. -/
structure OaCfg where
  eps : ℚ
  gapTol : ℚ
  maxLocal : Nat
  maxSols : Nat
deriving DecidableEq

/-- Variables of the loop. -/
structure OaSt (P κ : Type) where
  cuts : List κ
  cutoff : ℚ
  ub : ℚ
  bound : ℚ
  isInt : Bool
  feasible : Bool
  sol : Option P
  nLocal : Nat
  nSols : Nat
  pass : Nat
  found : List P

/-- A new cutoff from an upper bound (149). -/
def newCutoff (eps ub : ℚ) : ℚ := if 0 < ub then ub * (1 - eps) else ub * (1 + eps)

/-- The relative gap (203-206). -/
def gapOf (ub bound : ℚ) : ℚ := if ub ≠ 0 then (ub - bound) / |ub| else -bound / (1 / 10 ^ 10)

/-- Before the loop (89-120): first MILP; `dmax` is `COIN_DBL_MAX`. -/
def oaInit {P κ : Type} (o : Oracles P κ) (dmax : ℚ) (cuts : List κ) (cutoff : ℚ) (nLocal nSols : Nat) : OaSt P κ :=
  let a := o.milp cuts cutoff 0
  let b := max (-dmax) a.low
  ⟨cuts, cutoff, cutoff, b, a.sol.isSome, decide (b < cutoff), a.sol, nLocal + 1, nSols, 0, []⟩

/-- The NLP and the update of the cutoff (142-154, `post_nlp_solve`). -/
def afterNlp {P κ : Type} (c : OaCfg) (s : OaSt P κ) (a : NlpAns P) : Option (OaSt P κ) :=
  if a.optimal = true ∧ a.obj < s.cutoff then
    let ub := min a.obj s.ub
    if newCutoff c.eps ub < ub then
      some { s with ub := ub, cutoff := newCutoff c.eps ub, nSols := s.nSols + 1, found := s.found ++ [a.pt] }
    else none
  else some s

/-- Cuts and LP (159-194). -/
def afterLp {P κ : Type} (o : Oracles P κ) (s : OaSt P κ) (x p : P) : Option (OaSt P κ) :=
  let new := o.cuts p x s.pass
  if new = [] then none
  else
    let cuts := s.cuts ++ new
    let l := o.lp cuts s.cutoff s.pass
    let feas := l.optimal && !l.limit && decide (l.obj < s.cutoff)
    if !feas || o.differ p l.pt then some { s with cuts := cuts, feasible := feas, isInt := o.integral l.pt }
    else some { s with cuts := cuts, feasible := feas, isInt := false, bound := 10 ^ 200 }

/-- The gap test (203-210). -/
def afterGap {P κ : Type} (c : OaCfg) (s : OaSt P κ) : OaSt P κ :=
  if gapOf s.ub s.bound < c.gapTol then { s with bound := 10 ^ 50, feasible := false } else s

/-- The comparison of the new MILP solution with the solution of the NLP (245-255). -/
def sameInts {P κ : Type} (o : Oracles P κ) (p : P) : Option P → Bool
  | none => false
  | some x => !o.differ01 p x

/-- A new local search (212-266); `p` is the solution of the NLP. -/
def localSearch {P κ : Type} (o : Oracles P κ) (c : OaCfg) (s : OaSt P κ) (p : P) : OaSt P κ :=
  if s.feasible = true ∧ s.nLocal < c.maxLocal ∧ s.nSols < c.maxSols then
    let a := o.milp s.cuts s.cutoff (s.pass + 1)
    let b := max s.bound a.low
    if b < s.cutoff ∧ sameInts o p a.sol = true then { s with nLocal := s.nLocal + 1, sol := a.sol, isInt := true, bound := 10 ^ 50, feasible := false }
    else if b < s.cutoff then { s with nLocal := s.nLocal + 1, sol := a.sol, isInt := a.sol.isSome, bound := b, feasible := true }
    else { s with nLocal := s.nLocal + 1, sol := a.sol, isInt := a.sol.isSome, bound := 10 ^ 50, feasible := false }
  else s

/-- One pass (122-267).  Result: the loop goes on or was left by the time limit.  Without a last solution of the MILP (a null pointer) the pass is undefined behaviour. -/
def oaPass {P κ : Type} (o : Oracles P κ) (c : OaCfg) (s : OaSt P κ) : Option (Bool × OaSt P κ) :=
  match s.sol with
  | none => none
  | some x =>
    let a := o.nlp x s.pass
    (afterNlp c s a).bind fun s => (afterLp o s x a.pt).map fun s =>
      if o.late s.pass then (false, { s with pass := s.pass + 1 })
      else
        let s := localSearch o c (afterGap c s) a.pt
        (true, { s with pass := s.pass + 1 })

/-- `n` evaluations of the loop condition (121): `inl` still running, `inr` left. -/
def oaIter {P κ : Type} (o : Oracles P κ) (c : OaCfg) : Nat → OaSt P κ → Option (OaSt P κ ⊕ OaSt P κ)
  | 0, s => some (.inl s)
  | n + 1, s =>
    if s.isInt && s.feasible then
      (oaPass o c s).bind fun r => if r.1 then oaIter o c n r.2 else some (.inr r.2)
    else some (.inr s)

/-- `performOa`, seen after at most `n` passes. -/
def performOa {P κ : Type} (o : Oracles P κ) (c : OaCfg) (dmax : ℚ) (n : Nat) (cuts : List κ) (cutoff : ℚ) (nLocal nSols : Nat) :
    Option (OaSt P κ ⊕ OaSt P κ) := oaIter o c n (oaInit o dmax cuts cutoff nLocal nSols)

/-! ## Specification -/

/-- The problem of the node: feasible points, objective, which points satisfy which cuts. -/
structure Problem (P κ : Type) where
  feas : P → Prop
  f : P → ℚ
  sat : κ → P → Prop

/-- The contract of the solvers used for soundness.  `valid`: generated cuts keep all feasible points.  `bound`: the MILP bound holds for all feasible points below
the cutoff that satisfy the cuts.  `nlp`: an NLP reported optimal gives a feasible point and its value.  `newLp`, `newMilp`: after cutting at the solution of the NLP, neither the LP nor
the MILP proposes the same integers again with a value below the cutoff `v` (for an NLP solved to optimality, `v` is at most its value). -/
structure Contract {P κ : Type} (o : Oracles P κ) (p : Problem P κ) : Prop where
  valid : ∀ x k, ∀ c ∈ o.cuts (o.nlp x k).pt x k, ∀ z, p.feas z → p.sat c z
  bound : ∀ cs v k z, (∀ c ∈ cs, p.sat c z) → p.feas z → p.f z < v → (o.milp cs v k).low ≤ p.f z
  nlp : ∀ x k, (o.nlp x k).optimal = true → p.feas (o.nlp x k).pt ∧ p.f (o.nlp x k).pt = (o.nlp x k).obj
  newLp : ∀ cs v k x, ((o.nlp x k).optimal = true → v ≤ (o.nlp x k).obj) → (∀ c ∈ o.cuts (o.nlp x k).pt x k, c ∈ cs) → (o.lp cs v k).optimal = true → (o.lp cs v k).limit = false →
    (o.lp cs v k).obj < v → o.differ (o.nlp x k).pt (o.lp cs v k).pt = true
  newMilp : ∀ cs v k x z, ((o.nlp x k).optimal = true → v ≤ (o.nlp x k).obj) → (∀ c ∈ o.cuts (o.nlp x k).pt x k, c ∈ cs) → (o.milp cs v (k + 1)).sol = some z → (o.milp cs v (k + 1)).low < v →
    o.differ01 (o.nlp x k).pt z = true

/-- The gap allowed below an upper bound. -/
def slack (gapTol ub : ℚ) : ℚ := if ub ≠ 0 then gapTol * |ub| else gapTol * (1 / 10 ^ 10)

/-- What the pair (cutoff, bound) promises: every feasible point better than the cutoff has value at least the bound, or lies within the gap of the upper bound. -/
def Sound {P κ : Type} (c : OaCfg) (p : Problem P κ) (s : OaSt P κ) : Prop :=
  ∀ z, p.feas z → p.f z < s.cutoff → s.bound ≤ p.f z ∨ s.ub - slack c.gapTol s.ub < p.f z

/-- Invariant of the loop. -/
structure Inv {P κ : Type} (c : OaCfg) (p : Problem P κ) (cutoff0 : ℚ) (s : OaSt P κ) : Prop where
  cutsOk : ∀ k ∈ s.cuts, ∀ z, p.feas z → p.sat k z
  sound : Sound c p s
  strict : s.feasible = true → ∀ z, p.feas z → p.f z < s.cutoff → s.bound ≤ p.f z
  ubOk : (s.found = [] ∧ s.ub = cutoff0 ∧ s.cutoff = cutoff0) ∨ (s.cutoff = newCutoff c.eps s.ub ∧ s.cutoff < s.ub ∧ s.ub ≤ cutoff0 ∧
    ∃ x ∈ s.found, p.f x = s.ub)
  foundOk : ∀ x ∈ s.found, p.feas x ∧ s.ub ≤ p.f x

/-! ## Properties -/

theorem cutoff_le_ub {P κ : Type} {c : OaCfg} {p : Problem P κ} {k0 : ℚ} {s : OaSt P κ} (h : Inv c p k0 s) : s.cutoff ≤ s.ub := by
  rcases h.ubOk with ⟨_, h1, h2⟩ | ⟨_, h2, _⟩
  · rw [h1, h2]
  · exact le_of_lt h2

theorem gap_slack (ub bound tol : ℚ) (h : gapOf ub bound < tol) : ub - slack tol ub < bound := by
  unfold gapOf at h
  unfold slack
  by_cases h0 : ub = 0
  · rw [if_neg (by simpa using h0)] at h ⊢
    rw [h0]
    have : (0 : ℚ) < 1 / 10 ^ 10 := by norm_num
    rw [div_lt_iff₀ this] at h
    linarith
  · rw [if_pos h0] at h ⊢
    have := abs_pos.mpr h0
    rw [div_lt_iff₀ this] at h
    linarith

theorem inv_nlp {P κ : Type} {o : Oracles P κ} {c : OaCfg} {p : Problem P κ} {k0 : ℚ} {s s' : OaSt P κ} (hc : Contract o p) (hf : s.feasible = true) (x : P)
    (h : Inv c p k0 s) (he : afterNlp c s (o.nlp x s.pass) = some s') : Inv c p k0 s' ∧ s'.feasible = true ∧ s'.cuts = s.cuts ∧ s'.pass = s.pass ∧ s'.sol = s.sol ∧
      s'.nLocal = s.nLocal ∧ ((o.nlp x s.pass).optimal = true → s'.cutoff ≤ (o.nlp x s.pass).obj) := by
  unfold afterNlp at he
  split at he
  · rename_i hopt
    dsimp only at he
    split at he
    · rename_i hlt
      have he' := Option.some.inj he
      obtain ⟨hp1, hp2⟩ := hc.nlp x s.pass hopt.1
      have hle := cutoff_le_ub h
      have hmin : min (o.nlp x s.pass).obj s.ub = (o.nlp x s.pass).obj := min_eq_left (le_of_lt (lt_of_lt_of_le hopt.2 hle))
      rw [hmin] at he' hlt
      subst he'
      have hst : ∀ z, p.feas z → p.f z < newCutoff c.eps (o.nlp x s.pass).obj → s.bound ≤ p.f z := by
        intro z hz hz2
        exact h.strict hf z hz (lt_trans hz2 (lt_trans hlt hopt.2))
      refine ⟨⟨h.cutsOk, fun z hz hz2 => Or.inl (hst z hz hz2), fun _ => hst, Or.inr ⟨rfl, hlt, ?_, ?_⟩, ?_⟩, hf, rfl, rfl, rfl, rfl, fun _ => le_of_lt hlt⟩
      · rcases h.ubOk with ⟨_, h1, h2⟩ | ⟨_, h2, h3, _⟩
        · have := hopt.2; rw [h2] at this; exact le_of_lt this
        · exact le_of_lt (lt_of_lt_of_le (lt_trans hopt.2 h2) h3)
      · exact ⟨(o.nlp x s.pass).pt, by simp, hp2⟩
      · intro y hy
        rcases List.mem_append.mp hy with hy | hy
        · obtain ⟨g1, g2⟩ := h.foundOk y hy
          exact ⟨g1, le_trans (le_of_lt (lt_of_lt_of_le hopt.2 hle)) g2⟩
        · rw [List.mem_singleton.mp hy]
          exact ⟨hp1, by rw [hp2]⟩
    · simp at he
  · rename_i hn
    have he' := Option.some.inj he
    subst he'
    exact ⟨h, hf, rfl, rfl, rfl, rfl, fun ho => not_lt.mp fun hlt => hn ⟨ho, hlt⟩⟩

theorem inv_lp {P κ : Type} {o : Oracles P κ} {c : OaCfg} {p : Problem P κ} {k0 : ℚ} {s s' : OaSt P κ} (hc : Contract o p) (hf : s.feasible = true) (x : P)
    (hv : (o.nlp x s.pass).optimal = true → s.cutoff ≤ (o.nlp x s.pass).obj) (h : Inv c p k0 s) (he : afterLp o s x (o.nlp x s.pass).pt = some s') :
    Inv c p k0 s' ∧ s'.cuts = s.cuts ++ o.cuts (o.nlp x s.pass).pt x s.pass ∧ s'.pass = s.pass ∧ s'.sol = s.sol ∧ s'.nLocal = s.nLocal ∧ s'.nSols = s.nSols ∧ s'.cutoff = s.cutoff := by
  unfold afterLp at he
  dsimp only at he
  split at he
  · simp at he
  · have hcut : ∀ k ∈ s.cuts ++ o.cuts (o.nlp x s.pass).pt x s.pass, ∀ z, p.feas z → p.sat k z := by
      intro k hk z hz
      rcases List.mem_append.mp hk with hk | hk
      · exact h.cutsOk k hk z hz
      · exact hc.valid _ _ k hk z hz
    split at he
    · have he' := Option.some.inj he
      subst he'
      exact ⟨⟨hcut, fun z hz hz2 => Or.inl (h.strict hf z hz hz2), fun _ => h.strict hf, h.ubOk, h.foundOk⟩, rfl, rfl, rfl, rfl, rfl, rfl⟩
    · rename_i hb
      exfalso
      simp only [Bool.or_eq_true, Bool.not_eq_true', not_or, Bool.not_eq_true, Bool.not_eq_false, Bool.and_eq_true, decide_eq_true_eq] at hb
      obtain ⟨⟨⟨h1, h2⟩, h3⟩, h4⟩ := hb
      have := hc.newLp (s.cuts ++ o.cuts (o.nlp x s.pass).pt x s.pass) s.cutoff s.pass x hv (fun k hk => List.mem_append_right _ hk) h1 h2 h3
      rw [h4] at this
      simp at this

theorem inv_gap {P κ : Type} {c : OaCfg} {p : Problem P κ} {k0 : ℚ} {s : OaSt P κ} (h : Inv c p k0 s) :
    Inv c p k0 (afterGap c s) := by
  unfold afterGap
  split
  · rename_i hg
    have hs := gap_slack _ _ _ hg
    refine ⟨h.cutsOk, ?_, by simp, h.ubOk, h.foundOk⟩
    intro z hz hz2
    right
    rcases h.sound z hz hz2 with h1 | h1
    · exact lt_of_lt_of_le hs h1
    · exact h1
  · exact h

theorem inv_local {P κ : Type} {o : Oracles P κ} {c : OaCfg} {p : Problem P κ} {k0 : ℚ} {s : OaSt P κ} (hc : Contract o p) (x : P)
    (hv : (o.nlp x s.pass).optimal = true → s.cutoff ≤ (o.nlp x s.pass).obj) (hcut : ∀ k ∈ o.cuts (o.nlp x s.pass).pt x s.pass, k ∈ s.cuts) (h : Inv c p k0 s) :
    Inv c p k0 (localSearch o c s (o.nlp x s.pass).pt) := by
  unfold localSearch
  dsimp only
  split
  · rename_i hcond
    have hb : ∀ z, p.feas z → p.f z < s.cutoff → max s.bound (o.milp s.cuts s.cutoff (s.pass + 1)).low ≤ p.f z := by
      intro z hz hz2
      exact max_le (h.strict hcond.1 z hz hz2) (hc.bound _ _ _ z (fun k hk => h.cutsOk k hk z hz) hz hz2)
    split
    · rename_i hsame
      exfalso
      cases hsol : (o.milp s.cuts s.cutoff (s.pass + 1)).sol with
      | none => rw [hsol] at hsame; simp [sameInts] at hsame
      | some z =>
        have hlow := lt_of_le_of_lt (le_max_right s.bound (o.milp s.cuts s.cutoff (s.pass + 1)).low) hsame.1
        have := hc.newMilp s.cuts s.cutoff s.pass x z hv hcut hsol hlow
        rw [hsol] at hsame
        simp [sameInts, this] at hsame
    · split
      · exact ⟨h.cutsOk, fun z hz hz2 => Or.inl (hb z hz hz2), fun _ => hb, h.ubOk, h.foundOk⟩
      · rename_i hnot
        refine ⟨h.cutsOk, ?_, by simp, h.ubOk, h.foundOk⟩
        intro z hz hz2
        exact absurd (lt_of_le_of_lt (hb z hz hz2) hz2) hnot
  · exact h

theorem inv_pass {P κ : Type} {o : Oracles P κ} {c : OaCfg} {p : Problem P κ} {k0 : ℚ} {s : OaSt P κ} {r : Bool × OaSt P κ} (hc : Contract o p)
    (hf : s.feasible = true) (h : Inv c p k0 s) (he : oaPass o c s = some r) : Inv c p k0 r.2 := by
  unfold oaPass at he
  split at he
  · simp at he
  · rename_i x hx
    dsimp only at he
    rw [Option.bind_eq_some_iff] at he
    obtain ⟨s1, h1, he⟩ := he
    rw [Option.map_eq_some_iff] at he
    obtain ⟨s2, h2, he⟩ := he
    obtain ⟨i1, f1, c1, p1, _, _, v1⟩ := inv_nlp hc hf x h h1
    rw [← p1] at h2 v1
    obtain ⟨i2, c2, p2, _, _, _, v2⟩ := inv_lp hc f1 x v1 i1 h2
    have upd : ∀ t : OaSt P κ, Inv c p k0 t → Inv c p k0 { t with pass := t.pass + 1 } := fun t ht => ⟨ht.1, ht.2, ht.3, ht.4, ht.5⟩
    split at he
    · rw [← he]; exact upd _ i2
    · rw [← he]
      apply upd
      have i3 := inv_gap i2
      have hpass : (afterGap c s2).pass = s.pass := by
        have : (afterGap c s2).pass = s2.pass := by unfold afterGap; split <;> rfl
        rw [this, p2, p1]
      have hcuts : (afterGap c s2).cuts = s2.cuts := by unfold afterGap; split <;> rfl
      have hcutoff : (afterGap c s2).cutoff = s1.cutoff := by
        have : (afterGap c s2).cutoff = s2.cutoff := by unfold afterGap; split <;> rfl
        rw [this, v2]
      have := inv_local (o := o) hc x (s := afterGap c s2) (by rw [hpass, hcutoff, ← p1]; exact v1) (by
        intro k hk
        rw [hpass] at hk
        rw [hcuts, c2, p1]
        exact List.mem_append_right _ hk) i3
      rw [hpass] at this
      exact this

theorem inv_iter {P κ : Type} {o : Oracles P κ} {c : OaCfg} {p : Problem P κ} {k0 : ℚ} (hc : Contract o p) (n : Nat) : ∀ {s : OaSt P κ} {r : OaSt P κ ⊕ OaSt P κ},
    Inv c p k0 s → oaIter o c n s = some r → Inv c p k0 (r.elim id id) := by
  induction n with
  | zero => intro s r h he; rw [← Option.some.inj he]; exact h
  | succ n ih =>
    intro s r h he
    unfold oaIter at he
    split at he
    · rename_i hw
      have hf : s.feasible = true := by simp at hw; exact hw.2
      rw [Option.bind_eq_some_iff] at he
      obtain ⟨q, hq, he⟩ := he
      have hi := inv_pass hc hf h hq
      split at he
      · exact ih hi he
      · rw [← Option.some.inj he]; exact hi
    · rw [← Option.some.inj he]; exact h

theorem inv_init {P κ : Type} {o : Oracles P κ} {c : OaCfg} {p : Problem P κ} (hc : Contract o p) (dmax : ℚ) (cuts : List κ) (cutoff : ℚ) (nLocal nSols : Nat)
    (hcuts : ∀ k ∈ cuts, ∀ z, p.feas z → p.sat k z) (hd : ∀ z, p.feas z → -dmax ≤ p.f z) : Inv c p cutoff (oaInit o dmax cuts cutoff nLocal nSols) := by
  have hb : ∀ z, p.feas z → p.f z < cutoff → max (-dmax) (o.milp cuts cutoff 0).low ≤ p.f z := by
    intro z hz hz2
    exact max_le (hd z hz) (hc.bound _ _ _ z (fun k hk => hcuts k hk z hz) hz hz2)
  exact ⟨hcuts, fun z hz hz2 => Or.inl (hb z hz hz2), fun _ => hb, Or.inl ⟨rfl, rfl, rfl⟩, by simp [oaInit]⟩

/-- **C32** (soundness).  Under the contract of the solvers, whenever the loop is left (for whatever reason, including the time limit), or is looked at in the middle:
the points found are feasible; the upper bound is the value of one of them or the initial cutoff, and none of them is better; and every feasible point
better than the cutoff has value at least the returned bound or lies within the allowed gap of the upper bound. -/
theorem oa_sound {P κ : Type} (o : Oracles P κ) (c : OaCfg) (p : Problem P κ) (hc : Contract o p) (dmax : ℚ) (n : Nat) (cuts : List κ) (cutoff : ℚ) (nLocal nSols : Nat)
    (hcuts : ∀ k ∈ cuts, ∀ z, p.feas z → p.sat k z) (hd : ∀ z, p.feas z → -dmax ≤ p.f z) (r : OaSt P κ ⊕ OaSt P κ) (t : OaSt P κ)
    (h : performOa o c dmax n cuts cutoff nLocal nSols = some r) (ht : t = r.elim id id) :
    (∀ z, p.feas z → p.f z < t.cutoff → t.bound ≤ p.f z ∨ t.ub - slack c.gapTol t.ub < p.f z) ∧
    (∀ x ∈ t.found, p.feas x ∧ t.ub ≤ p.f x) ∧
    ((t.found = [] ∧ t.ub = cutoff ∧ t.cutoff = cutoff) ∨ (t.cutoff = newCutoff c.eps t.ub ∧ t.cutoff < t.ub ∧ t.ub ≤ cutoff ∧ ∃ x ∈ t.found, p.f x = t.ub)) := by
  have := inv_iter hc n (inv_init (c := c) hc dmax cuts cutoff nLocal nSols hcuts hd) h
  rw [← ht] at this
  exact ⟨this.sound, this.foundOk, this.ubOk⟩

/-- **C32** (the answer).  If the returned bound is at least the cutoff (the node is then fathomed), every feasible point has value at least the cutoff or within the allowed
gap of the upper bound; in particular, if no point was found, no feasible point is better than the initial cutoff by more than the gap. -/
theorem oa_fathom {P κ : Type} (o : Oracles P κ) (c : OaCfg) (p : Problem P κ) (hc : Contract o p) (dmax : ℚ) (n : Nat) (cuts : List κ) (cutoff : ℚ) (nLocal nSols : Nat)
    (hcuts : ∀ k ∈ cuts, ∀ z, p.feas z → p.sat k z) (hd : ∀ z, p.feas z → -dmax ≤ p.f z) (r : OaSt P κ ⊕ OaSt P κ) (t : OaSt P κ)
    (h : performOa o c dmax n cuts cutoff nLocal nSols = some r) (ht : t = r.elim id id) (hb : t.cutoff ≤ t.bound) (z : P) (hz : p.feas z) :
    t.cutoff ≤ p.f z ∨ t.ub - slack c.gapTol t.ub < p.f z := by
  by_cases hlt : p.f z < t.cutoff
  · rcases (oa_sound o c p hc dmax n cuts cutoff nLocal nSols hcuts hd r t h ht).1 z hz hlt with h1 | h1
    · exact absurd (lt_of_lt_of_le hlt hb) (not_lt.mpr h1)
    · exact Or.inr h1
  · exact Or.inl (not_lt.mp hlt)

/-! ### Exact effect of the parts of a pass -/

/-- **C32**: for a nonnegative increment the new cutoff lies the fraction `eps` of `|ub|` below the upper bound. -/
theorem newCutoff_eq (eps ub : ℚ) : newCutoff eps ub = ub - eps * |ub| := by
  unfold newCutoff
  split
  · rename_i h; rw [abs_of_pos h]; ring
  · rename_i h; rw [abs_of_nonpos (not_lt.mp h)]; ring

/-- **C32**: the NLP changes the state exactly when it is optimal with a value below the cutoff; the program stops exactly when the new cutoff is not below the new upper bound,
that is for an increment that is not positive or a value 0. -/
theorem afterNlp_iff {P κ : Type} (c : OaCfg) (s : OaSt P κ) (a : NlpAns P) (hs : s.cutoff ≤ s.ub) :
    (¬ (a.optimal = true ∧ a.obj < s.cutoff) → afterNlp c s a = some s) ∧
    (a.optimal = true → a.obj < s.cutoff → 0 < c.eps → a.obj ≠ 0 →
      afterNlp c s a = some { s with ub := a.obj, cutoff := a.obj - c.eps * |a.obj|, nSols := s.nSols + 1, found := s.found ++ [a.pt] }) ∧
    (a.optimal = true → a.obj < s.cutoff → (c.eps ≤ 0 ∨ a.obj = 0) → afterNlp c s a = none) := by
  refine ⟨fun h => by unfold afterNlp; rw [if_neg h], fun h1 h2 h3 h4 => ?_, fun h1 h2 h3 => ?_⟩
  all_goals
    have hmin : min a.obj s.ub = a.obj := min_eq_left (le_of_lt (lt_of_lt_of_le h2 hs))
    unfold afterNlp
    rw [if_pos ⟨h1, h2⟩]
    dsimp only
    rw [hmin, newCutoff_eq]
  · rw [if_pos]
    have := mul_pos h3 (abs_pos.mpr h4)
    linarith
  · rw [if_neg]
    rcases h3 with h3 | h3
    · have := mul_nonneg (neg_nonneg.mpr h3) (abs_nonneg a.obj)
      linarith
    · rw [h3]; simp

/-- **C32**: the step of cuts and LP.  The program stops exactly when no cut was generated. -/
theorem afterLp_iff {P κ : Type} (o : Oracles P κ) (s : OaSt P κ) (x p : P) :
    (afterLp o s x p = none ↔ o.cuts p x s.pass = []) ∧
    ∀ s', afterLp o s x p = some s' → ∃ l, l = o.lp (s.cuts ++ o.cuts p x s.pass) s.cutoff s.pass ∧
      (s'.feasible = true ↔ l.optimal = true ∧ l.limit = false ∧ l.obj < s.cutoff) ∧
      (s'.isInt = true ↔ o.integral l.pt = true ∧ ¬ (s'.feasible = true ∧ o.differ p l.pt = false)) ∧
      (s'.bound = if s'.feasible = true ∧ o.differ p l.pt = false then 10 ^ 200 else s.bound) ∧
      s'.cuts = s.cuts ++ o.cuts p x s.pass ∧ s'.cutoff = s.cutoff ∧ s'.ub = s.ub ∧ s'.sol = s.sol ∧ s'.nLocal = s.nLocal ∧ s'.nSols = s.nSols ∧ s'.found = s.found := by
  unfold afterLp
  dsimp only
  constructor
  · split
    · rename_i h; simp [h]
    · rename_i h
      split <;> simp [h]
  · intro s' he
    split at he
    · simp at he
    · refine ⟨_, rfl, ?_⟩
      generalize o.lp (s.cuts ++ o.cuts p x s.pass) s.cutoff s.pass = l at he
      split at he
      · rename_i hb
        rw [← Option.some.inj he]
        simp only [Bool.not_eq_true', Bool.and_eq_true, decide_eq_true_eq, and_assoc, and_true]
        have hno : ¬ ((l.optimal && !l.limit && decide (l.obj < s.cutoff)) = true ∧ o.differ p l.pt = false) := by
          rintro ⟨h1, h2⟩
          rw [h1, h2] at hb
          simp at hb
        simp only [Bool.and_eq_true, Bool.not_eq_true', decide_eq_true_eq, and_assoc] at hno
        rw [if_neg hno]
        simp [hno]
      · rename_i hb
        rw [← Option.some.inj he]
        simp only [Bool.or_eq_true, Bool.not_eq_true', not_or, Bool.not_eq_true, Bool.not_eq_false] at hb
        simp only [hb.1, hb.2, and_self, if_true, not_true, and_false, true_iff]
        simp only [Bool.and_eq_true, Bool.not_eq_true', decide_eq_true_eq, and_assoc] at hb
        simp [hb.1, hb.2.1, hb.2.2.1]

/-- **C32**: the gap test declares the search finished exactly when the bound is above the upper bound minus the allowed slack. -/
theorem afterGap_iff {P κ : Type} (c : OaCfg) (s : OaSt P κ) :
    (s.ub - slack c.gapTol s.ub < s.bound → afterGap c s = { s with bound := 10 ^ 50, feasible := false }) ∧
    (s.bound ≤ s.ub - slack c.gapTol s.ub → afterGap c s = s) := by
  have key : gapOf s.ub s.bound < c.gapTol ↔ s.ub - slack c.gapTol s.ub < s.bound := by
    refine ⟨gap_slack _ _ _, fun h => ?_⟩
    unfold slack at h
    unfold gapOf
    by_cases h0 : s.ub = 0
    · rw [if_neg (by simpa using h0)] at h ⊢
      have h1 : (0 : ℚ) < 1 / 10 ^ 10 := by norm_num
      rw [div_lt_iff₀ h1]
      linarith
    · rw [if_pos h0] at h ⊢
      rw [div_lt_iff₀ (abs_pos.mpr h0)]
      linarith
  unfold afterGap
  exact ⟨fun h => by rw [if_pos (key.mpr h)], fun h => by rw [if_neg (fun hh => absurd (key.mp hh) (not_lt.mpr h))]⟩

/-- **C32**: the local search.  It is performed exactly when the LP is feasible and no limit is reached; then the state goes on exactly when the new bound is below the cutoff and the new
MILP solution (if any) differs from that of the NLP, and otherwise the bound is 1e50. -/
theorem localSearch_iff {P κ : Type} (o : Oracles P κ) (c : OaCfg) (s : OaSt P κ) (p : P) (a : MilpAns P) (ha : a = o.milp s.cuts s.cutoff (s.pass + 1)) (r : OaSt P κ)
    (hr : r = localSearch o c s p) :
    (¬ (s.feasible = true ∧ s.nLocal < c.maxLocal ∧ s.nSols < c.maxSols) → r = s) ∧
    (s.feasible = true → s.nLocal < c.maxLocal → s.nSols < c.maxSols →
      (r.feasible = true ↔ s.bound < s.cutoff ∧ a.low < s.cutoff ∧ ∀ z, a.sol = some z → o.differ01 p z = true) ∧
      (r.feasible = true → r.bound = max s.bound a.low) ∧ (r.feasible = false → r.bound = 10 ^ 50) ∧
      (r.isInt = true ↔ ∃ z, a.sol = some z) ∧ r.sol = a.sol ∧ r.nLocal = s.nLocal + 1 ∧ r.nSols = s.nSols ∧ r.cuts = s.cuts ∧ r.cutoff = s.cutoff ∧ r.ub = s.ub ∧ r.pass = s.pass ∧ r.found = s.found) := by
  subst ha hr
  constructor
  · intro h
    unfold localSearch
    rw [if_neg h]
  · intro h1 h2 h3
    unfold localSearch
    rw [if_pos ⟨h1, h2, h3⟩]
    dsimp only
    generalize o.milp s.cuts s.cutoff (s.pass + 1) = a
    have hs : sameInts o p a.sol = true ↔ ∃ z, a.sol = some z ∧ o.differ01 p z = false := by
      unfold sameInts
      cases a.sol <;> simp
    split
    · rename_i hh
      obtain ⟨hb, hsm⟩ := hh
      obtain ⟨z, hz, hd⟩ := hs.mp hsm
      simp [hz, hd]
    · rename_i hn
      split
      · rename_i hb
        have hb' := max_lt_iff.mp hb
        have : ∀ z, a.sol = some z → o.differ01 p z = true := by
          intro z hz
          by_contra hd
          exact hn ⟨hb, hs.mpr ⟨z, hz, by simpa using hd⟩⟩
        simp only [hb'.1, hb'.2, true_and, true_iff]
        exact ⟨this, by simp, by simp, Option.isSome_iff_exists, by simp⟩
      · rename_i hb
        have hb' : ¬ (s.bound < s.cutoff ∧ a.low < s.cutoff) := fun hh => hb (max_lt hh.1 hh.2)
        refine ⟨⟨by simp, fun hh => absurd ⟨hh.1, hh.2.1⟩ hb'⟩, by simp, by simp, Option.isSome_iff_exists, by simp⟩

/-! ### Termination -/

/-- Contract for termination: `y` gives the integer assignment; there are finitely many (`Y`); once the cuts of an assignment are there, the MILP does not propose it again with a bound
below the cutoff. -/
structure Finite {P κ α : Type} (o : Oracles P κ) (y : P → α) (Y : List α) : Prop where
  inY : ∀ cs v k z, (o.milp cs v k).sol = some z → y z ∈ Y
  new : ∀ cs v k z, (o.milp cs v k).sol = some z → (o.milp cs v k).low < v → ∀ x j, ((o.nlp x j).optimal = true → v ≤ (o.nlp x j).obj) → (∀ c ∈ o.cuts (o.nlp x j).pt x j, c ∈ cs) → y z ≠ y x

theorem pass_continues {P κ : Type} {o : Oracles P κ} {c : OaCfg} {s s' : OaSt P κ} {r : Bool × OaSt P κ} {x : P} (hx : s.sol = some x)
    (hlim : s.nLocal < c.maxLocal) (hsols : ∀ t : OaSt P κ, t.nSols ≤ s.nSols + 1 → t.nSols < c.maxSols)
    (he : oaPass o c s = some r) (h1 : r.1 = true) (hs' : s' = r.2) (h2 : (s'.isInt && s'.feasible) = true) :
    s'.cuts = s.cuts ++ o.cuts (o.nlp x s.pass).pt x s.pass ∧ s'.pass = s.pass + 1 ∧ s'.nLocal = s.nLocal + 1 ∧ s'.nSols ≤ s.nSols + 1 ∧
    s'.cutoff ≤ s.cutoff ∧ ((o.nlp x s.pass).optimal = true → s'.cutoff ≤ (o.nlp x s.pass).obj) ∧
    ∃ z, s'.sol = some z ∧ (o.milp s'.cuts s'.cutoff (s.pass + 1)).sol = some z ∧ (o.milp s'.cuts s'.cutoff (s.pass + 1)).low < s'.cutoff := by
  unfold oaPass at he
  rw [hx] at he
  dsimp only at he
  rw [Option.bind_eq_some_iff] at he
  obtain ⟨s1, e1, he⟩ := he
  rw [Option.map_eq_some_iff] at he
  obtain ⟨s2, e2, he⟩ := he
  have g1 : s1.cuts = s.cuts ∧ s1.pass = s.pass ∧ s1.nLocal = s.nLocal ∧ s1.nSols ≤ s.nSols + 1 ∧ s1.cutoff ≤ s.cutoff ∧
      ((o.nlp x s.pass).optimal = true → s1.cutoff ≤ (o.nlp x s.pass).obj) := by
    unfold afterNlp at e1
    split at e1
    · rename_i hopt
      dsimp only at e1
      split at e1
      · rename_i hlt
        rw [← Option.some.inj e1]
        have hle := le_trans (le_of_lt hlt) (min_le_left (o.nlp x s.pass).obj s.ub)
        exact ⟨rfl, rfl, rfl, le_refl _, le_trans hle (le_of_lt hopt.2), fun _ => hle⟩
      · simp at e1
    · rename_i hn
      rw [← Option.some.inj e1]; exact ⟨rfl, rfl, rfl, Nat.le_succ _, le_refl _, fun ho => not_lt.mp fun hlt => hn ⟨ho, hlt⟩⟩
  have g2 : s2.cuts = s1.cuts ++ o.cuts (o.nlp x s.pass).pt x s1.pass ∧ s2.pass = s1.pass ∧ s2.nLocal = s1.nLocal ∧ s2.nSols = s1.nSols ∧ s2.cutoff = s1.cutoff := by
    unfold afterLp at e2
    dsimp only at e2
    split at e2
    · simp at e2
    · split at e2 <;> (rw [← Option.some.inj e2]; exact ⟨rfl, rfl, rfl, rfl, rfl⟩)
  split at he
  · rw [← he] at h1; simp at h1
  · rw [← he] at hs'
    subst hs'
    dsimp only at h2 ⊢
    have g3 : (afterGap c s2).cuts = s2.cuts ∧ (afterGap c s2).pass = s2.pass ∧ (afterGap c s2).nLocal = s2.nLocal ∧ (afterGap c s2).nSols = s2.nSols ∧ (afterGap c s2).cutoff = s2.cutoff := by
      unfold afterGap; split <;> exact ⟨rfl, rfl, rfl, rfl, rfl⟩
    generalize hs3 : afterGap c s2 = s3 at g3 h2 ⊢
    obtain ⟨a1, a2, a3, a4, a5, a6⟩ := g1
    obtain ⟨b1, b2, b3, b4, b5⟩ := g2
    obtain ⟨d1, d2, d3, d4, d5⟩ := g3
    have hv3 : s3.cutoff = s1.cutoff := by rw [d5, b5]
    have hc3 : s3.cuts = s.cuts ++ o.cuts (o.nlp x s.pass).pt x s.pass := by rw [d1, b1, a1, a2]
    have hp3 : s3.pass = s.pass := by rw [d2, b2, a2]
    have hl3 : s3.nLocal = s.nLocal := by rw [d3, b3, a3]
    have hn3 : s3.nSols ≤ s.nSols + 1 := by rw [d4, b4]; exact a4
    unfold localSearch at h2 ⊢
    dsimp only at h2 ⊢
    by_cases hcond : s3.feasible = true ∧ s3.nLocal < c.maxLocal ∧ s3.nSols < c.maxSols
    · rw [if_pos hcond] at h2 ⊢
      split at h2
      · simp at h2
      · rename_i hns
        split at h2
        · rename_i hbb
          rw [if_neg hns, if_pos hbb]
          dsimp only at h2 ⊢
          refine ⟨hc3, by rw [hp3], by rw [hl3], hn3, by rw [hv3]; exact a5, by rw [hv3]; exact a6, ?_⟩
          simp only [Bool.and_true, Option.isSome_iff_exists] at h2
          obtain ⟨z, hz⟩ := h2
          rw [hp3] at hz hbb
          refine ⟨z, by rw [hp3]; exact hz, hz, lt_of_le_of_lt (le_max_right _ _) hbb⟩
        · simp at h2
    · rw [if_neg hcond] at h2
      exfalso
      apply hcond
      simp at h2
      exact ⟨h2.2, by rw [hl3]; exact hlim, hsols s3 hn3⟩

/-- **C32** (termination).  If there are finitely many integer assignments and the MILP never proposes an assignment again once its cuts are there, the loop is left (or
stops at an assert) after at most as many passes as there are assignments, provided that neither the limit on local searches nor that on solutions is
reached on the way. -/
theorem oa_terminates {P κ α : Type} [DecidableEq α] (o : Oracles P κ) (c : OaCfg) (y : P → α) (Y : List α) (hF : Finite o y Y) (dmax : ℚ) (cuts : List κ) (cutoff : ℚ)
    (nLocal nSols : Nat) (h1 : nLocal + Y.length + 1 < c.maxLocal) (h2 : nSols + Y.length + 1 < c.maxSols) :
    ∀ s, performOa o c dmax (Y.length + 1) cuts cutoff nLocal nSols ≠ some (.inl s) := by
  -- invariant: assignments seen so far are distinct, their cuts are there, and the next one is new
  have key : ∀ (n : Nat) (s : OaSt P κ) (seen : List α), seen.Nodup → (∀ a ∈ seen, a ∈ Y) →
      (∀ a ∈ seen, ∃ x j, y x = a ∧ ((o.nlp x j).optimal = true → s.cutoff ≤ (o.nlp x j).obj) ∧ ∀ k ∈ o.cuts (o.nlp x j).pt x j, k ∈ s.cuts) →
      ((s.isInt && s.feasible) = true → ∃ z, s.sol = some z ∧ y z ∈ Y ∧ y z ∉ seen) →
      seen.length + n = Y.length + 1 → s.nLocal ≤ nLocal + 1 + seen.length → s.nSols ≤ nSols + seen.length →
      ∀ t, oaIter o c n s ≠ some (.inl t) := by
    intro n
    induction n with
    | zero =>
      intro s seen hnd hY _ _ hlen _ _ t
      have : seen.length ≤ Y.length := (List.subperm_of_subset hnd hY).length_le
      omega
    | succ n ih =>
      intro s seen hnd hY hcuts hnew hlen hl hs t ht
      have hle : seen.length ≤ Y.length := (List.subperm_of_subset hnd hY).length_le
      unfold oaIter at ht
      split at ht
      · rename_i hw
        obtain ⟨x, hx, hxY, hxn⟩ := hnew hw
        rw [Option.bind_eq_some_iff] at ht
        obtain ⟨r, hr, ht⟩ := ht
        split at ht
        · rename_i hr1
          have hnd' : (y x :: seen).Nodup := List.nodup_cons.mpr ⟨hxn, hnd⟩
          have hY' : ∀ a ∈ y x :: seen, a ∈ Y := by
            intro a ha
            rcases List.mem_cons.mp ha with rfl | ha
            · exact hxY
            · exact hY a ha
          by_cases hw' : (r.2.isInt && r.2.feasible) = true
          · obtain ⟨g1, g2, g3, g4, v1, v2, z, g5, g6, g7⟩ := pass_continues hx (by omega) (by intro t ht; omega) hr hr1 rfl hw'
            have hcuts' : ∀ a ∈ y x :: seen, ∃ x' j, y x' = a ∧ ((o.nlp x' j).optimal = true → r.2.cutoff ≤ (o.nlp x' j).obj) ∧ ∀ k ∈ o.cuts (o.nlp x' j).pt x' j, k ∈ r.2.cuts := by
              intro a ha
              rcases List.mem_cons.mp ha with rfl | ha
              · exact ⟨x, s.pass, rfl, v2, fun k hk => by rw [g1]; exact List.mem_append_right _ hk⟩
              · obtain ⟨x', j, e1, e0, e2⟩ := hcuts a ha
                exact ⟨x', j, e1, fun ho => le_trans v1 (e0 ho), fun k hk => by rw [g1]; exact List.mem_append_left _ (e2 k hk)⟩
            refine ih r.2 (y x :: seen) hnd' hY' hcuts' ?_ (by simp; omega) (by simp; omega) (by simp; omega) t ht
            intro _
            refine ⟨z, g5, hF.inY _ _ _ _ g6, ?_⟩
            intro hmem
            obtain ⟨x', j, e1, e0, e2⟩ := hcuts' (y z) hmem
            exact hF.new _ _ _ z g6 g7 x' j e0 e2 e1.symm
          · cases n with
            | zero =>
              have : (y x :: seen).length ≤ Y.length := (List.subperm_of_subset hnd' hY').length_le
              simp at this
              omega
            | succ n =>
              unfold oaIter at ht
              rw [if_neg hw'] at ht
              simp at ht
        · simp at ht
      · simp at ht
  intro s hs
  refine key (Y.length + 1) (oaInit o dmax cuts cutoff nLocal nSols) [] List.nodup_nil (by simp) (by simp) ?_ (by simp) (by simp [oaInit]) (by simp [oaInit]) s hs
  intro hw
  unfold oaInit at hw ⊢
  dsimp only at hw ⊢
  simp only [Bool.and_eq_true, Option.isSome_iff_exists, decide_eq_true_eq] at hw
  obtain ⟨⟨z, hz⟩, _⟩ := hw
  exact ⟨z, hz, hF.inY _ _ _ _ hz, by simp⟩

/-! ### The contract in the convex case -/

/-- First-order optimality (what the KKT conditions give): no direction that keeps the integers and satisfies the linearised constraints decreases the linearised objective.
Then every point with the same integers that satisfies the outer approximation cuts at `xh` has an objective variable of at least `f(xh)`: such a point is never
below a cutoff that is at most `f(xh)`.  This is the reason behind `newLp` and `newMilp`. -/
theorem oa_excludes_assignment {n : Nat} (I : Fin n → Prop) (xh x : Fin n → ℚ) (gradf : (Fin n → ℚ) → ℚ) (fh alpha : ℚ) (m : Nat) (gh : Fin m → ℚ) (gradg : Fin m → (Fin n → ℚ) → ℚ)
    (hopt : ∀ d : Fin n → ℚ, (∀ i, I i → d i = 0) → (∀ j, gh j + gradg j d ≤ 0) → 0 ≤ gradf d)
    (hsame : ∀ i, I i → x i = xh i) (hg : ∀ j, gh j + gradg j (fun i => x i - xh i) ≤ 0) (hf : fh + gradf (fun i => x i - xh i) ≤ alpha) : fh ≤ alpha := by
  have := hopt (fun i => x i - xh i) (fun i hi => by rw [hsame i hi]; ring) hg
  linarith

/-! ### A case that meets the contracts -/

/-- Two assignments with values 5 and 3; the cut of an assignment makes its relaxed value exact. -/
def exF (b : Bool) : ℚ := if b then 5 else 3
def exR (cs : List Bool) (b : Bool) : ℚ := if b ∈ cs then exF b else if b then 0 else 1
def exBest (cs : List Bool) : Bool := decide (exR cs true ≤ exR cs false)
def exO : Oracles Bool Bool :=
  ⟨fun cs v _ => ⟨exR cs (exBest cs), if exR cs (exBest cs) < v then some (exBest cs) else none⟩, fun x _ => ⟨true, exF x, x⟩, fun _ x _ => [x],
   fun cs v _ => ⟨decide (exR cs (exBest cs) < v), false, exR cs (exBest cs), exBest cs⟩, fun _ => true, fun a b => a != b, fun a b => a != b, fun _ => false⟩

theorem exR_le (cs : List Bool) (b : Bool) : exR cs b ≤ exF b := by
  unfold exR exF
  cases b <;> (split_ifs <;> norm_num)

theorem exBest_le (cs : List Bool) (b : Bool) : exR cs (exBest cs) ≤ exR cs b := by
  unfold exBest
  by_cases h : exR cs true ≤ exR cs false
  · simp only [h, decide_true]
    cases b
    · exact h
    · exact le_refl _
  · simp only [h, decide_false]
    cases b
    · exact le_refl _
    · exact le_of_lt (not_le.mp h)

theorem exO_contract : Contract exO ⟨fun _ => True, exF, fun _ _ => True⟩ := by
  refine ⟨by simp, ?_, by simp [exO], ?_, ?_⟩
  · intro cs v k z _ _ _
    exact le_trans (exBest_le cs z) (exR_le cs z)
  · intro cs v k x hv hc _ _ h
    simp only [exO, List.mem_singleton, forall_eq, forall_const, bne_iff_ne, ne_eq] at hv hc h ⊢
    intro he
    rw [← he] at h
    unfold exR at h
    rw [if_pos hc] at h
    exact absurd h (not_lt.mpr hv)
  · intro cs v k x z hv hc hz h
    simp only [exO, List.mem_singleton, forall_eq, forall_const, bne_iff_ne, ne_eq] at hv hc hz h ⊢
    rw [if_pos h] at hz
    intro he
    rw [Option.some.inj hz, ← he] at h
    unfold exR at h
    rw [if_pos hc] at h
    exact absurd h (not_lt.mpr hv)

theorem exO_finite : Finite exO id [true, false] := by
  refine ⟨by intro _ _ _ z _; cases z <;> simp, ?_⟩
  intro cs v k z hz h x j hv hc
  have := exO_contract.newMilp cs v 0 x z hv hc hz h
  simp only [exO, bne_iff_ne, ne_eq] at this
  exact fun he => this he.symm

/-- The loop on this case: both assignments are visited and the better one is found; the last LP has nothing below the cutoff and the bound stays that of the last MILP. -/
example : (performOa exO ⟨1 / 10, 1 / 100, 100, 100⟩ (10 ^ 200) 3 [] 10 0 0).map (fun r => r.elim (fun _ => none) (fun s => some (s.found, s.ub, s.cutoff, s.bound, s.pass))) =
    some (some ([true, false], 3, 27 / 10, 1, 2)) := by decide +kernel

/-! ### Refutations -/

/-- **C32** refuted (assert): an NLP whose optimal value is 0 stops the program, whatever the cutoff increment: the new cutoff is not below 0 (line 150). -/
theorem oa_zero_aborts {P κ : Type} (c : OaCfg) (s : OaSt P κ) (p : P) (h1 : 0 < s.cutoff) (h2 : s.cutoff ≤ s.ub) : afterNlp c s ⟨true, 0, p⟩ = none := by
  unfold afterNlp
  rw [if_pos ⟨rfl, h1⟩]
  dsimp only
  rw [min_eq_left (by linarith)]
  unfold newCutoff
  simp

/-- Oracles for two assignments (points are naturals): the MILP proposes 0, the LP proposes 1, both integral. -/
def stuckO (differ : Nat → Nat → Bool) (nlp : NlpAns Nat) (lpPt : Nat) : Oracles Nat Nat :=
  ⟨fun _ _ _ => ⟨0, some 0⟩, fun _ _ => nlp, fun _ _ _ => [7], fun _ _ _ => ⟨true, false, 0, lpPt⟩, fun _ => true, differ, differ, fun _ => false⟩

/-- **C32** refuted (termination): once the number of solutions has reached `solution_limit`, no MILP is solved any more but the loop goes on as long as the LP solution is
integral; each pass solves the NLP for the *old* MILP solution again.  Here it never ends (short of the time limit). -/
theorem oa_stuck (n : Nat) (c : OaCfg) (hs : c.maxSols = 0) (hg : c.gapTol ≤ 1) :
    ∃ s, performOa (stuckO (fun a b => a != b) ⟨false, 0, 0⟩ 1) c (10 ^ 200) n [] 10 0 0 = some (.inl s) := by
  have key : ∀ n (s : OaSt Nat Nat), s.isInt = true → s.feasible = true → s.sol = some 0 → s.cutoff = 10 → s.ub = 10 → s.bound = 0 →
      ∃ t, oaIter (stuckO (fun a b => a != b) ⟨false, 0, 0⟩ 1) c n s = some (.inl t) := by
    intro n
    induction n with
    | zero => intro s _ _ _ _ _ _; exact ⟨s, rfl⟩
    | succ n ih =>
      intro s h1 h2 h3 h4 h5 h6
      unfold oaIter
      rw [h1, h2]
      simp only [Bool.and_self, if_true]
      have hgap : ¬ gapOf 10 0 < c.gapTol := by
        unfold gapOf
        rw [if_pos (by norm_num)]
        have : |(10 : ℚ)| = 10 := abs_of_pos (by norm_num)
        rw [this]
        norm_num
        exact hg
      have hp : oaPass (stuckO (fun a b => a != b) ⟨false, 0, 0⟩ 1) c s = some (true, { s with cuts := s.cuts ++ [7], pass := s.pass + 1 }) := by
        unfold oaPass
        rw [h3]
        simp only [stuckO, afterNlp, Bool.false_eq_true, false_and, if_false, Option.bind_some, afterLp]
        simp [h4, afterGap, h5, h6, hgap, localSearch, hs, h1, h2, h3]
      rw [hp]
      simp only [Option.bind_some, if_true]
      exact ih _ h1 h2 h3 h4 h5 h6
  exact key n _ (by decide) (by simp [oaInit, stuckO]) rfl rfl rfl (by simp [oaInit, stuckO])

/-- **C32** refuted (soundness without the contract): the NLP of the first assignment fails (it is not infeasible: its point has value 3), so its cuts are generated at a meaningless point; the LP
then proposes the same integers, and the loop answers with the bound 1e50, above the cutoff 10, although the point found feasible by nobody has value 3. -/
theorem oa_failed_nlp_unsound : ∃ s, performOa (stuckO (fun a b => a != b) ⟨false, 0, 0⟩ 0) ⟨1 / 10 ^ 5, 1 / 10 ^ 5, 100, 100⟩ (10 ^ 200) 2 [] 10 0 0 = some (.inr s) ∧
    s.bound = 10 ^ 50 ∧ s.found = [] ∧ s.cutoff = 10 := by
  have h : (performOa (stuckO (fun a b => a != b) ⟨false, 0, 0⟩ 0) ⟨1 / 10 ^ 5, 1 / 10 ^ 5, 100, 100⟩ (10 ^ 200) 2 [] 10 0 0).map
      (fun r => r.elim (fun _ => none) (fun s => some (s.bound, s.found, s.cutoff))) = some (some (10 ^ 50, [], 10)) := by decide +kernel
  rw [Option.map_eq_some_iff] at h
  obtain ⟨r, hr, h⟩ := h
  cases r with
  | inl s => simp at h
  | inr s =>
    refine ⟨s, hr, ?_⟩
    simpa using h

/-- **C32**: the state before the first pass: no incumbent yet, the bound is the one of the first MILP, and the loop is entered exactly if it has a solution and its bound is below the cutoff. -/
theorem oa_start {P κ : Type} (o : Oracles P κ) (dmax : ℚ) (cuts : List κ) (cutoff : ℚ) (nLocal nSols : Nat) :
    let s := oaInit o dmax cuts cutoff nLocal nSols
    s.cuts = cuts ∧ s.cutoff = cutoff ∧ s.ub = cutoff ∧ (-dmax ≤ s.bound ∧ (o.milp cuts cutoff 0).low ≤ s.bound ∧ (s.bound = -dmax ∨ s.bound = (o.milp cuts cutoff 0).low)) ∧
    s.sol = (o.milp cuts cutoff 0).sol ∧ (s.isInt = true ↔ ∃ x, s.sol = some x) ∧ (s.feasible = true ↔ -dmax < cutoff ∧ (o.milp cuts cutoff 0).low < cutoff) ∧
    s.nLocal = nLocal + 1 ∧ s.nSols = nSols ∧ s.pass = 0 ∧ s.found = [] := by
  refine ⟨rfl, rfl, rfl, ⟨le_max_left _ _, le_max_right _ _, ?_⟩, rfl, ?_, ?_, rfl, rfl, rfl, rfl⟩
  · exact max_choice _ _
  · exact Option.isSome_iff_exists
  · simp [oaInit]

end Verif.Dec

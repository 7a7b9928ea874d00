import Verif.Dec.OaLoop
import Verif.Dec.Help
import Mathlib.Algebra.BigOperators.Ring.Finset
import Mathlib.Algebra.Order.BigOperators.Group.List
/-!
# C61: objective of the pump's MILP, C62 and C65: the feasibility pump for MINLP
`src/Algorithms/OaGenerators/BonFpForMinlp.cpp`: `performOa` (62-245), `set_fp_objective` (274-304).

MILP, NLP and cut generation are oracles that may depend on the number of the pass.  `none` is a failed assertion.
-/
namespace Verif.Dec

/-! ## The objective -/

/-- Objective coefficient given to a discrete column (282-284, 297-299). -/
def fpCoef (x : ℚ) : ℚ := if x - (⌊x + 1 / 2⌋ : ℚ) < 0 then 1 - 2 * 1 else 1 - 2 * 0

/-- `set_fp_objective` (276-302); `objs` lists the columns of the branching objects (`none`: an object without a column), if there are any.  `none` is the exception thrown. -/
def fpObjective (objs : Option (List (Option Nat))) (isInt : List Bool) (x : Nat → ℚ) : Option (List (Nat × ℚ)) :=
  match objs with
  | some l => l.mapM fun o => o.map fun i => (i, fpCoef (x i))
  | none => some (isInt.zipIdx.filterMap fun p => if p.1 then some (p.2, fpCoef (x p.2)) else none)

/-! ## The loop -/

/-- Oracles.  `milp cuts cutoff p k`: the MILP with the objective of point `p`: optimal and last solution.  `dist x k`: value and solution of the NLP that minimises the distance to `x`.
`nlp x k`: the NLP with the integers of `x` fixed (148-154).  `resolve k`: solution of the relaxation after an improvement (183).  `near x`: the integers of `x` are within 1e-5 of integers. -/
structure FpO (P κ : Type) where
  milp : List κ → ℚ → P → Nat → Bool × Option P
  dist : P → Nat → ℚ × P
  nlp : P → Nat → NlpAns P
  resolve : Nat → P
  cuts : P → Nat → List κ
  near : P → Bool
  late : Nat → Bool

/-- Parameters: cutoff increment, limits, `passBound_` (option `fp_pass_infeasible`). -/
structure FpCfg where
  eps : ℚ
  maxLocal : Nat
  maxSols : Nat
  pass : Bool
deriving DecidableEq

/-- Variables of the loop; `cur` is the last solution of the NLP solver. -/
structure FpSt (P κ : Type) where
  cuts : List κ
  cutoff : ℚ
  ub : ℚ
  sol : Option P
  milpOpt : Bool
  nLocal : Nat
  nSols : Nat
  pass : Nat
  found : List P
  cur : P

/-- Before the loop (101-112): `p` is the solution of the relaxation. -/
def fpInit {P κ : Type} (o : FpO P κ) (cuts : List κ) (cutoff : ℚ) (p : P) (nLocal nSols : Nat) : FpSt P κ :=
  let a := o.milp cuts cutoff p 0
  ⟨cuts, cutoff, cutoff, a.2, a.1, nLocal + 1, nSols, 0, [], p⟩

/-- The NLPs of a pass (142-192): new state with the point at which cuts are made. -/
def fpNlp {P κ : Type} (o : FpO P κ) (c : FpCfg) (s : FpSt P κ) (x : P) : Option (P × FpSt P κ) :=
  let d := o.dist x s.pass
  if d.1 < 1 / 10 ^ 6 then
    let a := o.nlp x s.pass
    if a.optimal = true ∧ a.obj < s.cutoff then
      let ub := min s.ub a.obj
      if newCutoff c.eps ub < ub then
        some (a.pt, { s with ub := ub, cutoff := newCutoff c.eps ub, nSols := s.nSols + 1, found := s.found ++ [a.pt], cur := o.resolve s.pass })
      else none
    else some (a.pt, { s with cur := a.pt })
  else some (d.2, { s with cur := d.2 })

/-- The end of a pass (205-235): time limit, limits, new MILP. -/
def fpNext {P κ : Type} (o : FpO P κ) (c : FpCfg) (s : FpSt P κ) : FpSt P κ :=
  if o.late s.pass then { s with sol := none }
  else if s.nLocal < c.maxLocal ∧ s.nSols < c.maxSols then
    let a := o.milp s.cuts s.cutoff s.cur (s.pass + 1)
    { s with nLocal := s.nLocal + 1, sol := a.2, milpOpt := a.1, pass := s.pass + 1 }
  else { s with sol := none }

/-- One pass (127-236) from the MILP solution `x`. -/
def fpPass {P κ : Type} (o : FpO P κ) (c : FpCfg) (s : FpSt P κ) (x : P) : Option (FpSt P κ) :=
  if o.near x then
    (fpNlp o c s x).bind fun r =>
      if o.cuts r.1 s.pass = [] then none else some (fpNext o c { r.2 with cuts := r.2.cuts ++ o.cuts r.1 s.pass })
  else none

/-- At most `n` passes: `inl` still running, `inr` left. -/
def fpIter {P κ : Type} (o : FpO P κ) (c : FpCfg) : Nat → FpSt P κ → Option (FpSt P κ ⊕ FpSt P κ)
  | 0, s => some (.inl s)
  | n + 1, s =>
    match s.sol with
    | none => some (.inr s)
    | some x => (fpPass o c s x).bind (fpIter o c n)

/-- Return value (238-244): `true` is `DBL_MAX`, the claim that nothing better exists. -/
def fpClaim {P κ : Type} (c : FpCfg) (s : FpSt P κ) : Bool := !(!c.pass || s.sol.isSome || !s.milpOpt)

/-! ## Specification -/

/-- What the pump relies on. -/
structure FpContract {P κ : Type} (o : FpO P κ) (p : Problem P κ) : Prop where
  valid : ∀ q k, ∀ c ∈ o.cuts q k, ∀ z, p.feas z → p.sat c z
  nlp : ∀ x k, (o.nlp x k).optimal = true → p.feas (o.nlp x k).pt ∧ p.f (o.nlp x k).pt = (o.nlp x k).obj
  milp : ∀ cs v q k, (o.milp cs v q k) = (true, none) → ∀ z, p.feas z → (∀ c ∈ cs, p.sat c z) → v ≤ p.f z

/-! ## Properties: objective -/

/-- **C61**: the coefficient is `-1` exactly if the value has fractional part at least `1/2`; integer values get `+1`. -/
theorem fpCoef_iff (x : ℚ) : (fpCoef x = -1 ↔ 1 / 2 ≤ x - (⌊x⌋ : ℚ)) ∧ (fpCoef x = 1 ↔ x - (⌊x⌋ : ℚ) < 1 / 2) := by
  have hf := Int.floor_le x
  have hl := Int.lt_floor_add_one x
  by_cases h : 1 / 2 ≤ x - (⌊x⌋ : ℚ)
  · have e : ⌊x + 1 / 2⌋ = ⌊x⌋ + 1 := by rw [Int.floor_eq_iff]; push_cast; constructor <;> linarith
    have hc : fpCoef x = -1 := by unfold fpCoef; rw [e, if_pos (by push_cast; linarith)]; norm_num
    rw [hc]
    exact ⟨⟨fun _ => h, fun _ => rfl⟩, ⟨fun hh => by norm_num at hh, fun hh => absurd h (not_le.2 hh)⟩⟩
  · have e : ⌊x + 1 / 2⌋ = ⌊x⌋ := by rw [Int.floor_eq_iff]; push Not at h; constructor <;> linarith
    have hc : fpCoef x = 1 := by unfold fpCoef; rw [e, if_neg (by linarith)]; norm_num
    rw [hc]
    exact ⟨⟨fun hh => by norm_num at hh, fun hh => absurd hh h⟩, ⟨fun _ => not_le.1 h, fun _ => rfl⟩⟩

/-- The value of the objective at `y`. -/
def fpVal (c : List (Nat × ℚ)) (y : Nat → ℚ) : ℚ := (c.map fun e => e.2 * y e.1).sum

/-- **C61**, partial: for 0-1 variables none of which has the value 1, the objective is the distance to the rounded point, up to a constant that does not depend on `y`. -/
theorem fp_objective_partial (l : List Nat) (x y : Nat → ℚ) (hx : ∀ i ∈ l, 0 ≤ x i ∧ x i < 1) (hy : ∀ i ∈ l, y i = 0 ∨ y i = 1) :
    (l.map fun i => |y i - (⌊x i + 1 / 2⌋ : ℚ)|).sum = fpVal (l.map fun i => (i, fpCoef (x i))) y + ((l.filter fun i => decide (1 / 2 ≤ x i)).length : ℚ) := by
  unfold fpVal
  induction l with
  | nil => simp
  | cons i l ih =>
    have ih' := ih (fun j hj => hx j (List.mem_cons_of_mem _ hj)) (fun j hj => hy j (List.mem_cons_of_mem _ hj))
    obtain ⟨h0, h1⟩ := hx i (by simp)
    have hfl : ⌊x i⌋ = 0 := by rw [Int.floor_eq_iff]; push_cast; constructor <;> linarith
    simp only [List.map_cons, List.sum_cons, List.map_map, List.filter_cons] at ih' ⊢
    rw [ih']
    by_cases hh : 1 / 2 ≤ x i
    · have e : ⌊x i + 1 / 2⌋ = 1 := by rw [Int.floor_eq_iff]; push_cast; constructor <;> linarith
      have hc : fpCoef (x i) = -1 := (fpCoef_iff (x i)).1.2 (by rw [hfl]; push_cast; linarith)
      rw [e, hc]
      simp only [hh, decide_true, if_true, List.length_cons]
      rcases hy i (by simp) with h | h <;> rw [h] <;> push_cast <;> norm_num <;> ring
    · have e : ⌊x i + 1 / 2⌋ = 0 := by rw [Int.floor_eq_iff]; push Not at hh; push_cast; constructor <;> linarith
      have hc : fpCoef (x i) = 1 := (fpCoef_iff (x i)).2.2 (by rw [hfl]; push_cast; push Not at hh; linarith)
      rw [e, hc]
      simp only [hh, decide_false, Bool.false_eq_true, if_false]
      rcases hy i (by simp) with h | h <;> rw [h] <;> push_cast <;> norm_num
      ring

example : fpObjective none [true, false, true] (fun i => if i = 0 then 1 / 4 else 3 / 4) = some [(0, 1), (2, -1)] := by decide +kernel

/-- **C61** refuted: at the NLP solution `x = 1` the objective prefers `y = 0`, at distance 1, to `y = 1`, at distance 0. -/
theorem fp_objective_wrong : fpVal [(0, fpCoef 1)] (fun _ => 0) < fpVal [(0, fpCoef 1)] (fun _ => 1) ∧ |(1 : ℚ) - (⌊(1 : ℚ) + 1 / 2⌋ : ℚ)| < |(0 : ℚ) - (⌊(1 : ℚ) + 1 / 2⌋ : ℚ)| := by
  have e : ⌊(1 : ℚ) + 1 / 2⌋ = 1 := by rw [Int.floor_eq_iff]; norm_num
  have hc : fpCoef 1 = 1 := (fpCoef_iff 1).2.2 (by norm_num)
  rw [e, hc]
  norm_num [fpVal]

/-- **C61**: the objective is set exactly on the columns of the branching objects, or on the discrete columns if there are none; an object without a column makes it throw. -/
theorem fpObjective_exact (objs : Option (List (Option Nat))) (isInt : List Bool) (x : Nat → ℚ) :
    (∀ l, objs = some l → ((fpObjective objs isInt x = none ↔ none ∈ l) ∧ ∀ cs : List Nat, l = cs.map some → fpObjective objs isInt x = some (cs.map fun i => (i, fpCoef (x i))))) ∧
    (objs = none → ∃ cs, fpObjective objs isInt x = some cs ∧ ∀ i v, (i, v) ∈ cs ↔ isInt[i]? = some true ∧ v = fpCoef (x i)) := by
  refine ⟨fun l hl => ⟨?_, ?_⟩, fun h => ?_⟩
  · subst hl
    unfold fpObjective
    induction l with
    | nil => simp
    | cons a l ih =>
      simp only at ih ⊢
      rw [List.mapM_cons]
      cases a with
      | none => simp
      | some i =>
        simp only [Option.map_some, Option.bind_eq_bind, Option.bind_some, List.mem_cons, reduceCtorEq, false_or]
        rw [← ih]
        cases List.mapM (fun o : Option Nat => o.map fun i => (i, fpCoef (x i))) l <;> simp
  · intro cs hcs
    subst hl hcs
    unfold fpObjective
    simp only
    induction cs with
    | nil => simp
    | cons i cs ih =>
      simp only [List.map_cons]
      rw [List.mapM_cons, ih]
      simp
  · subst h
    refine ⟨_, rfl, fun i v => ?_⟩
    rw [List.mem_filterMap]
    constructor
    · rintro ⟨p, hp, he⟩
      split at he
      · rename_i ht
        have := Option.some.inj he
        obtain ⟨h1, h2⟩ := Prod.mk.inj this
        have hm := List.mem_zipIdx_iff_getElem?.1 (show (p.1, p.2) ∈ isInt.zipIdx from hp)
        rw [h1] at hm h2
        exact ⟨by rw [hm, ht], h2.symm⟩
      · simp at he
    · rintro ⟨h1, h2⟩
      exact ⟨(true, i), List.mem_zipIdx_iff_getElem?.2 h1, by simp [h2]⟩

/-! ## Properties: loop -/

/-- Invariant: cuts are valid, solutions found are feasible, the upper bound is the best of them, the cutoff belongs to it. -/
structure FpInv {P κ : Type} (c : FpCfg) (p : Problem P κ) (k0 : ℚ) (s : FpSt P κ) : Prop where
  cutsOk : ∀ k ∈ s.cuts, ∀ z, p.feas z → p.sat k z
  ubOk : (s.found = [] ∧ s.ub = k0 ∧ s.cutoff = k0) ∨ (s.cutoff = newCutoff c.eps s.ub ∧ s.cutoff < s.ub ∧ s.ub < k0 ∧ ∃ x ∈ s.found, p.f x = s.ub)
  foundOk : ∀ x ∈ s.found, p.feas x ∧ s.ub ≤ p.f x

theorem fpNlp_inv {P κ : Type} {o : FpO P κ} {c : FpCfg} {p : Problem P κ} {k0 : ℚ} {s : FpSt P κ} (hc : FpContract o p) (x : P) (h : FpInv c p k0 s) (r : P × FpSt P κ)
    (he : fpNlp o c s x = some r) : FpInv c p k0 r.2 ∧ r.2.cuts = s.cuts ∧ r.2.nLocal = s.nLocal ∧ r.2.pass = s.pass ∧ r.2.milpOpt = s.milpOpt ∧
      ((r.2.nSols = s.nSols ∧ r.2.found = s.found ∧ r.2.cutoff = s.cutoff) ∨ (r.2.nSols = s.nSols + 1 ∧ r.2.found = s.found ++ [r.1] ∧ p.f r.1 < s.cutoff ∧ p.f r.1 = r.2.ub ∧ r.2.cutoff < s.cutoff)) := by
  unfold fpNlp at he
  simp only at he
  split at he
  · split at he
    · rename_i hopt
      split at he
      · rename_i hlt
        obtain ⟨hp1, hp2⟩ := hc.nlp x s.pass hopt.1
        have hle : s.cutoff ≤ s.ub := by
          rcases h.ubOk with ⟨_, h1, h2⟩ | ⟨_, h2, _⟩
          · rw [h1, h2]
          · exact le_of_lt h2
        have hmin : min s.ub (o.nlp x s.pass).obj = (o.nlp x s.pass).obj := min_eq_right (le_of_lt (lt_of_lt_of_le hopt.2 hle))
        rw [← Option.some.inj he]
        rw [hmin] at hlt
        simp only [hmin]
        refine ⟨⟨h.cutsOk, Or.inr ⟨rfl, hlt, ?_, ?_⟩, ?_⟩, trivial, trivial, trivial, trivial, Or.inr ⟨trivial, trivial, ?_, hp2, ?_⟩⟩
        · rcases h.ubOk with ⟨_, h1, h2⟩ | ⟨_, h2, h3, _⟩
          · have := hopt.2; rw [h2] at this; exact this
          · exact lt_trans (lt_trans hopt.2 h2) h3
        · exact ⟨_, by simp, hp2⟩
        · intro y hy
          rcases List.mem_append.1 hy with hy | hy
          · obtain ⟨g1, g2⟩ := h.foundOk y hy
            exact ⟨g1, le_trans (le_of_lt (lt_of_lt_of_le hopt.2 hle)) g2⟩
          · rw [List.mem_singleton.1 hy]; exact ⟨hp1, le_of_eq hp2.symm⟩
        · rw [hp2]; exact hopt.2
        · exact lt_trans hlt hopt.2
      · simp at he
    · rw [← Option.some.inj he]
      exact ⟨⟨h.cutsOk, h.ubOk, h.foundOk⟩, rfl, rfl, rfl, rfl, Or.inl ⟨rfl, rfl, rfl⟩⟩
  · rw [← Option.some.inj he]
    exact ⟨⟨h.cutsOk, h.ubOk, h.foundOk⟩, rfl, rfl, rfl, rfl, Or.inl ⟨rfl, rfl, rfl⟩⟩

theorem fpNext_keeps {P κ : Type} (o : FpO P κ) (c : FpCfg) (s : FpSt P κ) : (fpNext o c s).cuts = s.cuts ∧ (fpNext o c s).cutoff = s.cutoff ∧ (fpNext o c s).ub = s.ub ∧
    (fpNext o c s).found = s.found ∧ (fpNext o c s).nSols = s.nSols := by
  unfold fpNext
  split_ifs <;> exact ⟨rfl, rfl, rfl, rfl, rfl⟩

theorem fpPass_inv {P κ : Type} {o : FpO P κ} {c : FpCfg} {p : Problem P κ} {k0 : ℚ} {s t : FpSt P κ} (hc : FpContract o p) (x : P) (h : FpInv c p k0 s)
    (he : fpPass o c s x = some t) : FpInv c p k0 t := by
  unfold fpPass at he
  split at he
  · obtain ⟨r, hr, h2⟩ := Option.bind_eq_some_iff.1 he
    split at h2
    · simp at h2
    · rw [← Option.some.inj h2]
      obtain ⟨hi, hcu, _⟩ := fpNlp_inv hc x h r hr
      obtain ⟨k1, k2, k3, k4, _⟩ := fpNext_keeps o c { r.2 with cuts := r.2.cuts ++ o.cuts r.1 s.pass }
      refine ⟨?_, ?_, ?_⟩
      · rw [k1]
        intro k hk z hz
        rcases List.mem_append.1 hk with hk | hk
        · exact hi.cutsOk k hk z hz
        · exact hc.valid _ _ k hk z hz
      · rw [k2, k3, k4]; exact hi.ubOk
      · rw [k3, k4]; exact hi.foundOk
  · simp at he

theorem fpIter_inv {P κ : Type} {o : FpO P κ} {c : FpCfg} {p : Problem P κ} {k0 : ℚ} (hc : FpContract o p) : ∀ (n : Nat) (s : FpSt P κ) (r : FpSt P κ ⊕ FpSt P κ), FpInv c p k0 s →
    fpIter o c n s = some r → FpInv c p k0 (Sum.elim id id r)
  | 0, s, r, h, he => by rw [← Option.some.inj he]; exact h
  | n + 1, s, r, h, he => by
    unfold fpIter at he
    split at he
    · rw [← Option.some.inj he]; exact h
    · rename_i x _
      obtain ⟨t, ht, h2⟩ := Option.bind_eq_some_iff.1 he
      exact fpIter_inv hc n t r (fpPass_inv hc x h ht) h2

theorem fpInit_inv {P κ : Type} {o : FpO P κ} {c : FpCfg} {p : Problem P κ} (cuts : List κ) (cutoff : ℚ) (q : P) (a b : Nat) (h : ∀ k ∈ cuts, ∀ z, p.feas z → p.sat k z) :
    FpInv c p cutoff (fpInit o cuts cutoff q a b) := ⟨h, Or.inl ⟨rfl, rfl, rfl⟩, by simp [fpInit]⟩

/-- **C65**: at every moment of a run, every solution recorded is feasible, the upper bound is the value of the best one, all of them improve on the initial cutoff, and the cutoff is
the upper bound reduced by the increment. -/
theorem fp_solutions {P κ : Type} {o : FpO P κ} {c : FpCfg} {p : Problem P κ} (hc : FpContract o p) (n : Nat) (cuts : List κ) (cutoff : ℚ) (q : P) (a b : Nat)
    (h : ∀ k ∈ cuts, ∀ z, p.feas z → p.sat k z) (r : FpSt P κ ⊕ FpSt P κ) (he : fpIter o c n (fpInit o cuts cutoff q a b) = some r) :
    let s := Sum.elim id id r
    (∀ x ∈ s.found, p.feas x ∧ s.ub ≤ p.f x) ∧ ((s.found = [] ∧ s.ub = cutoff ∧ s.cutoff = cutoff) ∨ (s.cutoff = newCutoff c.eps s.ub ∧ s.cutoff < s.ub ∧ s.ub < cutoff ∧ ∃ x ∈ s.found, p.f x = s.ub)) ∧
    ∀ k ∈ s.cuts, ∀ z, p.feas z → p.sat k z := by
  have := fpIter_inv hc n _ r (fpInit_inv (c := c) cuts cutoff q a b h) he
  exact ⟨this.foundOk, this.ubOk, this.cutsOk⟩

/-- The MILP that was solved last, if the loop was left because it had no solution: nothing stopped the pump before. -/
def LeftByMilp {P κ : Type} (o : FpO P κ) (s : FpSt P κ) : Prop := ∃ q k, o.milp s.cuts s.cutoff q k = (s.milpOpt, s.sol)

/-- Every state of the loop was left by its MILP, or its solution was discarded by a limit. -/
theorem fpPass_left {P κ : Type} {o : FpO P κ} {c : FpCfg} {s t : FpSt P κ} (x : P) (he : fpPass o c s x = some t) : LeftByMilp o t ∨
    (t.sol = none ∧ t.milpOpt = s.milpOpt ∧ (o.late t.pass = true ∨ c.maxLocal ≤ t.nLocal ∨ c.maxSols ≤ t.nSols)) := by
  unfold fpPass at he
  split at he
  · obtain ⟨r, hr, h2⟩ := Option.bind_eq_some_iff.1 he
    split at h2
    · simp at h2
    · have hm : r.2.milpOpt = s.milpOpt := by
        unfold fpNlp at hr
        simp only at hr
        split_ifs at hr <;> rw [← Option.some.inj hr]
      rw [← Option.some.inj h2]
      unfold fpNext
      split_ifs with h3 h4
      · exact Or.inr ⟨rfl, hm, Or.inl h3⟩
      · exact Or.inl ⟨_, _, rfl⟩
      · right
        refine ⟨rfl, hm, Or.inr ?_⟩
        by_contra hcon
        push Not at hcon
        exact h4 hcon
  · simp at he

/-- **C62**, partial: the claim that nothing better exists is true if the loop was left because the last MILP had no solution.  Missing: the claim after a limit, refuted below. -/
theorem fp_claim_partial {P κ : Type} {o : FpO P κ} {c : FpCfg} {p : Problem P κ} (hc : FpContract o p) (n : Nat) (cuts : List κ) (cutoff : ℚ) (q : P) (a b : Nat)
    (h : ∀ k ∈ cuts, ∀ z, p.feas z → p.sat k z) (s : FpSt P κ) (he : fpIter o c n (fpInit o cuts cutoff q a b) = some (.inr s)) (hl : LeftByMilp o s) (hcl : fpClaim c s = true) :
    ∀ z, p.feas z → s.cutoff ≤ p.f z := by
  have hi := fpIter_inv hc n _ _ (fpInit_inv (c := c) cuts cutoff q a b h) he
  obtain ⟨q', k, hm⟩ := hl
  have : s.milpOpt = true ∧ s.sol = none := by
    unfold fpClaim at hcl
    cases hs : s.sol <;> cases hmo : s.milpOpt <;> simp [hs, hmo] at hcl ⊢
  rw [this.1, this.2] at hm
  intro z hz
  exact hc.milp s.cuts s.cutoff q' k hm z hz fun u hu => hi.cutsOk u hu z hz

/-- **C65**: the number of passes is bounded by the limit on local searches. -/
theorem fp_terminates {P κ : Type} (o : FpO P κ) (c : FpCfg) : ∀ (n : Nat) (s t : FpSt P κ), c.maxLocal + 1 < n + s.nLocal → 1 < n → fpIter o c n s ≠ some (.inl t)
  | 0, _, _, _, hn => by omega
  | n + 1, s, t, h, _ => by
    intro he
    unfold fpIter at he
    split at he
    · simp at he
    · rename_i x _
      obtain ⟨u, hu, h2⟩ := Option.bind_eq_some_iff.1 he
      have hcase : u.sol = none ∨ (u.nLocal = s.nLocal + 1 ∧ s.nLocal < c.maxLocal) := by
        unfold fpPass at hu
        split at hu
        · obtain ⟨r, hr, h3⟩ := Option.bind_eq_some_iff.1 hu
          have hnl : r.2.nLocal = s.nLocal := by
            unfold fpNlp at hr
            simp only at hr
            split_ifs at hr <;> rw [← Option.some.inj hr]
          split at h3
          · simp at h3
          · rw [← Option.some.inj h3]
            unfold fpNext
            split_ifs with h4 h5
            · exact Or.inl rfl
            · right; simp only at h5 ⊢; rw [hnl] at h5 ⊢; exact ⟨rfl, h5.1⟩
            · exact Or.inl rfl
        · simp at hu
      cases n with
      | zero => omega
      | succ n =>
        rcases hcase with hs | ⟨hs, h5⟩
        · unfold fpIter at h2
          rw [hs] at h2
          simp at h2
        · exact fp_terminates o c (n + 1) u t (by omega) (by omega) h2

/-- A problem with two assignments of values 3 (`false`) and 1 (`true`); cuts are vacuous. -/
def exFpP : Problem Bool Nat := ⟨fun _ => True, fun b => if b then 1 else 3, fun _ _ => True⟩

/-- Solvers for it: the MILP first proposes `false`, then `true`, and is infeasible for cutoffs up to 1. -/
def exFp (late : Bool) : FpO Bool Nat :=
  { milp := fun _ v _ k => if v ≤ 1 then (true, none) else (true, some (decide (0 < k))), dist := fun x _ => (0, x), nlp := fun x _ => ⟨true, if x then 1 else 3, x⟩,
    resolve := fun _ => true, cuts := fun _ _ => [0], near := fun _ => true, late := fun _ => late }

theorem exFp_contract (late : Bool) : FpContract (exFp late) exFpP := by
  refine ⟨fun _ _ _ _ _ _ => trivial, fun x k _ => ⟨trivial, rfl⟩, fun cs v q k h z _ _ => ?_⟩
  unfold exFp at h
  simp only at h
  split_ifs at h with hv
  · refine le_trans hv ?_
    cases z <;> norm_num [exFpP]
  · simp at h

example : (fpIter (exFp false) ⟨1 / 100, 10, 10, true⟩ 5 (fpInit (exFp false) [] 10 true 0 0)).map (fun r => (Sum.elim (fun _ => false) (fun s => fpClaim ⟨1 / 100, 10, 10, true⟩ s) r, (Sum.elim id id r).found, (Sum.elim id id r).cutoff)) =
    some (true, [false, true], 99 / 100) := by decide +kernel

/-- **C62** refuted: after one pass the time is up; the pump has found the value 3 and claims (with `fp_pass_infeasible`) that nothing better than `2.97` exists, although a point of value 1
does. -/
theorem fp_claim_wrong : ∃ s, fpIter (exFp true) ⟨1 / 100, 10, 10, true⟩ 5 (fpInit (exFp true) [] 10 true 0 0) = some (.inr s) ∧ fpClaim ⟨1 / 100, 10, 10, true⟩ s = true ∧ s.cutoff = 297 / 100 ∧
    ∃ z, exFpP.feas z ∧ exFpP.f z < s.cutoff := by
  refine ⟨⟨[0], 297 / 100, 3, none, true, 1, 1, 0, [false], true⟩, ?_, rfl, rfl, true, trivial, by norm_num [exFpP]⟩
  norm_num [fpIter, fpInit, exFp, fpPass, fpNlp, fpNext, newCutoff]

/-- **C62** refuted: the same happens at the limit on solutions. -/
theorem fp_claim_wrong_limit : ∃ s, fpIter (exFp false) ⟨1 / 100, 10, 1, true⟩ 5 (fpInit (exFp false) [] 10 true 0 0) = some (.inr s) ∧ fpClaim ⟨1 / 100, 10, 1, true⟩ s = true ∧ s.cutoff = 297 / 100 ∧
    ∃ z, exFpP.feas z ∧ exFpP.f z < s.cutoff := by
  refine ⟨⟨[0], 297 / 100, 3, none, true, 1, 1, 0, [false], true⟩, ?_, rfl, rfl, true, trivial, by norm_num [exFpP]⟩
  norm_num [fpIter, fpInit, exFp, fpPass, fpNlp, fpNext, newCutoff]

/-- **C65**: a solution of value 0 violates the assertion `cutoff < ub`. -/
theorem fp_zero_aborts {P κ : Type} (o : FpO P κ) (c : FpCfg) (s : FpSt P κ) (x : P) (hd : (o.dist x s.pass).1 < 1 / 10 ^ 6) (ho : (o.nlp x s.pass).optimal = true) (h0 : (o.nlp x s.pass).obj = 0)
    (hc : 0 < s.cutoff) (hu : s.cutoff ≤ s.ub) : fpPass o c s x = none := by
  unfold fpPass
  split
  · have : fpNlp o c s x = none := by
      unfold fpNlp
      simp only
      rw [if_pos hd, if_pos ⟨ho, by rw [h0]; exact hc⟩, if_neg]
      rw [h0, min_eq_right (le_trans (le_of_lt hc) hu)]
      simp [newCutoff]
    rw [this]; rfl
  · rfl

/-- **C61**: the end of a pass: a new MILP is solved exactly if there is time and both limits leave room, from the cuts, the cutoff and the NLP point of this pass; otherwise the loop is left. -/
theorem fp_next_iff {P κ : Type} (o : FpO P κ) (c : FpCfg) (s : FpSt P κ) :
    (o.late s.pass = false ∧ s.nLocal < c.maxLocal ∧ s.nSols < c.maxSols →
      (fpNext o c s).sol = (o.milp s.cuts s.cutoff s.cur (s.pass + 1)).2 ∧ (fpNext o c s).milpOpt = (o.milp s.cuts s.cutoff s.cur (s.pass + 1)).1 ∧
      (fpNext o c s).nLocal = s.nLocal + 1 ∧ (fpNext o c s).pass = s.pass + 1 ∧ (fpNext o c s).cur = s.cur) ∧
    (¬ (o.late s.pass = false ∧ s.nLocal < c.maxLocal ∧ s.nSols < c.maxSols) →
      (fpNext o c s).sol = none ∧ (fpNext o c s).milpOpt = s.milpOpt ∧ (fpNext o c s).nLocal = s.nLocal ∧ (fpNext o c s).pass = s.pass ∧ (fpNext o c s).cur = s.cur) := by
  unfold fpNext
  cases hl : o.late s.pass
  · simp only [Bool.false_eq_true, if_false, true_and]
    constructor
    · intro h; rw [if_pos h]; exact ⟨rfl, rfl, rfl, rfl, rfl⟩
    · intro h; rw [if_neg h]; exact ⟨rfl, rfl, rfl, rfl, rfl⟩
  · simp

end Verif.Dec

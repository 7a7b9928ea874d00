import Mathlib.Data.Rat.Lemmas
import Mathlib.Algebra.Order.Field.Rat
import Mathlib.Tactic.NormNum
/-! # C252: objective coefficients and reduced costs of the NLP interface

src/Interfaces/BonOsiTMINLPInterface.cpp: `getObjCoefficients` 3097-3116, `getReducedCost` 1283-1292, `getColSolution` 1262-1270, `setColSolution` 1393-1410, `setRowLower`, `setRowUpper`,
`setRowType`, `setObjSense` 1352-1391; src/Interfaces/BonTMINLP2TNLP.cpp: `eval_grad_f` 418-423, `setxInit` 286-292, `finalize_solution` 474-509.

Simplifications: numbers are exact; arrays are lists, allocated arrays carry the number of their allocation; the callback of the user gets the point as it is stored (nothing
before the first solve) and may read past its end, which is undefined. -/
namespace Verif.Itf.ObjCoef

/-- What a call of the user's `eval_grad_f` gives. -/
inductive CbOut
  | undefined
  | fail
  | ok (l : List ℚ)
  deriving DecidableEq, Repr

/-- Number of columns, `x_sol_`, `x_init_`, `hasBeenOptimized_`, `obj_`, `reducedCosts_`, allocations so far. -/
structure S where
  n : ℕ
  xsol : List ℚ
  xinit : List ℚ
  opt : Bool
  obj : Option (ℕ × List ℚ)
  red : Option (ℕ × List ℚ)
  next : ℕ
  deriving DecidableEq, Repr

/-- An interface for a problem with `n` columns (BonTMINLP2TNLP.cpp:31-112: `x_sol_` and `x_init_` are empty). -/
def new (n : ℕ) : S := ⟨n, [], [], false, none, none, 0⟩

/-- `getObjCoefficients` (3097-3116): the new state and what is returned; `none` is undefined behaviour, among it writing `grad_f[-1]` (BonTMINLP2TNLP.cpp:421). -/
def coef (cb : List ℚ → CbOut) (s : S) : Option (S × Option (ℕ × List ℚ)) :=
  if s.n = 0 then none
  else
    match cb s.xsol with
    | .undefined => none
    | .fail => some ({ s with obj := none, next := s.next + 1 }, none)
    | .ok l => some ({ s with obj := some (s.next, l), next := s.next + 1 }, some (s.next, l))

/-- `getReducedCost` (1283-1292). -/
def redCost (s : S) : S × (ℕ × List ℚ) :=
  match s.red with
  | some p => (s, p)
  | none => ({ s with red := some (s.next, List.replicate s.n 0), next := s.next + 1 }, (s.next, List.replicate s.n 0))

inductive Op
  /-- A solve that ends at `x`. -/
  | solve (x : List ℚ)
  | setCol (x : List ℚ)
  /-- A change of bounds and the like. -/
  | touch
  /-- `setRowLower`, `setRowUpper`, `setRowType` or `setObjSense`: throws. -/
  | refused
  | coef
  | redCost
  deriving DecidableEq, Repr

/-- One call; `none` is undefined behaviour. -/
def step (cb : List ℚ → CbOut) (s : S) : Op → Option S
  | .solve x => if x.length = s.n then some { s with xsol := x, opt := true } else none
  | .setCol x => if x.length = s.n then some { s with xinit := x, opt := false } else none
  | .touch => some { s with opt := false }
  | .refused => some s
  | .coef => (coef cb s).map (·.1)
  | .redCost => some (redCost s).1

def run (cb : List ℚ → CbOut) : S → List Op → Option S
  | s, [] => some s
  | s, o :: os => (step cb s o).bind fun t => run cb t os

/-- `getColSolution` (1262-1270). -/
def colSol (s : S) : List ℚ := if s.opt then s.xsol else s.xinit

/-! ## Specification -/

/-- The callback computes the gradient `g` and reads its whole point. -/
def Reads (n : ℕ) (cb : List ℚ → CbOut) (g : List ℚ → List ℚ) : Prop :=
  (∀ x, x.length < n → cb x = .undefined) ∧ ∀ x, x.length = n → cb x = .ok (g x)

/-- Where a call that solves ends. -/
def Op.point : Op → Option (List ℚ)
  | .solve x => some x
  | _ => none

/-- The point of the last solve in a sequence of calls. -/
def lastSolve : List Op → Option (List ℚ)
  | [] => none
  | o :: os => (lastSolve os).or o.point

/-- The arrays that exist. -/
def Live (s : S) (p : ℕ × List ℚ) : Prop := s.obj = some p ∨ s.red = some p

/-! ## What holds -/

theorem step_n (cb : List ℚ → CbOut) (s t : S) (o : Op) (h : step cb s o = some t) : t.n = s.n := by
  cases o with
  | solve x => simp only [step] at h; split at h <;> simp_all; subst h; rfl
  | setCol x => simp only [step] at h; split at h <;> simp_all; subst h; rfl
  | touch => simp only [step, Option.some.injEq] at h; subst h; rfl
  | refused => simp only [step, Option.some.injEq] at h; subst h; rfl
  | coef =>
    simp only [step, coef] at h
    split at h
    · simp at h
    · split at h <;> simp at h <;> subst h <;> rfl
  | redCost =>
    simp only [step, redCost, Option.some.injEq] at h
    subst h
    split <;> rfl

theorem step_xsol (cb : List ℚ → CbOut) (s t : S) (o : Op) (h : step cb s o = some t) :
    t.xsol = o.point.getD s.xsol ∧ ∀ x, o.point = some x → x.length = s.n := by
  cases o with
  | solve x =>
    simp only [step] at h
    split at h
    · rename_i hx; simp at h; subst h; simp [Op.point, hx]
    · simp at h
  | setCol x => simp only [step] at h; split at h <;> simp at h; subst h; simp [Op.point]
  | touch => simp only [step, Option.some.injEq] at h; subst h; simp [Op.point]
  | refused => simp only [step, Option.some.injEq] at h; subst h; simp [Op.point]
  | coef =>
    simp only [step, coef] at h
    split at h
    · simp at h
    · split at h <;> simp at h <;> subst h <;> simp [Op.point]
  | redCost =>
    simp only [step, redCost, Option.some.injEq] at h
    subst h
    split <;> simp [Op.point]

theorem run_xsol (cb : List ℚ → CbOut) : ∀ (os : List Op) (s t : S), run cb s os = some t →
    t.n = s.n ∧ t.xsol = (lastSolve os).getD s.xsol ∧ (∀ x, lastSolve os = some x → x.length = s.n)
  | [], s, t, h => by simp [run] at h; subst h; simp [lastSolve]
  | o :: os, s, t, h => by
    simp only [run] at h
    cases hs : step cb s o with
    | none => simp [hs] at h
    | some u =>
      simp only [hs, Option.bind_some] at h
      obtain ⟨h1, h2, h3⟩ := run_xsol cb os u t h
      have hn := step_n cb s u o hs
      obtain ⟨hx, hl⟩ := step_xsol cb s u o hs
      refine ⟨h1.trans hn, ?_, ?_⟩
      · rw [h2, lastSolve, hx]
        cases lastSolve os <;> simp
      · intro x hx'
        rw [lastSolve] at hx'
        cases hl' : lastSolve os with
        | some y => rw [hl'] at hx'; simp at hx'; subst hx'; rw [← hn]; exact h3 y hl'
        | none => rw [hl'] at hx'; exact hl x (by simpa using hx')

/-- **C252.** After any sequence of calls the coefficients returned are the gradient of the objective at the point of the last solve. -/
theorem coef_exact (g : List ℚ → List ℚ) (cb : List ℚ → CbOut) (n : ℕ) (hcb : Reads n cb g) (os : List Op) (s : S) (hs : run cb (new n) os = some s)
    (r : Option (ℕ × List ℚ)) : (∃ t, coef cb s = some (t, r)) ↔ n ≠ 0 ∧ ∃ x, lastSolve os = some x ∧ r = some (s.next, g x) := by
  obtain ⟨h1, h2, h3⟩ := run_xsol cb os _ s hs
  have hn : s.n = n := h1
  unfold coef
  by_cases h0 : n = 0
  · subst h0; simp [hn]
  · rw [if_neg (by rw [hn]; exact h0)]
    cases hl : lastSolve os with
    | none =>
      have hx : s.xsol = [] := by rw [h2, hl]; rfl
      rw [hx, hcb.1 [] (by simp; omega)]
      simp
    | some x =>
      have hx : s.xsol = x := by rw [h2, hl]; rfl
      rw [hx, hcb.2 x (h3 x hl)]
      simp only [Option.some.injEq, Prod.mk.injEq, exists_eq_left']
      simp [h0, eq_comm]

/-- A gradient, for examples: of `x² / 2 + …`, the point itself. -/
def idCb (n : ℕ) (x : List ℚ) : CbOut := if x.length = n then .ok x else .undefined

theorem idCb_reads (n : ℕ) : Reads n (idCb n) id :=
  ⟨fun x h => by simp [idCb, show x.length ≠ n by omega], fun x h => by simp [idCb, h]⟩

example : run (idCb 2) (new 2) [.solve [1, 2], .coef, .solve [3, 4], .setCol [5, 6]] = some ⟨2, [3, 4], [5, 6], false, some (0, [1, 2]), none, 1⟩ := by
  decide +kernel

/-- **C252.** The call is defined exactly if there are columns and something was solved. -/
theorem coef_defined_iff (g : List ℚ → List ℚ) (cb : List ℚ → CbOut) (n : ℕ) (hcb : Reads n cb g) (os : List Op) (s : S)
    (hs : run cb (new n) os = some s) : (coef cb s).isSome ↔ n ≠ 0 ∧ (lastSolve os).isSome := by
  constructor
  · intro h
    obtain ⟨⟨t, r⟩, h⟩ := Option.isSome_iff_exists.mp h
    obtain ⟨h1, x, h2, _⟩ := (coef_exact g cb n hcb os s hs r).mp ⟨t, h⟩
    exact ⟨h1, by simp [h2]⟩
  · rintro ⟨h1, h2⟩
    obtain ⟨x, hx⟩ := Option.isSome_iff_exists.mp h2
    obtain ⟨t, ht⟩ := (coef_exact g cb n hcb os s hs _).mpr ⟨h1, x, hx, rfl⟩
    simp [ht]

example : (coef (idCb 1) (new 1)).isSome = false ∧ (coef (idCb 1) ⟨1, [2], [4], true, none, none, 0⟩).isSome = true := by decide +kernel

/-- **C252.** For a linear objective, whose gradient is computed without looking at the point, the coefficients are always right. -/
theorem coef_linear (c : List ℚ) (s : S) (hn : s.n ≠ 0) :
    coef (fun _ => .ok c) s = some ({ s with obj := some (s.next, c), next := s.next + 1 }, some (s.next, c)) := by
  simp [coef, hn]

example : (new 3).n ≠ 0 := by decide

/-- **C252.** The claim is that the coefficients are the gradient at the current solution; this holds if the solution was computed and not changed since. -/
theorem coef_current_partial (g : List ℚ → List ℚ) (cb : List ℚ → CbOut) (n : ℕ) (hcb : Reads n cb g) (os : List Op) (s : S)
    (hs : run cb (new n) os = some s) (ho : s.opt = true) (t : S) (r : Option (ℕ × List ℚ)) (h : coef cb s = some (t, r)) :
    r = some (s.next, g (colSol s)) := by
  obtain ⟨_, x, hx, rfl⟩ := (coef_exact g cb n hcb os s hs r).mp ⟨t, h⟩
  obtain ⟨_, h2, _⟩ := run_xsol cb os _ s hs
  rw [colSol, if_pos ho, h2, hx]
  rfl

example : run (idCb 2) (new 2) [.setCol [5, 6], .solve [1, 2]] = some ⟨2, [1, 2], [5, 6], true, none, none, 0⟩ ∧
    coef (idCb 2) ⟨2, [1, 2], [5, 6], true, none, none, 0⟩ = some (⟨2, [1, 2], [5, 6], true, some (0, [1, 2]), none, 1⟩, some (0, [1, 2])) := by decide +kernel

/-- **C252.** A call that is refused changes nothing. -/
theorem refused_keeps (cb : List ℚ → CbOut) (s : S) : step cb s .refused = some s := rfl

/-- Numbers of the arrays are those of earlier allocations, and the two arrays differ. -/
def Inv (s : S) : Prop := (∀ p, s.obj = some p → p.1 < s.next) ∧ (∀ p, s.red = some p → p.1 < s.next ∧ p.2 = List.replicate s.n 0) ∧
  ∀ p q, s.obj = some p → s.red = some q → p.1 ≠ q.1

theorem inv_new (n : ℕ) : Inv (new n) := by simp [Inv, new]

theorem inv_step (cb : List ℚ → CbOut) (s t : S) (o : Op) (hi : Inv s) (h : step cb s o = some t) : Inv t := by
  obtain ⟨a, b, c⟩ := hi
  cases o with
  | solve x => simp only [step] at h; split at h <;> simp at h; subst h; exact ⟨a, b, c⟩
  | setCol x => simp only [step] at h; split at h <;> simp at h; subst h; exact ⟨a, b, c⟩
  | touch => simp only [step, Option.some.injEq] at h; subst h; exact ⟨a, b, c⟩
  | refused => simp only [step, Option.some.injEq] at h; subst h; exact ⟨a, b, c⟩
  | coef =>
    simp only [step, coef] at h
    split at h
    · simp at h
    · split at h
      · simp at h
      · simp at h; subst h
        exact ⟨by simp, fun p hp => ⟨Nat.lt_succ_of_lt (b p hp).1, (b p hp).2⟩, by simp⟩
      · simp at h; subst h
        refine ⟨by simp, fun p hp => ⟨Nat.lt_succ_of_lt (b p hp).1, (b p hp).2⟩, fun p q hp hq => ?_⟩
        simp at hp
        have := (b q hq).1
        rw [← hp]
        exact (Nat.ne_of_gt this)
  | redCost =>
    simp only [step, redCost, Option.some.injEq] at h
    subst h
    cases hr : s.red with
    | some p => exact ⟨a, b, c⟩
    | none =>
      refine ⟨fun p hp => Nat.lt_succ_of_lt (a p hp), ?_, fun p q hp hq => ?_⟩
      · intro p hp
        simp at hp
        subst hp
        exact ⟨Nat.lt_succ_self _, rfl⟩
      · simp at hq
        rw [← hq]
        exact Nat.ne_of_lt (a p hp)

theorem inv_run (cb : List ℚ → CbOut) : ∀ (os : List Op) (s t : S), Inv s → run cb s os = some t → Inv t
  | [], s, t, hi, h => by simp [run] at h; subst h; exact hi
  | o :: os, s, t, hi, h => by
    simp only [run] at h
    cases hs : step cb s o with
    | none => simp [hs] at h
    | some u => simp only [hs, Option.bind_some] at h; exact inv_run cb os u t (inv_step cb s u o hi hs) h

/-- **C252.** Reduced costs are zero for every column, and the array returned stays. -/
theorem redCost_zero (cb : List ℚ → CbOut) (n : ℕ) (os : List Op) (s : S) (hs : run cb (new n) os = some s) :
    (redCost s).2.2 = List.replicate n 0 := by
  have hi := inv_run cb os _ s (inv_new n) hs
  have hn : s.n = n := (run_xsol cb os _ s hs).1
  unfold redCost
  cases hr : s.red with
  | some p => rw [← hn]; exact (hi.2.1 p hr).2
  | none => simp [hn]

theorem red_stays (cb : List ℚ → CbOut) (p : ℕ × List ℚ) : ∀ (os : List Op) (s t : S), s.red = some p → run cb s os = some t → t.red = some p
  | [], s, t, hp, h => by simp [run] at h; subst h; exact hp
  | o :: os, s, t, hp, h => by
    simp only [run] at h
    cases hs : step cb s o with
    | none => simp [hs] at h
    | some u =>
      simp only [hs, Option.bind_some] at h
      refine red_stays cb p os u t ?_ h
      cases o with
      | solve x => simp only [step] at hs; split at hs <;> simp at hs; subst hs; exact hp
      | setCol x => simp only [step] at hs; split at hs <;> simp at hs; subst hs; exact hp
      | touch => simp only [step, Option.some.injEq] at hs; subst hs; exact hp
      | refused => simp only [step, Option.some.injEq] at hs; subst hs; exact hp
      | coef =>
        simp only [step, coef] at hs
        split at hs
        · simp at hs
        · split at hs <;> simp at hs <;> subst hs <;> exact hp
      | redCost =>
        simp only [step, redCost, hp, Option.some.injEq] at hs
        subst hs
        exact hp

/-- **C252.** The array of reduced costs exists after all later calls, with its zeros. -/
theorem redCost_stays (cb : List ℚ → CbOut) (s t : S) (os : List Op) (h : run cb (redCost s).1 os = some t) : Live t (redCost s).2 := by
  refine .inr (red_stays cb _ os _ t ?_ h)
  unfold redCost
  cases hr : s.red <;> simp [hr]

/-- An array of coefficients that has not been freed, or was freed. -/
theorem obj_follow (cb : List ℚ → CbOut) (p : ℕ × List ℚ) : ∀ (os : List Op) (s t : S), Inv s → p.1 < s.next → s.red ≠ some p →
    run cb s os = some t → (Live t p ↔ s.obj = some p ∧ Op.coef ∉ os)
  | [], s, t, hi, hn, hr, h => by simp [run] at h; subst h; simp [Live, hr]
  | o :: os, s, t, hi, hn, hr, h => by
    simp only [run] at h
    cases hs : step cb s o with
    | none => simp [hs] at h
    | some u =>
      simp only [hs, Option.bind_some] at h
      have hiu := inv_step cb s u o hi hs
      have key : u.next ≥ s.next ∧ u.red ≠ some p ∧ (u.obj = some p ↔ s.obj = some p ∧ o ≠ .coef) := by
        cases o with
        | solve x => simp only [step] at hs; split at hs <;> simp at hs; subst hs; simp [hr]
        | setCol x => simp only [step] at hs; split at hs <;> simp at hs; subst hs; simp [hr]
        | touch => simp only [step, Option.some.injEq] at hs; subst hs; simp [hr]
        | refused => simp only [step, Option.some.injEq] at hs; subst hs; simp [hr]
        | coef =>
          simp only [step, coef] at hs
          split at hs
          · simp at hs
          · split at hs
            · simp at hs
            · simp at hs; subst hs; simp [hr]
            · simp at hs; subst hs
              refine ⟨Nat.le_succ _, hr, ?_⟩
              simp only [Option.some.injEq, ne_eq, not_true_eq_false, and_false, iff_false]
              rintro rfl
              exact absurd hn (Nat.lt_irrefl _)
        | redCost =>
          simp only [step, redCost, Option.some.injEq] at hs
          subst hs
          cases hr' : s.red with
          | some q => exact ⟨Nat.le_refl _, hr, by simp⟩
          | none =>
            refine ⟨Nat.le_succ _, ?_, by simp⟩
            simp only [ne_eq, Option.some.injEq]
            rintro rfl
            exact absurd hn (Nat.lt_irrefl _)
      rw [obj_follow cb p os u t hiu (lt_of_lt_of_le hn key.1) key.2.1 h, key.2.2]
      simp only [List.mem_cons, not_or, ne_eq, and_assoc, eq_comm (a := Op.coef)]

/-- **C252.** The array of coefficients returned exists until the next call of `getObjCoefficients`, exactly. -/
theorem coef_lives_iff (cb : List ℚ → CbOut) (n : ℕ) (pre os : List Op) (s t u : S) (p : ℕ × List ℚ) (hs : run cb (new n) pre = some s)
    (hc : coef cb s = some (t, some p)) (h : run cb t os = some u) : Live u p ↔ Op.coef ∉ os := by
  have hi := inv_run cb pre _ s (inv_new n) hs
  have ht : step cb s .coef = some t := by simp [step, hc]
  have hit := inv_step cb s t .coef hi ht
  have ho : t.obj = some p ∧ p.1 < t.next := by
    unfold coef at hc
    split at hc
    · simp at hc
    · split at hc
      · simp at hc
      · simp at hc
      · simp at hc
        obtain ⟨rfl, rfl⟩ := hc
        exact ⟨rfl, Nat.lt_succ_self _⟩
  rw [obj_follow cb p os t u hit ho.2 (fun hr => hit.2.2 p p ho.1 hr rfl) h]
  simp [ho.1]

example : run (idCb 1) (new 1) [.setCol [0], .solve [1]] = some ⟨1, [1], [0], true, none, none, 0⟩ ∧
    coef (idCb 1) ⟨1, [1], [0], true, none, none, 0⟩ = some (⟨1, [1], [0], true, some (0, [1]), none, 1⟩, some (0, [1])) ∧
    run (idCb 1) ⟨1, [1], [0], true, some (0, [1]), none, 1⟩ [.touch, .redCost] = some ⟨1, [1], [0], false, some (0, [1]), some (1, [0]), 2⟩ := by decide +kernel

/-- **C252.** If the callback fails there is no array, also not the one of the call before. -/
theorem coef_failed (cb : List ℚ → CbOut) (s t : S) (h : coef cb s = some (t, none)) : t.obj = none ∧ s.n ≠ 0 ∧ cb s.xsol = .fail := by
  unfold coef at h
  split at h
  · simp at h
  · rename_i hn
    split at h
    · simp at h
    · rename_i hf; simp at h; subst h; exact ⟨rfl, hn, hf⟩
    · simp at h

example : coef (fun _ => .fail) ⟨1, [1], [0], true, some (0, [1]), none, 1⟩ = some (⟨1, [1], [0], true, none, none, 2⟩, none) := by decide +kernel

/-! ## What does not hold -/

/-- **C252 (refuted).** After `setColSolution` the coefficients are still those at the point of the last solve. -/
theorem stale_point : ∃ s, run (idCb 1) (new 1) [.solve [1], .setCol [5]] = some s ∧ colSol s = [5] ∧
    (coef (idCb 1) s).map (·.2) = some (some (0, [1])) :=
  ⟨⟨1, [1], [5], false, none, none, 0⟩, by decide +kernel⟩

/-- **C252 (refuted).** Before the first solve a nonlinear objective is evaluated at a point that does not exist, also if a point was given. -/
theorem unsolved_undefined : ∃ s, run (idCb 1) (new 1) [.setCol [0]] = some s ∧ colSol s = [0] ∧ coef (idCb 1) s = none :=
  ⟨⟨1, [], [0], false, none, none, 0⟩, by decide +kernel⟩

/-- **C252 (refuted).** Without columns the call writes before its array. -/
theorem no_columns_undefined (cb : List ℚ → CbOut) : coef cb (new 0) = none := rfl

/-- **C252 (refuted).** The coefficients returned before are gone after the next call, also if they are the same. -/
theorem earlier_array_gone : ∃ s t u p q, run (idCb 1) (new 1) [.setCol [0], .solve [1]] = some s ∧ coef (idCb 1) s = some (t, some p) ∧
    coef (idCb 1) t = some (u, some q) ∧ p.2 = q.2 ∧ ¬ Live u p :=
  ⟨⟨1, [1], [0], true, none, none, 0⟩, ⟨1, [1], [0], true, some (0, [1]), none, 1⟩, ⟨1, [1], [0], true, some (1, [1]), none, 2⟩, (0, [1]), (1, [1]),
    by decide +kernel, by decide +kernel, by decide +kernel, rfl, by simp [Live]⟩

/-- Specification: the point shown to callers: where the last solve ended as long as nothing was changed since, else what was last given as starting point, nothing if none was. -/
def shown : List ℚ × List ℚ × Bool → List Op → List ℚ
  | (x, i, o), [] => if o then x else i
  | (_, i, _), .solve x :: os => shown (x, i, true) os
  | (x, _, _), .setCol i :: os => shown (x, i, false) os
  | (x, i, _), .touch :: os => shown (x, i, false) os
  | p, _ :: os => shown p os

/-- **C252.** After any calls on a new interface `getColSolution` shows the point of the last solve if nothing was changed since, otherwise the starting point given last, and nothing before that. -/
theorem col_exact (cb : List ℚ → CbOut) (n : ℕ) (ops : List Op) (s : S) (h : run cb (new n) ops = some s) : colSol s = shown ([], [], false) ops := by
  have key : ∀ (ops : List Op) (t s : S), run cb t ops = some s → colSol s = shown (t.xsol, t.xinit, t.opt) ops := by
    intro ops
    induction ops with
    | nil => intro t s h; simp only [run, Option.some.injEq] at h; subst h; rfl
    | cons o os ih =>
      intro t s h
      simp only [run, Option.bind_eq_some_iff] at h
      obtain ⟨u, hu, h⟩ := h
      have := ih u s h
      rw [this]
      cases o with
      | solve x => simp only [step] at hu; split at hu <;> simp_all; subst hu; simp [shown]
      | setCol x => simp only [step] at hu; split at hu <;> simp_all; subst hu; simp [shown]
      | touch => simp only [step, Option.some.injEq] at hu; subst hu; simp [shown]
      | refused => simp only [step, Option.some.injEq] at hu; subst hu; simp [shown]
      | coef =>
        simp only [step, coef] at hu
        split at hu
        · simp at hu
        · split at hu <;> simp at hu <;> subst hu <;> simp [shown]
      | redCost =>
        simp only [step, redCost, Option.some.injEq] at hu
        subst hu
        split <;> simp [shown]
  exact key ops (new n) s h

example : shown ([], [], false) [.setCol [0], .solve [1], .redCost, .touch, .refused] = [0] := rfl

end Verif.Itf.ObjCoef

import Verif.Dec.Convex
import Mathlib.Tactic.FinCases
import Mathlib.Tactic.IntervalCases
/-!
# C311, C312: the problem shipped as an example

`examples/CppExample/MyTMINLP.cpp` (the same file in `examples/OptionDocGen`); `examples/CExample/MyBonmin.c` and the arrays in `examples/CExample/main.c` have the same values.
Line numbers without a file name refer to `examples/CppExample/MyTMINLP.cpp`.  A failed assert is `none`; `none` as a bound is `DBL_MAX` or its negative.
-/
namespace Verif.Dec.Ship
open Verif.Oa Verif.Div Verif.Bab.Search

inductive VType where
  | continuous
  | binary
  | integer
deriving DecidableEq

/-- `get_nlp_info` (43-53): columns, rows, entries of Jacobian and Hessian, indices from 1. -/
def nlpInfo : ℕ × ℕ × ℕ × ℕ × Bool := (4, 3, 7, 2, true)

/-- `get_variables_types` (12-20). -/
def types : List VType := [.binary, .continuous, .continuous, .integer]

/-- `get_variables_linearity` (23-31); `true` is `LINEAR`. -/
def varLinear : List Bool := [true, false, false, true]

/-- `get_constraints_linearity` (34-42). -/
def rowLinear (m : ℕ) : Option (List Bool) := if m = 3 then some [false, true, true] else none

/-- `get_bounds_info` (55-81): bounds of columns and rows. -/
def bounds (n m : ℕ) : Option (List (Option ℚ × Option ℚ) × List (Option ℚ × Option ℚ)) :=
  if n = 4 ∧ m = 3 then some ([(some 0, some 1), (some 0, none), (some 0, none), (some 0, some 5)], [(none, some (1 / 4)), (none, some 0), (none, some 2)]) else none

/-- `get_starting_point` (83-99). -/
def startPoint (n m : ℕ) (initX initLambda : Bool) : Option (List ℚ) := if n = 4 ∧ m = 3 ∧ initX = true ∧ initLambda = false then some [0, 0, 0, 0] else none

/-- `eval_f` (101-107). -/
def evalF (n : ℕ) (x : ℕ → ℚ) : Option ℚ := if n = 4 then some (-x 0 - x 1 - x 2) else none

/-- `eval_grad_f` (109-118). -/
def evalGrad (n : ℕ) (_x : ℕ → ℚ) : Option (List ℚ) := if n = 4 then some [-1, -1, -1, 0] else none

/-- `eval_g` (120-131). -/
def evalG (n m : ℕ) (x : ℕ → ℚ) : Option (List ℚ) :=
  if n = 4 ∧ m = 3 then some [(x 1 - 1 / 2) * (x 1 - 1 / 2) + (x 2 - 1 / 2) * (x 2 - 1 / 2), x 0 - x 1, x 0 + x 2 + x 3] else none

/-- `eval_jac_g` without values (138-162): row and column of each entry, from 1. -/
def jacPos (n nnz : ℕ) : Option (List (ℕ × ℕ)) := if n = 4 ∧ nnz = 7 then some [(2, 1), (3, 1), (1, 2), (2, 2), (1, 3), (3, 3), (3, 4)] else none

/-- `eval_jac_g` with values (163-177). -/
def jacVal (n nnz : ℕ) (x : ℕ → ℚ) : Option (List ℚ) := if n = 4 ∧ nnz = 7 then some [1, 1, 2 * x 1 - 1, -1, 2 * x 2 - 1, 1, 1] else none

/-- `eval_h` without values (180-196). -/
def hessPos (n m nnz : ℕ) : Option (List (ℕ × ℕ)) := if n = 4 ∧ m = 3 ∧ nnz = 2 then some [(2, 2), (3, 3)] else none

/-- `eval_h` with values (197-201). -/
def hessVal (n m nnz : ℕ) (_x : ℕ → ℚ) (_factor : ℚ) (lam : ℕ → ℚ) : Option (List ℚ) := if n = 4 ∧ m = 3 ∧ nnz = 2 then some [2 * lam 0, 2 * lam 0] else none

/-! ## Specification -/

/-- The problem as documented (examples/CppExample/MyTMINLP.hpp:14-26): objective and feasible points. -/
def docF (x : ℕ → ℚ) : ℚ := -x 0 - x 1 - x 2

structure DocFeas (x : ℕ → ℚ) : Prop where
  disc : (x 1 - 1 / 2) ^ 2 + (x 2 - 1 / 2) ^ 2 ≤ 1 / 4
  row1 : x 0 - x 1 ≤ 0
  row2 : x 0 + x 2 + x 3 ≤ 2
  bin : x 0 = 0 ∨ x 0 = 1
  int : ∃ k : ℕ, k ≤ 5 ∧ x 3 = k

/-- A value within bounds. -/
def Within (b : Option ℚ × Option ℚ) (v : ℚ) : Prop := (∀ l, b.1 = some l → l ≤ v) ∧ ∀ u, b.2 = some u → v ≤ u

/-- A value a column of this type may take. -/
def Allowed : VType → ℚ → Prop
  | .continuous, _ => True
  | .binary, v => v = 0 ∨ v = 1
  | .integer, v => ∃ k : ℤ, v = k

/-- A point of the problem the callbacks define. -/
def CodeFeas (x : ℕ → ℚ) : Prop :=
  ∃ bx bg g, bounds nlpInfo.1 nlpInfo.2.1 = some (bx, bg) ∧ evalG nlpInfo.1 nlpInfo.2.1 x = some g ∧
    (∀ j b, bx[j]? = some b → Within b (x j)) ∧ (∀ j t, types[j]? = some t → Allowed t (x j)) ∧ ∀ (i : ℕ) b v, bg[i]? = some b → g[i]? = some v → Within b v

/-- The sum of `values[k] * d(column of k) * lam(row of k)` over the entries of a sparse matrix with indices from 1. -/
def form (pos : List (ℕ × ℕ)) (val : List ℚ) (lam d : ℕ → ℚ) : ℚ := ((pos.zip val).map fun p => p.2 * lam (p.1.1 - 1) * d (p.1.2 - 1)).sum

/-- The same for a symmetric matrix given by one triangle. -/
def symForm (pos : List (ℕ × ℕ)) (val : List ℚ) (d : ℕ → ℚ) : ℚ :=
  ((pos.zip val).map fun p => (if p.1.1 = p.1.2 then 1 else 2) * p.2 * d (p.1.1 - 1) * d (p.1.2 - 1)).sum

/-- `Σ lam(i) * v[i]`. -/
def dotL (lam : ℕ → ℚ) (v : List ℚ) : ℚ := (v.zipIdx.map fun p => lam p.2 * p.1).sum

/-! ## C311 -/

/-- **C311.**  The callbacks define the documented problem. -/
theorem documented (x : ℕ → ℚ) : evalF nlpInfo.1 x = some (docF x) ∧ (CodeFeas x ↔ DocFeas x) := by
  refine ⟨rfl, ?_, ?_⟩
  · rintro ⟨bx, bg, g, h1, h2, h3, h4, h5⟩
    obtain ⟨rfl, rfl⟩ : _ ∧ _ := by simpa [bounds, nlpInfo] using h1
    obtain rfl : _ = g := by simpa [evalG, nlpInfo] using h2
    have r0 := (h5 0 _ _ rfl rfl).2 _ rfl
    have r1 := (h5 1 _ _ rfl rfl).2 _ rfl
    have r2 := (h5 2 _ _ rfl rfl).2 _ rfl
    obtain ⟨k, hk⟩ := h4 3 _ rfl
    have b3 := h3 3 _ rfl
    have l3 := b3.1 0 rfl
    have u3 := b3.2 5 rfl
    rw [hk] at l3 u3
    have l3' : 0 ≤ k := by exact_mod_cast l3
    have u3' : k ≤ 5 := by exact_mod_cast u3
    obtain ⟨m, rfl⟩ := Int.eq_ofNat_of_zero_le l3'
    exact ⟨by nlinarith, r1, r2, h4 0 _ rfl, m, by omega, by rw [hk]; simp⟩
  · intro h
    refine ⟨_, _, _, rfl, rfl, ?_, ?_, ?_⟩
    · have hd := h.disc
      have p1 : 0 ≤ x 1 := by nlinarith [sq_nonneg (x 2 - 1 / 2)]
      have p2 : 0 ≤ x 2 := by nlinarith [sq_nonneg (x 1 - 1 / 2)]
      intro j b hb
      rcases j with _ | _ | _ | _ | j
      · cases hb
        rcases h.bin with h0 | h0 <;> rw [h0] <;> exact ⟨fun l hl => by cases hl; norm_num, fun u hu => by cases hu; norm_num⟩
      · cases hb; exact ⟨fun l hl => by cases hl; exact p1, fun u hu => by cases hu⟩
      · cases hb; exact ⟨fun l hl => by cases hl; exact p2, fun u hu => by cases hu⟩
      · cases hb
        obtain ⟨k, hk, e⟩ := h.int
        rw [e]
        exact ⟨fun l hl => by cases hl; positivity, fun u hu => by cases hu; exact_mod_cast hk⟩
      · simp at hb
    · intro j t ht
      rcases j with _ | _ | _ | _ | j
      · cases ht; exact h.bin
      · cases ht; trivial
      · cases ht; trivial
      · cases ht
        obtain ⟨k, _, e⟩ := h.int
        exact ⟨k, by rw [e]; simp⟩
      · simp [types] at ht
    · intro i b v hb hv
      rcases i with _ | _ | _ | i
      · cases hb; cases hv
        exact ⟨fun l hl => (by cases hl), fun u hu => by cases hu; nlinarith [h.disc]⟩
      · cases hb; cases hv
        exact ⟨fun l hl => (by cases hl), fun u hu => by cases hu; exact h.row1⟩
      · cases hb; cases hv
        exact ⟨fun l hl => (by cases hl), fun u hu => by cases hu; exact h.row2⟩
      · simp at hb

/-- **C311.**  Gradient, Jacobian and Hessian are the derivatives: for all weights of objective and rows, the weighted sum of the functions at `x + d` is its second-order expansion at `x`. -/
theorem derivatives (x d : ℕ → ℚ) (s : ℚ) (lam : ℕ → ℚ) :
    ∃ f0 f1 g0 g1 gr jp jv hp hv, evalF nlpInfo.1 x = some f0 ∧ evalF nlpInfo.1 (fun j => x j + d j) = some f1 ∧ evalG nlpInfo.1 nlpInfo.2.1 x = some g0 ∧
      evalG nlpInfo.1 nlpInfo.2.1 (fun j => x j + d j) = some g1 ∧ evalGrad nlpInfo.1 x = some gr ∧ jacPos nlpInfo.1 nlpInfo.2.2.1 = some jp ∧ jacVal nlpInfo.1 nlpInfo.2.2.1 x = some jv ∧
      hessPos nlpInfo.1 nlpInfo.2.1 nlpInfo.2.2.2.1 = some hp ∧ hessVal nlpInfo.1 nlpInfo.2.1 nlpInfo.2.2.2.1 x s lam = some hv ∧
      s * f1 + dotL lam g1 = s * f0 + dotL lam g0 + s * dotL d gr + form jp jv lam d + 1 / 2 * symForm hp hv d := by
  refine ⟨_, _, _, _, _, _, _, _, _, rfl, rfl, rfl, rfl, rfl, rfl, rfl, rfl, rfl, ?_⟩
  simp [dotL, form, symForm, List.zipIdx]
  ring

/-- **C311.**  The sparse structures are as announced: as many values as positions and as announced, no position twice, indices in range, the Hessian in the lower triangle. -/
theorem structures : ∃ jp hp, jacPos nlpInfo.1 nlpInfo.2.2.1 = some jp ∧ hessPos nlpInfo.1 nlpInfo.2.1 nlpInfo.2.2.2.1 = some hp ∧ jp.length = nlpInfo.2.2.1 ∧ hp.length = nlpInfo.2.2.2.1 ∧
    jp.Nodup ∧ hp.Nodup ∧ (∀ p ∈ jp, 1 ≤ p.1 ∧ p.1 ≤ nlpInfo.2.1 ∧ 1 ≤ p.2 ∧ p.2 ≤ nlpInfo.1) ∧ (∀ p ∈ hp, 1 ≤ p.2 ∧ p.2 ≤ p.1 ∧ p.1 ≤ nlpInfo.1) ∧
    (∀ x, (jacVal nlpInfo.1 nlpInfo.2.2.1 x).map List.length = some jp.length) ∧ ∀ x s lam, (hessVal nlpInfo.1 nlpInfo.2.1 nlpInfo.2.2.2.1 x s lam).map List.length = some hp.length :=
  ⟨_, _, rfl, rfl, rfl, rfl, by decide, by decide, by decide, by decide, fun _ => rfl, fun _ _ _ => rfl⟩

/-- **C311.**  The flags are right: a row is declared linear exactly when its entries of the Jacobian do not depend on the point, a column exactly when it does not appear in the Hessian. -/
theorem flags : ∃ rl jp hp, rowLinear nlpInfo.2.1 = some rl ∧ jacPos nlpInfo.1 nlpInfo.2.2.1 = some jp ∧ hessPos nlpInfo.1 nlpInfo.2.1 nlpInfo.2.2.2.1 = some hp ∧
    (∀ i b, rl[i]? = some b → (b = true ↔ ∀ (x y : ℕ → ℚ) (k : ℕ) (p : ℕ × ℕ), jp[k]? = some p → p.1 = i + 1 →
      (jacVal nlpInfo.1 nlpInfo.2.2.1 x).map (fun v => v[k]?) = (jacVal nlpInfo.1 nlpInfo.2.2.1 y).map (fun v => v[k]?))) ∧
    ∀ j b, varLinear[j]? = some b → (b = true ↔ ∀ p ∈ hp, p.1 ≠ j + 1 ∧ p.2 ≠ j + 1) := by
  refine ⟨_, _, _, rfl, rfl, rfl, ?_, ?_⟩
  · intro i b hb
    rcases i with _ | _ | _ | i
    · cases hb
      refine ⟨fun h => absurd h (by decide), fun h => ?_⟩
      have := h (fun _ => 0) (fun _ => 1) 2 (1, 2) rfl rfl
      norm_num [jacVal, nlpInfo] at this
    · cases hb
      refine ⟨fun _ x y k p hk hp => ?_, fun _ => rfl⟩
      rcases k with _ | _ | _ | _ | _ | _ | _ | k <;> first | (cases hk; simp at hp; done) | simp [jacVal, nlpInfo]
    · cases hb
      refine ⟨fun _ x y k p hk hp => ?_, fun _ => rfl⟩
      rcases k with _ | _ | _ | _ | _ | _ | _ | k <;> first | (cases hk; simp at hp; done) | simp [jacVal, nlpInfo]
    · simp at hb
  · intro j b hb
    rcases j with _ | _ | _ | _ | j
    · cases hb; decide
    · cases hb; decide
    · cases hb; decide
    · cases hb; decide
    · simp [varLinear] at hb

/-- The optimal solution. -/
def best : ℕ → ℚ := fun j => if j = 0 then 1 else if j = 1 then 1 else if j = 2 then 1 / 2 else 0

/-- **C311.**  The problem has exactly one optimal solution: (1, 1, 1/2, 0) with the value -5/2. -/
theorem optimum (x : ℕ → ℚ) (h : DocFeas x) : -5 / 2 ≤ docF x ∧ (docF x = -5 / 2 ↔ ∀ j < 4, x j = best j) := by
  obtain ⟨h1, h2, h3, h4, k, hk, h5⟩ := h
  have a1 : x 1 ≤ 1 := by nlinarith [sq_nonneg (x 2 - 1 / 2)]
  have a2 : x 2 ≤ 1 := by nlinarith [sq_nonneg (x 1 - 1 / 2)]
  have key : x 0 = 1 → x 1 = 1 ∧ x 2 = 1 / 2 := by
    intro h0
    have e1 : x 1 = 1 := by linarith
    refine ⟨e1, ?_⟩
    rw [e1] at h1
    have : (x 2 - 1 / 2) ^ 2 ≤ 0 := by linarith
    have : x 2 - 1 / 2 = 0 := pow_eq_zero_iff (two_ne_zero) |>.mp (le_antisymm this (sq_nonneg _))
    linarith
  unfold docF
  refine ⟨?_, ?_, ?_⟩
  · rcases h4 with h0 | h0
    · linarith
    · obtain ⟨e1, e2⟩ := key h0; rw [h0, e1, e2]; norm_num
  · intro he
    rcases h4 with h0 | h0
    · exfalso; linarith
    · obtain ⟨e1, e2⟩ := key h0
      have hk0 : k = 0 := by
        rw [h0, e2, h5] at h3
        by_contra hne
        have : (1 : ℚ) ≤ k := by exact_mod_cast Nat.one_le_iff_ne_zero.mpr hne
        linarith
      intro j hj
      interval_cases j
      · exact h0
      · exact e1
      · rw [e2]; norm_num [best]
      · rw [h5, hk0]; norm_num [best]
  · intro he
    rw [he 0 (by norm_num), he 1 (by norm_num), he 2 (by norm_num)]
    norm_num [best]

/-- The optimal solution is one: the problem is not empty. -/
example : DocFeas best ∧ docF best = -5 / 2 := ⟨⟨by norm_num [best], by norm_num [best], by norm_num [best], Or.inr (by norm_num [best]), 0, by norm_num, by norm_num [best]⟩, by norm_num [docF, best]⟩

/-! ## C312: the outer approximation of this problem -/

/-- The problem as the interface sees it: the callbacks, indices from 0, the objective variable at index 4 (the objective is not declared linear, so it is linearised). -/
def prob : Cvx.Prob where
  T := ⟨10 ^ 30, 10 ^ 20, 1 / 10 ^ 6, 1 / 10 ^ 17, 0⟩
  vt := 1 / 10 ^ 15
  n := 4
  cl := fun j => if j = 4 then -10 ^ 30 else 0
  cu := fun j => if j = 0 then 1 else if j = 3 then 5 else if j ≤ 4 then 10 ^ 30 else 0
  m := 3
  nonlin := fun i => i == 0
  rl := fun _ => -10 ^ 30
  ru := fun i => if i = 0 then 1 / 4 else if i = 1 then 0 else 2
  G := fun i x => ((evalG 4 3 x).getD []).getD i 0
  jac := fun x => (((jacPos 4 7).getD []).zip ((jacVal 4 7 x).getD [])).map fun p => (p.1.1 - 1, p.1.2 - 1, p.2)
  F := fun x => (evalF 4 x).getD 0
  grad := fun x => ((evalGrad 4 x).getD []).zipIdx.map fun p => (p.2, p.1)

/-- The integer columns. -/
def ints (y : Cvx.Pt prob) : List ℚ := [y.1 0, y.1 3]

/-- A point with the objective variable at `a`. -/
def pt (x0 x1 x2 x3 a : ℚ) (h : (0 ≤ x0 ∧ x0 ≤ 1) ∧ 0 ≤ x1 ∧ 0 ≤ x2 ∧ 0 ≤ x3 ∧ x3 ≤ 5) : Cvx.Pt prob :=
  ⟨fun j => if j = 0 then x0 else if j = 1 then x1 else if j = 2 then x2 else if j = 3 then x3 else if j = 4 then a else 0, by
    intro j
    rcases j with _ | _ | _ | _ | _ | j
    · exact ⟨fun _ => h.1.1, fun _ => h.1.2⟩
    · exact ⟨fun _ => h.2.1, fun hh => absurd hh (by norm_num [prob])⟩
    · exact ⟨fun _ => h.2.2.1, fun hh => absurd hh (by norm_num [prob])⟩
    · exact ⟨fun _ => h.2.2.2.1, fun _ => h.2.2.2.2⟩
    · exact ⟨fun hh => absurd hh (by norm_num [prob]), fun hh => absurd hh (by norm_num [prob])⟩
    · have hj : ¬ j + 1 + 1 + 1 + 1 < 4 := by omega
      exact ⟨fun _ => by simp [prob], fun _ => by simp [prob, hj]⟩⟩

/-- The solution of the NLP with the integers of the optimum, and a point with the same integers and value -3. -/
def opt : Cvx.Pt prob := pt 1 1 (1 / 2) 0 (-5 / 2) (by norm_num)
def again : Cvx.Pt prob := pt 1 1 1 0 (-3) (by norm_num)

/-- The problem is convex and its linearisation at the optimum exact. -/
theorem convex : Cvx.Convex prob (· = opt) where
  inf := by norm_num [prob]
  relax := by norm_num [prob]
  rows := by intro x t ht; simp [prob, jacPos, jacVal] at ht; rcases ht with rfl | rfl | rfl | rfl | rfl | rfl | rfl <;> simp [prob]
  up := by
    intro i hi hn _ x y
    have : i = 0 := by simpa [prob] using hn
    subst this
    simp [Cvx.expand, prob, rowEntries, lin, jacPos, jacVal, evalG]
    nlinarith [sq_nonneg (x.1 1 - y.1 1), sq_nonneg (x.1 2 - y.1 2)]
  lo := by intro i _ _ h; exact absurd h (by norm_num [prob])
  obj := by
    intro x y
    simp [prob, lin, evalF, evalGrad, List.zipIdx]
    linarith
  jacBig := by
    rintro x rfl t ht
    simp [prob, jacPos, jacVal, opt, pt] at ht
    rcases ht with rfl | rfl | rfl | rfl | rfl | rfl | rfl <;> norm_num [prob]
  gradBig := by
    rintro x rfl e he
    simp [prob, evalGrad, List.zipIdx] at he
    rcases he with rfl | rfl | rfl | rfl <;> norm_num [prob]

/-- **C312.**  The cuts made at the optimum are `x1 ≤ 1` and `-x0 - x1 - x2 ≤ α`: the derivative of the nonlinear row with respect to `x2` is zero there, so its cut does not bound `x2` at all. -/
theorem cuts_at_optimum (dual : ℕ → ℚ) (theta : ℚ) (lp : Bool) :
    Cvx.cutsAt prob dual none theta lp opt = [⟨[(1, 1)], -10 ^ 30, 1⟩, ⟨[(0, -1), (1, -1), (2, -1), (4, -1)], -10 ^ 30, 0⟩] := by
  have hj : ∀ t ∈ prob.jac opt.1, t.1 < ((List.range prob.m).map (Cvx.rowAt prob dual opt)).length := by simpa using convex.rows opt
  have hrows := oa_rows_exact (T := prob.T) (cl := prob.cl) (cu := prob.cu) (x := opt.1) hj theta lp
  have hall := (oa_exact (T := prob.T) (cl := prob.cl) (cu := prob.cu) (x := opt.1) (rows := (List.range prob.m).map (Cvx.rowAt prob dual opt)) (jac := prob.jac opt.1) none theta lp).2 prob.n
    (prob.F opt.1) (prob.grad opt.1) prob.vt _ hrows
  have hn : nlRows ((List.range prob.m).map (Cvx.rowAt prob dual opt)) 0 = [(Cvx.rowAt prob dual opt 0, 0)] := by
    simp [nlRows, prob, Cvx.rowAt, List.range_succ]
  have hd : rowOa prob.T prob.cl prob.cu opt.1 (Cvx.rowAt prob dual opt 0) (rowEntries (prob.jac opt.1) 0) =
      rowOa prob.T prob.cl prob.cu opt.1 (Cvx.rowAt prob (fun _ => 0) opt 0) (rowEntries (prob.jac opt.1) 0) := by
    have hi : initCut prob.T (Cvx.rowAt prob dual opt 0) = initCut prob.T (Cvx.rowAt prob (fun _ => 0) opt 0) := by
      simp [initCut, Cvx.rowAt, prob]
    unfold rowOa
    rw [hi]
    rfl
  have he : [relaxRhs prob.T (rowOa prob.T prob.cl prob.cu opt.1 (Cvx.rowAt prob (fun _ => 0) opt 0) (rowEntries (prob.jac opt.1) 0)),
      objOa prob.T prob.vt prob.cl prob.cu opt.1 prob.n (prob.F opt.1) (prob.grad opt.1)] =
      [⟨[(1, 1)], -10 ^ 30, 1⟩, ⟨[(0, -1), (1, -1), (2, -1), (4, -1)], -10 ^ 30, 0⟩] := by decide +kernel
  unfold Cvx.cutsAt
  rw [Option.map_none, hall, hn]
  simp only [List.map_cons, List.map_nil, hd]
  rw [← he]
  simp

/-- **C312 (refuted).** The outer approximation at the solution of an NLP does not keep the master problem from proposing its integers again, not even for the convex problem shipped as an example:
with the integers of the optimum fixed, one point is feasible, with the value -5/2; the cuts made there, all linear rows and all bounds allow a point with the same integers and the value -3. -/
theorem proposed_again (dual : ℕ → ℚ) (theta : ℚ) (lp : Bool) :
    Cvx.Feas prob opt ∧ prob.F opt.1 = -5 / 2 ∧ (∀ y, Cvx.Feas prob y → ints y = ints opt → y.1 1 = 1 ∧ y.1 2 = 1 / 2) ∧
    (∀ c ∈ Cvx.cutsAt prob dual none theta lp opt, Sat prob.T.inf c again.1) ∧ (∀ i < prob.m, prob.nonlin i = false → prob.G i again.1 ≤ prob.ru i) ∧
    ints again = ints opt ∧ again.1 prob.n < prob.F opt.1 := by
  refine ⟨?_, ?_, ?_, ?_, ?_, ?_, ?_⟩
  · refine ⟨fun i hi => ⟨fun _ => ?_, fun h => absurd h (by norm_num [prob])⟩, by norm_num [prob, evalF, opt, pt]⟩
    have hi' : i < 3 := hi
    interval_cases i <;> norm_num [prob, evalG, opt, pt]
  · norm_num [prob, evalF, opt, pt]
  · intro y hy he
    have e0 : y.1 0 = 1 ∧ y.1 3 = 0 := by
      have : y.1 0 = opt.1 0 ∧ y.1 3 = opt.1 3 := by simpa [ints] using he
      refine ⟨this.1.trans (by norm_num [opt, pt]), this.2.trans (by norm_num [opt, pt])⟩
    have r0 := (hy.1 0 (by norm_num [prob])).1 (by norm_num [prob])
    have r1 := (hy.1 1 (by norm_num [prob])).1 (by norm_num [prob])
    simp [prob, evalG] at r0 r1
    have a1 : y.1 1 = 1 := by
      refine le_antisymm ?_ (by linarith [e0.1])
      nlinarith [sq_nonneg (y.1 2 - 1 / 2)]
    refine ⟨a1, ?_⟩
    rw [a1] at r0
    have : (y.1 2 - 1 / 2) ^ 2 ≤ 0 := by nlinarith
    have : y.1 2 - 1 / 2 = 0 := pow_eq_zero_iff (two_ne_zero) |>.mp (le_antisymm this (sq_nonneg _))
    linarith
  · rw [cuts_at_optimum]
    intro c hc
    simp at hc
    rcases hc with rfl | rfl <;> norm_num [Sat, act, again, pt, prob]
  · intro i hi hn
    have hi' : i < 3 := hi
    interval_cases i
    · simp [prob] at hn
    · norm_num [prob, evalG, again, pt]
    · norm_num [prob, evalG, again, pt]
  · norm_num [ints, opt, again, pt]
  · norm_num [prob, evalF, opt, again, pt]

/-- **C312 (refuted).** The condition under which the integers do not come back, first-order optimality of the solution of the NLP, holds for no multipliers at the optimum of the shipped problem. -/
theorem optimum_not_first_order (dual : ℕ → ℚ) : ¬ Cvx.FirstOrder prob ints ⟨true, -5 / 2, opt⟩ dual := by
  intro h
  have := h.opt rfl again (by norm_num [ints, opt, again, pt]) ?_
  · norm_num [prob, lin, evalGrad, List.zipIdx, opt, again, pt] at this
  · intro i hi
    have hi' : i < 3 := hi
    interval_cases i
    · refine ⟨fun hn => absurd hn (by simp [prob]), fun _ => ⟨fun _ => ?_, fun hl => absurd hl.1 (by norm_num [prob, Cvx.rowAt])⟩⟩
      simp [Cvx.expand, prob, rowEntries, lin, jacPos, jacVal, evalG, opt, again, pt]
      norm_num
    · exact ⟨fun _ => ⟨fun _ => by norm_num [prob, Cvx.rowAt, evalG, again, pt], fun hl => absurd hl (by norm_num [prob, Cvx.rowAt])⟩, fun hn => absurd hn (by simp [prob])⟩
    · exact ⟨fun _ => ⟨fun _ => by norm_num [prob, Cvx.rowAt, evalG, again, pt], fun hl => absurd hl (by norm_num [prob, Cvx.rowAt])⟩, fun hn => absurd hn (by simp [prob])⟩

/-- **C311.** The functions of the example are defined exactly for the sizes they are written for; the starting point only if it is asked for without multipliers. -/
theorem asserts (n m z : ℕ) (a b : Bool) (x lam : ℕ → ℚ) (f : ℚ) :
    (bounds n m ≠ none ↔ n = 4 ∧ m = 3) ∧ (startPoint n m a b ≠ none ↔ n = 4 ∧ m = 3 ∧ a = true ∧ b = false) ∧ (rowLinear m ≠ none ↔ m = 3) ∧ (evalF n x ≠ none ↔ n = 4) ∧ (evalGrad n x ≠ none ↔ n = 4) ∧
    (evalG n m x ≠ none ↔ n = 4 ∧ m = 3) ∧ (jacPos n z ≠ none ↔ n = 4 ∧ z = 7) ∧ (jacVal n z x ≠ none ↔ n = 4 ∧ z = 7) ∧ (hessPos n m z ≠ none ↔ n = 4 ∧ m = 3 ∧ z = 2) ∧
    (hessVal n m z x f lam ≠ none ↔ n = 4 ∧ m = 3 ∧ z = 2) ∧ (∀ s, startPoint n m a b = some s → s = List.replicate n 0) := by
  simp only [bounds, startPoint, rowLinear, evalF, evalGrad, evalG, jacPos, jacVal, hessPos, hessVal, ne_eq, ite_eq_right_iff, reduceCtorEq, imp_false, not_not, true_and]
  intro s h
  split at h
  · rename_i hh
    rw [hh.1]; exact (Option.some.inj h).symm
  · cases h
example : startPoint 4 3 true true = none ∧ jacPos 4 8 = none := by decide +kernel

end Verif.Dec.Ship

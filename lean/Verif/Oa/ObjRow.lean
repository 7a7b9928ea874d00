import Verif.Oa.Exact
/-! # C112: objective of the first linear relaxation

src/Interfaces/BonOsiTMINLPInterface.cpp: end of `extractLinearRelaxation` 2516-2534 (`getObj`), `addObjectiveFunction` 2539-2590.
Rows: `Verif.Oa.extract`. -/
namespace Verif.Oa.ObjRow

/-- The linear program as far as the objective goes: number of variables of the problem, cost, `OsiObjOffset`, rows; variable `n`, if any, is the objective variable. -/
structure Lp where
  n : ℕ
  extra : Bool
  cost : ℕ → ℚ
  offset : ℚ
  rows : List Cut

/-- Objective value of Osi: cost times point minus offset. -/
def Lp.value (p : Lp) (y : ℕ → ℚ) : ℚ := ((List.range (p.n + if p.extra then 1 else 0)).map fun i => p.cost i * y i).sum - p.offset

/-- Row of `addObjectiveFunction` (2555-2589); `m` = number of rows of the program: without rows other tolerances are used. -/
def objRow (T : Tol) (m : ℕ) (cl cu x : ℕ → ℚ) (n : ℕ) (f : ℚ) (grad : List (ℕ × ℚ)) : Cut :=
  let c := if m ≠ 0 then grad.foldl (objStep T T.vt cl cu x) ⟨[], -(10 ^ 300), -f⟩
    else grad.foldl (objStep { T with tiny := 1 / 10 ^ 3 } (1 / 10 ^ 8) cl cu x) ⟨[], -(10 ^ 300), -f⟩
  ⟨c.co ++ [(n, -1)], c.lb, c.ub⟩

/-- 2516-2534: objective of the program; `f0`, `fx` are the values at 0 and at the point, `grad` the gradient at the point. -/
def addObj (T : Tol) (linear : Bool) (cl cu x : ℕ → ℚ) (f0 fx : ℚ) (grad : ℕ → ℚ) (p : Lp) : Lp :=
  if linear then { p with offset := -f0, cost := grad }
  else { p with extra := true, cost := fun i => if i = p.n then 1 else p.cost i, rows := p.rows ++ [objRow T p.rows.length cl cu x p.n fx ((List.range p.n).map fun i => (i, grad i))] }

/-- The same with evaluations that may fail: the return values are ignored (2519-2521, 2555-2556) and the double that was to be set is then used uninitialised: `none`. -/
def addObjE (T : Tol) (linear : Bool) (cl cu x : ℕ → ℚ) (f0 fx : Option ℚ) (grad : ℕ → ℚ) (p : Lp) : Option Lp :=
  if linear then f0.map fun v => addObj T true cl cu x v 0 grad p else fx.map fun v => addObj T false cl cu x 0 v grad p

/-! ## Theorems -/

/-- The tolerances in effect. -/
def tinyOf (T : Tol) (m : ℕ) : ℚ := if m = 0 then 1 / 10 ^ 3 else T.tiny
def vtOf (T : Tol) (m : ℕ) : ℚ := if m = 0 then 1 / 10 ^ 8 else T.vt

theorem lb_fold {T : Tol} {vt : ℚ} {cl cu x : ℕ → ℚ} (h0 : 0 < T.infM) (h1 : T.infM ≤ T.inf) (es : List (ℕ × ℚ)) : ∀ c : Cut,
    (es.foldl (objStep T vt cl cu x) c).lb = c.lb + ((es.filter fun e => decide (KeptInObj T vt cl cu e)).map fun e => e.2 * x e.1).sum ∧
    (es.foldl (objStep T vt cl cu x) c).co = c.co ++ (es.filter fun e => decide (KeptInObj T vt cl cu e)) := by
  induction es with
  | nil => intro c; simp
  | cons e es ih =>
    intro c
    rw [List.foldl_cons]
    obtain ⟨i1, i2⟩ := ih (objStep T vt cl cu x c e)
    rw [i1, i2]
    obtain ⟨k1, k2⟩ := clean_obj (vt := vt) h0 h1 e.2 (cl e.1) (cu e.1) (x e.1) c.lb c.ub
    by_cases hk : KeptInObj T vt cl cu e
    · have hs : objStep T vt cl cu x c e = ⟨c.co ++ [(e.1, e.2)], c.lb + e.2 * x e.1, c.ub + e.2 * x e.1⟩ := by
        unfold objStep; rw [k1 hk]; rfl
      rw [hs]
      simp [List.filter_cons, hk]
      ring
    · have hs : objStep T vt cl cu x c e = ⟨c.co, c.lb, if |e.2| < vt then c.ub else if 0 < e.2 then c.ub + e.2 * (x e.1 - cl e.1) else c.ub + e.2 * (x e.1 - cu e.1)⟩ := by
        unfold objStep; rw [k2 hk]; rfl
      rw [hs]
      simp [List.filter_cons, hk]

/-- The row in one piece: the fold with the tolerances in effect. -/
theorem objRow_eq (T : Tol) (m : ℕ) (cl cu x : ℕ → ℚ) (n : ℕ) (f : ℚ) (grad : List (ℕ × ℚ)) :
    objRow T m cl cu x n f grad = ⟨(grad.foldl (objStep { T with tiny := tinyOf T m } (vtOf T m) cl cu x) ⟨[], -(10 ^ 300), -f⟩).co ++ [(n, -1)],
      (grad.foldl (objStep { T with tiny := tinyOf T m } (vtOf T m) cl cu x) ⟨[], -(10 ^ 300), -f⟩).lb,
      (grad.foldl (objStep { T with tiny := tinyOf T m } (vtOf T m) cl cu x) ⟨[], -(10 ^ 300), -f⟩).ub⟩ := by
  by_cases h : m = 0 <;> simp [objRow, tinyOf, vtOf, h]

/-- Coefficients and lower side of the row: the entries kept, then -1 for the objective variable; -1e300 moved by the entries kept at the point. -/
theorem objRow_exact {T : Tol} (m : ℕ) {cl cu x : ℕ → ℚ} (n : ℕ) (f : ℚ) (grad : List (ℕ × ℚ)) (h0 : 0 < T.infM) (h1 : T.infM ≤ T.inf) :
    (objRow T m cl cu x n f grad).co = (grad.filter fun e => decide (KeptInObj { T with tiny := tinyOf T m } (vtOf T m) cl cu e)) ++ [(n, -1)] ∧
    (objRow T m cl cu x n f grad).lb = -(10 ^ 300) + ((grad.filter fun e => decide (KeptInObj { T with tiny := tinyOf T m } (vtOf T m) cl cu e)).map fun e => e.2 * x e.1).sum ∧
    (objRow T m cl cu x n f grad).ub = (objOa { T with tiny := tinyOf T m } (vtOf T m) cl cu x n f grad).ub := by
  rw [objRow_eq]
  obtain ⟨k1, k2⟩ := lb_fold (T := { T with tiny := tinyOf T m }) (vt := vtOf T m) (cl := cl) (cu := cu) (x := x) h0 h1 grad ⟨[], -(10 ^ 300), -f⟩
  refine ⟨by simp [k2], by simp [k1], ?_⟩
  have hub : ∀ (es : List (ℕ × ℚ)) (c d : Cut), c.ub = d.ub → (es.foldl (objStep { T with tiny := tinyOf T m } (vtOf T m) cl cu x) c).ub =
      (es.foldl (objStep { T with tiny := tinyOf T m } (vtOf T m) cl cu x) d).ub := by
    intro es
    induction es with
    | nil => intro c d h; exact h
    | cons e es ih =>
      intro c d h
      rw [List.foldl_cons, List.foldl_cons]
      apply ih
      obtain ⟨a1, a2⟩ := clean_obj (T := { T with tiny := tinyOf T m }) (vt := vtOf T m) h0 h1 e.2 (cl e.1) (cu e.1) (x e.1) c.lb c.ub
      obtain ⟨b1, b2⟩ := clean_obj (T := { T with tiny := tinyOf T m }) (vt := vtOf T m) h0 h1 e.2 (cl e.1) (cu e.1) (x e.1) d.lb d.ub
      by_cases hk : KeptInObj { T with tiny := tinyOf T m } (vtOf T m) cl cu e
      · unfold objStep; rw [a1 hk, b1 hk]; simp [h]
      · unfold objStep; rw [a2 hk, b2 hk]; simp [h]
  simp only [objOa]
  exact hub grad _ _ rfl

/-- A linear objective is the objective of the program, constant included. -/
theorem linear_value (T : Tol) (cl cu x : ℕ → ℚ) (f0 fx : ℚ) (grad : ℕ → ℚ) (p : Lp) (f : (ℕ → ℚ) → ℚ) (hp : p.extra = false)
    (hf : ∀ y, f y = f0 + ((List.range p.n).map fun i => grad i * y i).sum) (y : ℕ → ℚ) : (addObj T true cl cu x f0 fx grad p).value y = f y ∧
      (addObj T true cl cu x f0 fx grad p).rows = p.rows := by
  simp [addObj, Lp.value, hp, hf]
  ring

/-- For a convex objective, every point within the bounds together with its value satisfies the row, up to coefficients removed silently, and the cost is that value: the
program underestimates the problem. -/
theorem nonlinear_relaxes_partial {T : Tol} {cl cu x y : ℕ → ℚ} {f0 fx fy : ℚ} {grad : ℕ → ℚ} {p : Lp} (h0 : 0 < T.infM) (h1 : T.infM ≤ T.inf)
    (hx : InCols T.infM cl cu x) (hy : InCols T.infM cl cu y) (hp : p.extra = false) (hc : ∀ i < p.n, p.cost i = 0) (ho : p.offset = 0)
    (hconv : fx + lin ((List.range p.n).map fun i => (i, grad i)) x y ≤ fy) (hα : y p.n = fy)
    (hbig : -(10 ^ 300) + (((((List.range p.n).map fun i => (i, grad i)).filter fun e =>
      decide (KeptInObj { T with tiny := tinyOf T p.rows.length } (vtOf T p.rows.length) cl cu e)).map fun e => e.2 * x e.1).sum) ≤
      act (objRow T p.rows.length cl cu x p.n fx ((List.range p.n).map fun i => (i, grad i))).co y) :
    (addObj T false cl cu x f0 fx grad p).value y = fy ∧
    ∀ c ∈ (addObj T false cl cu x f0 fx grad p).rows, c ∈ p.rows ∨
      (c.lb ≤ act c.co y ∧ act c.co y ≤ c.ub + silent (tinyOf T p.rows.length) (vtOf T p.rows.length) ((List.range p.n).map fun i => (i, grad i)) x y) := by
  constructor
  · simp only [addObj, Bool.false_eq_true, if_false, Lp.value, if_true, List.range_succ, List.map_append, List.sum_append, List.map_cons, List.map_nil,
      List.sum_cons, List.sum_nil, one_mul, add_zero, ho, sub_zero, hα]
    have : ((List.range p.n).map fun i => (if i = p.n then 1 else p.cost i) * y i).sum = 0 := by
      apply List.sum_eq_zero
      intro v hv
      obtain ⟨i, hi, rfl⟩ := List.mem_map.mp hv
      have hi' := List.mem_range.mp hi
      rw [if_neg (Nat.ne_of_lt hi'), hc i hi', zero_mul]
    rw [this, zero_add]
  · intro c hcm
    simp only [addObj, Bool.false_eq_true, if_false, List.mem_append, List.mem_singleton] at hcm
    rcases hcm with hcm | rfl
    · exact .inl hcm
    · refine .inr ⟨?_, ?_⟩
      · rw [(objRow_exact p.rows.length p.n fx _ h0 h1).2.1]
        exact hbig
      · have hv := obj_cut_valid (T := { T with tiny := tinyOf T p.rows.length }) (vt := vtOf T p.rows.length) (n := p.n) h0 hx hy hconv (le_of_eq hα.symm)
        obtain ⟨k1, _, k3⟩ := objRow_exact (T := T) p.rows.length (cl := cl) (cu := cu) (x := x) p.n fx ((List.range p.n).map fun i => (i, grad i)) h0 h1
        obtain ⟨l1, _, _⟩ := objOa_exact (T := { T with tiny := tinyOf T p.rows.length }) (vt := vtOf T p.rows.length) (cl := cl) (cu := cu) (x := x) h0 h1 p.n fx
          ((List.range p.n).map fun i => (i, grad i))
        rcases hv.2 with hv | hv
        · -- the upper side is never infinite in the sense of `Sat` unless the values are
          have h := obj_inv (T := { T with tiny := tinyOf T p.rows.length }) (vt := vtOf T p.rows.length) h0 hx hy ((List.range p.n).map fun i => (i, grad i)) (B := fx)
            (c := ⟨[], -fx, -fx⟩) (by simp [act])
          rw [k1, k3, ← l1]
          simp only [objOa, act_append, act_single]
          simp only at h
          linarith
        · rw [k1, k3, ← l1]
          exact hv

/-- If nothing is removed the row is the linearisation: at the point itself it demands the value of the function. -/
theorem row_tight {T : Tol} (m : ℕ) {cl cu x : ℕ → ℚ} (n : ℕ) (f : ℚ) (grad : List (ℕ × ℚ)) (h0 : 0 < T.infM) (h1 : T.infM ≤ T.inf) (y : ℕ → ℚ)
    (hk : ∀ e ∈ grad, KeptInObj { T with tiny := tinyOf T m } (vtOf T m) cl cu e) :
    act (objRow T m cl cu x n f grad).co y ≤ (objRow T m cl cu x n f grad).ub ↔ f + lin grad x y ≤ y n := by
  obtain ⟨k1, _, k3⟩ := objRow_exact (T := T) m (cl := cl) (cu := cu) (x := x) n f grad h0 h1
  rw [k1, k3, (objOa_exact (T := { T with tiny := tinyOf T m }) (vt := vtOf T m) (cl := cl) (cu := cu) (x := x) h0 h1 n f grad).2.2]
  have e1 : (grad.filter fun e => decide (KeptInObj { T with tiny := tinyOf T m } (vtOf T m) cl cu e)) = grad := by
    rw [List.filter_eq_self]
    intro e he
    simpa using hk e he
  have e2 : ∀ es : List (ℕ × ℚ), (∀ e ∈ es, KeptInObj { T with tiny := tinyOf T m } (vtOf T m) cl cu e) →
      (es.map fun e => if KeptInObj { T with tiny := tinyOf T m } (vtOf T m) cl cu e then e.2 * x e.1 else if |e.2| < vtOf T m then 0
      else if 0 < e.2 then e.2 * (x e.1 - cl e.1) else e.2 * (x e.1 - cu e.1)).sum = act es x := by
    intro es hes
    simp only [act]
    congr 1
    apply List.map_congr_left
    intro e he
    rw [if_pos (hes e he)]
  rw [e1, e2 grad hk, act_append, act_single]
  have e3 : ∀ es : List (ℕ × ℚ), lin es x y = act es y - act es x := by
    intro es
    induction es with
    | nil => simp [lin, act]
    | cons e es ih => rw [lin_cons, ih]; simp [act]; ring
  rw [e3]
  constructor <;> intro h <;> linarith

/-- Without rows, gradient entries below 1e-8 are removed with no correction: for `f(y) = y / 10⁹` at 0, the point -10¹² with its value -1000 violates the row. -/
theorem unconstrained_cuts_off : act (objRow ⟨10 ^ 30, 10 ^ 20, 1 / 10 ^ 12, 1 / 10 ^ 17, 0⟩ 0 (fun _ => -(10 ^ 15)) (fun _ => 10 ^ 15) (fun _ => 0) 1 0 [(0, 1 / 10 ^ 9)]).co
    (fun i => if i = 0 then -(10 ^ 12) else -1000) = 1000 ∧
    (objRow ⟨10 ^ 30, 10 ^ 20, 1 / 10 ^ 12, 1 / 10 ^ 17, 0⟩ 0 (fun _ => -(10 ^ 15)) (fun _ => 10 ^ 15) (fun _ => 0) 1 0 [(0, 1 / 10 ^ 9)]).ub = 0 := by
  constructor <;> decide +kernel

/-- The result is determined exactly if the objective can be evaluated at the point used: 0 for a linear objective, the given point otherwise; it is then the one above. -/
theorem defined_iff (T : Tol) (linear : Bool) (cl cu x : ℕ → ℚ) (f0 fx : Option ℚ) (grad : ℕ → ℚ) (p : Lp) :
    ((addObjE T linear cl cu x f0 fx grad p).isSome ↔ if linear then f0.isSome else fx.isSome) ∧
    (∀ a b, f0 = some a → fx = some b → addObjE T linear cl cu x f0 fx grad p = some (addObj T linear cl cu x a b grad p)) := by
  constructor
  · cases linear <;> simp [addObjE]
  · rintro a b rfl rfl
    cases linear <;> simp [addObjE, addObj]

/-- A failure at 0 is not noticed although the point given is fine: the offset is then not determined. -/
theorem failure_at_zero (T : Tol) (cl cu x : ℕ → ℚ) (v : ℚ) (grad : ℕ → ℚ) (p : Lp) : addObjE T true cl cu x none (some v) grad p = none := rfl

/-- `f(y) = y0² + y1` linearised at (1, 2): row `2 y0 + y1 - α ≤ 1`. -/
example : objRow ⟨10 ^ 30, 10 ^ 20, 1 / 10 ^ 12, 1 / 10 ^ 17, 0⟩ 3 (fun _ => 0) (fun _ => 10) (fun i => if i = 0 then 1 else 2) 2 3 [(0, 2), (1, 1)] =
    ⟨[(0, 2), (1, 1), (2, -1)], -(10 ^ 300) + 4, 1⟩ := by decide +kernel
example : InCols (10 ^ 20) (fun _ => 0) (fun _ => 10) (fun i => if i = 0 then 1 else 2) := by
  intro j
  by_cases h : j = 0 <;> simp [h] <;> norm_num
end Verif.Oa.ObjRow

import Mathlib.Algebra.BigOperators.Group.Finset.Basic
import Mathlib.Algebra.BigOperators.Ring.Finset
import Mathlib.Algebra.BigOperators.Fin
import Mathlib.Algebra.Order.Ring.Rat
import Mathlib.Algebra.Field.Rat
import Mathlib.Data.Fintype.BigOperators
import Mathlib.Tactic.Ring
import Mathlib.Tactic.Linarith
import Mathlib.Tactic.NormNum
import Mathlib.Tactic.FinCases

/-!
# The quadratic approximation used for strong branching (`Interfaces/BonBranchingTQP.cpp`)
Points are functions on `Fin n`; an index outside the problem is undefined behaviour (`none`).
-/
open Finset
namespace Verif.Slv

/-- What the constructor asks of the NLP (`TMINLP2TNLP`); `none` is a return value `false`. -/
structure NlpFns (n m : ℕ) where
  fortran : Bool
  f : (Fin n → ℚ) → Option ℚ
  gradF : (Fin n → ℚ) → Option (Fin n → ℚ)
  g : (Fin n → ℚ) → Option (Fin m → ℚ)
  jacIdx : Option (List (ℤ × ℤ))
  jacVal : (Fin n → ℚ) → Option (List ℚ)
  hessIdx : Option (List (ℤ × ℤ))
  hessVal : (Fin n → ℚ) → ℚ → (Fin m → ℚ) → Option (List ℚ)

/-- The data of a `BranchingTQP`. -/
structure Qp (n m : ℕ) where
  fortran : Bool
  f0 : ℚ
  grad : Fin n → ℚ
  hess : List (Fin n × Fin n × ℚ)
  gv : Fin m → ℚ
  jac : List (Fin m × Fin n × ℚ)
  xs : Fin n → ℚ
  zL : Fin n → ℚ
  zU : Fin n → ℚ
  lam : Fin m → ℚ

/-- An index of the structure arrays after the shift of lines 61-66 and 78-83. -/
def toIdx (k : ℕ) (fortran : Bool) (i : ℤ) : Option (Fin k) :=
  let j := if fortran then i - 1 else i
  if h : 0 ≤ j ∧ j.toNat < k then some ⟨j.toNat, h.2⟩ else none

/-- Pair the structure with the values. -/
def triplets (k l : ℕ) (fortran : Bool) : List (ℤ × ℤ) → List ℚ → Option (List (Fin k × Fin l × ℚ))
  | [], [] => some []
  | e :: es, v :: vs =>
    match toIdx k fortran e.1, toIdx l fortran e.2, triplets k l fortran es vs with
    | some i, some j, some r => some ((i, j, v) :: r)
    | _, _, _ => none
  | _, _ => none

/-- Outcome of the constructor. -/
inductive Made (α : Type) where
  | ok (a : α)
  | invalid
  | undefined

/-- The constructor (22-108): evaluates everything at `x_sol`; a function that fails raises `TMINLP_INVALID`.
The duals are those of lower bounds, upper bounds and constraints in this order. -/
def mkQp {n m : ℕ} (p : NlpFns n m) (xs zL zU : Fin n → ℚ) (lam : Fin m → ℚ) : Made (Qp n m) :=
  match p.f xs, p.gradF xs, p.hessIdx, p.hessVal xs 1 lam, p.g xs, p.jacIdx, p.jacVal xs with
  | some f0, some gr, some hi, some hv, some gv, some ji, some jv =>
    match triplets n n p.fortran hi hv, triplets m n p.fortran ji jv with
    | some h, some j => .ok ⟨p.fortran, f0, gr, h, gv, j, xs, zL, zU, lam⟩
    | _, _ => .undefined
  | _, _, _, _, _, _, _ => .invalid

/-- `get_bounds_info` (136-153) for the variables. -/
def Qp.colBounds {n m : ℕ} (q : Qp n m) (lu : Fin n → ℚ × ℚ) (i : Fin n) : ℚ × ℚ := ((lu i).1 - q.xs i, (lu i).2 - q.xs i)

/-- `get_bounds_info` (147-151) for the constraints. -/
def Qp.rowBounds {n m : ℕ} (q : Qp n m) (lu : Fin m → ℚ × ℚ) (i : Fin m) : ℚ × ℚ := ((lu i).1 - q.gv i, (lu i).2 - q.gv i)

/-- `get_starting_point` (155-181): the zero displacement and the stored duals. -/
def Qp.start {n m : ℕ} (q : Qp n m) : (Fin n → ℚ) × (Fin n → ℚ) × (Fin n → ℚ) × (Fin m → ℚ) := (fun _ => 0, q.zL, q.zU, q.lam)

/-- The loop of `eval_f` (198-207). -/
def fLoop {n : ℕ} (x : Fin n → ℚ) : List (Fin n × Fin n × ℚ) → ℚ → ℚ
  | [], acc => acc
  | (i, j, v) :: es, acc => fLoop x es (if i ≠ j then acc + v * x i * x j else acc + 1 / 2 * v * x i * x i)

/-- `eval_f` (192-210). -/
def Qp.evalF {n m : ℕ} (q : Qp n m) (x : Fin n → ℚ) : ℚ := fLoop x q.hess (∑ i, x i * q.grad i)

/-- `a[i] += v`. -/
def addAt {n : ℕ} (a : Fin n → ℚ) (i : Fin n) (v : ℚ) : Fin n → ℚ := fun k => if k = i then a k + v else a k

/-- The loop of `eval_grad_f` (218-225). -/
def gradLoop {n : ℕ} (x : Fin n → ℚ) : List (Fin n × Fin n × ℚ) → (Fin n → ℚ) → Fin n → ℚ
  | [], acc => acc
  | (i, j, v) :: es, acc =>
    let acc := addAt acc i (v * x j)
    gradLoop x es (if i ≠ j then addAt acc j (v * x i) else acc)

/-- `eval_grad_f` (212-228). -/
def Qp.evalGrad {n m : ℕ} (q : Qp n m) (x : Fin n → ℚ) : Fin n → ℚ := gradLoop x q.hess q.grad

/-- The loop of `eval_g` (237-241). -/
def gLoop {n m : ℕ} (x : Fin n → ℚ) : List (Fin m × Fin n × ℚ) → (Fin m → ℚ) → Fin m → ℚ
  | [], acc => acc
  | (i, j, v) :: es, acc => gLoop x es (addAt acc i (v * x j))

/-- `eval_g` (230-244). -/
def Qp.evalG {n m : ℕ} (q : Qp n m) (x : Fin n → ℚ) : Fin m → ℚ := gLoop x q.jac fun _ => 0

/-- Structure and values of `eval_jac_g` (246-271). -/
def Qp.evalJac {n m : ℕ} (q : Qp n m) : List (ℤ × ℤ) × List ℚ :=
  (q.jac.map fun e => if q.fortran then ((e.1 : ℤ) + 1, (e.2.1 : ℤ) + 1) else ((e.1 : ℤ), (e.2.1 : ℤ)), q.jac.map fun e => e.2.2)

/-- Structure and values of `eval_h` (273-310). -/
def Qp.evalH {n m : ℕ} (q : Qp n m) (σ : ℚ) : List (ℤ × ℤ) × List ℚ :=
  (q.hess.map fun e => if q.fortran then ((e.1 : ℤ) + 1, (e.2.1 : ℤ) + 1) else ((e.1 : ℤ), (e.2.1 : ℤ)),
   if σ = 0 then q.hess.map fun _ => 0
   else if σ ≠ 1 then q.hess.map fun e => σ * e.2.2 else q.hess.map fun e => e.2.2)

/-- What `finalize_solution` (312-333) passes to the original problem: point, objective, row activities (duals unchanged). -/
def Qp.final {n m : ℕ} (q : Qp n m) (localInfeasible : Bool) (d : Fin n → ℚ) (g : Fin m → ℚ) (obj : ℚ) : (Fin n → ℚ) × ℚ × (Fin m → ℚ) :=
  (fun i => q.xs i + d i, if localInfeasible then obj else obj + q.f0, g)

/-! ## Specification -/

/-- Entry of the matrix given by triplets as an NLP solver reads them (0-based after the shift by `base`; repeated entries add up). -/
def entry (base : ℤ) : List (ℤ × ℤ) → List ℚ → ℤ → ℤ → ℚ
  | e :: es, v :: vs, i, j => (if e = (i + base, j + base) then v else 0) + entry base es vs i j
  | _, _, _, _ => 0

/-- Entry of the symmetric matrix given by the triplets of one triangle: an entry off the diagonal stands for both. -/
def symEntry (base : ℤ) (es : List (ℤ × ℤ)) (vs : List ℚ) (i j : ℤ) : ℚ :=
  if i = j then entry base es vs i i else entry base es vs i j + entry base es vs j i

/-! ## Lemmas -/

theorem addAt_apply {n : ℕ} (a : Fin n → ℚ) (i k : Fin n) (v : ℚ) : addAt a i v k = a k + if k = i then v else 0 := by
  simp only [addAt]; split <;> simp

/-- Entry of a matrix of stored triplets. -/
def tEntry {k l : ℕ} : List (Fin k × Fin l × ℚ) → Fin k → Fin l → ℚ
  | [], _, _ => 0
  | (a, b, v) :: es, i, j => (if a = i ∧ b = j then v else 0) + tEntry es i j

theorem toIdx_some {k : ℕ} {fortran : Bool} {i : ℤ} {a : Fin k} (h : toIdx k fortran i = some a) :
    i = (a : ℤ) + if fortran then 1 else 0 := by
  unfold toIdx at h
  simp only [Option.dite_none_right_eq_some, Option.some.injEq] at h
  obtain ⟨hc, rfl⟩ := h
  cases fortran <;> simp at hc ⊢ <;> omega

theorem triplets_entry {k l : ℕ} {fortran : Bool} {es : List (ℤ × ℤ)} {vs : List ℚ} {ts : List (Fin k × Fin l × ℚ)}
    (h : triplets k l fortran es vs = some ts) (i : Fin k) (j : Fin l) :
    tEntry ts i j = entry (if fortran then 1 else 0) es vs i j := by
  induction es generalizing vs ts with
  | nil =>
    cases vs with
    | nil => simp [triplets] at h; subst h; simp [tEntry, entry]
    | cons => simp [triplets] at h
  | cons e es ih =>
    cases vs with
    | nil => simp [triplets] at h
    | cons v vs =>
      simp only [triplets] at h
      split at h
      · rename_i a b r h1 h2 h3
        simp only [Option.some.injEq] at h; subst h
        rw [tEntry, entry, ih h3]
        congr 1
        have e1 := toIdx_some h1
        have e2 := toIdx_some h2
        obtain ⟨x, y⟩ := e
        simp only at e1 e2
        have : (a = i ∧ b = j) ↔ ((x, y) : ℤ × ℤ) = ((i : ℤ) + (if fortran = true then 1 else 0), (j : ℤ) + if fortran = true then 1 else 0) := by
          rw [Prod.mk.injEq, e1, e2, Fin.ext_iff, Fin.ext_iff]; omega
        simp only [this]
      · cases h

theorem fLoop_eq {n : ℕ} (x : Fin n → ℚ) (es : List (Fin n × Fin n × ℚ)) (acc : ℚ) :
    fLoop x es acc = acc + 1 / 2 * ∑ i, ∑ j, (if i = j then tEntry es i i else tEntry es i j + tEntry es j i) * x i * x j := by
  induction es generalizing acc with
  | nil => simp [fLoop, tEntry]
  | cons e es ih =>
    obtain ⟨a, b, v⟩ := e
    rw [fLoop, ih]
    have key : ∀ i j : Fin n, (if i = j then tEntry ((a, b, v) :: es) i i else tEntry ((a, b, v) :: es) i j + tEntry ((a, b, v) :: es) j i) * x i * x j
        = (if i = j then tEntry es i i else tEntry es i j + tEntry es j i) * x i * x j
          + (if i = a then (if j = b then v * x a * x b else 0) else 0) + (if a ≠ b then (if i = b then (if j = a then v * x b * x a else 0) else 0) else 0) := by
      intro i j
      simp only [tEntry]
      by_cases hij : i = j
      · subst hij
        by_cases ha : i = a
        · subst ha
          by_cases hb : i = b
          · subst hb; simp; ring
          · simp [hb, Ne.symm hb]
        · by_cases hb : i = b
          · subst hb; simp [ha, Ne.symm ha]
          · simp [ha, hb, Ne.symm ha]
      · simp only [hij, if_false]
        by_cases ha : i = a
        · subst ha
          by_cases hb : j = b
          · subst hb; simp [hij, Ne.symm hij]; ring
          · by_cases hb' : i = b
            · subst hb'; simp [hij, Ne.symm hij]
            · simp [Ne.symm hb, hij, hb, hb']
        · by_cases hb : i = b
          · subst hb
            by_cases hc : j = a
            · subst hc; simp [hij, Ne.symm hij]; ring
            · simp [Ne.symm ha, Ne.symm hc, ha, hc]
          · simp [Ne.symm ha, Ne.symm hb, ha, hb]
    simp only [key, Finset.sum_add_distrib]
    have s1 : (∑ i : Fin n, ∑ j : Fin n, if i = a then (if j = b then v * x a * x b else 0) else 0) = v * x a * x b := by
      rw [Finset.sum_comm]; simp
    have s2 : (∑ i : Fin n, ∑ j : Fin n, if a ≠ b then (if i = b then (if j = a then v * x b * x a else 0) else 0) else 0) = if a ≠ b then v * x b * x a else 0 := by
      split
      · rw [Finset.sum_comm]; simp
      · simp
    rw [s1, s2]
    by_cases hab : a = b
    · subst hab; simp; ring
    · simp [hab]; ring

theorem gradLoop_eq {n : ℕ} (x : Fin n → ℚ) (es : List (Fin n × Fin n × ℚ)) (acc : Fin n → ℚ) (i : Fin n) :
    gradLoop x es acc i = acc i + ∑ j, (if i = j then tEntry es i i else tEntry es i j + tEntry es j i) * x j := by
  induction es generalizing acc with
  | nil => simp [gradLoop, tEntry]
  | cons e es ih =>
    obtain ⟨a, b, v⟩ := e
    rw [gradLoop, ih]
    have key : ∀ j : Fin n, (if i = j then tEntry ((a, b, v) :: es) i i else tEntry ((a, b, v) :: es) i j + tEntry ((a, b, v) :: es) j i) * x j
        = (if i = j then tEntry es i i else tEntry es i j + tEntry es j i) * x j
          + (if j = b then (if i = a then v * x b else 0) else 0) + (if j = a then (if a ≠ b ∧ i = b then v * x a else 0) else 0) := by
      intro j
      simp only [tEntry]
      by_cases hij : i = j
      · subst hij
        by_cases ha : i = a
        · subst ha
          by_cases hb : i = b
          · subst hb; simp; ring
          · simp [hb, Ne.symm hb]
        · by_cases hb : i = b
          · subst hb; simp [ha, Ne.symm ha]
          · simp [ha, hb, Ne.symm ha]
      · simp only [hij, if_false]
        by_cases ha : i = a
        · subst ha
          by_cases hb : j = b
          · subst hb; simp [hij, Ne.symm hij]; ring
          · by_cases hb' : i = b
            · subst hb'; simp [hij, Ne.symm hij]
            · simp [Ne.symm hb, hij, hb, hb']
        · by_cases hb : i = b
          · subst hb
            by_cases hc : j = a
            · subst hc; simp [hij, Ne.symm hij]; ring
            · simp [Ne.symm ha, Ne.symm hc, ha, hc]
          · simp [Ne.symm ha, Ne.symm hb, ha, hb]
    simp only [key, Finset.sum_add_distrib, Finset.sum_ite_eq', Finset.mem_univ, if_true]
    by_cases hab : a = b
    · subst hab; simp [addAt_apply]; ring
    · simp [hab, addAt_apply]; ring

theorem gLoop_eq {n m : ℕ} (x : Fin n → ℚ) (es : List (Fin m × Fin n × ℚ)) (acc : Fin m → ℚ) (i : Fin m) :
    gLoop x es acc i = acc i + ∑ j, tEntry es i j * x j := by
  induction es generalizing acc with
  | nil => simp [gLoop, tEntry]
  | cons e es ih =>
    obtain ⟨a, b, v⟩ := e
    rw [gLoop, ih, addAt_apply]
    have key : ∀ j : Fin n, tEntry ((a, b, v) :: es) i j * x j = tEntry es i j * x j + if j = b then (if i = a then v * x b else 0) else 0 := by
      intro j
      simp only [tEntry]
      by_cases ha : i = a
      · subst ha
        by_cases hb : j = b
        · subst hb; simp; ring
        · simp [hb, Ne.symm hb]
      · simp [ha, Ne.symm ha]
    simp only [key, Finset.sum_add_distrib, Finset.sum_ite_eq', Finset.mem_univ, if_true]
    ring

theorem mkQp_ok {n m : ℕ} {p : NlpFns n m} {xs zL zU : Fin n → ℚ} {lam : Fin m → ℚ} {q : Qp n m} (h : mkQp p xs zL zU lam = .ok q) :
    ∃ f0 gr hi hv gv ji jv, p.f xs = some f0 ∧ p.gradF xs = some gr ∧ p.hessIdx = some hi ∧ p.hessVal xs 1 lam = some hv ∧ p.g xs = some gv ∧
      p.jacIdx = some ji ∧ p.jacVal xs = some jv ∧ triplets n n p.fortran hi hv = some q.hess ∧ triplets m n p.fortran ji jv = some q.jac ∧
      q.f0 = f0 ∧ q.grad = gr ∧ q.gv = gv ∧ q.xs = xs ∧ q.zL = zL ∧ q.zU = zU ∧ q.lam = lam ∧ q.fortran = p.fortran := by
  unfold mkQp at h
  split at h
  · rename_i f0 gr hi hv gv ji jv h1 h2 h3 h4 h5 h6 h7
    split at h
    · rename_i hh jj h8 h9
      simp only [Made.ok.injEq] at h
      subst h
      exact ⟨f0, gr, hi, hv, gv, ji, jv, h1, h2, h3, h4, h5, h6, h7, h8, h9, rfl, rfl, rfl, rfl, rfl, rfl, rfl, rfl⟩
    · cases h
  · cases h

theorem triplets_back {k l : ℕ} {fortran : Bool} {es : List (ℤ × ℤ)} {vs : List ℚ} {ts : List (Fin k × Fin l × ℚ)}
    (h : triplets k l fortran es vs = some ts) :
    (ts.map fun e => if fortran then ((e.1 : ℤ) + 1, (e.2.1 : ℤ) + 1) else ((e.1 : ℤ), (e.2.1 : ℤ))) = es ∧ ts.map (fun e => e.2.2) = vs := by
  induction es generalizing vs ts with
  | nil =>
    cases vs with
    | nil => simp [triplets] at h; subst h; simp
    | cons => simp [triplets] at h
  | cons e es ih =>
    cases vs with
    | nil => simp [triplets] at h
    | cons v vs =>
      simp only [triplets] at h
      split at h
      · rename_i a b r h1 h2 h3
        simp only [Option.some.injEq] at h; subst h
        obtain ⟨i1, i2⟩ := ih h3
        have e1 := toIdx_some h1
        have e2 := toIdx_some h2
        obtain ⟨x, y⟩ := e
        simp only at e1 e2
        simp only [List.map_cons, i1, i2, and_true, List.cons.injEq]
        rw [e1, e2]
        cases fortran <;> simp
      · cases h

/-! ## Properties -/

/-- C40: the objective of the QP is the second-order model of the NLP without its constant term: gradient of the objective
and Hessian of the Lagrangian at the point and multipliers given, for both index styles. -/
theorem tqp_objective {n m : ℕ} (p : NlpFns n m) (xs zL zU : Fin n → ℚ) (lam : Fin m → ℚ) (q : Qp n m) (h : mkQp p xs zL zU lam = .ok q)
    (gr : Fin n → ℚ) (hi : List (ℤ × ℤ)) (hv : List ℚ) (hg : p.gradF xs = some gr) (hhi : p.hessIdx = some hi) (hhv : p.hessVal xs 1 lam = some hv) (d : Fin n → ℚ) :
    q.evalF d = ∑ i, gr i * d i + 1 / 2 * ∑ i : Fin n, ∑ j : Fin n, symEntry (if p.fortran then 1 else 0) hi hv i j * d i * d j := by
  obtain ⟨f0, gr', hi', hv', gv, ji, jv, h1, h2, h3, h4, h5, h6, h7, h8, h9, -, e2, -⟩ := mkQp_ok h
  rw [hg] at h2; rw [hhi] at h3; rw [hhv] at h4
  cases h2; cases h3; cases h4
  rw [Qp.evalF, fLoop_eq, e2]
  congr 1
  · exact Finset.sum_congr rfl fun i _ => mul_comm _ _
  · congr 1
    refine Finset.sum_congr rfl fun i _ => Finset.sum_congr rfl fun j _ => ?_
    simp only [triplets_entry h8, symEntry, Nat.cast_inj, Fin.ext_iff]

/-- C40: the gradient of the QP is the exact gradient: `grad + H d`. -/
theorem tqp_gradient {n m : ℕ} (p : NlpFns n m) (xs zL zU : Fin n → ℚ) (lam : Fin m → ℚ) (q : Qp n m) (h : mkQp p xs zL zU lam = .ok q)
    (gr : Fin n → ℚ) (hi : List (ℤ × ℤ)) (hv : List ℚ) (hg : p.gradF xs = some gr) (hhi : p.hessIdx = some hi) (hhv : p.hessVal xs 1 lam = some hv) (d : Fin n → ℚ) (i : Fin n) :
    q.evalGrad d i = gr i + ∑ j : Fin n, symEntry (if p.fortran then 1 else 0) hi hv i j * d j := by
  obtain ⟨f0, gr', hi', hv', gv, ji, jv, h1, h2, h3, h4, h5, h6, h7, h8, h9, -, e2, -⟩ := mkQp_ok h
  rw [hg] at h2; rw [hhi] at h3; rw [hhv] at h4
  cases h2; cases h3; cases h4
  rw [Qp.evalGrad, gradLoop_eq, e2]
  congr 1
  refine Finset.sum_congr rfl fun j _ => ?_
  simp only [triplets_entry h8, symEntry, Nat.cast_inj, Fin.ext_iff]

/-- C40: objective and gradient fit together: the objective along any displacement is its Taylor expansion with the gradient reported. -/
theorem tqp_taylor {n m : ℕ} (q : Qp n m) (d e : Fin n → ℚ) :
    q.evalF (fun i => d i + e i) = q.evalF d + ∑ i, q.evalGrad d i * e i +
      1 / 2 * ∑ i, ∑ j, (if i = j then tEntry q.hess i i else tEntry q.hess i j + tEntry q.hess j i) * e i * e j := by
  simp only [Qp.evalF, Qp.evalGrad, fLoop_eq, gradLoop_eq]
  set H : Fin n → Fin n → ℚ := fun i j => if i = j then tEntry q.hess i i else tEntry q.hess i j + tEntry q.hess j i with hH
  have hsym : ∀ i j, H i j = H j i := by
    intro i j
    simp only [hH]
    by_cases hij : i = j
    · subst hij; rfl
    · rw [if_neg hij, if_neg (Ne.symm hij), add_comm]
  have expand : ∑ i, ∑ j, H i j * (d i + e i) * (d j + e j) = ∑ i, ∑ j, H i j * d i * d j + ∑ i, ∑ j, H i j * d i * e j + ∑ i, ∑ j, H i j * e i * d j + ∑ i, ∑ j, H i j * e i * e j := by
    simp only [← Finset.sum_add_distrib]
    exact Finset.sum_congr rfl fun i _ => Finset.sum_congr rfl fun j _ => by ring
  have swap : ∑ i, ∑ j, H i j * d i * e j = ∑ i, ∑ j, H i j * e i * d j := by
    rw [Finset.sum_comm]
    exact Finset.sum_congr rfl fun i _ => Finset.sum_congr rfl fun j _ => by rw [hsym j i]; ring
  have cross : ∑ i, (q.grad i + ∑ j, H i j * d j) * e i = ∑ i, e i * q.grad i + ∑ i, ∑ j, H i j * e i * d j := by
    rw [← Finset.sum_add_distrib]
    refine Finset.sum_congr rfl fun i _ => ?_
    rw [add_mul, Finset.sum_mul, mul_comm (q.grad i)]
    congr 1
    exact Finset.sum_congr rfl fun j _ => by ring
  have lin : ∑ i, (d i + e i) * q.grad i = ∑ i, d i * q.grad i + ∑ i, e i * q.grad i := by
    rw [← Finset.sum_add_distrib]; exact Finset.sum_congr rfl fun i _ => by ring
  change ∑ i, (d i + e i) * q.grad i + 1 / 2 * ∑ i, ∑ j, H i j * (d i + e i) * (d j + e j) =
    ∑ i, d i * q.grad i + 1 / 2 * ∑ i, ∑ j, H i j * d i * d j + ∑ i, (q.grad i + ∑ j, H i j * d j) * e i + 1 / 2 * ∑ i, ∑ j, H i j * e i * e j
  rw [expand, swap, cross, lin]; ring

/-- C40: a displacement satisfies bounds and linearised constraints of the QP exactly when the shifted point is within the
bounds of the NLP and the linearisation `g(x) + J d` within its constraint bounds. -/
theorem tqp_constraints {n m : ℕ} (p : NlpFns n m) (xs zL zU : Fin n → ℚ) (lam : Fin m → ℚ) (q : Qp n m) (h : mkQp p xs zL zU lam = .ok q)
    (gv : Fin m → ℚ) (ji : List (ℤ × ℤ)) (jv : List ℚ) (hg : p.g xs = some gv) (hji : p.jacIdx = some ji) (hjv : p.jacVal xs = some jv)
    (cb : Fin n → ℚ × ℚ) (rb : Fin m → ℚ × ℚ) (d : Fin n → ℚ) :
    (∀ i, ((q.colBounds cb i).1 ≤ d i ↔ (cb i).1 ≤ xs i + d i) ∧ (d i ≤ (q.colBounds cb i).2 ↔ xs i + d i ≤ (cb i).2)) ∧
    (∀ i, ((q.rowBounds rb i).1 ≤ q.evalG d i ↔ (rb i).1 ≤ gv i + ∑ j : Fin n, entry (if p.fortran then 1 else 0) ji jv i j * d j) ∧
      (q.evalG d i ≤ (q.rowBounds rb i).2 ↔ gv i + ∑ j : Fin n, entry (if p.fortran then 1 else 0) ji jv i j * d j ≤ (rb i).2)) := by
  obtain ⟨f0, gr', hi', hv', gv', ji', jv', h1, h2, h3, h4, h5, h6, h7, h8, h9, -, -, e3, e4, -⟩ := mkQp_ok h
  rw [hg] at h5; rw [hji] at h6; rw [hjv] at h7
  cases h5; cases h6; cases h7
  refine ⟨fun i => ?_, fun i => ?_⟩
  · simp only [Qp.colBounds, e4]
    constructor <;> constructor <;> intro <;> linarith
  · have : q.evalG d i = ∑ j : Fin n, entry (if p.fortran then 1 else 0) ji jv i j * d j := by
      rw [Qp.evalG, gLoop_eq, zero_add]
      exact Finset.sum_congr rfl fun j _ => by rw [triplets_entry h9]
    rw [this]
    simp only [Qp.rowBounds, e3]
    constructor <;> constructor <;> intro <;> linarith

/-- C40: the QP reports the structure of the NLP (in the index style of the NLP), the Jacobian at the point, and the Hessian scaled by the objective factor. -/
theorem tqp_derivatives {n m : ℕ} (p : NlpFns n m) (xs zL zU : Fin n → ℚ) (lam : Fin m → ℚ) (q : Qp n m) (h : mkQp p xs zL zU lam = .ok q) (σ : ℚ) :
    p.jacIdx = some q.evalJac.1 ∧ p.jacVal xs = some q.evalJac.2 ∧ p.hessIdx = some (q.evalH σ).1 ∧
    ∃ hv, p.hessVal xs 1 lam = some hv ∧ (q.evalH σ).2 = hv.map (σ * ·) := by
  obtain ⟨f0, gr', hi', hv', gv', ji', jv', h1, h2, h3, h4, h5, h6, h7, h8, h9, -, -, -, -, -, -, -, e8⟩ := mkQp_ok h
  have b1 := triplets_back h8
  have b2 := triplets_back h9
  refine ⟨?_, ?_, ?_, hv', h4, ?_⟩
  · rw [h6, Qp.evalJac, e8]; simp only [b2.1]
  · rw [h7, Qp.evalJac]; simp only [b2.2]
  · rw [h3, Qp.evalH, e8]; simp only [b1.1]
  · rw [← b1.2]
    simp only [Qp.evalH, List.map_map, Function.comp_def]
    split
    · rename_i hs; subst hs; simp
    · split
      · rfl
      · rename_i hs; push Not at hs; subst hs; simp

/-- C40: the solution reported is the shifted point; its objective is the full second-order model unless the QP is locally infeasible; the QP starts at the point itself with the duals of the NLP. -/
theorem tqp_final {n m : ℕ} (p : NlpFns n m) (xs zL zU : Fin n → ℚ) (lam : Fin m → ℚ) (q : Qp n m) (h : mkQp p xs zL zU lam = .ok q) (f0 : ℚ) (hf : p.f xs = some f0)
    (d : Fin n → ℚ) (inf : Bool) :
    (q.final inf d (q.evalG d) (q.evalF d)).1 = (fun i => xs i + d i) ∧
    (q.final inf d (q.evalG d) (q.evalF d)).2.1 = (if inf then q.evalF d else f0 + q.evalF d) ∧
    q.start = (fun _ => 0, zL, zU, lam) := by
  obtain ⟨f0', gr', hi', hv', gv', ji', jv', h1, h2, h3, h4, h5, h6, h7, h8, h9, e1, -, -, e4, e5, e6, e7, -⟩ := mkQp_ok h
  rw [hf] at h1; cases h1
  refine ⟨by simp [Qp.final, e4], ?_, by simp [Qp.start, e5, e6, e7]⟩
  cases inf <;> simp [Qp.final, e1, add_comm]

/-- C40: an NLP function that fails makes the constructor raise an exception, whatever else; otherwise it is built exactly when all indices are inside the problem and structure and values have the same length. -/
theorem tqp_invalid {n m : ℕ} (p : NlpFns n m) (xs zL zU : Fin n → ℚ) (lam : Fin m → ℚ) :
    mkQp p xs zL zU lam = .invalid ↔ p.f xs = none ∨ p.gradF xs = none ∨ p.hessIdx = none ∨ p.hessVal xs 1 lam = none ∨ p.g xs = none ∨ p.jacIdx = none ∨ p.jacVal xs = none := by
  unfold mkQp
  split
  · rename_i h1 h2 h3 h4 h5 h6 h7
    simp only [h1, h2, h3, h4, h5, h6, h7]
    split <;> simp
  · rename_i hn
    refine iff_of_true rfl ?_
    by_contra hc
    push Not at hc
    obtain ⟨c1, c2, c3, c4, c5, c6, c7⟩ := hc
    obtain ⟨_, c1⟩ := Option.ne_none_iff_exists'.1 c1
    obtain ⟨_, c2⟩ := Option.ne_none_iff_exists'.1 c2
    obtain ⟨_, c3⟩ := Option.ne_none_iff_exists'.1 c3
    obtain ⟨_, c4⟩ := Option.ne_none_iff_exists'.1 c4
    obtain ⟨_, c5⟩ := Option.ne_none_iff_exists'.1 c5
    obtain ⟨_, c6⟩ := Option.ne_none_iff_exists'.1 c6
    obtain ⟨_, c7⟩ := Option.ne_none_iff_exists'.1 c7
    exact hn _ _ _ _ _ _ _ c1 c2 c3 c4 c5 c6 c7

/-- Example: `min x² + 3xy` with the constraint `x y`, at (1, 2), Fortran indices. -/
def exNlp : NlpFns 2 1 where
  fortran := true
  f x := some (x 0 * x 0 + 3 * x 0 * x 1)
  gradF x := some fun i => if i = 0 then 2 * x 0 + 3 * x 1 else 3 * x 0
  g x := some fun _ => x 0 * x 1
  jacIdx := some [(1, 1), (1, 2)]
  jacVal x := some [x 1, x 0]
  hessIdx := some [(1, 1), (2, 1)]
  hessVal _ σ l := some [2 * σ, 3 * σ + l 0]

/-- The QP of the example. -/
def exQp : Qp 2 1 := ⟨true, 7, fun i => if i = 0 then 8 else 3, [(0, 0, 2), (1, 0, 8)], fun _ => 2, [(0, 0, 2), (0, 1, 1)], ![1, 2], fun _ => 0, fun _ => 0, fun _ => 5⟩

theorem exQp_made : mkQp exNlp ![1, 2] (fun _ => 0) (fun _ => 0) (fun _ => 5) = .ok exQp := by
  simp [mkQp, exNlp, triplets, toIdx, exQp]
  norm_num

/-- C40 refuted for the row activities: the value handed to the NLP as constraint values is `J d`, without `g(x)`; at the zero displacement
of the example it says 0 while the constraint has the value 2. -/
theorem tqp_final_rows_wrong : (exQp.final false (fun _ => 0) (exQp.evalG fun _ => 0) (exQp.evalF fun _ => 0)).2.2 0 = 0 ∧ exNlp.g ![1, 2] = some fun _ => 2 := by
  constructor
  · simp [Qp.final, Qp.evalG, exQp, gLoop, addAt]
  · simp [exNlp]

/-- C40: and the difference is exactly the constraint values at the expansion point. -/
theorem tqp_final_rows {n m : ℕ} (q : Qp n m) (d : Fin n → ℚ) (inf : Bool) (i : Fin m) :
    (q.final inf d (q.evalG d) (q.evalF d)).2.2 i = ∑ j, tEntry q.jac i j * d j := by
  simp [Qp.final, Qp.evalG, gLoop_eq]

example : exQp.evalF ![1, 1] = 20 := by simp [Qp.evalF, exQp, fLoop, Fin.sum_univ_two]; norm_num
example : exQp.evalGrad ![1, 1] 1 = 11 := by simp [Qp.evalGrad, exQp, gradLoop, addAt]; norm_num

end Verif.Slv

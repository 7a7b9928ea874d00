import Mathlib.Data.Rat.Floor
import Mathlib.Algebra.Order.Floor.Ring
import Mathlib.Algebra.Order.Field.Rat
import Mathlib.Algebra.Order.Ring.Abs
import Mathlib.Algebra.Order.Field.Basic
import Mathlib.Tactic.Linarith
import Mathlib.Tactic.NormNum

/-!
# Helpers of the decomposition: integrality tests, fixing, installing cuts
`src/Algorithms/BonSolverHelp.cpp`.  Points and columns are lists of the same length.
-/
namespace Verif.Dec

/-- A column of the solver. -/
structure Col where
  int : Bool
  lo : ℚ
  up : ℚ
deriving DecidableEq

/-- `floor(x + 0.5)`. -/
def nint (x : ℚ) : ℤ := ⌊x + 1 / 2⌋

/-- `integerFeasible` with objects (25-31): the infeasibilities reported by the objects. -/
def intFeasObj (tol : ℚ) (infs : List ℚ) : Bool := infs.all fun v => !decide (1000 * tol < v)

/-- `integerFeasible` without objects (33-42). -/
def intFeasCol (tol : ℚ) : List Col → List ℚ → Bool
  | c :: cs, x :: xs => if c.int && decide (tol < |x - nint x|) then false else intFeasCol tol cs xs
  | _, _ => true

/-- `OsiSimpleInteger::infeasibility` (Osi, not in this repository): the distance to the nearest integer, 0 if at most the tolerance `t` of the information object. -/
def simpleInf (t x : ℚ) : ℚ := if |x - nint x| ≤ t then 0 else |x - nint x|

/-- How `fixIntegers` ends: normally, or by an exception (not integral, debug builds only; too large). -/
inductive Fixed where
  | ok (cs : List Col)
  | notInt (cs : List Col)
  | tooBig (cs : List Col)
deriving DecidableEq

/-- Put a column in front. -/
def Fixed.cons (c : Col) : Fixed → Fixed
  | .ok cs => .ok (c :: cs)
  | .notInt cs => .notInt (c :: cs)
  | .tooBig cs => .tooBig (c :: cs)

/-- `fixIntegers` without objects (59-92); the exceptions leave the columns before them fixed. -/
def fixInts (dbg : Bool) (tol : ℚ) : List Col → List ℚ → Fixed
  | c :: cs, x :: xs =>
    if c.int then
      if dbg && decide (tol < |x - nint x|) then .notInt (c :: cs)
      else if |(nint x : ℚ)| > 10 ^ 10 then .tooBig (c :: cs)
      else (fixInts dbg tol cs xs).cons { c with lo := nint x, up := nint x }
    else (fixInts dbg tol cs xs).cons c
  | cs, _ => .ok cs

/-- `relaxIntegers` without objects (110-118). -/
def relax (tol : ℚ) (cs : List Col) : List Col := cs.map fun c => if c.int then { c with lo := c.lo - tol, up := c.up + tol } else c

/-- `refixIntegers` without objects (121-145): the same statements again; `none` is the return value false. -/
def refix (optimal : Bool) (tol : ℚ) (cs : List Col) : Option (List Col) := if !optimal then none else some (relax tol cs)

/-- A branching object as seen by `isDifferentOnIntegers` (185-197): a variable, or the members of a SOS. -/
inductive BObj where
  | var (i : Nat)
  | sos (members : List Nat)
deriving DecidableEq

/-- The comparison of one entry (188, 198, 208); an index outside the points is undefined behaviour. -/
def diffAt (tol : ℚ) (x y : List ℚ) (i : Nat) : Option Bool :=
  match y[i]?, x[i]? with
  | some b, some a => some (decide (tol < |b - a|))
  | _, _ => none

/-- The indices that are compared, until the first difference. -/
def diffScan (tol : ℚ) (x y : List ℚ) : List Nat → Option Bool
  | [] => some false
  | i :: is => (diffAt tol x y i).bind fun b => if b then some true else diffScan tol x y is

/-- `isDifferentOnIntegers` (178-213). -/
def isDiff (objs : Option (List BObj)) (cs : List Col) (tol : ℚ) (x y : List ℚ) : Option Bool :=
  match objs with
  | some os => diffScan tol x y (os.flatMap fun o => match o with | .var i => [i] | .sos m => m)
  | none => diffScan tol x y ((List.range cs.length).filter fun i => (cs[i]?.map Col.int).getD false)

/-- `installCuts` (148-174): the last `k` cuts of `cs` are added as rows; more cuts than there are is a negative index (undefined behaviour). -/
def install {ρ : Type} (rows cs : List ρ) (k : Nat) : Option (List ρ) :=
  if cs.length < k then none else some (rows ++ cs.drop (cs.length - k))

/-! ## Specification -/

/-- `x` is within `tol` of some integer. -/
def NearInt (tol x : ℚ) : Prop := ∃ z : ℤ, |x - z| ≤ tol

/-- Every integer column is within `tol` of an integer. -/
def AllNear (tol : ℚ) (cs : List Col) (xs : List ℚ) : Prop := ∀ (i : Nat) (c : Col) (x : ℚ), cs[i]? = some c → xs[i]? = some x → c.int = true → NearInt tol x

/-! ## Properties -/

theorem nint_le_half (x : ℚ) : |x - nint x| ≤ 1 / 2 := by
  unfold nint
  rw [abs_le]
  have h1 := Int.floor_le (x + 1 / 2)
  have h2 := Int.lt_floor_add_one (x + 1 / 2)
  constructor <;> linarith

theorem nint_nearest (x : ℚ) (z : ℤ) : |x - nint x| ≤ |x - z| := by
  by_cases h : z = nint x
  · rw [h]
  · have hd : (1 : ℚ) ≤ |((nint x : ℚ) - z)| := by
      have : (1 : ℤ) ≤ |nint x - z| := Int.one_le_abs (by omega)
      exact_mod_cast this
    have h1 := nint_le_half x
    have h2 : |(nint x : ℚ) - z| ≤ |x - nint x| + |x - z| := by
      have := abs_sub_le (nint x : ℚ) x z
      rwa [abs_sub_comm (nint x : ℚ) x] at this
    linarith

theorem nearInt_iff (tol x : ℚ) : NearInt tol x ↔ |x - nint x| ≤ tol := by
  constructor
  · rintro ⟨z, hz⟩; exact le_trans (nint_nearest x z) hz
  · intro h; exact ⟨nint x, h⟩

theorem allNear_cons (tol : ℚ) (c : Col) (cs : List Col) (x : ℚ) (xs : List ℚ) :
    AllNear tol (c :: cs) (x :: xs) ↔ (c.int = true → NearInt tol x) ∧ AllNear tol cs xs := by
  constructor
  · intro h
    exact ⟨fun hc => h 0 c x rfl rfl hc, fun i c' x' h1 h2 h3 => h (i + 1) c' x' (by simpa using h1) (by simpa using h2) h3⟩
  · rintro ⟨h1, h2⟩ i c' x' g1 g2 g3
    cases i with
    | zero =>
      simp only [List.getElem?_cons_zero, Option.some.injEq] at g1 g2
      subst g1; subst g2; exact h1 g3
    | succ i => exact h2 i c' x' (by simpa using g1) (by simpa using g2) g3

/-- **C43** (column types; holds): without objects the test accepts exactly the points within the tolerance of an integer in every integer column. -/
theorem intFeasCol_iff (tol : ℚ) (cs : List Col) (xs : List ℚ) (h : cs.length = xs.length) : intFeasCol tol cs xs = true ↔ AllNear tol cs xs := by
  induction cs generalizing xs with
  | nil => cases xs <;> simp [intFeasCol, AllNear] at h ⊢
  | cons c cs ih =>
    cases xs with
    | nil => simp at h
    | cons x xs =>
      rw [allNear_cons, nearInt_iff]
      unfold intFeasCol
      rw [← ih xs (by simpa using h)]
      cases c.int
      · simp
      · by_cases hx : tol < |x - nint x|
        · simp [hx]
        · simp [hx, not_lt.mp hx]

/-- **C43** (objects, exact): with one object per integer variable the test accepts exactly the points within 1000 times the tolerance (or the
tolerance of the information object) of an integer. -/
theorem intFeasObj_iff (tol t : ℚ) (xs : List ℚ) (h0 : 0 ≤ tol) :
    intFeasObj tol (xs.map (simpleInf t)) = true ↔ ∀ x ∈ xs, NearInt (max t (1000 * tol)) x := by
  unfold intFeasObj
  rw [List.all_eq_true]
  simp only [List.mem_map, forall_exists_index, and_imp, forall_apply_eq_imp_iff₂]
  refine forall_congr' fun x => forall_congr' fun _ => ?_
  rw [nearInt_iff]
  unfold simpleInf
  by_cases h : |x - nint x| ≤ t
  · rw [if_pos h]
    have : |x - nint x| ≤ max t (1000 * tol) := le_trans h (le_max_left _ _)
    simp [this, not_lt.mpr (by linarith : (0 : ℚ) ≤ 1000 * tol)]
  · rw [if_neg h]
    have : |x - nint x| ≤ max t (1000 * tol) ↔ |x - nint x| ≤ 1000 * tol := by
      rw [le_max_iff]; exact ⟨fun g => g.resolve_left h, Or.inr⟩
    rw [this]
    simp [not_lt]

/-- **C43** (what holds of the claim): the two ways of storing integrality agree on points that are within the tolerance of an integer everywhere, and on points
that are further away than 1000 times the tolerance somewhere.  (Missing: the points in between, see `intFeas_paths_differ`.) -/
theorem intFeas_agree_partial (tol t : ℚ) (xs : List ℚ) (h0 : 0 ≤ tol) (ht : t ≤ 1000 * tol) :
    ((∀ x ∈ xs, NearInt tol x) → intFeasObj tol (xs.map (simpleInf t)) = true) ∧
    ((∃ x ∈ xs, ¬ NearInt (1000 * tol) x) → intFeasObj tol (xs.map (simpleInf t)) = false ∧ ∀ lo up, intFeasCol tol (xs.map fun _ => ⟨true, lo, up⟩) xs = false) := by
  have hm : max t (1000 * tol) = 1000 * tol := max_eq_right ht
  constructor
  · intro h
    rw [intFeasObj_iff tol t xs h0, hm]
    intro x hx
    obtain ⟨z, hz⟩ := h x hx
    exact ⟨z, by linarith⟩
  · rintro ⟨x, hx, hn⟩
    constructor
    · rw [← Bool.not_eq_true, intFeasObj_iff tol t xs h0, hm]
      intro h; exact hn (h x hx)
    · intro lo up
      rw [← Bool.not_eq_true, intFeasCol_iff _ _ _ (by simp)]
      intro h
      obtain ⟨i, hi, rfl⟩ := List.getElem_of_mem hx
      obtain ⟨z, hz⟩ := h i ⟨true, lo, up⟩ xs[i] (by simp [hi]) (by simp [hi]) rfl
      exact hn ⟨z, by linarith⟩

/-- **C43** refuted: tolerance 1e-6, value 2.0005: accepted when integrality is stored in objects, rejected when it is stored in column types. -/
theorem intFeas_paths_differ : intFeasObj (1 / 10 ^ 6) ([20005 / 10000].map (simpleInf (1 / 10 ^ 6))) = true ∧
    intFeasCol (1 / 10 ^ 6) [⟨true, 0, 5⟩] [20005 / 10000] = false := by
  constructor <;> decide +kernel

/-- **C43** refuted: with a tolerance of 5e-4 or more (`integer_tolerance` may be up to 0.5) and objects, every point is accepted as integral. -/
theorem intFeasObj_accepts_all (tol t : ℚ) (xs : List ℚ) (h : 1 / 2000 ≤ tol) : intFeasObj tol (xs.map (simpleInf t)) = true := by
  rw [intFeasObj_iff tol t xs (by linarith)]
  intro x _
  refine ⟨nint x, le_trans (nint_le_half x) (le_trans ?_ (le_max_right _ _))⟩
  linarith

/-- **C31** (fixing, exact): if `fixIntegers` returns, every integer column is fixed at the nearest integer of the point, at most 1e10 in absolute
value, the other columns are unchanged, and in debug builds the point was integral within the tolerance; and it does return for such points. -/
theorem fixInts_ok (dbg : Bool) (tol : ℚ) (cs cs' : List Col) (xs : List ℚ) (hl : cs.length = xs.length) :
    fixInts dbg tol cs xs = .ok cs' ↔
      cs' = List.zipWith (fun c x => if c.int then { c with lo := (nint x : ℚ), up := (nint x : ℚ) } else c) cs xs ∧
      (dbg = true → AllNear tol cs xs) ∧
      ∀ (i : Nat) (c : Col) (x : ℚ), cs[i]? = some c → xs[i]? = some x → c.int = true → |(nint x : ℚ)| ≤ 10 ^ 10 := by
  induction cs generalizing xs cs' with
  | nil =>
    cases xs with
    | nil => simp [fixInts, AllNear]
    | cons x xs => simp at hl
  | cons c cs ih =>
    cases xs with
    | nil => simp at hl
    | cons x xs =>
      have hl' : cs.length = xs.length := by simpa using hl
      have hcons : ∀ (d : Col) (r : Fixed), r.cons d = .ok cs' ↔ ∃ t, cs' = d :: t ∧ r = .ok t := by
        intro d r
        cases r <;> simp [Fixed.cons, eq_comm]
      have hidx : (∀ (i : Nat) (c' : Col) (x' : ℚ), (c :: cs)[i]? = some c' → (x :: xs)[i]? = some x' → c'.int = true → |(nint x' : ℚ)| ≤ 10 ^ 10) ↔
          (c.int = true → |(nint x : ℚ)| ≤ 10 ^ 10) ∧
          (∀ (i : Nat) (c' : Col) (x' : ℚ), cs[i]? = some c' → xs[i]? = some x' → c'.int = true → |(nint x' : ℚ)| ≤ 10 ^ 10) := by
        constructor
        · intro h
          exact ⟨fun hc => h 0 c x rfl rfl hc, fun i c' x' h1 h2 h3 => h (i + 1) c' x' (by simpa using h1) (by simpa using h2) h3⟩
        · rintro ⟨h1, h2⟩ i c' x' g1 g2 g3
          cases i with
          | zero =>
            simp only [List.getElem?_cons_zero, Option.some.injEq] at g1 g2
            subst g1; subst g2; exact h1 g3
          | succ i => exact h2 i c' x' (by simpa using g1) (by simpa using g2) g3
      rw [allNear_cons, nearInt_iff, hidx, List.zipWith_cons_cons]
      unfold fixInts
      by_cases hc : c.int = true
      · rw [if_pos hc, if_pos hc]
        by_cases h1 : (dbg && decide (tol < |x - nint x|)) = true
        · rw [if_pos h1]
          have hd : dbg = true ∧ tol < |x - nint x| := by simpa using h1
          simp [hd.1, hc, not_le.mpr hd.2]
        · rw [if_neg h1]
          by_cases h2 : |(nint x : ℚ)| > 10 ^ 10
          · rw [if_pos h2]
            simp [hc, not_le.mpr h2]
          · rw [if_neg h2, hcons]
            have h2' := not_lt.mp h2
            have h1' : dbg = true → |x - nint x| ≤ tol := by
              intro hd; rw [hd] at h1; simpa using h1
            constructor
            · rintro ⟨t, rfl, ht⟩
              obtain ⟨g1, g2, g3⟩ := (ih t xs hl').mp ht
              exact ⟨by rw [g1], fun hd => ⟨fun _ => h1' hd, g2 hd⟩, fun _ => h2', g3⟩
            · rintro ⟨g1, g2, _, g3⟩
              exact ⟨_, g1, (ih _ xs hl').mpr ⟨rfl, fun hd => (g2 hd).2, g3⟩⟩
      · rw [if_neg hc, if_neg hc, hcons]
        constructor
        · rintro ⟨t, rfl, ht⟩
          obtain ⟨g1, g2, g3⟩ := (ih t xs hl').mp ht
          exact ⟨by rw [g1], fun hd => ⟨fun h => absurd h hc, g2 hd⟩, fun h => absurd h hc, g3⟩
        · rintro ⟨g1, g2, _, g3⟩
          exact ⟨_, g1, (ih _ xs hl').mpr ⟨rfl, fun hd => (g2 hd).2, g3⟩⟩

example : fixInts true (1 / 10 ^ 6) [⟨true, 0, 5⟩, ⟨false, 0, 1⟩] [2, 1 / 2] = .ok [⟨true, 2, 2⟩, ⟨false, 0, 1⟩] := by decide +kernel

/-- The value an integer column is fixed at is within its (integral) bounds when the point is within them up to less than 1/2. -/
theorem nint_in_bounds (l u : ℤ) (x : ℚ) (h1 : (l : ℚ) - 1 / 2 ≤ x) (h2 : x < u + 1 / 2) : l ≤ nint x ∧ nint x ≤ u := by
  unfold nint
  constructor
  · rw [Int.le_floor]; linarith
  · have : ⌊x + 1 / 2⌋ < u + 1 := by rw [Int.floor_lt]; push_cast; linarith
    omega

/-- `refixIntegers` refuted as an inverse of `relaxIntegers`: every integer column ends up relaxed twice. -/
theorem refix_relaxes_again (tol : ℚ) (cs : List Col) :
    refix true tol (relax tol cs) = some (cs.map fun c => if c.int then { c with lo := c.lo - 2 * tol, up := c.up + 2 * tol } else c) := by
  unfold refix relax
  simp only [Bool.not_true, Bool.false_eq_true, if_false, List.map_map, Option.some.injEq]
  apply List.map_congr_left
  intro c _
  simp only [Function.comp]
  by_cases h : c.int = true
  · simp only [h, if_true]
    congr 1 <;> ring
  · simp [h]

theorem diffScan_true (tol : ℚ) (x y : List ℚ) (is : List Nat) (hx : ∀ i ∈ is, i < x.length ∧ i < y.length) :
    ∃ b, diffScan tol x y is = some b ∧ (b = true ↔ ∃ i ∈ is, ∃ u v, x[i]? = some u ∧ y[i]? = some v ∧ tol < |u - v|) := by
  induction is with
  | nil => exact ⟨false, rfl, by simp⟩
  | cons i is ih =>
    obtain ⟨b, hb, hb'⟩ := ih (fun j hj => hx j (List.mem_cons_of_mem _ hj))
    obtain ⟨h1, h2⟩ := hx i (by simp)
    have e1 : x[i]? = some x[i] := List.getElem?_eq_getElem h1
    have e2 : y[i]? = some y[i] := List.getElem?_eq_getElem h2
    unfold diffScan diffAt
    rw [e1, e2]
    simp only [Option.bind_some]
    by_cases h : tol < |y[i] - x[i]|
    · refine ⟨true, by simp [h], ?_⟩
      simp only [true_iff]
      exact ⟨i, by simp, _, _, e1, e2, by rwa [abs_sub_comm]⟩
    · refine ⟨b, by simp [h, hb], ?_⟩
      rw [hb']
      constructor
      · rintro ⟨j, hj, g⟩; exact ⟨j, List.mem_cons_of_mem _ hj, g⟩
      · rintro ⟨j, hj, u, v, g1, g2, g3⟩
        rcases List.mem_cons.mp hj with rfl | hj
        · rw [e1] at g1; rw [e2] at g2
          cases g1; cases g2
          rw [abs_sub_comm] at g3
          exact absurd g3 h
        · exact ⟨j, hj, u, v, g1, g2, g3⟩

/-- **C43** (comparison of two points, exact): without objects the answer is "different" iff some integer column differs by more than the tolerance. -/
theorem isDiff_cols (cs : List Col) (tol : ℚ) (x y : List ℚ) (hx : x.length = cs.length) (hy : cs.length ≤ y.length) :
    ∃ b, isDiff none cs tol x y = some b ∧
      (b = true ↔ ∃ (i : Nat) (c : Col) (u v : ℚ), cs[i]? = some c ∧ c.int = true ∧ x[i]? = some u ∧ y[i]? = some v ∧ tol < |u - v|) := by
  obtain ⟨b, h1, h2⟩ := diffScan_true tol x y ((List.range cs.length).filter fun i => (cs[i]?.map Col.int).getD false) (by
    intro i hi
    have := List.mem_range.mp (List.mem_filter.mp hi).1
    omega)
  refine ⟨b, h1, ?_⟩
  rw [h2]
  constructor
  · rintro ⟨i, hi, u, v, g⟩
    obtain ⟨g1, g2⟩ := List.mem_filter.mp hi
    have := List.mem_range.mp g1
    have e := List.getElem?_eq_getElem this
    rw [e] at g2
    exact ⟨i, cs[i], u, v, e, by simpa using g2, g⟩
  · rintro ⟨i, c, u, v, g1, g2, g⟩
    refine ⟨i, List.mem_filter.mpr ⟨List.mem_range.mpr (List.getElem?_eq_some_iff.mp g1).1, ?_⟩, u, v, g⟩
    rw [g1]; simpa using g2

/-- **C43** (comparison with objects, exact): "different" iff some variable of some object (branching variable or SOS member) differs by more than the tolerance. -/
theorem isDiff_objs (os : List BObj) (cs : List Col) (tol : ℚ) (x y : List ℚ)
    (hv : ∀ o ∈ os, ∀ i, (o = .var i ∨ ∃ m, o = .sos m ∧ i ∈ m) → i < x.length ∧ i < y.length) :
    ∃ b, isDiff (some os) cs tol x y = some b ∧
      (b = true ↔ ∃ o ∈ os, ∃ i, (o = .var i ∨ ∃ m, o = .sos m ∧ i ∈ m) ∧ ∃ u v, x[i]? = some u ∧ y[i]? = some v ∧ tol < |u - v|) := by
  have hm : ∀ i, i ∈ (os.flatMap fun o => match o with | .var i => [i] | .sos m => m) ↔ ∃ o ∈ os, (o = .var i ∨ ∃ m, o = .sos m ∧ i ∈ m) := by
    intro i
    rw [List.mem_flatMap]
    refine exists_congr fun o => and_congr_right fun _ => ?_
    cases o <;> simp [eq_comm]
  obtain ⟨b, h1, h2⟩ := diffScan_true tol x y (os.flatMap fun o => match o with | .var i => [i] | .sos m => m) (by
    intro i hi
    obtain ⟨o, ho, h⟩ := (hm i).mp hi
    exact hv o ho i h)
  refine ⟨b, h1, ?_⟩
  rw [h2]
  constructor
  · rintro ⟨i, hi, g⟩
    obtain ⟨o, ho, h⟩ := (hm i).mp hi
    exact ⟨o, ho, i, h, g⟩
  · rintro ⟨o, ho, i, h, g⟩
    exact ⟨i, (hm i).mpr ⟨o, ho, h⟩, g⟩

example : isDiff (some [.var 0, .sos [1, 2]]) [] (1 / 10) [0, 1, 2] [0, 1, 3] = some true ∧ isDiff none [⟨true, 0, 1⟩, ⟨false, 0, 9⟩] (1 / 10) [0, 1] [0, 5] = some false := by
  constructor <;> decide +kernel

/-- `installCuts` adds exactly the last `k` cuts, in order, after the existing rows. -/
theorem install_spec {ρ : Type} (rows old new : List ρ) : install rows (old ++ new) new.length = some (rows ++ new) := by
  unfold install
  rw [if_neg (by simp)]
  simp

/-- **C43.**  `refixIntegers` gives up exactly when the NLP was not solved to optimality, and otherwise widens the bounds of the integer columns, and of no other, by the tolerance. -/
theorem refix_iff (optimal : Bool) (tol : ℚ) (cs : List Col) : (refix optimal tol cs = none ↔ optimal = false) ∧ ∀ cs', refix optimal tol cs = some cs' → cs'.length = cs.length ∧
    ∀ (i : ℕ) (c c' : Col), cs[i]? = some c → cs'[i]? = some c' → c'.int = c.int ∧ (c.int = true → c'.lo = c.lo - tol ∧ c'.up = c.up + tol) ∧ (c.int = false → c' = c) := by
  cases optimal
  · simp [refix]
  · refine ⟨by simp [refix], fun cs' h => ?_⟩
    simp only [refix, Bool.not_true, Bool.false_eq_true, if_false, Option.some.injEq] at h
    subst h
    refine ⟨by simp [relax], fun i c c' hc hc' => ?_⟩
    simp only [relax, List.getElem?_map, hc, Option.map_some, Option.some.injEq] at hc'
    subst hc'
    cases hi : c.int <;> simp [hi]

/-- **C43.**  The comparison of points is undefined exactly when an index outside one of the points comes before the first difference. -/
theorem diffScan_undefined (tol : ℚ) (x y : List ℚ) (l : List ℕ) :
    diffScan tol x y l = none ↔ ∃ p i q, l = p ++ i :: q ∧ (x.length ≤ i ∨ y.length ≤ i) ∧ ∀ j ∈ p, ∃ a b, x[j]? = some a ∧ y[j]? = some b ∧ |b - a| ≤ tol := by
  induction l with
  | nil => simp [diffScan]
  | cons k l ih =>
    unfold diffScan
    cases hy : y[k]? with
    | none =>
      have : diffAt tol x y k = none := by unfold diffAt; rw [hy]
      rw [this]
      refine ⟨fun _ => ⟨[], k, l, rfl, Or.inr (List.getElem?_eq_none_iff.mp hy), by simp⟩, fun _ => rfl⟩
    | some b =>
      cases hx : x[k]? with
      | none =>
        have : diffAt tol x y k = none := by unfold diffAt; rw [hy, hx]
        rw [this]
        refine ⟨fun _ => ⟨[], k, l, rfl, Or.inl (List.getElem?_eq_none_iff.mp hx), by simp⟩, fun _ => rfl⟩
      | some a =>
        have hd : diffAt tol x y k = some (decide (tol < |b - a|)) := by unfold diffAt; rw [hy, hx]
        have hxl := (List.getElem?_eq_some_iff.mp hx).1
        have hyl := (List.getElem?_eq_some_iff.mp hy).1
        rw [hd, Option.bind_some]
        by_cases ht : tol < |b - a|
        · simp only [ht, decide_true, if_true]
          refine ⟨fun h => (by simp at h), ?_⟩
          rintro ⟨p, i, q, e, ho, hp⟩
          cases p with
          | nil =>
            simp at e
            obtain ⟨rfl, _⟩ := e
            omega
          | cons j p =>
            simp at e
            obtain ⟨rfl, _⟩ := e
            obtain ⟨a', b', h1, h2, h3⟩ := hp k (by simp)
            rw [hx] at h1; rw [hy] at h2
            cases h1; cases h2
            exact absurd ht (not_lt.mpr h3)
        · simp only [ht, decide_false, Bool.false_eq_true, if_false]
          rw [ih]
          constructor
          · rintro ⟨p, i, q, e, ho, hp⟩
            refine ⟨k :: p, i, q, by rw [e]; rfl, ho, ?_⟩
            intro j hj
            rcases List.mem_cons.mp hj with rfl | hj
            · exact ⟨a, b, hx, hy, not_lt.mp ht⟩
            · exact hp j hj
          · rintro ⟨p, i, q, e, ho, hp⟩
            cases p with
            | nil =>
              simp at e
              obtain ⟨rfl, _⟩ := e
              omega
            | cons j p =>
              simp at e
              obtain ⟨rfl, e⟩ := e
              exact ⟨p, i, q, e, ho, fun j hj => hp j (by simp [hj])⟩

example : diffScan (1 / 10) [0, 1] [0, 1, 2] [0, 2, 1] = none ∧ diffScan (1 / 10) [0, 1] [0, 5, 2] [1, 2] = some true := by
  constructor <;> decide +kernel

/-- **C43.**  `installCuts`: defined exactly when there are at least `k` cuts, and then the last `k` follow the rows. -/
theorem install_iff {ρ : Type} (rows cs : List ρ) (k : ℕ) (r : List ρ) : (install rows cs k = none ↔ cs.length < k) ∧
    (install rows cs k = some r ↔ ∃ old new, cs = old ++ new ∧ new.length = k ∧ r = rows ++ new) := by
  unfold install
  by_cases h : cs.length < k
  · simp only [h, if_true]
    refine ⟨by simp, ⟨fun h => (by cases h), ?_⟩⟩
    rintro ⟨old, new, e, hl, _⟩
    rw [e, List.length_append] at h
    omega
  · simp only [h, if_false]
    refine ⟨by simp, ⟨fun e => ?_, ?_⟩⟩
    · cases e
      refine ⟨cs.take (cs.length - k), _, (List.take_append_drop _ _).symm, ?_, rfl⟩
      rw [List.length_drop]; omega
    · rintro ⟨old, new, e, hl, rfl⟩
      subst e
      simp [← hl]

example : install [1] [2, 3] 3 = none ∧ install [1] [2, 3] 1 = some [1, 3] := by decide

end Verif.Dec

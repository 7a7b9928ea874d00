import Mathlib.Data.Rat.Lemmas
import Mathlib.Algebra.Order.Field.Rat
import Mathlib.Tactic.NormNum
/-! # C105: solutions, prices and activities given and returned; C106: the fake basis

src/Interfaces/BonOsiTMINLPInterface.cpp: `getColSolution`, `getRowPrice` 1262-1280, `getRowActivity` 1294-1300, `setColSolution` 1393-1410, `setRowPrice` 1412-1427,
`build_fake_basis` 1467-1492; src/Interfaces/BonTMINLP2TNLP.cpp: `resetStartingPoint` 280-284, `setxInit` 286-292, `setDualsInit` 294-303, `get_starting_point`
360-397, `finalize_solution` 474-509; src/Algorithms/QuadCuts/BonTMINLP2Quad.cpp: arrays of `addCuts` 396-398, 442-444 and of `removeCuts` 448-483.

Simplifications: numbers are exact; an array is a list, what lies past its end may not be read; `duals_init_` is a flag: when set it points to position `n` of `x_init_`
(it dangles if `x_init_` is shorter than that plus what is read); of cuts only their number is kept; an infeasible solve (which changes only the value reported) is like
any other. -/
namespace Verif.Itf.SolQueries

/-- The problem (`n` variables, `m` rows, `x_init_user_`, `x_init_`, `duals_init_` set, `x_sol_`, `g_sol_`, `duals_sol_`) and `hasBeenOptimized_`. -/
structure S where
  n : ℕ
  m : ℕ
  user : List ℚ
  xinit : List ℚ
  duals : Bool
  xsol : List ℚ
  gsol : List ℚ
  dsol : List ℚ
  opt : Bool
  deriving DecidableEq, Repr

/-- What NLP solvers give back; `lam = none` for a null pointer. -/
structure Sol where
  x : List ℚ
  g : List ℚ
  zl : List ℚ
  zu : List ℚ
  lam : Option (List ℚ)
  deriving DecidableEq, Repr

inductive Op
  | setCol (l : Option (List ℚ))
  | setPrice (l : List ℚ)
  /-- Any call that only resets `hasBeenOptimized_` here: bounds, types, warm starts. -/
  | other
  | solve (r : Sol)
  | addCuts (k : ℕ)
  | removeCuts (idx : List ℕ)
  deriving DecidableEq, Repr

/-- `std::vector::resize` with zeros. -/
def resize (k : ℕ) (l : List ℚ) : List ℚ := l.take k ++ List.replicate (k - l.length) 0

/-- Reading `k` entries of an array. -/
def readN (k : ℕ) (l : List ℚ) : Option (List ℚ) := if k ≤ l.length then some (l.take k) else none

/-- One call; `none` = reads past the end of an array. -/
def step (s : S) : Op → Option S
  | .setCol none => some { s with xinit := [], opt := false }
  | .setCol (some l) => (readN s.n l).map fun x => { s with xinit := x ++ s.xinit.drop s.n, opt := false }
  | .setPrice l => (readN (2 * s.n + s.m) l).map fun d =>
      { s with xinit := (resize (3 * s.n + s.m) s.xinit).take s.n ++ d, duals := true, opt := false }
  | .other => some { s with opt := false }
  | .solve r =>
    match readN s.n r.x, readN s.m r.g, readN s.n r.zl, readN s.n r.zu with
    | some x, some g, some zl, some zu =>
      match r.lam with
      | none => some { s with xsol := x, gsol := if s.m = 0 then s.gsol else g, dsol := resize (s.m + 2 * s.n) s.dsol, opt := true }
      | some l => (readN s.m l).map fun l => { s with xsol := x, gsol := if s.m = 0 then s.gsol else g, dsol := zl ++ zu ++ l, opt := true }
    | _, _, _, _ => none
  | .addCuts k => some { s with m := s.m + k, dsol := resize (s.m + k + 2 * s.n) s.dsol, xinit := resize (s.m + k + 3 * s.n) s.xinit, duals := true }
  | .removeCuts idx => some { s with m := s.m - idx.length }

def run : S → List Op → Option S
  | s, [] => some s
  | s, o :: os => (step s o).bind fun t => run t os

/-- `getColSolution` (BonOsiTMINLPInterface.cpp:1262-1270), reading one entry per column. -/
def getCol (s : S) : Option (List ℚ) := readN s.n (if s.opt then s.xsol else s.xinit)

/-- `getRowPrice` (BonOsiTMINLPInterface.cpp:1272-1280), reading one entry per row as documented. -/
def getPrice (s : S) : Option (List ℚ) := readN s.m (if s.opt then s.dsol else if s.duals then s.xinit.drop s.n else [])

/-- `getRowActivity` (BonOsiTMINLPInterface.cpp:1296-1300). -/
def getActivity (s : S) : Option (List ℚ) := readN s.m s.gsol

/-- Point of `get_starting_point` (BonTMINLP2TNLP.cpp:371-378). -/
def startPoint (s : S) : Option (List ℚ) := readN s.n (if s.xinit = [] then s.user else s.xinit)

/-! ## What holds -/

theorem readN_some (k : ℕ) (l r : List ℚ) : readN k l = some r ↔ k ≤ l.length ∧ r = l.take k := by
  unfold readN
  split
  · rename_i h; simp [h, eq_comm]
  · rename_i h; simp [h]

theorem take_resize (n k : ℕ) (l : List ℚ) (h1 : n ≤ k) (h2 : n ≤ l.length) : (resize k l).take n = l.take n := by
  unfold resize
  rw [List.take_append_of_le_length (by simp; omega), List.take_take, Nat.min_eq_left h1]

theorem length_resize (k : ℕ) (l : List ℚ) : (resize k l).length = k := by simp [resize]; omega

/-- Calls that neither give a solution nor compute one. -/
def Op.quiet : Op → Prop
  | .setCol _ | .solve _ => False
  | _ => True

theorem quiet_keeps (s t : S) (o : Op) (l : List ℚ) (ho : o.quiet) (hl : l.length = s.n) (hx : readN s.n s.xinit = some l) (hs : step s o = some t) :
    t.n = s.n ∧ readN t.n t.xinit = some l ∧ (s.opt = false → t.opt = false) := by
  obtain ⟨h1, h2⟩ := (readN_some _ _ _).mp hx
  cases o with
  | setCol l => exact ho.elim
  | solve r => exact ho.elim
  | other => simp only [step, Option.some.injEq] at hs; subst hs; exact ⟨rfl, hx, fun _ => rfl⟩
  | removeCuts idx => simp only [step, Option.some.injEq] at hs; subst hs; exact ⟨rfl, hx, id⟩
  | addCuts k =>
    simp only [step, Option.some.injEq] at hs
    subst hs
    refine ⟨rfl, (readN_some _ _ _).mpr ⟨by simp only [length_resize]; omega, ?_⟩, id⟩
    rw [h2]
    exact (take_resize _ _ _ (by omega) h1).symm
  | setPrice d =>
    simp only [step] at hs
    cases hd : readN (2 * s.n + s.m) d with
    | none => simp [hd] at hs
    | some d' =>
      simp [hd] at hs
      subst hs
      have hlen : (List.take s.n (resize (3 * s.n + s.m) s.xinit)).length = s.n := by simp [length_resize]; omega
      refine ⟨rfl, (readN_some _ _ _).mpr ⟨by show s.n ≤ _; simp only [List.length_append, hlen]; omega, ?_⟩, fun _ => rfl⟩
      show l = List.take s.n _
      rw [List.take_append_of_le_length (by omega), List.take_take, Nat.min_self, take_resize _ _ _ (by omega) h1, h2]

/-- The point given by `setColSolution` is what `getColSolution` returns, and where the next solve starts, until another one is given or a solve is made. -/
theorem set_get_col (os : List Op) : ∀ (s t : S) (l : List ℚ), l.length = s.n → 0 < s.n → s.opt = false → readN s.n s.xinit = some l → (∀ o ∈ os, o.quiet) →
    run s os = some t → getCol t = some l ∧ startPoint t = some l := by
  induction os with
  | nil =>
    intro s t l hl hn ho hx _ hr
    simp only [run, Option.some.injEq] at hr
    subst hr
    refine ⟨by simp [getCol, ho, hx], ?_⟩
    obtain ⟨h1, h2⟩ := (readN_some _ _ _).mp hx
    rw [startPoint, if_neg (by intro h; simp [h] at h1; omega)]
    exact hx
  | cons o os ih =>
    intro s t l hl hn ho hx hq hr
    simp only [run] at hr
    cases hst : step s o with
    | none => simp [hst] at hr
    | some u =>
      simp only [hst, Option.bind_some] at hr
      obtain ⟨a, b, c⟩ := quiet_keeps s u o l (hq _ List.mem_cons_self) hl hx hst
      exact ih u t l (by rw [a]; exact hl) (by rw [a]; exact hn) (c ho) b (fun x hx => hq x (List.mem_cons_of_mem _ hx)) hr

theorem set_col_then (s t : S) (l : List ℚ) (os : List Op) (hl : l.length = s.n) (hn : 0 < s.n) (hq : ∀ o ∈ os, o.quiet)
    (hr : run s (.setCol (some l) :: os) = some t) : getCol t = some l ∧ startPoint t = some l := by
  have e : readN s.n l = some l := (readN_some _ _ _).mpr ⟨by omega, by rw [List.take_of_length_le (by omega)]⟩
  simp only [run, step, e, Option.map_some, Option.bind_some] at hr
  refine set_get_col os { s with xinit := l ++ s.xinit.drop s.n, opt := false } t l hl hn rfl ?_ hq hr
  exact (readN_some _ _ _).mpr ⟨by simp only [List.length_append]; omega, by simp only; rw [List.take_append_of_le_length (by omega), List.take_of_length_le (by omega)]⟩

/-- Exact result of a solve: point, activities, and the multipliers of lower bounds, upper bounds and rows in this order. -/
theorem solve_exact (s t : S) (r : Sol) (l : List ℚ) (hlam : r.lam = some l) (hx : r.x.length = s.n) (hg : r.g.length = s.m) (hzl : r.zl.length = s.n)
    (hzu : r.zu.length = s.n) (hl : l.length = s.m) (hs : step s (.solve r) = some t) :
    getCol t = some r.x ∧ getActivity t = some r.g ∧ t.dsol = r.zl ++ r.zu ++ l ∧ t.xinit = s.xinit := by
  have e : ∀ (k : ℕ) (l : List ℚ), l.length = k → readN k l = some l := fun k l h => (readN_some _ _ _).mpr ⟨by omega, by rw [List.take_of_length_le (by omega)]⟩
  simp only [step, e _ _ hx, e _ _ hg, e _ _ hzl, e _ _ hzu, hlam, e _ _ hl, Option.map_some, Option.some.injEq] at hs
  subst hs
  refine ⟨by simp [getCol, e _ _ hx], ?_, rfl, rfl⟩
  by_cases hm : s.m = 0
  · have : r.g = [] := List.length_eq_zero_iff.mp (by omega)
    simp [getActivity, hm, readN, this]
  · simp [getActivity, hm, e _ _ hg]

/-- A solution stays while cuts are added and removed. -/
theorem solution_stays (s t : S) (k : ℕ) (idx : List ℕ) (o : Op) (ho : o = .addCuts k ∨ o = .removeCuts idx) (hopt : s.opt = true) (hs : step s o = some t) :
    getCol t = getCol s := by
  rcases ho with h | h <;> subst h <;> simp only [step, Option.some.injEq] at hs <;> subst hs <;> simp [getCol, hopt]

/-- Multipliers of rows are at the end: adding cuts keeps those of the other rows and gives 0 to the new ones, in the solution and in the starting point. -/
theorem cuts_multipliers (s t : S) (k : ℕ) (hd : s.dsol.length = 2 * s.n + s.m) (hx : s.xinit.length = 3 * s.n + s.m) (hs : step s (.addCuts k) = some t) :
    t.dsol = s.dsol ++ List.replicate k 0 ∧ t.xinit = s.xinit ++ List.replicate k 0 ∧ t.m = s.m + k := by
  simp only [step, Option.some.injEq] at hs
  subst hs
  have e : ∀ (a : ℕ) (l : List ℚ), l.length + k = a → resize a l = l ++ List.replicate k 0 := by
    intro a l h
    rw [resize, List.take_of_length_le (by omega), show a - l.length = k by omega]
  exact ⟨e _ _ (by omega), e _ _ (by omega), rfl⟩

/-- Adding cuts leaves the starting point, if one has been given. -/
theorem cuts_start_partial (s t : S) (k : ℕ) (h0 : s.xinit ≠ []) (hx : s.n ≤ s.xinit.length) (hn : 0 < s.n) (hs : step s (.addCuts k) = some t) :
    startPoint t = startPoint s := by
  simp only [step, Option.some.injEq] at hs
  subst hs
  have h1 : resize (s.m + k + 3 * s.n) s.xinit ≠ [] := by
    intro h
    have := length_resize (s.m + k + 3 * s.n) s.xinit
    rw [h] at this
    simp at this
    omega
  simp only [startPoint, h0, h1, if_false, readN, length_resize, hx, if_true, show s.n ≤ s.m + k + 3 * s.n by omega]
  rw [take_resize _ _ _ (by omega) hx]

/-- The activities can be read exactly if there is one for every row. -/
theorem activity_iff (s : S) : (getActivity s).isSome ↔ s.m ≤ s.gsol.length := by
  unfold getActivity readN
  split <;> simp_all

/-! ## What does not hold -/

/-- A new problem has no column solution, though the user gave a starting point. -/
theorem new_problem_no_solution (n m : ℕ) (u : List ℚ) (hn : 0 < n) : getCol ⟨n, m, u, [], false, [], [], [], false⟩ = none := by
  simp [getCol, readN]
  omega

/-- After a change of a bound the solution of the solve before is not returned: the last starting point is, and nothing if there was none. -/
theorem bound_hides_solution (s t : S) (hs : step s .other = some t) : getCol t = readN s.n s.xinit := by
  simp only [step, Option.some.injEq] at hs
  subst hs
  simp [getCol]

/-- Row prices are documented to be one per row; what is returned starts with the multipliers of lower bounds. -/
theorem price_of_bound (s t : S) (r : Sol) (l : List ℚ) (hlam : r.lam = some l) (hx : r.x.length = s.n) (hg : r.g.length = s.m) (hzl : r.zl.length = s.n)
    (hzu : r.zu.length = s.n) (hl : l.length = s.m) (hm : s.m ≤ s.n) (hs : step s (.solve r) = some t) : getPrice t = some (r.zl.take s.m) := by
  obtain ⟨_, _, h, _⟩ := solve_exact s t r l hlam hx hg hzl hzu hl hs
  have e : ∀ (k : ℕ) (l : List ℚ), l.length = k → readN k l = some l := fun k l h => (readN_some _ _ _).mpr ⟨by omega, by rw [List.take_of_length_le (by omega)]⟩
  simp only [step, e _ _ hx, e _ _ hg, e _ _ hzl, e _ _ hzu, hlam, e _ _ hl, Option.map_some, Option.some.injEq] at hs
  subst hs
  simp only [getPrice, if_true]
  refine (readN_some _ _ _).mpr ⟨by simp; omega, ?_⟩
  rw [List.append_assoc, List.take_append_of_le_length (by omega)]

/-- One price per row, as documented, is too few for `setRowPrice`. -/
theorem price_reads_past (s : S) (l : List ℚ) (hl : l.length = s.m) (hn : 0 < s.n) : step s (.setPrice l) = none := by
  simp only [step, readN]
  rw [if_neg (by omega)]
  rfl

/-- Giving multipliers, or adding cuts (even none), to a problem that has not been started from a given point moves its starting point from the one of the user to 0. -/
theorem start_moved (s t : S) (d : List ℚ) (k : ℕ) (o : Op) (ho : o = .setPrice d ∨ o = .addCuts k) (h0 : s.xinit = []) (hn : 0 < s.n) (hs : step s o = some t) :
    startPoint t = some (List.replicate s.n 0) := by
  rcases ho with ho | ho <;> subst ho <;> simp only [step] at hs
  · cases hd : readN (2 * s.n + s.m) d with
    | none => simp [hd] at hs
    | some d' =>
      have hd' := (readN_some _ _ _).mp hd
      simp only [hd, Option.map_some, Option.some.injEq] at hs
      subst hs
      have e : resize (3 * s.n + s.m) s.xinit = List.replicate (3 * s.n + s.m) 0 := by simp [resize, h0]
      simp only [startPoint, e, List.take_replicate, show min s.n (3 * s.n + s.m) = s.n by omega]
      rw [if_neg (by intro h; have := congrArg List.length h; simp at this; omega)]
      exact (readN_some _ _ _).mpr ⟨by simp, by rw [List.take_append_of_le_length (by simp)]; simp⟩
  · simp only [Option.some.injEq] at hs
    subst hs
    have e : resize (s.m + k + 3 * s.n) s.xinit = List.replicate (s.m + k + 3 * s.n) 0 := by simp [resize, h0]
    simp only [startPoint, e]
    rw [if_neg (by intro h; have := congrArg List.length h; simp at this; omega)]
    exact (readN_some _ _ _).mpr ⟨by simp; omega, by simp; omega⟩

/-- After removal of a row its multiplier is that of the next row, and what is added later gets the multiplier of yet another. -/
theorem removed_multiplier :
    (run ⟨1, 1, [0], [], false, [], [], [], false⟩ [.addCuts 2, .solve ⟨[5], [1, 2, 3], [0], [0], some [10, 20, 30]⟩, .removeCuts [1], .addCuts 1]).map
      (fun t => (t.m, t.dsol.drop 2)) = some (3, [10, 20, 30]) := by decide +kernel

/-- The activities after adding cuts are too few. -/
theorem activity_too_short (s t : S) (k : ℕ) (hg : s.gsol.length = s.m) (hk : 0 < k) (hs : step s (.addCuts k) = some t) : getActivity t = none := by
  simp only [step, Option.some.injEq] at hs
  subst hs
  simp only [getActivity, readN]
  rw [if_neg (by omega)]

/-- Resetting the starting point leaves the pointer to the multipliers dangling. -/
theorem reset_dangles (s t : S) (hd : s.duals = true) (hm : 0 < s.m) (hs : step s (.setCol none) = some t) : t.duals = true ∧ getPrice t = none := by
  simp only [step, Option.some.injEq] at hs
  subst hs
  refine ⟨hd, ?_⟩
  simp only [getPrice, hd, readN]
  rw [if_neg (by simp; omega)]

def exS : S := ⟨2, 1, [7, 8], [], false, [], [], [], false⟩
example : (run exS [.setCol (some [1, 2]), .addCuts 1, .setPrice [1, 2, 3, 4, 5, 6], .other]).bind getCol = some [1, 2] := by decide +kernel
example : (run exS [.solve ⟨[1, 2], [3], [4, 5], [6, 7], some [8]⟩]).bind getCol = some [1, 2] ∧
    (run exS [.solve ⟨[1, 2], [3], [4, 5], [6, 7], some [8]⟩]).bind getPrice = some [4] := by decide +kernel
example : (run exS [.addCuts 0]).bind startPoint = some [0, 0] ∧ startPoint exS = some [7, 8] := by decide +kernel
example : (run exS [.setPrice [1, 2, 3, 4, 5], .setCol none]).map getPrice = some none := by decide +kernel

/-! ## The fake basis -/

/-- Statuses of `CoinWarmStartBasis`. -/
inductive St
  | isFree | basic | atUpper | atLower
  deriving DecidableEq, Repr

/-- Status of a row in `build_fake_basis` (BonOsiTMINLPInterface.cpp:1477-1490): the last assignment counts. -/
def rowSt (lb ub act : ℚ) : St :=
  let _first := if ub - 1 / 10 ^ 4 < lb then some St.isFree else none
  if ub - 1 / 10 ^ 4 < act then .atLower else if act < lb + 1 / 10 ^ 4 then .atLower else .basic

/-- `build_fake_basis` (BonOsiTMINLPInterface.cpp:1469-1492): statuses of columns (as `setSize` leaves them) and rows; `none` = reads past the activities. -/
def fakeBasis (s : S) (bs : List (ℚ × ℚ)) : Option (List St × List St) :=
  (getActivity s).map fun act => (List.replicate s.n .isFree, (bs.zip act).map fun p => rowSt p.1.1 p.1.2 p.2)

/-- A basis has as many basic variables as there are rows. -/
def IsBasis (b : List St × List St) : Prop := (b.1 ++ b.2).count .basic = b.2.length

/-- Exact status of a row: basic if its value is at least `1e-4` inside both bounds, at its lower bound otherwise. -/
theorem row_status (lb ub act : ℚ) : (rowSt lb ub act = .basic ↔ lb + 1 / 10 ^ 4 ≤ act ∧ act ≤ ub - 1 / 10 ^ 4) ∧
    (rowSt lb ub act = .atLower ↔ act < lb + 1 / 10 ^ 4 ∨ ub - 1 / 10 ^ 4 < act) := by
  unfold rowSt
  generalize (1 : ℚ) / 10 ^ 4 = e
  by_cases h1 : ub - e < act
  · simp [h1, not_le.mpr h1]
  · by_cases h2 : act < lb + e
    · simp [h1, h2, not_le.mpr h2]
    · simp [h1, h2, not_lt.mp h1, not_lt.mp h2]

/-- The basis can be built exactly if the activities of all rows are there; it has a status for every row and column. -/
theorem basis_defined (s : S) (bs : List (ℚ × ℚ)) (hb : bs.length = s.m) :
    ((fakeBasis s bs).isSome ↔ s.m ≤ s.gsol.length) ∧ ∀ b, fakeBasis s bs = some b → b.1 = List.replicate s.n .isFree ∧ b.2.length = s.m ∧
      ∀ (i : ℕ) lb ub a, bs[i]? = some (lb, ub) → s.gsol[i]? = some a → b.2[i]? = some (rowSt lb ub a) := by
  refine ⟨by simp only [fakeBasis, Option.isSome_map]; exact activity_iff s, ?_⟩
  intro b h
  simp only [fakeBasis] at h
  cases ha : getActivity s with
  | none => simp [ha] at h
  | some act =>
    obtain ⟨h1, h2⟩ := (readN_some _ _ _).mp ha
    simp [ha] at h
    subst h
    refine ⟨rfl, by simp [hb, h2]; omega, ?_⟩
    intro i lb ub a hi hg
    have him : i < s.m := by
      have := (List.getElem?_eq_some_iff.mp hi).1
      omega
    simp [List.getElem?_zip_eq_some, hi, h2, him, hg]

theorem count_basic (l : List St) : l.count .basic = l.length ↔ ∀ x ∈ l, x = .basic := by
  rw [List.count_eq_length]
  exact ⟨fun h x hx => (h x hx).symm, fun h x hx => (h x hx).symm⟩

/-- It is a basis exactly if no row is active. -/
theorem basis_iff_inactive (s : S) (bs : List (ℚ × ℚ)) (b : List St × List St) (h : fakeBasis s bs = some b) : IsBasis b ↔ ∀ x ∈ b.2, x = .basic := by
  have h1 : b.1 = List.replicate s.n .isFree := by
    simp only [fakeBasis] at h
    cases ha : getActivity s with
    | none => simp [ha] at h
    | some act => simp [ha] at h; rw [← h]
  unfold IsBasis
  rw [List.count_append, h1, List.count_replicate, ← count_basic]
  simp

/-- Equality rows are meant to be free, but never are: the status is overwritten. -/
theorem equality_not_free (lb ub act : ℚ) : rowSt lb ub act ≠ .isFree ∧ rowSt lb lb act = .atLower := by
  constructor
  · unfold rowSt
    by_cases h1 : ub - 1 / 10 ^ 4 < act
    · simp only [h1, if_true]; simp
    · by_cases h2 : act < lb + 1 / 10 ^ 4 <;> simp only [h1, h2, if_true, if_false] <;> simp
  · rw [(row_status lb lb act).2]
    rcases lt_or_ge act (lb + 1 / 10 ^ 4) with h | h
    · exact Or.inl h
    · right
      refine lt_of_lt_of_le ?_ h
      have : (0 : ℚ) < 1 / 10 ^ 4 := by norm_num
      exact lt_of_lt_of_le (sub_lt_self lb this) (le_add_of_nonneg_right this.le)

/-- A row at its upper bound and one at its lower bound get the same status. -/
theorem sides_not_told_apart (lb ub : ℚ) : rowSt lb ub ub = rowSt lb ub lb := by
  have e : (0 : ℚ) < 1 / 10 ^ 4 := by norm_num
  rw [((row_status lb ub ub).2).mpr (Or.inr (sub_lt_self ub e)), ((row_status lb ub lb).2).mpr (Or.inl (lt_add_of_pos_right lb e))]

/-- With an active row the result is no basis. -/
theorem no_basis : ∃ b, fakeBasis ⟨1, 1, [0], [], false, [1], [5], [], true⟩ [(0, 5)] = some b ∧ ¬ IsBasis b := by
  refine ⟨([.isFree], [.atLower]), by decide +kernel, ?_⟩
  unfold IsBasis
  decide

example : fakeBasis ⟨1, 3, [0], [], false, [1], [5, 2, 7], [], true⟩ [(0, 5), (1, 3), (7, 7)] = some ([.isFree], [.atLower, .basic, .atLower]) := by decide +kernel

/-- C105: multipliers put there (those of the bounds first, as `getRowPrice` gives them) are those given back, whether or not a point was put there. -/
theorem set_get_price (s t : S) (d : List ℚ) (hd : d.length = 2 * s.n + s.m) (hs : step s (.setPrice d) = some t) : getPrice t = some (d.take s.m) ∧ t.duals = true := by
  have hr : readN (2 * s.n + s.m) d = some d := by rw [readN_some]; exact ⟨hd.ge, by rw [List.take_of_length_le hd.le]⟩
  simp only [step, hr, Option.map_some, Option.some.injEq] at hs
  subst hs
  refine ⟨?_, rfl⟩
  have hl : ((resize (3 * s.n + s.m) s.xinit).take s.n).length = s.n := by rw [List.length_take, length_resize]; omega
  have e : ((resize (3 * s.n + s.m) s.xinit).take s.n ++ d).drop s.n = d := by
    rw [List.drop_append_of_le_length hl.ge, List.drop_of_length_le hl.le, List.nil_append]
  simp only [getPrice, e]
  simp [readN_some, hd]

/-- C105: there are no multipliers to give back without a solution and without multipliers put there. -/
theorem no_price (s : S) (ho : s.opt = false) (hd : s.duals = false) : getPrice s = if s.m = 0 then some [] else none := by
  by_cases h : s.m = 0 <;> simp [getPrice, ho, hd, readN, h]

example : (step ⟨1, 1, [0], [], false, [], [], [], false⟩ (.setPrice [1, 2, 3])).bind getPrice = some [1] := by decide +kernel

end Verif.Itf.SolQueries

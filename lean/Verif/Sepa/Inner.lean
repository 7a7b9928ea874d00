import Verif.Oa.Model
import Mathlib.Tactic.Ring
import Mathlib.Tactic.Linarith
import Mathlib.Tactic.NormNum
import Mathlib.Tactic.FieldSimp
import Mathlib.Data.Rat.Floor
/-!
# Model of the inner approximation by chords and of the heuristics using it
(experimental/Separable/SepaHeuristicInnerApproximation.cpp, experimental/Separable/BonHeuristicInnerApproximation.cpp)

Points are functions `ℕ → ℚ`; row bounds are `Option ℚ`, `none` = infinite.  The MIP solver and the NLP solver are arbitrary.
-/
namespace Verif.Sepa

open Verif.Oa (act)

/-- A row of the MINLP: declared nonlinear, value, columns of its gradient, partial derivatives, bounds, and the entry of
`get_const_xtra_id` (`-1` when there is none). -/
structure Row where
  nonlin : Bool
  g : (ℕ → ℚ) → ℚ
  cols : List ℕ
  d : (ℕ → ℚ) → ℕ → ℚ
  rl : Option ℚ
  ru : Option ℚ
  bin : ℤ

/-- A cut `Σ co ≤ ub`. -/
structure ICut where
  co : List (ℕ × ℚ)
  ub : ℚ
deriving DecidableEq

/-- What a call of `getMyInnerApproximation` does: an exception of `CoinPackedVector::insert` (an index twice), nothing
(returns false), or one cut (returns true). -/
inductive Out where
  | thrown
  | nothing
  | cut (c : ICut)
deriving DecidableEq

/-- The smallest difference of coordinates for a chord (SepaHeuristicInnerApproximation.cpp:282,
BonHeuristicInnerApproximation.cpp:271). -/
def eps : ℚ := 1 / 100000000

/-- The loop over the columns of the row (SepaHeuristicInnerApproximation.cpp:277-292, with `marg` = 1e-6;
BonHeuristicInnerApproximation.cpp:266-278, with `marg` = 0).  `none` = exception on an index present already. -/
def innerLoop (marg : ℚ) (r : Row) (x x2 : ℕ → ℚ) :
    List ℕ → List (ℕ × ℚ) → ℚ → Bool → Option (List (ℕ × ℚ) × ℚ × Bool)
  | [], co, ub, add => some (co, ub, add)
  | c :: cs, co, ub, add =>
    if c ∈ co.map Prod.fst then none
    else if eps ≤ |x c - x2 c| then
      innerLoop marg r x x2 cs (co ++ [(c, (r.g x - r.g x2) / (x c - x2 c))])
        ((r.g x - r.g x2) / (x c - x2 c) * x c - r.g x
          - |(r.g x - r.g x2) / (x c - x2 c) * x c - r.g x| * marg) true
    else innerLoop marg r x x2 cs (co ++ [(c, r.d x2 c)]) ub add

/-- `getMyInnerApproximation` (SepaHeuristicInnerApproximation.cpp:248-319 and BonHeuristicInnerApproximation.cpp:236-302).
The lower side of the cut is minus infinity; the row's bounds are not read. -/
def inner (marg : ℚ) (r : Row) (x x2 : ℕ → ℚ) : Out :=
  match innerLoop marg r x x2 r.cols [] 0 false with
  | none => .thrown
  | some (co, ub, add) =>
    if add then
      if 0 < r.bin then
        if r.bin.toNat ∈ co.map Prod.fst then .thrown
        else .cut ⟨co ++ [(r.bin.toNat, -ub)], 0⟩
      else .cut ⟨co, ub⟩
    else .nothing

/-- Outcome of making the inner approximation: `exit(1)`, an exception, or the list of cuts. -/
inductive Res where
  | exit
  | thrown
  | ok (cs : List ICut)
deriving DecidableEq

/-- Chords of all rows between two points (SepaHeuristicInnerApproximation.cpp:472-479, `strict` = true: no chord ends the
program; 484-487, `strict` = false). -/
def chords (marg : ℚ) (strict : Bool) (x x2 : ℕ → ℚ) : List Row → Res
  | [] => .ok []
  | r :: rs =>
    if r.nonlin then
      match inner marg r x x2 with
      | .thrown => .thrown
      | .nothing => if strict then .exit else chords marg strict x x2 rs
      | .cut c =>
        match chords marg strict x x2 rs with
        | .ok cs => .ok (c :: cs)
        | e => e
    else chords marg strict x x2 rs

/-- The loop over the points (SepaHeuristicInnerApproximation.cpp:466-487), with `k` turns left, from the point `p` (`p` and
`pp` agree at the head of the loop). -/
def rounds (marg : ℚ) (rows : List Row) (step up : ℕ → ℚ) : ℕ → (ℕ → ℚ) → Res
  | 0, p => chords marg false p up rows
  | k + 1, p =>
    match chords marg true p (fun i => p i + step i) rows with
    | .ok cs =>
      match rounds marg rows step up k (fun i => p i + step i) with
      | .ok cs' => .ok (cs ++ cs')
      | e => e
    | e => e

/-- Columns of the problem: bounds and declared linear. -/
structure Cols where
  lo : ℕ → ℚ
  up : ℕ → ℚ
  lin : ℕ → Bool

/-- First point of the sampling (SepaHeuristicInnerApproximation.cpp:434-441, 455-458). -/
def first (C : Cols) (i : ℕ) : ℚ := if C.lin i then 0 else if C.lo i < -1000 then -1000 else C.lo i

/-- Last point of the sampling (SepaHeuristicInnerApproximation.cpp:436, 442-444, 455-458). -/
def last (C : Cols) (i : ℕ) : ℚ := if C.lin i then 0 else if 100 < C.up i then 100 else C.up i

/-- Step between points (SepaHeuristicInnerApproximation.cpp:453-463). -/
def step (C : Cols) (nbAp : ℕ) (i : ℕ) : ℚ := if C.lin i then 0 else (last C i - first C i) / nbAp

/-- The chord part of `extractInnerApproximation` (SepaHeuristicInnerApproximation.cpp:429-493); option
`number_inner_approximation_points` is at least 1 (80-83). -/
def innerCuts (C : Cols) (rows : List Row) (nbAp : ℕ) : Res :=
  rounds (1 / 1000000) rows (step C nbAp) (last C) (nbAp - 1) (first C)

/-- A point meets a row with optional bounds. -/
def inRow (rl ru : Option ℚ) (v : ℚ) : Prop := (∀ l, rl = some l → l ≤ v) ∧ (∀ u, ru = some u → v ≤ u)

/-- Specification: a point is feasible for the MINLP (integrality aside). -/
def Feasible (n : ℕ) (C : Cols) (rows : List Row) (y : ℕ → ℚ) : Prop :=
  (∀ i < n, C.lo i ≤ y i ∧ y i ≤ C.up i) ∧ ∀ r ∈ rows, inRow r.rl r.ru (r.g y)

/-- A point is feasible for the MIP of `extractInnerApproximation` (SepaHeuristicInnerApproximation.cpp:353-409, 492): column
bounds, the rows not declared nonlinear with the Jacobian of the point `x0` as matrix and the same bounds, and the cuts. -/
def MipFeasible (n : ℕ) (C : Cols) (rows : List Row) (x0 : ℕ → ℚ) (cs : List ICut) (y : ℕ → ℚ) : Prop :=
  (∀ i < n, C.lo i ≤ y i ∧ y i ≤ C.up i) ∧
  (∀ r ∈ rows, r.nonlin = false → inRow r.rl r.ru (act (r.cols.map (fun c => (c, r.d x0 c))) y)) ∧
  ∀ c ∈ cs, act c.co y ≤ c.ub

/-- The row is `f (x_k) + linear ≤ u` with `u ≥ 0`, `f` of slope growing on `[a, b]`, the other columns declared linear. -/
structure Separable (C : Cols) (r : Row) (k : ℕ) (f : ℚ → ℚ) (a b : ℚ) : Prop where
  nodup : r.cols.Nodup
  mem : k ∈ r.cols
  klin : C.lin k = false
  lin : ∀ c ∈ r.cols, c ≠ k → C.lin c = true
  val : ∀ y, r.g y = f (y k) + ((r.cols.filter (· ≠ k)).map (fun c => r.d (first C) c * y c)).sum
  const : ∀ y, ∀ c ∈ r.cols, c ≠ k → r.d y c = r.d (first C) c
  convex : ∀ s t x, a ≤ s → s < t → t ≤ b → s ≤ x → x ≤ t → f x ≤ f s + (f s - f t) / (s - t) * (x - s)
  rl : r.rl = none
  ru : ∀ u, r.ru = some u → 0 ≤ u

/-! ## Lemmas -/

theorem innerLoop_spec (marg : ℚ) (r : Row) (x x2 : ℕ → ℚ) (cs : List ℕ) (co : List (ℕ × ℚ)) (ub : ℚ) (add : Bool)
    (hnd : (co.map Prod.fst ++ cs).Nodup) :
    ∃ ub' add', innerLoop marg r x x2 cs co ub add = some
      (co ++ cs.map (fun c => (c, if eps ≤ |x c - x2 c| then (r.g x - r.g x2) / (x c - x2 c) else r.d x2 c)), ub', add') ∧
      (add' = (add || cs.any (fun c => decide (eps ≤ |x c - x2 c|)))) ∧
      ((∀ c ∈ cs, ¬ eps ≤ |x c - x2 c|) → ub' = ub) ∧
      (∀ pre c post, cs = pre ++ c :: post → eps ≤ |x c - x2 c| → (∀ e ∈ post, ¬ eps ≤ |x e - x2 e|) →
        ub' = (r.g x - r.g x2) / (x c - x2 c) * x c - r.g x
          - |(r.g x - r.g x2) / (x c - x2 c) * x c - r.g x| * marg) := by
  induction cs generalizing co ub add with
  | nil =>
    refine ⟨ub, add, by simp [innerLoop], by simp, fun _ => rfl, ?_⟩
    intro pre c post h
    simp at h
  | cons c cs ih =>
    have hc : c ∉ co.map Prod.fst := by
      intro h
      rw [List.nodup_append] at hnd
      exact hnd.2.2 c h c (by simp) rfl
    by_cases hd : eps ≤ |x c - x2 c|
    · obtain ⟨ub', add', h1, h2, h3, h4⟩ := ih (co ++ [(c, (r.g x - r.g x2) / (x c - x2 c))])
        ((r.g x - r.g x2) / (x c - x2 c) * x c - r.g x - |(r.g x - r.g x2) / (x c - x2 c) * x c - r.g x| * marg) true
        (by simpa using hnd)
      refine ⟨ub', add', ?_, ?_, ?_, ?_⟩
      · rw [innerLoop, if_neg hc, if_pos hd, h1]
        simp [hd]
      · rw [h2]; simp [hd]
      · intro h
        exact absurd hd (h c (by simp))
      · intro pre e post he h5 h6
        cases pre with
        | nil =>
          simp only [List.nil_append, List.cons.injEq] at he
          obtain ⟨rfl, rfl⟩ := he
          exact h3 h6
        | cons q pre =>
          simp only [List.cons_append, List.cons.injEq] at he
          exact h4 pre e post he.2 h5 h6
    · obtain ⟨ub', add', h1, h2, h3, h4⟩ := ih (co ++ [(c, r.d x2 c)]) ub add (by simpa using hnd)
      refine ⟨ub', add', ?_, ?_, ?_, ?_⟩
      · rw [innerLoop, if_neg hc, if_neg hd, h1]
        simp [hd]
      · rw [h2]; simp [hd]
      · intro h
        exact h3 (fun e he => h e (by simp [he]))
      · intro pre e post he h5 h6
        cases pre with
        | nil =>
          simp only [List.nil_append, List.cons.injEq] at he
          obtain ⟨rfl, rfl⟩ := he
          exact absurd h5 hd
        | cons q pre =>
          simp only [List.cons_append, List.cons.injEq] at he
          exact h4 pre e post he.2 h5 h6

/-- **C135** exact cut: for a row with distinct columns, not containing the indicator, a call returns false and adds nothing
iff no column differs by `1e-8`; otherwise the cut has for each column the chord slope (columns that differ) or the derivative
at the second point, and its right side is the one of the LAST column that differs, moved to the indicator when its index is
positive. -/
theorem inner_exact (marg : ℚ) (r : Row) (x x2 : ℕ → ℚ) (hnd : r.cols.Nodup) (hb : 0 < r.bin → r.bin.toNat ∉ r.cols) :
    ((∀ c ∈ r.cols, |x c - x2 c| < eps) → inner marg r x x2 = .nothing) ∧
    (∀ pre c post, r.cols = pre ++ c :: post → eps ≤ |x c - x2 c| → (∀ e ∈ post, |x e - x2 e| < eps) →
      ∀ a q, a = (r.g x - r.g x2) / (x c - x2 c) → q = a * x c - r.g x - |a * x c - r.g x| * marg →
      inner marg r x x2 = .cut (if 0 < r.bin then
        ⟨r.cols.map (fun e => (e, if eps ≤ |x e - x2 e| then (r.g x - r.g x2) / (x e - x2 e) else r.d x2 e)) ++
          [(r.bin.toNat, -q)], 0⟩
        else ⟨r.cols.map (fun e => (e, if eps ≤ |x e - x2 e| then (r.g x - r.g x2) / (x e - x2 e) else r.d x2 e)), q⟩)) := by
  obtain ⟨ub', add', h1, h2, h3, h4⟩ := innerLoop_spec marg r x x2 r.cols [] 0 false (by simpa using hnd)
  constructor
  · intro h
    have : add' = false := by
      rw [h2]
      simp only [Bool.false_or, List.any_eq_false, decide_eq_true_eq, not_le]
      exact h
    simp [inner, h1, this]
  · intro pre c post hc hd hp a q ha hq
    have hadd : add' = true := by
      rw [h2]
      simp only [Bool.false_or, List.any_eq_true, decide_eq_true_eq]
      exact ⟨c, by rw [hc]; simp, hd⟩
    have hu := h4 pre c post hc hd (fun e he => not_le.mpr (hp e he))
    have hq' : ub' = q := by rw [hu, hq, ha]
    unfold inner
    rw [h1]
    simp only [hadd, if_true, List.nil_append]
    by_cases hbin : 0 < r.bin
    · rw [if_pos hbin, if_pos hbin, if_neg, hq']
      have := hb hbin
      simpa [List.map_map, Function.comp_def] using this
    · rw [if_neg hbin, if_neg hbin, hq']

theorem chords_mem (marg : ℚ) (strict : Bool) (x x2 : ℕ → ℚ) (rows : List Row) (cs : List ICut)
    (h : chords marg strict x x2 rows = .ok cs) (r : Row) (hr : r ∈ rows) (hn : r.nonlin = true) :
    (∃ c ∈ cs, inner marg r x x2 = .cut c) ∨ (strict = false ∧ inner marg r x x2 = .nothing) := by
  induction rows generalizing cs with
  | nil => simp at hr
  | cons s rs ih =>
    rw [chords] at h
    by_cases hs : s.nonlin = true
    · rw [if_pos hs] at h
      cases hi : inner marg s x x2 with
      | thrown => rw [hi] at h; simp at h
      | nothing =>
        rw [hi] at h
        cases strict with
        | true => simp at h
        | false =>
          simp only [Bool.false_eq_true, if_false] at h
          rcases List.mem_cons.1 hr with rfl | hr'
          · right; exact ⟨rfl, hi⟩
          · exact ih cs h hr'
      | cut c =>
        rw [hi] at h
        cases hc : chords marg strict x x2 rs with
        | exit => rw [hc] at h; simp at h
        | thrown => rw [hc] at h; simp at h
        | ok cs' =>
          rw [hc] at h
          simp only [Res.ok.injEq] at h
          subst h
          rcases List.mem_cons.1 hr with rfl | hr'
          · left; exact ⟨c, by simp, hi⟩
          · rcases ih cs' hc hr' with ⟨c', h1, h2⟩ | h1
            · left; exact ⟨c', by simp [h1], h2⟩
            · right; exact h1
    · rw [if_neg hs] at h
      rcases List.mem_cons.1 hr with rfl | hr'
      · exact absurd hn hs
      · exact ih cs h hr'

theorem rounds_mem (marg : ℚ) (rows : List Row) (st up : ℕ → ℚ) (k : ℕ) (p : ℕ → ℚ) (cs : List ICut)
    (h : rounds marg rows st up k p = .ok cs) (r : Row) (hr : r ∈ rows) (hn : r.nonlin = true) :
    (∀ j < k, ∃ c ∈ cs, inner marg r (fun i => p i + j * st i) (fun i => p i + (j + 1) * st i) = .cut c) ∧
    ((∃ c ∈ cs, inner marg r (fun i => p i + k * st i) up = .cut c) ∨
      inner marg r (fun i => p i + k * st i) up = .nothing) := by
  induction k generalizing p cs with
  | zero =>
    refine ⟨fun j hj => absurd hj (Nat.not_lt_zero j), ?_⟩
    rw [rounds] at h
    have e : (fun i => p i + ((0 : ℕ) : ℚ) * st i) = p := by funext i; simp
    rw [e]
    rcases chords_mem marg false p up rows cs h r hr hn with h1 | h1
    · left; exact h1
    · right; exact h1.2
  | succ k ih =>
    rw [rounds] at h
    cases hc : chords marg true p (fun i => p i + st i) rows with
    | exit => rw [hc] at h; simp at h
    | thrown => rw [hc] at h; simp at h
    | ok cs1 =>
      rw [hc] at h
      cases hk : rounds marg rows st up k (fun i => p i + st i) with
      | exit => simp only [hk] at h; simp at h
      | thrown => simp only [hk] at h; simp at h
      | ok cs2 =>
        simp only [hk, Res.ok.injEq] at h
        subst h
        obtain ⟨i1, i2⟩ := ih (fun i => p i + st i) cs2 hk
        have e : (fun i => p i + st i + (k : ℚ) * st i) = (fun i => p i + ((k + 1 : ℕ) : ℚ) * st i) := by
          funext i; push_cast; ring
        constructor
        · intro j hj
          cases j with
          | zero =>
            rcases chords_mem marg true p (fun i => p i + st i) rows cs1 hc r hr hn with ⟨c, h1, h2⟩ | h1
            · refine ⟨c, by simp [h1], ?_⟩
              have e1 : (fun i => p i + ((0 : ℕ) : ℚ) * st i) = p := by funext i; simp
              have e2 : (fun i => p i + (((0 : ℕ) : ℚ) + 1) * st i) = (fun i => p i + st i) := by funext i; simp
              rw [e1, e2]; exact h2
            · simp at h1
          | succ j =>
            obtain ⟨c, h1, h2⟩ := i1 j (by omega)
            refine ⟨c, by simp [h1], ?_⟩
            have e1 : (fun i => p i + ((j + 1 : ℕ) : ℚ) * st i) = (fun i => p i + st i + (j : ℚ) * st i) := by
              funext i; push_cast; ring
            have e2 : (fun i => p i + (((j + 1 : ℕ) : ℚ) + 1) * st i) = (fun i => p i + st i + ((j : ℚ) + 1) * st i) := by
              funext i; push_cast; ring
            rw [e1, e2]; exact h2
        · rw [e] at i2
          rcases i2 with ⟨c, h1, h2⟩ | h1
          · left; exact ⟨c, by simp [h1], h2⟩
          · right; exact h1

theorem segment (t s x : ℚ) (k : ℕ) (h1 : t ≤ x) (h2 : x ≤ t + (k + 1) * s) :
    ∃ j ≤ k, t + (j : ℚ) * s ≤ x ∧ x ≤ t + ((j : ℚ) + 1) * s := by
  induction k with
  | zero => exact ⟨0, le_refl _, by simpa using h1, by simpa using h2⟩
  | succ k ih =>
    by_cases h : x ≤ t + ((k : ℚ) + 1) * s
    · obtain ⟨j, hj, h3⟩ := ih h
      exact ⟨j, by omega, h3⟩
    · refine ⟨k + 1, le_refl _, ?_, ?_⟩
      · push_cast; exact le_of_lt (not_le.1 h)
      · exact h2

theorem sum_split (cols : List ℕ) (hnd : cols.Nodup) (k : ℕ) (hk : k ∈ cols) (q : ℕ → ℚ) :
    (cols.map q).sum = q k + ((cols.filter (· ≠ k)).map q).sum := by
  induction cols with
  | nil => simp at hk
  | cons c cs ih =>
    rw [List.nodup_cons] at hnd
    by_cases h : c = k
    · subst h
      have : cs.filter (· ≠ c) = cs := by
        rw [List.filter_eq_self]
        intro e he
        simp only [ne_eq, decide_not, Bool.not_eq_eq_eq_not, Bool.not_true, decide_eq_false_iff_not]
        rintro rfl
        exact hnd.1 he
      rw [List.filter_cons_of_neg (by simp), this]
      simp
    · have hk' : k ∈ cs := by
        rcases List.mem_cons.1 hk with h' | h'
        · exact absurd h'.symm h
        · exact h'
      rw [List.filter_cons_of_pos (by simp [h])]
      simp only [List.map_cons, List.sum_cons]
      rw [ih hnd.2 hk']
      ring

/-- A chord of a separable row between two points at which the linear columns are zero: the points met by the cut in the
segment meet the row. -/
theorem chord_sound (C : Cols) (r : Row) (k : ℕ) (f : ℚ → ℚ) (a b : ℚ) (S : Separable C r k f a b)
    (hb : 0 < r.bin → r.bin.toNat ∉ r.cols) (marg : ℚ) (hm : 0 ≤ marg) (x x2 : ℕ → ℚ)
    (hx : ∀ c, C.lin c = true → x c = 0) (hx2 : ∀ c, C.lin c = true → x2 c = 0)
    (h1 : a ≤ x k) (h2 : x2 k ≤ b) (h3 : x k < x2 k)
    (c : ICut) (hc : inner marg r x x2 = .cut c) (y : ℕ → ℚ) (hy : act c.co y ≤ c.ub)
    (hz : 0 < r.bin → y r.bin.toNat = 1) (h4 : x k ≤ y k) (h5 : y k ≤ x2 k) :
    inRow r.rl r.ru (r.g y) := by
  have hsm : ∀ e ∈ r.cols, e ≠ k → |x e - x2 e| < eps := by
    intro e he hek
    rw [hx e (S.lin e he hek), hx2 e (S.lin e he hek)]
    norm_num [eps]
  obtain ⟨n1, n2⟩ := inner_exact marg r x x2 S.nodup hb
  have hd : eps ≤ |x k - x2 k| := by
    by_contra hlt
    have : inner marg r x x2 = .nothing := by
      apply n1
      intro e he
      by_cases hek : e = k
      · subst hek; exact not_le.1 hlt
      · exact hsm e he hek
    rw [this] at hc
    cases hc
  obtain ⟨pre, post, hpp⟩ := List.append_of_mem S.mem
  have hkpost : k ∉ post := by
    have := S.nodup
    rw [hpp, List.nodup_append] at this
    exact (List.nodup_cons.1 this.2.1).1
  have hcut := n2 pre k post hpp hd (fun e he => hsm e (by rw [hpp]; simp [he]) (by rintro rfl; exact hkpost he))
    _ _ rfl rfl
  rw [hc] at hcut
  have hact : act (r.cols.map (fun e => (e, if eps ≤ |x e - x2 e| then (r.g x - r.g x2) / (x e - x2 e) else r.d x2 e))) y
      = (r.g x - r.g x2) / (x k - x2 k) * y k
        + ((r.cols.filter (· ≠ k)).map (fun c => r.d (first C) c * y c)).sum := by
    unfold act
    rw [List.map_map]
    have := sum_split r.cols S.nodup k S.mem
      (fun e => (if eps ≤ |x e - x2 e| then (r.g x - r.g x2) / (x e - x2 e) else r.d x2 e) * y e)
    rw [show ((fun e : ℕ × ℚ => e.2 * y e.1) ∘ fun e => (e, if eps ≤ |x e - x2 e| then (r.g x - r.g x2) / (x e - x2 e)
      else r.d x2 e)) = (fun e => (if eps ≤ |x e - x2 e| then (r.g x - r.g x2) / (x e - x2 e) else r.d x2 e) * y e)
      from rfl, this, if_pos hd]
    congr 2
    apply List.map_congr_left
    intro e he
    rw [List.mem_filter] at he
    have hek : e ≠ k := by simpa using he.2
    rw [if_neg (not_le.2 (hsm e he.1 hek)), S.const x2 e he.1 hek]
  have hgx : ∀ w : ℕ → ℚ, (∀ c, C.lin c = true → w c = 0) → r.g w = f (w k) := by
    intro w hw
    rw [S.val w]
    have : ((r.cols.filter (· ≠ k)).map (fun c => r.d (first C) c * w c)).sum = 0 := by
      apply List.sum_eq_zero
      intro v hv
      rw [List.mem_map] at hv
      obtain ⟨e, he, rfl⟩ := hv
      rw [List.mem_filter] at he
      rw [hw e (S.lin e he.1 (by simpa using he.2))]
      ring
    rw [this]; ring
  have hg1 := hgx x hx
  have hg2 := hgx x2 hx2
  have hmain : (r.g x - r.g x2) / (x k - x2 k) * y k
      + ((r.cols.filter (· ≠ k)).map (fun c => r.d (first C) c * y c)).sum
      ≤ (r.g x - r.g x2) / (x k - x2 k) * x k - r.g x - |(r.g x - r.g x2) / (x k - x2 k) * x k - r.g x| * marg := by
    rw [← hact]
    simp only [Out.cut.injEq] at hcut
    by_cases hbin : 0 < r.bin
    · rw [if_pos hbin] at hcut
      rw [hcut] at hy
      simp only [act, List.map_append, List.sum_append, List.map_cons, List.map_nil, List.sum_cons, List.sum_nil] at hy
      rw [hz hbin] at hy
      unfold act
      linarith
    · rw [if_neg hbin] at hcut
      rw [hcut] at hy
      exact hy
  have hcv := S.convex (x k) (x2 k) (y k) h1 h3 h2 h4 h5
  have habs : 0 ≤ |(r.g x - r.g x2) / (x k - x2 k) * x k - r.g x| * marg := mul_nonneg (abs_nonneg _) hm
  refine ⟨fun l hl => (by rw [S.rl] at hl; cases hl), fun u hu => ?_⟩
  have hu0 := S.ru u hu
  rw [S.val y]
  rw [hg1, hg2] at hmain
  have : (f (x k) - f (x2 k)) / (x k - x2 k) * (y k - x k)
      = (f (x k) - f (x2 k)) / (x k - x2 k) * y k - (f (x k) - f (x2 k)) / (x k - x2 k) * x k := by ring
  rw [hg1, hg2] at habs
  linarith

/-- **C135** chords are an inner approximation (partial: each nonlinear row is `f (x_k) + linear ≤ u`, `f` convex, `u ≥ 0`,
no lower bound, all its other columns declared linear, the bounds of `x_k` within `[-1000, 100]`, at least two points, and rows
with an indicator are asked for only where the indicator is 1): every point in the column bounds meeting all the cuts meets
every nonlinear row. -/
theorem inner_sound_partial (n : ℕ) (C : Cols) (rows : List Row) (nbAp : ℕ) (hn : 2 ≤ nbAp) (cs : List ICut)
    (hok : innerCuts C rows nbAp = .ok cs) (y : ℕ → ℚ) (hbox : ∀ i < n, C.lo i ≤ y i ∧ y i ≤ C.up i)
    (hcs : ∀ c ∈ cs, act c.co y ≤ c.ub)
    (r : Row) (hr : r ∈ rows) (hnl : r.nonlin = true) (k : ℕ) (hk : k < n) (f : ℚ → ℚ)
    (S : Separable C r k f (C.lo k) (C.up k)) (hlo : -1000 ≤ C.lo k) (hup : C.up k ≤ 100)
    (hb : 0 < r.bin → r.bin.toNat ∉ r.cols) (hz : 0 < r.bin → y r.bin.toNat = 1) :
    inRow r.rl r.ru (r.g y) := by
  obtain ⟨m, rfl⟩ : ∃ m, nbAp = m + 2 := ⟨nbAp - 2, by omega⟩
  have hf : first C k = C.lo k := by
    unfold first
    rw [S.klin]
    simp only [Bool.false_eq_true, if_false]
    rw [if_neg (not_lt.2 hlo)]
  have hl : last C k = C.up k := by
    unfold last
    rw [S.klin]
    simp only [Bool.false_eq_true, if_false]
    rw [if_neg (not_lt.2 hup)]
  have hst : step C (m + 2) k = (C.up k - C.lo k) / ((m + 2 : ℕ) : ℚ) := by
    unfold step
    rw [S.klin]
    simp only [Bool.false_eq_true, if_false]
    rw [hl, hf]
  have hpos : (0 : ℚ) < ((m + 2 : ℕ) : ℚ) := by
    have : 0 < m + 2 := by omega
    exact_mod_cast this
  have htot : C.lo k + (((m + 1 : ℕ) : ℚ) + 1) * step C (m + 2) k = C.up k := by
    rw [hst]
    field_simp
    push_cast
    ring
  obtain ⟨i1, i2⟩ := rounds_mem _ rows (step C (m + 2)) (last C) (m + 1) (first C) cs hok r hr hnl
  have hlin0 : ∀ (j : ℚ) (c : ℕ), C.lin c = true → first C c + j * step C (m + 2) c = 0 := by
    intro j c hc
    simp [first, step, hc]
  have hlin1 : ∀ c, C.lin c = true → last C c = 0 := by
    intro c hc
    simp [last, hc]
  obtain ⟨b1, b2⟩ := hbox k hk
  -- the step is positive, since the first chord was made
  obtain ⟨c0, hc0, hi0⟩ := i1 0 (by omega)
  have hstpos : 0 < step C (m + 2) k := by
    have hnn : 0 ≤ step C (m + 2) k := by
      rw [hst]
      exact div_nonneg (by linarith) (le_of_lt hpos)
    rcases lt_or_eq_of_le hnn with h | h
    · exact h
    · exfalso
      have := (inner_exact (1 / 1000000) r (fun i => first C i + ((0 : ℕ) : ℚ) * step C (m + 2) i)
        (fun i => first C i + (((0 : ℕ) : ℚ) + 1) * step C (m + 2) i) S.nodup hb).1 (by
          intro e he
          by_cases hek : e = k
          · subst hek; rw [← h]; norm_num [eps]
          · rw [hlin0 _ e (S.lin e he hek), hlin0 _ e (S.lin e he hek)]; norm_num [eps])
      rw [this] at hi0
      cases hi0
  obtain ⟨j, hj, s1, s2⟩ := segment (C.lo k) (step C (m + 2) k) (y k) (m + 1) b1 (by rw [htot]; exact b2)
  have hjle : ∀ q : ℕ, q ≤ m + 1 → C.lo k + ((q : ℚ) + 1) * step C (m + 2) k ≤ C.up k := by
    intro q hq
    rw [← htot]
    have : (q : ℚ) ≤ ((m + 1 : ℕ) : ℚ) := by exact_mod_cast hq
    have := mul_le_mul_of_nonneg_right (add_le_add_left this 1) (le_of_lt hstpos)
    linarith
  have hqn : (0 : ℚ) ≤ (j : ℚ) * step C (m + 2) k := mul_nonneg (Nat.cast_nonneg j) (le_of_lt hstpos)
  rcases Nat.lt_or_ge j (m + 1) with hlt | hge
  · obtain ⟨c, hc, hi⟩ := i1 j hlt
    refine chord_sound C r k f _ _ S hb _ (by norm_num) _ _ (fun c hc => hlin0 _ c hc) (fun c hc => hlin0 _ c hc)
      ?_ ?_ ?_ c hi y (hcs c hc) hz ?_ ?_
    · show C.lo k ≤ first C k + (j : ℚ) * step C (m + 2) k
      rw [hf]; linarith
    · show first C k + ((j : ℚ) + 1) * step C (m + 2) k ≤ C.up k
      rw [hf]; exact hjle j (by omega)
    · show first C k + (j : ℚ) * step C (m + 2) k < first C k + ((j : ℚ) + 1) * step C (m + 2) k
      linarith
    · show first C k + (j : ℚ) * step C (m + 2) k ≤ y k
      rw [hf]; exact s1
    · show y k ≤ first C k + ((j : ℚ) + 1) * step C (m + 2) k
      rw [hf]; exact s2
  · have hje : j = m + 1 := by omega
    subst hje
    have hlast : last C k = C.lo k + (((m + 1 : ℕ) : ℚ) + 1) * step C (m + 2) k := by rw [hl, htot]
    rcases i2 with ⟨c, hc, hi⟩ | hi
    · refine chord_sound C r k f _ _ S hb _ (by norm_num) _ _ (fun c hc => hlin0 _ c hc) (fun c hc => hlin1 c hc)
        ?_ ?_ ?_ c hi y (hcs c hc) hz ?_ ?_
      · show C.lo k ≤ first C k + ((m + 1 : ℕ) : ℚ) * step C (m + 2) k
        rw [hf]; linarith
      · rw [hl]
      · show first C k + ((m + 1 : ℕ) : ℚ) * step C (m + 2) k < last C k
        rw [hf, hlast]; linarith
      · show first C k + ((m + 1 : ℕ) : ℚ) * step C (m + 2) k ≤ y k
        rw [hf]; exact s1
      · rw [hlast]; exact s2
    · exfalso
      -- the last piece is as long as the first one, for which a chord was made
      have hk0 : eps ≤ |first C k + ((0 : ℕ) : ℚ) * step C (m + 2) k
          - (first C k + (((0 : ℕ) : ℚ) + 1) * step C (m + 2) k)| := by
        by_contra hcon
        have := (inner_exact (1 / 1000000) r (fun i => first C i + ((0 : ℕ) : ℚ) * step C (m + 2) i)
          (fun i => first C i + (((0 : ℕ) : ℚ) + 1) * step C (m + 2) i) S.nodup hb).1 (by
            intro e he
            by_cases hek : e = k
            · subst hek; exact not_le.1 hcon
            · rw [hlin0 _ e (S.lin e he hek), hlin0 _ e (S.lin e he hek)]; norm_num [eps])
        rw [this] at hi0
        cases hi0
      obtain ⟨pre, post, hpp⟩ := List.append_of_mem S.mem
      have hkpost : k ∉ post := by
        have := S.nodup
        rw [hpp, List.nodup_append] at this
        exact (List.nodup_cons.1 this.2.1).1
      have hcut := (inner_exact (1 / 1000000) r (fun i => first C i + ((m + 1 : ℕ) : ℚ) * step C (m + 2) i) (last C)
        S.nodup hb).2 pre k post hpp (by
          show eps ≤ |first C k + ((m + 1 : ℕ) : ℚ) * step C (m + 2) k - last C k|
          rw [hlast, hf]
          have e1 : C.lo k + ((m + 1 : ℕ) : ℚ) * step C (m + 2) k
              - (C.lo k + (((m + 1 : ℕ) : ℚ) + 1) * step C (m + 2) k)
              = first C k + ((0 : ℕ) : ℚ) * step C (m + 2) k
          - (first C k + (((0 : ℕ) : ℚ) + 1) * step C (m + 2) k) := by push_cast; ring
          rw [e1]; exact hk0)
        (fun e he => by
          have hek : e ≠ k := by rintro rfl; exact hkpost he
          have hmem : e ∈ r.cols := by rw [hpp]; simp [he]
          show |first C e + ((m + 1 : ℕ) : ℚ) * step C (m + 2) e - last C e| < eps
          rw [hlin0 _ e (S.lin e hmem hek), hlin1 e (S.lin e hmem hek)]
          norm_num [eps]) _ _ rfl rfl
      rw [hi] at hcut
      cases hcut

/-! ## Examples -/

/-- Example: the row `x0² - x1 ≤ 0`. -/
def exRow : Row :=
  { nonlin := true, g := fun y => y 0 * y 0 - y 1, cols := [0, 1],
    d := fun y c => if c = 0 then 2 * y 0 else -1, rl := none, ru := some 0, bin := -1 }

/-- Example columns: `x0 ∈ [0, 4]` nonlinear, `x1 ∈ [0, 100]` linear. -/
def exCols : Cols := { lo := fun _ => 0, up := fun i => if i = 0 then 4 else 100, lin := fun i => decide (i ≠ 0) }

example : innerCuts exCols [exRow] 2 =
    .ok [⟨[(0, 2), (1, -1)], 0⟩, ⟨[(0, 6), (1, -1)], 8 - 8 / 1000000⟩] := by decide +kernel

theorem exSeparable : Separable exCols exRow 0 (fun t => t * t) 0 4 where
  nodup := by decide
  mem := by decide
  klin := by decide
  lin := by decide
  val := by
    intro y
    simp [exRow]
    ring
  const := by
    intro y c hc h
    simp [exRow, h]
  convex := by
    intro s t x _ h2 _ h4 h5
    have hne : s - t ≠ 0 := by linarith
    have : (s * s - t * t) / (s - t) = s + t := by
      rw [div_eq_iff hne]; ring
    rw [this]
    nlinarith
  rl := rfl
  ru := by
    intro u hu
    simp only [exRow, Option.some.injEq] at hu
    rw [← hu]

example : inRow exRow.rl exRow.ru (exRow.g (fun i => if i = 0 then 3 else 11)) :=
  inner_sound_partial 2 exCols [exRow] 2 (le_refl _) [⟨[(0, 2), (1, -1)], 0⟩, ⟨[(0, 6), (1, -1)], 8 - 8 / 1000000⟩]
    (by decide +kernel) (fun i => if i = 0 then 3 else 11)
    (by
      intro i hi
      rcases (by omega : i = 0 ∨ i = 1) with rfl | rfl <;> norm_num [exCols])
    (by
      intro c hc
      simp only [List.mem_cons, List.not_mem_nil, or_false] at hc
      rcases hc with rfl | rfl <;> norm_num [act])
    exRow (by simp) rfl 0 (by omega) _ exSeparable (by norm_num [exCols]) (by norm_num [exCols])
    (by simp [exRow]) (by simp [exRow])

/-! ## When the chords are no inner approximation -/

/-- A point `(a, b)`. -/
def pt2 (a b : ℚ) (i : ℕ) : ℚ := if i = 0 then a else b

/-- **C135 (refuted).** The upper bound of a nonlinear row is taken to be 0: with `x0² - x1 ≤ -1` the point `(0, 0)` meets all
the chords and not the row. -/
theorem negative_upper_bound : ∃ cs,
    innerCuts ⟨fun _ => -1, fun _ => 1, fun i => decide (i ≠ 0)⟩ [{ exRow with ru := some (-1) }] 2 = .ok cs ∧
    (∀ c ∈ cs, act c.co (pt2 0 0) ≤ c.ub) ∧ ¬ inRow none (some (-1)) (exRow.g (pt2 0 0)) := by
  refine ⟨[⟨[(0, -1), (1, -1)], 0⟩, ⟨[(0, 1), (1, -1)], 0⟩], by decide +kernel, ?_, ?_⟩
  · intro c hc
    simp only [List.mem_cons, List.not_mem_nil, or_false] at hc
    rcases hc with rfl | rfl <;> norm_num [act, pt2]
  · intro h
    have := h.2 (-1) rfl
    norm_num [exRow, pt2] at this

/-- **C135 (refuted).** The lower bound of a nonlinear row is not looked at: with `x0² - x1 = 0` the point `(0, 1)` meets all
the chords and not the row. -/
theorem equality_row : ∃ cs,
    innerCuts ⟨fun _ => -1, fun _ => 1, fun i => decide (i ≠ 0)⟩ [{ exRow with rl := some 0 }] 2 = .ok cs ∧
    (∀ c ∈ cs, act c.co (pt2 0 1) ≤ c.ub) ∧ ¬ inRow (some 0) (some 0) (exRow.g (pt2 0 1)) := by
  refine ⟨[⟨[(0, -1), (1, -1)], 0⟩, ⟨[(0, 1), (1, -1)], 0⟩], by decide +kernel, ?_, ?_⟩
  · intro c hc
    simp only [List.mem_cons, List.not_mem_nil, or_false] at hc
    rcases hc with rfl | rfl <;> norm_num [act, pt2]
  · intro h
    have := h.1 0 rfl
    norm_num [exRow, pt2] at this

/-- **C135 (refuted).** The points end at 100 while the variable may be larger: with `x0 ∈ [0, 200]` the point `(200, 26000)`
meets all the chords of `x0² - x1 ≤ 0` and not the row. -/
theorem range_clipped : ∃ cs,
    innerCuts ⟨fun _ => 0, fun _ => 200, fun i => decide (i ≠ 0)⟩ [exRow] 2 = .ok cs ∧
    (∀ c ∈ cs, act c.co (pt2 200 26000) ≤ c.ub) ∧ ¬ inRow none (some 0) (exRow.g (pt2 200 26000)) := by
  refine ⟨[⟨[(0, 50), (1, -1)], 0⟩, ⟨[(0, 150), (1, -1)], 5000 - 5000 / 1000000⟩], by decide +kernel, ?_, ?_⟩
  · intro c hc
    simp only [List.mem_cons, List.not_mem_nil, or_false] at hc
    rcases hc with rfl | rfl <;> norm_num [act, pt2]
  · intro h
    have := h.2 0 rfl
    norm_num [exRow, pt2] at this

/-- **C135 (refuted).** A column that is linear in the row but nonlinear in another one moves along with the points: for
`x0² - x1 ≤ 0` with both columns declared nonlinear, on `[0, 2]²`, the point `(9/10, 0)` meets all the chords and not the
row. -/
theorem shared_variable : ∃ cs,
    innerCuts ⟨fun _ => 0, fun _ => 2, fun _ => false⟩ [exRow] 2 = .ok cs ∧
    (∀ c ∈ cs, act c.co (pt2 (9 / 10) 0) ≤ c.ub) ∧ ¬ inRow none (some 0) (exRow.g (pt2 (9 / 10) 0)) := by
  refine ⟨[⟨[(0, 0), (1, 0)], 0⟩, ⟨[(0, 2), (1, 2)], 2 - 2 / 1000000⟩], by decide +kernel, ?_, ?_⟩
  · intro c hc
    simp only [List.mem_cons, List.not_mem_nil, or_false] at hc
    rcases hc with rfl | rfl <;> norm_num [act, pt2]
  · intro h
    have := h.2 0 rfl
    norm_num [exRow, pt2] at this

/-- **C135 (refuted).** One point (allowed by the option) and a range shorter than `1e-8`: no chord is made at all, and the
nonlinear row, which was deleted, is not represented. -/
theorem one_point_no_chord :
    innerCuts ⟨fun _ => 1, fun _ => 1, fun i => decide (i ≠ 0)⟩ [exRow] 1 = .ok [] ∧
    ¬ inRow none (some 0) (exRow.g (pt2 1 (1 / 2))) := by
  refine ⟨by decide +kernel, ?_⟩
  intro h
  have := h.2 0 rfl
  norm_num [exRow, pt2] at this

/-! ## End of the program -/

theorem chords_exit (marg : ℚ) (x x2 : ℕ → ℚ) (rows : List Row)
    (hnd : ∀ r ∈ rows, r.nonlin = true → r.cols.Nodup ∧ (0 < r.bin → r.bin.toNat ∉ r.cols)) :
    (chords marg true x x2 rows = .exit ↔ ∃ r ∈ rows, r.nonlin = true ∧ ∀ c ∈ r.cols, |x c - x2 c| < eps) ∧
    chords marg true x x2 rows ≠ .thrown := by
  induction rows with
  | nil => simp [chords]
  | cons r rs ih =>
    obtain ⟨i1, i2⟩ := ih (fun s hs => hnd s (by simp [hs]))
    by_cases hr : r.nonlin = true
    · obtain ⟨d1, d2⟩ := hnd r (by simp) hr
      obtain ⟨e1, e2⟩ := inner_exact marg r x x2 d1 d2
      by_cases ha : ∀ c ∈ r.cols, |x c - x2 c| < eps
      · rw [chords, if_pos hr, e1 ha]
        simp only [if_true]
        exact ⟨⟨fun _ => ⟨r, by simp, hr, ha⟩, fun _ => trivial⟩, by simp⟩
      · have : ∃ pre c post, r.cols = pre ++ c :: post ∧ eps ≤ |x c - x2 c| ∧ ∀ e ∈ post, |x e - x2 e| < eps := by
          clear e1 e2 d1 d2
          generalize r.cols = l at ha
          induction l with
          | nil => simp at ha
          | cons q l ihl =>
            by_cases hl : ∀ c ∈ l, |x c - x2 c| < eps
            · refine ⟨[], q, l, rfl, ?_, hl⟩
              by_contra hq
              apply ha
              intro c hc
              rcases List.mem_cons.1 hc with rfl | hc
              · exact not_le.1 hq
              · exact hl c hc
            · obtain ⟨pre, c, post, h1, h2, h3⟩ := ihl hl
              exact ⟨q :: pre, c, post, by rw [h1]; rfl, h2, h3⟩
        obtain ⟨pre, c, post, h1, h2, h3⟩ := this
        rw [chords, if_pos hr, e2 pre c post h1 h2 h3 _ _ rfl rfl]
        constructor
        · rw [show (∃ r_1 ∈ r :: rs, r_1.nonlin = true ∧ ∀ c ∈ r_1.cols, |x c - x2 c| < eps) ↔
            (∃ r_1 ∈ rs, r_1.nonlin = true ∧ ∀ c ∈ r_1.cols, |x c - x2 c| < eps) from ?_, ← i1]
          · cases chords marg true x x2 rs <;> simp
          · constructor
            · rintro ⟨s, hs, h4, h5⟩
              rcases List.mem_cons.1 hs with rfl | hs
              · exact absurd h5 ha
              · exact ⟨s, hs, h4, h5⟩
            · rintro ⟨s, hs, h4, h5⟩
              exact ⟨s, by simp [hs], h4, h5⟩
        · revert i2
          cases chords marg true x x2 rs <;> simp
    · rw [chords, if_neg hr]
      refine ⟨?_, i2⟩
      rw [i1]
      constructor
      · rintro ⟨s, hs, h4, h5⟩
        exact ⟨s, by simp [hs], h4, h5⟩
      · rintro ⟨s, hs, h4, h5⟩
        rcases List.mem_cons.1 hs with rfl | hs
        · exact absurd h4 hr
        · exact ⟨s, hs, h4, h5⟩

theorem chords_last (marg : ℚ) (x x2 : ℕ → ℚ) (rows : List Row)
    (hnd : ∀ r ∈ rows, r.nonlin = true → r.cols.Nodup ∧ (0 < r.bin → r.bin.toNat ∉ r.cols)) :
    ∃ cs, chords marg false x x2 rows = .ok cs := by
  induction rows with
  | nil => exact ⟨[], rfl⟩
  | cons r rs ih =>
    obtain ⟨cs, hcs⟩ := ih (fun s hs => hnd s (by simp [hs]))
    by_cases hr : r.nonlin = true
    · rw [chords, if_pos hr]
      obtain ⟨d1, d2⟩ := hnd r (by simp) hr
      cases hi : inner marg r x x2 with
      | nothing => exact ⟨cs, by simpa using hcs⟩
      | cut c => exact ⟨c :: cs, by simp [hcs]⟩
      | thrown =>
        exfalso
        obtain ⟨ub', add', h1, h2, h3, h4⟩ := innerLoop_spec marg r x x2 r.cols [] 0 false (by simpa using d1)
        unfold inner at hi
        rw [h1] at hi
        cases add' with
        | false => simp at hi
        | true =>
          simp only [if_true, List.nil_append] at hi
          by_cases hb : 0 < r.bin
          · rw [if_pos hb, if_neg] at hi
            · cases hi
            · simpa [List.map_map, Function.comp_def] using d2 hb
          · rw [if_neg hb] at hi
            cases hi
    · rw [chords, if_neg hr]
      exact ⟨cs, hcs⟩

/-- **C136** end of the program, exactly: with distinct columns in each row, making the inner approximation ends the process
(`exit(1)`) iff at least two points are asked for and some nonlinear row has every column's step shorter than `1e-8` — e.g.
the row's nonlinear variables are fixed — and otherwise it gives a list of cuts. -/
theorem exit_exact (C : Cols) (rows : List Row) (nbAp : ℕ)
    (hnd : ∀ r ∈ rows, r.nonlin = true → r.cols.Nodup ∧ (0 < r.bin → r.bin.toNat ∉ r.cols)) :
    (innerCuts C rows nbAp = .exit ↔
      2 ≤ nbAp ∧ ∃ r ∈ rows, r.nonlin = true ∧ ∀ c ∈ r.cols, |step C nbAp c| < eps) ∧
    innerCuts C rows nbAp ≠ .thrown := by
  have key : ∀ k p, (rounds (1 / 1000000) rows (step C nbAp) (last C) k p = .exit ↔
      1 ≤ k ∧ ∃ r ∈ rows, r.nonlin = true ∧ ∀ c ∈ r.cols, |step C nbAp c| < eps) ∧
      rounds (1 / 1000000) rows (step C nbAp) (last C) k p ≠ .thrown := by
    intro k
    induction k with
    | zero =>
      intro p
      rw [rounds]
      obtain ⟨cs, hcs⟩ := chords_last (1 / 1000000) p (last C) rows hnd
      rw [hcs]
      simp
    | succ k ih =>
      intro p
      obtain ⟨e1, e2⟩ := chords_exit (1 / 1000000) p (fun i => p i + step C nbAp i) rows hnd
      have e1' : chords (1 / 1000000) true p (fun i => p i + step C nbAp i) rows = .exit ↔
          ∃ r ∈ rows, r.nonlin = true ∧ ∀ c ∈ r.cols, |step C nbAp c| < eps := by
        rw [e1]
        have : ∀ c, |p c - (p c + step C nbAp c)| = |step C nbAp c| := by
          intro c
          rw [show p c - (p c + step C nbAp c) = -step C nbAp c by ring, abs_neg]
        simp only [this]
      obtain ⟨i1, i2⟩ := ih (fun i => p i + step C nbAp i)
      rw [rounds]
      cases hc : chords (1 / 1000000) true p (fun i => p i + step C nbAp i) rows with
      | exit => exact ⟨⟨fun _ => ⟨by omega, e1'.1 hc⟩, fun _ => rfl⟩, by simp⟩
      | thrown => exact absurd hc e2
      | ok cs =>
        have hno : ¬ ∃ r ∈ rows, r.nonlin = true ∧ ∀ c ∈ r.cols, |step C nbAp c| < eps := by
          rw [← e1', hc]; simp
        simp only
        cases hk : rounds (1 / 1000000) rows (step C nbAp) (last C) k (fun i => p i + step C nbAp i) with
        | exit => exact absurd (i1.1 hk).2 hno
        | thrown => exact absurd hk i2
        | ok cs' =>
          refine ⟨⟨fun h => by simp at h, fun h => absurd h.2 hno⟩, by simp⟩
  obtain ⟨k1, k2⟩ := key (nbAp - 1) (first C)
  refine ⟨?_, k2⟩
  unfold innerCuts
  rw [k1]
  constructor
  · rintro ⟨h1, h2⟩
    exact ⟨by omega, h2⟩
  · rintro ⟨h1, h2⟩
    exact ⟨by omega, h2⟩

/-- **C136** case: a problem with the nonlinear variable of a row fixed ends the process instead of giving an
approximation. -/
theorem fixed_variable_exits :
    innerCuts ⟨fun _ => 1, fun i => if i = 0 then 1 else 5, fun i => decide (i ≠ 0)⟩ [exRow] 20 = .exit := by
  decide +kernel

/-! ## The heuristics -/

/-- `HeuristicInnerApproximation::solution` of `Sepa` (SepaHeuristicInnerApproximation.cpp:109-244): number of the node, number
of the pass, last solution of the MIP, objective, and the value to beat.  `none` = returns 0; the feasibility check is under
`#if 0` (186-223). -/
def heurSepa (node pass : ℕ) (mip : Option (ℕ → ℚ)) (f : (ℕ → ℚ) → ℚ) (val : ℚ) : Option ((ℕ → ℚ) × ℚ) :=
  if node ≠ 0 ∨ 1 < pass then none
  else match mip with
    | none => none
    | some y => if f y < val then some (y, f y) else none

/-- Column bounds with the integer columns fixed at the rounded MIP solution (BonHeuristicInnerApproximation.cpp:187-193). -/
def fixInts (isInt : ℕ → Bool) (y : ℕ → ℚ) (b : ℕ → ℚ) (i : ℕ) : ℚ := if isInt i then ⌊y i + 1 / 2⌋ else b i

/-- `HeuristicInnerApproximation::solution` of `Bonmin` (BonHeuristicInnerApproximation.cpp:97-232): the NLP solver `nlp` gets
the bounds and answers a status (SUCCESS or not) and a point.  (The stray `#endif` at line 211 is ignored.) -/
def heurBon (node pass : ℕ) (isInt : ℕ → Bool) (lo up : ℕ → ℚ) (mip : Option (ℕ → ℚ))
    (nlp : (ℕ → ℚ) → (ℕ → ℚ) → Bool × (ℕ → ℚ)) (f : (ℕ → ℚ) → ℚ) (val : ℚ) : Option ((ℕ → ℚ) × ℚ) :=
  if node ≠ 0 ∨ 1 < pass then none
  else match mip with
    | none => none
    | some y =>
      if (nlp (fixInts isInt y lo) (fixInts isInt y up)).1 then
        if f (nlp (fixInts isInt y lo) (fixInts isInt y up)).2 < val then
          some ((nlp (fixInts isInt y lo) (fixInts isInt y up)).2, f (nlp (fixInts isInt y lo) (fixInts isInt y up)).2)
        else none
      else none

/-- **C137** what the `Sepa` heuristic returns, exactly: the point of the MIP, whatever its rows' values. -/
theorem heurSepa_exact (node pass : ℕ) (mip : Option (ℕ → ℚ)) (f : (ℕ → ℚ) → ℚ) (val : ℚ) (y : ℕ → ℚ) (v : ℚ) :
    heurSepa node pass mip f val = some (y, v) ↔ node = 0 ∧ pass ≤ 1 ∧ mip = some y ∧ v = f y ∧ v < val := by
  unfold heurSepa
  by_cases h : node ≠ 0 ∨ 1 < pass
  · rw [if_pos h]
    constructor
    · intro h'; cases h'
    · rintro ⟨h1, h2, -⟩
      exfalso; omega
  · rw [if_neg h]
    cases mip with
    | none => simp
    | some w =>
      simp only [Option.some.injEq]
      by_cases hw : f w < val
      · rw [if_pos hw]
        constructor
        · intro h'
          simp only [Option.some.injEq, Prod.mk.injEq] at h'
          obtain ⟨rfl, rfl⟩ := h'
          exact ⟨by omega, by omega, rfl, rfl, hw⟩
        · rintro ⟨-, -, rfl, rfl, -⟩
          rfl
      · rw [if_neg hw]
        constructor
        · intro h'; cases h'
        · rintro ⟨-, -, rfl, rfl, h'⟩
          exact absurd h' hw

/-- **C137** the `Sepa` heuristic returns feasible points (partial: the MIP solution meets the MIP, linear rows have no constant
term, and nonlinear rows are of the kind of `inner_sound_partial`). -/
theorem heurSepa_feasible_partial (n : ℕ) (C : Cols) (rows : List Row) (nbAp : ℕ) (hn : 2 ≤ nbAp) (cs : List ICut)
    (x0 : ℕ → ℚ) (hok : innerCuts C rows nbAp = .ok cs) (node pass : ℕ) (mip : Option (ℕ → ℚ)) (f : (ℕ → ℚ) → ℚ) (val : ℚ)
    (hmip : ∀ y, mip = some y → MipFeasible n C rows x0 cs y)
    (hlin : ∀ r ∈ rows, r.nonlin = false → ∀ y, r.g y = act (r.cols.map (fun c => (c, r.d x0 c))) y)
    (hnl : ∀ r ∈ rows, r.nonlin = true → r.bin ≤ 0 ∧
      ∃ k < n, ∃ h, Separable C r k h (C.lo k) (C.up k) ∧ -1000 ≤ C.lo k ∧ C.up k ≤ 100)
    (y : ℕ → ℚ) (v : ℚ) (h : heurSepa node pass mip f val = some (y, v)) :
    Feasible n C rows y ∧ v = f y ∧ v < val := by
  obtain ⟨-, -, h1, h2, h3⟩ := (heurSepa_exact _ _ _ _ _ _ _).1 h
  obtain ⟨m1, m2, m3⟩ := hmip y h1
  refine ⟨⟨m1, ?_⟩, h2, h3⟩
  intro r hr
  cases hrn : r.nonlin with
  | false =>
    rw [hlin r hr hrn y]
    exact m2 r hr hrn
  | true =>
    obtain ⟨hb, k, hk, g, S, hlo, hup⟩ := hnl r hr hrn
    exact inner_sound_partial n C rows nbAp hn cs hok y m1 m3 r hr hrn k hk g S hlo hup
      (fun h => absurd h (by omega)) (fun h => absurd h (by omega))

/-- **C137 (refuted).** The `Sepa` heuristic returns an infeasible point: columns `x0 ∈ [-1, 1]`, `x1 ∈ [0, 1]`, row
`x0² - x1 = 0`, the MIP's solution `(0, 1)`. -/
theorem infeasible_returned : ∃ (C : Cols) (rows : List Row) (cs : List ICut),
    innerCuts C rows 2 = .ok cs ∧ MipFeasible 2 C rows (pt2 0 0) cs (pt2 0 1) ∧
    heurSepa 0 0 (some (pt2 0 1)) (fun y => -y 1) 0 = some (pt2 0 1, -1) ∧ ¬ Feasible 2 C rows (pt2 0 1) := by
  refine ⟨⟨fun i => if i = 0 then -1 else 0, fun _ => 1, fun i => decide (i ≠ 0)⟩, [{ exRow with rl := some 0 }],
    [⟨[(0, -1), (1, -1)], 0⟩, ⟨[(0, 1), (1, -1)], 0⟩], by decide +kernel, ⟨?_, ?_, ?_⟩, ?_, ?_⟩
  · intro i hi
    rcases (by omega : i = 0 ∨ i = 1) with rfl | rfl <;> norm_num [pt2]
  · intro r hr h
    simp only [List.mem_singleton] at hr
    subst hr
    simp [exRow] at h
  · intro c hc
    simp only [List.mem_cons, List.not_mem_nil, or_false] at hc
    rcases hc with rfl | rfl <;> norm_num [act, pt2]
  · norm_num [heurSepa, pt2]
  · intro h
    have := (h.2 _ (List.mem_singleton.2 rfl)).1 0 rfl
    norm_num [exRow, pt2] at this

/-- **C137 (refuted).** A linear row with a constant term, `x0 + 1 ≤ 2`, is put in the MIP as `x0 ≤ 2`: the MIP's solution
`x0 = 2` is returned and does not meet the row. -/
theorem linear_constant_lost : ∃ (C : Cols) (r : Row), r.nonlin = false ∧ (∀ y, r.g y = y 0 + 1) ∧
    innerCuts C [r] 2 = .ok [] ∧ MipFeasible 1 C [r] (pt2 0 0) [] (pt2 2 0) ∧
    heurSepa 0 0 (some (pt2 2 0)) (fun y => -y 0) 0 = some (pt2 2 0, -2) ∧ ¬ Feasible 1 C [r] (pt2 2 0) := by
  refine ⟨⟨fun _ => 0, fun _ => 5, fun _ => true⟩,
    { nonlin := false, g := fun y => y 0 + 1, cols := [0], d := fun _ _ => 1, rl := none, ru := some 2, bin := -1 },
    rfl, fun _ => rfl, by decide +kernel, ⟨?_, ?_, ?_⟩, ?_, ?_⟩
  · intro i hi
    have : i = 0 := by omega
    subst this
    norm_num [pt2]
  · intro r hr _
    simp only [List.mem_singleton] at hr
    subst hr
    refine ⟨fun l hl => (by cases hl), fun u hu => ?_⟩
    simp only [Option.some.injEq] at hu
    subst hu
    norm_num [act, pt2]
  · simp
  · norm_num [heurSepa, pt2]
  · intro h
    have := (h.2 _ (List.mem_singleton.2 rfl)).2 2 rfl
    norm_num [pt2] at this

/-- **C138** what the `Bonmin` heuristic returns, exactly: the point of an NLP solve ended by SUCCESS, with the integer columns
fixed at the rounded MIP solution. -/
theorem heurBon_exact (node pass : ℕ) (isInt : ℕ → Bool) (lo up : ℕ → ℚ) (mip : Option (ℕ → ℚ))
    (nlp : (ℕ → ℚ) → (ℕ → ℚ) → Bool × (ℕ → ℚ)) (f : (ℕ → ℚ) → ℚ) (val : ℚ) (x : ℕ → ℚ) (v : ℚ) :
    heurBon node pass isInt lo up mip nlp f val = some (x, v) ↔ node = 0 ∧ pass ≤ 1 ∧ ∃ y, mip = some y ∧
      nlp (fun i => if isInt i then ⌊y i + 1 / 2⌋ else lo i) (fun i => if isInt i then ⌊y i + 1 / 2⌋ else up i) = (true, x) ∧
      v = f x ∧ v < val := by
  unfold heurBon
  by_cases h : node ≠ 0 ∨ 1 < pass
  · rw [if_pos h]
    constructor
    · intro h'; cases h'
    · rintro ⟨h1, h2, -⟩
      exfalso; omega
  · rw [if_neg h]
    cases mip with
    | none => simp
    | some w =>
      have e : ∀ b : ℕ → ℚ, (fun i => if isInt i = true then ((⌊w i + 1 / 2⌋ : ℤ) : ℚ) else b i) = fixInts isInt w b :=
        fun _ => rfl
      simp only [Option.some.injEq, exists_eq_left', e]
      cases hq : nlp (fixInts isInt w lo) (fixInts isInt w up) with
      | mk s z =>
        cases s with
        | false => simp
        | true =>
          simp only [if_true, Prod.mk.injEq, true_and]
          by_cases hw : f z < val
          · rw [if_pos hw]
            constructor
            · intro h'
              simp only [Option.some.injEq, Prod.mk.injEq] at h'
              obtain ⟨rfl, rfl⟩ := h'
              exact ⟨by omega, by omega, rfl, rfl, hw⟩
            · rintro ⟨-, -, rfl, rfl, -⟩
              rfl
          · rw [if_neg hw]
            constructor
            · intro h'; cases h'
            · rintro ⟨-, -, rfl, rfl, h'⟩
              exact absurd h' hw

/-- **C138** the `Bonmin` heuristic returns integer feasible points (the NLP solver's SUCCESS meaning a point within the bounds
it was given meeting the rows; bounds of integer columns being integers or infinite beyond the MIP's point): whatever the MIP
approximation was, as long as its solution is within the bounds. -/
theorem heurBon_feasible (n : ℕ) (C : Cols) (rows : List Row) (node pass : ℕ) (isInt : ℕ → Bool)
    (hint : ∀ i < n, isInt i = true → (∃ a : ℤ, C.lo i = a) ∧ ∃ b : ℤ, C.up i = b)
    (mip : Option (ℕ → ℚ)) (hmip : ∀ y, mip = some y → ∀ i < n, C.lo i ≤ y i ∧ y i ≤ C.up i)
    (nlp : (ℕ → ℚ) → (ℕ → ℚ) → Bool × (ℕ → ℚ))
    (hnlp : ∀ l u x, nlp l u = (true, x) → (∀ i < n, l i ≤ x i ∧ x i ≤ u i) ∧ ∀ r ∈ rows, inRow r.rl r.ru (r.g x))
    (f : (ℕ → ℚ) → ℚ) (val : ℚ) (x : ℕ → ℚ) (v : ℚ)
    (h : heurBon node pass isInt C.lo C.up mip nlp f val = some (x, v)) :
    Feasible n C rows x ∧ (∀ i < n, isInt i = true → ∃ k : ℤ, x i = k) ∧ v = f x ∧ v < val := by
  obtain ⟨-, -, y, h1, h2, h3, h4⟩ := (heurBon_exact _ _ _ _ _ _ _ _ _ _ _).1 h
  obtain ⟨q1, q2⟩ := hnlp _ _ _ h2
  refine ⟨⟨?_, q2⟩, ?_, h3, h4⟩
  · intro i hi
    obtain ⟨b1, b2⟩ := q1 i hi
    cases hI : isInt i with
    | false =>
      simp only [hI, Bool.false_eq_true, if_false] at b1 b2
      exact ⟨b1, b2⟩
    | true =>
      simp only [hI, if_true] at b1 b2
      obtain ⟨⟨a, ha⟩, ⟨b, hb⟩⟩ := hint i hi hI
      obtain ⟨m1, m2⟩ := hmip y h1 i hi
      have l1 : a ≤ ⌊y i + 1 / 2⌋ := by
        rw [Int.le_floor]
        rw [ha] at m1
        linarith
      have l2 : ⌊y i + 1 / 2⌋ ≤ b := by
        rw [← Int.lt_add_one_iff, Int.floor_lt]
        rw [hb] at m2
        push_cast
        linarith
      have l1' : (a : ℚ) ≤ ((⌊y i + 1 / 2⌋ : ℤ) : ℚ) := by exact_mod_cast l1
      have l2' : ((⌊y i + 1 / 2⌋ : ℤ) : ℚ) ≤ (b : ℚ) := by exact_mod_cast l2
      rw [ha, hb]
      constructor
      · linarith
      · linarith
  · intro i hi hI
    obtain ⟨b1, b2⟩ := q1 i hi
    simp only [hI, if_true] at b1 b2
    exact ⟨_, le_antisymm b2 b1⟩

example : heurBon 0 1 (fun i => decide (i = 0)) (fun _ => 0) (fun _ => 9) (some (pt2 (27 / 10) 1))
    (fun l _ => (true, pt2 (l 0) 4)) (fun y => y 0 + y 1) 100 = some (pt2 3 4, 7) := by
  rw [heurBon_exact]
  refine ⟨rfl, by omega, _, rfl, ?_, by norm_num [pt2], by norm_num⟩
  have : ⌊pt2 (27 / 10) 1 0 + 1 / 2⌋ = 3 := by
    rw [Int.floor_eq_iff]
    norm_num [pt2]
  simp only [decide_true, if_true, this]
  rfl

/-- **C138** limit of the statement: with a fractional bound of an integer column the rounded value leaves the bounds: `x0 ≤ 26/10`, MIP
solution `26/10` (within the MIP's integer tolerance or not): the column is fixed at 3. -/
theorem rounded_outside : heurBon 0 0 (fun _ => true) (fun _ => 0) (fun _ => 26 / 10) (some (fun _ => 26 / 10))
    (fun l _ => (true, l)) (fun y => y 0) 100 = some ((fun _ => 3), 3) := by
  rw [heurBon_exact]
  refine ⟨rfl, by omega, _, rfl, ?_, rfl, by norm_num⟩
  have : ⌊(26 / 10 : ℚ) + 1 / 2⌋ = 3 := by
    rw [Int.floor_eq_iff]
    norm_num
  simp only [if_true, this]
  rfl

/-- **C135** the range that is sampled: a nonlinear column from the larger of its lower bound and -1000 to the smaller of its upper bound and 100, in equal steps; a linear column stays at 0. -/
theorem sample_range (C : Cols) (nbAp : ℕ) (hn : 0 < nbAp) (i : ℕ) :
    (C.lin i = false → first C i = max (C.lo i) (-1000) ∧ last C i = min (C.up i) 100 ∧ first C i + nbAp * step C nbAp i = last C i) ∧
    (C.lin i = true → first C i = 0 ∧ last C i = 0 ∧ step C nbAp i = 0) := by
  have hn' : (nbAp : ℚ) ≠ 0 := by exact_mod_cast hn.ne'
  constructor
  · intro h
    refine ⟨?_, ?_, ?_⟩
    · unfold first
      rw [if_neg (by simp [h])]
      split
      · rename_i hl; rw [max_eq_right (le_of_lt hl)]
      · rename_i hl; rw [max_eq_left (not_lt.1 hl)]
    · unfold last
      rw [if_neg (by simp [h])]
      split
      · rename_i hl; rw [min_eq_right (le_of_lt hl)]
      · rename_i hl; rw [min_eq_left (not_lt.1 hl)]
    · unfold step
      rw [if_neg (by simp [h]), mul_div_cancel₀ _ hn']
      ring
  · intro h
    simp [first, last, step, h]

example : first ⟨fun _ => -2000, fun _ => 50, fun _ => false⟩ 0 = -1000 ∧ last ⟨fun _ => -2000, fun _ => 50, fun _ => false⟩ 0 = 50 := by decide +kernel

end Verif.Sepa

import Verif.Heur.Pump
import Verif.Heur.DiveProps
import Mathlib.Algebra.Order.BigOperators.Group.List
import Mathlib.Tactic.Ring

/-!
# C35: rounding and targets of the feasibility pump
-/
namespace Verif.Heur

/-! ### Specification -/

/-- The row is treated as a sum-to-one row at `x`: bounds 1, and all its entries are integer columns below 1 whose coefficient lies in [1, 2). -/
def Recognised (tol : ℚ) (isInt : Nat → Bool) (x : Nat → ℚ) (r : SRow) : Prop :=
  r.gl = 1 ∧ r.gu = 1 ∧ ∀ e ∈ r.ent, x e.1 < 1 - tol ∧ (1 ≤ e.2 ∧ e.2 < 2) ∧ isInt e.1 = true

/-- Sum of the values of the columns of a row. -/
def rsum (x : Nat → ℚ) (r : SRow) : ℚ := (r.ent.map fun e => x e.1).sum

/-- Position-weighted sum (positions counted from 1). -/
def posSum (x : Nat → ℚ) (r : SRow) : ℚ := ((r.ent.zipIdx 1).map fun e => (e.2 : ℚ) * x e.1.1).sum

/-- The columns of a row. -/
def SRow.cols (r : SRow) : List Nat := r.ent.map Prod.fst

/-- Exactly one column of the row, the one at position `i`, is 1; the others are 0. -/
def OneAt (y : Nat → ℚ) (r : SRow) (i : Nat) : Prop := i < r.ent.length ∧ ∀ (j : Nat) (h : j < r.ent.length), y r.ent[j].1 = if j = i then 1 else 0

/-- Within the bounds up to the primal tolerance. -/
def Wide (pt : ℚ) (b : Bnds) (cols : List Nat) (y : Nat → ℚ) : Prop := ∀ c ∈ cols, b.lo c - pt ≤ y c ∧ y c ≤ b.up c + pt

/-- Result of sorting by decreasing score. -/
def SortsDesc (sort : (Nat → ℚ) → List Nat → List Nat) : Prop := ∀ s l, (sort s l).Perm l ∧ (sort s l).Pairwise fun a b => s b ≤ s a

/-! ### Lemmas -/

theorem trunc_eq_one (q : ℚ) : trunc q = 1 ↔ 1 ≤ q ∧ q < 2 := by
  unfold trunc
  split_ifs with h
  · rw [Int.floor_eq_iff]; norm_num
  · rw [Int.ceil_eq_iff]
    constructor
    · rintro ⟨h1, _⟩; norm_num at h1; linarith
    · rintro ⟨h1, _⟩; linarith

theorem recognised_iff (tol : ℚ) (isInt : Nat → Bool) (x : Nat → ℚ) (r : SRow) :
    ((decide (r.gl = 1) && decide (r.gu = 1)) && sosOk tol isInt x r) = true ↔ Recognised tol isInt x r := by
  unfold Recognised sosOk
  rw [Bool.and_eq_true, Bool.and_eq_true, decide_eq_true_iff, decide_eq_true_iff, List.all_eq_true, and_assoc]
  refine and_congr_right fun _ => and_congr_right fun _ => forall₂_congr fun e _ => ?_
  rw [← trunc_eq_one]
  simp only [Bool.not_eq_true', Bool.or_eq_false_iff, decide_eq_false_iff_not, not_le, ne_eq, not_not, Bool.not_eq_false', and_assoc]

theorem wsum_eq (x : Nat → ℚ) : ∀ (l : List (Nat × ℚ)) (k : Nat), wsum x k l = ((l.zipIdx k).map fun e => (e.2 : ℚ) * x e.1.1).sum
  | [], _ => rfl
  | e :: l, k => by simp [wsum, List.zipIdx_cons, wsum_eq x l (k + 1)]

theorem wsum_ge (x : Nat → ℚ) : ∀ (l : List (Nat × ℚ)) (k : Nat), (∀ e ∈ l, 0 ≤ x e.1) → (k : ℚ) * (l.map fun e => x e.1).sum ≤ wsum x k l
  | [], _, _ => by simp [wsum]
  | e :: l, k, h => by
    have ih := wsum_ge x l (k + 1) fun e he => h e (by simp [he])
    have hs : 0 ≤ (l.map fun e => x e.1).sum := List.sum_nonneg (by
      intro v hv; obtain ⟨e, he, rfl⟩ := List.mem_map.1 hv; exact h e (by simp [he]))
    simp only [wsum, List.map_cons, List.sum_cons]
    push_cast at ih
    nlinarith

theorem wsum_le (x : Nat → ℚ) : ∀ (l : List (Nat × ℚ)) (k : Nat), (∀ e ∈ l, 0 ≤ x e.1) →
    wsum x k l ≤ ((k : ℚ) + l.length - 1) * (l.map fun e => x e.1).sum
  | [], _, _ => by simp [wsum]
  | e :: l, k, h => by
    have ih := wsum_le x l (k + 1) fun e he => h e (by simp [he])
    have h0 := h e (by simp)
    simp only [wsum, List.map_cons, List.sum_cons, List.length_cons]
    push_cast at ih ⊢
    have : (0 : ℚ) ≤ (l.length : ℚ) := Nat.cast_nonneg _
    nlinarith [mul_nonneg this h0]

theorem assign_other (sel : ℤ) : ∀ (l : List (Nat × ℚ)) (j : Nat) (x : Nat → ℚ) (c : Nat), c ∉ l.map Prod.fst → assign sel j l x c = x c
  | [], _, _, _, _ => rfl
  | e :: l, j, x, c, h => by
    simp only [List.map_cons, List.mem_cons, not_or] at h
    rw [assign, assign_other sel l (j + 1) _ c h.2, if_neg h.1]

theorem assign_mem (sel : ℤ) : ∀ (l : List (Nat × ℚ)) (j : Nat) (x : Nat → ℚ) (c : Nat), c ∈ l.map Prod.fst → assign sel j l x c = 0 ∨ assign sel j l x c = 1
  | [], _, _, _, h => by simp at h
  | e :: l, j, x, c, h => by
    rw [assign]
    by_cases hc : c ∈ l.map Prod.fst
    · exact assign_mem sel l (j + 1) _ c hc
    · have he : c = e.1 := by simp only [List.map_cons, List.mem_cons] at h; exact h.resolve_right hc
      rw [assign_other sel l (j + 1) _ c hc, if_pos he]
      split_ifs <;> simp

theorem assign_pos (sel : ℤ) : ∀ (l : List (Nat × ℚ)) (j : Nat) (x : Nat → ℚ), (l.map Prod.fst).Nodup → ∀ (i : Nat) (h : i < l.length),
    assign sel j l x l[i].1 = if ((j + i : Nat) : ℤ) = sel then 1 else 0
  | [], _, _, _, _, h => by simp at h
  | e :: l, j, x, hn, i, h => by
    simp only [List.map_cons, List.nodup_cons] at hn
    rw [assign]
    cases i with
    | zero => simp only [List.getElem_cons_zero, Nat.add_zero]; rw [assign_other sel l _ _ _ hn.1, if_pos rfl]
    | succ i =>
      simp only [List.getElem_cons_succ]
      rw [assign_pos sel l (j + 1) _ hn.2 i (by simpa using h)]
      congr 2
      push_cast; ring

theorem roundRow_not (dbg : Bool) (tol : ℚ) (isInt : Nat → Bool) (r : SRow) (x : Nat → ℚ) (h : ¬ Recognised tol isInt x r) : roundRow dbg tol isInt r x = some x := by
  unfold roundRow
  rw [if_neg (by rw [recognised_iff]; exact h)]

theorem roundRow_yes (dbg : Bool) (tol : ℚ) (isInt : Nat → Bool) (r : SRow) (x : Nat → ℚ) (h : Recognised tol isInt x r) :
    roundRow dbg tol isInt r x = if selPos x r < 0 then some x else if dbg && decide ((r.ent.length : ℤ) ≤ selPos x r) then none
      else some (assign (selPos x r) 0 r.ent x) := by
  unfold roundRow
  rw [if_pos ((recognised_iff _ _ _ _).2 h)]

/-- What a row step may do to a column. -/
theorem roundRow_col (dbg : Bool) (tol : ℚ) (isInt : Nat → Bool) (r : SRow) (x y : Nat → ℚ) (h : roundRow dbg tol isInt r x = some y) (c : Nat) :
    y c = x c ∨ (c ∈ r.cols ∧ Recognised tol isInt x r ∧ (y c = 0 ∨ y c = 1)) := by
  by_cases hr : Recognised tol isInt x r
  · rw [roundRow_yes _ _ _ _ _ hr] at h
    split_ifs at h
    · cases h; exact Or.inl rfl
    · simp only [Option.some.injEq] at h
      subst h
      by_cases hc : c ∈ r.cols
      · exact Or.inr ⟨hc, hr, assign_mem _ _ _ _ _ hc⟩
      · exact Or.inl (assign_other _ _ _ _ _ hc)
  · rw [roundRow_not _ _ _ _ _ hr] at h
    cases h; exact Or.inl rfl

theorem roundRows_col (dbg : Bool) (tol : ℚ) (isInt : Nat → Bool) : ∀ (rs : List SRow) (x y : Nat → ℚ), roundRows dbg tol isInt rs x = some y → ∀ c,
    y c = x c ∨ (isInt c = true ∧ (∃ r ∈ rs, r.gl = 1 ∧ r.gu = 1 ∧ c ∈ r.cols) ∧ (y c = 0 ∨ y c = 1))
  | [], x, y, h, c => by cases h; exact Or.inl rfl
  | r :: rs, x, y, h, c => by
    rw [roundRows, Option.bind_eq_some_iff] at h
    obtain ⟨z, h1, h2⟩ := h
    rcases roundRows_col dbg tol isInt rs z y h2 c with e | ⟨h3, ⟨r', h4, h5⟩, h6⟩
    · rcases roundRow_col dbg tol isInt r x z h1 c with e' | ⟨h3, h4, h5⟩
      · exact Or.inl (e.trans e')
      · have hI : isInt c = true := by
          obtain ⟨e', he', rfl⟩ := List.mem_map.1 h3
          exact (h4.2.2 e' he').2.2
        exact Or.inr ⟨hI, ⟨r, by simp, h4.1, h4.2.1, h3⟩, by rw [e]; exact h5⟩
    · exact Or.inr ⟨h3, ⟨r', by simp [h4], h5⟩, h6⟩

theorem recognised_congr (tol : ℚ) (isInt : Nat → Bool) (x y : Nat → ℚ) (r : SRow) (h : ∀ c ∈ r.cols, y c = x c) : Recognised tol isInt y r ↔ Recognised tol isInt x r := by
  unfold Recognised
  refine and_congr_right fun _ => and_congr_right fun _ => forall₂_congr fun e he => ?_
  rw [h e.1 (List.mem_map_of_mem he)]

theorem selPos_congr (x y : Nat → ℚ) (r : SRow) (h : ∀ c ∈ r.cols, y c = x c) : selPos y r = selPos x r := by
  unfold selPos
  rw [wsum_eq, wsum_eq]
  congr 4
  apply List.map_congr_left
  intro e he
  rw [h e.1.1]
  exact List.mem_map_of_mem (List.fst_mem_of_mem_zipIdx he)

theorem isFrac_int (tol : ℚ) (ht : 0 ≤ tol) (z : ℤ) : isFrac tol (z : ℚ) = false := (not_isFrac_iff _ _).2 ⟨z, by simpa using ht⟩

theorem isFrac_shift (tol v : ℚ) (z : ℤ) : isFrac tol (v + z) = isFrac tol v := by
  rw [Bool.eq_iff_iff, isFrac_iff, isFrac_iff]
  constructor
  · intro h w; have := h (w + z); push_cast at this; rwa [add_sub_add_right_eq_sub] at this
  · intro h w; have := h (w - z); push_cast at this; convert this using 2; ring

theorem roundCol_fix (tol pt lo up v : ℚ) (h : isFrac tol v = false) : roundCol tol pt lo up v = v := by
  unfold roundCol; rw [h]; simp

/-! ### Properties of the rounding -/

/-- **C35**: rounding of one column: a value within the tolerance of an integer is kept, any other becomes the nearest of the integers within the bounds
(when there is one). -/
theorem roundCol_exact (tol pt lo up v : ℚ) (hv : lo - pt ≤ v ∧ v ≤ up + pt) (z0 : ℤ) (hz : lo - pt ≤ z0 ∧ (z0 : ℚ) ≤ up + pt) :
    ((∃ z : ℤ, |(z : ℚ) - v| ≤ tol) → roundCol tol pt lo up v = v) ∧
    ((∀ z : ℤ, tol < |(z : ℚ) - v|) → ∃ z : ℤ, roundCol tol pt lo up v = z ∧ (lo - pt ≤ z ∧ (z : ℚ) ≤ up + pt) ∧
      ∀ w : ℤ, lo - pt ≤ w → (w : ℚ) ≤ up + pt → |(z : ℚ) - v| ≤ |(w : ℚ) - v|) := by
  refine ⟨fun h => roundCol_fix _ _ _ _ _ ((not_isFrac_iff _ _).2 h), fun h => ?_⟩
  unfold roundCol
  rw [if_pos ((isFrac_iff _ _).2 h)]
  have h1 := Int.floor_le (v + 1 / 2)
  have h2 := Int.lt_floor_add_one (v + 1 / 2)
  generalize hr : ⌊v + 1 / 2⌋ = r at *
  split_ifs with h3 h4
  · refine ⟨r + 1, by push_cast; ring, ⟨by push_cast; linarith, ?_⟩, ?_⟩
    · have : r + 1 ≤ z0 := by
        have : (r : ℚ) < z0 := by linarith
        have : r < z0 := by exact_mod_cast this
        omega
      have : ((r + 1 : ℤ) : ℚ) ≤ z0 := by exact_mod_cast this
      linarith
    · intro w hw _
      have : (r : ℚ) < w := by linarith
      have : r < w := by exact_mod_cast this
      have : ((r + 1 : ℤ) : ℚ) ≤ w := by exact_mod_cast this
      push_cast at this ⊢
      rw [abs_of_nonneg (by linarith), abs_of_nonneg (by linarith)]
      linarith
  · refine ⟨r - 1, by push_cast; ring, ⟨?_, by push_cast; linarith⟩, ?_⟩
    · have : (z0 : ℚ) < r := by linarith
      have : z0 < r := by exact_mod_cast this
      have : (z0 : ℚ) ≤ ((r - 1 : ℤ) : ℚ) := by exact_mod_cast (by omega : z0 ≤ r - 1)
      linarith
    · intro w _ hw
      have : (w : ℚ) < r := by linarith
      have : w < r := by exact_mod_cast this
      have : (w : ℚ) ≤ ((r - 1 : ℤ) : ℚ) := by exact_mod_cast (by omega : w ≤ r - 1)
      push_cast at this ⊢
      rw [abs_of_nonpos (by linarith), abs_of_nonpos (by linarith)]
      linarith
  · refine ⟨r, rfl, ⟨by linarith, by linarith⟩, ?_⟩
    intro w _ _
    have := round_le v w
    rw [round_eq, hr] at this
    rw [abs_sub_comm, abs_sub_comm (w : ℚ)]
    exact this

/-- **C35**: after rounding, all integer columns are within the tolerance of an integer; continuous columns are unchanged. -/
theorem roundPt_integral (dbg : Bool) (tol pt : ℚ) (ht : 0 ≤ tol) (isInt : Nat → Bool) (b : Bnds) (rows : List SRow) (x y : Nat → ℚ)
    (h : roundPt dbg tol pt isInt b rows x = some y) (c : Nat) : (isInt c = true → ∃ z : ℤ, |(z : ℚ) - y c| ≤ tol) ∧ (isInt c = false → y c = x c) := by
  unfold roundPt at h
  obtain ⟨w, hw, rfl⟩ := Option.map_eq_some_iff.1 h
  constructor
  · intro hI
    simp only [hI, if_true]
    rw [← not_isFrac_iff]
    cases hf : isFrac tol (w c)
    · rw [roundCol_fix _ _ _ _ _ hf]; exact hf
    · unfold roundCol
      rw [if_pos hf]
      split_ifs
      · rw [← Int.cast_one, ← Int.cast_add]; exact isFrac_int tol ht _
      · rw [← Int.cast_one, ← Int.cast_sub]; exact isFrac_int tol ht _
      · exact isFrac_int tol ht _
  · intro hI
    simp only [hI, Bool.false_eq_true, if_false]
    rcases roundRows_col dbg tol isInt rows x w hw c with e | ⟨e, _⟩
    · exact e
    · rw [hI] at e; cases e

/-- **C35**: the rounded point is within the bounds (up to the primal tolerance) when the point to round is, every integer column has an integer within its
bounds, and columns of sum-to-one rows may be both 0 and 1. -/
theorem roundPt_box_partial (dbg : Bool) (tol pt : ℚ) (isInt : Nat → Bool) (b : Bnds) (rows : List SRow) (x y : Nat → ℚ)
    (h : roundPt dbg tol pt isInt b rows x = some y) (cols : List Nat) (hx : Wide pt b cols x)
    (hz : ∀ c ∈ cols, isInt c = true → ∃ z : ℤ, b.lo c - pt ≤ z ∧ (z : ℚ) ≤ b.up c + pt)
    (hs : ∀ c ∈ cols, (∃ r ∈ rows, r.gl = 1 ∧ r.gu = 1 ∧ c ∈ r.cols) → b.lo c - pt ≤ 0 ∧ 1 ≤ b.up c + pt) : Wide pt b cols y := by
  unfold roundPt at h
  obtain ⟨w, hw, rfl⟩ := Option.map_eq_some_iff.1 h
  intro c hc
  have hwc : b.lo c - pt ≤ w c ∧ w c ≤ b.up c + pt := by
    rcases roundRows_col dbg tol isInt rows x w hw c with e | ⟨_, hr, e | e⟩
    · rw [e]; exact hx c hc
    · rw [e]; have := hs c hc hr; exact ⟨this.1, by linarith⟩
    · rw [e]; have := hs c hc hr; exact ⟨by linarith, this.2⟩
  show b.lo c - pt ≤ (if isInt c = true then roundCol tol pt (b.lo c) (b.up c) (w c) else w c) ∧ (if isInt c = true then roundCol tol pt (b.lo c) (b.up c) (w c) else w c) ≤ b.up c + pt
  split_ifs with hI
  · obtain ⟨z0, hz0⟩ := hz c hc hI
    obtain ⟨h1, h2⟩ := roundCol_exact tol pt (b.lo c) (b.up c) (w c) hwc z0 hz0
    by_cases hf : ∃ z : ℤ, |(z : ℚ) - w c| ≤ tol
    · rw [h1 hf]; exact hwc
    · obtain ⟨z, e, hb, _⟩ := h2 (by push Not at hf; exact hf)
      rw [e]; exact hb
  · exact hwc

/-- Rows that share no column. -/
def Disjoint' (rows : List SRow) : Prop := rows.Pairwise fun r s => ∀ c, c ∈ r.cols → c ∈ s.cols → False

theorem roundRows_sos (dbg : Bool) (tol : ℚ) (isInt : Nat → Bool) : ∀ (rows : List SRow) (x y : Nat → ℚ), Disjoint' rows → roundRows dbg tol isInt rows x = some y →
    ∀ r ∈ rows, ∃ z, roundRow dbg tol isInt r x = some z ∧ ∀ c ∈ r.cols, y c = z c
  | [], _, _, _, _, r, hr => by simp at hr
  | r0 :: rows, x, y, hd, h, r, hr => by
    rw [roundRows, Option.bind_eq_some_iff] at h
    obtain ⟨w, h1, h2⟩ := h
    obtain ⟨hd0, hd1⟩ := List.pairwise_cons.1 hd
    rcases List.mem_cons.1 hr with rfl | hr
    · refine ⟨w, h1, fun c hc => ?_⟩
      rcases roundRows_col dbg tol isInt rows w y h2 c with e | ⟨_, ⟨r', hr', _, _, hc'⟩, _⟩
      · exact e
      · exact absurd hc' (fun hc' => hd0 r' hr' c hc hc')
    · obtain ⟨z, hz, hy⟩ := roundRows_sos dbg tol isInt rows w y hd1 h2 r hr
      have hwx : ∀ c ∈ r.cols, w c = x c := by
        intro c hc
        rcases roundRow_col dbg tol isInt r0 x w h1 c with e | ⟨hc', _⟩
        · exact e
        · exact absurd hc (fun hc => hd0 r hr c hc' hc)
      by_cases hR : Recognised tol isInt x r
      · have hR' := (recognised_congr tol isInt x w r hwx).2 hR
        rw [roundRow_yes _ _ _ _ _ hR', selPos_congr x w r hwx] at hz
        rw [roundRow_yes _ _ _ _ _ hR]
        split_ifs at hz with a1 a2
        · cases hz
          exact ⟨x, by rw [if_pos a1], fun c hc => by rw [hy c hc, hwx c hc]⟩
        · rw [if_neg a1, if_neg a2]
          refine ⟨_, rfl, fun c hc => ?_⟩
          rw [hy c hc]
          cases hz
          have : ∀ (l : List (Nat × ℚ)) (j : Nat) (u v : Nat → ℚ) (sel : ℤ), c ∈ l.map Prod.fst → assign sel j l u c = assign sel j l v c := by
            intro l
            induction l with
            | nil => intro _ _ _ _ h; simp at h
            | cons e l ih =>
              intro j u v sel h
              rw [assign, assign]
              by_cases hc : c ∈ l.map Prod.fst
              · exact ih _ _ _ _ hc
              · have he : c = e.1 := by simp only [List.map_cons, List.mem_cons] at h; exact h.resolve_right hc
                rw [assign_other _ _ _ _ _ hc, assign_other _ _ _ _ _ hc, if_pos he, if_pos he]
          exact this _ _ _ _ _ hc
      · have hR' : ¬ Recognised tol isInt w r := fun h => hR ((recognised_congr tol isInt x w r hwx).1 h)
        rw [roundRow_not _ _ _ _ _ hR'] at hz
        cases hz
        exact ⟨x, roundRow_not _ _ _ _ _ hR, fun c hc => by rw [hy c hc, hwx c hc]⟩

/-- **C35**: rows without common columns: for each recognised row whose position-weighted sum is at least 1/2, exactly one column is set to 1 and the others to 0: the one
whose position is the weighted sum, rounded. -/
theorem roundPt_sos_partial (tol pt : ℚ) (ht : 0 ≤ tol) (isInt : Nat → Bool) (b : Bnds) (rows : List SRow) (x y : Nat → ℚ) (hd : Disjoint' rows)
    (h : roundPt true tol pt isInt b rows x = some y) (r : SRow) (hr : r ∈ rows) (hn : r.cols.Nodup) (hR : Recognised tol isInt x r) (hw : 1 / 2 ≤ posSum x r) :
    ∃ i : Nat, ⌊posSum x r + 1 / 2⌋ = i + 1 ∧ OneAt y r i := by
  unfold roundPt at h
  obtain ⟨w, hw', rfl⟩ := Option.map_eq_some_iff.1 h
  obtain ⟨z, hz, hy⟩ := roundRows_sos true tol isInt rows x w hd hw' r hr
  rw [roundRow_yes _ _ _ _ _ hR] at hz
  have hsp : selPos x r = ⌊posSum x r + 1 / 2⌋ - 1 := by rw [selPos, wsum_eq, posSum]
  have hfl : 1 ≤ ⌊posSum x r + 1 / 2⌋ := Int.le_floor.2 (by push_cast; linarith)
  have h0 : ¬ selPos x r < 0 := by rw [hsp]; omega
  rw [if_neg h0] at hz
  simp only [Bool.true_and] at hz
  split_ifs at hz with h1
  rw [decide_eq_true_iff, not_le] at h1
  cases hz
  obtain ⟨i, hi⟩ := Int.eq_ofNat_of_zero_le (not_lt.1 h0)
  refine ⟨i, by rw [hsp] at hi; omega, ?_, ?_⟩
  · rw [hi] at h1; exact_mod_cast h1
  · intro j hj
    have hmem : r.ent[j].1 ∈ r.cols := List.mem_map_of_mem (List.getElem_mem hj)
    have e : w r.ent[j].1 = if j = i then 1 else 0 := by
      rw [hy _ hmem, assign_pos _ _ _ _ hn j hj, hi]
      simp
    show (if isInt r.ent[j].1 = true then roundCol tol pt (b.lo r.ent[j].1) (b.up r.ent[j].1) (w r.ent[j].1) else w r.ent[j].1) = _
    rw [e, roundCol_fix]
    · simp
    · split_ifs
      · exact_mod_cast isFrac_int tol ht 1
      · exact_mod_cast isFrac_int tol ht 0

/-- **C35**: for a non-negative point whose columns of the row add up to 1 the selection is always possible. -/
theorem posSum_range (x : Nat → ℚ) (r : SRow) (h0 : ∀ e ∈ r.ent, 0 ≤ x e.1) (h1 : rsum x r = 1) : 1 / 2 ≤ posSum x r ∧ 1 ≤ ⌊posSum x r + 1 / 2⌋ ∧
    ⌊posSum x r + 1 / 2⌋ ≤ r.ent.length := by
  have a := wsum_ge x r.ent 1 h0
  have b := wsum_le x r.ent 1 h0
  rw [wsum_eq] at a b
  have e : (r.ent.map fun e => x e.1).sum = 1 := h1
  rw [e] at a b
  have a' : 1 ≤ posSum x r := by simpa [posSum] using a
  have b' : posSum x r ≤ r.ent.length := by simpa [posSum] using b
  refine ⟨by linarith, Int.le_floor.2 (by push_cast; linarith), ?_⟩
  have : ⌊posSum x r + 1 / 2⌋ < (r.ent.length : ℤ) + 1 := Int.floor_lt.2 (by push_cast; linarith)
  omega

/-- **C35**: the assertion in the rounding cannot fail for a non-negative point where the columns of each recognised row add up to at most 1, even when rows share
columns. -/
theorem roundRows_no_abort (tol : ℚ) (ht : 0 ≤ tol) (isInt : Nat → Bool) : ∀ (rows : List SRow) (x : Nat → ℚ), (∀ r ∈ rows, ∀ c ∈ r.cols, 0 ≤ x c) →
    (∀ r ∈ rows, Recognised tol isInt x r → rsum x r ≤ 1) → ∃ y, roundRows true tol isInt rows x = some y
  | [], x, _, _ => ⟨x, rfl⟩
  | r :: rows, x, h0, h1 => by
    have hstep : ∃ w, roundRow true tol isInt r x = some w := by
      by_cases hR : Recognised tol isInt x r
      · rw [roundRow_yes _ _ _ _ _ hR]
        split_ifs with a1 a2
        · exact ⟨_, rfl⟩
        · exfalso
          simp only [Bool.true_and, decide_eq_true_iff] at a2
          have hb := wsum_le x r.ent 1 fun e he => h0 r (by simp) e.1 (List.mem_map_of_mem he)
          have hs : (r.ent.map fun e => x e.1).sum ≤ 1 := h1 r (by simp) hR
          have hl : (0 : ℚ) ≤ (r.ent.length : ℚ) := Nat.cast_nonneg _
          have : wsum x 1 r.ent ≤ r.ent.length := by
            refine le_trans hb ?_
            push_cast
            nlinarith
          have hfl : ⌊wsum x 1 r.ent + 1 / 2⌋ < (r.ent.length : ℤ) + 1 := Int.floor_lt.2 (by push_cast; linarith)
          unfold selPos at a2
          omega
        · exact ⟨_, rfl⟩
      · exact ⟨x, roundRow_not _ _ _ _ _ hR⟩
    obtain ⟨w, hw⟩ := hstep
    have hcol := roundRow_col true tol isInt r x w hw
    obtain ⟨y, hy⟩ := roundRows_no_abort tol ht isInt rows w (by
      intro s hs c hc
      rcases hcol c with e | ⟨_, _, e | e⟩
      · rw [e]; exact h0 s (by simp [hs]) c hc
      · rw [e]
      · rw [e]; norm_num) (by
      intro s hs hR
      have hle : ∀ e ∈ s.ent, w e.1 ≤ x e.1 ∧ x e.1 < 1 - tol := by
        intro e he
        have hlt := (hR.2.2 e he).1
        rcases hcol e.1 with e' | ⟨hc, hRr, e' | e'⟩
        · rw [e'] at hlt ⊢; exact ⟨le_refl _, hlt⟩
        · obtain ⟨e2, he2, hee⟩ := List.mem_map.1 hc
          have := (hRr.2.2 e2 he2).1
          rw [hee] at this
          rw [e']
          exact ⟨h0 s (by simp [hs]) e.1 (List.mem_map_of_mem he), this⟩
        · rw [e'] at hlt; linarith
      have hRx : Recognised tol isInt x s := ⟨hR.1, hR.2.1, fun e he => ⟨(hle e he).2, (hR.2.2 e he).2⟩⟩
      refine le_trans ?_ (h1 s (by simp [hs]) hRx)
      exact List.sum_le_sum fun e he => (hle e he).1)
    exact ⟨y, by rw [roundRows, hw, Option.bind_some, hy]⟩

/-- Row with unit right-hand side. -/
def unitRow (l : List (Nat × ℚ)) : SRow := ⟨1, 1, l⟩

/-- **C35** refuted: coefficients are truncated, so that `3/2 x0 + 3/2 x1 = 1` passes for a sum-to-one row; the point (1/3, 1/3), which satisfies it, is
rounded to (1, 0), which does not. -/
theorem roundPt_truncates :
    (roundPt true (1 / 10 ^ 6) (1 / 10 ^ 6) (fun _ => true) ⟨fun _ => 0, fun _ => 1⟩ [unitRow [(0, 3 / 2), (1, 3 / 2)]] fun _ => 1 / 3).map (fun y => (y 0, y 1)) =
      some (1, 0) := by
  decide +kernel

/-- **C35** refuted for rows with common columns: from a point satisfying `x0 + x1 = 1` and `x1 + x2 = 1` the rounding gives (1, 1, 0). -/
theorem roundPt_overlap :
    (roundPt true (1 / 10 ^ 6) (1 / 10 ^ 6) (fun _ => true) ⟨fun _ => 0, fun _ => 1⟩ [unitRow [(0, 1), (1, 1)], unitRow [(1, 1), (2, 1)]]
        fun i => if i = 1 then 2 / 5 else 3 / 5).map (fun y => (y 0, y 1, y 2)) = some (1, 1, 0) := by
  decide +kernel

/-- **C35** refuted for columns of a sum-to-one row whose bounds exclude 1: the point (1/2, 0, 1/2), with column 1 fixed at 0, is rounded to (0, 1, 0). -/
theorem roundPt_out_of_bounds :
    (roundPt true (1 / 10 ^ 6) (1 / 10 ^ 6) (fun _ => true) ⟨fun _ => 0, fun i => if i = 1 then 0 else 1⟩ [unitRow [(0, 1), (1, 1), (2, 1)]]
        fun i => if i = 1 then 0 else 1 / 2).map (fun y => (y 0, y 1, y 2)) = some (0, 1, 0) := by
  decide +kernel

/-- Without assertions a position beyond the row leaves all columns at 0. -/
theorem roundRow_release_zero :
    (roundRow true (1 / 10) (fun _ => true) (unitRow [(0, 1), (1, 1), (2, 1)]) fun _ => 4 / 5).isNone = true ∧
    (roundRow false (1 / 10) (fun _ => true) (unitRow [(0, 1), (1, 1), (2, 1)]) fun _ => 4 / 5).map (fun y => (y 0, y 1, y 2)) = some (0, 0, 0) := by
  decide +kernel

/-! ### non-trivial instances -/

example : Disjoint' [unitRow [(0, 1), (1, 1)], unitRow [(2, 1), (3, 1)]] ∧ Recognised (1 / 10 ^ 6) (fun _ => true) (fun i => if i = 1 then 2 / 5 else 3 / 5) (unitRow [(0, 1), (1, 1)]) ∧
    rsum (fun i => if i = 1 then 2 / 5 else 3 / 5) (unitRow [(0, 1), (1, 1)]) = 1 := by
  refine ⟨by simp [Disjoint', unitRow, SRow.cols]; rintro c _ (⟨rfl, _⟩ | ⟨rfl, _⟩) <;> simp, ⟨rfl, rfl, ?_⟩, by norm_num [rsum, unitRow]⟩
  intro e he
  simp only [unitRow, List.mem_cons, List.not_mem_nil, or_false] at he
  rcases he with rfl | rfl <;> norm_num

example : (roundPt true (1 / 10 ^ 6) (1 / 10 ^ 6) (fun i => i != 4) ⟨fun _ => 0, fun i => if i = 5 then 7 / 5 else 4⟩
    [unitRow [(0, 1), (1, 1)], unitRow [(2, 1), (3, 1)]] fun i => if i = 1 then 2 / 5 else if i = 5 then 6 / 5 else 3 / 5).map (fun y => (y 0, y 1, y 2, y 3, y 4, y 5)) =
      some (1, 0, 0, 1, 3 / 5, 1) := by decide +kernel

end Verif.Heur

import Verif.Quad.Spec
import Mathlib.Tactic.Ring
import Mathlib.Tactic.Linarith
import Mathlib.Algebra.BigOperators.Ring.List
namespace Verif.Quad

theorem foldl_add_eq {α} (f : α → ℚ) (l : List α) (v : ℚ) :
    l.foldl (fun v e => v + f e) v = v + (l.map f).sum := by
  induction l generalizing v with
  | nil => simp
  | cons e l ih => simp [ih, add_assoc]

/-! ### the gradient map -/

def GMap.keys (g : GMap) : List Nat := g.map (·.1)

theorem mem_keys_insert (k : Nat) (a : ℚ) (g : GMap) (j : Nat) :
    j ∈ (GMap.insert k a g).keys ↔ j = k ∨ j ∈ g.keys := by
  induction g with
  | nil => simp [GMap.insert, GMap.keys]
  | cons e g ih =>
    obtain ⟨k', p⟩ := e
    unfold GMap.insert
    split_ifs with h1 h2
    · simp [GMap.keys]
    · subst h2; simp [GMap.keys]
    · simp only [GMap.keys, List.map_cons, List.mem_cons] at ih ⊢
      rw [ih]; tauto

theorem sorted_insert (k : Nat) (a : ℚ) (g : GMap) (h : g.keys.Pairwise (· < ·)) :
    (GMap.insert k a g).keys.Pairwise (· < ·) := by
  induction g with
  | nil => simp [GMap.insert, GMap.keys]
  | cons e g ih =>
    obtain ⟨k', p⟩ := e
    simp only [GMap.keys, List.map_cons, List.pairwise_cons] at h
    unfold GMap.insert
    split_ifs with h1 h2
    · simp only [GMap.keys, List.map_cons, List.pairwise_cons, List.mem_cons]
      refine ⟨?_, h⟩
      rintro j (rfl | hj)
      · exact h1
      · exact lt_trans h1 (h.1 j hj)
    · simpa only [GMap.keys, List.map_cons, List.pairwise_cons] using h
    · have hih := ih h.2
      simp only [GMap.keys, List.map_cons, List.pairwise_cons]
      refine ⟨fun j hj => ?_, hih⟩
      rcases (mem_keys_insert k a g j).1 hj with rfl | hj
      · omega
      · exact h.1 j hj

theorem keys_foldl_insert {α} (key : α → Nat) (val : α → ℚ) (l : List α) (g : GMap) (j : Nat) :
    j ∈ (l.foldl (fun g e => GMap.insert (key e) (val e) g) g).keys ↔ j ∈ l.map key ∨ j ∈ g.keys := by
  induction l generalizing g with
  | nil => simp
  | cons e l ih =>
    simp only [List.foldl_cons, ih, mem_keys_insert, List.map_cons, List.mem_cons]; tauto

theorem sorted_foldl_insert {α} (key : α → Nat) (val : α → ℚ) (l : List α) (g : GMap)
    (h : g.keys.Pairwise (· < ·)) :
    (l.foldl (fun g e => GMap.insert (key e) (val e) g) g).keys.Pairwise (· < ·) := by
  induction l generalizing g with
  | nil => simpa
  | cons e l ih => exact ih _ (sorted_insert _ _ _ h)

/-- linear weight `Σ first * w key` -/
def GMap.lin (g : GMap) (w : Nat → ℚ) : ℚ := (g.map (fun e => e.2.1 * w e.1)).sum
/-- accumulator weight `Σ second * w key` -/
def GMap.acc (g : GMap) (w : Nat → ℚ) : ℚ := (g.map (fun e => e.2.2 * w e.1)).sum

theorem lin_insert (k : Nat) (a : ℚ) (g : GMap) (w : Nat → ℚ) (h : g.keys.Pairwise (· < ·)) :
    (GMap.insert k a g).lin w = g.lin w + if k ∈ g.keys then 0 else a * w k := by
  induction g with
  | nil => simp [GMap.insert, GMap.lin, GMap.keys]
  | cons e g ih =>
    obtain ⟨k', p⟩ := e
    simp only [GMap.keys, List.map_cons, List.pairwise_cons] at h
    unfold GMap.insert
    split_ifs with h1 h2 h3 h3 h3
    · exfalso
      simp only [GMap.keys, List.map_cons, List.mem_cons] at h2
      rcases h2 with rfl | h2
      · omega
      · have := h.1 k h2; omega
    · simp [GMap.lin]; ring
    · simp [GMap.lin]
    · rename_i h2; exact absurd (by simp [GMap.keys, h2]) h3
    · have hk : k ∈ GMap.keys g := by
        simp only [GMap.keys, List.map_cons, List.mem_cons] at h3 ⊢
        tauto
      have := ih h.2
      rw [if_pos hk] at this
      simp only [GMap.lin, List.map_cons, List.sum_cons] at this ⊢
      rw [this]; ring
    · have hk : k ∉ GMap.keys g := by
        simp only [GMap.keys, List.map_cons, List.mem_cons] at h3 ⊢
        tauto
      have := ih h.2
      rw [if_neg hk] at this
      simp only [GMap.lin, List.map_cons, List.sum_cons] at this ⊢
      rw [this]; ring

theorem lin_foldl_insert (l : List (Nat × ℚ)) (g : GMap) (w : Nat → ℚ)
    (h : g.keys.Pairwise (· < ·)) (hn : (l.map (·.1)).Nodup) (hd : ∀ j ∈ l.map (·.1), j ∉ g.keys) :
    (l.foldl (fun g e => GMap.insert e.1 e.2 g) g).lin w = g.lin w + linForm l w := by
  induction l generalizing g with
  | nil => simp [linForm]
  | cons e l ih =>
    simp only [List.map_cons, List.nodup_cons, List.mem_cons, forall_eq_or_imp] at hn hd
    simp only [List.foldl_cons]
    rw [ih _ (sorted_insert _ _ _ h) hn.2, lin_insert _ _ _ _ h, if_neg hd.1]
    · simp [linForm]; ring
    · intro j hj hmem
      rcases (mem_keys_insert _ _ _ _).1 hmem with rfl | hm
      · exact hn.1 hj
      · exact hd.2 j hj hm

theorem lin_foldl_insert_zero {α} (key : α → Nat) (l : List α) (g : GMap) (w : Nat → ℚ)
    (h : g.keys.Pairwise (· < ·)) :
    (l.foldl (fun g e => GMap.insert (key e) 0 g) g).lin w = g.lin w := by
  induction l generalizing g with
  | nil => rfl
  | cons e l ih =>
    simp only [List.foldl_cons]
    rw [ih _ (sorted_insert _ _ _ h), lin_insert _ _ _ _ h]; simp

theorem keys_bump (k : Nat) (v : ℚ) (g : GMap) : (GMap.bump k v g).keys = g.keys := by
  simp only [GMap.keys, GMap.bump, List.map_map]
  apply List.map_congr_left
  intro e _; simp only [Function.comp]; split_ifs <;> rfl

theorem lin_bump (k : Nat) (v : ℚ) (g : GMap) (w : Nat → ℚ) : (GMap.bump k v g).lin w = g.lin w := by
  simp only [GMap.lin, GMap.bump, List.map_map]
  congr 1
  apply List.map_congr_left
  intro e _; simp only [Function.comp]; split_ifs <;> rfl

theorem acc_bump (k : Nat) (v : ℚ) (g : GMap) (w : Nat → ℚ) (hn : g.keys.Pairwise (· < ·)) :
    (GMap.bump k v g).acc w = g.acc w + if k ∈ g.keys then v * w k else 0 := by
  induction g with
  | nil => simp [GMap.bump, GMap.acc, GMap.keys]
  | cons e g ih =>
    have hkc : GMap.keys (e :: g) = e.1 :: GMap.keys g := rfl
    rw [hkc, List.pairwise_cons] at hn
    have ih' := ih hn.2
    have hac : ∀ (e : Nat × ℚ × ℚ) (g : GMap), GMap.acc (e :: g) w = e.2.2 * w e.1 + GMap.acc g w :=
      fun e g => by simp [GMap.acc]
    have hbc : GMap.bump k v (e :: g)
        = (if e.1 = k then (e.1, e.2.1, e.2.2 + v) else e) :: GMap.bump k v g := rfl
    rw [hbc, hac, hac, ih', hkc]
    by_cases h1 : e.1 = k
    · have : k ∉ GMap.keys g := by
        intro hk; have := hn.1 k hk; omega
      subst h1
      simp [this]; ring
    · by_cases h2 : k ∈ GMap.keys g
      · rw [if_pos h2, if_pos (List.mem_cons_of_mem _ h2), if_neg h1]; ring
      · have h3 : k ∉ e.1 :: GMap.keys g := by
          simp only [List.mem_cons]; push Not; exact ⟨fun h => h1 h.symm, h2⟩
        rw [if_neg h2, if_neg h3, if_neg h1]; ring

theorem foldl_bump_keys {α} (key : α → Nat) (val : α → ℚ) (l : List α) (g : GMap) :
    (l.foldl (fun g p => GMap.bump (key p) (val p) g) g).keys = g.keys := by
  induction l generalizing g with
  | nil => rfl
  | cons e l ih => simp only [List.foldl_cons, ih, keys_bump]

theorem foldl_bump_lin {α} (key : α → Nat) (val : α → ℚ) (l : List α) (g : GMap) (w : Nat → ℚ) :
    (l.foldl (fun g p => GMap.bump (key p) (val p) g) g).lin w = g.lin w := by
  induction l generalizing g with
  | nil => rfl
  | cons e l ih => simp only [List.foldl_cons, ih, lin_bump]

theorem foldl_bump_acc {α} (key : α → Nat) (val : α → ℚ) (l : List α) (g : GMap) (w : Nat → ℚ)
    (hn : g.keys.Pairwise (· < ·)) (hk : ∀ p ∈ l, key p ∈ g.keys) :
    (l.foldl (fun g p => GMap.bump (key p) (val p) g) g).acc w
      = g.acc w + (l.map (fun p => val p * w (key p))).sum := by
  induction l generalizing g with
  | nil => simp
  | cons e l ih =>
    simp only [List.mem_cons, forall_eq_or_imp] at hk
    simp only [List.foldl_cons]
    rw [ih _ (by rw [keys_bump]; exact hn) (by rw [keys_bump]; exact hk.2), acc_bump _ _ _ _ hn,
      if_pos hk.1]
    simp; ring

theorem keys_zero (g : GMap) : (GMap.zero g).keys = g.keys := by
  simp [GMap.keys, GMap.zero, Function.comp_def]
theorem acc_zero (g : GMap) (w) : (GMap.zero g).acc w = 0 := by
  induction g with
  | nil => rfl
  | cons e g ih =>
    simp only [GMap.acc, GMap.zero, List.map_cons, List.sum_cons] at ih ⊢
    rw [ih]; simp
theorem lin_zero (g : GMap) (w) : (GMap.zero g).lin w = g.lin w := by
  simp [GMap.lin, GMap.zero, Function.comp_def]

/-! ### segments of a sorted list -/

theorem scan_sum (key : Ent → Nat) (f : Ent → ℚ) (w : Nat → ℚ) (full pre es : List Ent) (b : Nat)
    (hfull : full = pre ++ es) (hs : es.Pairwise (fun a b => key a ≤ key b)) (hb : ∀ e ∈ es, b ≤ key e) :
    ((nonEmptyScan key es pre.length b).map (fun p =>
        (((full.drop p.2).takeWhile (fun e => p.1 = key e)).map f).sum * w p.1)).sum
      + ((es.takeWhile (fun e => b = key e)).map f).sum * w b
      = (es.map (fun e => f e * w (key e))).sum := by
  induction es generalizing pre b with
  | nil => simp [nonEmptyScan]
  | cons e es ih =>
    simp only [List.pairwise_cons] at hs
    simp only [List.mem_cons, forall_eq_or_imp] at hb
    have hpre : full = (pre ++ [e]) ++ es := by simp [hfull]
    have hlen : (pre ++ [e]).length = pre.length + 1 := by simp
    unfold nonEmptyScan
    split_ifs with h
    · have hne : ¬ b = key e := by omega
      have := ih (pre ++ [e]) (key e) hpre hs.2 hs.1
      rw [hlen] at this
      simp only [List.map_cons, List.sum_cons]
      rw [← this]
      have hd : full.drop pre.length = e :: es := by rw [hfull]; simp
      simp [hd, hne]
      ring
    · have he : b = key e := by omega
      have := ih (pre ++ [e]) b hpre hs.2 hb.2
      rw [hlen] at this
      simp only [List.map_cons, List.sum_cons]
      rw [← this]
      simp [he]
      ring

theorem nonEmpty_sum (key : Ent → Nat) (f : Ent → ℚ) (w : Nat → ℚ) (rs : List Ent)
    (hs : rs.Pairwise (fun a b => key a ≤ key b)) :
    ((nonEmpty key rs).map (fun p =>
        (((rs.drop p.2).takeWhile (fun e => p.1 = key e)).map f).sum * w p.1)).sum
      = (rs.map (fun e => f e * w (key e))).sum := by
  cases rs with
  | nil => simp [nonEmpty]
  | cons e es =>
    simp only [List.pairwise_cons] at hs
    have := scan_sum key f w (e :: es) [e] es (key e) (by simp) hs.2 hs.1
    simp only [List.length_singleton] at this
    simp only [nonEmpty, List.map_cons, List.sum_cons]
    rw [← this]
    simp; ring

theorem mem_nonEmptyScan (key : Ent → Nat) (es : List Ent) (i b : Nat) (p : Nat × Nat)
    (h : p ∈ nonEmptyScan key es i b) : ∃ e ∈ es, key e = p.1 := by
  induction es generalizing i b with
  | nil => simp [nonEmptyScan] at h
  | cons e es ih =>
    unfold nonEmptyScan at h
    split_ifs at h
    · simp only [List.mem_cons] at h
      rcases h with rfl | h
      · exact ⟨e, by simp, rfl⟩
      · obtain ⟨e', h1, h2⟩ := ih _ _ h; exact ⟨e', by simp [h1], h2⟩
    · obtain ⟨e', h1, h2⟩ := ih _ _ h; exact ⟨e', by simp [h1], h2⟩

theorem keys_nonEmptyScan (key : Ent → Nat) (es : List Ent) (i b : Nat)
    (hs : es.Pairwise (fun a b => key a ≤ key b)) (hb : ∀ e ∈ es, b ≤ key e) :
    ∀ e ∈ es, key e = b ∨ key e ∈ (nonEmptyScan key es i b).map (·.1) := by
  induction es generalizing i b with
  | nil => simp
  | cons e es ih =>
    simp only [List.pairwise_cons] at hs
    simp only [List.mem_cons, forall_eq_or_imp] at hb
    intro e' he'
    unfold nonEmptyScan
    simp only [List.mem_cons] at he'
    split_ifs with h
    · simp only [List.map_cons, List.mem_cons]
      rcases he' with rfl | he'
      · tauto
      · rcases ih (i+1) (key e) hs.2 hs.1 e' he' with h | h <;> tauto
    · rcases he' with rfl | he'
      · left; omega
      · exact ih (i+1) b hs.2 hb.2 e' he'

theorem keys_nonEmpty (key : Ent → Nat) (rs : List Ent) (hs : rs.Pairwise (fun a b => key a ≤ key b)) (j : Nat) :
    j ∈ (nonEmpty key rs).map (·.1) ↔ ∃ e ∈ rs, key e = j := by
  cases rs with
  | nil => simp [nonEmpty]
  | cons e es =>
    simp only [List.pairwise_cons] at hs
    simp only [nonEmpty, List.map_cons, List.mem_cons]
    constructor
    · rintro (rfl | h)
      · exact ⟨e, by simp, rfl⟩
      · obtain ⟨p, hp, rfl⟩ := List.mem_map.1 h
        obtain ⟨e', h1, h2⟩ := mem_nonEmptyScan _ _ _ _ _ hp
        exact ⟨e', by simp [h1], h2⟩
    · rintro ⟨e', (rfl | h), rfl⟩
      · tauto
      · rcases keys_nonEmptyScan key es 1 (key e) hs.2 hs.1 e' h with h | h <;> tauto

/-! ### orderings -/

theorem gather_range_aux (es : List Ent) (ord : List Nat) (h : ∀ k ∈ ord, k < es.length) :
    ∃ rs, gather ord es = some rs ∧ rs.map some = ord.map (fun k => es[k]?) := by
  induction ord with
  | nil => exact ⟨[], rfl, rfl⟩
  | cons k ord ih =>
    simp only [List.mem_cons, forall_eq_or_imp] at h
    obtain ⟨rs, h1, h2⟩ := ih h.2
    refine ⟨es[k]'h.1 :: rs, ?_, ?_⟩
    · unfold gather at h1 ⊢
      simp [List.mapM_cons, h1, List.getElem?_eq_getElem h.1]
    · simp [h2, List.getElem?_eq_getElem h.1]

theorem gather_perm (es : List Ent) (ord : List Nat) (h : ord.Perm (List.range es.length)) :
    ∃ rs, gather ord es = some rs ∧ rs.Perm es := by
  obtain ⟨rs, h1, h2⟩ := gather_range_aux es ord (fun k hk => by simpa using (h.mem_iff.1 hk))
  refine ⟨rs, h1, ?_⟩
  have h3 : (rs.map some).Perm (es.map some) := by
    rw [h2]
    refine (h.map _).trans (List.Perm.of_eq ?_)
    apply List.ext_getElem
    · simp
    · intro n h4 h5
      simp at h4 h5
      simp [h5]
  have := h3.filterMap id
  simpa [List.filterMap_map] using this

theorem gather_row_sorted {es : List Ent} {ord : List Nat} (h : IsOrdering rowLt es ord) :
    ∃ rs, gather ord es = some rs ∧ rs.Perm es ∧ rs.Pairwise (fun a b => a.row ≤ b.row) := by
  obtain ⟨rs, h1, h2⟩ := gather_perm es ord h.1
  refine ⟨rs, h1, h2, (h.2 rs h1).imp ?_⟩
  intro a b hab
  unfold rowLt at hab
  split_ifs at hab with h3 h4
  omega

theorem gather_col_sorted {es : List Ent} {ord : List Nat} (h : IsOrdering colLt es ord) :
    ∃ rs, gather ord es = some rs ∧ rs.Perm es ∧ rs.Pairwise (fun a b => a.col ≤ b.col) := by
  obtain ⟨rs, h1, h2⟩ := gather_perm es ord h.1
  refine ⟨rs, h1, h2, (h.2 rs h1).imp ?_⟩
  intro a b hab
  unfold colLt at hab
  split_ifs at hab with h3 h4
  omega

/-- Everything later proofs need about an initialised row. -/
structure QRow.WF (r : QRow) : Prop where
  rperm : r.rs.Perm r.q
  cperm : r.cs.Perm r.q
  rsort : r.rs.Pairwise (fun a b => a.row ≤ b.row)
  csort : r.cs.Pairwise (fun a b => a.col ≤ b.col)
  gsort : r.g.keys.Pairwise (· < ·)
  gkeys : ∀ j, j ∈ r.g.keys ↔ (j ∈ r.a.map (·.1) ∨ (∃ e ∈ r.q, e.row = j) ∨ ∃ e ∈ r.q, e.col = j)
  glin : (r.a.map (·.1)).Nodup → ∀ w, r.g.lin w = linForm r.a w

theorem initialize_wf {c a q ro co} (hu : ∀ e ∈ q, e.row ≤ e.col)
    (hr : IsOrdering rowLt q ro) (hc : IsOrdering colLt q co) :
    ∃ r, QRow.initialize c a q ro co = some r ∧ r.c = c ∧ r.a = a ∧ r.q = q ∧ r.WF := by
  obtain ⟨rs, r1, r2, r3⟩ := gather_row_sorted hr
  obtain ⟨cs, c1, c2, c3⟩ := gather_col_sorted hc
  have hall : q.all (fun e => e.row ≤ e.col) = true := by simpa using hu
  refine ⟨_, by unfold QRow.initialize; rw [if_pos hall, r1, c1]; rfl, rfl, rfl, rfl, ?_⟩
  have s1 := sorted_foldl_insert (α := Nat × ℚ) (·.1) (·.2) a [] (by simp [GMap.keys])
  have s2 := sorted_foldl_insert (α := Nat × Nat) (·.1) (fun _ => 0) (nonEmpty Ent.row rs) _ s1
  have s3 := sorted_foldl_insert (α := Nat × Nat) (·.1) (fun _ => 0) (nonEmpty Ent.col cs) _ s2
  refine ⟨r2, c2, r3, c3, s3, ?_, ?_⟩
  · intro j
    rw [keys_foldl_insert (α := Nat × Nat) (·.1) (fun _ => 0),
      keys_foldl_insert (α := Nat × Nat) (·.1) (fun _ => 0),
      keys_foldl_insert (α := Nat × ℚ) (·.1) (·.2),
      keys_nonEmpty _ _ r3, keys_nonEmpty _ _ c3]
    simp only [GMap.keys, List.map_nil, List.not_mem_nil, or_false]
    constructor
    · rintro (⟨e, he, h⟩ | ⟨e, he, h⟩ | h)
      · exact Or.inr (Or.inr ⟨e, c2.mem_iff.1 he, h⟩)
      · exact Or.inr (Or.inl ⟨e, r2.mem_iff.1 he, h⟩)
      · exact Or.inl h
    · rintro (h | ⟨e, he, h⟩ | ⟨e, he, h⟩)
      · exact Or.inr (Or.inr h)
      · exact Or.inr (Or.inl ⟨e, r2.mem_iff.2 he, h⟩)
      · exact Or.inl ⟨e, c2.mem_iff.2 he, h⟩
  · intro hn w
    rw [lin_foldl_insert_zero (α := Nat × Nat) (·.1) _ _ _ s2, lin_foldl_insert_zero (α := Nat × Nat) (·.1) _ _ _ s1,
      lin_foldl_insert _ _ _ (by simp [GMap.keys]) hn (by simp [GMap.keys])]
    simp [GMap.lin]

theorem eval_keys (r : QRow) (x) : (r.internalEvalGrad x).keys = r.g.keys := by
  unfold QRow.internalEvalGrad
  simp only
  rw [foldl_bump_keys (α := Nat × Nat) (·.1) (fun p => colSeg x r.cs p),
    foldl_bump_keys (α := Nat × Nat) (·.1) (fun p => rowSeg x r.rs p), keys_zero]

theorem eval_lin (r : QRow) (x w) : (r.internalEvalGrad x).lin w = r.g.lin w := by
  unfold QRow.internalEvalGrad
  simp only
  rw [foldl_bump_lin (α := Nat × Nat) (·.1) (fun p => colSeg x r.cs p),
    foldl_bump_lin (α := Nat × Nat) (·.1) (fun p => rowSeg x r.rs p), lin_zero]

/-- The accumulators, weighted by any `w`, give the bilinear form. -/
theorem eval_acc (r : QRow) (h : r.WF) (x w : Nat → ℚ) :
    (r.internalEvalGrad x).acc w = symForm r.q w x := by
  unfold QRow.internalEvalGrad
  simp only
  have k0 : (GMap.zero r.g).keys.Pairwise (· < ·) := by rw [keys_zero]; exact h.gsort
  have hk1 : ∀ p ∈ nonEmpty Ent.row r.rs, p.1 ∈ (GMap.zero r.g).keys := by
    intro p hp
    rw [keys_zero, h.gkeys]
    obtain ⟨e, he, h2⟩ := (keys_nonEmpty _ _ h.rsort p.1).1 (List.mem_map_of_mem hp)
    exact Or.inr (Or.inl ⟨e, h.rperm.mem_iff.1 he, h2⟩)
  have hk2 : ∀ p ∈ nonEmpty Ent.col r.cs, p.1 ∈ (GMap.zero r.g).keys := by
    intro p hp
    rw [keys_zero, h.gkeys]
    obtain ⟨e, he, h2⟩ := (keys_nonEmpty _ _ h.csort p.1).1 (List.mem_map_of_mem hp)
    exact Or.inr (Or.inr ⟨e, h.cperm.mem_iff.1 he, h2⟩)
  rw [foldl_bump_acc (α := Nat × Nat) (·.1) (fun p => colSeg x r.cs p),
    foldl_bump_acc (α := Nat × Nat) (·.1) (fun p => rowSeg x r.rs p) _ _ _ k0 hk1, acc_zero]
  · have e1 := nonEmpty_sum Ent.row (fun e => x e.col * e.val) w r.rs h.rsort
    have e2 := nonEmpty_sum Ent.col (fun e => if e.row ≠ e.col then x e.row * e.val else 0) w r.cs h.csort
    simp only [rowSeg, colSeg]
    rw [e1, e2, (h.rperm.map _).sum_eq, (h.cperm.map _).sum_eq, zero_add, ← List.sum_map_add]
    unfold symForm
    congr 1
    apply List.map_congr_left
    intro e _
    by_cases he : e.row = e.col
    · simp [he]; ring
    · simp [he]; ring
  · rw [foldl_bump_keys (α := Nat × Nat) (·.1) (fun p => rowSeg x r.rs p)]; exact k0
  · rw [foldl_bump_keys (α := Nat × Nat) (·.1) (fun p => rowSeg x r.rs p)]; exact hk2

theorem evalF_eq (r : QRow) (h : r.WF) (x : Nat → ℚ) : r.evalF x = quadFun r.c r.a r.q x := by
  unfold QRow.evalF
  simp only
  rw [foldl_add_eq (fun e : Nat × ℚ × ℚ => e.2.2 * x e.1), foldl_add_eq (fun e : Nat × ℚ => e.2 * x e.1)]
  have := eval_acc r h x x
  unfold GMap.acc at this
  rw [this]; rfl

theorem sparse_grad (r : QRow) (h : r.WF) (hn : (r.a.map (·.1)).Nodup) (x d : Nat → ℚ) :
    sparseDot (r.gradStruct false) (r.evalGrad x) d = linForm r.a d + 2 * symForm r.q d x := by
  have hz : ∀ (g : GMap) (f : (Nat × ℚ × ℚ) → ℚ) , sparseDot g.keys (g.map f) d = (g.map (fun e => f e * d e.1)).sum := by
    intro g f
    simp [sparseDot, GMap.keys, List.zip_map', Function.comp_def]
  have e : r.gradStruct false = (r.internalEvalGrad x).keys := by
    rw [eval_keys]; simp [QRow.gradStruct, GMap.keys]
  rw [e, QRow.evalGrad, hz, ← eval_acc r h x d, ← h.glin hn d, ← eval_lin r x d]
  unfold GMap.lin GMap.acc
  rw [← List.sum_map_mul_left, ← List.sum_map_add]
  congr 1
  apply List.map_congr_left
  intro e _; ring

theorem symForm_comm (q x y) : symForm q x y = symForm q y x := by
  unfold symForm
  congr 1
  apply List.map_congr_left
  intro e _
  split_ifs with h
  · rw [h]; ring
  · ring

theorem symForm_add_left (q x y z) : symForm q (fun i => x i + y i) z = symForm q x z + symForm q y z := by
  unfold symForm
  rw [← List.sum_map_add]
  congr 1
  apply List.map_congr_left
  intro e _
  split_ifs <;> ring

theorem symForm_add_right (q x y z) : symForm q z (fun i => x i + y i) = symForm q z x + symForm q z y := by
  rw [symForm_comm, symForm_add_left, symForm_comm q x, symForm_comm q y]

theorem linForm_add (a x y) : linForm a (fun i => x i + y i) = linForm a x + linForm a y := by
  unfold linForm
  rw [← List.sum_map_add]
  congr 1
  apply List.map_congr_left
  intro e _
  ring

end Verif.Quad

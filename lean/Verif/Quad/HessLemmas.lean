import Verif.Quad.StateLemmas
import Mathlib.Tactic.Ring
namespace Verif.Quad

def hForm (off : Nat) (d : Nat → ℚ) (H : HMap) (vs : List ℚ) : ℚ :=
  (H.map (fun e => vs.getD e.2.1 0 * keyWt off d e.1)).sum

theorem addAt_spec (off : Nat) (d : Nat → ℚ) (H : HMap) (hs : H.keys.Pairwise klt)
    (hnd : (H.map (fun e => e.2.1)).Nodup) (k : Key) (p : Nat × Int) (hk : H.find k = some p)
    (vs : List ℚ) (hi : p.1 < vs.length) (v : ℚ) :
    ∃ vs', addAt vs p.1 v = some vs' ∧ vs'.length = vs.length ∧
      hForm off d H vs' = hForm off d H vs + v * keyWt off d k := by
  refine ⟨vs.set p.1 (vs[p.1] + v), by simp [addAt, hi], by simp, ?_⟩
  have hmem : (k, p) ∈ H := (mem_iff_find H hs k p).2 hk
  unfold hForm
  obtain ⟨l1, l2, rfl⟩ := List.append_of_mem hmem
  simp only [List.map_append, List.map_cons] at hnd ⊢
  have hne : ∀ e ∈ l1 ++ l2, e.2.1 ≠ p.1 := by
    intro e he heq
    rw [List.nodup_append] at hnd
    obtain ⟨_, h2, h3⟩ := hnd
    rw [List.nodup_cons] at h2
    rcases List.mem_append.1 he with h | h
    · exact h3 _ (List.mem_map_of_mem (f := fun e : Key × Nat × Int => e.2.1) h) p.1 (by simp) heq
    · exact h2.1 (heq ▸ List.mem_map_of_mem (f := fun e : Key × Nat × Int => e.2.1) h)
  have hsame : ∀ l : HMap, (∀ e ∈ l, e.2.1 ≠ p.1) →
      l.map (fun e => (vs.set p.1 (vs[p.1] + v)).getD e.2.1 0 * keyWt off d e.1) =
      l.map (fun e => vs.getD e.2.1 0 * keyWt off d e.1) := by
    intro l hl
    apply List.map_congr_left
    intro e he
    have := hl e he
    simp only [List.getD_eq_getElem?_getD, List.getElem?_set_ne this.symm]
  rw [hsame l1 (fun e he => hne e (by simp [he])), hsame l2 (fun e he => hne e (by simp [he]))]
  simp only [List.sum_append, List.sum_cons, List.getD_eq_getElem?_getD]
  simp [hi]
  ring

theorem evalHessian_spec (off : Nat) (d : Nat → ℚ) (H : HMap) (hs : H.keys.Pairwise klt)
    (hnd : (H.map (fun e => e.2.1)).Nodup) (q : List Ent) (hq : ∀ e ∈ q, entKey off e ∈ H.keys)
    (lam : ℚ) (vs : List ℚ) (hi : ∀ e ∈ H, e.2.1 < vs.length) :
    ∃ vs', evalHessian off q H lam vs = some vs' ∧ vs'.length = vs.length ∧
      hForm off d H vs' = hForm off d H vs + lam * 2 * symForm q d d := by
  induction q generalizing vs with
  | nil => exact ⟨vs, rfl, rfl, by simp [symForm]⟩
  | cons e q ih =>
    have hm := hq e (by simp)
    obtain ⟨p, hp⟩ : ∃ p, H.find (entKey off e) = some p := by
      cases hf : H.find (entKey off e) with
      | none => exact absurd hm ((find_none_iff _ _).1 hf)
      | some p => exact ⟨p, rfl⟩
    have hpi := hi _ ((mem_iff_find H hs _ p).2 hp)
    obtain ⟨vs1, h1, h2, h3⟩ := addAt_spec off d H hs hnd _ p hp vs hpi (lam * 2 * e.val)
    obtain ⟨vs2, h4, h5, h6⟩ := ih (fun e he => hq e (by simp [he])) vs1 (by rw [h2]; exact hi)
    refine ⟨vs2, ?_, by omega, ?_⟩
    · unfold evalHessian at h4 ⊢
      rw [List.foldlM_cons, hp]
      simp only [Option.bind_eq_bind, Option.bind_some, h1]
      exact h4
    · rw [h6, h3]
      unfold symForm
      rw [List.map_cons, List.sum_cons]
      have : keyWt off d (entKey off e) = if e.row = e.col then d e.row * d e.col
          else d e.row * d e.col + d e.col * d e.row := by
        unfold keyWt entKey
        simp only [Nat.add_sub_cancel, Nat.add_right_cancel_iff]
        by_cases h : e.row = e.col
        · rw [if_pos h, if_pos h.symm]; ring
        · rw [if_neg h, if_neg (fun e => h e.symm)]; ring
      rw [this]
      split_ifs <;> ring

theorem evalHValues_fold (off : Nat) (d : Nat → ℚ) (H : HMap) (hs : H.keys.Pairwise klt)
    (hnd : (H.map (fun e => e.2.1)).Nodup) (rows : List (List Ent × ℚ))
    (hq : ∀ r ∈ rows, ∀ e ∈ r.1, entKey off e ∈ H.keys) (vs : List ℚ) (hi : ∀ e ∈ H, e.2.1 < vs.length) :
    ∃ vs', rows.foldlM (fun vs r => evalHessian off r.1 H r.2 vs) vs = some vs' ∧ vs'.length = vs.length ∧
      hForm off d H vs' = hForm off d H vs + (rows.map (fun r => r.2 * (2 * symForm r.1 d d))).sum := by
  induction rows generalizing vs with
  | nil => exact ⟨vs, rfl, rfl, by simp⟩
  | cons r rows ih =>
    obtain ⟨vs1, h1, h2, h3⟩ := evalHessian_spec off d H hs hnd r.1 (hq r (by simp)) r.2 vs hi
    obtain ⟨vs2, h4, h5, h6⟩ := ih (fun r' h' => hq r' (by simp [h'])) vs1 (by rw [h2]; exact hi)
    refine ⟨vs2, by simp only [List.foldlM_cons, Option.bind_eq_bind, h1, Option.bind_some]; exact h4, by omega, ?_⟩
    rw [h6, h3]; simp; ring

theorem hForm_init {orig ks H} (h : HInv orig ks H) (off : Nat) (d : Nat → ℚ) (v0 : List ℚ)
    (hl : v0.length = orig.length) (n : Nat) :
    hForm off d H (v0 ++ List.replicate n 0) = tripletForm off d orig v0 := by
  -- split into original and added entries
  have hclass : ∀ e ∈ H, (e.2.2 = -1 ∧ orig[e.2.1]? = some e.1) ∨ (e.2.2 ≠ -1 ∧ orig.length ≤ e.2.1) := by
    intro e he
    have hf := (mem_iff_find H h.sorted e.1 e.2).1 he
    by_cases ho : e.1 ∈ orig
    · obtain ⟨i, hi⟩ := List.mem_iff_getElem?.1 ho
      have := h.orig_find i _ hi
      rw [hf] at this; simp at this
      left; rw [this]; exact ⟨rfl, hi⟩
    · have hk : e.1 ∈ ks := ((h.mem_keys e.1).1 (List.mem_map_of_mem (f := (·.1)) he)).resolve_left ho
      obtain ⟨i, h3, hi⟩ := h.other_some e.1 ho hk
      rw [hf] at hi; simp at hi
      right; rw [hi]; exact ⟨by simp, h3⟩
  set f : Key × Nat × Int → ℚ := fun e => (v0 ++ List.replicate n 0).getD e.2.1 0 * keyWt off d e.1 with hf
  have hperm := List.filter_append_perm (fun e : Key × Nat × Int => decide (e.2.2 = -1)) H
  have hsum := ((hperm.map f).sum_eq).symm
  rw [List.map_append, List.sum_append] at hsum
  have hzero : ((H.filter (fun e => !decide (e.2.2 = -1))).map f).sum = 0 := by
    apply List.sum_eq_zero
    intro x hx
    obtain ⟨e, he, rfl⟩ := List.mem_map.1 hx
    simp only [List.mem_filter, Bool.not_eq_true', decide_eq_false_iff_not] at he
    rcases hclass e he.1 with hh | hh
    · exact absurd hh.1 he.2
    · simp only [hf, List.getD_eq_getElem?_getD]
      rw [List.getElem?_append_right (by omega)]
      rw [List.getElem?_replicate]
      split_ifs <;> simp
  have horig : ((H.filter (fun e => decide (e.2.2 = -1))).map (fun e => (e.1, e.2.1))).Perm orig.zipIdx := by
    have hndH : H.Nodup := List.Nodup.of_map _ (keys_nodup h.sorted)
    have nd1 : ((H.filter (fun e => decide (e.2.2 = -1))).map (fun e => (e.1, e.2.1))).Nodup := by
      have : (((H.filter (fun e => decide (e.2.2 = -1))).map (fun e => (e.1, e.2.1))).map (·.1)).Nodup := by
        rw [List.map_map]
        have hk := keys_nodup h.sorted
        unfold HMap.keys at hk
        exact hk.sublist (List.filter_sublist.map _)
      exact List.Nodup.of_map _ this
    have nd2 : orig.zipIdx.Nodup := by
      have : (orig.zipIdx.map (·.1)).Nodup := by rw [List.zipIdx_map_fst]; exact h.orig_nodup
      exact List.Nodup.of_map _ this
    rw [List.perm_ext_iff_of_nodup nd1 nd2]
    rintro ⟨k, i⟩
    rw [List.mem_zipIdx_iff_getElem?]
    simp only [List.mem_map, List.mem_filter, decide_eq_true_eq, Prod.mk.injEq]
    constructor
    · rintro ⟨e, ⟨he, hc⟩, rfl, rfl⟩
      rcases hclass e he with hh | hh
      · exact hh.2
      · exact absurd hc hh.1
    · intro hg
      have := h.orig_find i k hg
      exact ⟨(k, i, -1), ⟨(mem_iff_find H h.sorted _ _).2 this, rfl⟩, rfl, rfl⟩
  have hsum2 := ((horig.map (fun p => (v0 ++ List.replicate n 0).getD p.2 0 * keyWt off d p.1)).sum_eq)
  rw [List.map_map] at hsum2
  show (H.map f).sum = _
  rw [hsum, hzero, add_zero]
  refine Eq.trans ?_ (hsum2.trans ?_)
  · rfl
  · unfold tripletForm
    congr 1
    apply List.ext_getElem
    · simp [hl]
    · intro j h1 h2
      simp at h1
      simp [List.getD_eq_getElem?_getD, List.getElem?_append_left (show j < v0.length by omega), hl, h1]

theorem applyWrites_getElem? (n : Nat) (ws : List (Nat × Key)) (hnd : (ws.map (·.1)).Nodup)
    (hlt : ∀ w ∈ ws, w.1 < n) :
    (applyWrites n ws).length = n ∧ ∀ w ∈ ws, (applyWrites n ws)[w.1]? = some (some w.2) := by
  unfold applyWrites
  have gen : ∀ (ws : List (Nat × Key)) (arr : List (Option Key)), (ws.map (·.1)).Nodup →
      (∀ w ∈ ws, w.1 < arr.length) →
      (ws.foldl (fun arr w => arr.set w.1 (some w.2)) arr).length = arr.length ∧
      (∀ i, i ∉ ws.map (·.1) → (ws.foldl (fun arr w => arr.set w.1 (some w.2)) arr)[i]? = arr[i]?) ∧
      ∀ w ∈ ws, (ws.foldl (fun arr w => arr.set w.1 (some w.2)) arr)[w.1]? = some (some w.2) := by
    intro ws
    induction ws with
    | nil => intro arr _ _; simp
    | cons w ws ih =>
      intro arr hnd hlt
      simp only [List.map_cons, List.nodup_cons] at hnd
      obtain ⟨h1, h2, h3⟩ := ih (arr.set w.1 (some w.2)) hnd.2 (fun w' h' => by simpa using hlt w' (by simp [h']))
      refine ⟨by simpa using h1, ?_, ?_⟩
      · intro i hi
        simp only [List.map_cons, List.mem_cons, not_or] at hi
        rw [List.foldl_cons, h2 i hi.2, List.getElem?_set_ne (fun e => hi.1 e.symm)]
      · intro w' hw'
        rw [List.foldl_cons]
        rcases List.mem_cons.1 hw' with rfl | hw'
        · rw [h2 _ hnd.1]; simp [hlt w' (by simp)]
        · exact h3 w' hw'
  obtain ⟨h1, _, h3⟩ := gen ws (List.replicate n none) hnd (by simpa using hlt)
  exact ⟨by simpa using h1, h3⟩

/-- The structure arrays are completely written and reading the triplets gives the map form. -/
theorem structure_reads (H : HMap) (n : Nat) (hlen : H.length = n)
    (hp : ((H.map (fun e => (e.2.1, e.1))).map (·.1)).Perm (List.range n)) :
    ∃ ks : List Key, ks.length = n ∧ applyWrites n (H.map (fun e => (e.2.1, e.1))) = ks.map some ∧
      (∀ k, k ∈ ks ↔ k ∈ H.keys) ∧
      ∀ off d vs, vs.length = n → tripletForm off d ks vs = hForm off d H vs := by
  set ws := H.map (fun e => (e.2.1, e.1)) with hws
  have hnd : (ws.map (·.1)).Nodup := hp.nodup_iff.2 List.nodup_range
  have hlt : ∀ w ∈ ws, w.1 < n := by
    intro w hw
    have := hp.mem_iff.1 (List.mem_map_of_mem (f := (·.1)) hw)
    simpa using this
  obtain ⟨h1, h2⟩ := applyWrites_getElem? n ws hnd hlt
  set arr := applyWrites n ws
  have hall : ∀ i (hi : i < n), ∃ k, (i, k) ∈ ws := by
    intro i hi
    have := hp.mem_iff.2 (List.mem_range.2 hi)
    obtain ⟨w, hw, rfl⟩ := List.mem_map.1 this
    exact ⟨w.2, hw⟩
  have hks : ∃ ks : List Key, arr = ks.map some := by
    refine ⟨arr.map (fun o => o.getD (0, 0)), ?_⟩
    apply List.ext_getElem
    · simp
    · intro i hi _
      obtain ⟨k, hk⟩ := hall i (by omega)
      have := h2 _ hk
      rw [List.getElem?_eq_getElem hi] at this
      simp only [Option.some.injEq] at this
      simp [this]
  obtain ⟨ks, hks⟩ := hks
  have hl : ks.length = n := by have := congrArg List.length hks; simp at this; omega
  have hget : ∀ w ∈ ws, ks[w.1]? = some w.2 := by
    intro w hw
    have := h2 w hw
    rw [hks, List.getElem?_map] at this
    obtain ⟨k, hk, he⟩ := Option.map_eq_some_iff.1 this
    simp at he; rw [hk, he]
  refine ⟨ks, hl, hks, ?_, ?_⟩
  · intro k
    constructor
    · intro hk
      obtain ⟨i, hi⟩ := List.mem_iff_getElem?.1 hk
      obtain ⟨k', hk'⟩ := hall i (by have := (List.getElem?_eq_some_iff.1 hi).1; omega)
      have := hget _ hk'
      simp only at this
      rw [hi] at this; simp at this; subst this
      obtain ⟨e, he, hee⟩ := List.mem_map.1 hk'
      simp at hee
      unfold HMap.keys
      exact List.mem_map.2 ⟨e, he, hee.2⟩
    · intro hk
      unfold HMap.keys at hk
      obtain ⟨e, he, rfl⟩ := List.mem_map.1 hk
      exact List.mem_iff_getElem?.2 ⟨e.2.1, hget (e.2.1, e.1) (List.mem_map_of_mem (f := fun e : Key × Nat × Int => (e.2.1, e.1)) he)⟩
  · intro off d vs hvs
    have e1 : hForm off d H vs = (ws.map (fun w => vs.getD w.1 0 * keyWt off d (ks.getD w.1 (0, 0)))).sum := by
      unfold hForm
      rw [hws, List.map_map]
      congr 1
      apply List.map_congr_left
      intro e he
      have := hget (e.2.1, e.1) (List.mem_map_of_mem (f := fun e : Key × Nat × Int => (e.2.1, e.1)) he)
      simp only at this
      simp [this]
    have e2 : (ws.map (fun w => vs.getD w.1 0 * keyWt off d (ks.getD w.1 (0, 0)))).sum =
        ((List.range n).map (fun i => vs.getD i 0 * keyWt off d (ks.getD i (0, 0)))).sum := by
      have := (hp.map (fun i => vs.getD i 0 * keyWt off d (ks.getD i (0, 0)))).sum_eq
      rw [← this]
      congr 1
      rw [List.map_map (l := ws)]; rfl
    rw [e1, e2]
    unfold tripletForm
    congr 1
    apply List.ext_getElem
    · simp [hl, hvs]
    · intro i h1 h2
      simp [hl, hvs] at h1
      simp [hvs, hl, h1]

/-- Adding at a position is defined exactly inside the array. -/
theorem addAt_none_iff (vs : List ℚ) (i : Nat) (v : ℚ) : addAt vs i v = none ↔ vs.length ≤ i := by
  unfold addAt
  by_cases h : i < vs.length
  · rw [List.getElem?_eq_getElem h]; simp; omega
  · rw [List.getElem?_eq_none (by omega)]; simp; omega

end Verif.Quad

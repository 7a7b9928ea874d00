import Verif.Quad.HModel
import Verif.Quad.Lemmas
namespace Verif.Quad

theorem klt_irrefl (a : Key) : ¬ klt a a := by unfold klt; omega
theorem klt_trans {a b c : Key} (h : klt a b) (h' : klt b c) : klt a c := by unfold klt at *; omega
theorem klt_of_not {a b : Key} (h : ¬ klt a b) (hne : a ≠ b) : klt b a := by
  unfold klt at *
  rcases a with ⟨a1, a2⟩; rcases b with ⟨b1, b2⟩
  simp only [ne_eq, Prod.mk.injEq] at hne
  simp only at *
  omega
theorem klt_ne {a b : Key} (h : klt a b) : a ≠ b := by rintro rfl; exact klt_irrefl _ h

def HMap.keys (H : HMap) : List Key := H.map (·.1)

theorem find_none_iff (H : HMap) (k : Key) : H.find k = none ↔ k ∉ H.keys := by
  induction H with
  | nil => simp [HMap.find, HMap.keys]
  | cons e H ih =>
    obtain ⟨k', p⟩ := e
    simp only [HMap.find, HMap.keys, List.map_cons, List.mem_cons] at ih ⊢
    split_ifs with h
    · simp [h]
    · rw [ih]; simp only [not_or]; exact ⟨fun h' => ⟨fun e => h e.symm, h'⟩, fun h' => h'.2⟩

theorem mem_iff_find (H : HMap) (hs : H.keys.Pairwise klt) (k : Key) (p : Nat × Int) :
    (k, p) ∈ H ↔ H.find k = some p := by
  induction H with
  | nil => simp [HMap.find]
  | cons e H ih =>
    obtain ⟨k', p'⟩ := e
    simp only [HMap.keys, List.map_cons, List.pairwise_cons] at hs
    simp only [HMap.find, List.mem_cons, Prod.mk.injEq]
    split_ifs with h
    · subst h
      constructor
      · rintro (⟨_, rfl⟩ | h)
        · rfl
        · exact absurd (hs.1 k' (List.mem_map_of_mem (f := (·.1)) h)) (klt_irrefl _)
      · intro h; left; simp at h; exact ⟨rfl, h.symm⟩
    · rw [← ih hs.2]
      constructor
      · rintro (⟨rfl, _⟩ | h')
        · exact absurd rfl h
        · exact h'
      · exact Or.inr

theorem find_insert (H : HMap) (k : Key) (p : Nat × Int) (hk : k ∉ H.keys) (j : Key) :
    (HMap.insert k p H).find j = if k = j then some p else H.find j := by
  induction H with
  | nil => simp [HMap.insert, HMap.find]
  | cons e H ih =>
    obtain ⟨k', p'⟩ := e
    simp only [HMap.keys, List.map_cons, List.mem_cons, not_or] at hk
    unfold HMap.insert
    split_ifs with h1 h2 h2
    · simp [HMap.find, h2]
    · simp [HMap.find, h2]
    · have := ih hk.2
      simp only [HMap.find, this, if_pos h2]
      rw [if_neg]; rintro rfl; exact hk.1 h2
    · have := ih hk.2
      simp only [HMap.find, this, if_neg h2]

theorem mem_keys_hinsert (H : HMap) (k : Key) (p : Nat × Int) (j : Key) :
    j ∈ (HMap.insert k p H).keys ↔ j = k ∨ j ∈ H.keys := by
  induction H with
  | nil => simp [HMap.insert, HMap.keys]
  | cons e H ih =>
    obtain ⟨k', p'⟩ := e
    unfold HMap.insert
    split_ifs with h1
    · simp [HMap.keys]
    · simp only [HMap.keys, List.map_cons, List.mem_cons] at ih ⊢
      rw [ih]; tauto

theorem sorted_hinsert (H : HMap) (k : Key) (p : Nat × Int) (hk : k ∉ H.keys) (hs : H.keys.Pairwise klt) :
    (HMap.insert k p H).keys.Pairwise klt := by
  induction H with
  | nil => simp [HMap.insert, HMap.keys]
  | cons e H ih =>
    obtain ⟨k', p'⟩ := e
    simp only [HMap.keys, List.map_cons, List.mem_cons, not_or] at hk
    simp only [HMap.keys, List.map_cons, List.pairwise_cons] at hs
    unfold HMap.insert
    split_ifs with h1
    · simp only [HMap.keys, List.map_cons, List.pairwise_cons, List.mem_cons]
      refine ⟨?_, hs⟩
      rintro j (rfl | hj)
      · exact h1
      · exact klt_trans h1 (hs.1 j hj)
    · have hih := ih hk.2 hs.2
      simp only [HMap.keys, List.map_cons, List.pairwise_cons]
      refine ⟨fun j hj => ?_, hih⟩
      rcases (mem_keys_hinsert H k p j).1 hj with rfl | hj
      · exact klt_of_not h1 hk.1
      · exact hs.1 j hj

theorem length_hinsert (H : HMap) (k : Key) (p : Nat × Int) : (HMap.insert k p H).length = H.length + 1 := by
  induction H with
  | nil => rfl
  | cons e H ih =>
    obtain ⟨k', p'⟩ := e
    unfold HMap.insert
    split_ifs <;> simp [ih]

theorem keys_upd (H : HMap) (k : Key) (p : Nat × Int) : (H.upd k p).keys = H.keys := by
  simp only [HMap.keys, HMap.upd, List.map_map]
  apply List.map_congr_left
  intro e _; simp only [Function.comp]; split_ifs <;> rfl

theorem find_upd (H : HMap) (k : Key) (p : Nat × Int) (j : Key) :
    (H.upd k p).find j = if k = j ∧ k ∈ H.keys then some p else H.find j := by
  induction H with
  | nil => simp [HMap.upd, HMap.find, HMap.keys]
  | cons e H ih =>
    obtain ⟨k', p'⟩ := e
    have hu : HMap.upd k p ((k', p') :: H) = (if k' = k then (k', p) else (k', p')) :: HMap.upd k p H := rfl
    have hkk : HMap.keys ((k', p') :: H) = k' :: HMap.keys H := rfl
    rw [hu, hkk]
    by_cases h1 : k' = k
    · subst h1
      by_cases h2 : k' = j
      · subst h2; simp [HMap.find]
      · simp only [if_true, HMap.find, h2, if_false, ih, false_and]
    · have h1' : ¬ k = k' := fun h => h1 h.symm
      simp only [if_neg h1, HMap.find]
      by_cases h2 : k' = j
      · have : ¬ k = j := fun h => h1 (h2.trans h.symm)
        simp [h2, this]
      · rw [if_neg h2, if_neg h2, ih]
        simp [List.mem_cons, h1']

theorem find_erase (H : HMap) (k j : Key) : (H.erase k).find j = if k = j then none else H.find j := by
  induction H with
  | nil => simp [HMap.erase, HMap.find]
  | cons e H ih =>
    obtain ⟨k', p'⟩ := e
    by_cases h1 : k' = k
    · subst h1
      have : HMap.erase k' ((k', p') :: H) = HMap.erase k' H := by simp [HMap.erase]
      rw [this, ih]
      split_ifs with h
      · rfl
      · simp [HMap.find, h]
    · have : HMap.erase k ((k', p') :: H) = (k', p') :: HMap.erase k H := by simp [HMap.erase, h1]
      rw [this]
      simp only [HMap.find, ih]
      by_cases h2 : k' = j
      · have : ¬ k = j := fun h => h1 (h2.trans h.symm)
        simp [h2, this]
      · simp [h2]

theorem sorted_erase (H : HMap) (k : Key) (hs : H.keys.Pairwise klt) : (H.erase k).keys.Pairwise klt := by
  unfold HMap.keys HMap.erase
  exact hs.sublist (List.filter_sublist.map _)

/-- Spec-level description of the Hessian map: `orig` is the structure of the original problem and `ks` lists (with
multiplicity) the positions needed by the live rows. -/
structure HInv (orig ks : List Key) (H : HMap) : Prop where
  sorted : H.keys.Pairwise klt
  orig_find : ∀ i k, orig[i]? = some k → H.find k = some (i, -1)
  other_none : ∀ k, k ∉ orig → k ∉ ks → H.find k = none
  other_some : ∀ k, k ∉ orig → k ∈ ks → ∃ i, orig.length ≤ i ∧ H.find k = some (i, (ks.count k : Int))

theorem HInv.perm {orig ks ks' H} (h : HInv orig ks H) (hp : ks.Perm ks') : HInv orig ks' H := by
  refine ⟨h.sorted, h.orig_find, ?_, ?_⟩
  · intro k h1 h2; exact h.other_none k h1 (fun hh => h2 (hp.mem_iff.1 hh))
  · intro k h1 h2
    obtain ⟨i, h3, h4⟩ := h.other_some k h1 (hp.mem_iff.2 h2)
    exact ⟨i, h3, by rw [h4, hp.count_eq]⟩

theorem HInv.mem_keys {orig ks H} (h : HInv orig ks H) (k : Key) : k ∈ H.keys ↔ k ∈ orig ∨ k ∈ ks := by
  have hn := find_none_iff H k
  constructor
  · intro hk
    by_contra hc
    simp only [not_or] at hc
    exact hn.1 (h.other_none k hc.1 hc.2) hk
  · intro hk
    by_contra hc
    have h0 := hn.2 hc
    by_cases ho : k ∈ orig
    · obtain ⟨i, hi⟩ := List.mem_iff_getElem?.1 ho
      rw [h.orig_find i k hi] at h0; simp at h0
    · obtain ⟨i, _, hi⟩ := h.other_some k ho (hk.resolve_left ho)
      rw [hi] at h0; simp at h0

theorem keys_nodup {H : HMap} (hs : H.keys.Pairwise klt) : H.keys.Nodup := hs.imp (fun h => klt_ne h)

theorem HInv.orig_nodup {orig ks H} (h : HInv orig ks H) : orig.Nodup := by
  rw [List.nodup_iff_getElem?_ne_getElem?]
  intro i j hij hj he
  obtain ⟨k, hk⟩ : ∃ k, orig[j]? = some k := ⟨orig[j], by simp⟩
  have h1 := h.orig_find j k hk
  have h2 := h.orig_find i k (he.trans hk)
  rw [h1] at h2
  simp at h2
  omega

theorem HInv.orig_le {orig ks H} (h : HInv orig ks H) : orig.length ≤ H.length := by
  have : orig ⊆ H.keys := fun k hk => (h.mem_keys k).2 (Or.inl hk)
  have := (List.subperm_of_subset h.orig_nodup this).length_le
  simpa [HMap.keys] using this

theorem HInv.addKey {orig ks H} (h : HInv orig ks H) (k : Key) : HInv orig (k :: ks) (H.addKey k) := by
  by_cases ho : k ∈ orig
  · obtain ⟨i, hi⟩ := List.mem_iff_getElem?.1 ho
    have hf := h.orig_find i k hi
    have : H.addKey k = H := by simp [HMap.addKey, hf]
    rw [this]
    refine ⟨h.sorted, h.orig_find, ?_, ?_⟩
    · intro j h1 h2; simp only [List.mem_cons, not_or] at h2; exact h.other_none j h1 h2.2
    · intro j h1 h2
      have hjk : j ≠ k := by rintro rfl; exact h1 ho
      obtain ⟨i', h3, h4⟩ := h.other_some j h1 (by simpa [hjk] using h2)
      exact ⟨i', h3, by rw [h4]; simp [hjk.symm]⟩
  · by_cases hk : k ∈ ks
    · obtain ⟨i, hi, hf⟩ := h.other_some k ho hk
      have hc : (ks.count k : Int) ≠ -1 := by omega
      have he : H.addKey k = H.upd k (i, (ks.count k : Int) + 1) := by simp [HMap.addKey, hf, hc]
      have hmem : k ∈ H.keys := (h.mem_keys k).2 (Or.inr hk)
      rw [he]
      refine ⟨by rw [keys_upd]; exact h.sorted, ?_, ?_, ?_⟩
      · intro i' j hj
        have : k ≠ j := by rintro rfl; exact ho (List.mem_iff_getElem?.2 ⟨_, hj⟩)
        rw [find_upd, if_neg (by tauto)]; exact h.orig_find i' j hj
      · intro j h1 h2
        simp only [List.mem_cons, not_or] at h2
        rw [find_upd, if_neg (fun hh => h2.1 hh.1.symm)]; exact h.other_none j h1 h2.2
      · intro j h1 h2
        rw [find_upd]
        by_cases hjk : k = j
        · subst hjk
          exact ⟨i, hi, by rw [if_pos ⟨rfl, hmem⟩]; simp⟩
        · rw [if_neg (by tauto)]
          have hjk' : j ≠ k := fun e => hjk e.symm
          obtain ⟨i', h3, h4⟩ := h.other_some j h1 (by simpa [hjk'] using h2)
          exact ⟨i', h3, by rw [h4]; simp [hjk]⟩
    · have hf := h.other_none k ho hk
      have hmem : k ∉ H.keys := (find_none_iff H k).1 hf
      have he : H.addKey k = H.insert k (H.length, 1) := by simp [HMap.addKey, hf]
      rw [he]
      refine ⟨sorted_hinsert _ _ _ hmem h.sorted, ?_, ?_, ?_⟩
      · intro i' j hj
        have : k ≠ j := by rintro rfl; exact ho (List.mem_iff_getElem?.2 ⟨_, hj⟩)
        rw [find_insert _ _ _ hmem, if_neg this]; exact h.orig_find i' j hj
      · intro j h1 h2
        simp only [List.mem_cons, not_or] at h2
        rw [find_insert _ _ _ hmem, if_neg (fun hh => h2.1 hh.symm)]; exact h.other_none j h1 h2.2
      · intro j h1 h2
        rw [find_insert _ _ _ hmem]
        by_cases hjk : k = j
        · subst hjk
          refine ⟨H.length, h.orig_le, ?_⟩
          rw [if_pos rfl]
          have : ks.count k = 0 := List.count_eq_zero.2 hk
          simp [this]
        · rw [if_neg hjk]
          have hjk' : j ≠ k := fun e => hjk e.symm
          obtain ⟨i', h3, h4⟩ := h.other_some j h1 (by simpa [hjk'] using h2)
          exact ⟨i', h3, by rw [h4]; simp [hjk]⟩

theorem HInv.addKeys {orig ks H} (h : HInv orig ks H) (l : List Key) :
    HInv orig (l ++ ks) (l.foldl HMap.addKey H) := by
  induction l generalizing ks H with
  | nil => simpa
  | cons k l ih =>
    have := ih (h.addKey k)
    exact this.perm (by simp)

theorem HInv.removeKey {orig ks H} (k : Key) (h : HInv orig (k :: ks) H) :
    ∃ H', H.removeKey k = some H' ∧ HInv orig ks H' := by
  have hmem : k ∈ H.keys := (h.mem_keys k).2 (Or.inr (by simp))
  by_cases ho : k ∈ orig
  · obtain ⟨i, hi⟩ := List.mem_iff_getElem?.1 ho
    have hf := h.orig_find i k hi
    refine ⟨H.upd k (i, -1), by simp [HMap.removeKey, hf], by rw [keys_upd]; exact h.sorted, ?_, ?_, ?_⟩
    · intro i' j hj
      rw [find_upd]
      split_ifs with hh
      · obtain ⟨rfl, _⟩ := hh
        rw [← h.orig_find i' _ hj]; exact hf.symm
      · exact h.orig_find i' j hj
    · intro j h1 h2
      have hjk : k ≠ j := by rintro rfl; exact h1 ho
      rw [find_upd, if_neg (by tauto)]
      exact h.other_none j h1 (by simp [h2, hjk.symm])
    · intro j h1 h2
      have hjk : k ≠ j := by rintro rfl; exact h1 ho
      rw [find_upd, if_neg (by tauto)]
      obtain ⟨i', h3, h4⟩ := h.other_some j h1 (by simp [h2])
      exact ⟨i', h3, by rw [h4]; simp [hjk]⟩
  · obtain ⟨i, hi, hf⟩ := h.other_some k ho (by simp)
    rw [List.count_cons_self] at hf
    have hcne : ((ks.count k + 1 : Nat) : Int) ≠ -1 := by omega
    by_cases hk : k ∈ ks
    · have hpos : 0 < ks.count k := List.count_pos_iff.2 hk
      have hz : ¬ ((ks.count k + 1 : Nat) : Int) - 1 = 0 := by omega
      refine ⟨H.upd k (i, ((ks.count k + 1 : Nat) : Int) - 1), ?_, by rw [keys_upd]; exact h.sorted, ?_, ?_, ?_⟩
      · simp only [HMap.removeKey, hf, if_pos hcne, if_neg hz]
      · intro i' j hj
        have : k ≠ j := by rintro rfl; exact ho (List.mem_iff_getElem?.2 ⟨_, hj⟩)
        rw [find_upd, if_neg (by tauto)]; exact h.orig_find i' j hj
      · intro j h1 h2
        have hjk : k ≠ j := by rintro rfl; exact h2 hk
        rw [find_upd, if_neg (by tauto)]
        exact h.other_none j h1 (by simp [h2, hjk.symm])
      · intro j h1 h2
        rw [find_upd]
        by_cases hjk : k = j
        · subst hjk
          exact ⟨i, hi, by rw [if_pos ⟨rfl, hmem⟩]; simp⟩
        · rw [if_neg (by tauto)]
          obtain ⟨i', h3, h4⟩ := h.other_some j h1 (by simp [h2])
          exact ⟨i', h3, by rw [h4]; simp [hjk]⟩
    · have hz0 : ks.count k = 0 := List.count_eq_zero.2 hk
      have hz : ((ks.count k + 1 : Nat) : Int) - 1 = 0 := by omega
      refine ⟨H.erase k, ?_, sorted_erase _ _ h.sorted, ?_, ?_, ?_⟩
      · simp only [HMap.removeKey, hf, if_pos hcne, if_pos hz]
      · intro i' j hj
        have : k ≠ j := by rintro rfl; exact ho (List.mem_iff_getElem?.2 ⟨_, hj⟩)
        rw [find_erase, if_neg this]; exact h.orig_find i' j hj
      · intro j h1 h2
        rw [find_erase]
        split_ifs with hjk
        · rfl
        · exact h.other_none j h1 (by simp only [List.mem_cons, not_or]; exact ⟨fun e => hjk e.symm, h2⟩)
      · intro j h1 h2
        have hjk : k ≠ j := by rintro rfl; exact hk h2
        rw [find_erase, if_neg hjk]
        obtain ⟨i', h3, h4⟩ := h.other_some j h1 (by simp [h2])
        exact ⟨i', h3, by rw [h4]; simp [hjk]⟩

theorem HInv.removeKeys {orig ks H} (l : List Key) (h : HInv orig (l ++ ks) H) :
    ∃ H', l.foldlM HMap.removeKey H = some H' ∧ HInv orig ks H' := by
  induction l generalizing H with
  | nil => exact ⟨H, rfl, h⟩
  | cons k l ih =>
    obtain ⟨H1, h1, h2⟩ := HInv.removeKey k h
    obtain ⟨H2, h3, h4⟩ := ih h2
    exact ⟨H2, by simp [List.foldlM_cons, h1, h3], h4⟩

/-! ### constructor -/

theorem initHFrom_inv (rest done : List Key) (H : HMap) (h : HInv done [] H) (hn : (done ++ rest).Nodup) :
    ∃ H', initHFrom rest done.length H = some H' ∧ HInv (done ++ rest) [] H' := by
  induction rest generalizing done H with
  | nil => exact ⟨H, rfl, by simpa using h⟩
  | cons k rest ih =>
    have hk : k ∉ done := by
      rw [List.nodup_append] at hn
      intro hh; exact hn.2.2 k hh k (by simp) rfl
    have hf := h.other_none k hk (by simp)
    have hmem := (find_none_iff H k).1 hf
    have hI : HInv (done ++ [k]) [] (H.insert k (done.length, -1)) := by
      refine ⟨sorted_hinsert _ _ _ hmem h.sorted, ?_, ?_, by simp⟩
      · intro i j hj
        rw [find_insert _ _ _ hmem]
        by_cases hi : i < done.length
        · rw [List.getElem?_append_left hi] at hj
          have : k ≠ j := by rintro rfl; exact hk (List.mem_iff_getElem?.2 ⟨_, hj⟩)
          rw [if_neg this]; exact h.orig_find i j hj
        · rw [List.getElem?_append_right (by omega)] at hj
          have hi' : i - done.length = 0 := by
            by_contra hc
            rw [List.getElem?_eq_none (by simp; omega)] at hj; simp at hj
          rw [hi'] at hj
          simp at hj
          have : i = done.length := by omega
          rw [if_pos hj, this]
      · intro j h1 _
        simp only [List.mem_append, List.mem_singleton, not_or] at h1
        rw [find_insert _ _ _ hmem, if_neg (fun e => h1.2 e.symm)]
        exact h.other_none j h1.1 (by simp)
    obtain ⟨H', h1, h2⟩ := ih (done ++ [k]) _ hI (by simpa using hn)
    refine ⟨H', ?_, by simpa using h2⟩
    simp only [initHFrom, hf]
    simpa using h1

theorem initH_inv (orig : List Key) (hn : orig.Nodup) : ∃ H, initH orig = some H ∧ HInv orig [] H := by
  have := initHFrom_inv orig [] [] ⟨by simp [HMap.keys], by simp, by simp [HMap.find], by simp⟩ (by simpa using hn)
  simpa [initH] using this

/-! ### structure call -/

theorem structLoop_spec (nOrig : Nat) (H : HMap) (sup : Nat)
    (hH : ∀ e ∈ H, (e.2.2 = -1 ∧ e.2.1 < nOrig) ∨ (e.2.2 > 0 ∧ nOrig ≤ e.2.1)) :
    ∃ H' ws, structLoop nOrig H sup = some (H', ws) ∧ H'.keys = H.keys ∧
      ws = H'.map (fun e => (e.2.1, e.1)) ∧
      (∀ k p, H.find k = some p → p.2 = -1 → H'.find k = some p) ∧
      (∀ k p, H.find k = some p → p.2 ≠ -1 → ∃ i, sup ≤ i ∧ H'.find k = some (i, p.2)) ∧
      (ws.map (·.1)).Perm (((H.filter (fun e => e.2.2 = -1)).map (fun e => e.2.1)) ++
          List.range' sup (H.filter (fun e => ¬ e.2.2 = -1)).length) := by
  induction H generalizing sup with
  | nil => exact ⟨[], [], rfl, rfl, rfl, by simp [HMap.find], by simp [HMap.find], by simp⟩
  | cons e H ih =>
    obtain ⟨k, i, c⟩ := e
    simp only [List.mem_cons, forall_eq_or_imp] at hH
    obtain ⟨h0, hH⟩ := hH
    -- (projections reduce definitionally)
    by_cases hc : c = -1
    · have hi : i < nOrig := by omega
      obtain ⟨H', ws, e1, e2, e3, e4, e5, e6⟩ := ih sup hH
      refine ⟨(k, i, c) :: H', (i, k) :: ws, ?_, ?_, ?_, ?_, ?_, ?_⟩
      · simp [structLoop, hc, hi, e1]
      · have := e2; simp only [HMap.keys] at this ⊢; simp [this]
      · simp [e3]
      · intro k' p
        simp only [HMap.find]
        split_ifs
        · exact fun h _ => h
        · exact e4 k' p
      · intro k' p
        simp only [HMap.find]
        split_ifs
        · intro h hne; simp at h; subst h; exact absurd hc hne
        · exact e5 k' p
      · simp only [List.map_cons, hc, List.filter_cons]
        simp only [decide_true, if_true, List.map_cons, List.cons_append, not_true, decide_false,
          Bool.false_eq_true, if_false]
        exact List.Perm.cons _ e6
    · have hi : c > 0 ∧ i ≥ nOrig := by omega
      obtain ⟨H', ws, e1, e2, e3, e4, e5, e6⟩ := ih (sup + 1) hH
      refine ⟨(k, sup, c) :: H', (sup, k) :: ws, ?_, ?_, ?_, ?_, ?_, ?_⟩
      · simp only [structLoop, if_neg hc, if_pos hi, e1]; rfl
      · have := e2; simp only [HMap.keys] at this ⊢; simp [this]
      · simp [e3]
      · intro k' p
        simp only [HMap.find]
        split_ifs
        · intro h hne; simp at h; subst h; exact absurd hne hc
        · exact e4 k' p
      · intro k' p
        simp only [HMap.find]
        split_ifs
        · intro h _; simp at h; subst h; exact ⟨sup, le_refl _, rfl⟩
        · intro h1 h2
          obtain ⟨i', h3, h4⟩ := e5 k' p h1 h2
          exact ⟨i', by omega, h4⟩
      · simp only [List.map_cons, List.filter_cons, hc]
        simp only [decide_false, Bool.false_eq_true, if_false, not_false_eq_true, decide_true, if_true,
          List.length_cons, List.range'_succ]
        exact (List.Perm.cons _ e6).trans List.perm_middle.symm

theorem orig_idx_perm {orig ks H} (h : HInv orig ks H) :
    ((H.filter (fun e => e.2.2 = -1)).map (fun e => e.2.1)).Perm (List.range orig.length) := by
  -- entries with count -1 are exactly the original ones
  have hmem : ∀ e ∈ H, e.2.2 = -1 → orig[e.2.1]? = some e.1 := by
    intro e he hc
    have hf := (mem_iff_find H h.sorted e.1 e.2).1 he
    by_cases ho : e.1 ∈ orig
    · obtain ⟨i, hi⟩ := List.mem_iff_getElem?.1 ho
      have := h.orig_find i _ hi
      rw [hf] at this; simp at this
      rw [this]; exact hi
    · exfalso
      have hk : e.1 ∈ ks := ((h.mem_keys e.1).1 (List.mem_map_of_mem (f := (·.1)) he)).resolve_left ho
      obtain ⟨i, _, hi⟩ := h.other_some e.1 ho hk
      rw [hf] at hi; simp at hi
      rw [hi] at hc; simp at hc
  have hndH : H.Nodup := List.Nodup.of_map _ (keys_nodup h.sorted)
  have nd1 : ((H.filter (fun e => e.2.2 = -1)).map (fun e => e.2.1)).Nodup := by
    apply List.Nodup.map_on _ (hndH.filter _)
    intro a ha b hb hab
    simp only [List.mem_filter, decide_eq_true_eq] at ha hb
    have h1 := hmem a ha.1 ha.2
    have h2 := hmem b hb.1 hb.2
    rw [hab, h2] at h1; simp at h1
    have f1 := (mem_iff_find H h.sorted a.1 a.2).1 ha.1
    have f2 := (mem_iff_find H h.sorted b.1 b.2).1 hb.1
    rw [h1, f1] at f2; simp at f2
    exact Prod.ext h1.symm f2
  rw [List.perm_ext_iff_of_nodup nd1 List.nodup_range]
  intro i
  simp only [List.mem_map, List.mem_filter, decide_eq_true_eq, List.mem_range]
  constructor
  · rintro ⟨e, ⟨he, hc⟩, rfl⟩
    have := hmem e he hc
    exact (List.getElem?_eq_some_iff.1 this).1
  · intro hi
    have hg : orig[i]? = some orig[i] := by simp [hi]
    have hf := h.orig_find i _ hg
    exact ⟨(orig[i], i, -1), ⟨(mem_iff_find H h.sorted _ _).2 hf, rfl⟩, rfl⟩

theorem evalHStruct_spec {orig ks H} (h : HInv orig ks H) :
    ∃ H' ws, evalHStruct orig.length H = some (H', ws) ∧ HInv orig ks H' ∧ H'.length = H.length ∧
      ws = H'.map (fun e => (e.2.1, e.1)) ∧ (ws.map (·.1)).Perm (List.range H.length) := by
  have hH : ∀ e ∈ H, (e.2.2 = -1 ∧ e.2.1 < orig.length) ∨ (e.2.2 > 0 ∧ orig.length ≤ e.2.1) := by
    intro e he
    have hf := (mem_iff_find H h.sorted e.1 e.2).1 he
    by_cases ho : e.1 ∈ orig
    · obtain ⟨i, hi⟩ := List.mem_iff_getElem?.1 ho
      have := h.orig_find i _ hi
      rw [hf] at this; simp at this
      left; rw [this]; exact ⟨rfl, (List.getElem?_eq_some_iff.1 hi).1⟩
    · have hk : e.1 ∈ ks := ((h.mem_keys e.1).1 (List.mem_map_of_mem (f := (·.1)) he)).resolve_left ho
      obtain ⟨i, h3, hi⟩ := h.other_some e.1 ho hk
      rw [hf] at hi; simp at hi
      right; rw [hi]
      have := List.count_pos_iff.2 hk
      exact ⟨by simp; omega, h3⟩
  obtain ⟨H', ws, e1, e2, e3, e4, e5, e6⟩ := structLoop_spec orig.length H orig.length hH
  have hlen : H'.length = H.length := by
    have := congrArg List.length e2; simpa [HMap.keys] using this
  refine ⟨H', ws, e1, ?_, hlen, e3, ?_⟩
  · refine ⟨by rw [e2]; exact h.sorted, ?_, ?_, ?_⟩
    · intro i k hi; exact e4 k _ (h.orig_find i k hi) rfl
    · intro k h1 h2
      have := (find_none_iff H k).1 (h.other_none k h1 h2)
      rw [← e2] at this
      exact (find_none_iff H' k).2 this
    · intro k h1 h2
      obtain ⟨i, h3, h4⟩ := h.other_some k h1 h2
      obtain ⟨i', h5, h6⟩ := e5 k _ h4 (by simp)
      exact ⟨i', h5, h6⟩
  · refine e6.trans ?_
    have hcount : (H.filter (fun e => ¬ e.2.2 = -1)).length = H.length - orig.length := by
      have h1 := (orig_idx_perm h).length_eq
      simp only [List.length_map, List.length_range] at h1
      have h2 := List.length_eq_length_filter_add (l := H) (fun e => decide (e.2.2 = -1))
      have h3 : (H.filter (fun e => ¬ e.2.2 = -1)) = H.filter (fun e => !decide (e.2.2 = -1)) := by
        apply List.filter_congr; intro e _; simp
      rw [h3]; omega
    rw [hcount]
    have hr : List.range H.length = List.range orig.length ++ List.range' orig.length (H.length - orig.length) := by
      have h1 := h.orig_le
      have h2 := List.range'_append_1 (s := 0) (m := orig.length) (n := H.length - orig.length)
      rw [Nat.zero_add] at h2
      rw [List.range_eq_range', List.range_eq_range', h2]
      congr 1; omega
    rw [hr]
    exact (orig_idx_perm h).append (List.Perm.refl _)

/-- C04: the constructor accepts exactly structures without repeated positions; it stops at an assertion otherwise. -/
theorem initH_defined_iff (orig : List Key) : (initH orig).isSome ↔ orig.Nodup := by
  constructor
  · intro h
    have gen : ∀ (rest done : List Key) (H : HMap), HInv done [] H → done.Nodup → (initHFrom rest done.length H).isSome → (done ++ rest).Nodup := by
      intro rest
      induction rest with
      | nil => intro done H _ hd _; simpa using hd
      | cons k rest ih =>
        intro done H hI hd hs
        by_cases hk : k ∈ done
        · obtain ⟨i, hi⟩ := List.mem_iff_getElem?.1 hk
          rw [initHFrom, hI.orig_find i k hi] at hs
          cases hs
        · have hd' : (done ++ [k]).Nodup := by
            rw [List.nodup_append]
            exact ⟨hd, by simp, fun a ha b hb => by rw [List.mem_singleton.1 hb]; rintro rfl; exact hk ha⟩
          obtain ⟨H', h1, h2⟩ := initHFrom_inv [k] done H hI hd'
          rw [initHFrom, hI.other_none k hk (by simp)] at hs
          simp only [initHFrom, hI.other_none k hk (by simp), Option.some.injEq] at h1
          have := ih (done ++ [k]) H' h2 hd' (by rw [← h1]; simpa using hs)
          simpa using this
    have := gen orig [] [] ⟨by simp [HMap.keys], by simp, by simp [HMap.find], by simp⟩ List.nodup_nil (by simpa [initH] using h)
    simpa using this
  · intro h
    obtain ⟨H, h1, _⟩ := initH_inv orig h
    rw [h1]; rfl

/-- The compaction loop has no other end than the mark written for removed rows: without one it runs past the array. -/
theorem compact_needs_end {α : Type} (os : List Nat) (i : Nat) (arr : List α) (h : ∀ o ∈ os, o < INT_MAX) : compact os i arr = none := by
  induction os generalizing i arr with
  | nil => rfl
  | cons o os ih =>
    unfold compact
    rw [if_pos (h o (by simp))]
    by_cases hi : o ≥ i
    · rw [if_pos hi]
      cases arr[o]? with
      | none => rfl
      | some a => exact ih _ _ fun o' ho' => h o' (by simp [ho'])
    · rw [if_neg hi]

end Verif.Quad

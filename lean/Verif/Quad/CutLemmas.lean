import Verif.Quad.HLemmas
import Verif.Quad.HSpec
namespace Verif.Quad

/-! ### compaction -/

theorem compact_spec {α} (l t : List Nat) (i : Nat) (arr : List α)
    (hsort : l.Pairwise (· < ·)) (hlo : ∀ o ∈ l, i ≤ o) (hhi : ∀ o ∈ l, o < arr.length ∧ o < INT_MAX) :
    ∃ arr', compact (l ++ INT_MAX :: t) i arr = some (arr', i + l.length) ∧
      arr'.take (i + l.length) = arr.take i ++ l.filterMap (fun o => arr[o]?) := by
  induction l generalizing i arr with
  | nil => exact ⟨arr, by simp [compact], by simp⟩
  | cons o l ih =>
    have ho := hhi o (by simp)
    have hio := hlo o (by simp)
    rw [List.pairwise_cons] at hsort
    have hget : arr[o]? = some arr[o] := by simp [ho.1]
    obtain ⟨arr', h1, h2⟩ := ih (i + 1) (arr.set i arr[o]) hsort.2
      (fun o' h' => by have := hsort.1 o' h'; omega)
      (fun o' h' => by have := hhi o' (by simp [h']); simpa using this)
    refine ⟨arr', ?_, ?_⟩
    · simp only [List.cons_append, compact, if_pos ho.2, ge_iff_le, if_pos hio, hget, h1]
      simp; omega
    · have e : i + (o :: l).length = i + 1 + l.length := by simp; omega
      rw [e, h2]
      have hfm : l.filterMap (fun o' => (arr.set i arr[o])[o']?) = l.filterMap (fun o' => arr[o']?) := by
        apply List.filterMap_congr
        intro o' h'
        have : i ≠ o' := by have := hsort.1 o' h'; omega
        simp [List.getElem?_set, this]
      have htk : (arr.set i arr[o]).take (i + 1) = arr.take i ++ [arr[o]] := by
        have hi : i < (arr.set i arr[o]).length := by simp; omega
        rw [List.take_succ_eq_append_getElem hi]
        simp [List.take_set_of_le (le_refl i)]
      rw [hfm, htk, List.filterMap_cons, hget]
      simp

theorem orderInit_eq (m n : Nat) (idxs : List Nat) (h : ∀ i ∈ idxs, m ≤ i) :
    orderInit m n idxs = (List.range n).map (fun j => if j + m ∈ idxs then INT_MAX else j) := by
  have gen : ∀ (l : List Nat), (∀ i ∈ idxs, m ≤ i) →
      idxs.foldl (fun o ix => o.set (ix - m) INT_MAX) l =
        l.zipIdx.map (fun p => if p.2 + m ∈ idxs then INT_MAX else p.1) := by
    clear h
    induction idxs with
    | nil =>
      intro l _
      simp only [List.foldl_nil, List.not_mem_nil, if_false]
      exact (List.zipIdx_map_fst 0 l).symm
    | cons a idxs ih =>
      intro l hm
      rw [List.foldl_cons, ih _ (fun i hi => hm i (by simp [hi]))]
      apply List.ext_getElem
      · simp
      · intro j h1 h2
        have ha := hm a (by simp)
        simp only [List.getElem_map, List.getElem_zipIdx, List.getElem_set, List.mem_cons, Nat.zero_add]
        by_cases hj : a - m = j
        · have : j + m = a := by omega
          simp [hj, this]
        · have : ¬ j + m = a := by omega
          simp [hj, this]
  rw [orderInit, gen _ h]
  apply List.ext_getElem <;> simp

theorem sorted_order (m n : Nat) (idxs : List Nat) (h : ∀ i ∈ idxs, m ≤ i ∧ i < m + n) (hne : idxs ≠ [])
    (hn : n ≤ INT_MAX) :
    ∃ t, (orderInit m n idxs).insertionSort (· ≤ ·) =
      (List.range n).filter (fun j => ¬ (j + m ∈ idxs)) ++ INT_MAX :: t := by
  rw [orderInit_eq m n idxs (fun i hi => (h i hi).1)]
  set P : Nat → Bool := fun j => ¬ (j + m ∈ idxs) with hP
  set f : Nat → Nat := fun j => if j + m ∈ idxs then INT_MAX else j with hf
  set rem := (List.range n).filter (fun j => !P j) with hrem
  have hmapP : ((List.range n).filter P).map f = (List.range n).filter P := by
    conv_rhs => rw [← List.map_id ((List.range n).filter P)]
    apply List.map_congr_left
    intro j hj
    simp only [List.mem_filter, hP, decide_eq_true_eq] at hj
    simp [hf, hj.2]
  have hmapN : rem.map f = List.replicate rem.length INT_MAX := by
    rw [List.eq_replicate_iff]
    refine ⟨by simp, ?_⟩
    intro b hb
    obtain ⟨j, hj, rfl⟩ := List.mem_map.1 hb
    simp only [hrem, List.mem_filter, hP, Bool.not_eq_true', decide_eq_false_iff_not, not_not] at hj
    simp [hf, hj.2]
  have hperm : ((List.range n).map f).Perm ((List.range n).filter P ++ List.replicate rem.length INT_MAX) := by
    have := (List.filter_append_perm P (List.range n)).map f
    rw [List.map_append, hmapP] at this
    rw [← hmapN]
    exact this.symm
  have hpos : rem.length ≠ 0 := by
    obtain ⟨a, ha⟩ := List.exists_mem_of_ne_nil idxs hne
    have := h a ha
    have hm : a - m ∈ rem := by
      simp only [hrem, List.mem_filter, List.mem_range, hP, Bool.not_eq_true', decide_eq_false_iff_not, not_not]
      refine ⟨by omega, ?_⟩
      have : a - m + m = a := by omega
      rw [this]; exact ha
    intro h0
    rw [List.length_eq_zero_iff] at h0
    rw [h0] at hm; simp at hm
  have hsorted : ((List.range n).filter P ++ List.replicate rem.length INT_MAX).Pairwise (· ≤ ·) := by
    rw [List.pairwise_append]
    refine ⟨?_, ?_, ?_⟩
    · exact ((List.pairwise_lt_range (n := n)).imp (fun h => Nat.le_of_lt h)).filter _
    · rw [List.pairwise_replicate]; simp
    · intro a ha b hb
      have hb' := List.eq_of_mem_replicate hb
      simp only [List.mem_filter, List.mem_range] at ha
      omega
  have hms : ((List.range n).map f).insertionSort (· ≤ ·) =
      (List.range n).filter P ++ List.replicate rem.length INT_MAX := by
    apply List.Perm.eq_of_pairwise (le := (· ≤ ·)) (fun a b _ _ h1 h2 => le_antisymm h1 h2) _ hsorted
    · exact (List.perm_insertionSort _ _).trans hperm
    · exact List.pairwise_insertionSort _ _
  rw [hms]
  obtain ⟨r, hr⟩ := Nat.exists_eq_succ_of_ne_zero hpos
  exact ⟨List.replicate r INT_MAX, by rw [hr]; rfl⟩

theorem surviving_eq {α} (p : Nat → Bool) (l : List α) :
    ((List.range l.length).filter p).filterMap (fun o => l[o]?) = surviving p l := by
  unfold surviving
  have gen : ∀ (l : List α) (s : Nat) (g : Nat → Option α), (∀ j (h : j < l.length), g (s + j) = some l[j]) →
      ((List.range' s l.length).filter p).filterMap g = ((l.zipIdx s).filter (fun e => p e.2)).map (·.1) := by
    intro l
    induction l with
    | nil => intros; rfl
    | cons a l ih =>
      intro s g hg
      have h0 := hg 0 (by simp)
      have := ih (s + 1) g (fun j h => by
        have := hg (j + 1) (by simpa using h)
        simpa [Nat.add_assoc, Nat.add_comm 1 j] using this)
      simp only [List.length_cons, List.range'_succ, List.zipIdx_cons, List.filter_cons]
      simp at h0
      split_ifs with hp
      · simp [List.filterMap_cons, h0, this]
      · exact this
  rw [List.range_eq_range']
  exact gen l 0 _ (by intro j h; simp [h])

theorem surviving_map {α β} (p : Nat → Bool) (f : α → β) (l : List α) :
    surviving p (l.map f) = (surviving p l).map f := by
  unfold surviving
  rw [List.zipIdx_map, List.filter_map, List.map_map, List.map_map]
  rfl

theorem surviving_congr {α} (p : Nat → Bool) (l l' : List α) (hl : l.length = l'.length)
    (h : ∀ j, p j = true → l[j]? = l'[j]?) : surviving p l = surviving p l' := by
  rw [← surviving_eq, ← surviving_eq, hl]
  apply List.filterMap_congr
  intro j hj
  exact h j (List.mem_filter.1 hj).2

/-! ### erasing -/

def optKeys (off : Nat) : Option HRow → List Key
  | none => []
  | some r => r.q.map (entKey off)

def optGnz : Option HRow → Int
  | none => 0
  | some r => r.gnz

theorem flatMap_set_none (off : Nat) (rows : List (Option HRow)) (j : Nat) (r : HRow) (h : rows[j]? = some (some r)) :
    (rows.flatMap (optKeys off)).Perm (r.q.map (entKey off) ++ (rows.set j none).flatMap (optKeys off)) := by
  induction rows generalizing j with
  | nil => simp at h
  | cons a rows ih =>
    cases j with
    | zero => simp at h; subst h; simp [optKeys]
    | succ j =>
      simp at h
      have := ih j h
      simp only [List.flatMap_cons, List.set_cons_succ]
      refine ((List.Perm.refl _).append this).trans ?_
      rw [← List.append_assoc, ← List.append_assoc]
      exact List.perm_append_comm.append (List.Perm.refl _)

theorem sum_set_none (rows : List (Option HRow)) (j : Nat) (r : HRow) (h : rows[j]? = some (some r)) :
    (rows.map optGnz).sum = r.gnz + ((rows.set j none).map optGnz).sum := by
  induction rows generalizing j with
  | nil => simp at h
  | cons a rows ih =>
    cases j with
    | zero => simp at h; subst h; simp [optGnz]
    | succ j =>
      simp at h
      have := ih j h
      simp only [List.map_cons, List.sum_cons, List.set_cons_succ]
      omega

theorem eraseLoop_spec (orig : List Key) (m off : Nat) (idxs : List Nat) (rows : List (Option HRow)) (H : HMap) (nz : Int)
    (hinv : HInv orig (rows.flatMap (optKeys off)) H)
    (hnd : idxs.Nodup) (hin : ∀ i ∈ idxs, m ≤ i ∧ ∃ r, rows[i - m]? = some (some r)) :
    ∃ rows' H' nz', eraseLoop m off idxs rows H nz = some (rows', H', nz') ∧ rows'.length = rows.length ∧
      (∀ j, rows'[j]? = if j + m ∈ idxs then some none else rows[j]?) ∧
      HInv orig (rows'.flatMap (optKeys off)) H' ∧
      nz' - (rows'.map optGnz).sum = nz - (rows.map optGnz).sum := by
  induction idxs generalizing rows H nz with
  | nil => exact ⟨rows, H, nz, rfl, rfl, by simp, hinv, rfl⟩
  | cons a idxs ih =>
    obtain ⟨ham, r, hr⟩ := hin a (by simp)
    rw [List.nodup_cons] at hnd
    obtain ⟨H1, e1, i1⟩ := HInv.removeKeys _ (hinv.perm (flatMap_set_none off rows _ r hr))
    have hlt : a - m < rows.length := (List.getElem?_eq_some_iff.1 hr).1
    obtain ⟨rows', H', nz', e2, l2, g2, i2, s2⟩ := ih (rows.set (a - m) none) H1 (nz - r.gnz) i1 hnd.2 (by
      intro i hi
      obtain ⟨him, r', hr'⟩ := hin i (by simp [hi])
      refine ⟨him, r', ?_⟩
      have : a - m ≠ i - m := by
        intro e
        have : a = i := by omega
        exact hnd.1 (this ▸ hi)
      rw [List.getElem?_set_ne this]; exact hr')
    refine ⟨rows', H', nz', ?_, by simpa using l2, ?_, i2, ?_⟩
    · have : ¬ a < m := by omega
      simp only [eraseLoop, if_neg this, hr]
      rw [HMap.removeRow, e1]
      exact e2
    · intro j
      rw [g2 j, List.getElem?_set]
      by_cases hj : a - m = j
      · have : j + m = a := by omega
        simp [hj, this]
        intro _; omega
      · have : ¬ j + m = a := by omega
        simp [hj, this]
    · have := sum_set_none rows (a - m) r hr
      omega

/-- Converse: if the erase loop succeeds the indices are distinct and in range. -/
theorem eraseLoop_some (m off : Nat) (idxs : List Nat) (rows : List (Option HRow)) (H : HMap) (nz : Int) (res)
    (h : eraseLoop m off idxs rows H nz = some res) :
    idxs.Nodup ∧ ∀ i ∈ idxs, m ≤ i ∧ ∃ r, rows[i - m]? = some (some r) := by
  induction idxs generalizing rows H nz with
  | nil => simp
  | cons a idxs ih =>
    unfold eraseLoop at h
    split_ifs at h with ha
    split at h
    · rename_i r hr
      cases hrem : HMap.removeRow off r.q H with
      | none => rw [hrem] at h; simp at h
      | some H1 =>
        rw [hrem] at h
        obtain ⟨h1, h2⟩ := ih _ _ _ h
        have hne : ∀ i ∈ idxs, a - m ≠ i - m := by
          intro i hi e
          obtain ⟨_, r', hr'⟩ := h2 i hi
          rw [← e, List.getElem?_set_self' ] at hr'
          simp [hr] at hr'
        refine ⟨List.nodup_cons.2 ⟨fun hi => hne a hi rfl, h1⟩, ?_⟩
        intro i hi
        rcases List.mem_cons.1 hi with rfl | hi
        · exact ⟨by omega, r, hr⟩
        · obtain ⟨him, r', hr'⟩ := h2 i hi
          exact ⟨him, r', by rw [List.getElem?_set_ne (hne i hi)] at hr'; exact hr'⟩
    · simp at h

end Verif.Quad

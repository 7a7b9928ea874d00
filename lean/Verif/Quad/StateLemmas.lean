import Verif.Quad.CutLemmas
namespace Verif.Quad

/-- Full representation relation: observable part plus the invariant of the Hessian map. -/
structure Rep (b : Base) (a : ARows) (s : NState) : Prop where
  shows_ : Shows b a s
  hinv : HInv b.orig (neededKeys b.off a) s.H

theorem Rep.add {b a s} (h : Rep b a s) (cut : ℚ × ℚ × HRow) : Rep b (a ++ [cut]) (s.add cut) := by
  obtain ⟨⟨h1, h2, h3, h4, h5⟩, h6⟩ := h
  refine ⟨⟨?_, ?_, ?_, ?_, ?_⟩, ?_⟩
  · simp [NState.add, h1]
  · simp [NState.add, h2]
  · simp [NState.add, h3]
  · simp [NState.add, h4]
  · simp [NState.add, h5]; omega
  · have := h6.addKeys (cut.2.2.q.map (entKey b.off))
    have e : neededKeys b.off (a ++ [cut]) = neededKeys b.off a ++ cut.2.2.q.map (entKey b.off) := by
      simp [neededKeys]
    rw [e]
    have hh : (s.add cut).H = (cut.2.2.q.map (entKey b.off)).foldl HMap.addKey s.H := by
      simp [NState.add, HMap.addRow, h4]
    rw [hh]
    exact this.perm List.perm_append_comm

theorem Rep.addCuts {b a s} (h : Rep b a s) (cuts : List (ℚ × ℚ × HRow)) : Rep b (a ++ cuts) (s.addCuts cuts) := by
  induction cuts generalizing a s with
  | nil => simpa [NState.addCuts] using h
  | cons c cuts ih =>
    have := ih (h.add c)
    simpa [NState.addCuts] using this

theorem mTminlp_eq {b a s} (h : Shows b a s) : s.mTminlp = b.gl.length := by
  simp [NState.mTminlp, h.gl, h.rows]

theorem flatMap_optKeys_surviving (off : Nat) (p : Nat → Bool) (rows : List HRow) (rows' : List (Option HRow))
    (hl : rows'.length = rows.length)
    (hg : ∀ j, rows'[j]? = if p j then (rows.map some)[j]? else if j < rows.length then some none else none) :
    rows'.flatMap (optKeys off) = (surviving p rows).flatMap (fun r => r.q.map (entKey off)) := by
  unfold surviving
  have gen : ∀ (rows : List HRow) (rows' : List (Option HRow)) (s : Nat), rows'.length = rows.length →
      (∀ j, rows'[j]? = if p (s + j) then (rows.map some)[j]? else if j < rows.length then some none else none) →
      rows'.flatMap (optKeys off) =
        (((rows.zipIdx s).filter (fun e => p e.2)).map (·.1)).flatMap (fun r => r.q.map (entKey off)) := by
    intro rows
    induction rows with
    | nil => intro rows' s hl _; simp at hl; subst hl; rfl
    | cons r rows ih =>
      intro rows' s hl hg
      cases rows' with
      | nil => simp at hl
      | cons r' rows' =>
        have h0 := hg 0
        have := ih rows' (s + 1) (by simpa using hl) (fun j => by
          have := hg (j + 1)
          simp only [List.getElem?_cons_succ, List.map_cons, List.length_cons, Nat.add_lt_add_iff_right] at this
          rw [this]
          have : s + (j + 1) = s + 1 + j := by omega
          rw [this])
        simp only [List.zipIdx_cons, List.filter_cons, List.flatMap_cons]
        rw [this]
        simp at h0
        split_ifs at h0 with hp
        · rw [Option.some.inj h0]; simp [hp, optKeys]
        · rw [Option.some.inj h0]; simp [hp, optKeys]
  exact gen rows rows' 0 hl (by simpa using hg)

theorem sum_optGnz_surviving (p : Nat → Bool) (rows : List HRow) (rows' : List (Option HRow))
    (hl : rows'.length = rows.length)
    (hg : ∀ j, rows'[j]? = if p j then (rows.map some)[j]? else if j < rows.length then some none else none) :
    (rows'.map optGnz).sum = ((surviving p rows).map (fun r => (r.gnz : Int))).sum := by
  unfold surviving
  have gen : ∀ (rows : List HRow) (rows' : List (Option HRow)) (s : Nat), rows'.length = rows.length →
      (∀ j, rows'[j]? = if p (s + j) then (rows.map some)[j]? else if j < rows.length then some none else none) →
      (rows'.map optGnz).sum =
        ((((rows.zipIdx s).filter (fun e => p e.2)).map (·.1)).map (fun r => (r.gnz : Int))).sum := by
    intro rows
    induction rows with
    | nil => intro rows' s hl _; simp at hl; subst hl; rfl
    | cons r rows ih =>
      intro rows' s hl hg
      cases rows' with
      | nil => simp at hl
      | cons r' rows' =>
        have h0 := hg 0
        have := ih rows' (s + 1) (by simpa using hl) (fun j => by
          have := hg (j + 1)
          simp only [List.getElem?_cons_succ, List.map_cons, List.length_cons, Nat.add_lt_add_iff_right] at this
          rw [this]
          have : s + (j + 1) = s + 1 + j := by omega
          rw [this])
        simp only [List.zipIdx_cons, List.filter_cons, List.map_cons, List.sum_cons]
        rw [this]
        simp at h0
        split_ifs at h0 with hp
        · rw [Option.some.inj h0]; simp [hp, optGnz]
        · rw [Option.some.inj h0]; simp [hp, optGnz]
  exact gen rows rows' 0 hl (by simpa using hg)

theorem surviving_length_le {α} (p : Nat → Bool) (l : List α) : (surviving p l).length ≤ l.length := by
  unfold surviving
  have := List.length_filter_le (fun e : α × Nat => p e.2) l.zipIdx
  simpa using this

theorem mapM_id_some {α} (l : List α) : (l.map some).mapM id = some l := by
  induction l with
  | nil => rfl
  | cons a l ih => simp [ih]

theorem compact_surviving {α} (m : Nat) (idxs : List Nat) (l : List α) (hne : idxs ≠ [])
    (hr : ∀ i ∈ idxs, m ≤ i ∧ i < m + l.length) (hn : l.length ≤ INT_MAX) :
    ∃ l', compact ((orderInit m l.length idxs).insertionSort (· ≤ ·)) 0 l =
        some (l', ((List.range l.length).filter (fun j => ¬ (j + m ∈ idxs))).length) ∧
      l'.take ((List.range l.length).filter (fun j => ¬ (j + m ∈ idxs))).length =
        surviving (fun j => ¬ (j + m ∈ idxs)) l := by
  obtain ⟨t, ht⟩ := sorted_order m l.length idxs hr hne hn
  rw [ht]
  obtain ⟨l', h1, h2⟩ := compact_spec ((List.range l.length).filter (fun j => ¬ (j + m ∈ idxs))) t 0 l
    ((List.pairwise_lt_range).filter _) (by simp) (by
      intro o ho
      have := (List.mem_filter.1 ho).1
      rw [List.mem_range] at this
      omega)
  refine ⟨l', by simpa using h1, ?_⟩
  rw [Nat.zero_add] at h2
  rw [h2, ← surviving_eq]
  simp

theorem Rep.remove {b a s} (h : Rep b a s) (idxs : List Nat) (hn : a.length ≤ INT_MAX) (hnd : idxs.Nodup)
    (hr : ∀ i ∈ idxs, b.gl.length ≤ i ∧ i < b.gl.length + a.length) :
    ∃ s', s.removeCuts idxs = some s' ∧
      Rep b (surviving (fun j => ¬ (j + b.gl.length ∈ idxs)) a) s' := by
  by_cases hne : idxs = []
  · subst hne
    refine ⟨s, by simp [NState.removeCuts], ?_⟩
    have : surviving (fun j => decide ¬ (j + b.gl.length ∈ ([] : List Nat))) a = a := by
      unfold surviving
      simp only [List.not_mem_nil, not_false_eq_true, decide_true, List.filter_true]
      exact List.zipIdx_map_fst 0 a
    rw [this]; exact h
  have hm := mTminlp_eq h.shows_
  obtain ⟨⟨h1, h2, h3, h4, h5⟩, h6⟩ := h
  set m := b.gl.length with hmdef
  have hrows : s.rows.length = a.length := by rw [h3]; simp
  have hinv0 : HInv b.orig ((s.rows.map some).flatMap (optKeys b.off)) s.H := by
    have : (s.rows.map some).flatMap (optKeys b.off) = neededKeys b.off a := by
      rw [h3]; simp only [neededKeys, List.flatMap_map]; rfl
    rw [this]; exact h6
  obtain ⟨rows1, H1, nz1, e1, l1, g1, i1, s1⟩ := eraseLoop_spec b.orig m b.off idxs (s.rows.map some) s.H s.nnzJac
    hinv0 hnd (by
      intro i hi
      obtain ⟨hi1, hi2⟩ := hr i hi
      refine ⟨hi1, ?_⟩
      have : i - m < s.rows.length := by omega
      exact ⟨s.rows[i - m], by simp [this]⟩)
  have l1' : rows1.length = s.rows.length := by simpa using l1
  have g1' : ∀ j, rows1[j]? = if (decide ¬ (j + m ∈ idxs)) then (s.rows.map some)[j]?
      else if j < s.rows.length then some none else none := by
    intro j
    rw [g1 j]
    by_cases hj : j + m ∈ idxs
    · have := hr _ hj
      have : j < s.rows.length := by omega
      simp [hj, this]
    · simp [hj]
  obtain ⟨rows2, e2, t2⟩ := compact_surviving m idxs rows1 hne (by rw [l1', hrows]; exact hr) (by omega)
  have hgl : s.gl.drop m = a.map (·.1) := by rw [h1, hmdef]; simp
  have hgu : s.gu.drop m = a.map (·.2.1) := by rw [h2, hmdef, ← b.len]; simp
  obtain ⟨gl2, e3, t3⟩ := compact_surviving m idxs (s.gl.drop m) hne (by rw [hgl]; simpa using hr)
    (by rw [hgl]; simpa using hn)
  obtain ⟨gu2, e4, t4⟩ := compact_surviving m idxs (s.gu.drop m) hne (by rw [hgu]; simpa using hr)
    (by rw [hgu]; simpa using hn)
  have lgl : (s.gl.drop m).length = s.rows.length := by rw [hgl, hrows]; simp
  have lgu : (s.gu.drop m).length = s.rows.length := by rw [hgu, hrows]; simp
  rw [l1'] at e2 t2
  rw [lgl] at e3 t3
  rw [lgu] at e4 t4
  have hsurv : surviving (fun j => decide ¬ (j + m ∈ idxs)) rows1 =
      (surviving (fun j => decide ¬ (j + m ∈ idxs)) s.rows).map some := by
    rw [← surviving_map]
    apply surviving_congr
    · simpa using l1'
    · intro j hj; rw [g1' j, if_pos hj]
  have e5 : (rows2.take ((List.range s.rows.length).filter (fun j => ¬ (j + m ∈ idxs))).length).mapM id =
      some (surviving (fun j => decide ¬ (j + m ∈ idxs)) s.rows) := by
    rw [t2, hsurv]; exact mapM_id_some _
  refine ⟨{ s with rows := surviving (fun j => ¬ (j + m ∈ idxs)) s.rows,
                   gl := s.gl.take m ++ surviving (fun j => ¬ (j + m ∈ idxs)) (s.gl.drop m),
                   gu := s.gu.take m ++ surviving (fun j => ¬ (j + m ∈ idxs)) (s.gu.drop m),
                   H := H1, nnzJac := nz1 }, ?_, ⟨?_, ?_, ?_, ?_, ?_⟩, ?_⟩
  · simp only [NState.removeCuts, if_neg hne, hm, h4, e1, Option.bind_eq_bind, Option.bind_some, e2, e3, e4, e5, t3, t4]
    rfl
  · simp only [hgl, surviving_map]
    rw [h1, hmdef]; simp
  · simp only [hgu, surviving_map]
    rw [h2, hmdef, ← b.len]; simp
  · simp only [h3, surviving_map]
  · exact h4
  · show nz1 = _
    have hs := sum_optGnz_surviving (fun j => decide ¬ (j + m ∈ idxs)) s.rows rows1 l1' g1'
    rw [h3, surviving_map, List.map_map] at hs
    have hs0 : ((s.rows.map some).map optGnz).sum = (a.map (fun r => (r.2.2.gnz : Int))).sum := by
      rw [h3]; simp [Function.comp_def, optGnz]
    rw [hs0] at s1
    simp only [Function.comp_def] at hs
    rw [hs] at s1
    omega
  · have hk := flatMap_optKeys_surviving b.off (fun j => decide ¬ (j + m ∈ idxs)) s.rows rows1 l1' g1'
    rw [hk] at i1
    have : (surviving (fun j => decide ¬ (j + m ∈ idxs)) s.rows).flatMap (fun r => r.q.map (entKey b.off)) =
        neededKeys b.off (surviving (fun j => decide ¬ (j + m ∈ idxs)) a) := by
      rw [h3, surviving_map, neededKeys, List.flatMap_map]
    rw [this] at i1
    exact i1

theorem removeCuts_some {b a s} (h : Shows b a s) (idxs : List Nat) (s' : NState) (he : s.removeCuts idxs = some s') :
    idxs.Nodup ∧ ∀ i ∈ idxs, b.gl.length ≤ i ∧ i < b.gl.length + a.length := by
  by_cases hne : idxs = []
  · subst hne; simp
  · simp only [NState.removeCuts, if_neg hne, Option.bind_eq_bind] at he
    obtain ⟨res, h1, _⟩ := Option.bind_eq_some_iff.1 he
    obtain ⟨h2, h3⟩ := eraseLoop_some _ _ _ _ _ _ _ h1
    refine ⟨h2, fun i hi => ?_⟩
    obtain ⟨h4, r, h5⟩ := h3 i hi
    have h6 := (List.getElem?_eq_some_iff.1 h5).1
    rw [mTminlp_eq h] at h4 h6
    rw [h.rows] at h6
    simp at h6
    omega

theorem Rep.struct {b a s} (h : Rep b a s) :
    ∃ H' ws, evalHStruct b.orig.length s.H = some (H', ws) ∧ Rep b a { s with H := H' } ∧
      ws = H'.map (fun e => (e.2.1, e.1)) ∧ (ws.map (·.1)).Perm (List.range s.H.length) ∧
      H'.length = s.H.length := by
  obtain ⟨H', ws, h1, h2, h3, h4, h5⟩ := evalHStruct_spec h.hinv
  exact ⟨H', ws, h1, ⟨⟨h.shows_.gl, h.shows_.gu, h.shows_.rows, h.shows_.off, h.shows_.nnzJac⟩, h2⟩, h4, h5, h3⟩

/-- Every step of the implementation is the step of the specification. -/
theorem Rep.step {b a s} (h : Rep b a s) (op : CutOp) (hn : a.length ≤ INT_MAX) :
    match AStep b.gl.length a op with
    | some a' => ∃ s', s.step b.orig.length op = some s' ∧ Rep b a' s'
    | none => s.step b.orig.length op = none := by
  cases op with
  | add cuts => exact ⟨_, rfl, h.addCuts cuts⟩
  | structure_call =>
    obtain ⟨H', ws, h1, h2, _⟩ := h.struct
    exact ⟨{ s with H := H' }, by simp [NState.step, h1], h2⟩
  | remove idxs =>
    simp only [AStep]
    split_ifs with hc
    · exact h.remove idxs hn hc.1 hc.2
    · show s.removeCuts idxs = none
      cases he : s.removeCuts idxs with
      | none => rfl
      | some s' => exact absurd (removeCuts_some h.shows_ idxs s' he) hc

/-! ### index stability -/

def HMap.idx (H : HMap) (k : Key) : Option Nat := (H.find k).map (·.1)

theorem find_some_mem {H : HMap} {k : Key} {p} (h : H.find k = some p) : k ∈ H.keys := by
  by_contra hc; rw [(find_none_iff H k).2 hc] at h; simp at h

theorem addKey_idx (H : HMap) (k j : Key) (p) (h : H.find j = some p) : (H.addKey k).idx j = some p.1 := by
  unfold HMap.idx HMap.addKey
  cases hk : H.find k with
  | none =>
    simp only
    rw [find_insert _ _ _ ((find_none_iff H k).1 hk), if_neg (by rintro rfl; rw [hk] at h; simp at h), h]; rfl
  | some q =>
    obtain ⟨i, c⟩ := q
    simp only
    split_ifs with hc
    · rw [find_upd]
      split_ifs with hh
      · obtain ⟨rfl, _⟩ := hh; rw [hk] at h; simp at h; simp [← h]
      · rw [h]; rfl
    · rw [h]; rfl

theorem removeKey_idx (H H' : HMap) (k j : Key) (p) (he : H.removeKey k = some H') (h : H'.find j = some p) :
    H.idx j = some p.1 := by
  unfold HMap.removeKey at he
  cases hk : H.find k with
  | none => simp [hk] at he
  | some q =>
    obtain ⟨i, c⟩ := q
    simp only [hk, Option.some.injEq] at he
    unfold HMap.idx
    by_cases hz : (if c ≠ -1 then c - 1 else c) = 0
    · rw [if_pos hz] at he
      subst he
      rw [find_erase] at h
      split_ifs at h
      rw [h]; rfl
    · rw [if_neg hz] at he
      subst he
      rw [find_upd] at h
      by_cases hh : k = j ∧ k ∈ H.keys
      · rw [if_pos hh] at h
        obtain ⟨rfl, _⟩ := hh; rw [hk]; simp at h; simp [← h]
      · rw [if_neg hh] at h
        rw [h]; rfl

theorem addKeys_idx (l : List Key) (H : HMap) (j : Key) (i : Nat) (h : H.idx j = some i) :
    HMap.idx (l.foldl HMap.addKey H) j = some i := by
  induction l generalizing H with
  | nil => exact h
  | cons k l ih =>
    apply ih
    unfold HMap.idx at h
    obtain ⟨p, hp, rfl⟩ := Option.map_eq_some_iff.1 h
    exact addKey_idx H k j p hp

theorem removeKeys_idx (l : List Key) (H H' : HMap) (j : Key) (i : Nat) (he : l.foldlM HMap.removeKey H = some H')
    (h : H'.idx j = some i) : H.idx j = some i := by
  induction l generalizing H with
  | nil => simp at he; subst he; exact h
  | cons k l ih =>
    rw [List.foldlM_cons] at he
    obtain ⟨H1, h1, h2⟩ := Option.bind_eq_some_iff.1 he
    have := ih H1 h2
    unfold HMap.idx at this
    obtain ⟨p, hp, rfl⟩ := Option.map_eq_some_iff.1 this
    exact removeKey_idx H H1 k j p h1 hp

theorem hmap_ext {H H' : HMap} (h1 : H.keys.Pairwise klt) (h2 : H'.keys.Pairwise klt)
    (h : ∀ k, H.find k = H'.find k) : H = H' := by
  have hnd : H.Nodup := List.Nodup.of_map _ (keys_nodup h1)
  have hnd' : H'.Nodup := List.Nodup.of_map _ (keys_nodup h2)
  have hp : H.Perm H' := by
    rw [List.perm_ext_iff_of_nodup hnd hnd']
    rintro ⟨k, p⟩
    rw [mem_iff_find H h1, mem_iff_find H' h2, h]
  have s1 : H.Pairwise (fun a b => klt a.1 b.1) := by simpa [HMap.keys, List.pairwise_map] using h1
  have s2 : H'.Pairwise (fun a b => klt a.1 b.1) := by simpa [HMap.keys, List.pairwise_map] using h2
  exact List.Perm.eq_of_pairwise (fun a b _ _ h1 h2 => absurd (klt_trans h1 h2) (klt_irrefl _)) s1 s2 hp

theorem HInv.eq_of_idx {orig ks H H'} (h : HInv orig ks H) (h' : HInv orig ks H')
    (hi : ∀ k i, H.idx k = some i → H'.idx k = some i) : H = H' := by
  apply hmap_ext h.sorted h'.sorted
  intro k
  by_cases ho : k ∈ orig
  · obtain ⟨i, hi⟩ := List.mem_iff_getElem?.1 ho
    rw [h.orig_find i k hi, h'.orig_find i k hi]
  · by_cases hk : k ∈ ks
    · obtain ⟨i, _, e1⟩ := h.other_some k ho hk
      obtain ⟨i', _, e2⟩ := h'.other_some k ho hk
      have := hi k i (by simp [HMap.idx, e1])
      simp [HMap.idx, e2] at this
      rw [e1, e2, this]
    · rw [h.other_none k ho hk, h'.other_none k ho hk]

theorem eraseLoop_idx (m off : Nat) (idxs : List Nat) (rows : List (Option HRow)) (H : HMap) (nz : Int) (res)
    (h : eraseLoop m off idxs rows H nz = some res) (j : Key) (i : Nat) (hi : HMap.idx res.2.1 j = some i) :
    H.idx j = some i := by
  induction idxs generalizing rows H nz with
  | nil => simp [eraseLoop] at h; subst h; exact hi
  | cons a idxs ih =>
    unfold eraseLoop at h
    split_ifs at h with ha
    split at h
    · rename_i r hr
      obtain ⟨H1, h1, h2⟩ := Option.bind_eq_some_iff.1 h
      have := ih _ _ _ h2
      exact removeKeys_idx _ _ _ _ _ h1 this
    · simp at h

theorem addCuts_idx (cuts : List (ℚ × ℚ × HRow)) (s : NState) (k : Key) (i : Nat) (h : s.H.idx k = some i) :
    HMap.idx (s.addCuts cuts).H k = some i := by
  induction cuts generalizing s with
  | nil => exact h
  | cons c cuts ih =>
    exact ih (s.add c) (addKeys_idx _ _ _ _ h)

theorem removeCuts_idx (s s' : NState) (idxs : List Nat) (he : s.removeCuts idxs = some s') (k : Key) (i : Nat)
    (h : s'.H.idx k = some i) : s.H.idx k = some i := by
  by_cases hne : idxs = []
  · simp [NState.removeCuts, hne] at he; subst he; exact h
  · simp only [NState.removeCuts, if_neg hne, Option.bind_eq_bind] at he
    obtain ⟨res, h1, h2⟩ := Option.bind_eq_some_iff.1 he
    obtain ⟨r2, _, h2⟩ := Option.bind_eq_some_iff.1 h2
    obtain ⟨r3, _, h2⟩ := Option.bind_eq_some_iff.1 h2
    obtain ⟨r4, _, h2⟩ := Option.bind_eq_some_iff.1 h2
    obtain ⟨r5, _, h2⟩ := Option.bind_eq_some_iff.1 h2
    have : s'.H = res.2.1 := by simp [pure] at h2; rw [← h2]
    rw [this] at h
    exact eraseLoop_idx _ _ _ _ _ _ _ h1 k i h

end Verif.Quad

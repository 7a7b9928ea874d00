import Verif.Heur.Milp
import Verif.Heur.DiveProps
import Mathlib.Data.List.Induction
import Mathlib.Tactic.Ring

/-!
# C36, C55, C56: matrices, cuts and answers of the MILP-based heuristics
-/
namespace Verif.Heur

/-! ### Specification -/

/-- `srt` is a sorted index of the entries by column. -/
def SortedIdx (ents : List Ent) (srt : List Nat) : Prop :=
  srt.Perm (List.range ents.length) ∧ srt.Pairwise fun a b => (ents.getD a default).col ≤ (ents.getD b default).col

/-- Column `c` as it should be: the entries of the column that lie in kept rows, with their own values. -/
def trueColumn (lin : Nat → Bool) (ents : List Ent) (srt : List Nat) (c : Nat) : List (Nat × ℚ) :=
  (srt.filter fun k => (ents.getD k default).col = c).filterMap fun k => (rank lin (ents.getD k default).row).map fun r => (r, (ents.getD k default).val)

/-- Activity of row `r` restricted to the linear columns. -/
def linAct (isLin : Nat → Bool) (ents : List Ent) (w : Nat → ℚ) (r : Nat) : ℚ :=
  ((ents.filter fun e => decide (e.row = r) && isLin e.col).map fun e => e.val * w e.col).sum

/-- Optional bounds hold for a value. -/
def Within (lo up : Option ℚ) (v : ℚ) : Prop := (∀ l, lo = some l → l ≤ v) ∧ ∀ u, up = some u → v ≤ u

/-! ### Lemmas -/

/-- Entry stored for an item. -/
def Item.entry (it : Item) : Option (Nat × ℚ) := it.row.map fun r => (r, it.val)

theorem put_spec (s : Csc) (it : Item) : (s.put it).data = s.data ++ [it].filterMap Item.entry ∧ (s.put it).start = s.start ∧ (s.put it).ini = s.ini ∧
    ∀ j, (s.put it).len j = s.len j + if j = it.col then ([it].filterMap Item.entry).length else 0 := by
  unfold Csc.put
  cases h : it.row with
  | none =>
    have e : it.entry = none := by simp [Item.entry, h]
    simp [e]
  | some r =>
    have e : it.entry = some (r, it.val) := by simp [Item.entry, h]
    simp only [List.filterMap_cons, e, List.filterMap_nil, true_and, List.length_singleton]
    intro j
    split_ifs <;> rfl

theorem csc_append (l : List Item) (it : Item) : csc (l ++ [it]) = ((csc l).openCol it.col).put it := by
  simp [csc, List.foldl_append]

theorem csc_inv (l : List Item) : l.Pairwise (fun a b => a.col ≤ b.col) →
    (csc l).data = l.filterMap Item.entry ∧ (csc l).ini = l.getLast?.map Item.col ∧
    (∀ c, (csc l).len c = ((l.filter fun it => it.col = c).filterMap Item.entry).length) ∧
    ∀ c, (∃ it ∈ l, it.col = c) → (csc l).start c = ((l.filter fun it => it.col < c).filterMap Item.entry).length := by
  induction l using List.reverseRecOn with
  | nil => intro _; simp [csc]
  | append_singleton l it ih =>
    intro hp
    obtain ⟨hp1, _, hp2⟩ := List.pairwise_append.1 hp
    have hle : ∀ a ∈ l, a.col ≤ it.col := fun a ha => hp2 a ha it (by simp)
    obtain ⟨i1, i2, i3, i4⟩ := ih hp1
    rw [csc_append]
    obtain ⟨p1, p2, p3, p4⟩ := put_spec ((csc l).openCol it.col) it
    by_cases hini : (csc l).ini = some it.col
    · have ho : (csc l).openCol it.col = csc l := by unfold Csc.openCol; rw [if_pos hini]
      rw [ho] at p1 p2 p3 p4 ⊢
      refine ⟨by rw [p1, i1, List.filterMap_append], by rw [p3, hini]; simp, ?_, ?_⟩
      · intro c
        rw [p4, i3, List.filter_append, List.filterMap_append, List.length_append]
        congr 1
        by_cases hc : c = it.col
        · simp [hc]
        · simp [hc, Ne.symm hc]
      · intro c ⟨a, ha, hac⟩
        have hex : ∃ b ∈ l, b.col = c := by
          rcases List.mem_append.1 ha with h | h
          · exact ⟨a, h, hac⟩
          · rw [List.mem_singleton] at h
            subst h
            rw [i2] at hini
            cases hl : l.getLast? with
            | none => rw [hl] at hini; cases hini
            | some b =>
              rw [hl] at hini
              simp only [Option.map_some, Option.some.injEq] at hini
              exact ⟨b, List.mem_of_getLast? hl, by rw [hini, hac]⟩
        rw [p2, i4 c hex, List.filter_append, List.filterMap_append, List.length_append]
        have : c ≤ it.col := by obtain ⟨b, hb, hbc⟩ := hex; rw [← hbc]; exact hle b hb
        have hnot : ¬ it.col < c := by omega
        simp [hnot]
    · have hnew : ∀ a ∈ l, a.col < it.col := by
        intro a ha
        refine lt_of_le_of_ne (hle a ha) fun he => hini ?_
        rw [i2]
        cases hl : l.getLast? with
        | none => rw [List.getLast?_eq_none_iff] at hl; rw [hl] at ha; simp at ha
        | some b =>
          simp only [Option.map_some, Option.some.injEq]
          have hb := List.mem_of_getLast? hl
          obtain ⟨l', rfl⟩ := List.getLast?_eq_some_iff.1 hl
          rcases List.mem_append.1 ha with h | h
          · have h1 := (List.pairwise_append.1 hp1).2.2 a h b (by simp)
            have h2 := hle b hb
            omega
          · rw [List.mem_singleton] at h; rw [← h]; exact he
      have ho : (csc l).openCol it.col = ⟨(csc l).data, fun j => if j = it.col then (csc l).data.length else (csc l).start j,
          fun j => if j = it.col then 0 else (csc l).len j, some it.col⟩ := by unfold Csc.openCol; rw [if_neg hini]
      rw [ho] at p1 p2 p3 p4 ⊢
      refine ⟨by rw [p1, List.filterMap_append]; simp only [i1], by rw [p3]; simp, ?_, ?_⟩
      · intro c
        rw [p4]
        simp only
        rw [List.filter_append, List.filterMap_append, List.length_append]
        by_cases hc : c = it.col
        · subst hc
          have : l.filter (fun a => decide (a.col = it.col)) = [] := by
            rw [List.filter_eq_nil_iff]; intro a ha; have := hnew a ha; simp; omega
          simp [this]
        · rw [if_neg hc, if_neg hc, i3]
          simp [Ne.symm hc]
      · intro c ⟨a, ha, hac⟩
        rw [p2]
        simp only
        by_cases hc : c = it.col
        · subst hc
          rw [if_pos rfl, i1, List.filter_append]
          have : l.filter (fun a => decide (a.col < it.col)) = l := by
            rw [List.filter_eq_self]; intro a ha; simpa using hnew a ha
          simp [this]
        · rw [if_neg hc]
          have hex : ∃ b ∈ l, b.col = c := by
            rcases List.mem_append.1 ha with h | h
            · exact ⟨a, h, hac⟩
            · rw [List.mem_singleton] at h; subst h; exact absurd hac.symm hc
          rw [i4 c hex, List.filter_append, List.filterMap_append, List.length_append]
          have : ¬ it.col < c := by obtain ⟨b, hb, hbc⟩ := hex; have := hle b hb; omega
          simp [this]

theorem sorted_split : ∀ (l : List Item) (c : Nat), l.Pairwise (fun a b => a.col ≤ b.col) →
    l = (l.filter fun it => it.col < c) ++ (l.filter fun it => it.col = c) ++ (l.filter fun it => c < it.col)
  | [], _, _ => by simp
  | a :: l, c, h => by
    obtain ⟨h1, h2⟩ := List.pairwise_cons.1 h
    have ih := sorted_split l c h2
    rcases lt_trichotomy a.col c with hc | hc | hc
    · have n1 : ¬ a.col = c := by omega
      have n2 : ¬ c < a.col := by omega
      simp only [List.filter_cons, hc, n1, n2, decide_true, decide_false, if_true, Bool.false_eq_true, if_false, List.cons_append]
      rw [← ih]
    · have e : l.filter (fun it => decide (it.col < c)) = [] := by
        rw [List.filter_eq_nil_iff]; intro b hb; have := h1 b hb; simp; omega
      rw [e] at ih
      simp only [List.nil_append] at ih
      simp only [List.filter_cons, hc, decide_true, decide_false, if_true, Bool.false_eq_true, if_false, e, List.nil_append, List.cons_append, lt_irrefl]
      rw [← ih]
    · have e1 : l.filter (fun it => decide (it.col < c)) = [] := by
        rw [List.filter_eq_nil_iff]; intro b hb; have := h1 b hb; simp; omega
      have e2 : l.filter (fun it => decide (it.col = c)) = [] := by
        rw [List.filter_eq_nil_iff]; intro b hb; have := h1 b hb; simp; omega
      rw [e1, e2] at ih
      simp only [List.nil_append] at ih
      have n1 : ¬ a.col < c := by omega
      have n2 : ¬ a.col = c := by omega
      simp only [List.filter_cons, hc, n1, n2, decide_true, decide_false, if_true, Bool.false_eq_true, if_false, e1, e2, List.nil_append]
      rw [← ih]

/-- The column-ordered matrix built from items sorted by column: each column holds exactly its stored items, in order. -/
theorem csc_column (l : List Item) (h : l.Pairwise fun a b => a.col ≤ b.col) (c : Nat) : (csc l).column c = (l.filter fun it => it.col = c).filterMap Item.entry := by
  obtain ⟨h1, _, h3, h4⟩ := csc_inv l h
  unfold Csc.column
  rw [h3, h1]
  by_cases hex : ∃ it ∈ l, it.col = c
  · rw [h4 c hex]
    conv_lhs => rw [sorted_split l c h]
    rw [List.filterMap_append, List.filterMap_append, List.append_assoc, List.filter_append, List.filter_append]
    have e1 : ((l.filter fun it => decide (it.col < c)).filter fun it => decide (it.col < c)) = l.filter fun it => decide (it.col < c) := by simp
    have e2 : ((l.filter fun it => decide (it.col = c)).filter fun it => decide (it.col < c)) = [] := by
      rw [List.filter_eq_nil_iff]; intro b hb; simp at hb ⊢; omega
    have e3 : ((l.filter fun it => decide (c < it.col)).filter fun it => decide (it.col < c)) = [] := by
      rw [List.filter_eq_nil_iff]; intro b hb; simp at hb ⊢; omega
    have f1 : ((l.filter fun it => decide (it.col < c)).filter fun it => decide (it.col = c)) = [] := by
      rw [List.filter_eq_nil_iff]; intro b hb; simp at hb ⊢; omega
    have f2 : ((l.filter fun it => decide (it.col = c)).filter fun it => decide (it.col = c)) = l.filter fun it => decide (it.col = c) := by simp
    have f3 : ((l.filter fun it => decide (c < it.col)).filter fun it => decide (it.col = c)) = [] := by
      rw [List.filter_eq_nil_iff]; intro b hb; simp at hb ⊢; omega
    simp only [List.filter_append, e1, e2, e3, f1, f2, f3, List.append_nil, List.nil_append]
    simp only [List.append_assoc]
    rw [List.drop_left, List.take_left]
  · have e : l.filter (fun it => decide (it.col = c)) = [] := by
      rw [List.filter_eq_nil_iff]; intro b hb; simp; exact fun hh => hex ⟨b, hb, hh⟩
    rw [e]
    simp

theorem rank_inj (keep : Nat → Bool) (r s k : Nat) (h1 : rank keep r = some k) (h2 : rank keep s = some k) : r = s := by
  have aux : ∀ r s, r < s → keep r = true → (List.range r).countP keep < (List.range s).countP keep := by
    intro r s h hk
    have hsub : List.range s = List.range r ++ (List.range (s - r)).map (r + ·) := by
      rw [← List.range_add]; congr 1; omega
    rw [hsub, List.countP_append]
    have : 0 < ((List.range (s - r)).map (r + ·)).countP keep := by
      rw [List.countP_pos_iff]
      exact ⟨r, List.mem_map.2 ⟨0, by simp; omega, by simp⟩, hk⟩
    omega
  unfold rank at h1 h2
  split_ifs at h1 h2 with a b
  simp only [Option.some.injEq] at h1 h2
  rcases lt_trichotomy r s with h | h | h
  · have := aux r s h a; omega
  · exact h
  · have := aux s r h b; omega

theorem sum_ite_nodup : ∀ (cols : List Nat) (k : Nat) (v : ℚ), cols.Nodup → (cols.map fun c => if k = c then v else 0).sum = if k ∈ cols then v else 0
  | [], _, _, _ => by simp
  | c :: cols, k, v, h => by
    obtain ⟨h1, h2⟩ := List.nodup_cons.1 h
    rw [List.map_cons, List.sum_cons, sum_ite_nodup cols k v h2]
    by_cases hk : k = c
    · subst hk; simp [h1]
    · simp [hk]

theorem sum_by_column (cols : List Nat) (hn : cols.Nodup) (F : Nat → ℚ) (colOf : Nat → Nat) : ∀ (l : List Nat),
    (cols.map fun c => ((l.filter fun k => colOf k = c).map F).sum).sum = (l.map fun k => if colOf k ∈ cols then F k else 0).sum
  | [] => by simp
  | k :: l => by
    rw [List.map_cons, List.sum_cons, ← sum_by_column cols hn F colOf l, ← sum_ite_nodup cols (colOf k) (F k) hn, ← List.sum_map_add]
    congr 1
    apply List.map_congr_left
    intro c _
    by_cases h : colOf k = c
    · simp [h]
    · simp [h]

/-! ### C55: the matrix of the MILP in MilpRounding -/

theorem milp_sorted (lin : Nat → Bool) (ents : List Ent) (srt : List Nat) (h : SortedIdx ents srt) : (milpItems lin ents srt).Pairwise fun a b => a.col ≤ b.col := by
  unfold milpItems
  rw [List.pairwise_map]
  have := h.2
  rw [← List.zipIdx_map_fst 0 srt] at this
  exact (List.pairwise_map (f := Prod.fst) (R := fun a b => (ents.getD a default).col ≤ (ents.getD b default).col)).1 this

/-- **C55**: exact contents of the matrix: rows and positions are right, but position `i` of the sorted order holds the value of entry `i` of the Jacobian. -/
theorem milp_matrix_exact (lin : Nat → Bool) (ents : List Ent) (srt : List Nat) (h : SortedIdx ents srt) (c : Nat) :
    (csc (milpItems lin ents srt)).column c = (srt.zipIdx.filter fun ki => (ents.getD ki.1 default).col = c).filterMap fun ki =>
      (rank lin (ents.getD ki.1 default).row).map fun r => (r, (ents.getD ki.2 default).val) := by
  rw [csc_column _ (milp_sorted lin ents srt h)]
  unfold milpItems
  rw [List.filter_map, List.filterMap_map]
  rfl

/-- **C55**: the matrix is the linear part of the Jacobian when the sorting does not move values, in particular when the Jacobian is given by columns. -/
theorem milp_matrix_partial (lin : Nat → Bool) (ents : List Ent) (srt : List Nat) (h : SortedIdx ents srt)
    (hv : ∀ (i : Nat) (hi : i < srt.length), (ents.getD srt[i] default).val = (ents.getD i default).val) (c : Nat) :
    (csc (milpItems lin ents srt)).column c = trueColumn lin ents srt c := by
  rw [milp_matrix_exact lin ents srt h c, trueColumn]
  conv_rhs => rw [← List.zipIdx_map_fst 0 srt, List.filter_map, List.filterMap_map]
  apply List.filterMap_congr
  intro ki hki
  have hm := List.mem_of_mem_filter hki
  obtain ⟨h1, h2⟩ := List.mem_zipIdx' hm
  simp only [Function.comp]
  rw [h2, hv ki.2 h1]

example : SortedIdx [⟨0, 0, 1⟩, ⟨1, 0, 3⟩, ⟨0, 1, 2⟩] [0, 1, 2] ∧
    (csc (milpItems (fun r => r == 1) [⟨0, 0, 1⟩, ⟨1, 0, 3⟩, ⟨0, 1, 2⟩] [0, 1, 2])).column 0 = [(0, 3)] := by
  refine ⟨⟨by decide, by decide⟩, by decide +kernel⟩

/-- **C55** refuted for a Jacobian given by rows: the entry (1, 0) with value 3 gets the value 2 of entry (0, 1). -/
theorem milp_matrix_by_rows : SortedIdx [⟨0, 0, 1⟩, ⟨0, 1, 2⟩, ⟨1, 0, 3⟩] [0, 2, 1] ∧
    (csc (milpItems (fun _ => true) [⟨0, 0, 1⟩, ⟨0, 1, 2⟩, ⟨1, 0, 3⟩] [0, 2, 1])).column 0 = [(0, 1), (1, 2)] ∧
    trueColumn (fun _ => true) [⟨0, 0, 1⟩, ⟨0, 1, 2⟩, ⟨1, 0, 3⟩] [0, 2, 1] 0 = [(0, 1), (1, 3)] := by
  refine ⟨⟨by decide, by decide⟩, by decide +kernel, by decide +kernel⟩

/-- **C55**: the numbering of the kept rows is a bijection with an initial segment of the numbers, in the same order. -/
theorem rank_spec (keep : Nat → Bool) (m : Nat) :
    (∀ r s k, rank keep r = some k → rank keep s = some k → r = s) ∧
    (∀ k < (List.range m).countP keep, ∃ r < m, rank keep r = some k) ∧
    (∀ r < m, ∀ k, rank keep r = some k → k < (List.range m).countP keep) ∧ ∀ r, rank keep r = none ↔ keep r = false := by
  refine ⟨rank_inj keep, ?_, ?_, ?_⟩
  · induction m with
    | zero => simp
    | succ m ih =>
      intro k hk
      rw [List.range_succ, List.countP_append] at hk
      by_cases hlt : k < (List.range m).countP keep
      · obtain ⟨r, hr, e⟩ := ih k hlt
        exact ⟨r, by omega, e⟩
      · by_cases hm : keep m = true
        · simp [hm] at hk
          exact ⟨m, by omega, by unfold rank; rw [if_pos hm]; congr 1; omega⟩
        · simp [hm] at hk; omega
  · intro r hr k hk
    unfold rank at hk
    split_ifs at hk with h
    simp only [Option.some.injEq] at hk
    have hsub : List.range m = List.range r ++ (List.range (m - r)).map (r + ·) := by
      rw [← List.range_add]; congr 1; omega
    rw [hsub, List.countP_append, hk]
    have : 0 < ((List.range (m - r)).map (r + ·)).countP keep := by
      rw [List.countP_pos_iff]
      exact ⟨r, List.mem_map.2 ⟨0, by simp; omega, by simp⟩, h⟩
    omega
  · intro r
    unfold rank
    cases h : keep r <;> simp

/-! ### C56: the MIP of DiveMIP -/

theorem dive_sorted (ents : List Ent) (srt : List Nat) (h : SortedIdx ents srt) : (diveItems ents srt).Pairwise fun a b => a.col ≤ b.col := by
  unfold diveItems
  rw [List.pairwise_map]
  exact h.2

theorem sum_filter_ite {α : Type} (q : α → Bool) (F : α → ℚ) : ∀ l : List α, ((l.filter q).map F).sum = (l.map fun a => if q a then F a else 0).sum
  | [] => by simp
  | a :: l => by
    by_cases h : q a = true
    · simp [h, sum_filter_ite q F l]
    · simp [h, sum_filter_ite q F l]

/-- **C56**: the activity of a MIP row is that of the row of the problem it stands for, restricted to the linear columns. -/
theorem mipAct_eq (isLin : Nat → Bool) (ents : List Ent) (srt : List Nat) (h : SortedIdx ents srt) (cols : List Nat) (hn : cols.Nodup)
    (hc : ∀ e ∈ ents, (e.col ∈ cols ↔ isLin e.col = true)) (w : Nat → ℚ) (r k : Nat) (hr : rank (hasLinear isLin ents) r = some k) :
    mipAct isLin ents srt cols w k = linAct isLin ents w r := by
  have hcol : ∀ c, mipColumn isLin ents srt c = (srt.filter fun j => (ents.getD j default).col = c).map fun j =>
      (rank (hasLinear isLin ents) (ents.getD j default).row, (ents.getD j default).val) := by
    intro c
    unfold mipColumn
    rw [csc_column _ (dive_sorted ents srt h)]
    unfold diveItems
    rw [List.filter_map, List.filterMap_map, List.map_filterMap]
    rw [← List.filterMap_eq_map]
    apply List.filterMap_congr
    intro j _
    simp [Item.entry]
  have hrk : ∀ s, rank (hasLinear isLin ents) s = some k ↔ s = r := fun s => ⟨fun hs => rank_inj _ s r k hs hr, fun e => e ▸ hr⟩
  unfold mipAct
  have step1 : (cols.map fun c => ((mipColumn isLin ents srt c).map fun rv => if rv.1 = some k then rv.2 * w c else 0).sum) =
      cols.map fun c => ((srt.filter fun j => (ents.getD j default).col = c).map fun j =>
        if (ents.getD j default).row = r then (ents.getD j default).val * w (ents.getD j default).col else 0).sum := by
    apply List.map_congr_left
    intro c _
    rw [hcol, List.map_map]
    congr 1
    apply List.map_congr_left
    intro j hj
    have : (ents.getD j default).col = c := by simpa using (List.mem_filter.1 hj).2
    simp only [Function.comp, hrk, this]
  rw [step1, sum_by_column cols hn _ (fun j => (ents.getD j default).col)]
  rw [List.Perm.sum_eq (h.1.map _)]
  have step2 : ((List.range ents.length).map fun j => if (ents.getD j default).col ∈ cols then
      (if (ents.getD j default).row = r then (ents.getD j default).val * w (ents.getD j default).col else 0) else 0) =
      ents.map fun e => if e.col ∈ cols then (if e.row = r then e.val * w e.col else 0) else 0 := by
    apply List.ext_getElem
    · simp
    · intro i h1 h2
      simp only [List.length_map, List.length_range] at h1
      simp [h1]
  rw [step2]
  unfold linAct
  rw [sum_filter_ite]
  congr 1
  apply List.map_congr_left
  intro e he
  have := hc e he
  by_cases h1 : isLin e.col = true
  · have h2 := this.2 h1
    simp [h1, h2]
  · have h2 : e.col ∉ cols := fun hm => h1 (this.1 hm)
    simp [h1, h2]

/-- **C56**: for constraint functions affine in the linear columns (with the Jacobian entries as coefficients), a point that keeps the nonlinear columns satisfies a MIP
row exactly when it satisfies the row of the problem. -/
theorem mip_rows_exact (isLin : Nat → Bool) (ents : List Ent) (srt : List Nat) (h : SortedIdx ents srt) (cols : List Nat) (hn : cols.Nodup)
    (hc : ∀ e ∈ ents, (e.col ∈ cols ↔ isLin e.col = true)) (g : (Nat → ℚ) → Nat → ℚ) (x w : Nat → ℚ) (r k : Nat) (hr : rank (hasLinear isLin ents) r = some k)
    (haff : g w r = g (zeroLinear isLin x) r + linAct isLin ents w r) (gl gu : Nat → Option ℚ) :
    Within (mipBound (g (zeroLinear isLin x)) gl r) (mipBound (g (zeroLinear isLin x)) gu r) (mipAct isLin ents srt cols w k) ↔ Within (gl r) (gu r) (g w r) := by
  rw [mipAct_eq isLin ents srt h cols hn hc w r k hr, haff]
  unfold Within mipBound
  constructor
  · rintro ⟨h1, h2⟩
    refine ⟨fun l hl => ?_, fun u hu => ?_⟩
    · have := h1 (l - g (zeroLinear isLin x) r) (by rw [hl]; rfl); linarith
    · have := h2 (u - g (zeroLinear isLin x) r) (by rw [hu]; rfl); linarith
  · rintro ⟨h1, h2⟩
    refine ⟨fun l hl => ?_, fun u hu => ?_⟩
    · obtain ⟨a, ha, rfl⟩ := Option.map_eq_some_iff.1 hl
      have := h1 a ha; linarith
    · obtain ⟨a, ha, rfl⟩ := Option.map_eq_some_iff.1 hu
      have := h2 a ha; linarith

/-- **C56**: rows left out of the MIP have no linear column: their value does not depend on what the MIP decides. -/
theorem mip_rows_left_out (isLin : Nat → Bool) (ents : List Ent) (r : Nat) (w : Nat → ℚ) (h : rank (hasLinear isLin ents) r = none) : linAct isLin ents w r = 0 := by
  unfold rank at h
  split_ifs at h with hk
  unfold linAct
  have : (ents.filter fun e => decide (e.row = r) && isLin e.col) = [] := by
    rw [List.filter_eq_nil_iff]
    intro e he hh
    exact hk (List.any_eq_true.2 ⟨e, he, hh⟩)
  simp [this]

/-- Instance: g0 = x0² + 2 x1, g1 = x0, g2 = 3 x1 + x2 with x0 nonlinear; the Jacobian by rows. -/
example : SortedIdx [⟨0, 0, 4⟩, ⟨0, 1, 2⟩, ⟨1, 0, 1⟩, ⟨2, 1, 3⟩, ⟨2, 2, 1⟩] [0, 2, 1, 3, 4] ∧
    rank (hasLinear (fun c => c != 0) [⟨0, 0, 4⟩, ⟨0, 1, 2⟩, ⟨1, 0, 1⟩, ⟨2, 1, 3⟩, ⟨2, 2, 1⟩]) 2 = some 1 ∧
    rank (hasLinear (fun c => c != 0) [⟨0, 0, 4⟩, ⟨0, 1, 2⟩, ⟨1, 0, 1⟩, ⟨2, 1, 3⟩, ⟨2, 2, 1⟩]) 1 = none ∧
    mipAct (fun c => c != 0) [⟨0, 0, 4⟩, ⟨0, 1, 2⟩, ⟨1, 0, 1⟩, ⟨2, 1, 3⟩, ⟨2, 2, 1⟩] [0, 2, 1, 3, 4] [1, 2] (fun c => c) 1 = 5 := by
  refine ⟨⟨by decide, by decide⟩, by decide, by decide, by decide +kernel⟩

/-! ### C36: no-good cuts -/

/-- The columns in the cut: integer columns whose value rounds to a positive number. -/
def onesOf (p : Prob) (x : Nat → ℚ) (cs : List Nat) : List Nat := cs.filter fun c => p.isInt c && decide (0 < round (x c))

theorem half_lt_round (v : ℚ) : (1 : ℚ) / 2 < (⌊v + 1 / 2⌋ : ℚ) ↔ 0 < round v := by
  rw [round_eq]
  constructor
  · intro h
    by_contra hn
    have : ⌊v + 1 / 2⌋ ≤ 0 := not_lt.1 hn
    have : (⌊v + 1 / 2⌋ : ℚ) ≤ 0 := by exact_mod_cast this
    linarith
  · intro h
    have : (1 : ℚ) ≤ (⌊v + 1 / 2⌋ : ℚ) := by exact_mod_cast h
    linarith

theorem ngLoop_spec (tol : ℚ) (p : Prob) (x : Nat → ℚ) : ∀ (cs : List Nat) (g : NoGood),
    ngLoop tol p.isInt x cs g =
      (⟨g.v ++ onesOf p x (cs.takeWhile fun c => !(p.isInt c && isFrac tol (x c))),
        g.lb - ((onesOf p x (cs.takeWhile fun c => !(p.isInt c && isFrac tol (x c)))).map fun c => (round (x c) : ℚ)).sum⟩,
        cs.all fun c => !(p.isInt c && isFrac tol (x c)))
  | [], g => by simp [ngLoop, onesOf]
  | c :: cs, g => by
    rw [ngLoop]
    cases hI : p.isInt c
    · rw [if_neg (by simp), ngLoop_spec tol p x cs g]
      simp [onesOf, hI]
    · rw [if_pos rfl]
      cases hf : isFrac tol (x c)
      · simp only [Bool.false_eq_true, if_false]
        by_cases h0 : 0 < round (x c)
        · rw [if_pos ((half_lt_round _).2 h0), ngLoop_spec tol p x cs _, ← round_eq]
          simp [onesOf, hI, hf, h0, sub_sub]
        · rw [if_neg (by rw [half_lt_round]; exact h0), ngLoop_spec tol p x cs _]
          simp [onesOf, hI, hf, h0]
      · simp [onesOf, hI, hf]

/-- **C36**: exact contents of the cut: with the columns before the first fractional integer column, it says that the columns whose value rounds to a positive number add up
to at most the sum of the rounded values minus 1; the NLP is solved exactly when no integer column is fractional. -/
theorem noGood_exact (tol : ℚ) (p : Prob) (x y : Nat → ℚ) :
    ((noGood tol p x).1.sat y ↔ ((onesOf p x ((List.range p.n).takeWhile fun c => !(p.isInt c && isFrac tol (x c)))).map y).sum ≤
      ((onesOf p x ((List.range p.n).takeWhile fun c => !(p.isInt c && isFrac tol (x c)))).map fun c => (round (x c) : ℚ)).sum - 1) ∧
    ((noGood tol p x).2 = true ↔ Integral p tol x) := by
  unfold noGood
  rw [ngLoop_spec]
  have hneg : ∀ l : List Nat, (l.map fun c => -y c).sum = -(l.map y).sum := by
    intro l
    induction l with
    | nil => simp
    | cons a l ih => simp [ih]; ring
  constructor
  · unfold NoGood.sat
    simp only [List.nil_append]
    rw [hneg]
    constructor <;> intro h <;> linarith
  · simp only [List.all_eq_true, List.mem_range, Bool.not_eq_true', Bool.and_eq_false_iff, Integral]
    constructor
    · intro h i hi hI
      rcases h i hi with h | h
      · rw [hI] at h; cases h
      · exact (not_isFrac_iff _ _).1 h
    · intro h i hi
      cases hI : p.isInt i
      · exact Or.inl rfl
      · exact Or.inr ((not_isFrac_iff _ _).2 (h i hi hI))

theorem takeWhile_all (q : Nat → Bool) : ∀ l : List Nat, (∀ c ∈ l, q c = true) → l.takeWhile q = l
  | [], _ => rfl
  | a :: l, h => by rw [List.takeWhile_cons, if_pos (h a (by simp)), takeWhile_all q l fun c hc => h c (by simp [hc])]

theorem takeWhile_integral (tol : ℚ) (p : Prob) (x : Nat → ℚ) (h : Integral p tol x) :
    ((List.range p.n).takeWhile fun c => !(p.isInt c && isFrac tol (x c))) = List.range p.n := by
  refine takeWhile_all _ _ fun c hc => ?_
  cases hI : p.isInt c
  · simp
  · have := (not_isFrac_iff _ _).2 (h c (List.mem_range.1 hc) hI)
    simp [this]

theorem binary_sum : ∀ (l : List Nat) (x y : Nat → ℚ), (∀ c ∈ l, x c = 1) → (∀ c ∈ l, y c = 0 ∨ y c = 1) → ((l.map y).sum ≤ (l.map x).sum - 1 ↔ ∃ c ∈ l, y c = 0)
  | [], _, _, _, _ => by simp
  | a :: l, x, y, hx, hy => by
    have ih := binary_sum l x y (fun c hc => hx c (by simp [hc])) (fun c hc => hy c (by simp [hc]))
    have hle : (l.map y).sum ≤ (l.map x).sum := List.sum_le_sum fun c hc => by
      rw [hx c (by simp [hc])]; rcases hy c (by simp [hc]) with e | e <;> rw [e]; norm_num
    simp only [List.map_cons, List.sum_cons, List.mem_cons, exists_eq_or_imp]
    rw [← ih, hx a (by simp)]
    rcases hy a (by simp) with e | e <;> rw [e]
    · constructor
      · intro _; exact Or.inl rfl
      · intro _; linarith
    · constructor
      · intro h; right; linarith
      · rintro (h | h)
        · norm_num at h
        · linarith

/-- **C36**: binary points: the cut removes exactly the points that have a 1 wherever the visited point has. -/
theorem noGood_binary (tol : ℚ) (p : Prob) (x y : Nat → ℚ) (hx : Integral p tol x) (hb : ∀ c < p.n, p.isInt c = true → round (x c) = 0 ∨ round (x c) = 1)
    (hy : ∀ c < p.n, p.isInt c = true → y c = 0 ∨ y c = 1) :
    (noGood tol p x).1.sat y ↔ ∃ c < p.n, p.isInt c = true ∧ round (x c) = 1 ∧ y c = 0 := by
  rw [(noGood_exact tol p x y).1, takeWhile_integral tol p x hx, binary_sum]
  · constructor
    · rintro ⟨c, hc, h0⟩
      simp only [onesOf, List.mem_filter, List.mem_range, Bool.and_eq_true, decide_eq_true_iff] at hc
      obtain ⟨hcn, hI, hp⟩ := hc
      refine ⟨c, hcn, hI, ?_, h0⟩
      rcases hb c hcn hI with h | h <;> omega
    · rintro ⟨c, hcn, hI, h1, h0⟩
      refine ⟨c, ?_, h0⟩
      simp only [onesOf, List.mem_filter, List.mem_range, Bool.and_eq_true, decide_eq_true_iff]
      exact ⟨hcn, hI, by omega⟩
  · intro c hc
    simp only [onesOf, List.mem_filter, List.mem_range, Bool.and_eq_true, decide_eq_true_iff] at hc
    rcases hb c hc.1 hc.2.1 with h | h
    · omega
    · rw [h]; norm_num
  · intro c hc
    simp only [onesOf, List.mem_filter, List.mem_range, Bool.and_eq_true, decide_eq_true_iff] at hc
    exact hy c hc.1 hc.2.1

theorem sum_near : ∀ (l : List Nat) (x y : Nat → ℚ) (tol : ℚ), (∀ c ∈ l, x c - tol ≤ y c) → (l.map x).sum - l.length * tol ≤ (l.map y).sum
  | [], _, _, _, _ => by simp
  | a :: l, x, y, tol, h => by
    have ih := sum_near l x y tol fun c hc => h c (by simp [hc])
    have := h a (by simp)
    simp only [List.map_cons, List.sum_cons, List.length_cons]
    push_cast
    linarith

/-- **C36**: the visited point, and any other point with the same rounded values, violates the cut (also with general integers), as long as the integer tolerances cannot
add up to 1. -/
theorem noGood_excludes_partial (tol : ℚ) (p : Prob) (x y : Nat → ℚ) (hx : Integral p tol x) (hy : Integral p tol y) (ht : 0 ≤ tol) (hn : p.n * tol < 1)
    (he : ∀ c < p.n, p.isInt c = true → round (y c) = round (x c)) : ¬ (noGood tol p x).1.sat y := by
  rw [(noGood_exact tol p x y).1, takeWhile_integral tol p x hx, not_le]
  have h := sum_near (onesOf p x (List.range p.n)) (fun c => (round (x c) : ℚ)) y tol (by
    intro c hc
    simp only [onesOf, List.mem_filter, List.mem_range, Bool.and_eq_true, decide_eq_true_iff] at hc
    obtain ⟨z, hz⟩ := hy c hc.1 hc.2.1
    have hr := round_le (y c) z
    rw [abs_sub_comm (z : ℚ)] at hz
    have h3 := abs_le.1 (le_trans hr hz)
    rw [he c hc.1 hc.2.1] at h3
    linarith [h3.1])
  have hl : ((onesOf p x (List.range p.n)).length : ℚ) ≤ p.n := by
    have := List.length_filter_le (fun c => p.isInt c && decide (0 < round (x c))) (List.range p.n)
    rw [List.length_range] at this
    exact_mod_cast this
  nlinarith

/-- The heuristic called again and again: cuts after a sequence of MILP answers. -/
def cutsAfter (tol : ℚ) (p : Prob) (xs : List (Nat → ℚ)) : List NoGood := xs.map fun x => (noGood tol p x).1

theorem milpFinish_cuts (tol inc : ℚ) (p : Prob) (b : Bnds) (solve : Bnds → Option (Nat → ℚ)) (cuts : List NoGood) (x : Nat → ℚ) :
    (milpFinish tol inc p b solve cuts (some x)).1 = cuts ++ cutsAfter tol p [x] ∧ (milpFinish tol inc p b solve cuts none).1 = cuts := ⟨rfl, rfl⟩

/-- **C36**: if every MILP answer satisfies the cuts present, no two answers have the same rounded integer part. -/
theorem milp_no_repeat (tol : ℚ) (p : Prob) (ht : 0 ≤ tol) (hn : p.n * tol < 1) (xs : List (Nat → ℚ)) (hI : ∀ x ∈ xs, Integral p tol x)
    (hs : ∀ (j : Nat) (hj : j < xs.length), ∀ g ∈ cutsAfter tol p (xs.take j), g.sat xs[j]) :
    xs.Pairwise fun x y => ∃ c < p.n, p.isInt c = true ∧ round (y c) ≠ round (x c) := by
  rw [List.pairwise_iff_getElem]
  intro i j hi hj hij
  by_contra hne
  push Not at hne
  refine noGood_excludes_partial tol p xs[i] xs[j] (hI _ (List.getElem_mem _)) (hI _ (List.getElem_mem _)) ht hn hne (hs j hj _ ?_)
  unfold cutsAfter
  refine List.mem_map.2 ⟨xs[i], ?_, rfl⟩
  rw [List.mem_take_iff_getElem]
  exact ⟨i, by omega, rfl⟩

/-- Two binary columns. -/
def bin2 : Prob := ⟨2, 0, fun _ => true, fun _ => 0, fun _ => 0, fun _ => 0, fun _ _ => 0⟩

/-- **C36** refuted: the cut of (1, 0) also removes (1, 1); the cut of (0, 0) removes every point; and a MILP answer with a fractional column, for which no NLP is solved,
still leaves a cut: that of (1, 1/2) removes (1, 0) and (1, 1). -/
theorem noGood_removes_more :
    ¬ (noGood (1 / 10 ^ 6) bin2 fun c => if c = 0 then 1 else 0).1.sat (fun _ => 1) ∧
    (∀ y, ¬ (noGood (1 / 10 ^ 6) bin2 fun _ => 0).1.sat y) ∧
    (noGood (1 / 10 ^ 6) bin2 fun c => if c = 0 then 1 else 1 / 2).2 = false ∧
    ¬ (noGood (1 / 10 ^ 6) bin2 fun c => if c = 0 then 1 else 1 / 2).1.sat (fun c => if c = 0 then 1 else 0) ∧
    ¬ (noGood (1 / 10 ^ 6) bin2 fun c => if c = 0 then 1 else 1 / 2).1.sat (fun _ => 1) := by
  have e1 : (noGood (1 / 10 ^ 6) bin2 fun c => if c = 0 then 1 else 0).1.v = [0] ∧ (noGood (1 / 10 ^ 6) bin2 fun c => if c = 0 then 1 else 0).1.lb = 0 := by decide +kernel
  have e2 : (noGood (1 / 10 ^ 6) bin2 fun _ => 0).1.v = [] ∧ (noGood (1 / 10 ^ 6) bin2 fun _ => 0).1.lb = 1 := by decide +kernel
  have e3 : (noGood (1 / 10 ^ 6) bin2 fun c => if c = 0 then 1 else 1 / 2).1.v = [0] ∧ (noGood (1 / 10 ^ 6) bin2 fun c => if c = 0 then 1 else 1 / 2).1.lb = 0 := by decide +kernel
  refine ⟨?_, fun y => ?_, by decide +kernel, ?_, ?_⟩
  · rw [NoGood.sat, e1.1, e1.2]; norm_num
  · rw [NoGood.sat, e2.1, e2.2]; norm_num
  · rw [NoGood.sat, e3.1, e3.2]; norm_num
  · rw [NoGood.sat, e3.1, e3.2]; norm_num

/-- **C36**: what is returned: the answer of the NLP with all integer columns fixed at their rounded values, when the MILP answer was integral, the solve a success, and the
value better. -/
theorem milp_found_iff (tol inc : ℚ) (p : Prob) (b : Bnds) (solve : Bnds → Option (Nat → ℚ)) (cuts : List NoGood) (x y : Nat → ℚ) (v : ℚ) :
    (milpFinish tol inc p b solve cuts (some x)).2 = some (y, v) ↔ Integral p tol x ∧ v = p.f y ∧ p.f y < inc ∧ ∃ b', solve b' = some y ∧
      ∀ c, (c < p.n ∧ p.isInt c = true → b'.lo c = (round (x c) : ℚ) ∧ b'.up c = (round (x c) : ℚ)) ∧ (¬ (c < p.n ∧ p.isInt c = true) → b'.lo c = b.lo c ∧ b'.up c = b.up c) := by
  simp only [milpFinish]
  rw [← (noGood_exact tol p x x).2]
  have hfix : ∀ b' : Bnds, (∀ c, (c < p.n ∧ p.isInt c = true → b'.lo c = (round (x c) : ℚ) ∧ b'.up c = (round (x c) : ℚ)) ∧
      (¬ (c < p.n ∧ p.isInt c = true) → b'.lo c = b.lo c ∧ b'.up c = b.up c)) ↔
      b' = ⟨fun c => if c < p.n ∧ p.isInt c then (⌊x c + 1 / 2⌋ : ℚ) else b.lo c, fun c => if c < p.n ∧ p.isInt c then (⌊x c + 1 / 2⌋ : ℚ) else b.up c⟩ := by
    intro b'
    constructor
    · intro h
      ext c
      · simp only
        split_ifs with hc
        · rw [((h c).1 hc).1, round_eq]
        · exact ((h c).2 hc).1
      · simp only
        split_ifs with hc
        · rw [((h c).1 hc).2, round_eq]
        · exact ((h c).2 hc).2
    · rintro rfl c
      simp only [round_eq]
      exact ⟨fun hc => ⟨if_pos hc, if_pos hc⟩, fun hc => ⟨if_neg hc, if_neg hc⟩⟩
  constructor
  · intro h
    split_ifs at h with hf
    obtain ⟨w, hw, h⟩ := Option.bind_eq_some_iff.1 h
    split_ifs at h with hlt
    simp only [Option.some.injEq, Prod.mk.injEq] at h
    obtain ⟨rfl, rfl⟩ := h
    exact ⟨hf, rfl, hlt, _, hw, (hfix _).2 rfl⟩
  · rintro ⟨hf, rfl, hlt, b', hs, hb'⟩
    rw [if_pos hf, ← (hfix b').1 hb', hs, Option.bind_some, if_pos hlt]

example : Integral bin2 (1 / 10 ^ 6) (fun c => if c = 0 then 1 else 0) ∧ (bin2.n : ℚ) * (1 / 10 ^ 6) < 1 := by
  refine ⟨fun i _ _ => ?_, by norm_num [bin2]⟩
  by_cases h : i = 0
  · exact ⟨1, by simp [h]⟩
  · exact ⟨0, by simp [h]⟩

end Verif.Heur

import Mathlib.Data.List.Sort
import Verif.Quad.Props

/-!
# Life cycle of a triplet matrix (`TMat`)

The arrays, the orderings and the lists of non-empty rows and columns of `TMat`
(src/Algorithms/QuadCuts/BonTMatrix.hpp, BonTMatrix.cpp) over copies, assignments, changes of size, orderings and the
removal of duplicates.  The three arrays always have the same size and are modelled as one array of entries; an entry
not yet written is `none`.  Row and column numbers are natural numbers.  `std::sort` is a parameter (`Sorts`).
Reading outside an array, through a null pointer or a value not yet written is the outcome `none`.
-/
namespace Verif.Quad

/-- A matrix (BonTMatrix.hpp:22-27 and 147-161).  `arr` = the arrays `iRow_`, `jCol_`, `value_` (`none` = NULL);
`lost` counts the arrays that no pointer leads to any more and that were never deleted (not a member of the class). -/
structure Mat where
  arr : Option (List (Option Ent))
  nnz : Nat
  cap : Nat
  rowOrd : List Nat
  colOrd : List Nat
  rows : List (Nat × Nat)
  cols : List (Nat × Nat)
  lost : Nat
deriving DecidableEq

/-- Default constructor (BonTMatrix.hpp:35-37). -/
def Mat.new : Mat := ⟨none, 0, 0, [], [], [], [], 0⟩

/-- `CoinCopyOfArray(array, n)` (CoinUtils): NULL stays NULL, otherwise the first `n` elements; reading beyond the end of
the array is `none`. -/
def copyOf (a : Option (List (Option Ent))) (n : Nat) : Option (Option (List (Option Ent))) :=
  match a with
  | none => some none
  | some l => if n ≤ l.length then some (some (l.take n)) else none

/-- Copy constructor (BonTMatrix.cpp:15-22). -/
def Mat.copy (s : Mat) : Option Mat :=
  (copyOf s.arr s.nnz).map (fun a => ⟨a, s.nnz, s.nnz, s.rowOrd, s.colOrd, [], [], 0⟩)

/-- `operator=(const TMat&)` (BonTMatrix.cpp:33-48) for two different objects. -/
def Mat.assign (s t : Mat) : Option Mat :=
  (copyOf t.arr t.nnz).map (fun a => ⟨a, t.nnz, t.cap, t.rowOrd, t.colOrd, [], [], s.lost⟩)

/-- `operator=(const CoinPackedMatrix&)` with `create` (BonTMatrix.cpp:51-92) for a matrix whose entries, in storage
order, are `es`.  The lists of non-empty rows and columns are not cleared. -/
def Mat.assignPacked (s : Mat) (es : List Ent) : Mat :=
  { s with arr := some (es.map some), nnz := es.length, cap := es.length, rowOrd := [], colOrd := [] }

/-- The user writes an entry (the arrays are public, BonTMatrix.hpp:23-25). -/
def Mat.set (s : Mat) (i : Nat) (e : Ent) : Option Mat :=
  match s.arr with
  | none => none
  | some l => if i < l.length then some { s with arr := some (l.set i (some e)) } else none

/-- `resizeAndCopyArray` (BonArraysHelpers.hpp:15-33); second component: number of arrays lost. -/
def resz (a : Option (List (Option Ent))) (old new : Nat) : Option (Option (List (Option Ent)) × Nat) :=
  if new = 0 then
    if 0 < old then some (none, 0) else some (a, 0)
  else if 0 < old then
    match a with
    | none => none
    | some l =>
      if (if old < new then old else new) ≤ l.length then
        some (some (l.take (if old < new then old else new) ++ List.replicate (new - old) none), 0)
      else none
  else some (some (List.replicate new none), if a.isSome then 1 else 0)

/-- `resize` (BonTMatrix.hpp:58-63): `capacity_` and the orderings stay. -/
def Mat.resize (s : Mat) (n : Nat) : Option Mat :=
  (resz s.arr s.nnz n).map (fun r => { s with arr := r.1, nnz := n, lost := s.lost + r.2 })

/-- Reading entry `k` of the arrays. -/
def Mat.read (s : Mat) (k : Nat) : Option Ent :=
  match s.arr with
  | none => none
  | some l => (l[k]?).join

/-- The entries as seen by the comparators; only used where `read` succeeds. -/
def Mat.val (s : Mat) (k : Nat) : Ent := (s.read k).getD ⟨0, 0, 0⟩

/-- `resizeOrdering` (BonTMatrix.hpp:137-142): cut off, or continued with the new positions. -/
def resizeOrd (ord : List Nat) (n : Nat) : List Nat :=
  ord.take n ++ (List.range n).drop ord.length

/-- A sorting procedure: comparator on entries, entries, positions to be sorted. -/
abbrev Sorter := (Ent → Ent → Bool) → (Nat → Ent) → List Nat → List Nat

/-- What `std::sort` guarantees: the same positions, no entry before a smaller one. -/
def Sorts (srt : Sorter) : Prop :=
  ∀ lt, lt = rowLt ∨ lt = colLt → ∀ f ord,
    (srt lt f ord).Perm ord ∧ (srt lt f ord).Pairwise (fun i j => lt (f j) (f i) = false)

/-- `orderByRows`, `orderByColumns` (BonTMatrix.hpp:118-128): the comparators read the entries of all positions if there
are at least two. -/
def Mat.order (srt : Sorter) (lt : Ent → Ent → Bool) (s : Mat) (ord : List Nat) : Option (List Nat) :=
  if (resizeOrd ord s.nnz).length ≤ 1 then some (resizeOrd ord s.nnz)
  else if (resizeOrd ord s.nnz).all (fun k => (s.read k).isSome) then some (srt lt s.val (resizeOrd ord s.nnz))
  else none

/-- `numNonEmptyRows` (BonTMatrix.cpp:103-117). -/
def Mat.numRows (srt : Sorter) (s : Mat) : Option (Mat × Nat) :=
  if s.nnz = 0 then some (s, 0)
  else do
    let o ← s.order srt rowLt s.rowOrd
    let rs ← o.mapM s.read
    some ({ s with rowOrd := o, rows := nonEmpty Ent.row rs }, (nonEmpty Ent.row rs).length)

/-- `numNonEmptyCols` (BonTMatrix.cpp:122-136). -/
def Mat.numCols (srt : Sorter) (s : Mat) : Option (Mat × Nat) :=
  if s.nnz = 0 then some (s, 0)
  else do
    let o ← s.order srt colLt s.colOrd
    let rs ← o.mapM s.read
    some ({ s with colOrd := o, cols := nonEmpty Ent.col rs }, (nonEmpty Ent.col rs).length)

/-- Loop of `removeDuplicates` (BonTMatrix.cpp:141-152) on the arrays. -/
def dupArr (ord : List Nat) : List Nat → Nat → List (Option Ent) → Option (List (Option Ent) × Nat)
  | [], j, a => some (a, j)
  | i :: is, j, a => do
    let oi ← ord[i]?
    let oj ← ord[j]?
    let ei ← (a[oi]?).join
    let ej ← (a[oj]?).join
    if ei.col = ej.col ∧ ei.row = ej.row then
      dupArr ord is j (a.set oj (some ⟨ej.row, ej.col, ej.val + ei.val⟩))
    else do
      let oj' ← ord[j + 1]?
      if oj' < a.length then dupArr ord is (j + 1) (a.set oj' (some ei)) else none

/-- `removeDuplicates` (BonTMatrix.cpp:138-157). -/
def Mat.dedup (srt : Sorter) (s : Mat) : Option Mat := do
  let o ← s.order srt rowLt s.rowOrd
  let r ← dupArr o (List.range' 1 (s.nnz - 1)) 0 (s.arr.getD [])
  let z ← resz (s.arr.map (fun _ => r.1)) r.2 s.cap
  some { s with arr := z.1, nnz := r.2, rowOrd := o, lost := s.lost + z.2 }

/-! ### histories -/

/-- Matrices obtained by the public functions, the number of entries never being lowered below the size of an existing
ordering (`removeDuplicates` lowers it and is treated apart). -/
inductive Reach (srt : Sorter) : Mat → Prop
  | new : Reach srt Mat.new
  | copy {s t} : Reach srt s → s.copy = some t → Reach srt t
  | assign {s t u} : Reach srt s → Reach srt t → s.assign t = some u → Reach srt u
  | packed {s} (es) : Reach srt s → Reach srt (s.assignPacked es)
  | set {s t} (i e) : Reach srt s → s.set i e = some t → Reach srt t
  | resize {s t} (n) : Reach srt s → s.rowOrd.length ≤ n → s.colOrd.length ≤ n → s.resize n = some t → Reach srt t
  | rows {s t k} : Reach srt s → s.numRows srt = some (t, k) → Reach srt t
  | cols {s t k} : Reach srt s → s.numCols srt = some (t, k) → Reach srt t

/-- The matrix has exactly the entries `es`. -/
def Mat.Has (s : Mat) (es : List Ent) : Prop :=
  s.nnz = es.length ∧ ∀ k, k < es.length → s.read k = es[k]?

/-- Positions used so far are those of entries, each once. -/
def OrdOk (ord : List Nat) (n : Nat) : Prop := ord.Perm (List.range ord.length) ∧ ord.length ≤ n

/-- Invariant of the histories. -/
def Mat.Inv (s : Mat) : Prop :=
  OrdOk s.rowOrd s.nnz ∧ OrdOk s.colOrd s.nnz ∧ (0 < s.nnz → ∃ l, s.arr = some l ∧ s.nnz ≤ l.length)

theorem resizeOrd_perm {ord : List Nat} {n : Nat} (h : OrdOk ord n) : (resizeOrd ord n).Perm (List.range n) := by
  obtain ⟨hp, hl⟩ := h
  unfold resizeOrd
  rw [List.take_of_length_le hl]
  have hr : List.range n = List.range ord.length ++ (List.range n).drop ord.length := by
    conv_lhs => rw [← List.take_append_drop ord.length (List.range n)]
    rw [List.take_range, min_eq_left hl]
  conv_rhs => rw [hr]
  exact hp.append_right _

theorem ordOk_nil (n : Nat) : OrdOk [] n := ⟨by simp, by simp⟩

theorem ordOk_perm {o : List Nat} {n : Nat} (h : o.Perm (List.range n)) : OrdOk o n := by
  have hl : o.length = n := by simpa using h.length_eq
  exact ⟨by rw [hl]; exact h, le_of_eq hl⟩

theorem order_perm {srt : Sorter} (hs : Sorts srt) {lt} (hlt : lt = rowLt ∨ lt = colLt) {s : Mat} {ord o : List Nat}
    (h : OrdOk ord s.nnz) (ho : s.order srt lt ord = some o) : o.Perm (List.range s.nnz) := by
  unfold Mat.order at ho
  split_ifs at ho
  · cases ho; exact resizeOrd_perm h
  · cases ho; exact ((hs lt hlt _ _).1).trans (resizeOrd_perm h)

theorem copyOf_some {a : Option (List (Option Ent))} {n b} (h : copyOf a n = some b) :
    (0 < n → ∃ l, a = some l ∧ n ≤ l.length) → (0 < n → ∃ l, b = some l ∧ n ≤ l.length) := by
  intro ha hn
  obtain ⟨l, rfl, hl⟩ := ha hn
  simp only [copyOf, if_pos hl, Option.some.injEq] at h
  subst h
  exact ⟨_, rfl, by simp [hl]⟩

theorem resz_some {a : Option (List (Option Ent))} {old n : Nat} {r} (h : resz a old n = some r) (hn : 0 < n) :
    ∃ l, r.1 = some l ∧ l.length = n := by
  unfold resz at h
  rw [if_neg (by omega)] at h
  by_cases ho : 0 < old
  · rw [if_pos ho] at h
    cases a with
    | none => simp at h
    | some l =>
      simp only at h
      by_cases hc : (if old < n then old else n) ≤ l.length
      · rw [if_pos hc] at h
        cases h
        refine ⟨_, rfl, ?_⟩
        simp only [List.length_append, List.length_take, List.length_replicate]
        split_ifs at hc ⊢ <;> omega
      · rw [if_neg hc] at h; cases h
  · rw [if_neg ho] at h
    cases h
    exact ⟨_, rfl, by simp⟩

/-- The invariant holds along all histories. -/
theorem reach_inv {srt : Sorter} (hs : Sorts srt) {s : Mat} (h : Reach srt s) : s.Inv := by
  induction h with
  | new => exact ⟨ordOk_nil _, ordOk_nil _, by simp [Mat.new]⟩
  | copy _ hc ih =>
    simp only [Mat.copy, Option.map_eq_some_iff] at hc
    obtain ⟨a, ha, rfl⟩ := hc
    exact ⟨ih.1, ih.2.1, copyOf_some ha ih.2.2⟩
  | assign _ _ hc _ ih =>
    simp only [Mat.assign, Option.map_eq_some_iff] at hc
    obtain ⟨a, ha, rfl⟩ := hc
    exact ⟨ih.1, ih.2.1, copyOf_some ha ih.2.2⟩
  | packed es _ _ => exact ⟨ordOk_nil _, ordOk_nil _, fun _ => ⟨_, rfl, by simp [Mat.assignPacked]⟩⟩
  | @set s t i e _ hc ih =>
    unfold Mat.set at hc
    cases ha : s.arr with
    | none => simp [ha] at hc
    | some l =>
      simp only [ha] at hc
      split_ifs at hc
      cases hc
      refine ⟨ih.1, ih.2.1, fun hn => ⟨_, rfl, ?_⟩⟩
      obtain ⟨l', hl', hle⟩ := ih.2.2 hn
      rw [ha] at hl'; cases hl'
      simpa using hle
  | @resize s t n _ h1 h2 hc ih =>
    simp only [Mat.resize, Option.map_eq_some_iff] at hc
    obtain ⟨r, hr, rfl⟩ := hc
    refine ⟨⟨ih.1.1, h1⟩, ⟨ih.2.1.1, h2⟩, fun hn => ?_⟩
    obtain ⟨l, h1, h2⟩ := resz_some hr hn
    exact ⟨l, h1, le_of_eq h2.symm⟩
  | @rows s t k _ hc ih =>
    unfold Mat.numRows at hc
    split_ifs at hc with h0
    · cases hc; exact ih
    · simp only [Option.bind_eq_bind, Option.bind_eq_some_iff] at hc
      obtain ⟨o, ho, rs, _, hc⟩ := hc
      cases hc
      exact ⟨ordOk_perm (order_perm hs (.inl rfl) ih.1 ho), ih.2.1, ih.2.2⟩
  | @cols s t k _ hc ih =>
    unfold Mat.numCols at hc
    split_ifs at hc with h0
    · cases hc; exact ih
    · simp only [Option.bind_eq_bind, Option.bind_eq_some_iff] at hc
      obtain ⟨o, ho, rs, _, hc⟩ := hc
      cases hc
      exact ⟨ih.1, ordOk_perm (order_perm hs (.inr rfl) ih.2.1 ho), ih.2.2⟩

/-! ### the lists of non-empty rows and columns -/

/-- Specification: `l` lists the values of `key` on `es`, increasing, each with the number of entries of smaller key. -/
def Lists (key : Ent → Nat) (es : List Ent) (l : List (Nat × Nat)) : Prop :=
  l.Pairwise (fun p q => p.1 < q.1) ∧
  ∀ p, p ∈ l ↔ (∃ e ∈ es, key e = p.1) ∧ p.2 = (es.filter (fun e => key e < p.1)).length

theorem scan_lists (key : Ent → Nat) (full pre es : List Ent) (b : Nat) (hfull : full = pre ++ es)
    (hs : full.Pairwise (fun x y => key x ≤ key y)) (hpre : ∀ e ∈ pre, key e ≤ b) (hes : ∀ e ∈ es, b ≤ key e) :
    (nonEmptyScan key es pre.length b).Pairwise (fun p q => p.1 < q.1) ∧
    ∀ p, p ∈ nonEmptyScan key es pre.length b ↔
      b < p.1 ∧ (∃ e ∈ es, key e = p.1) ∧ p.2 = (full.filter (fun e => key e < p.1)).length := by
  induction es generalizing pre b with
  | nil => simp [nonEmptyScan]
  | cons e es ih =>
    have hl : (pre ++ [e]).length = pre.length + 1 := by simp
    have hf : full = (pre ++ [e]) ++ es := by simp [hfull]
    have hsorted : (e :: es).Pairwise (fun x y => key x ≤ key y) := by
      rw [hfull] at hs; exact (List.pairwise_append.1 hs).2.1
    simp only [List.pairwise_cons] at hsorted
    simp only [List.mem_cons, forall_eq_or_imp] at hes
    unfold nonEmptyScan
    by_cases h : key e > b
    · rw [if_pos h]
      obtain ⟨i1, i2⟩ := ih (pre ++ [e]) (key e) hf
        (by intro x hx
            simp only [List.mem_append, List.mem_singleton] at hx
            rcases hx with hx | rfl
            · have := hpre x hx; omega
            · omega) hsorted.1
      rw [hl] at i1 i2
      have hcount : (full.filter (fun x => key x < key e)).length = pre.length := by
        rw [hfull, List.filter_append]
        have e1 : pre.filter (fun x => decide (key x < key e)) = pre :=
          List.filter_eq_self.2 (fun x hx => by have := hpre x hx; simp; omega)
        have e2 : (e :: es).filter (fun x => decide (key x < key e)) = [] :=
          List.filter_eq_nil_iff.2 (fun x hx => by
            simp only [List.mem_cons] at hx
            rcases hx with rfl | hx
            · simp
            · have := hsorted.1 x hx; simp; omega)
        rw [e1, e2]; simp
      refine ⟨List.pairwise_cons.2 ⟨fun q hq => ((i2 q).1 hq).1, i1⟩, fun p => ?_⟩
      rw [List.mem_cons, i2 p]
      constructor
      · rintro (rfl | ⟨h1, ⟨x, hx, hk⟩, h3⟩)
        · exact ⟨h, ⟨e, by simp, rfl⟩, hcount.symm⟩
        · exact ⟨by omega, ⟨x, by simp [hx], hk⟩, h3⟩
      · rintro ⟨h1, ⟨x, hx, hk⟩, h3⟩
        by_cases hp : p.1 = key e
        · left
          rw [hp, hcount] at h3
          exact Prod.ext hp h3
        · right
          simp only [List.mem_cons] at hx
          rcases hx with rfl | hx
          · exact absurd hk.symm hp
          · have := hsorted.1 x hx
            exact ⟨by omega, ⟨x, hx, hk⟩, h3⟩
    · rw [if_neg h]
      have hb : key e = b := by omega
      obtain ⟨i1, i2⟩ := ih (pre ++ [e]) b hf
        (by intro x hx
            simp only [List.mem_append, List.mem_singleton] at hx
            rcases hx with hx | rfl
            · exact hpre x hx
            · omega) hes.2
      rw [hl] at i1 i2
      refine ⟨i1, fun p => ?_⟩
      rw [i2 p]
      constructor
      · rintro ⟨h1, ⟨x, hx, hk⟩, h3⟩
        exact ⟨h1, ⟨x, by simp [hx], hk⟩, h3⟩
      · rintro ⟨h1, ⟨x, hx, hk⟩, h3⟩
        simp only [List.mem_cons] at hx
        rcases hx with rfl | hx
        · omega
        · exact ⟨h1, ⟨x, hx, hk⟩, h3⟩

theorem nonEmpty_lists (key : Ent → Nat) (rs : List Ent) (hs : rs.Pairwise (fun x y => key x ≤ key y)) :
    Lists key rs (nonEmpty key rs) := by
  cases rs with
  | nil => simp [Lists, nonEmpty]
  | cons e es =>
    have hs' := List.pairwise_cons.1 hs
    obtain ⟨i1, i2⟩ := scan_lists key (e :: es) [e] es (key e) (by simp) hs (by simp) hs'.1
    simp only [List.length_singleton] at i1 i2
    have hcount : ((e :: es).filter (fun x => decide (key x < key e))).length = 0 := by
      rw [List.length_eq_zero_iff, List.filter_eq_nil_iff]
      intro x hx
      simp only [List.mem_cons] at hx
      rcases hx with rfl | hx
      · simp
      · have := hs'.1 x hx; simp; omega
    refine ⟨List.pairwise_cons.2 ⟨fun q hq => ((i2 q).1 hq).1, i1⟩, fun p => ?_⟩
    rw [nonEmpty, List.mem_cons, i2 p]
    constructor
    · rintro (rfl | ⟨h1, ⟨x, hx, hk⟩, h3⟩)
      · exact ⟨⟨e, by simp, rfl⟩, hcount.symm⟩
      · exact ⟨⟨x, by simp [hx], hk⟩, h3⟩
    · rintro ⟨⟨x, hx, hk⟩, h3⟩
      by_cases hp : p.1 = key e
      · left
        rw [hp, hcount] at h3
        exact Prod.ext hp h3
      · right
        simp only [List.mem_cons] at hx
        rcases hx with rfl | hx
        · exact absurd hk.symm hp
        · have := hs'.1 x hx
          exact ⟨by omega, ⟨x, hx, hk⟩, h3⟩

theorem lists_perm {key : Ent → Nat} {es rs : List Ent} (h : rs.Perm es) {l} (hl : Lists key rs l) : Lists key es l := by
  refine ⟨hl.1, fun p => ?_⟩
  rw [hl.2 p, (h.filter _).length_eq]
  simp only [h.mem_iff]

theorem mapM_read {s : Mat} {es : List Ent} (hh : s.Has es) :
    ∀ (o : List Nat), (∀ k ∈ o, k < es.length) → o.mapM s.read = some (o.map s.val) ∧
      o.map (fun k => some (s.val k)) = o.map (fun k => es[k]?)
  | [], _ => by simp
  | k :: o, h => by
    obtain ⟨h1, h2⟩ := mapM_read hh o (fun x hx => h x (by simp [hx]))
    have hk := h k (by simp)
    have hr : s.read k = some es[k] := by rw [hh.2 k hk, List.getElem?_eq_getElem hk]
    have hv : s.val k = es[k] := by simp [Mat.val, hr]
    constructor
    · simp only [List.mapM_cons, hr, h1, Option.bind_eq_bind, Option.bind_some, Option.pure_def, List.map_cons, hv]
    · rw [List.map_cons, List.map_cons, h2, hv, List.getElem?_eq_getElem hk]

theorem vals_perm {s : Mat} {es : List Ent} (hh : s.Has es) {o : List Nat} (ho : o.Perm (List.range es.length)) :
    (o.map s.val).Perm es := by
  have h1 := ho.map s.val
  refine h1.trans (List.Perm.of_eq ?_)
  apply List.ext_getElem (by simp)
  intro k hk hk'
  simp only [List.length_map, List.length_range] at hk
  simp only [List.getElem_map, List.getElem_range]
  simp [Mat.val, hh.2 k hk, List.getElem?_eq_getElem hk]

theorem order_defined {srt : Sorter} (hs : Sorts srt) {lt} (hlt : lt = rowLt ∨ lt = colLt) {s : Mat} {es : List Ent}
    (hh : s.Has es) {ord : List Nat} (hok : OrdOk ord s.nnz) :
    ∃ o, s.order srt lt ord = some o ∧ o.Perm (List.range es.length) ∧
      (o.map s.val).Pairwise (fun a b => lt b a = false) := by
  have hp := resizeOrd_perm hok
  rw [hh.1] at hp
  by_cases h1 : (resizeOrd ord s.nnz).length ≤ 1
  · refine ⟨_, by rw [Mat.order, if_pos h1], by rw [hh.1]; exact hp, ?_⟩
    match h : resizeOrd ord s.nnz with
    | [] => simp
    | [_] => simp
    | _ :: _ :: _ => rw [h] at h1; simp at h1
  · have hall : (resizeOrd ord s.nnz).all (fun k => (s.read k).isSome) = true := by
      rw [List.all_eq_true]
      intro k hk
      rw [hh.1] at hk
      have : k < es.length := by simpa using hp.mem_iff.1 hk
      simp [hh.2 k this, this]
    refine ⟨_, by rw [Mat.order, if_neg h1, if_pos hall], ?_, ?_⟩
    · exact ((hs lt hlt _ _).1).trans (by rw [hh.1]; exact hp)
    · rw [List.pairwise_map]
      exact (hs lt hlt _ _).2

theorem row_key {a b : Ent} (h : rowLt b a = false) : a.row ≤ b.row := by
  unfold rowLt at h
  split_ifs at h
  omega

theorem col_key {a b : Ent} (h : colLt b a = false) : a.col ≤ b.col := by
  unfold colLt at h
  split_ifs at h
  omega

/-- **C220 (partial).** Along every history (copies, assignments, changes of size not below an existing ordering, writes,
earlier queries) `numNonEmptyRows` on a matrix with the entries `es`, at least one, is defined, returns the number of
rows occurring, and leaves exactly these in the list, increasing, each with the number of entries in rows before it, that
is, the position where the row starts in the row ordering; the entries stay as they are. -/
theorem num_rows_partial {srt : Sorter} (hs : Sorts srt) {s : Mat} (hr : Reach srt s) {es : List Ent} (hh : s.Has es)
    (hne : es ≠ []) :
    ∃ t k, s.numRows srt = some (t, k) ∧ Lists Ent.row es t.rows ∧ k = t.rows.length ∧ t.Has es ∧ t.cols = s.cols ∧
      t.rowOrd.Perm (List.range es.length) ∧ (t.rowOrd.map t.val).Pairwise (fun a b => rowLt b a = false) := by
  have hi := reach_inv hs hr
  obtain ⟨o, ho, hp, hsort⟩ := order_defined hs (.inl rfl) hh hi.1
  have hn : s.nnz ≠ 0 := by rw [hh.1]; simpa using hne
  obtain ⟨hm, _⟩ := mapM_read hh o (fun k hk => by simpa using hp.mem_iff.1 hk)
  refine ⟨{ s with rowOrd := o, rows := nonEmpty Ent.row (o.map s.val) }, (nonEmpty Ent.row (o.map s.val)).length,
    by simp only [Mat.numRows, if_neg hn, ho, hm, Option.bind_eq_bind, Option.bind_some], ?_, rfl, hh, rfl, hp, hsort⟩
  exact lists_perm (vals_perm hh hp) (nonEmpty_lists _ _ (hsort.imp row_key))

/-- **C220 (partial).** The same for `numNonEmptyCols`. -/
theorem num_cols_partial {srt : Sorter} (hs : Sorts srt) {s : Mat} (hr : Reach srt s) {es : List Ent} (hh : s.Has es)
    (hne : es ≠ []) :
    ∃ t k, s.numCols srt = some (t, k) ∧ Lists Ent.col es t.cols ∧ k = t.cols.length ∧ t.Has es ∧ t.rows = s.rows ∧
      t.colOrd.Perm (List.range es.length) ∧ (t.colOrd.map t.val).Pairwise (fun a b => colLt b a = false) := by
  have hi := reach_inv hs hr
  obtain ⟨o, ho, hp, hsort⟩ := order_defined hs (.inr rfl) hh hi.2.1
  have hn : s.nnz ≠ 0 := by rw [hh.1]; simpa using hne
  obtain ⟨hm, _⟩ := mapM_read hh o (fun k hk => by simpa using hp.mem_iff.1 hk)
  refine ⟨{ s with colOrd := o, cols := nonEmpty Ent.col (o.map s.val) }, (nonEmpty Ent.col (o.map s.val)).length,
    by simp only [Mat.numCols, if_neg hn, ho, hm, Option.bind_eq_bind, Option.bind_some], ?_, rfl, hh, rfl, hp, hsort⟩
  exact lists_perm (vals_perm hh hp) (nonEmpty_lists _ _ (hsort.imp col_key))

/-! ### copies and changes of size keep the entries -/

/-- **C221.** A copy has the entries of the original, and so has a matrix after assignment of the other; the packed
matrix gives its entries. -/
theorem copies_have {srt : Sorter} (hs : Sorts srt) {s t : Mat} (hr : Reach srt t) {es : List Ent} (hh : t.Has es) :
    (∃ u, t.copy = some u ∧ u.Has es ∧ u.cap = es.length ∧ u.lost = 0 ∧ u.rows = [] ∧ u.cols = []) ∧
    (∃ u, s.assign t = some u ∧ u.Has es ∧ u.cap = t.cap ∧ u.lost = s.lost ∧ u.rows = [] ∧ u.cols = []) ∧
    ∀ fs, (s.assignPacked fs).Has fs := by
  have hi := (reach_inv hs hr).2.2
  have key : ∃ a, copyOf t.arr t.nnz = some a ∧
      ∀ (u : Mat), u.arr = a → u.nnz = t.nnz → u.Has es := by
    by_cases hn : 0 < t.nnz
    · obtain ⟨l, hl, hle⟩ := hi hn
      refine ⟨some (l.take t.nnz), by simp [copyOf, hl, hle], fun u ha hu => ⟨hu.trans hh.1, fun k hk => ?_⟩⟩
      rw [← hh.2 k hk]
      have : k < t.nnz := by rw [hh.1]; exact hk
      simp [Mat.read, ha, hl, this]
    · have h0 : t.nnz = 0 := by omega
      have he : es.length = 0 := by rw [← hh.1]; exact h0
      cases ha : t.arr with
      | none => exact ⟨none, by simp [copyOf], fun u _ hu => ⟨hu.trans hh.1, fun k hk => by omega⟩⟩
      | some l => exact ⟨some (l.take t.nnz), by simp [copyOf, h0], fun u _ hu => ⟨hu.trans hh.1, fun k hk => by omega⟩⟩
  obtain ⟨a, ha, hu⟩ := key
  refine ⟨⟨⟨a, t.nnz, t.nnz, t.rowOrd, t.colOrd, [], [], 0⟩, by simp only [Mat.copy, ha, Option.map_some],
      hu _ rfl rfl, hh.1, rfl, rfl, rfl⟩,
    ⟨⟨a, t.nnz, t.cap, t.rowOrd, t.colOrd, [], [], s.lost⟩, by simp only [Mat.assign, ha, Option.map_some],
      hu _ rfl rfl, rfl, rfl, rfl, rfl⟩, fun fs => ⟨rfl, fun k hk => ?_⟩⟩
  simp [Mat.assignPacked, Mat.read, hk]

/-- **C222 (partial).** A change of size keeps the entries that have a place in the new size, and loses an array exactly if
there were no entries but an array, and the new size is not zero. -/
theorem resize_keeps_partial {srt : Sorter} (hs : Sorts srt) {s : Mat} (hr : Reach srt s) (n : Nat) :
    ∃ t, s.resize n = some t ∧ t.nnz = n ∧ (∀ k, k < n → k < s.nnz → t.read k = s.read k) ∧
      (∀ k, k < n → s.nnz ≤ k → t.read k = none) ∧ t.cap = s.cap ∧
      t.lost = s.lost + (if s.nnz = 0 ∧ s.arr ≠ none ∧ n ≠ 0 then 1 else 0) := by
  have hi := (reach_inv hs hr).2.2
  unfold Mat.resize resz
  by_cases hn : n = 0
  · subst hn
    by_cases h0 : 0 < s.nnz
    · refine ⟨{ s with arr := none, nnz := 0, lost := s.lost + 0 }, by simp only [if_true, if_pos h0, Option.map_some], rfl, fun k hk => by omega, fun k hk => by omega, rfl, ?_⟩
      simp
    · refine ⟨{ s with nnz := 0, lost := s.lost + 0 }, by simp only [if_true, if_neg h0, Option.map_some], rfl, fun k hk => by omega, fun k hk => by omega, rfl, ?_⟩
      simp
  · rw [if_neg hn]
    by_cases h0 : 0 < s.nnz
    · obtain ⟨l, hl, hle⟩ := hi h0
      rw [if_pos h0]
      have hc : (if s.nnz < n then s.nnz else n) ≤ l.length := by split_ifs <;> omega
      simp only [hl, if_pos hc, Option.map_some]
      refine ⟨_, rfl, rfl, fun k hk hk' => ?_, fun k hk hk' => ?_, rfl, ?_⟩
      · have hlt : k < (if s.nnz < n then s.nnz else n) := by split_ifs <;> omega
        have : k < (l.take (if s.nnz < n then s.nnz else n)).length := by
          rw [List.length_take]; omega
        simp only [Mat.read, hl]
        rw [List.getElem?_append_left this, List.getElem?_take, if_pos hlt]
      · have hge : (l.take (if s.nnz < n then s.nnz else n)).length ≤ k := by
          rw [List.length_take]; split_ifs <;> omega
        simp only [Mat.read]
        rw [List.getElem?_append_right hge, List.getElem?_replicate]
        split_ifs <;> rfl
      · have : s.nnz ≠ 0 := by omega
        simp [this]
    · have hz : s.nnz = 0 := by omega
      rw [if_neg h0]
      refine ⟨_, rfl, rfl, fun k hk hk' => by omega, fun k hk hk' => ?_, rfl, ?_⟩
      · simp [Mat.read, hk]
      · cases ha : s.arr <;> simp [hz, hn]

/-! ### removal of duplicates on the arrays -/

theorem dupArr_map (ord : List Nat) : ∀ (is : List Nat) (j : Nat) (q : List Ent),
    dupArr ord is j (q.map some) = (dupLoop ord is j q).map (fun r => (r.1.map some, r.2))
  | [], j, q => rfl
  | i :: is, j, q => by
    simp only [dupArr, dupLoop]
    cases ord[i]? with
    | none => rfl
    | some oi =>
      cases ord[j]? with
      | none => rfl
      | some oj =>
        simp only [Option.bind_eq_bind, Option.bind_some, List.getElem?_map]
        cases q[oi]? with
        | none => rfl
        | some ei =>
          cases q[oj]? with
          | none => rfl
          | some ej =>
            simp only [Option.map_some, Option.join_some, Option.bind_some]
            split_ifs
            · rw [← List.map_set, dupArr_map ord is]
            · cases ord[j + 1]? with
              | none => rfl
              | some oj' =>
                simp only [Option.bind_some, List.length_map]
                split_ifs
                · rw [← List.map_set, dupArr_map ord is]
                · rfl

/-- **C223 (partial).** On a matrix just taken from a packed matrix, `removeDuplicates` is defined and leaves the entries
that the removal on lists (C06) leaves for an ordering of the entries by rows. -/
theorem dedup_partial {srt : Sorter} (hs : Sorts srt) (s : Mat) (es : List Ent) :
    ∃ t ord q, (s.assignPacked es).dedup srt = some t ∧ IsOrdering rowLt es ord ∧ removeDuplicates ord es = some q ∧
      t.Has q ∧ t.cap = es.length ∧ t.rowOrd = ord := by
  have hh : (s.assignPacked es).Has es := ⟨rfl, fun k hk => by simp [Mat.assignPacked, Mat.read, hk]⟩
  obtain ⟨o, ho, hp, hsort⟩ := order_defined hs (.inl rfl) hh (ordOk_nil _)
  have hlen : o.length = es.length := by simpa using hp.length_eq
  have hb : ∀ k ∈ o, k < es.length := fun k hk => by simpa using hp.mem_iff.1 hk
  have hord : IsOrdering rowLt es o := by
    refine ⟨hp, fun rs hg => ?_⟩
    obtain ⟨rs', h1, h2⟩ := gather_range_aux es o hb
    have h3 := (mapM_read hh o hb).2
    rw [hg] at h1; cases h1
    have : rs = o.map (s.assignPacked es).val := by
      apply List.map_injective_iff.2 (Option.some_injective _)
      rw [h2, ← h3, List.map_map]; rfl
    rw [this]; exact hsort
  obtain ⟨q', j', hloop, hql, hjl⟩ : ∃ q' j', dupLoop o (List.range' 1 (es.length - 1)) 0 es = some (q', j') ∧
      q'.length = es.length ∧ (j' < es.length ∨ es = []) := by
    cases es with
    | nil => exact ⟨[], 0, rfl, rfl, .inr rfl⟩
    | cons e es' =>
      have hv : 0 < (viewed o (e :: es')).length := by
        obtain ⟨k, o', rfl⟩ : ∃ k o', o = k :: o' := by
          cases o with
          | nil => simp at hlen
          | cons k o' => exact ⟨k, o', rfl⟩
        simp [viewed]
      obtain ⟨q', j', h1, h2, h3, _⟩ := dupLoop_view o (hp.nodup_iff.2 List.nodup_range) (es'.length) 1 0 (e :: es') hb hlen
        (by omega) (by simp; omega) hv
      exact ⟨q', j', by simpa using h1, h2, .inl h3⟩
  have hrem : removeDuplicates o es = some (q'.take j') := by simp [removeDuplicates, hloop]
  have hnnz : (s.assignPacked es).nnz = es.length := rfl
  have harr : (s.assignPacked es).arr = some (es.map some) := rfl
  have hcap : (s.assignPacked es).cap = es.length := rfl
  have hro : (s.assignPacked es).rowOrd = [] := rfl
  have hd : dupArr o (List.range' 1 ((s.assignPacked es).nnz - 1)) 0 ((s.assignPacked es).arr.getD [])
      = some (q'.map some, j') := by
    rw [hnnz, harr, Option.getD_some, dupArr_map, hloop]; rfl
  rw [harr] at hd
  by_cases he : es = []
  · subst he
    have hq : q' = [] := by simpa using hql
    subst hq
    have hj : j' = 0 := by
      have := (dupLoop_length _ _ _ _ _ _ hloop).2.2
      simpa using this
    subst hj
    refine ⟨_, o, _, by simp only [Mat.dedup, hro, ho, Option.bind_eq_bind, Option.bind_some, hcap, harr, resz]; rfl, hord, hrem,
      ⟨rfl, by simp⟩, rfl, rfl⟩
  · have hjl' : j' < es.length := by
      rcases hjl with h | h
      · exact h
      · exact absurd h he
    have hn0 : es.length ≠ 0 := by omega
    have hz : ∃ z, resz (some (q'.map some)) j' es.length = some z ∧
        ∃ l, z.1 = some l ∧ ∀ k, k < j' → (l[k]?).join = q'[k]? := by
      unfold resz
      rw [if_neg hn0]
      by_cases hj0 : 0 < j'
      · rw [if_pos hj0]
        have hc : (if j' < es.length then j' else es.length) ≤ (q'.map some).length := by
          rw [if_pos hjl', List.length_map, hql]; omega
        simp only [if_pos hc]
        refine ⟨_, rfl, _, rfl, fun k hk => ?_⟩
        have hkl : k < ((q'.map some).take (if j' < es.length then j' else es.length)).length := by
          rw [if_pos hjl', List.length_take, List.length_map, hql]; omega
        rw [List.getElem?_append_left hkl, List.getElem?_take, if_pos hjl', if_pos hk, List.getElem?_map]
        cases q'[k]? <;> rfl
      · rw [if_neg hj0]
        exact ⟨_, rfl, _, rfl, fun k hk => by omega⟩
    obtain ⟨z, hz1, l, hl, hz2⟩ := hz
    refine ⟨_, o, _, by simp only [Mat.dedup, hro, ho, hd, Option.bind_eq_bind, Option.bind_some, hcap, harr, Option.map_some, hz1]; rfl,
      hord, hrem, ⟨?_, fun k hk => ?_⟩, rfl, rfl⟩
    · show j' = (q'.take j').length
      rw [List.length_take, hql]; omega
    · have hk' : k < j' := by rw [List.length_take] at hk; omega
      show Mat.read _ k = _
      simp only [Mat.read, hl]
      rw [hz2 k hk', List.getElem?_take, if_pos hk']

/-! ### a sorting procedure -/

/-- Insertion sort as an instance of `Sorts`. -/
def insSort : Sorter := fun lt f ord => ord.insertionSort (fun i j => lt (f j) (f i) = false)

theorem insSort_sorts : Sorts insSort := by
  intro lt hlt f ord
  have htot : ∀ a b : Ent, lt b a = false ∨ lt a b = false := by
    intro a b
    rcases hlt with rfl | rfl
    · unfold rowLt; split_ifs <;> simp <;> omega
    · unfold colLt; split_ifs <;> simp <;> omega
  have htr : ∀ a b c : Ent, lt b a = false → lt c b = false → lt c a = false := by
    intro a b c
    rcases hlt with rfl | rfl
    · unfold rowLt; split_ifs <;> simp <;> omega
    · unfold colLt; split_ifs <;> simp <;> omega
  have : Std.Total (fun i j : Nat => lt (f j) (f i) = false) := ⟨fun i j => htot (f i) (f j)⟩
  have : IsTrans Nat (fun i j : Nat => lt (f j) (f i) = false) := ⟨fun i j k => htr (f i) (f j) (f k)⟩
  exact ⟨List.perm_insertionSort _ _, List.pairwise_insertionSort _ _⟩

/-! ### refutations -/

/-- Entries of the examples. -/
def mA : Ent := ⟨2, 3, 5⟩
def mB : Ent := ⟨1, 4, 7⟩

/-- **C220 (refuted).** After a change to a smaller size the ordering still has a position that no longer exists, and the
count of the non-empty rows reads beyond the arrays: matrix of two entries, count, `resize(1)`, count. -/
theorem shrinking_undefined :
    (((Mat.new.assignPacked [mA, mB]).numRows insSort).bind (fun r => r.1.resize 1)).isSome = true ∧
    ((((Mat.new.assignPacked [mA, mB]).numRows insSort).bind (fun r => r.1.resize 1)).bind
      (fun s => s.numRows insSort)) = none := by
  decide +kernel

/-- **C220 (refuted).** On an empty matrix the count is 0 but the list is that of the matrix before. -/
theorem empty_keeps_list :
    ∃ s t, Reach insSort s ∧ s.Has [] ∧ s.numRows insSort = some (t, 0) ∧ t.rows = [(2, 0)] := by
  refine ⟨_, _, Reach.packed [] (Reach.rows (Reach.packed [mA] Reach.new)
    (show Mat.numRows insSort _ = some (⟨some [some mA], 1, 1, [0], [], [(2, 0)], [], 0⟩, 1) by decide +kernel)),
    ⟨rfl, by simp⟩, rfl, rfl⟩

/-- **C220 (refuted).** After the assignment of a packed matrix the list of non-empty rows is still that of the matrix
before. -/
theorem assigned_keeps_list :
    ∃ s, Reach insSort s ∧ s.Has [mB] ∧ s.rows = [(2, 0)] := by
  refine ⟨_, Reach.packed [mB] (Reach.rows (Reach.packed [mA] Reach.new)
    (show Mat.numRows insSort _ = some (⟨some [some mA], 1, 1, [0], [], [(2, 0)], [], 0⟩, 1) by decide +kernel)),
    ⟨rfl, fun k hk => ?_⟩, rfl⟩
  have : k = 0 := by simp at hk; omega
  subst this; rfl

/-- **C222 (refuted).** The arrays of an empty packed matrix are lost by the next change of size. -/
theorem resize_loses_array :
    ((Mat.new.assignPacked []).resize 2).map Mat.lost = some 1 := by decide +kernel

/-- **C223 (refuted).** A matrix built with `resize` has capacity 0, and `removeDuplicates` deletes all its entries while
still counting one; the next count of rows reads through a null pointer. -/
theorem dedup_deletes_all :
    ∃ s t, Reach insSort s ∧ s.Has [mA, mB] ∧ s.dedup insSort = some t ∧ t.arr = none ∧ t.nnz = 1 ∧
      t.numRows insSort = none := by
  have h1 : Mat.new.resize 2 = some ⟨some [none, none], 2, 0, [], [], [], [], 0⟩ := by decide +kernel
  refine ⟨⟨some [some mA, some mB], 2, 0, [], [], [], [], 0⟩, ⟨none, 1, 0, [1, 0], [], [], [], 0⟩, ?_, ?_, ?_, rfl, rfl, ?_⟩
  · exact Reach.set 1 mB (Reach.set 0 mA (Reach.resize 2 Reach.new (by simp [Mat.new]) (by simp [Mat.new]) h1) rfl) rfl
  · refine ⟨rfl, fun k hk => ?_⟩
    have : k = 0 ∨ k = 1 := by simp at hk; omega
    rcases this with rfl | rfl <;> rfl
  · decide +kernel
  · decide +kernel

/-- **C223 (refuted).** On a matrix of one entry `removeDuplicates` loses the entry and the arrays. -/
theorem dedup_single : ((Mat.new.assignPacked [mA]).dedup insSort).map (fun t => (t.nnz, t.lost)) = some (0, 1) := by
  decide +kernel

/-! ### examples -/

example : Sorts insSort := insSort_sorts
example : (Mat.new.assignPacked [mA, mB, ⟨2, 1, 1⟩]).Has [mA, mB, ⟨2, 1, 1⟩] ∧
    Reach insSort (Mat.new.assignPacked [mA, mB, ⟨2, 1, 1⟩]) :=
  ⟨(copies_have (s := Mat.new) (es := []) insSort_sorts Reach.new ⟨rfl, by simp⟩).2.2 _, Reach.packed _ Reach.new⟩
example : ((Mat.new.assignPacked [mA, mB, ⟨2, 1, 1⟩]).numRows insSort).map (fun r => (r.1.rows, r.2)) =
    some ([(1, 0), (2, 1)], 2) := by decide +kernel
example : ((Mat.new.assignPacked [mA, mB, ⟨2, 1, 1⟩]).numCols insSort).map (fun r => (r.1.cols, r.2)) =
    some ([(1, 0), (3, 1), (4, 2)], 3) := by decide +kernel

/-- A copy reads beyond the array exactly if there is one that is shorter than the number of entries claimed. -/
theorem copy_undefined_iff (s t : Mat) : (s.copy = none ↔ ∃ l, s.arr = some l ∧ l.length < s.nnz) ∧ (t.assign s = none ↔ ∃ l, s.arr = some l ∧ l.length < s.nnz) := by
  have h : copyOf s.arr s.nnz = none ↔ ∃ l, s.arr = some l ∧ l.length < s.nnz := by
    unfold copyOf
    cases ha : s.arr with
    | none => simp
    | some l => by_cases hl : s.nnz ≤ l.length <;> simp [hl]; omega
  simp [Mat.copy, Mat.assign, h]

/-- **C220.** An entry can be written exactly at the positions of the arrays; the other entries stay. -/
theorem set_exact (s t : Mat) (i : Nat) (e : Ent) : s.set i e = some t ↔
    (∃ l, s.arr = some l ∧ i < l.length) ∧ t = { s with arr := t.arr } ∧ t.read i = some e ∧ (∀ k, k ≠ i → t.read k = s.read k) ∧
      t.arr.map List.length = s.arr.map List.length := by
  obtain ⟨a, nnz, cap, ro, co, r, c, lo⟩ := s
  cases a with
  | none => simp [Mat.set]
  | some l =>
    by_cases hi : i < l.length
    · simp only [Mat.set, if_pos hi, Option.some.injEq]
      constructor
      · rintro rfl
        refine ⟨⟨l, rfl, hi⟩, rfl, by simp [Mat.read, hi], fun k hk => by simp [Mat.read, Ne.symm hk], by simp⟩
      · rintro ⟨-, h1, h2, h3, h4⟩
        obtain ⟨a', nnz', cap', ro', co', r', c', lo'⟩ := t
        simp only [Mat.mk.injEq] at h1
        obtain ⟨-, rfl, rfl, rfl, rfl, rfl, rfl, rfl⟩ := h1
        cases a' with
        | none => simp at h4
        | some l' =>
          simp only [Option.map_some, Option.some.injEq] at h4
          congr 2
          refine List.ext_getElem? fun k => ?_
          by_cases hk : k = i
          · subst hk
            simp only [Mat.read] at h2
            rw [List.getElem?_set_self hi]
            cases h : l'[k]? with
            | none => rw [h] at h2; simp at h2
            | some v => rw [h] at h2; simp at h2; rw [h2]
          · have := h3 k hk
            simp only [Mat.read] at this
            rw [List.getElem?_set_ne (Ne.symm hk)]
            by_cases hkl : k < l.length
            · rw [List.getElem?_eq_getElem hkl, List.getElem?_eq_getElem (h4 ▸ hkl)] at this ⊢
              simpa using this.symm
            · rw [List.getElem?_eq_none (by omega), List.getElem?_eq_none (by omega)]
    · simp only [Mat.set, if_neg hi]
      simp only [reduceCtorEq, false_iff, not_and]
      rintro ⟨l', h, h'⟩
      simp only [Option.some.injEq] at h
      subst h
      exact absurd h' hi

example : Mat.set (Mat.new.assignPacked [⟨0, 0, 1⟩]) 0 ⟨1, 2, 3⟩ = some (Mat.new.assignPacked [⟨1, 2, 3⟩]) ∧
    Mat.set (Mat.new.assignPacked [⟨0, 0, 1⟩]) 1 ⟨1, 2, 3⟩ = none := by decide +kernel

/-- **C220.** A matrix without entries has no non-empty row or column; asking changes nothing. -/
theorem none_empty (srt : Sorter) (s : Mat) (h : s.nnz = 0) : s.numRows srt = some (s, 0) ∧ s.numCols srt = some (s, 0) := by
  simp [Mat.numRows, Mat.numCols, h]

example : Mat.new.nnz = 0 := rfl

end Verif.Quad

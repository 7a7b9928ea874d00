import Mathlib.Data.List.Basic
import Mathlib.Data.List.Sort
import Mathlib.Data.List.GetD
import Mathlib.Data.List.Perm.Basic
import Mathlib.Data.List.Range
import Mathlib.Data.Rat.Defs
import Mathlib.Algebra.Order.Ring.Rat
import Mathlib.Algebra.BigOperators.Group.List.Basic
import Mathlib.Tactic.Ring
import Mathlib.Tactic.Linarith

/-!
# Triplet to packed row format for filterSQP and bqpd (`Filter/BonFilterSolver.cpp`)
Indices are integers, the arrays of `fint` are lists and a write outside the array is `none`.
-/
namespace Verif.Slv

/-- `lws[a] = v`. -/
def wr (mem : List ℤ) (a : ℕ) (v : ℤ) : Option (List ℤ) := if a < mem.length then some (mem.set a v) else none

/-- Order the pair of a symmetric entry (184-199): the larger index becomes the row. -/
def symPair (e : ℤ × ℤ) : ℤ × ℤ := if e.2 < e.1 then (e.1, e.2) else (e.2, e.1)

/-- The row and column arrays used below (183-204). -/
def rowCol (symmetric : Bool) (es : List (ℤ × ℤ)) : List (ℤ × ℤ) := if symmetric then es.map symPair else es

/-- `Transposer` (161-170). -/
def lexLt (a b : ℤ × ℤ) : Bool := decide (a.1 < b.1) || (decide (a.1 = b.1) && decide (a.2 < b.2))

/-- `for (; row < r; row++) *start++ = v` with `k` repetitions. -/
def fill : ℕ → ℕ → ℤ → List ℤ → Option (List ℤ)
  | 0, _, _, mem => some mem
  | k + 1, ptr, v, mem => match wr mem ptr v with
    | none => none
    | some mem => fill k (ptr + 1) v mem

/-- The loop over the sorted entries and the final loop (214-223).  `inds` is the address of the
first column index, `ptr` the address where the next row start goes, `last = m - idx_offset`. -/
def rowsLoop (off colOff : ℤ) (inds : ℕ) (last : ℤ) : List (ℤ × ℤ) → ℕ → ℤ → ℕ → List ℤ → Option (List ℤ)
  | [], i, row, ptr, mem => fill (last + 1 - row).toNat ptr (i + off + 1) mem
  | e :: es, i, row, ptr, mem =>
    match wr mem (inds + i) (e.2 + colOff) with
    | none => none
    | some mem =>
      if row < e.1 then
        match fill (e.1 - row).toNat ptr (i + off + 1) mem with
        | none => none
        | some mem => rowsLoop off colOff inds last es (i + 1) e.1 (ptr + (e.1 - row).toNat) mem
      else rowsLoop off colOff inds last es (i + 1) row ptr mem

/-- `TMat2RowPMat` (173-240): the permutation and the packed structure.  `sort` is `std::sort` on the positions, `cStyle` the index style of the problem. -/
def toPacked (sort : (ℕ → ℕ → Bool) → List ℕ → List ℕ) (symmetric cStyle : Bool) (m : ℕ) (es : List (ℤ × ℤ)) (nnzOff nOff : ℕ) (lws : List ℤ) : Option (List ℕ × List ℤ) :=
  let rc := rowCol symmetric es
  let perm := sort (fun i j => lexLt (rc.getD i (0, 0)) (rc.getD j (0, 0))) (List.range es.length)
  let idx : ℤ := if cStyle then 1 else 0
  match wr lws 0 (es.length + nnzOff + 1) with
  | none => none
  | some mem =>
    match wr mem (nnzOff + 1 + es.length + nOff) (1 + nnzOff) with
    | none => none
    | some mem =>
      match rowsLoop nnzOff idx (nnzOff + 1) (m - idx) (perm.map fun p => rc.getD p (0, 0)) 0 (1 - idx) (nnzOff + 1 + es.length + nOff + 1) mem with
      | none => none
      | some mem => some (perm, mem)

/-- The copy loop of `gradient` (115-125): `a[n + i] = values[permutationJac[i]]`; reading outside the values is `none`. -/
def gradCopy (perm : List ℕ) (values : List ℚ) : Option (List ℚ) := perm.mapM fun p => values[p]?

/-- The multipliers passed to `eval_h` by `hessian` (142-148): `mlam[i] = -lam[n + i]`. -/
def hessMult (n m : ℕ) (lam : List ℚ) : Option (List ℚ) := (List.range m).mapM fun i => (lam[n + i]?).map (- ·)

/-- The objective factor of `hessian` (134). -/
def hessObj (phase : ℤ) : ℚ := if phase = 1 then 0 else 1

/-- The loop of `initialize` (486-489) and the call for the Jacobian (493): the gradient of the objective is a dense row in front.  `junk` is the uninitialised array. -/
def jacStruct (sort : (ℕ → ℕ → Bool) → List ℕ → List ℕ) (cStyle : Bool) (n m : ℕ) (es : List (ℤ × ℤ)) (junk : List ℤ) : Option (List ℕ × List ℤ) :=
  match wr junk (es.length + n + 1) 1 with
  | none => none
  | some la =>
    match (List.range n).foldlM (fun la i => wr la (i + 1) ((i : ℤ) + 1)) la with
    | none => none
    | some la => toPacked sort false cStyle m es n 1 la

/-! ## Specification -/

/-- A sorting function: permutes, and puts no element before a smaller one (for strict weak orders). -/
def IsSort (sort : (ℕ → ℕ → Bool) → List ℕ → List ℕ) : Prop :=
  ∀ (lt : ℕ → ℕ → Bool) (l : List ℕ), (∀ a, lt a a = false) → (∀ a b c, lt a b = true → lt b c = true → lt a c = true) →
    (∀ a b c, lt a b = false → lt b c = false → lt a c = false) →
    (sort lt l).Perm l ∧ (sort lt l).Pairwise fun a b => lt b a = false

/-- Number of entries in rows before `r`. -/
def before (es : List (ℤ × ℤ)) (r : ℤ) : ℕ := (es.filter fun e => decide (e.1 < r)).length

/-- The value of a triplet matrix at a position: values of repeated entries add up. -/
def tripletVal (r c : ℤ) : List (ℤ × ℤ) → List ℚ → ℚ
  | e :: es, v :: vs => (if e = (r, c) then v else 0) + tripletVal r c es vs
  | _, _ => 0

/-- What a packed matrix means: the entries of row number `r` (0-based) are those numbered from its
start to the next start; `la`, `a` are 1-based Fortran arrays with the starts from address `st`,
and index and value of entry `k` at `la[k]` and `a[k-1]`. -/
def packedVal (la : List ℤ) (a : List ℚ) (st r : ℕ) (c : ℤ) : ℚ :=
  (((List.range a.length).filter fun (k : ℕ) => decide (la.getD (st + r) 0 ≤ (k : ℤ) + 1) && decide ((k : ℤ) + 1 < la.getD (st + r + 1) 0) && decide (la.getD (k + 1) 0 = c)).map
    fun k => a.getD k 0).sum

/-! ## Lemmas -/

theorem wr_get (mem : List ℤ) (a : ℕ) (v : ℤ) (h : a < mem.length) :
    ∃ mem', wr mem a v = some mem' ∧ mem'.length = mem.length ∧ ∀ b, mem'[b]? = if b = a then some v else mem[b]? := by
  refine ⟨mem.set a v, by simp [wr, h], by simp, fun b => ?_⟩
  rw [List.getElem?_set]
  by_cases hb : a = b
  · subst hb; simp [h]
  · simp [hb, Ne.symm hb]

theorem fill_get (k ptr : ℕ) (v : ℤ) (mem : List ℤ) (h : ptr + k ≤ mem.length) :
    ∃ mem', fill k ptr v mem = some mem' ∧ mem'.length = mem.length ∧
      ∀ a, mem'[a]? = if ptr ≤ a ∧ a < ptr + k then some v else mem[a]? := by
  induction k generalizing ptr mem with
  | zero => exact ⟨mem, rfl, rfl, fun a => by rw [if_neg (by omega)]⟩
  | succ k ih =>
    obtain ⟨m1, h1, h2, h3⟩ := wr_get mem ptr v (by omega)
    obtain ⟨m2, g1, g2, g3⟩ := ih (ptr + 1) m1 (by omega)
    refine ⟨m2, by simp [fill, h1, g1], by omega, fun a => ?_⟩
    rw [g3, h3]
    split
    · rw [if_pos (by omega)]
    · split
      · rw [if_pos (by omega)]
      · rw [if_neg (by omega)]

theorem before_cons (e : ℤ × ℤ) (es : List (ℤ × ℤ)) (r : ℤ) : before (e :: es) r = (if e.1 < r then 1 else 0) + before es r := by
  simp only [before, List.filter_cons]
  by_cases h : e.1 < r <;> simp [h]
  omega

theorem before_zero (es : List (ℤ × ℤ)) (r : ℤ) (h : ∀ e ∈ es, r ≤ e.1) : before es r = 0 := by
  simp only [before, List.length_eq_zero_iff, List.filter_eq_nil_iff, decide_eq_true_eq, not_lt]
  exact h

theorem rowsLoop_get (off colOff : ℤ) (inds : ℕ) (last : ℤ) (es : List (ℤ × ℤ)) (i : ℕ) (row : ℤ) (ptr : ℕ) (mem : List ℤ)
    (hs : es.Pairwise fun a b => a.1 ≤ b.1) (hr : ∀ e ∈ es, row ≤ e.1 ∧ e.1 ≤ last) (hrow : row ≤ last + 1)
    (hi : inds + i + es.length ≤ ptr) (hm : ptr + (last + 1 - row).toNat ≤ mem.length) :
    ∃ mem', rowsLoop off colOff inds last es i row ptr mem = some mem' ∧ mem'.length = mem.length ∧
      (∀ k (e : ℤ × ℤ), es[k]? = some e → mem'[inds + i + k]? = some (e.2 + colOff)) ∧
      (∀ j, j < (last + 1 - row).toNat → mem'[ptr + j]? = some (i + before es (row + 1 + j) + off + 1)) ∧
      (∀ a, ¬ (inds + i ≤ a ∧ a < inds + i + es.length) → ¬ (ptr ≤ a ∧ a < ptr + (last + 1 - row).toNat) → mem'[a]? = mem[a]?) := by
  induction es generalizing i row ptr mem with
  | nil =>
    obtain ⟨m1, h1, h2, h3⟩ := fill_get (last + 1 - row).toNat ptr (i + off + 1) mem hm
    refine ⟨m1, by simp only [rowsLoop, h1], h2, by simp, fun j hj => ?_, fun a _ hb => ?_⟩
    · rw [h3, if_pos (by omega)]; simp [before]
    · rw [h3, if_neg hb]
  | cons e es ih =>
    have hre := hr e (by simp)
    rw [List.pairwise_cons] at hs
    simp only [List.length_cons] at hi
    obtain ⟨m1, h1, h2, h3⟩ := wr_get mem (inds + i) (e.2 + colOff) (by omega)
    by_cases hlt : row < e.1
    · obtain ⟨m2, g1, g2, g3⟩ := fill_get (e.1 - row).toNat ptr (i + off + 1) m1 (by omega)
      obtain ⟨m3, k1, k2, k3, k4, k5⟩ := ih (i + 1) e.1 (ptr + (e.1 - row).toNat) m2 hs.2
        (fun x hx => ⟨hs.1 x hx, (hr x (by simp [hx])).2⟩) (by omega) (by omega) (by omega)
      refine ⟨m3, by simp only [rowsLoop, h1, if_pos hlt, g1, k1], by omega, ?_, ?_, ?_⟩
      · intro k x hx
        cases k with
        | zero =>
          simp at hx; subst hx
          rw [k5 _ (by omega) (by omega), g3, if_neg (by omega), h3, if_pos (by omega)]
        | succ k =>
          simp at hx
          have := k3 k x hx
          rw [← this]; congr 1; omega
      · intro j hj
        by_cases hj2 : j < (e.1 - row).toNat
        · rw [k5 _ (by omega) (by omega), g3, if_pos (by omega)]
          rw [before_zero]
          · simp
          · intro x hx
            rcases List.mem_cons.1 hx with rfl | hx
            · omega
            · have := hs.1 x hx; omega
        · have := k4 (j - (e.1 - row).toNat) (by omega)
          have e1 : ptr + (e.1 - row).toNat + (j - (e.1 - row).toNat) = ptr + j := by omega
          rw [e1] at this
          rw [this, before_cons, if_pos (by omega)]
          have e2 : e.1 + 1 + ((j - (e.1 - row).toNat : ℕ) : ℤ) = row + 1 + j := by omega
          rw [e2]; congr 1; push_cast; ring
      · intro a h4 h5
        simp only [List.length_cons] at h4
        rw [k5 _ (by omega) (by omega), g3, if_neg (by omega), h3, if_neg (by omega)]
    · have heq : e.1 = row := by omega
      obtain ⟨m3, k1, k2, k3, k4, k5⟩ := ih (i + 1) row ptr m1 hs.2
        (fun x hx => hr x (by simp [hx])) (by omega) (by omega) (by omega)
      refine ⟨m3, by simp only [rowsLoop, h1, if_neg hlt, k1], by omega, ?_, ?_, ?_⟩
      · intro k x hx
        cases k with
        | zero =>
          simp at hx; subst hx
          rw [k5 _ (by omega) (by omega), h3, if_pos (by omega)]
        | succ k =>
          simp at hx
          have := k3 k x hx
          rw [← this]; congr 1; omega
      · intro j hj
        rw [k4 j hj, before_cons, if_pos (by omega)]
        congr 1; push_cast; ring
      · intro a h4 h5
        simp only [List.length_cons] at h4
        rw [k5 _ (by omega) (by omega), h3, if_neg (by omega)]

theorem lexLt_irrefl (a : ℤ × ℤ) : lexLt a a = false := by simp [lexLt]

theorem lexLt_trans (a b c : ℤ × ℤ) (h1 : lexLt a b = true) (h2 : lexLt b c = true) : lexLt a c = true := by
  simp only [lexLt, Bool.or_eq_true, Bool.and_eq_true, decide_eq_true_eq] at *
  omega

theorem lexLt_neg (a b c : ℤ × ℤ) (h1 : lexLt a b = false) (h2 : lexLt b c = false) : lexLt a c = false := by
  simp only [lexLt, Bool.or_eq_false_iff, Bool.and_eq_false_iff, decide_eq_false_iff_not] at *
  omega

theorem before_perm {a b : List (ℤ × ℤ)} (h : a.Perm b) (r : ℤ) : before a r = before b r := (h.filter _).length_eq

theorem before_sorted (l : List (ℤ × ℤ)) (hs : l.Pairwise fun a b => a.1 ≤ b.1) (k : ℕ) (e : ℤ × ℤ) (h : l[k]? = some e) (r : ℤ) :
    k < before l r ↔ e.1 < r := by
  induction l generalizing k with
  | nil => simp at h
  | cons x xs ih =>
    rw [List.pairwise_cons] at hs
    rw [before_cons]
    cases k with
    | zero =>
      simp at h; subst h
      by_cases hx : x.1 < r
      · simp [hx]
      · simp only [hx, if_false, iff_false]
        rw [before_zero]
        · omega
        · intro y hy; have := hs.1 y hy; omega
    | succ k =>
      simp at h
      have := ih hs.2 k h
      have hxe := hs.1 e (List.mem_of_getElem? h)
      by_cases hx : x.1 < r
      · simp only [hx, if_true]; rw [← this]; omega
      · simp only [hx, if_false]
        rw [before_zero]
        · constructor <;> intro <;> omega
        · intro y hy; have := hs.1 y hy; omega

theorem rowCol_length (s : Bool) (es : List (ℤ × ℤ)) : (rowCol s es).length = es.length := by
  cases s <;> simp [rowCol]

theorem map_getD_range {α : Type} (l : List α) (d : α) : (List.range l.length).map (fun p => l.getD p d) = l := by
  apply List.ext_getElem?
  intro i
  by_cases h : i < l.length
  · simp [h]
  · simp [h]

/-! ## Properties -/

/-- C39: the packed structure in full.  For rows within the matrix and a large enough array the conversion succeeds; the
permutation lists every entry once, in row order and within a row in column order; the column of entry `k` is at its place;
start number `r` counts the entries of the rows before `r`; and nothing else in the array is touched. -/
theorem packed_layout (sort : (ℕ → ℕ → Bool) → List ℕ → List ℕ) (hsort : IsSort sort) (sym cStyle : Bool) (m : ℕ) (es : List (ℤ × ℤ)) (nnzOff nOff : ℕ) (lws : List ℤ)
    (base : ℤ) (hbase : base = if cStyle then 0 else 1)
    (hr : ∀ e ∈ rowCol sym es, base ≤ e.1 ∧ e.1 < base + m) (hl : nnzOff + es.length + nOff + m + 2 ≤ lws.length) :
    ∃ perm mem, toPacked sort sym cStyle m es nnzOff nOff lws = some (perm, mem) ∧ perm.Perm (List.range es.length) ∧ mem.length = lws.length ∧
      (perm.map fun p => (rowCol sym es).getD p (0, 0)).Pairwise (fun a b => a.1 < b.1 ∨ a.1 = b.1 ∧ a.2 ≤ b.2) ∧
      mem[0]? = some ((es.length + nnzOff + 1 : ℕ) : ℤ) ∧
      (∀ (k p : ℕ) (e : ℤ × ℤ), perm[k]? = some p → (rowCol sym es)[p]? = some e → mem[nnzOff + 1 + k]? = some (e.2 - base + 1)) ∧
      (∀ r, r ≤ m → mem[nnzOff + 1 + es.length + nOff + r]? = some ((nnzOff + 1 + before (rowCol sym es) (base + r) : ℕ) : ℤ)) ∧
      (∀ a, a ≠ 0 → ¬ (nnzOff + 1 ≤ a ∧ a < nnzOff + 1 + es.length) →
        ¬ (nnzOff + 1 + es.length + nOff ≤ a ∧ a ≤ nnzOff + 1 + es.length + nOff + m) → mem[a]? = lws[a]?) := by
  set rc := rowCol sym es with hrc
  have hrcl : rc.length = es.length := rowCol_length sym es
  set idx : ℤ := if cStyle then 1 else 0 with hidx
  have hbi : base = 1 - idx := by rw [hbase, hidx]; cases cStyle <;> simp
  obtain ⟨hp, hsd⟩ := hsort (fun i j => lexLt (rc.getD i (0, 0)) (rc.getD j (0, 0))) (List.range es.length)
    (fun a => lexLt_irrefl _) (fun a b c => lexLt_trans _ _ _) (fun a b c => lexLt_neg _ _ _)
  set perm := sort (fun i j => lexLt (rc.getD i (0, 0)) (rc.getD j (0, 0))) (List.range es.length) with hperm
  set L := perm.map fun p => rc.getD p (0, 0) with hL
  have hLp : L.Perm rc := by
    have := hp.map fun p => rc.getD p (0, 0)
    rwa [← hrcl, map_getD_range] at this
  have hLl : L.length = es.length := by rw [hLp.length_eq, hrcl]
  have hlex : L.Pairwise fun a b => a.1 < b.1 ∨ a.1 = b.1 ∧ a.2 ≤ b.2 := by
    rw [hL, List.pairwise_map]
    refine hsd.imp fun {a b} h => ?_
    simp only [lexLt, Bool.or_eq_false_iff, Bool.and_eq_false_iff, decide_eq_false_iff_not] at h
    omega
  have hrow : L.Pairwise fun a b => a.1 ≤ b.1 := hlex.imp fun {a b} h => by omega
  obtain ⟨m1, a1, a2, a3⟩ := wr_get lws 0 (es.length + nnzOff + 1) (by omega)
  obtain ⟨m2, b1, b2, b3⟩ := wr_get m1 (nnzOff + 1 + es.length + nOff) (1 + nnzOff) (by omega)
  obtain ⟨m3, c1, c2, c3, c4, c5⟩ := rowsLoop_get nnzOff idx (nnzOff + 1) (m - idx) L 0 (1 - idx) (nnzOff + 1 + es.length + nOff + 1) m2 hrow
    (fun e he => by have := hr e (hLp.mem_iff.1 he); omega) (by omega) (by omega) (by omega)
  have hm : ((m : ℤ) - idx + 1 - (1 - idx)).toNat = m := by omega
  rw [hm] at c4 c5
  refine ⟨perm, m3, ?_, hp, by omega, hlex, ?_, ?_, ?_, ?_⟩
  · simp only [toPacked, ← hrc, ← hperm, ← hidx, ← hL, a1, b1, c1]
  · rw [c5 _ (by omega) (by omega), b3, if_neg (by omega), a3, if_pos rfl]; push_cast; rfl
  · intro k p e h1 h2
    have : L[k]? = some e := by simp [hL, h1, h2]
    have := c3 k e this
    rw [Nat.add_zero] at this
    rw [this]; congr 1; omega
  · intro r hrm
    cases r with
    | zero =>
      rw [Nat.add_zero, c5 _ (by omega) (by omega), b3, if_pos rfl, before_zero]
      · push_cast; congr 1; ring
      · intro e he; have := hr e he; simp; omega
    | succ r =>
      have := c4 r (by omega)
      have e1 : nnzOff + 1 + es.length + nOff + 1 + r = nnzOff + 1 + es.length + nOff + (r + 1) := by omega
      rw [e1] at this
      rw [this, before_perm hLp]
      congr 1
      have e2 : 1 - idx + 1 + (r : ℤ) = base + ((r + 1 : ℕ) : ℤ) := by push_cast; omega
      rw [e2]; push_cast; ring
  · intro a h0 h1 h2
    rw [c5 _ (by omega) (by omega), b3, if_neg (by omega), a3, if_neg h0]

/-- `IsSort` can be met: insertion sort. -/
theorem insertionSort_isSort : IsSort fun lt l => l.insertionSort fun a b => lt b a = false := by
  intro lt l h1 h2 h3
  refine ⟨List.perm_insertionSort _ _, ?_⟩
  have : Std.Total fun a b : ℕ => lt b a = false := ⟨fun a b => by
    by_contra h
    simp only [not_or, Bool.not_eq_false] at h
    have := h2 _ _ _ h.1 h.2
    rw [h1] at this; cases this⟩
  have : IsTrans ℕ fun a b : ℕ => lt b a = false := ⟨fun a b c h4 h5 => h3 _ _ _ h5 h4⟩
  exact List.pairwise_insertionSort _ _

/-- The sorting function of the examples. -/
def exSort : (ℕ → ℕ → Bool) → List ℕ → List ℕ := fun lt l => l.insertionSort fun a b => lt b a = false

/-- A Jacobian with an empty first and last row, C style: entries (2,1), (1,0), (1,2); two variables' gradient in front. -/
example : toPacked exSort false true 4 [(2, 1), (1, 0), (1, 2)] 2 1 (List.replicate 12 7) = some ([1, 2, 0], [6, 7, 7, 1, 3, 2, 7, 3, 3, 5, 6, 6]) := by decide +kernel
example : ∀ e ∈ rowCol false [((2 : ℤ), (1 : ℤ)), (1, 0), (1, 2)], (0 : ℤ) ≤ e.1 ∧ e.1 < 0 + (4 : ℕ) := by decide
/-- A symmetric structure, Fortran style, given with a mixture of triangles. -/
example : toPacked exSort true false 3 [(1, 3), (2, 2), (1, 1), (3, 2)] 0 0 (List.replicate 9 7) = some ([2, 1, 0, 3], [5, 1, 2, 1, 2, 1, 2, 3, 5]) := by decide +kernel

/-- C39: an array too short for the structure is overrun: one entry less and the last start is written outside. -/
example : toPacked exSort false true 4 [(2, 1), (1, 0), (1, 2)] 2 1 (List.replicate 11 7) = none := by decide +kernel

/-- C39: an entry is numbered between the start of a row and the start of the next one exactly when it belongs to that row. -/
theorem packed_segment (sort : (ℕ → ℕ → Bool) → List ℕ → List ℕ) (hsort : IsSort sort) (sym cStyle : Bool) (m : ℕ) (es : List (ℤ × ℤ)) (nnzOff nOff : ℕ) (lws : List ℤ)
    (base : ℤ) (hbase : base = if cStyle then 0 else 1)
    (hr : ∀ e ∈ rowCol sym es, base ≤ e.1 ∧ e.1 < base + m) (hl : nnzOff + es.length + nOff + m + 2 ≤ lws.length)
    (perm : List ℕ) (mem : List ℤ) (h : toPacked sort sym cStyle m es nnzOff nOff lws = some (perm, mem))
    (k p : ℕ) (e : ℤ × ℤ) (hk : perm[k]? = some p) (hp : (rowCol sym es)[p]? = some e) (r : ℕ) (hrm : r < m) :
    ∃ s s', mem[nnzOff + 1 + es.length + nOff + r]? = some s ∧ mem[nnzOff + 1 + es.length + nOff + r + 1]? = some s' ∧
      (s ≤ nnzOff + 1 + k ∧ (nnzOff : ℤ) + 1 + k < s' ↔ e.1 = base + r) := by
  obtain ⟨perm', mem', g0, g1, g2, g3, g4, g5, g6, g7⟩ := packed_layout sort hsort sym cStyle m es nnzOff nOff lws base hbase hr hl
  rw [h] at g0; simp only [Option.some.injEq, Prod.mk.injEq] at g0
  obtain ⟨rfl, rfl⟩ := g0
  refine ⟨_, _, g6 r hrm.le, g6 (r + 1) hrm, ?_⟩
  set L := perm.map fun p => (rowCol sym es).getD p (0, 0) with hL
  have hLp : L.Perm (rowCol sym es) := by
    have := g1.map fun p => (rowCol sym es).getD p (0, 0)
    rwa [← rowCol_length sym es, map_getD_range] at this
  have hrow : L.Pairwise fun a b => a.1 ≤ b.1 := g3.imp fun {a b} h => by omega
  have hLk : L[k]? = some e := by simp [hL, hk, hp]
  have h1 := before_sorted L hrow k e hLk (base + r)
  have h2 := before_sorted L hrow k e hLk (base + ((r + 1 : ℕ) : ℤ))
  rw [before_perm hLp] at h1 h2
  push_cast at h1 h2 ⊢
  omega

theorem sum_filter_map {α : Type} (l : List α) (q : α → Bool) (f : α → ℚ) :
    ((l.filter q).map f).sum = (l.map fun x => if q x then f x else 0).sum := by
  induction l with
  | nil => rfl
  | cons x xs ih =>
    by_cases h : q x = true <;> simp [h, ih]

theorem tripletVal_eq (r c : ℤ) (es : List (ℤ × ℤ)) (vs : List ℚ) (h : es.length = vs.length) :
    tripletVal r c es vs = ((List.range es.length).map fun p => if es.getD p (0, 0) = (r, c) then vs.getD p 0 else 0).sum := by
  induction es generalizing vs with
  | nil => cases vs <;> simp [tripletVal]
  | cons e es ih =>
    cases vs with
    | nil => simp at h
    | cons v vs =>
      simp only [List.length_cons, Nat.add_right_cancel_iff] at h
      rw [tripletVal, ih vs h, List.length_cons, List.range_succ_eq_map]
      simp [List.map_map, Function.comp_def]

theorem mapM_getElem? (perm : List ℕ) (vs out : List ℚ) (h : gradCopy perm vs = some out) :
    out.length = perm.length ∧ ∀ (k p : ℕ), perm[k]? = some p → ∃ v, vs[p]? = some v ∧ out[k]? = some v := by
  induction perm generalizing out with
  | nil => simp [gradCopy] at h; subst h; simp
  | cons q qs ih =>
    simp only [gradCopy, List.mapM_cons] at h
    cases hv : vs[q]? with
    | none => simp [hv] at h
    | some v =>
      cases hq : qs.mapM fun p => vs[p]? with
      | none => simp [hv, hq] at h
      | some o =>
        simp only [hv, hq, Option.pure_def, Option.bind_eq_bind, Option.bind_some, Option.some.injEq] at h
        subst h
        obtain ⟨i1, i2⟩ := ih o hq
        refine ⟨by simp [i1], fun k p hk => ?_⟩
        cases k with
        | zero => simp at hk; subst hk; exact ⟨v, hv, rfl⟩
        | succ k => simpa using i2 k p (by simpa using hk)

theorem gradCopy_isSome (perm : List ℕ) (vs : List ℚ) (h : ∀ p ∈ perm, p < vs.length) : ∃ out, gradCopy perm vs = some out := by
  induction perm with
  | nil => exact ⟨[], rfl⟩
  | cons q qs ih =>
    obtain ⟨o, ho⟩ := ih fun p hp => h p (by simp [hp])
    have hq := h q (by simp)
    refine ⟨vs[q] :: o, ?_⟩
    simp only [gradCopy] at ho
    simp [gradCopy, List.mapM_cons, hq, ho]

theorem map_eq_of_getElem? {α β γ : Type} (f : α → γ) (g : β → γ) : ∀ (l : List α) (l' : List β), l.length = l'.length →
    (∀ (k : ℕ) x y, l[k]? = some x → l'[k]? = some y → f x = g y) → l.map f = l'.map g
  | [], [], _, _ => rfl
  | [], _ :: _, h, _ => by simp at h
  | _ :: _, [], h, _ => by simp at h
  | a :: l, b :: l', h, hk => by
    simp only [List.map_cons]
    rw [hk 0 a b rfl rfl, map_eq_of_getElem? f g l l' (by simpa using h) fun k x y hx hy => hk (k + 1) x y (by simpa using hx) (by simpa using hy)]

/-- C39: the conversion preserves the matrix.  The packed structure together with the values copied by `gradient` (or `hessian`) —
behind any `nnzOff` values of a leading dense row — represents at every position the sum of the values of the triplets at that position. -/
theorem packed_value (sort : (ℕ → ℕ → Bool) → List ℕ → List ℕ) (hsort : IsSort sort) (sym cStyle : Bool) (m : ℕ) (es : List (ℤ × ℤ)) (nnzOff nOff : ℕ) (lws : List ℤ)
    (base : ℤ) (hbase : base = if cStyle then 0 else 1)
    (hr : ∀ e ∈ rowCol sym es, base ≤ e.1 ∧ e.1 < base + m) (hl : nnzOff + es.length + nOff + m + 2 ≤ lws.length)
    (values g : List ℚ) (hv : values.length = es.length) (hg : g.length = nnzOff) :
    ∃ perm la a, toPacked sort sym cStyle m es nnzOff nOff lws = some (perm, la) ∧ gradCopy perm values = some a ∧
      ∀ r c, r < m → packedVal la (g ++ a) (nnzOff + 1 + es.length + nOff) r c = tripletVal (base + r) (base + c - 1) (rowCol sym es) values := by
  obtain ⟨perm, la, g0, g1, g2, g3, g4, g5, g6, g7⟩ := packed_layout sort hsort sym cStyle m es nnzOff nOff lws base hbase hr hl
  have hrcl := rowCol_length sym es
  obtain ⟨a, ha⟩ := gradCopy_isSome perm values fun p hp => by
    have := g1.mem_iff.1 hp; simp at this; omega
  obtain ⟨al, av⟩ := mapM_getElem? perm values a ha
  have hpl : perm.length = es.length := by rw [g1.length_eq]; simp
  refine ⟨perm, la, a, g0, ha, fun r c hrm => ?_⟩
  rw [packedVal, sum_filter_map, tripletVal_eq _ _ _ _ (by omega), hrcl, ← (g1.map _).sum_eq]
  have hlen : (g ++ a).length = nnzOff + es.length := by simp [hg, al, hpl]
  rw [hlen, List.range_add, List.map_append, List.sum_append]
  have hz : ((List.range nnzOff).map fun (k : ℕ) => if (decide (la.getD (nnzOff + 1 + es.length + nOff + r) 0 ≤ (k : ℤ) + 1) && decide ((k : ℤ) + 1 < la.getD (nnzOff + 1 + es.length + nOff + r + 1) 0) && decide (la.getD (k + 1) 0 = c)) = true then (g ++ a).getD k 0 else 0).sum = 0 := by
    apply List.sum_eq_zero
    intro x hx
    rw [List.mem_map] at hx
    obtain ⟨k, hk, rfl⟩ := hx
    rw [List.mem_range] at hk
    rw [if_neg]
    have := g6 r hrm.le
    simp only [List.getD_eq_getElem?_getD, this, Option.getD_some, Bool.and_eq_true, decide_eq_true_eq]
    omega
  rw [hz, zero_add, List.map_map]
  congr 1
  apply map_eq_of_getElem? _ _ _ _ (by simp [hpl])
  intro k x p hx hp
  have hxk : x = k := by
    rw [List.getElem?_range] at hx
    · simpa using hx.symm
    · by_contra hc
      rw [List.getElem?_eq_none (by simpa using hc)] at hx; cases hx
  subst hxk
  obtain ⟨v, v1, v2⟩ := av x p hp
  have hpr : p < (rowCol sym es).length := by
    have := g1.mem_iff.1 (List.mem_of_getElem? hp); simp at this; omega
  have he : (rowCol sym es)[p]? = some (rowCol sym es)[p] := List.getElem?_eq_getElem hpr
  obtain ⟨s, s', s1, s2, s3⟩ := packed_segment sort hsort sym cStyle m es nnzOff nOff lws base hbase hr hl perm la g0 x p _ hp he r hrm
  have c1 := g5 x p _ hp he
  have e1 : nnzOff + 1 + x = nnzOff + x + 1 := by omega
  rw [e1] at c1
  have e2 : (g ++ a)[nnzOff + x]? = some v := by
    rw [List.getElem?_append_right (by omega), hg, Nat.add_sub_cancel_left, v2]
  simp only [Function.comp_def, List.getD_eq_getElem?_getD, s1, s2, c1, e2, v1, he, Option.getD_some, Bool.and_eq_true, decide_eq_true_eq]
  have key : ((s ≤ ((nnzOff + x : ℕ) : ℤ) + 1 ∧ ((nnzOff + x : ℕ) : ℤ) + 1 < s') ∧ (rowCol sym es)[p].2 - base + 1 = c) ↔ (rowCol sym es)[p] = (base + (r : ℤ), base + c - 1) := by
    have e3 : ((nnzOff + x : ℕ) : ℤ) + 1 = (nnzOff : ℤ) + 1 + x := by push_cast; ring
    rw [e3, s3, Prod.ext_iff]
    simp only
    constructor
    · rintro ⟨h1, h2⟩; exact ⟨h1, by omega⟩
    · rintro ⟨h1, h2⟩; exact ⟨h1, by omega⟩
  by_cases hc : (rowCol sym es)[p] = (base + (r : ℤ), base + c - 1)
  · rw [if_pos (key.2 hc), if_pos hc]
  · rw [if_neg (fun h => hc (key.1 h)), if_neg hc]

/-- The matrix of the first example: the value of entry (1,2) is found in row 1 at (1-based) column 3. -/
example : packedVal [6, 7, 7, 1, 3, 2, 7, 3, 3, 5, 6, 6] [9, 9, 20, 30, 10] 7 1 3 = 30 ∧ tripletVal 1 2 [(2, 1), (1, 0), (1, 2)] [10, 20, 30] = 30 := by decide +kernel

/-- C39 for a symmetric matrix: after the reordering of the pairs the value at a position of the lower triangle is the sum over both triangles of the given triplets. -/
theorem sym_value (es : List (ℤ × ℤ)) (values : List ℚ) (r c : ℤ) :
    tripletVal r c (rowCol true es) values = if c < r then tripletVal r c es values + tripletVal c r es values
      else if c = r then tripletVal r r es values else 0 := by
  simp only [rowCol, if_true]
  induction es generalizing values with
  | nil => cases values <;> simp [tripletVal]
  | cons e es ih =>
    cases values with
    | nil => simp [tripletVal]
    | cons v vs =>
      simp only [List.map_cons, tripletVal, ih vs]
      obtain ⟨i, j⟩ := e
      simp only [symPair, Prod.mk.injEq]
      rcases lt_trichotomy c r with h | h | h
      · simp only [h, if_true]
        by_cases h1 : j < i
        · simp only [h1, if_true, Prod.mk.injEq]
          split_ifs <;> first | omega | ring
        · simp only [h1, if_false, Prod.mk.injEq]
          split_ifs <;> first | omega | ring
      · subst h
        simp only [lt_irrefl, if_false, if_true]
        congr 1
        by_cases h1 : j < i
        · simp [h1]
        · simp [h1, and_comm]
      · have hn : ¬ c < r := by omega
        have hn' : ¬ c = r := by omega
        simp only [hn, hn', if_false, add_zero]
        rw [if_neg]
        by_cases h1 : j < i <;> simp [h1] <;> intros <;> omega

/-- C39: the multipliers handed to the Hessian are the negated constraint multipliers of filterSQP, behind the `n` bound multipliers. -/
theorem hessMult_spec (n m : ℕ) (lam : List ℚ) (h : n + m ≤ lam.length) : hessMult n m lam = some (((lam.drop n).take m).map (- ·)) := by
  induction m with
  | zero => simp [hessMult]
  | succ m ih =>
    have h1 := ih (by omega)
    simp only [hessMult] at h1 ⊢
    have h2 : n + m < lam.length := by omega
    rw [List.range_succ, List.mapM_append, h1]
    have e : (lam.drop n)[m]? = some lam[n + m] := by simp [h2]
    rw [List.take_add_one, e]
    simp [h2]

example : hessMult 1 2 [5, 3, -4] = some [-3, 4] := by decide +kernel
example : hessObj 1 = 0 ∧ hessObj 2 = 1 := by decide +kernel

theorem gradFill_get (n : ℕ) (la : List ℤ) (h : n < la.length) :
    ∃ la', (List.range n).foldlM (fun la i => wr la (i + 1) ((i : ℤ) + 1)) la = some la' ∧ la'.length = la.length ∧
      ∀ a, la'[a]? = if 1 ≤ a ∧ a ≤ n then some (a : ℤ) else la[a]? := by
  induction n with
  | zero => exact ⟨la, rfl, rfl, fun a => by rw [if_neg (by omega)]⟩
  | succ n ih =>
    obtain ⟨m1, h1, h2, h3⟩ := ih (by omega)
    obtain ⟨m2, g1, g2, g3⟩ := wr_get m1 (n + 1) ((n : ℤ) + 1) (by omega)
    refine ⟨m2, ?_, by omega, fun a => ?_⟩
    · rw [List.range_succ, List.foldlM_append, h1]; simp [g1]
    · rw [g3, h3]
      by_cases ha : a = n + 1
      · subst ha; simp
      · rw [if_neg ha]
        by_cases hb : 1 ≤ a ∧ a ≤ n
        · rw [if_pos hb, if_pos (by omega)]
        · rw [if_neg hb, if_neg (by omega)]

/-- C39: the structure filterSQP gets for objective and constraints, in an array of the size allocated (`n + nnz + m + 3`): the
number of the first position behind the entries, the dense gradient row (columns 1..n, start 1) and then the Jacobian rows;
every position of the array is written. -/
theorem jac_structure (sort : (ℕ → ℕ → Bool) → List ℕ → List ℕ) (hsort : IsSort sort) (cStyle : Bool) (n m : ℕ) (es : List (ℤ × ℤ)) (junk : List ℤ)
    (base : ℤ) (hbase : base = if cStyle then 0 else 1)
    (hr : ∀ e ∈ es, base ≤ e.1 ∧ e.1 < base + m) (hl : junk.length = n + es.length + m + 3) :
    ∃ perm la, jacStruct sort cStyle n m es junk = some (perm, la) ∧ la.length = junk.length ∧ perm.Perm (List.range es.length) ∧
      la[0]? = some ((n + es.length + 1 : ℕ) : ℤ) ∧
      (∀ i, i < n → la[i + 1]? = some ((i : ℤ) + 1)) ∧
      (∀ (k p : ℕ) (e : ℤ × ℤ), perm[k]? = some p → es[p]? = some e → la[n + 1 + k]? = some (e.2 - base + 1)) ∧
      la[n + es.length + 1]? = some 1 ∧
      (∀ r, r ≤ m → la[n + es.length + 2 + r]? = some ((n + 1 + before es (base + r) : ℕ) : ℤ)) := by
  obtain ⟨m1, a1, a2, a3⟩ := wr_get junk (es.length + n + 1) 1 (by omega)
  obtain ⟨m2, b1, b2, b3⟩ := gradFill_get n m1 (by omega)
  obtain ⟨perm, la, g0, g1, g2, g3, g4, g5, g6, g7⟩ := packed_layout sort hsort false cStyle m es n 1 m2 base hbase (by simpa [rowCol] using hr) (by omega)
  refine ⟨perm, la, ?_, by omega, g1, ?_, ?_, ?_, ?_, ?_⟩
  · simp only [jacStruct, a1, b1, g0]
  · rw [g4]; congr 1; push_cast; ring
  · intro i hi
    rw [g7 _ (by omega) (by omega) (by omega), b3, if_pos (by omega)]; push_cast; rfl
  · intro k p e h1 h2
    exact g5 k p e h1 (by simpa [rowCol] using h2)
  · rw [g7 _ (by omega) (by omega) (by omega), b3, if_neg (by omega), a3, if_pos (by omega)]
  · intro r hrm
    have := g6 r hrm
    simp only [rowCol, Bool.false_eq_true, if_false] at this
    rw [← this]; congr 1; omega

example : jacStruct exSort true 2 4 [(2, 1), (1, 0), (1, 2)] (List.replicate 12 7) = some ([1, 2, 0], [6, 1, 2, 1, 3, 2, 1, 3, 3, 5, 6, 6]) := by decide +kernel

theorem wr_some (mem mem' : List ℤ) (a : ℕ) (v : ℤ) (h : wr mem a v = some mem') : a < mem.length ∧ mem'.length = mem.length := by
  unfold wr at h
  by_cases ha : a < mem.length
  · rw [if_pos ha] at h; obtain rfl := Option.some.inj h; exact ⟨ha, by simp⟩
  · rw [if_neg ha] at h; cases h

theorem fill_some (k ptr : ℕ) (v : ℤ) (mem mem' : List ℤ) (h : fill k ptr v mem = some mem') : (0 < k → ptr + k ≤ mem.length) ∧ mem'.length = mem.length := by
  induction k generalizing ptr mem with
  | zero => simp only [fill, Option.some.injEq] at h; subst h; simp
  | succ k ih =>
    simp only [fill] at h
    cases hw : wr mem ptr v with
    | none => rw [hw] at h; cases h
    | some m1 =>
      rw [hw] at h
      obtain ⟨a1, a2⟩ := wr_some _ _ _ _ hw
      obtain ⟨b1, b2⟩ := ih _ _ h
      refine ⟨fun _ => ?_, by omega⟩
      by_cases hk : 0 < k
      · have := b1 hk; omega
      · omega

theorem rowsLoop_some (off colOff : ℤ) (inds : ℕ) (last : ℤ) (es : List (ℤ × ℤ)) (i : ℕ) (row : ℤ) (ptr : ℕ) (mem mem' : List ℤ)
    (hr : ∀ e ∈ es, e.1 ≤ last) (hp : ptr ≤ mem.length) (h : rowsLoop off colOff inds last es i row ptr mem = some mem') :
    ptr + (last + 1 - row).toNat ≤ mem.length := by
  induction es generalizing i row ptr mem with
  | nil =>
    simp only [rowsLoop] at h
    have := (fill_some _ _ _ _ _ h).1
    by_cases hk : 0 < (last + 1 - row).toNat
    · exact this hk
    · omega
  | cons e es ih =>
    have hre := hr e (by simp)
    simp only [rowsLoop] at h
    cases hw : wr mem (inds + i) (e.2 + colOff) with
    | none => rw [hw] at h; cases h
    | some m1 =>
      rw [hw] at h
      have a2 := (wr_some _ _ _ _ hw).2
      by_cases hlt : row < e.1
      · simp only [if_pos hlt] at h
        cases hf : fill (e.1 - row).toNat ptr (i + off + 1) m1 with
        | none => rw [hf] at h; cases h
        | some m2 =>
          rw [hf] at h
          obtain ⟨b1, b2⟩ := fill_some _ _ _ _ _ hf
          have := b1 (by omega)
          have := ih (i + 1) e.1 (ptr + (e.1 - row).toNat) m2 (fun e he => hr e (by simp [he])) (by omega) h
          omega
      · simp only [if_neg hlt] at h
        have := ih (i + 1) row ptr m1 (fun e he => hr e (by simp [he])) (by omega) h
        omega

/-- C39: for rows within the matrix the conversion is defined exactly when the array is large enough for the header, the entries before and of the matrix and its row starts. -/
theorem packed_defined_iff (sort : (ℕ → ℕ → Bool) → List ℕ → List ℕ) (hsort : IsSort sort) (sym cStyle : Bool) (m : ℕ) (es : List (ℤ × ℤ)) (nnzOff nOff : ℕ) (lws : List ℤ)
    (base : ℤ) (hbase : base = if cStyle then 0 else 1) (hr : ∀ e ∈ rowCol sym es, base ≤ e.1 ∧ e.1 < base + m) :
    (toPacked sort sym cStyle m es nnzOff nOff lws).isSome ↔ nnzOff + es.length + nOff + m + 2 ≤ lws.length := by
  constructor
  · intro h
    unfold toPacked at h
    dsimp only at h
    cases h1 : wr lws 0 (es.length + nnzOff + 1) with
    | none => rw [h1] at h; cases h
    | some m1 =>
      rw [h1] at h
      dsimp only at h
      have l1 := wr_some _ _ _ _ h1
      cases h2 : wr m1 (nnzOff + 1 + es.length + nOff) (1 + nnzOff) with
      | none => rw [h2] at h; cases h
      | some m2 =>
        rw [h2] at h
        dsimp only at h
        have l2 := wr_some _ _ _ _ h2
        generalize hperm : sort (fun i j => lexLt ((rowCol sym es).getD i (0, 0)) ((rowCol sym es).getD j (0, 0))) (List.range es.length) = perm at h
        have hp : perm.Perm (List.range es.length) := by
          obtain ⟨_, _, g0, g1, _⟩ := packed_layout sort hsort sym cStyle m es nnzOff nOff (List.replicate (nnzOff + es.length + nOff + m + 2) 0) base hbase hr (by simp)
          unfold toPacked at g0
          dsimp only at g0
          rw [hperm] at g0
          split at g0
          · cases g0
          · split at g0
            · cases g0
            · split at g0
              · cases g0
              · obtain ⟨rfl, _⟩ := Prod.mk.inj (Option.some.inj g0); exact g1
        cases h3 : rowsLoop nnzOff (if cStyle then 1 else 0) (nnzOff + 1) (m - (if cStyle then 1 else 0)) (perm.map fun p => (rowCol sym es).getD p (0, 0)) 0 (1 - (if cStyle then 1 else 0)) (nnzOff + 1 + es.length + nOff + 1) m2 with
        | none => rw [h3] at h; cases h
        | some m3 =>
          have := rowsLoop_some _ _ _ _ _ _ _ _ _ _ (by
            intro e he
            rw [List.mem_map] at he
            obtain ⟨p, hpm, rfl⟩ := he
            have hlt : p < (rowCol sym es).length := by
              rw [rowCol_length]; exact List.mem_range.1 (hp.mem_iff.1 hpm)
            rw [List.getD_eq_getElem _ _ hlt]
            have := hr _ (List.getElem_mem hlt)
            subst hbase
            cases cStyle <;> simp at this ⊢ <;> omega) (by omega) h3
          cases cStyle <;> simp at this <;> omega
  · intro h
    obtain ⟨_, _, g0, _⟩ := packed_layout sort hsort sym cStyle m es nnzOff nOff lws base hbase hr h
    rw [g0]; rfl

theorem gradFill_some (n : ℕ) (la la' : List ℤ) (h : (List.range n).foldlM (fun la i => wr la (i + 1) ((i : ℤ) + 1)) la = some la') : la'.length = la.length := by
  induction n generalizing la' with
  | zero => obtain rfl := Option.some.inj h; rfl
  | succ n ih =>
    rw [List.range_succ, List.foldlM_append] at h
    cases h1 : (List.range n).foldlM (fun la i => wr la (i + 1) ((i : ℤ) + 1)) la with
    | none => rw [h1] at h; cases h
    | some m1 =>
      rw [h1] at h
      have := ih m1 h1
      simp only [Option.bind_eq_bind, Option.bind_some, List.foldlM_cons, List.foldlM_nil] at h
      cases h2 : wr m1 (n + 1) ((n : ℤ) + 1) with
      | none => rw [h2] at h; cases h
      | some m2 =>
        rw [h2] at h
        obtain rfl := Option.some.inj h
        have := (wr_some _ _ _ _ h2).2
        omega

/-- C39: the structure of the Jacobian can be built exactly when the array has at least the size that is allocated. -/
theorem jac_defined_iff (sort : (ℕ → ℕ → Bool) → List ℕ → List ℕ) (hsort : IsSort sort) (cStyle : Bool) (n m : ℕ) (es : List (ℤ × ℤ)) (junk : List ℤ)
    (base : ℤ) (hbase : base = if cStyle then 0 else 1) (hr : ∀ e ∈ es, base ≤ e.1 ∧ e.1 < base + m) :
    (jacStruct sort cStyle n m es junk).isSome ↔ n + es.length + m + 3 ≤ junk.length := by
  have hr' : ∀ e ∈ rowCol false es, base ≤ e.1 ∧ e.1 < base + m := by simpa [rowCol] using hr
  constructor
  · intro h
    unfold jacStruct at h
    cases h1 : wr junk (es.length + n + 1) 1 with
    | none => rw [h1] at h; cases h
    | some la =>
      rw [h1] at h
      dsimp only at h
      have l1 := (wr_some _ _ _ _ h1).2
      cases h2 : (List.range n).foldlM (fun la i => wr la (i + 1) ((i : ℤ) + 1)) la with
      | none => rw [h2] at h; cases h
      | some m2 =>
        rw [h2] at h
        dsimp only at h
        have l2 := gradFill_some _ _ _ h2
        have := (packed_defined_iff sort hsort false cStyle m es n 1 m2 base hbase hr').1 h
        omega
  · intro h
    obtain ⟨m1, a1, a2, a3⟩ := wr_get junk (es.length + n + 1) 1 (by omega)
    obtain ⟨m2, b1, b2, b3⟩ := gradFill_get n m1 (by omega)
    simp only [jacStruct, a1, b1]
    exact (packed_defined_iff sort hsort false cStyle m es n 1 m2 base hbase hr').2 (by omega)

example : jacStruct exSort true 2 4 [(2, 1), (1, 0), (1, 2)] (List.replicate 11 7) = none := by decide +kernel

/-- C39: the objective is left out of the Hessian in the feasibility phase 1 and counts once otherwise. -/
theorem hessObj_iff (phase : ℤ) : (hessObj phase = 0 ↔ phase = 1) ∧ (phase ≠ 1 → hessObj phase = 1) := by
  unfold hessObj
  by_cases h : phase = 1 <;> simp [h]

end Verif.Slv

import Mathlib.Data.List.Basic
import Mathlib.Algebra.Order.Ring.Rat
import Mathlib.Tactic.Linarith
import Mathlib.Tactic.NormNum

/-!
# Bounds files (`Interfaces/BonBoundsReader.cpp`)
A file is a list of words and line ends.  Blanks are left out (before a word they are skipped, and
behind the last word `ignore` reaches the end of the file over them); lines are shorter than the
10000 characters `ignore` skips.  Words that stand where a number is expected are `idx` and `val`
when they are one (`idx` where an index is read, `val` where a bound is read); indices are natural numbers.
Line numbers refer to `BonBoundsReader.cpp` unless said otherwise.
-/
namespace Verif.Slv

/-- Words and line ends. -/
inductive Tok where
  | lo
  | up
  | other
  | idx (i : ℕ)
  | val (v : ℚ)
  | nl
deriving DecidableEq, Repr

/-- A `std::ifstream`. -/
structure Strm where
  rest : List Tok
  eof : Bool
  fail : Bool
deriving DecidableEq, Repr

/-- `fin >> word`: skip white space; at the end set both flags and leave the variable alone. -/
def rdWord (s : Strm) : Strm × Option Tok :=
  if s.eof || s.fail then ({ s with fail := true }, none)
  else match s.rest.dropWhile (· == .nl) with
    | [] => (⟨[], true, true⟩, none)
    | w :: r => (⟨r, r.isEmpty, false⟩, some w)

/-- `fin.ignore(10000, '\n')`. -/
def ignoreLine (s : Strm) : Strm :=
  if s.eof || s.fail then { s with fail := true }
  else match s.rest.dropWhile (· != .nl) with
    | [] => ⟨[], true, false⟩
    | _ :: r => ⟨r, false, false⟩

/-- How reading ends: with the bounds, by `throw;` without an exception (`std::terminate`), or undefined; `outOfFuel` does not happen (`read_fuel`). -/
inductive Rd where
  | ok (lows ups : List (ℕ × ℚ))
  | terminate
  | undefined
  | outOfFuel
deriving DecidableEq, Repr

/-- Outcome of the counting loop. -/
inductive Cnt where
  | ok (nL nU : ℕ) (cur : Option Tok)
  | terminate
  | outOfFuel
deriving DecidableEq, Repr

/-- The counting loop (65-74); `cur` is the string `in`, which keeps its value when nothing is read. -/
def countLoop : ℕ → Strm → Option Tok → ℕ → ℕ → Cnt
  | 0, _, _, _, _ => .outOfFuel
  | fuel + 1, s, cur, nL, nU =>
    if s.eof then .ok nL nU cur
    else
      match (rdWord s).2.or cur with
      | some .lo => countLoop fuel (ignoreLine (rdWord s).1) (some .lo) (nL + 1) nU
      | some .up => countLoop fuel (ignoreLine (rdWord s).1) (some .up) nL (nU + 1)
      | _ => .terminate

/-- `bounds_[n] = bound; index_[n++] = index` (96-103): `index` and `bound` are new uninitialised variables in every pass,
so using them when nothing was read is undefined, and so is writing beyond the `cap` entries counted before. -/
def store (cap : ℕ) (l : List (ℕ × ℚ)) (i b : Option Tok) : Option (List (ℕ × ℚ)) :=
  match i, b with
  | some (.idx i), some (.val v) => if l.length < cap then some (l ++ [(i, v)]) else none
  | _, _ => none

/-- The reading loop (92-107). -/
def readLoop (nL nU : ℕ) : ℕ → Strm → Option Tok → List (ℕ × ℚ) → List (ℕ × ℚ) → Rd
  | 0, _, _, _, _ => .outOfFuel
  | fuel + 1, s, cur, ls, us =>
    if s.eof then .ok ls us
    else
      let r := rdWord s
      let ri := rdWord r.1
      let rb := rdWord ri.1
      match r.2.or cur with
      | some .lo => match store nL ls ri.2 rb.2 with
        | none => .undefined
        | some ls => readLoop nL nU fuel (ignoreLine rb.1) (some .lo) ls us
      | some .up => match store nU us ri.2 rb.2 with
        | none => .undefined
        | some us => readLoop nL nU fuel (ignoreLine rb.1) (some .up) ls us
      | _ => .terminate

/-- `BoundsReader::read` (55-109); a file that cannot be opened is `none`: the stream is failed from the start. -/
def readBounds (file : Option (List Tok)) : Rd :=
  let s : Strm := ⟨file.getD [], false, file.isNone⟩
  match countLoop (s.rest.length + 2) s none 0 0 with
  | .terminate => .terminate
  | .outOfFuel => .outOfFuel
  | .ok nL nU cur => readLoop nL nU (s.rest.length + 2) s cur [] []

/-- `setColLower` or `setColUpper` for one side of the bounds (`BonOsiTMINLPInterface.cpp:1314-1330`); a wrong index is undefined. -/
def setBnds : List (ℕ × ℚ) → List ℚ → Option (List ℚ)
  | [], l => some l
  | (i, v) :: es, l => if i < l.length then setBnds es (l.set i v) else none

/-- `readAndApply` (111-120) on lower and upper bounds; `none` if the program ends or the behaviour is undefined. -/
def readApply (file : Option (List Tok)) (lo up : List ℚ) : Option (List ℚ × List ℚ) :=
  match readBounds file with
  | .ok ls us => match setBnds ls lo, setBnds us up with
    | some lo, some up => some (lo, up)
    | _, _ => none
  | _ => none

/-! ## Specification -/

/-- A line: empty lines before it, which bound, index, value, and further words (ignored). -/
structure Line where
  blanks : ℕ
  lower : Bool
  i : ℕ
  v : ℚ
  extra : List Tok
deriving DecidableEq, Repr

/-- The words of a line. -/
def Line.toks (l : Line) : List Tok := List.replicate l.blanks .nl ++ (if l.lower then .lo else .up) :: .idx l.i :: .val l.v :: l.extra

/-- A file: the lines separated (not terminated) by line ends. -/
def fileOf : List Line → List Tok
  | [] => []
  | [l] => l.toks
  | l :: ls => l.toks ++ .nl :: fileOf ls

/-- The entries of one kind, in the order of the file. -/
def entriesOf (lower : Bool) (ls : List Line) : List (ℕ × ℚ) := (ls.filter fun l => l.lower == lower).map fun l => (l.i, l.v)

/-- The last value listed for an index. -/
def lastFor (es : List (ℕ × ℚ)) (j : ℕ) : Option ℚ := ((es.filter fun e => e.1 == j).getLast?).map (·.2)

/-! ## Lemmas -/

theorem dropWhile_blanks (k : ℕ) (l : List Tok) : (List.replicate k Tok.nl ++ l).dropWhile (· == .nl) = l.dropWhile (· == .nl) := by
  induction k with
  | zero => rfl
  | succ k ih => simp [List.replicate_succ, ih]

theorem dropWhile_extra (x l : List Tok) (h : Tok.nl ∉ x) : (x ++ l).dropWhile (· != .nl) = l.dropWhile (· != .nl) := by
  induction x with
  | nil => rfl
  | cons a x ih =>
    simp only [List.mem_cons, not_or] at h
    simp [Ne.symm h.1, ih h.2]

/-- The keyword of a line. -/
def Line.kw (l : Line) : Tok := if l.lower then .lo else .up

theorem kw_ne_nl (l : Line) : (l.kw == Tok.nl) = false := by unfold Line.kw; cases l.lower <;> rfl

theorem rdWord_kw (l : Line) (tail : List Tok) :
    rdWord ⟨l.toks ++ tail, false, false⟩ = (⟨.idx l.i :: .val l.v :: l.extra ++ tail, false, false⟩, some l.kw) := by
  simp only [rdWord, Bool.or_self, Bool.false_eq_true, if_false, Line.toks, List.append_assoc, dropWhile_blanks, List.cons_append]
  change (match List.dropWhile (· == Tok.nl) (l.kw :: _) with | [] => _ | w :: r => _) = _
  rw [List.dropWhile_cons, kw_ne_nl]; rfl

/-- Where the stream is after a line followed by `tail`. -/
def after : List Tok → Strm
  | [] => ⟨[], true, false⟩
  | _ :: r => ⟨r, false, false⟩

theorem ignore_kw (l : Line) (hx : Tok.nl ∉ l.extra) (tail : List Tok) (ht : tail = [] ∨ ∃ r, tail = .nl :: r) :
    ignoreLine ⟨.idx l.i :: .val l.v :: l.extra ++ tail, false, false⟩ = after tail := by
  have : Tok.nl ∉ (.idx l.i :: .val l.v :: l.extra : List Tok) := by simp [hx]
  simp only [ignoreLine, Bool.or_self, Bool.false_eq_true, if_false, dropWhile_extra _ tail this]
  rcases ht with rfl | ⟨r, rfl⟩ <;> simp [after]

theorem count_line (fuel : ℕ) (l : Line) (hx : Tok.nl ∉ l.extra) (tail : List Tok) (ht : tail = [] ∨ ∃ r, tail = .nl :: r) (cur : Option Tok) (nL nU : ℕ) :
    countLoop (fuel + 1) ⟨l.toks ++ tail, false, false⟩ cur nL nU =
      countLoop fuel (after tail) (some l.kw) (if l.lower then nL + 1 else nL) (if l.lower then nU else nU + 1) := by
  rw [countLoop, rdWord_kw]
  simp only [Bool.false_eq_true, if_false, Option.some_or, ignore_kw l hx tail ht, Line.kw]
  cases l.lower <;> rfl

theorem rdWord_after (t : Tok) (r : List Tok) (h : (t == Tok.nl) = false) : rdWord ⟨t :: r, false, false⟩ = (⟨r, r.isEmpty, false⟩, some t) := by
  simp [rdWord, h]

theorem read_line (nL nU fuel : ℕ) (l : Line) (hx : Tok.nl ∉ l.extra) (tail : List Tok) (ht : tail = [] ∨ ∃ r, tail = .nl :: r) (cur : Option Tok) (ls us : List (ℕ × ℚ))
    (hl : if l.lower then ls.length < nL else us.length < nU) :
    ∃ s, (s.eof = (after tail).eof ∧ (tail ≠ [] → s = after tail)) ∧
    readLoop nL nU (fuel + 1) ⟨l.toks ++ tail, false, false⟩ cur ls us =
      readLoop nL nU fuel s (some l.kw) (if l.lower then ls ++ [(l.i, l.v)] else ls) (if l.lower then us else us ++ [(l.i, l.v)]) := by
  have e2 : rdWord ⟨.idx l.i :: .val l.v :: l.extra ++ tail, false, false⟩ = (⟨.val l.v :: l.extra ++ tail, false, false⟩, some (.idx l.i)) := by
    rw [List.cons_append, List.cons_append, rdWord_after _ _ rfl]; rfl
  have e3 : rdWord ⟨.val l.v :: l.extra ++ tail, false, false⟩ = (⟨l.extra ++ tail, (l.extra ++ tail).isEmpty, false⟩, some (.val l.v)) := by
    rw [List.cons_append, rdWord_after _ _ rfl]
  refine ⟨ignoreLine ⟨l.extra ++ tail, (l.extra ++ tail).isEmpty, false⟩, ?_, ?_⟩
  · by_cases he : l.extra ++ tail = []
    · rw [List.append_eq_nil_iff] at he
      simp [he.1, he.2, ignoreLine, after]
    · have : (l.extra ++ tail).isEmpty = false := by simpa using he
      rw [this]
      simp only [ignoreLine, Bool.or_self, Bool.false_eq_true, if_false, dropWhile_extra _ tail hx]
      rcases ht with rfl | ⟨r, rfl⟩ <;> simp [after]
  · rw [readLoop]
    simp only [rdWord_kw, e2, e3, Bool.false_eq_true, if_false, Option.some_or]
    unfold Line.kw
    cases hlow : l.lower
    · simp only [hlow, Bool.false_eq_true, if_false] at hl ⊢
      simp [store, hl]
    · simp only [hlow, if_true] at hl ⊢
      simp [store, hl]

theorem entriesOf_cons (b : Bool) (l : Line) (ls : List Line) : entriesOf b (l :: ls) = if l.lower = b then (l.i, l.v) :: entriesOf b ls else entriesOf b ls := by
  unfold entriesOf
  by_cases h : l.lower = b <;> simp [h]

theorem fileOf_cons (l : Line) (ls : List Line) (hne : ls ≠ []) (tail : List Tok) : fileOf (l :: ls) ++ tail = l.toks ++ (.nl :: (fileOf ls ++ tail)) := by
  cases ls with
  | nil => exact absurd rfl hne
  | cons a as => simp [fileOf]

/-- What follows the last line: nothing, or line ends only. -/
def EndsWith (tail : List Tok) : Prop := tail = [] ∨ ∃ k, tail = .nl :: List.replicate k .nl

theorem count_file (ls : List Line) (hne : ls ≠ []) (hx : ∀ l ∈ ls, Tok.nl ∉ l.extra) (tail : List Tok) (ht : EndsWith tail) :
    ∀ fuel cur nL nU, ∃ last, (last = Tok.lo ∨ last = Tok.up) ∧ ls.getLast?.map Line.kw = some last ∧
      countLoop (fuel + ls.length) ⟨fileOf ls ++ tail, false, false⟩ cur nL nU =
        countLoop fuel (after tail) (some last) (nL + (entriesOf true ls).length) (nU + (entriesOf false ls).length) := by
  induction ls with
  | nil => exact absurd rfl hne
  | cons l ls ih =>
    intro fuel cur nL nU
    have hx1 := hx l (by simp)
    cases ls with
    | nil =>
      have ht' : tail = [] ∨ ∃ r, tail = .nl :: r := by
        rcases ht with h | ⟨k, h⟩
        · exact .inl h
        · exact .inr ⟨_, h⟩
      refine ⟨l.kw, by unfold Line.kw; cases l.lower <;> simp, by simp, ?_⟩
      have := count_line fuel l hx1 tail ht' cur nL nU
      simp only [fileOf, List.length_singleton, this, entriesOf_cons]
      cases l.lower <;> simp [entriesOf]
    | cons a as =>
      obtain ⟨last, h1, h2, h3⟩ := ih (by simp) (fun l hl => hx l (by simp [hl])) fuel (some l.kw) (if l.lower then nL + 1 else nL) (if l.lower then nU else nU + 1)
      refine ⟨last, h1, by simpa [List.getLast?_cons_cons] using h2, ?_⟩
      have := count_line (fuel + (a :: as).length) l hx1 (.nl :: (fileOf (a :: as) ++ tail)) (.inr ⟨_, rfl⟩) cur nL nU
      rw [fileOf_cons l (a :: as) (by simp), List.length_cons (a := l), ← Nat.add_assoc, this]
      rw [entriesOf_cons true l, entriesOf_cons false l]
      cases hl : l.lower
      · simp only [hl, Bool.false_eq_true, if_false] at h3
        have e : ∀ r, after (Tok.nl :: r) = ⟨r, false, false⟩ := fun _ => rfl
        simp only [e, Bool.false_eq_true, if_false, if_true]
        rw [h3]; congr 1; simp only [List.length_cons]; omega
      · simp only [hl, if_true] at h3
        have e : ∀ r, after (Tok.nl :: r) = ⟨r, false, false⟩ := fun _ => rfl
        simp only [e, Bool.true_eq_false, if_false, if_true]
        rw [h3]; congr 1; simp only [List.length_cons]; omega

theorem read_file (nL nU : ℕ) (ls : List Line) (hne : ls ≠ []) (hx : ∀ l ∈ ls, Tok.nl ∉ l.extra) (tail : List Tok) (ht : EndsWith tail) :
    ∀ fuel cur lo up, lo.length + (entriesOf true ls).length ≤ nL → up.length + (entriesOf false ls).length ≤ nU →
      ∃ last s, (last = Tok.lo ∨ last = Tok.up) ∧ s.eof = (after tail).eof ∧ (tail ≠ [] → s = after tail) ∧
      readLoop nL nU (fuel + ls.length) ⟨fileOf ls ++ tail, false, false⟩ cur lo up =
        readLoop nL nU fuel s (some last) (lo ++ entriesOf true ls) (up ++ entriesOf false ls) := by
  induction ls with
  | nil => exact absurd rfl hne
  | cons l ls ih =>
    intro fuel cur lo up hL hU
    have hx1 := hx l (by simp)
    rw [entriesOf_cons true l] at hL ⊢
    rw [entriesOf_cons false l] at hU ⊢
    have hlen : if l.lower then lo.length < nL else up.length < nU := by
      cases hl : l.lower <;> simp [hl] at hL hU ⊢ <;> omega
    cases ls with
    | nil =>
      have ht' : tail = [] ∨ ∃ r, tail = .nl :: r := by
        rcases ht with h | ⟨k, h⟩
        · exact .inl h
        · exact .inr ⟨_, h⟩
      obtain ⟨s, hs, he⟩ := read_line nL nU fuel l hx1 tail ht' cur lo up hlen
      refine ⟨l.kw, s, by unfold Line.kw; cases l.lower <;> simp, hs.1, hs.2, ?_⟩
      simp only [fileOf, List.length_singleton, he]
      cases l.lower <;> simp [entriesOf]
    | cons a as =>
      obtain ⟨s, hs, he⟩ := read_line nL nU (fuel + (a :: as).length) l hx1 (.nl :: (fileOf (a :: as) ++ tail)) (.inr ⟨_, rfl⟩) cur lo up hlen
      have hs' := hs.2 (by simp)
      subst hs'
      rw [fileOf_cons l (a :: as) (by simp), List.length_cons (a := l), ← Nat.add_assoc, he]
      cases hl : l.lower
      · simp only [hl, Bool.false_eq_true, if_false, if_true, List.length_cons] at hL hU ⊢
        obtain ⟨last, s, h1, h2, h3, h4⟩ := ih (by simp) (fun l hl => hx l (by simp [hl])) fuel (some l.kw) lo (up ++ [(l.i, l.v)]) (by omega) (by simp; omega)
        refine ⟨last, s, h1, h2, h3, ?_⟩
        simp only [List.length_cons] at h4
        simp only [after, h4, List.append_assoc, List.singleton_append]
      · simp only [hl, Bool.true_eq_false, if_false, if_true, List.length_cons] at hL hU ⊢
        obtain ⟨last, s, h1, h2, h3, h4⟩ := ih (by simp) (fun l hl => hx l (by simp [hl])) fuel (some l.kw) (lo ++ [(l.i, l.v)]) up (by simp; omega) (by omega)
        refine ⟨last, s, h1, h2, h3, ?_⟩
        simp only [List.length_cons] at h4
        simp only [after, h4, List.append_assoc, List.singleton_append]

theorem fileOf_length (ls : List Line) : ls.length ≤ (fileOf ls).length := by
  induction ls with
  | nil => simp
  | cons l ls ih =>
    cases ls with
    | nil => simp [fileOf, Line.toks]; omega
    | cons a as => simp [fileOf, Line.toks] at ih ⊢; omega

theorem ignoreLine_ok (s : Strm) (h : s.fail = true → s.eof = true) :
    (ignoreLine s).eof = true ∨ ((ignoreLine s).fail = false ∧ (ignoreLine s).rest.length < s.rest.length) := by
  unfold ignoreLine
  cases he : s.eof
  · have hf : s.fail = false := by
      cases hf : s.fail
      · rfl
      · simp [h hf] at he
    simp only [hf, Bool.or_self, Bool.false_eq_true, if_false]
    have hl := (List.dropWhile_sublist (l := s.rest) (· != .nl)).length_le
    split
    · simp
    · rename_i w r hr
      rw [hr] at hl; simp at hl ⊢; omega
  · simp

theorem rdWord_ok (s : Strm) (h1 : s.eof = false) (h2 : s.fail = false) :
    ((rdWord s).1.fail = true → (rdWord s).1.eof = true) ∧ (rdWord s).1.rest.length ≤ s.rest.length := by
  unfold rdWord
  simp only [h1, h2, Bool.or_self, Bool.false_eq_true, if_false]
  have hl := (List.dropWhile_sublist (l := s.rest) (· == .nl)).length_le
  split
  · simp
  · rename_i w r hr
    rw [hr] at hl; simp at hl ⊢; omega

theorem rdWord_some (s : Strm) (w : Tok) (h : (rdWord s).2 = some w) :
    s.eof = false ∧ s.fail = false ∧ (rdWord s).1.fail = false ∧ (rdWord s).1.rest.length < s.rest.length := by
  unfold rdWord at h ⊢
  split at h
  · cases h
  · rename_i he
    simp only [Bool.or_eq_true, not_or, Bool.not_eq_true] at he
    have hl := (List.dropWhile_sublist (l := s.rest) (· == .nl)).length_le
    simp only [he, Bool.or_self, Bool.false_eq_true, if_false]
    split at h
    · cases h
    · rename_i w r hr
      simp only
      rw [hr] at hl; simp at hl ⊢; omega

theorem rdWord_none (s : Strm) (h : (rdWord s).2 = none) : (rdWord s).1.fail = true := by
  unfold rdWord at h ⊢
  by_cases hc : (s.eof || s.fail) = true
  · simp only [hc, if_true]
  · simp only [hc] at h ⊢
    cases hd : List.dropWhile (· == Tok.nl) s.rest <;> simp [hd] at h ⊢

theorem count_fuel (fuel : ℕ) : ∀ (s : Strm) (cur : Option Tok) (nL nU : ℕ), (s.fail = true → s.eof = true) → 1 ≤ fuel → (s.eof = false → s.rest.length + 2 ≤ fuel) →
    countLoop fuel s cur nL nU ≠ .outOfFuel := by
  induction fuel with
  | zero => intro s cur nL nU _ h; omega
  | succ fuel ih =>
    intro s cur nL nU hf _ h2
    unfold countLoop
    cases he : s.eof
    · have hfl : s.fail = false := by
        cases hfl : s.fail
        · rfl
        · simp [hf hfl] at he
      have hr := rdWord_ok s he hfl
      have hi := ignoreLine_ok _ hr.1
      have h2 := h2 he
      have hih : ∀ cur nL nU, countLoop fuel (ignoreLine (rdWord s).1) cur nL nU ≠ .outOfFuel := by
        intro cur nL nU
        rcases hi with hi | ⟨hi1, hi2⟩
        · exact ih _ _ _ _ (fun _ => hi) (by omega) (by simp [hi])
        · exact ih _ _ _ _ (by simp [hi1]) (by omega) (fun _ => by omega)
      simp only [Bool.false_eq_true, if_false]
      split
      · exact hih _ _ _
      · exact hih _ _ _
      · simp
    · simp

theorem store_some (cap : ℕ) (l l' : List (ℕ × ℚ)) (i b : Option Tok) (h : store cap l i b = some l') : ∃ w, b = some w := by
  cases b with
  | none => unfold store at h; split at h <;> simp_all
  | some w => exact ⟨w, rfl⟩

theorem readLoop_fuel (nL nU fuel : ℕ) : ∀ (s : Strm) (cur : Option Tok) (ls us : List (ℕ × ℚ)), 1 ≤ fuel → (s.eof = false → s.rest.length + 2 ≤ fuel) →
    readLoop nL nU fuel s cur ls us ≠ .outOfFuel := by
  induction fuel with
  | zero => intro s cur nL nU h; omega
  | succ fuel ih =>
    intro s cur ls us _ h2
    unfold readLoop
    cases he : s.eof
    · have h2 := h2 he
      have hih : ∀ w, (rdWord (rdWord (rdWord s).1).1).2 = some w → ∀ cur ls us, readLoop nL nU fuel (ignoreLine (rdWord (rdWord (rdWord s).1).1).1) cur ls us ≠ .outOfFuel := by
        intro w hw cur ls us
        obtain ⟨a1, a2, a3, a4⟩ := rdWord_some _ _ hw
        have b : (rdWord (rdWord s).1).1.rest.length ≤ (rdWord s).1.rest.length := by
          cases hq : (rdWord (rdWord s).1).2 with
          | none => rw [rdWord_none _ hq] at a2; cases a2
          | some w' => exact le_of_lt (rdWord_some _ _ hq).2.2.2
        have c : (rdWord s).1.rest.length ≤ s.rest.length := by
          unfold rdWord
          split
          · simp
          · have hl := (List.dropWhile_sublist (l := s.rest) (· == .nl)).length_le
            split
            · simp
            · rename_i w r hr
              rw [hr] at hl; simp at hl ⊢; omega
        rcases ignoreLine_ok _ (fun h => by rw [a3] at h; cases h) with hi | ⟨hi1, hi2⟩
        · exact ih _ _ _ _ (by omega) (by simp [hi])
        · exact ih _ _ _ _ (by omega) (fun _ => by omega)
      simp only [Bool.false_eq_true, if_false]
      split
      · split
        · simp
        · rename_i l hl
          obtain ⟨w, hw⟩ := store_some _ _ _ _ _ hl
          exact hih w hw _ _ _
      · split
        · simp
        · rename_i l hl
          obtain ⟨w, hw⟩ := store_some _ _ _ _ _ hl
          exact hih w hw _ _ _
      · simp
    · simp

/-! ## Properties -/

/-- C41: reading ends on every file (both loops), in one of the three ways. -/
theorem read_fuel (file : Option (List Tok)) : readBounds file ≠ .outOfFuel := by
  cases file with
  | none => decide
  | some f =>
    have h := count_fuel (f.length + 2) ⟨f, false, false⟩ none 0 0 (by simp) (by omega) (by simp)
    simp only [readBounds, Option.getD_some, Option.isNone_some]
    split
    · simp
    · rename_i hh; exact absurd hh h
    · exact readLoop_fuel _ _ _ _ _ _ _ (by omega) (by simp)

/-- C41: a file of well-formed lines (with empty lines and further words allowed) whose last line is not terminated is read exactly: the lower and the upper bounds listed, in the order of the file. -/
theorem read_exact_partial (ls : List Line) (hne : ls ≠ []) (hx : ∀ l ∈ ls, Tok.nl ∉ l.extra) :
    readBounds (some (fileOf ls)) = .ok (entriesOf true ls) (entriesOf false ls) := by
  have hlen := fileOf_length ls
  obtain ⟨last, _, _, h⟩ := count_file ls hne hx [] (.inl rfl) ((fileOf ls).length + 2 - ls.length) none 0 0
  obtain ⟨last', s, _, h2, _, h4⟩ := read_file (entriesOf true ls).length (entriesOf false ls).length ls hne hx [] (.inl rfl) ((fileOf ls).length + 2 - ls.length) (some last) [] [] (by simp) (by simp)
  have e : (fileOf ls).length + 2 - ls.length + ls.length = (fileOf ls).length + 2 := by omega
  obtain ⟨f, hf⟩ : ∃ f, (fileOf ls).length + 2 - ls.length = f + 1 := ⟨(fileOf ls).length + 1 - ls.length, by omega⟩
  rw [e, List.append_nil] at h h4
  have hc : countLoop ((fileOf ls).length + 2 - ls.length) (after []) (some last) (0 + (entriesOf true ls).length) (0 + (entriesOf false ls).length) = .ok (entriesOf true ls).length (entriesOf false ls).length (some last) := by
    rw [hf]; simp [countLoop, after]
  rw [hc] at h
  have hr : readBounds (some (fileOf ls)) = readLoop (entriesOf true ls).length (entriesOf false ls).length ((fileOf ls).length + 2) ⟨fileOf ls, false, false⟩ (some last) [] [] := by
    simp only [readBounds, Option.getD_some, Option.isNone_some, h]
  rw [hr, h4, hf]
  simp [readLoop, h2, after]

/-- C41 refuted for text files as editors write them: when the last line is terminated (one line end or more), the last line
is counted twice and the program goes on to use an uninitialised index and bound — for every well-formed file. -/
theorem read_newline_undefined (ls : List Line) (hne : ls ≠ []) (hx : ∀ l ∈ ls, Tok.nl ∉ l.extra) (k : ℕ) :
    readBounds (some (fileOf ls ++ .nl :: List.replicate k .nl)) = .undefined := by
  have hlen := fileOf_length ls
  set tail : List Tok := .nl :: List.replicate k .nl with htl
  have ht : EndsWith tail := .inr ⟨k, rfl⟩
  have hT : (fileOf ls ++ tail).length = (fileOf ls).length + (k + 1) := by simp [htl]
  obtain ⟨last, hl1, _, h⟩ := count_file ls hne hx tail ht ((fileOf ls ++ tail).length + 2 - ls.length) none 0 0
  have e : (fileOf ls ++ tail).length + 2 - ls.length + ls.length = (fileOf ls ++ tail).length + 2 := by omega
  obtain ⟨f, hf⟩ : ∃ f, (fileOf ls ++ tail).length + 2 - ls.length = f + 1 + 1 := ⟨(fileOf ls ++ tail).length - ls.length, by omega⟩
  rw [e] at h
  have hdw : (List.replicate k Tok.nl).dropWhile (· == .nl) = [] := by
    simp
  obtain ⟨nL, nU, hn1, hn2, hc⟩ : ∃ nL nU, (entriesOf true ls).length ≤ nL ∧ (entriesOf false ls).length ≤ nU ∧
      countLoop ((fileOf ls ++ tail).length + 2) ⟨fileOf ls ++ tail, false, false⟩ none 0 0 = .ok nL nU (some last) := by
    rw [h, hf]
    rcases hl1 with rfl | rfl
    · exact ⟨0 + (entriesOf true ls).length + 1, 0 + (entriesOf false ls).length, by omega, by omega, by simp [countLoop, after, htl, rdWord, hdw, ignoreLine]⟩
    · exact ⟨0 + (entriesOf true ls).length, 0 + (entriesOf false ls).length + 1, by omega, by omega, by simp [countLoop, after, htl, rdWord, hdw, ignoreLine]⟩
  obtain ⟨last', s, hl2, h2, h3, h4⟩ := read_file nL nU ls hne hx tail ht ((fileOf ls ++ tail).length + 2 - ls.length) (some last) [] [] (by simpa using hn1) (by simpa using hn2)
  have hs := h3 (by simp [htl])
  rw [e, hs, hf] at h4
  have hr : readBounds (some (fileOf ls ++ tail)) = readLoop nL nU ((fileOf ls ++ tail).length + 2) ⟨fileOf ls ++ tail, false, false⟩ (some last) [] [] := by
    simp only [readBounds, Option.getD_some, Option.isNone_some, hc]
  rw [hr, h4]
  rcases hl2 with rfl | rfl <;> simp [readLoop, after, htl, rdWord, hdw, store]

/-- C41 refuted for a missing or an empty file: the program is terminated by `throw;` without an exception. -/
theorem read_empty_terminates (k : ℕ) : readBounds none = .terminate ∧ readBounds (some (List.replicate k .nl)) = .terminate := by
  have hdw : (List.replicate k Tok.nl).dropWhile (· == .nl) = [] := by
    simp
  constructor
  · decide
  · simp [readBounds, countLoop, rdWord, hdw]

/-- C41: any other first word also terminates the program. -/
theorem read_other_terminates (k : ℕ) (r : List Tok) (w : Tok) (h1 : w ≠ .lo) (h2 : w ≠ .up) (h3 : w ≠ .nl) :
    readBounds (some (List.replicate k .nl ++ w :: r)) = .terminate := by
  have hw : (w == Tok.nl) = false := by simpa using h3
  have hdw : (List.replicate k Tok.nl ++ w :: r).dropWhile (· == .nl) = w :: r := by
    rw [dropWhile_blanks]; simp [hw]
  simp only [readBounds, Option.getD_some, Option.isNone_some]
  rw [countLoop]
  simp only [Bool.false_eq_true, if_false, rdWord, Bool.or_self, hdw, Option.some_or]
  cases w <;> simp_all

theorem setBnds_get (es : List (ℕ × ℚ)) (l l' : List ℚ) (h : setBnds es l = some l') :
    l'.length = l.length ∧ (∀ e ∈ es, e.1 < l.length) ∧ ∀ j, j < l.length → l'[j]? = (lastFor es j).or l[j]? := by
  induction es generalizing l with
  | nil => simp [setBnds] at h; subst h; simp [lastFor]
  | cons e es ih =>
    obtain ⟨i, v⟩ := e
    simp only [setBnds] at h
    split at h
    · rename_i hi
      obtain ⟨h1, h2, h3⟩ := ih _ h
      rw [List.length_set] at h1 h2 h3
      refine ⟨h1, ?_, fun j hj => ?_⟩
      · intro e he
        rcases List.mem_cons.1 he with rfl | he
        · exact hi
        · exact h2 e he
      · rw [h3 j hj, List.getElem?_set]
        unfold lastFor
        by_cases hij : i = j
        · subst hij
          simp only [if_true, hi, List.filter_cons, beq_self_eq_true, List.getLast?_cons]
          cases hL : (List.filter (fun e => e.1 == i) es).getLast? with
          | none => simp
          | some x => simp
        · simp [hij]
    · cases h

/-- C41: applying a file that is read gives every variable the last bound listed for it on that side, and leaves all others unchanged; it fails exactly on an index outside the problem. -/
theorem apply_exact (ls : List Line) (hne : ls ≠ []) (hx : ∀ l ∈ ls, Tok.nl ∉ l.extra) (lo up lo' up' : List ℚ)
    (h : readApply (some (fileOf ls)) lo up = some (lo', up')) :
    lo'.length = lo.length ∧ up'.length = up.length ∧
    (∀ j, j < lo.length → lo'[j]? = (lastFor (entriesOf true ls) j).or lo[j]?) ∧
    (∀ j, j < up.length → up'[j]? = (lastFor (entriesOf false ls) j).or up[j]?) := by
  simp only [readApply, read_exact_partial ls hne hx] at h
  split at h
  · rename_i a b h1 h2
    simp only [Option.some.injEq, Prod.mk.injEq] at h
    obtain ⟨rfl, rfl⟩ := h
    have g1 := setBnds_get _ _ _ h1
    have g2 := setBnds_get _ _ _ h2
    exact ⟨g1.1, g2.1, g1.2.2, g2.2.2⟩
  · cases h

theorem setBnds_isSome (es : List (ℕ × ℚ)) (l : List ℚ) : (setBnds es l).isSome ↔ ∀ e ∈ es, e.1 < l.length := by
  induction es generalizing l with
  | nil => simp [setBnds]
  | cons e es ih =>
    obtain ⟨i, v⟩ := e
    simp only [setBnds]
    split
    · rename_i hi; rw [ih]; simp [hi]
    · rename_i hi; simp [hi]

/-- C41: applying succeeds exactly when all indices are inside the problem. -/
theorem apply_isSome (ls : List Line) (hne : ls ≠ []) (hx : ∀ l ∈ ls, Tok.nl ∉ l.extra) (lo up : List ℚ) :
    (readApply (some (fileOf ls)) lo up).isSome ↔ ∀ l ∈ ls, l.i < if l.lower then lo.length else up.length := by
  simp only [readApply, read_exact_partial ls hne hx]
  have h1 := setBnds_isSome (entriesOf true ls) lo
  have h2 := setBnds_isSome (entriesOf false ls) up
  have key : ((∀ e ∈ entriesOf true ls, e.1 < lo.length) ∧ (∀ e ∈ entriesOf false ls, e.1 < up.length)) ↔ ∀ l ∈ ls, l.i < if l.lower then lo.length else up.length := by
    simp only [entriesOf, List.mem_map, List.mem_filter, beq_iff_eq]
    constructor
    · rintro ⟨a, b⟩ l hl
      cases hlow : l.lower
      · simpa using b (l.i, l.v) ⟨l, ⟨hl, hlow⟩, rfl⟩
      · simpa using a (l.i, l.v) ⟨l, ⟨hl, hlow⟩, rfl⟩
    · intro a
      constructor
      · rintro e ⟨l, ⟨hl, hlow⟩, rfl⟩; simpa [hlow] using a l hl
      · rintro e ⟨l, ⟨hl, hlow⟩, rfl⟩; simpa [hlow] using a l hl
  rw [← key, ← h1, ← h2]
  cases setBnds (entriesOf true ls) lo <;> cases setBnds (entriesOf false ls) up <;> simp

example : readApply (some (fileOf [⟨1, true, 1, 3, []⟩, ⟨0, false, 0, 4, [.other]⟩, ⟨0, true, 1, 2, []⟩])) [0, 0] [9, 9] = some ([0, 2], [4, 9]) := by decide +kernel

/-- C41 refuted: a bounds file can also widen a bound. -/
theorem apply_widens : readApply (some (fileOf [⟨0, true, 0, -5, []⟩])) [0] [1] = some ([-5], [1]) := by decide +kernel

/-- C41: exactly which words become an entry: a number where the index is expected, a number where the bound is expected, and room for it. -/
theorem store_iff (cap : ℕ) (l l' : List (ℕ × ℚ)) (i b : Option Tok) : store cap l i b = some l' ↔ ∃ j v, i = some (.idx j) ∧ b = some (.val v) ∧ l.length < cap ∧ l' = l ++ [(j, v)] := by
  unfold store
  constructor
  · intro h
    split at h
    · rename_i j v
      by_cases hc : l.length < cap
      · rw [if_pos hc] at h; exact ⟨j, v, rfl, rfl, hc, (Option.some.inj h).symm⟩
      · rw [if_neg hc] at h; cases h
    · cases h
  · rintro ⟨j, v, rfl, rfl, hc, rfl⟩
    simp [hc]

/-- C41: bounds are changed exactly when the file can be read and all indices are inside the problem; otherwise the program ends or the behaviour is undefined. -/
theorem read_apply_defined (file : Option (List Tok)) (lo up : List ℚ) :
    (readApply file lo up).isSome ↔ ∃ ls us, readBounds file = .ok ls us ∧ (∀ e ∈ ls, e.1 < lo.length) ∧ ∀ e ∈ us, e.1 < up.length := by
  unfold readApply
  cases hb : readBounds file with
  | ok ls us =>
    have h1 := setBnds_isSome ls lo
    have h2 := setBnds_isSome us up
    dsimp only
    constructor
    · intro h
      refine ⟨ls, us, rfl, ?_, ?_⟩
      · rw [← h1]
        cases hs : setBnds ls lo with
        | none => rw [hs] at h; cases h
        | some _ => rfl
      · rw [← h2]
        cases hs : setBnds us up with
        | none => cases ha : setBnds ls lo <;> simp [ha, hs] at h
        | some _ => rfl
    · rintro ⟨ls', us', e, q1, q2⟩
      obtain ⟨rfl, rfl⟩ := Rd.ok.inj e
      obtain ⟨a, ha⟩ := Option.isSome_iff_exists.1 (h1.2 q1)
      obtain ⟨b, hb'⟩ := Option.isSome_iff_exists.1 (h2.2 q2)
      rw [ha, hb']; rfl
  | terminate => simp
  | undefined => simp
  | outOfFuel => simp

end Verif.Slv

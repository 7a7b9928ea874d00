import Mathlib.Data.List.Basic
import Mathlib.Algebra.Order.Ring.Rat
import Mathlib.Tactic.Linarith
import Mathlib.Tactic.NormNum

/-!
# Copies of SOS, branching and perturbation information; general integers (`Interfaces/BonTMINLP.cpp`, `.hpp`)
A cell of an array is `none` when its content is indeterminate (`new int[n]` without initialisation).
An array is `none` when the pointer is NULL.  Freshly allocated arrays share nothing with others.
-/
namespace Verif.Slv

/-- An array, or NULL. -/
abbrev Arr (α : Type) := Option (List (Option α))

/-- `TMINLP::SosInfo` (`BonTMINLP.hpp:86-122`); types as numbers. -/
structure SosInfo where
  num : ℕ
  types : Arr ℕ
  priorities : Arr ℤ
  numNz : ℕ
  starts : Arr ℕ
  indices : Arr ℕ
  weights : Arr ℚ
deriving DecidableEq, Repr

/-- `new T[n]`. -/
def newArr (α : Type) (n : ℕ) : List (Option α) := List.replicate n none

/-- `for(i = 0 ; i < n ; i++) dst[i] = src[i];` out of range is undefined. -/
def copyLoop {α : Type} (n : ℕ) (src dst : List (Option α)) : Option (List (Option α)) :=
  if n ≤ src.length ∧ n ≤ dst.length then some (src.take n ++ dst.drop n) else none

/-- Copy constructor of `SosInfo` (`BonTMINLP.cpp:28-67`): the new value of the *source* and the copy; `none` if an assert fails.
The loops 49-57 assign to the source. -/
def sosCopy (s : SosInfo) : Option (SosInfo × SosInfo) :=
  if 0 < s.num then do
    let ty ← s.types
    let pr ← s.priorities
    let st ← s.starts
    let ix ← s.indices
    let we ← s.weights
    let cty := newArr ℕ s.num
    let cpr := newArr ℤ s.num
    let cst := newArr ℕ (s.num + 1)
    let cix := newArr ℕ s.numNz
    let cwe := newArr ℚ s.numNz
    let ty' ← copyLoop s.num cty ty
    let pr' ← copyLoop s.num cpr pr
    let st' ← copyLoop s.num cst st
    let ix' ← copyLoop s.numNz cix ix
    let we' ← copyLoop s.numNz cwe we
    return ({ s with types := some ty', priorities := some pr', starts := some st', indices := some ix', weights := some we' },
      { s with types := some cty, priorities := some cpr, starts := some cst, indices := some cix, weights := some cwe })
  else
    if s.types = none ∧ s.priorities = none ∧ s.starts = none ∧ s.indices = none ∧ s.weights = none then
      some (s, { s with types := none, priorities := none, starts := none, indices := none, weights := none })
    else none

/-- `SosInfo::gutsOfDestructor` (`BonTMINLP.cpp:71-86`). -/
def sosReset (_ : SosInfo) : SosInfo := ⟨0, none, none, 0, none, none, none⟩

/-- `TMINLP::BranchingInfo` (`BonTMINLP.hpp:125-168`). -/
structure BranchInfo where
  size : ℕ
  priorities : Arr ℤ
  directions : Arr ℤ
  up : Arr ℚ
  down : Arr ℚ
deriving DecidableEq, Repr

/-- `CoinCopyOfArray`: NULL for NULL, otherwise the first `n` entries. -/
def coinCopy {α : Type} (a : Arr α) (n : ℕ) : Option (Arr α) :=
  match a with
  | none => some none
  | some l => if n ≤ l.length then some (some (l.take n)) else none

/-- Copy constructor of `BranchingInfo` (`BonTMINLP.hpp:144-152`).  It first deletes the four pointers of the object under
construction, which nothing has set: `garbage` says which of them happen to be non-null; deleting such a pointer is undefined. -/
def branchCopy (garbage : Bool × Bool × Bool × Bool) (o : BranchInfo) : Option BranchInfo :=
  if garbage = (false, false, false, false) then do
    let p ← coinCopy o.priorities o.size
    let d ← coinCopy o.directions o.size
    let u ← coinCopy o.up o.size
    let w ← coinCopy o.down o.size
    return ⟨o.size, p, d, u, w⟩
  else none

/-- `perturb_radius_`: NULL, an array, or a pointer to deleted storage. -/
inductive Rad where
  | null
  | live (l : List ℚ)
  | dangling
deriving DecidableEq, Repr

/-- `SetPerturbationArray` (`BonTMINLP.cpp:89-97`) with a NULL argument or an array. -/
def setRadius (r : Rad) (a : Option (List ℚ)) : Option Rad :=
  match r with
  | .dangling => none
  | r => match a with
    | some l => some (.live l)
    | none => some (match r with | .null => .null | _ => .dangling)

/-- A history of calls on a new object (`BonTMINLP.hpp:175-177`), ended by the destructor (180-183), which deletes the array:
the arrays `GetPerturbationArray` returns before it is destroyed; `none` if undefined. -/
def radiusLife (as : List (Option (List ℚ))) : Option Rad :=
  match as.foldlM setRadius .null with
  | some .dangling => none
  | r => r

/-- `VariableType` (`BonTMINLP.hpp:206-211`). -/
inductive VType where
  | continuous
  | binary
  | integer
deriving DecidableEq, Repr

/-- `hasGeneralInteger` (`BonTMINLP.cpp:112-132`); a variable is its type and its bounds. -/
def hasGeneralInteger : List (VType × ℚ × ℚ) → Bool
  | [] => false
  | (t, l, u) :: vs =>
    if t = .integer ∧ (l < -99/100 ∨ l > 99/100 ∨ u < 1/100 ∨ u > 199/100) then true else hasGeneralInteger vs

/-! ## Properties -/

/-- A `SosInfo` in use: at least one set, all arrays there with at least the declared sizes. -/
def SosOk (s : SosInfo) : Prop :=
  0 < s.num ∧ (∃ l, s.types = some l ∧ s.num ≤ l.length) ∧ (∃ l, s.priorities = some l ∧ s.num ≤ l.length) ∧
  (∃ l, s.starts = some l ∧ s.num ≤ l.length) ∧ (∃ l, s.indices = some l ∧ s.numNz ≤ l.length) ∧ (∃ l, s.weights = some l ∧ s.numNz ≤ l.length)

/-- C44: copying an empty `SosInfo` gives an equal copy and leaves the source unchanged. -/
theorem sos_copy_partial (s : SosInfo) (h : s.num = 0) (h1 : s.types = none) (h2 : s.priorities = none) (h3 : s.starts = none) (h4 : s.indices = none) (h5 : s.weights = none) :
    sosCopy s = some (s, s) := by
  obtain ⟨n, a, b, c, d, e, f⟩ := s
  simp only at h h1 h2 h3 h4 h5
  subst h h1 h2 h3 h4 h5
  simp [sosCopy]

/-- C44: with no set but an array left over the copy stops at an assert. -/
theorem sos_copy_assert (s : SosInfo) (h : s.num = 0) (h1 : s.types ≠ none) : sosCopy s = none := by
  simp [sosCopy, h, h1]

/-- C44 refuted for every `SosInfo` with at least one set: the copy holds nothing but indeterminate values, and the types, priorities, starts,
indices and weights of the source are lost. -/
theorem sos_copy_destroys (s : SosInfo) (h : SosOk s) : ∃ s' c, sosCopy s = some (s', c) ∧
    c.num = s.num ∧ c.numNz = s.numNz ∧
    c.types = some (List.replicate s.num none) ∧ c.priorities = some (List.replicate s.num none) ∧ c.starts = some (List.replicate (s.num + 1) none) ∧
    c.indices = some (List.replicate s.numNz none) ∧ c.weights = some (List.replicate s.numNz none) ∧
    s'.num = s.num ∧ s'.numNz = s.numNz ∧
    (∀ i, i < s.num → (∃ l, s'.types = some l ∧ l[i]? = some none) ∧ (∃ l, s'.priorities = some l ∧ l[i]? = some none) ∧ (∃ l, s'.starts = some l ∧ l[i]? = some none)) ∧
    (∀ i, i < s.numNz → (∃ l, s'.indices = some l ∧ l[i]? = some none) ∧ (∃ l, s'.weights = some l ∧ l[i]? = some none)) := by
  obtain ⟨h0, ⟨ty, t1, t2⟩, ⟨pr, p1, p2⟩, ⟨st, s1, s2⟩, ⟨ix, i1, i2⟩, ⟨we, w1, w2⟩⟩ := h
  have e : sosCopy s = some (⟨s.num, some (List.replicate s.num none ++ ty.drop s.num), some (List.replicate s.num none ++ pr.drop s.num), s.numNz,
      some (List.replicate s.num none ++ st.drop s.num), some (List.replicate s.numNz none ++ ix.drop s.numNz),
      some (List.replicate s.numNz none ++ we.drop s.numNz)⟩,
      ⟨s.num, some (List.replicate s.num none), some (List.replicate s.num none), s.numNz, some (List.replicate (s.num + 1) none),
        some (List.replicate s.numNz none), some (List.replicate s.numNz none)⟩) := by
    simp [sosCopy, h0, t1, p1, s1, i1, w1, copyLoop, newArr, t2, p2, s2, i2, w2]
  refine ⟨_, _, e, rfl, rfl, rfl, rfl, rfl, rfl, rfl, rfl, rfl, fun i hi => ⟨⟨_, rfl, ?_⟩, ⟨_, rfl, ?_⟩, ⟨_, rfl, ?_⟩⟩, fun i hi => ⟨⟨_, rfl, ?_⟩, ⟨_, rfl, ?_⟩⟩⟩ <;>
    simp [List.getElem?_append, hi]

/-- One set of two variables. -/
def exSos : SosInfo := ⟨1, some [some 1], some [some 5], 2, some [some 0, some 2], some [some 3, some 4], some [some 1, some 2]⟩

example : SosOk exSos := ⟨by decide, ⟨_, rfl, by decide⟩, ⟨_, rfl, by decide⟩, ⟨_, rfl, by decide⟩, ⟨_, rfl, by decide⟩, ⟨_, rfl, by decide⟩⟩

example : sosCopy exSos = some (⟨1, some [none], some [none], 2, some [none, some 2], some [none, none], some [none, none]⟩,
    ⟨1, some [none], some [none], 2, some [none, none], some [none, none], some [none, none]⟩) := by decide +kernel

/-- C44: the whole source is lost when it is copied — no entry of the weights has a determinate value afterwards. -/
theorem sos_copy_not_faithful : ∃ s s' c, SosOk s ∧ sosCopy s = some (s', c) ∧ c ≠ s ∧ s' ≠ s :=
  ⟨exSos, _, _, ⟨by decide, ⟨_, rfl, by decide⟩, ⟨_, rfl, by decide⟩, ⟨_, rfl, by decide⟩, ⟨_, rfl, by decide⟩, ⟨_, rfl, by decide⟩⟩, rfl, by decide +kernel, by decide +kernel⟩

/-- C44: after the reset a `SosInfo` can be copied. -/
theorem sos_reset_copy (s : SosInfo) : sosCopy (sosReset s) = some (sosReset s, sosReset s) := by
  simp [sosCopy, sosReset]

/-- `BranchingInfo` whose arrays are NULL or have exactly `size` entries. -/
def BranchOk (o : BranchInfo) : Prop :=
  (∀ l, o.priorities = some l → l.length = o.size) ∧ (∀ l, o.directions = some l → l.length = o.size) ∧
  (∀ l, o.up = some l → l.length = o.size) ∧ (∀ l, o.down = some l → l.length = o.size)

theorem coinCopy_eq {α : Type} (a : Arr α) (n : ℕ) (h : ∀ l, a = some l → l.length = n) : coinCopy a n = some a := by
  cases a with
  | none => rfl
  | some l =>
    have := h l rfl
    simp [coinCopy, ← this]

/-- C44: branching information is copied exactly, absent arrays included — if the uninitialised pointers of the new object happen to be NULL. -/
theorem branch_copy_partial (o : BranchInfo) (h : BranchOk o) : branchCopy (false, false, false, false) o = some o := by
  obtain ⟨n, p, d, u, w⟩ := o
  obtain ⟨h1, h2, h3, h4⟩ := h
  simp only at h1 h2 h3 h4
  simp [branchCopy, coinCopy_eq p n h1, coinCopy_eq d n h2, coinCopy_eq u n h3, coinCopy_eq w n h4]

example : BranchOk ⟨2, some [some 1, some 2], none, some [some 1, none], none⟩ := by
  refine ⟨?_, ?_, ?_, ?_⟩ <;> intro l hl <;> simp at hl <;> simp [← hl]

/-- C44 refuted: with any other content of the storage the copy constructor deletes a wild pointer, whatever is copied. -/
theorem branch_copy_undefined (g : Bool × Bool × Bool × Bool) (hg : g ≠ (false, false, false, false)) (o : BranchInfo) : branchCopy g o = none := by
  simp [branchCopy, hg]

theorem radius_nones (k : ℕ) (bs : List (Option (List ℚ))) : (List.replicate k none ++ bs).foldlM setRadius .null = bs.foldlM setRadius .null := by
  induction k with
  | zero => simp
  | succ k ih => simpa [List.replicate_succ, setRadius] using ih

theorem radius_somes (bs : List (List ℚ)) : ∀ r, r ≠ .dangling → (bs.map some).foldlM setRadius r = some (match bs.getLast? with | none => r | some l => .live l) := by
  induction bs with
  | nil => intro r _; rfl
  | cons b bs ih =>
    intro r hr
    have e : setRadius r (some b) = some (.live b) := by cases r <;> simp_all [setRadius]
    simp only [List.map_cons, List.foldlM_cons, e]
    show (bs.map some).foldlM setRadius (.live b) = _
    rw [ih _ (by simp), List.getLast?_cons]
    cases bs.getLast? <;> rfl

theorem radius_live_none (q : List (Option (List ℚ))) (h : none ∈ q) : ∀ l, q.foldlM setRadius (.live l) = none ∨ q.foldlM setRadius (.live l) = some .dangling := by
  induction q with
  | nil => cases h
  | cons a q ih =>
    intro l
    cases a with
    | none =>
      show q.foldlM setRadius .dangling = none ∨ q.foldlM setRadius .dangling = some .dangling
      cases q with
      | nil => exact .inr rfl
      | cons b q => exact .inl rfl
    | some v =>
      show q.foldlM setRadius (.live v) = none ∨ q.foldlM setRadius (.live v) = some .dangling
      exact ih (by simpa using h) v

/-- C44: perturbation radii are those of the last call, as long as no NULL comes after an array; before any array there are none. -/
theorem radius_last (k : ℕ) (bs : List (List ℚ)) :
    radiusLife (List.replicate k none ++ bs.map some) = some (match bs.getLast? with | none => .null | some l => .live l) := by
  unfold radiusLife
  rw [radius_nones, radius_somes _ _ (by simp)]
  cases bs.getLast? <;> rfl

/-- C44 refuted: passing NULL after an array (to take the radii back) leaves a pointer to deleted storage, which is deleted once more, at the latest on destruction. -/
theorem radius_null_undefined (p q : List (Option (List ℚ))) (l : List ℚ) (h : none ∈ q) : radiusLife (p ++ some l :: q) = none := by
  have key : ∀ r, (some l :: q).foldlM setRadius r = none ∨ (some l :: q).foldlM setRadius r = some .dangling := by
    intro r
    cases r with
    | dangling => exact .inl rfl
    | null => exact radius_live_none q h l
    | live l' => exact radius_live_none q h l
  unfold radiusLife
  rw [List.foldlM_append]
  cases hp : p.foldlM setRadius .null with
  | none => rfl
  | some r =>
    show (match (some l :: q).foldlM setRadius r with | some .dangling => none | r => r) = none
    rcases key r with h | h <;> simp [h]

example : radiusLife [none, some [1, 2], some [3]] = some (.live [3]) := by decide +kernel
example : radiusLife [some [1, 2], none] = none := by decide +kernel

/-- C52: `hasGeneralInteger` finds exactly the variables of type INTEGER whose bounds are not 0 and 1 (bounds being integers). -/
theorem hasGeneral_iff (vs : List (VType × ℚ × ℚ)) (hint : ∀ v ∈ vs, ∃ l u : ℤ, v.2.1 = l ∧ v.2.2 = u) :
    hasGeneralInteger vs = true ↔ ∃ v ∈ vs, v.1 = .integer ∧ ¬ (v.2.1 = 0 ∧ v.2.2 = 1) := by
  induction vs with
  | nil => simp [hasGeneralInteger]
  | cons v vs ih =>
    obtain ⟨t, l, u⟩ := v
    have ih := ih (fun v hv => hint v (by simp [hv]))
    obtain ⟨a, b, ha, hb⟩ := hint (t, l, u) (by simp)
    simp only at ha hb
    have e : (l < -99/100 ∨ l > 99/100 ∨ u < 1/100 ∨ u > 199/100) ↔ ¬ (l = 0 ∧ u = 1) := by
      subst ha hb
      constructor
      · rintro h ⟨h1, h2⟩
        rw [h1, h2] at h
        norm_num at h
      · intro h
        by_contra hc
        push Not at hc
        obtain ⟨c1, c2, c3, c4⟩ := hc
        apply h
        have a1 : (-1 : ℚ) < a := by linarith
        have a2 : (a : ℚ) < 1 := by linarith
        have b1 : (0 : ℚ) < b := by linarith
        have b2 : (b : ℚ) < 2 := by linarith
        have a1' : (-1 : ℤ) < a := by exact_mod_cast a1
        have a2' : a < (1 : ℤ) := by exact_mod_cast a2
        have b1' : (0 : ℤ) < b := by exact_mod_cast b1
        have b2' : b < (2 : ℤ) := by exact_mod_cast b2
        have : a = 0 := by omega
        have : b = 1 := by omega
        subst_vars; simp
    simp only [hasGeneralInteger, e]
    split
    · rename_i h; exact ⟨fun _ => ⟨_, List.mem_cons_self, h⟩, fun _ => rfl⟩
    · rename_i h
      rw [ih]
      simp only [List.mem_cons, exists_eq_or_imp]
      constructor
      · exact .inr
      · rintro (h' | h')
        · exact absurd h' h
        · exact h'

example : hasGeneralInteger [(.binary, 0, 1), (.continuous, -5, 7), (.integer, 0, 1)] = false := by decide +kernel

/-- C52 refuted: an integer variable fixed at 0 or at 1 counts as general, and a variable typed BINARY never does, whatever its bounds. -/
theorem hasGeneral_wrong : hasGeneralInteger [(.integer, 0, 0)] = true ∧ hasGeneralInteger [(.integer, 1, 1)] = true ∧ hasGeneralInteger [(.binary, -3, 8)] = false := by
  decide +kernel

theorem copyLoop_isSome {α : Type} (n : ℕ) (src dst : List (Option α)) : (copyLoop n src dst).isSome ↔ n ≤ src.length ∧ n ≤ dst.length := by
  unfold copyLoop
  by_cases h : n ≤ src.length ∧ n ≤ dst.length <;> simp [h]

/-- C44: copying a `SosInfo` with sets is defined exactly when all arrays are there and have at least the sizes recorded (the loops write to them); one without sets exactly when all pointers are NULL. -/
theorem sos_copy_defined_iff (s : SosInfo) : (sosCopy s).isSome ↔
    if 0 < s.num then (∃ a, s.types = some a ∧ s.num ≤ a.length) ∧ (∃ a, s.priorities = some a ∧ s.num ≤ a.length) ∧ (∃ a, s.starts = some a ∧ s.num ≤ a.length) ∧
      (∃ a, s.indices = some a ∧ s.numNz ≤ a.length) ∧ ∃ a, s.weights = some a ∧ s.numNz ≤ a.length
    else s.types = none ∧ s.priorities = none ∧ s.starts = none ∧ s.indices = none ∧ s.weights = none := by
  have key : ∀ {α β : Type} (n k : ℕ) (h : n ≤ k) (a : List (Option α)) (f : List (Option α) → Option β), ((copyLoop n (newArr α k) a).bind f).isSome ↔ n ≤ a.length ∧ (f (((newArr α k).take n) ++ a.drop n)).isSome := by
    intro α β n k h a f
    unfold copyLoop
    by_cases hc : n ≤ a.length <;> simp [hc, newArr, h]
  unfold sosCopy
  by_cases h : 0 < s.num
  · rw [if_pos h, if_pos h]
    cases s.types with
    | none => simp
    | some ty =>
    cases s.priorities with
    | none => simp
    | some pr =>
    cases s.starts with
    | none => simp
    | some st =>
    cases s.indices with
    | none => simp
    | some ix =>
    cases s.weights with
    | none => simp
    | some we =>
      simp only [Option.bind_eq_bind, Option.bind_some, Option.some.injEq, exists_eq_left']
      rw [key _ _ le_rfl, key _ _ le_rfl, key _ _ (Nat.le_succ _), key _ _ le_rfl, key _ _ le_rfl]
      simp
  · rw [if_neg h, if_neg h]
    by_cases hn : s.types = none ∧ s.priorities = none ∧ s.starts = none ∧ s.indices = none ∧ s.weights = none
    · rw [if_pos hn]; exact ⟨fun _ => hn, fun _ => rfl⟩
    · rw [if_neg hn]; exact ⟨fun h => absurd h (by simp), fun h => absurd h hn⟩

/-- C44: a `BranchingInfo` can be copied exactly when the four pointers of the new object happen to be NULL and no array is shorter than the size. -/
theorem branch_copy_iff (g : Bool × Bool × Bool × Bool) (o : BranchInfo) : (branchCopy g o).isSome ↔ g = (false, false, false, false) ∧
    (∀ a, o.priorities = some a → o.size ≤ a.length) ∧ (∀ a, o.directions = some a → o.size ≤ a.length) ∧ (∀ a, o.up = some a → o.size ≤ a.length) ∧ ∀ a, o.down = some a → o.size ≤ a.length := by
  have key : ∀ {α β : Type} (a : Arr α) (n : ℕ) (f : Arr α → Option β), ((coinCopy a n).bind f).isSome ↔ (∀ l, a = some l → n ≤ l.length) ∧ (f (a.map fun l => l.take n)).isSome := by
    intro α β a n f
    cases a with
    | none => simp [coinCopy]
    | some l => by_cases hc : n ≤ l.length <;> simp [coinCopy, hc]
  unfold branchCopy
  by_cases h : g = (false, false, false, false)
  · rw [if_pos h]
    simp only [Option.bind_eq_bind]
    rw [key, key, key, key]
    simp [h]
  · rw [if_neg h]; simp [h]

/-- C44: the copy passes its asserts exactly if there are sets and all arrays, long enough, or no set and no array. -/
theorem sos_copy_defined (s : SosInfo) : sosCopy s ≠ none ↔ SosOk s ∨ s.num = 0 ∧ s.types = none ∧ s.priorities = none ∧ s.starts = none ∧ s.indices = none ∧ s.weights = none := by
  constructor
  · intro h
    by_cases h0 : 0 < s.num
    · left
      refine ⟨h0, ?_⟩
      obtain ⟨n, a, b, z, c, d, e⟩ := s
      simp only at h0
      cases a <;> cases b <;> cases c <;> cases d <;> cases e <;> simp [sosCopy, h0] at h
      rename_i ty pr st ix we
      simp only [copyLoop, newArr, List.length_replicate] at h
      obtain ⟨⟨_, a1⟩, ⟨_, a2⟩, ⟨_, a3⟩, ⟨_, a4⟩, ⟨_, a5⟩⟩ := h
      refine ⟨⟨_, rfl, ?_⟩, ⟨_, rfl, ?_⟩, ⟨_, rfl, ?_⟩, ⟨_, rfl, ?_⟩, ⟨_, rfl, ?_⟩⟩
      · by_contra hc; rw [if_neg (fun x => hc x.2)] at a1; cases a1
      · by_contra hc; rw [if_neg (fun x => hc x.2)] at a2; cases a2
      · by_contra hc; rw [if_neg (fun x => hc x.2)] at a3; cases a3
      · by_contra hc; rw [if_neg (fun x => hc x.2)] at a4; cases a4
      · by_contra hc; rw [if_neg (fun x => hc x.2)] at a5; cases a5
    · right
      have h1 : s.num = 0 := by omega
      refine ⟨h1, ?_⟩
      by_contra hc
      apply h
      simp only [sosCopy, h1, lt_irrefl, if_false, if_neg hc]
  · rintro (h | ⟨h0, h1, h2, h3, h4, h5⟩)
    · obtain ⟨s', c, e, _⟩ := sos_copy_destroys s h
      rw [e]; simp
    · rw [sos_copy_partial s h0 h1 h2 h3 h4 h5]; simp
example : sosCopy ⟨0, none, none, 0, none, some [], none⟩ = none := by decide +kernel

end Verif.Slv

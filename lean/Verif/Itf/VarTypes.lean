import Mathlib.Data.Rat.Lemmas
import Mathlib.Algebra.Order.Field.Rat
import Mathlib.Tactic.NormNum
import Mathlib.Tactic.Linarith
/-! # C102: types and bounds of the variables; C103: binary variables

src/Interfaces/BonOsiTMINLPInterface.cpp: queries of types 1216-1253, `setColLower`, `setColUpper` 1312-1350, `setContinuous`, `setInteger` 1538-1551;
src/Interfaces/BonTMINLP2TNLP.cpp: `SetVariablesLowerBounds`, `SetVariablesUpperBounds` 247-259, `SetVariableLowerBound`, `SetVariableUpperBound` 268-278,
`SetVariableType` 327-332.

Simplifications: numbers are exact; an index out of range is `none` with and without assertions (out of range write). -/
namespace Verif.Itf.VarTypes

/-- `TMINLP::VariableType` (src/Interfaces/BonTMINLP.hpp). -/
inductive VT
  | cont | bin | int
  deriving DecidableEq, Repr

/-- `var_types_`, `x_l_`, `x_u_` of the problem and `hasBeenOptimized_`. -/
structure S where
  types : List VT
  lo : List ℚ
  up : List ℚ
  opt : Bool
  deriving DecidableEq, Repr

inductive Op
  | setLower (i : ℕ) (v : ℚ) | setUpper (i : ℕ) (v : ℚ)
  | setLowers (l : List ℚ) | setUppers (l : List ℚ)
  | setInteger (i : ℕ) | setContinuous (i : ℕ)
  deriving DecidableEq, Repr

/-- One call (BonOsiTMINLPInterface.cpp:1312-1350, 1538-1551); arrays shorter than the number of variables are read past their end. -/
def step (s : S) : Op → Option S
  | .setLower i v => if i < s.lo.length then some { s with lo := s.lo.set i v, opt := false } else none
  | .setUpper i v => if i < s.up.length then some { s with up := s.up.set i v, opt := false } else none
  | .setLowers l => if s.lo.length ≤ l.length then some { s with lo := l.take s.lo.length, opt := false } else none
  | .setUppers l => if s.lo.length ≤ l.length then some { s with up := l.take s.lo.length, opt := false } else none
  | .setInteger i => if i < s.types.length then some { s with types := s.types.set i .int, opt := false } else none
  | .setContinuous i => if i < s.types.length then some { s with types := s.types.set i .cont, opt := false } else none

def run : S → List Op → Option S
  | s, [] => some s
  | s, o :: os => (step s o).bind fun t => run t os

/-- `isContinuous` (BonOsiTMINLPInterface.cpp:1217-1221). -/
def isContinuous (s : S) (i : ℕ) : Option Bool := (s.types[i]?).map fun t => decide (t = .cont)
/-- `isBinary` (BonOsiTMINLPInterface.cpp:1224-1228). -/
def isBinary (s : S) (i : ℕ) : Option Bool := (s.types[i]?).map fun t => decide (t = .bin)
/-- `isInteger` (BonOsiTMINLPInterface.cpp:1234-1239). -/
def isInteger (s : S) (i : ℕ) : Option Bool := (s.types[i]?).map fun t => decide (t = .bin ∨ t = .int)
/-- `isIntegerNonBinary` (BonOsiTMINLPInterface.cpp:1242-1246). -/
def isIntegerNonBinary (s : S) (i : ℕ) : Option Bool := (s.types[i]?).map fun t => decide (t = .int)
/-- `isFreeBinary` (BonOsiTMINLPInterface.cpp:1248-1253). -/
def isFreeBinary (s : S) (i : ℕ) : Option Bool :=
  match s.types[i]?, s.lo[i]?, s.up[i]? with
  | some t, some l, some u => some (decide (t = .bin ∧ 1 - 1 / 10 ^ 9 < u - l))
  | _, _, _ => none

/-- One entry per variable in each array. -/
def Wf (s : S) : Prop := s.lo.length = s.types.length ∧ s.up.length = s.types.length

/-! ## Specification: the last write counts -/

/-- Lower bound, upper bound and type a call gives to variable `j`. -/
def Op.lower (j : ℕ) : Op → Option ℚ
  | .setLower i v => if i = j then some v else none
  | .setLowers l => l[j]?
  | _ => none

def Op.upper (j : ℕ) : Op → Option ℚ
  | .setUpper i v => if i = j then some v else none
  | .setUppers l => l[j]?
  | _ => none

def Op.type (j : ℕ) : Op → Option VT
  | .setInteger i => if i = j then some .int else none
  | .setContinuous i => if i = j then some .cont else none
  | _ => none

/-- The last of the values given. -/
def last {α : Type} (f : Op → Option α) : List Op → Option α
  | [] => none
  | o :: os => (last f os).or (f o)

theorem step_wf (s t : S) (o : Op) (h : Wf s) (hs : step s o = some t) : Wf t ∧ t.types.length = s.types.length := by
  obtain ⟨h1, h2⟩ := h
  cases o <;> simp only [step] at hs <;> split at hs <;> cases hs <;> simp_all [Wf]

theorem step_lower (s t : S) (o : Op) (j : ℕ) (hj : j < s.lo.length) (hs : step s o = some t) :
    t.lo[j]? = (o.lower j).or s.lo[j]? := by
  cases o with
  | setLower i v =>
    simp only [step] at hs
    split at hs <;> cases hs
    by_cases hij : i = j
    · subst hij; simp [Op.lower, List.getElem?_set_self hj]
    · simp [Op.lower, hij, List.getElem?_set_ne hij]
  | setLowers l =>
    simp only [step] at hs
    split at hs <;> cases hs
    simp [Op.lower, hj, List.getElem?_eq_getElem (show j < l.length by omega)]
  | setUpper i v => simp only [step] at hs; split at hs <;> cases hs; simp [Op.lower]
  | setUppers l => simp only [step] at hs; split at hs <;> cases hs; simp [Op.lower]
  | setInteger i => simp only [step] at hs; split at hs <;> cases hs; simp [Op.lower]
  | setContinuous i => simp only [step] at hs; split at hs <;> cases hs; simp [Op.lower]

theorem step_upper (s t : S) (o : Op) (j : ℕ) (hw : Wf s) (hj : j < s.up.length) (hs : step s o = some t) :
    t.up[j]? = (o.upper j).or s.up[j]? := by
  cases o with
  | setUpper i v =>
    simp only [step] at hs
    split at hs <;> cases hs
    by_cases hij : i = j
    · subst hij; simp [Op.upper, List.getElem?_set_self hj]
    · simp [Op.upper, hij, List.getElem?_set_ne hij]
  | setUppers l =>
    have hl : s.lo.length = s.up.length := by rw [hw.1, hw.2]
    simp only [step, hl] at hs
    split at hs <;> cases hs
    simp [Op.upper, hj, List.getElem?_eq_getElem (show j < l.length by omega)]
  | setLower i v => simp only [step] at hs; split at hs <;> cases hs; simp [Op.upper]
  | setLowers l => simp only [step] at hs; split at hs <;> cases hs; simp [Op.upper]
  | setInteger i => simp only [step] at hs; split at hs <;> cases hs; simp [Op.upper]
  | setContinuous i => simp only [step] at hs; split at hs <;> cases hs; simp [Op.upper]

theorem step_type (s t : S) (o : Op) (j : ℕ) (hj : j < s.types.length) (hs : step s o = some t) :
    t.types[j]? = (o.type j).or s.types[j]? := by
  cases o with
  | setInteger i =>
    simp only [step] at hs
    split at hs <;> cases hs
    by_cases hij : i = j
    · subst hij; simp [Op.type, List.getElem?_set_self hj]
    · simp [Op.type, hij, List.getElem?_set_ne hij]
  | setContinuous i =>
    simp only [step] at hs
    split at hs <;> cases hs
    by_cases hij : i = j
    · subst hij; simp [Op.type, List.getElem?_set_self hj]
    · simp [Op.type, hij, List.getElem?_set_ne hij]
  | setLower i v => simp only [step] at hs; split at hs <;> cases hs; simp [Op.type]
  | setLowers l => simp only [step] at hs; split at hs <;> cases hs; simp [Op.type]
  | setUpper i v => simp only [step] at hs; split at hs <;> cases hs; simp [Op.type]
  | setUppers l => simp only [step] at hs; split at hs <;> cases hs; simp [Op.type]

/-- After any calls each bound and type of each variable is the last one given, and the original one if none was given. -/
theorem last_write (os : List Op) : ∀ (s t : S) (_ : Wf s) (_ : run s os = some t) (j : ℕ) (_ : j < s.types.length),
    t.lo[j]? = (last (Op.lower j) os).or s.lo[j]? ∧ t.up[j]? = (last (Op.upper j) os).or s.up[j]? ∧ t.types[j]? = (last (Op.type j) os).or s.types[j]? := by
  induction os with
  | nil =>
    intro s t _ hr j _
    simp only [run, Option.some.injEq] at hr
    subst hr
    simp [last]
  | cons o os ih =>
    intro s t hw hr j hj
    simp only [run] at hr
    cases hst : step s o with
    | none => simp [hst] at hr
    | some u =>
      simp only [hst, Option.bind_some] at hr
      obtain ⟨hwu, hlu⟩ := step_wf s u o hw hst
      obtain ⟨a, b, c⟩ := ih u t hwu hr j (by omega)
      refine ⟨?_, ?_, ?_⟩
      · rw [a, step_lower s u o j (by rw [hw.1]; exact hj) hst, ← Option.or_assoc]; rfl
      · rw [b, step_upper s u o j hw (by rw [hw.2]; exact hj) hst, ← Option.or_assoc]; rfl
      · rw [c, step_type s u o j hj hst, ← Option.or_assoc]; rfl

/-- A call is defined exactly if its index is one of a variable, or its array has an entry for every variable; it always discards the solution. -/
theorem step_defined_iff (s : S) (o : Op) (hw : Wf s) :
    ((step s o).isSome ↔ match o with
      | .setLower i _ | .setUpper i _ | .setInteger i | .setContinuous i => i < s.types.length
      | .setLowers l | .setUppers l => s.types.length ≤ l.length) ∧ ∀ t, step s o = some t → t.opt = false := by
  obtain ⟨h1, h2⟩ := hw
  refine ⟨?_, ?_⟩
  · cases o <;> simp [step, h1, h2]
  · intro t ht
    cases o <;> simp only [step] at ht <;> split at ht <;> cases ht <;> rfl

/-- The queries of a variable agree with each other: it is exactly one of continuous, binary and general integer, and integer exactly if not continuous. -/
theorem queries_agree (s : S) (i : ℕ) (h : i < s.types.length) :
    ∃ c b n g, isContinuous s i = some c ∧ isBinary s i = some b ∧ isIntegerNonBinary s i = some n ∧ isInteger s i = some g ∧
      g = !c ∧ g = (b || n) ∧ (b && n) = false := by
  have e := List.getElem?_eq_getElem h
  refine ⟨_, _, _, _, by simp [isContinuous, e]; rfl, by simp [isBinary, e]; rfl, by simp [isIntegerNonBinary, e]; rfl, by simp [isInteger, e]; rfl, ?_⟩
  cases s.types[i] <;> decide

/-- Which type each query means. -/
theorem queries_iff (s : S) (i : ℕ) :
    (isContinuous s i = some true ↔ s.types[i]? = some .cont) ∧ (isBinary s i = some true ↔ s.types[i]? = some .bin) ∧
    (isIntegerNonBinary s i = some true ↔ s.types[i]? = some .int) ∧ (isInteger s i = some true ↔ s.types[i]? = some .bin ∨ s.types[i]? = some .int) := by
  simp only [isContinuous, isBinary, isIntegerNonBinary, isInteger]
  cases h : s.types[i]? with
  | none => simp
  | some t => cases t <;> simp

/-- `setContinuous` and `setInteger` are seen by the queries at once, and others are not affected. -/
theorem set_type_query (s t : S) (i j : ℕ) (hj : j < s.types.length) :
    (step s (.setContinuous i) = some t → (isContinuous t i = some true ∧ (j ≠ i → isInteger t j = isInteger s j ∧ isBinary t j = isBinary s j))) ∧
    (step s (.setInteger i) = some t → (isInteger t i = some true ∧ isIntegerNonBinary t i = some true ∧
      (j ≠ i → isInteger t j = isInteger s j ∧ isBinary t j = isBinary s j))) := by
  have f : ∀ o, step s o = some t → (o = .setContinuous i ∨ o = .setInteger i) → j ≠ i → t.types[j]? = s.types[j]? := by
    intro o hs ho hne
    rw [step_type s t o j hj hs]
    rcases ho with ho | ho <;> subst ho <;> simp [Op.type, Ne.symm hne]
  refine ⟨fun hs => ⟨?_, fun hne => ?_⟩, fun hs => ⟨?_, ?_, fun hne => ?_⟩⟩
  · have hi : i < s.types.length := by by_contra hc; simp [step, hc] at hs
    rw [(queries_iff t i).1, step_type s t _ i hi hs]; simp [Op.type]
  · simp only [isInteger, isBinary, f _ hs (Or.inl rfl) hne, and_self]
  · have hi : i < s.types.length := by by_contra hc; simp [step, hc] at hs
    rw [(queries_iff t i).2.2.2, step_type s t _ i hi hs]; simp [Op.type]
  · have hi : i < s.types.length := by by_contra hc; simp [step, hc] at hs
    rw [(queries_iff t i).2.2.1, step_type s t _ i hi hs]; simp [Op.type]
  · simp only [isInteger, isBinary, f _ hs (Or.inr rfl) hne, and_self]

/-- For a binary variable with bounds 0 or 1, it is free exactly if it is not fixed. -/
theorem free_binary_partial (s : S) (i : ℕ) (l u : ℚ) (ht : s.types[i]? = some .bin) (hl : s.lo[i]? = some l) (hu : s.up[i]? = some u)
    (h1 : l = 0 ∨ l = 1) (h2 : u = 0 ∨ u = 1) (hlu : l ≤ u) : isFreeBinary s i = some (decide (l ≠ u)) := by
  simp only [isFreeBinary, ht, hl, hu]
  rcases h1 with h1 | h1 <;> rcases h2 with h2 | h2 <;> subst h1 <;> subst h2 <;> revert hlu <;> norm_num

/-- Other variables are never free binaries. -/
theorem free_binary_binary (s : S) (i : ℕ) (h : isFreeBinary s i = some true) : isBinary s i = some true := by
  rw [(queries_iff s i).2.1]
  simp only [isFreeBinary] at h
  split at h
  · rename_i t l u h1 _ _
    simp at h
    rw [h1, h.1]
  · cases h

/-- A binary variable with bounds 0 and 1/2 is not fixed, but not free either. -/
theorem half_not_free : isFreeBinary ⟨[.bin], [0], [1 / 2], false⟩ 0 = some false := by decide +kernel

/-- Relaxing a binary variable and making it integer again gives a general integer, though its bounds are 0 and 1; so does declaring it integer once more. -/
theorem binary_lost (s t : S) (i : ℕ) (os : List Op) (hos : os = [.setContinuous i, .setInteger i] ∨ os = [.setInteger i]) (hr : run s os = some t) :
    isBinary t i = some false ∧ isInteger t i = some true ∧ (isFreeBinary t i ≠ some true) := by
  have key : t.types[i]? = some .int := by
    rcases hos with h | h <;> subst h <;> simp only [run, step] at hr
    · by_cases hi : i < s.types.length
      · simp [hi] at hr
        rw [← hr]
        simp [hi]
      · simp [hi] at hr
    · by_cases hi : i < s.types.length
      · simp [hi] at hr
        rw [← hr]
        simp [hi]
      · simp [hi] at hr
  refine ⟨by simp [isBinary, key], by simp [isInteger, key], fun h => ?_⟩
  have := free_binary_binary t i h
  simp [isBinary, key] at this

def exS : S := ⟨[.bin, .cont, .int], [0, -1, 0], [1, 1, 9], true⟩
example : Wf exS := ⟨rfl, rfl⟩
example : run exS [.setLower 2 3, .setUppers [1, 2, 4], .setUpper 2 3, .setContinuous 2] = some ⟨[.bin, .cont, .cont], [0, -1, 3], [1, 2, 3], false⟩ := by
  decide +kernel
example : isFreeBinary exS 0 = some true ∧ (run exS [.setLower 0 1]).map (isFreeBinary · 0) = some (some false) := by decide +kernel
example : run exS [.setContinuous 0, .setInteger 0] = some ⟨[.int, .cont, .int], [0, -1, 0], [1, 1, 9], false⟩ := by decide +kernel
end Verif.Itf.VarTypes

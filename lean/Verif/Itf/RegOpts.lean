import Mathlib.Data.Nat.Bitwise
import Mathlib.Data.List.Perm.Basic
import Mathlib.Data.List.Nodup
import Mathlib.Data.Int.Notation
import Mathlib.Algebra.Order.Field.Rat
import Mathlib.Algebra.Order.Field.Power
import Mathlib.Tactic.NormNum
import Mathlib.Tactic.Linarith
import Mathlib.Tactic.Ring
import Mathlib.Tactic.Positivity

/-!
# The registered options: for which algorithms they are, their tables and the file of defaults
`src/Interfaces/BonRegisteredOptions.hpp` and `.cpp`; `fillAmplOptionList` (`src/Interfaces/Ampl/BonAmplTMINLP.cpp:28-52`);
`mayPrintDoc` (`src/Algorithms/BonBabSetupBase.cpp:740-774`).

Names and categories are elements of a linear order (strings with `<`).  An exception is the result `none`.
-/
namespace Verif.Itf.RegOpts

variable {α : Type} [LinearOrder α]

/-! ## For which algorithms an option is -/

/-- `ExtraOptInfosBits` (hpp:33-41). -/
inductive Alg where
  | hybrid | qg | oa | bbb | ecp | ifp | cbc
deriving DecidableEq

/-- The value of the enumeration. -/
def Alg.bit : Alg → ℕ
  | .hybrid => 0
  | .qg => 1
  | .oa => 2
  | .bbb => 3
  | .ecp => 4
  | .ifp => 5
  | .cbc => 6

/-- `bonOptInfos_`: the code of an option.  Simplification: codes are not negative. -/
abbrev Infos (α : Type) := α → Option ℕ

/-- What is done to the codes. -/
inductive Op (α : Type) where
  | setInfo (name : α) (code : ℕ)
  | validFor (a : Alg) (name : α)

/-- `setOptionExtraInfo` (hpp:88-91) and the functions `optionValidFor…` (94-126); `isReg` = the registered options.  Indexing a
`std::map` makes an entry 0. -/
def step (isReg : α → Bool) (m : Infos α) : Op α → Option (Infos α)
  | .setInfo n c => if isReg n then some (fun k => if k = n then some c else m k) else none
  | .validFor a n => if isReg n then some (fun k => if k = n then some (((m n).getD 0) ||| (1 <<< a.bit)) else m k) else none

/-- A sequence of calls. -/
def run (isReg : α → Bool) (m : Infos α) : List (Op α) → Option (Infos α)
  | [] => some m
  | op :: ops => (step isReg m op).bind fun m' => run isReg m' ops

/-- The functions `isValidFor…` (hpp:130-186). -/
def isValid (isReg : α → Bool) (m : Infos α) (a : Alg) (n : α) : Option Bool :=
  if isReg n then some (match m n with
    | some c => decide (c &&& (1 <<< a.bit) ≠ 0)
    | none => true)
  else none

/-! ### Specification -/

/-- What is known of an option: nothing, or the algorithms it is for. -/
abbrev Know := Option (Alg → Bool)

/-- The number whose bits are the algorithms. -/
def algsOf (code : ℕ) : Alg → Bool := fun a => decide ((code / 2 ^ a.bit) % 2 = 1)

/-- What one call tells of the option `n`. -/
def tell (n : α) (k : Know) : Op α → Know
  | .setInfo n' c => if n' = n then some (algsOf c) else k
  | .validFor a n' => if n' = n then some (fun b => decide (b = a) || (match k with | some f => f b | none => false)) else k

/-! ### Theorems -/

theorem bit_inj {a b : Alg} : a.bit = b.bit ↔ a = b := by cases a <;> cases b <;> decide

theorem and_shift (c k : ℕ) : c &&& (1 <<< k) ≠ 0 ↔ c.testBit k = true := by
  rw [Nat.one_shiftLeft, Nat.and_two_pow]
  cases c.testBit k <;> simp

theorem algsOf_eq (c : ℕ) (a : Alg) : algsOf c a = c.testBit a.bit := by
  rw [algsOf, Nat.testBit_eq_decide_div_mod_eq]

theorem testBit_one_shift (k j : ℕ) : (1 <<< k).testBit j = decide (k = j) := by
  rw [Nat.one_shiftLeft, Nat.testBit_two_pow]

/-- The state agrees with what is known. -/
def Agree (m : Infos α) (n : α) (k : Know) : Prop :=
  match m n, k with
  | none, none => True
  | some c, some f => ∀ a : Alg, c.testBit a.bit = f a
  | _, _ => False

theorem agree_step (isReg : α → Bool) (m m' : Infos α) (op : Op α) (n : α) (k : Know) (h : Agree m n k) (hs : step isReg m op = some m') :
    Agree m' n (tell n k op) := by
  cases op with
  | setInfo n' c =>
    simp only [step] at hs
    split at hs
    · cases hs
      by_cases hn : n' = n
      · subst hn
        simp only [Agree, tell, if_true]
        exact fun a => (algsOf_eq c a).symm
      · have hn' : n ≠ n' := fun e => hn e.symm
        simpa [Agree, tell, hn, hn'] using h
    · exact absurd hs (by simp)
  | validFor a n' =>
    simp only [step] at hs
    split at hs
    · cases hs
      by_cases hn : n' = n
      · subst hn
        simp only [Agree, tell, if_true]
        intro b
        rw [Nat.testBit_or, testBit_one_shift]
        cases hm : m n' with
        | none =>
          cases k with
          | none =>
            simp only [Option.getD_none, Nat.zero_testBit, Bool.false_or, Bool.or_false, decide_eq_decide]
            rw [bit_inj]
            exact eq_comm
          | some f => simp [Agree, hm] at h
        | some c =>
          cases k with
          | none => simp [Agree, hm] at h
          | some f =>
            simp only [Agree, hm] at h
            simp only [Option.getD_some, h b]
            rw [Bool.or_comm]
            congr 1
            rw [decide_eq_decide, bit_inj]
            exact eq_comm
      · have hn' : n ≠ n' := fun e => hn e.symm
        simpa [Agree, tell, hn, hn'] using h
    · exact absurd hs (by simp)

/-- **Refinement.**  After any sequence of calls the questions are answered by what the calls told of the option: the last code, with
the algorithms added since; an option of which nothing was told is for all algorithms. -/
theorem valid_refines (isReg : α → Bool) (ops : List (Op α)) (m : Infos α) (h : run isReg (fun _ => none) ops = some m) (n : α) (a : Alg) (hn : isReg n = true) :
    isValid isReg m a n = some (match ops.foldl (tell n) none with | some f => f a | none => true) := by
  have key : ∀ (ops : List (Op α)) (m0 m : Infos α) (k : Know), Agree m0 n k → run isReg m0 ops = some m → Agree m n (ops.foldl (tell n) k) := by
    intro ops
    induction ops with
    | nil =>
      intro m0 m k h0 hr
      simp only [run, Option.some.injEq] at hr
      subst hr
      exact h0
    | cons op ops ih =>
      intro m0 m k h0 hr
      simp only [run] at hr
      obtain ⟨m1, h1, h2⟩ := Option.bind_eq_some_iff.1 hr
      exact ih m1 m _ (agree_step isReg m0 m1 op n k h0 h1) h2
  have hk := key ops (fun _ => none) m none (by simp [Agree]) h
  simp only [isValid, hn, if_true]
  cases hm : m n with
  | none =>
    cases hf : ops.foldl (tell n) none with
    | none => rfl
    | some f => simp [Agree, hm, hf] at hk
  | some c =>
    cases hf : ops.foldl (tell n) none with
    | none => simp [Agree, hm, hf] at hk
    | some f =>
      simp only [Agree, hm, hf] at hk
      simp only [Option.some.injEq]
      rw [← hk a, Bool.eq_iff_iff, decide_eq_true_eq, and_shift]

/-- The calls succeed exactly if all options named are registered. -/
theorem run_defined_iff (isReg : α → Bool) (ops : List (Op α)) (m : Infos α) :
    (run isReg m ops).isSome ↔ ∀ op ∈ ops, isReg (match op with | .setInfo n _ => n | .validFor _ n => n) = true := by
  induction ops generalizing m with
  | nil => simp [run]
  | cons op ops ih =>
    simp only [run, List.mem_cons, forall_eq_or_imp]
    cases op with
    | setInfo n c =>
      by_cases hn : isReg n = true
      · simp [step, hn, ih]
      · simp [step, hn]
    | validFor a n =>
      by_cases hn : isReg n = true
      · simp [step, hn, ih]
      · simp [step, hn]

/-- **Monotone.**  Once a code is set, declaring an option valid for an algorithm makes it valid for this one and for no other, and does not
change other options. -/
theorem declare_partial (isReg : α → Bool) (m : Infos α) (a : Alg) (n : α) (hn : isReg n = true) (hm : (m n).isSome) :
    ∃ m', step isReg m (.validFor a n) = some m' ∧ (∀ b, isValid isReg m' b n = if b = a then some true else isValid isReg m b n) ∧
      ∀ n', n' ≠ n → ∀ b, isValid isReg m' b n' = isValid isReg m b n' := by
  obtain ⟨c, hc⟩ := Option.isSome_iff_exists.1 hm
  refine ⟨fun k => if k = n then some (((m n).getD 0) ||| (1 <<< a.bit)) else m k, by simp [step, hn], ?_, ?_⟩
  · intro b
    simp only [isValid, hn, if_true, hc, Option.getD_some]
    have h1 : decide ((c ||| 1 <<< a.bit) &&& 1 <<< b.bit ≠ 0) = (decide (c &&& 1 <<< b.bit ≠ 0) || decide (b = a)) := by
      rw [Bool.eq_iff_iff, decide_eq_true_eq, and_shift, Nat.testBit_or, testBit_one_shift, Bool.or_eq_true, Bool.or_eq_true, decide_eq_true_eq,
        decide_eq_true_eq, decide_eq_true_eq, and_shift, bit_inj]
      exact or_congr Iff.rfl eq_comm
    rw [h1]
    by_cases hb : b = a <;> simp [hb]
  · intro n' hne b
    simp [isValid, hne]

example : (run (fun _ : ℕ => true) (fun _ => none) [.setInfo 3 8, .validFor .qg 3]).map (fun m => [Alg.hybrid, .qg, .oa, .bbb, .ecp, .ifp, .cbc].map fun a => isValid (fun _ => true) m a 3) =
    some [some false, some true, some false, some true, some false, some false, some false] := by decide +kernel

/-! ## Tables -/

/-- `ExtraCategoriesInfo` (hpp:53-60). -/
inductive Which where
  | bonmin | ipopt | filter | bqpd | couenne | undocumented
deriving DecidableEq

/-- The default of an option with its type (Ipopt's `RegisteredOption`). -/
inductive Dflt where
  | num (q : ℚ)
  | int (i : ℤ)
  | str (words : List String)
  | unknown
deriving DecidableEq

/-- A registered option. -/
structure Opt (α : Type) where
  name : α
  cat : α
  dflt : Dflt

/-- `optionsCmp` (cpp:18-26). -/
def cmp (a b : Opt α) : Bool := if a.cat = b.cat then decide (a.name < b.name) else decide (a.cat < b.cat)

/-- `categoriesInfo` (hpp:202-208). -/
def kindOf (cats : α → Option Which) (c : α) : Which := (cats c).getD .ipopt

/-- `chooseOptions` (cpp:234-248); `srt` is `std::list::sort`. -/
def choose (srt : List (Opt α) → List (Opt α)) (cats : α → Option Which) (w : Which) (os : List (Opt α)) : List (Opt α) :=
  srt (os.filter fun o => decide (kindOf cats o.cat = w))

/-- A line of a table. -/
inductive Row (α : Type) where
  | header (c : α)
  | row (name : α) (marks : List Bool)

/-- The loop over the options (cpp:196-218, 276-298); `cur` is `registeringCategory`, `marks` the answers of `isValidFor…`. -/
def rows (marks : α → List Bool) (cur : α) : List (Opt α) → List (Row α)
  | [] => []
  | o :: os => if o.cat ≠ cur then .header o.cat :: .row o.name (marks o.name) :: rows marks o.cat os else .row o.name (marks o.name) :: rows marks cur os

/-- A table: `emp` is the empty string. -/
def table (srt : List (Opt α) → List (Opt α)) (cats : α → Option Which) (marks : α → List Bool) (emp : α) (w : Which) (os : List (Opt α)) : List (Row α) :=
  rows marks emp (choose srt cats w os)

/-! ### Specification -/

/-- The sort of `std::list` with `optionsCmp`. -/
def IsSort (srt : List (Opt α) → List (Opt α)) : Prop := ∀ l, (srt l).Perm l ∧ (srt l).Pairwise fun a b => cmp b a = false

/-- The lines of a table with the header above them. -/
def below : α → List (Row α) → List (α × α × List Bool)
  | _, [] => []
  | _, .header c :: rs => below c rs
  | c, .row n ms :: rs => (c, n, ms) :: below c rs

/-- The headers. -/
def headers : List (Row α) → List α
  | [] => []
  | .header c :: rs => c :: headers rs
  | .row _ _ :: rs => headers rs

/-! ### Theorems -/

theorem below_rows (marks : α → List Bool) (cur : α) (os : List (Opt α)) : below cur (rows marks cur os) = os.map fun o => (o.cat, o.name, marks o.name) := by
  induction os generalizing cur with
  | nil => rfl
  | cons o os ih =>
    simp only [rows]
    split
    · simp [below, ih]
    · rename_i h
      have h : o.cat = cur := not_not.1 h
      simp [below, ih, h]

/-- **Every option once, below its category.**  The lines of a table, with the category of the header above, are the options of this kind,
each exactly once, with the marks of its name. -/
theorem table_lines (srt : List (Opt α) → List (Opt α)) (hs : IsSort srt) (cats : α → Option Which) (marks : α → List Bool) (emp : α) (w : Which) (os : List (Opt α)) :
    (below emp (table srt cats marks emp w os)).Perm ((os.filter fun o => decide ((cats o.cat).getD .ipopt = w)).map fun o => (o.cat, o.name, marks o.name)) := by
  rw [table, below_rows]
  exact (hs _).1.map _

theorem headers_rows (marks : α → List Bool) (os : List (Opt α)) (cur : α) (hp : os.Pairwise fun a b => a.cat ≤ b.cat) (hc : ∀ o ∈ os, cur ≤ o.cat) :
    (headers (rows marks cur os)).Pairwise (· < ·) ∧ ∀ c, c ∈ headers (rows marks cur os) ↔ (cur < c ∧ ∃ o ∈ os, o.cat = c) := by
  induction os generalizing cur with
  | nil => simp [rows, headers]
  | cons o os ih =>
    rw [List.pairwise_cons] at hp
    have hge := hc o (by simp)
    obtain ⟨h1, h2⟩ := ih o.cat hp.2 hp.1
    by_cases hne : o.cat = cur
    · have hr : rows marks cur (o :: os) = .row o.name (marks o.name) :: rows marks cur os := by simp [rows, hne]
      rw [hr]
      simp only [headers]
      rw [← hne]
      refine ⟨h1, fun c => (h2 c).trans ⟨?_, ?_⟩⟩
      · rintro ⟨a, p, hp', e⟩; exact ⟨a, p, by simp [hp'], e⟩
      · rintro ⟨a, p, hp', e⟩
        rcases List.mem_cons.1 hp' with rfl | hp'
        · exact absurd e (ne_of_lt a)
        · exact ⟨a, p, hp', e⟩
    · have hr : rows marks cur (o :: os) = .header o.cat :: .row o.name (marks o.name) :: rows marks o.cat os := by simp [rows, hne]
      rw [hr]
      simp only [headers, List.pairwise_cons, List.mem_cons]
      have hlt : cur < o.cat := lt_of_le_of_ne hge (fun e => hne e.symm)
      refine ⟨⟨fun c hcm => ((h2 c).1 hcm).1, h1⟩, fun c => ⟨?_, ?_⟩⟩
      · rintro (rfl | hm)
        · exact ⟨hlt, o, Or.inl rfl, rfl⟩
        · obtain ⟨a, p, hp', e⟩ := (h2 c).1 hm
          exact ⟨lt_trans hlt a, p, Or.inr hp', e⟩
      · rintro ⟨a, p, hp' | hp', e⟩
        · subst hp'; exact Or.inl e.symm
        · by_cases hco : c = o.cat
          · exact Or.inl hco
          · exact Or.inr ((h2 c).2 ⟨lt_of_le_of_ne (e ▸ hp.1 p hp') (fun e' => hco e'.symm), p, hp', e⟩)

/-- **Each category once, in order.**  The headers of a table are increasing, and they are the categories (other than the empty string) of the options of this kind. -/
theorem table_headers (srt : List (Opt α) → List (Opt α)) (hs : IsSort srt) (cats : α → Option Which) (marks : α → List Bool) (emp : α) (hemp : ∀ c, emp ≤ c) (w : Which)
    (os : List (Opt α)) :
    (headers (table srt cats marks emp w os)).Pairwise (· < ·) ∧
      ∀ c, c ∈ headers (table srt cats marks emp w os) ↔ (c ≠ emp ∧ (cats c).getD .ipopt = w ∧ ∃ o ∈ os, o.cat = c) := by
  have hp : (choose srt cats w os).Pairwise fun a b => a.cat ≤ b.cat := by
    refine (hs _).2.imp ?_
    intro a b hab
    simp only [cmp] at hab
    split at hab
    · rename_i h; exact le_of_eq h.symm
    · exact not_lt.1 (by simpa using hab)
  obtain ⟨h1, h2⟩ := headers_rows marks _ emp hp (fun o _ => hemp o.cat)
  refine ⟨h1, fun c => (h2 c).trans ?_⟩
  have hmem : ∀ o, o ∈ choose srt cats w os ↔ o ∈ os ∧ kindOf cats o.cat = w := by
    intro o
    rw [choose, (hs _).1.mem_iff]
    simp
  constructor
  · rintro ⟨a, o, ho, rfl⟩
    exact ⟨ne_of_gt a, ((hmem o).1 ho).2, o, ((hmem o).1 ho).1, rfl⟩
  · rintro ⟨a, hk, o, ho, rfl⟩
    exact ⟨lt_of_le_of_ne (hemp _) (fun e => a e.symm), o, (hmem o).2 ⟨ho, hk⟩, rfl⟩

/-- **In the order of the names.**  Within a category the options are listed in increasing order, if names differ. -/
theorem table_sorted (srt : List (Opt α) → List (Opt α)) (hs : IsSort srt) (cats : α → Option Which) (w : Which) (os : List (Opt α)) (hd : (os.map (·.name)).Nodup) :
    (choose srt cats w os).Pairwise fun a b => a.cat < b.cat ∨ (a.cat = b.cat ∧ a.name < b.name) := by
  have hnd : ((choose srt cats w os).map (·.name)).Nodup := by
    rw [choose, ((hs _).1.map _).nodup_iff]
    exact hd.sublist (List.filter_sublist.map _)
  have hne : (choose srt cats w os).Pairwise fun a b => a.name ≠ b.name := List.pairwise_map.1 hnd
  refine ((hs _).2.and hne).imp ?_
  rintro a b ⟨hab, hn⟩
  simp only [cmp] at hab
  split at hab
  · rename_i h
    refine Or.inr ⟨h.symm, lt_of_le_of_ne (not_lt.1 (by simpa using hab)) hn⟩
  · rename_i h
    exact Or.inl (lt_of_le_of_ne (not_lt.1 (by simpa using hab)) (fun e => h e.symm))

/-- **The list for AMPL.**  The options offered to AMPL (cpp of `fillAmplOptionList`, called at BonAmplTMINLP.cpp:171-173 for three kinds) are
different, and they are those of these kinds. -/
theorem ampl_names (srt : List (Opt α) → List (Opt α)) (hs : IsSort srt) (cats : α → Option Which) (os : List (Opt α)) (hd : (os.map (·.name)).Nodup) :
    (([.bonmin, .filter, .bqpd].flatMap fun w => choose srt cats w os).map (·.name)).Nodup ∧
      ∀ o, o ∈ ([.bonmin, .filter, .bqpd].flatMap fun w => choose srt cats w os) ↔ o ∈ os ∧ (cats o.cat = some .bonmin ∨ cats o.cat = some .filter ∨ cats o.cat = some .bqpd) := by
  have hp : (([.bonmin, .filter, .bqpd].flatMap fun w => choose srt cats w os)).Perm (([.bonmin, .filter, .bqpd] : List Which).flatMap fun w => os.filter fun o => decide (kindOf cats o.cat = w)) := by
    simp only [List.flatMap_cons, List.flatMap_nil, List.append_nil, choose]
    exact ((hs _).1.append ((hs _).1.append (hs _).1))
  have hmem : ∀ o, o ∈ (([.bonmin, .filter, .bqpd] : List Which).flatMap fun w => os.filter fun o => decide (kindOf cats o.cat = w)) ↔
      o ∈ os ∧ (cats o.cat = some .bonmin ∨ cats o.cat = some .filter ∨ cats o.cat = some .bqpd) := by
    intro o
    simp only [List.flatMap_cons, List.flatMap_nil, List.append_nil, List.mem_append, List.mem_filter, decide_eq_true_eq]
    unfold kindOf
    generalize cats o.cat = k
    cases k with
    | none => simp
    | some k => cases k <;> simp
  refine ⟨?_, fun o => hp.mem_iff.trans (hmem o)⟩
  rw [(hp.map _).nodup_iff]
  have hinj : ∀ a ∈ os, ∀ b ∈ os, a.name = b.name → a = b := fun a ha b hb e => List.inj_on_of_nodup_map hd ha hb e
  have hos : os.Nodup := hd.of_map _
  have hnd : (([.bonmin, .filter, .bqpd] : List Which).flatMap fun w => os.filter fun o => decide (kindOf cats o.cat = w)).Nodup := by
    simp only [List.flatMap_cons, List.flatMap_nil, List.append_nil]
    refine List.Nodup.append (hos.filter _) (List.Nodup.append (hos.filter _) (hos.filter _) ?_) ?_
    · intro o h1 h2
      simp only [List.mem_filter, decide_eq_true_eq] at h1 h2
      exact absurd (h1.2.symm.trans h2.2) (by decide)
    · intro o h1 h2
      simp only [List.mem_append, List.mem_filter, decide_eq_true_eq] at h1 h2
      rcases h2 with h2 | h2
      · exact absurd (h1.2.symm.trans h2.2) (by decide)
      · exact absurd (h1.2.symm.trans h2.2) (by decide)
  exact List.Nodup.map_on (fun a ha b hb e => hinj a ((hmem a).1 ha).1 b ((hmem b).1 hb).1 e) hnd

/-! ## The file of defaults -/

/-- A word of an options file. -/
inductive Tok (α : Type) where
  | name (n : α)
  | num (q : ℚ)
  | int (i : ℤ)
  | word (s : String)
deriving DecidableEq

/-- `INT_MAX`. -/
def intMax : ℤ := 2147483647

/-- The default as it is written (`makeString`, `makeNumber`, `defaultAsString`, cpp:80-130, 152-162); `sh q` is the number printed for `q` with six digits,
`dmax` is DBL_MAX.  A string is a list of words; simplification: an option of unknown type is written as one word. -/
def written (sh : ℚ → ℚ) (dmax : ℚ) : Dflt → List (Tok α)
  | .num q => if q ≥ dmax then [.num (sh dmax)] else if q ≤ -dmax then [.num (sh (-dmax))] else [.num (sh q)]
  | .int i => if i ≥ intMax then [.int intMax] else if i ≤ -intMax then [.int (-intMax)] else [.int i]
  | .str ws => ws.map .word
  | .unknown => [.word "Unknown"]

/-- `writeBonminOpt` (cpp:336-366): the words of the file outside comments. -/
def optFile (sh : ℚ → ℚ) (dmax : ℚ) (os : List (Opt α)) : List (Tok α) := os.flatMap fun o => .name o.name :: written sh dmax o.dflt

/-- Reading an options file (Ipopt's `OptionsList::ReadFromStream`): pairs of a name and a value. -/
def readPairs : List (Tok α) → List (Tok α × Tok α)
  | a :: b :: r => (a, b) :: readPairs r
  | _ => []

/-- The value of a default that is one word. -/
def exact : Dflt → Option (Tok α)
  | .num q => some (.num q)
  | .int i => some (.int i)
  | .str [w] => some (.word w)
  | _ => none

/-- A default that is written as it is: numbers that six digits give exactly, within the bounds; one word. -/
def Plain (sh : ℚ → ℚ) (dmax : ℚ) : Dflt → Prop
  | .num q => sh q = q ∧ -dmax < q ∧ q < dmax
  | .int i => -intMax ≤ i ∧ i ≤ intMax
  | .str ws => ws.length = 1
  | .unknown => False

omit [LinearOrder α] in
/-- **Round trip.**  If all defaults can be written, reading the file gives each option its default. -/
theorem opt_file_partial (sh : ℚ → ℚ) (dmax : ℚ) (os : List (Opt α)) (h : ∀ o ∈ os, Plain sh dmax o.dflt) :
    (readPairs (optFile sh dmax os)).map (fun p => (p.1, some p.2)) = os.map fun o => (.name o.name, exact o.dflt) := by
  induction os with
  | nil => rfl
  | cons o os ih =>
    have hw : ∃ v : Tok α, written sh dmax o.dflt = [v] ∧ exact o.dflt = some v := by
      have := h o (by simp)
      cases hd : o.dflt with
      | num q =>
        rw [hd] at this
        obtain ⟨h1, h2, h3⟩ := this
        refine ⟨.num q, ?_, rfl⟩
        simp [written, not_le.2 h2, not_le.2 h3, h1]
      | int i =>
        rw [hd] at this
        obtain ⟨h1, h2⟩ := this
        refine ⟨.int i, ?_, rfl⟩
        simp only [written]
        split
        · rename_i h3; rw [le_antisymm h2 h3]
        · split
          · rename_i h3; rw [le_antisymm h3 h1]
          · rfl
      | str ws =>
        rw [hd] at this
        match ws, this with
        | [w], _ => exact ⟨.word w, rfl, rfl⟩
      | unknown => rw [hd] at this; exact this.elim
    obtain ⟨v, hv, he⟩ := hw
    have := ih fun p hp => h p (by simp [hp])
    simp only [optFile, List.flatMap_cons, hv, List.cons_append, List.nil_append, readPairs, List.map_cons, he]
    exact congrArg _ this

example : readPairs (optFile (α := ℕ) id (10 ^ 308) [⟨1, 5, .int 3⟩, ⟨2, 5, .str ["no"]⟩, ⟨3, 5, .num (1/10)⟩]) =
    [(.name 1, .int 3), (.name 2, .word "no"), (.name 3, .num (1/10))] := by decide +kernel

/-- A number with at most six digits. -/
def SixDigits (q : ℚ) : Prop := ∃ (m : ℤ) (e : ℤ), |m| < 10 ^ 6 ∧ q = m * (10 : ℚ) ^ e

/-! ## Where the code differs from what is claimed -/

/-- Declaring an option of which nothing was told valid for one algorithm makes it invalid for all others. -/
theorem declaring_removes (isReg : α → Bool) (n : α) (hn : isReg n = true) (a b : Alg) (hab : b ≠ a) :
    isValid isReg (fun _ => none) b n = some true ∧
      ∃ m, step isReg (fun _ => none) (.validFor a n) = some m ∧ isValid isReg m b n = some false := by
  refine ⟨by simp [isValid, hn], fun k => if k = n then some (0 ||| (1 <<< a.bit)) else none, by simp [step, hn], ?_⟩
  simp only [isValid, hn, if_true, Nat.zero_or, Option.some.injEq]
  have h2 := and_shift (1 <<< a.bit) b.bit
  rw [testBit_one_shift, decide_eq_true_eq, bit_inj] at h2
  rw [decide_eq_false_iff_not]
  exact fun h => hab (h2.1 h).symm

/-- An option is listed with the kind its category was last registered with, and not with that of its own registration. -/
theorem category_shared : ∃ (cats cats' : ℕ → Option Which) (o : Opt ℕ), cats o.cat = some .bonmin ∧ cats' = (fun c => if c = o.cat then some .undocumented else cats c) ∧
    (choose id cats .bonmin [o]).length = 1 ∧ (choose id cats' .bonmin [o]).length = 0 := by
  refine ⟨fun _ => some .bonmin, _, ⟨1, 1, .int 0⟩, rfl, rfl, ?_, ?_⟩ <;> decide +kernel

/-- The categories for which `mayPrintDoc` prints the documentation (BonBabSetupBase.cpp:748-769, without FilterSQP). -/
def docCategories : List String :=
  ["Algorithm choice", "Branch-and-bound options", "ECP cuts generation", "Feasibility checker using OA cuts", "MILP Solver", "MILP cutting planes in hybrid algorithm",
   "Primal Heuristics", "NLP interface", "NLP solution robustness", "NLP solves in hybrid algorithm", "Nonconvex problems", "Outer Approximation Decomposition (B-OA)",
   "Outer Approximation cuts generation", "Output and Loglevel", "Strong branching setup", "Diving options", "ECP based strong branching", "Primal Heuristics (undocumented)",
   "Outer Approximation strengthening"]

/-- The documentation printed leaves out the options `nlp_solve_frequency` and others: their category (BonOaNlpOptim.cpp:178) is named otherwise. -/
theorem doc_leaves_out : "NLP solves in hybrid algorithm (B-Hyb)" ∉ docCategories := by decide +kernel

omit [LinearOrder α] in
/-- An integer default of INT_MIN is written as another number. -/
theorem int_min_changed (sh : ℚ → ℚ) (dmax : ℚ) : written (α := α) sh dmax (.int (-2147483648)) = [.int (-2147483647)] := by
  simp [written, intMax]

set_option exponentiation.threshold 2000 in
theorem dmax_not_six : ¬ SixDigits ((2 ^ 53 - 1) * 2 ^ 971) := by
  rintro ⟨m, e, hm, he⟩
  have hN : ((2 ^ 53 - 1) * 2 ^ 971 : ℚ) = (((2 ^ 53 - 1) * 2 ^ 971 : ℤ) : ℚ) := by norm_num
  rw [hN] at he
  have hm' : m < 10 ^ 6 := lt_of_abs_lt hm
  rcases Int.lt_or_le 0 e with h | h
  · obtain ⟨k, rfl⟩ : ∃ k : ℕ, e = k + 1 := ⟨(e - 1).toNat, by omega⟩
    have h1 : (((2 ^ 53 - 1) * 2 ^ 971 : ℤ) : ℚ) = ((m * 10 ^ k * 10 : ℤ) : ℚ) := by
      rw [he, zpow_add₀ (by norm_num), zpow_natCast]; push_cast; ring
    have h2 : ((2 ^ 53 - 1) * 2 ^ 971 : ℤ) = m * 10 ^ k * 10 := by exact_mod_cast h1
    have h3 : ((2 ^ 53 - 1) * 2 ^ 971 : ℤ) % 10 = 0 := by rw [h2]; exact Int.mul_emod_left _ _
    revert h3
    decide +kernel
  · have h1 : (10 : ℚ) ^ e ≤ 1 := zpow_le_one_of_nonpos₀ (by norm_num) h
    have h0 : (0 : ℚ) < (10 : ℚ) ^ e := by positivity
    have h2 : (m : ℚ) < 10 ^ 6 := by exact_mod_cast hm'
    have h3 : (m : ℚ) * (10 : ℚ) ^ e < 10 ^ 6 := by
      rcases le_or_gt (m : ℚ) 0 with hz | hz
      · have : (m : ℚ) * (10 : ℚ) ^ e ≤ 0 := mul_nonpos_of_nonpos_of_nonneg hz h0.le
        exact lt_of_le_of_lt this (by norm_num)
      · have : (m : ℚ) * (10 : ℚ) ^ e ≤ m * 1 := mul_le_mul_of_nonneg_left h1 hz.le
        exact lt_of_le_of_lt this (by rwa [mul_one])
    rw [← he] at h3
    have h4 : ((2 ^ 53 - 1) * 2 ^ 971 : ℤ) < 10 ^ 6 := by exact_mod_cast h3
    revert h4
    decide +kernel

omit [LinearOrder α] in
/-- A default DBL_MAX (no limit) is written as a smaller or larger number, whatever the way of rounding to six digits. -/
theorem dbl_max_changed (sh : ℚ → ℚ) (h : ∀ q, SixDigits (sh q)) (dmax : ℚ) (hd : dmax = (2 ^ 53 - 1) * 2 ^ 971) :
    ∃ q, written (α := α) sh dmax (.num dmax) = [.num q] ∧ q ≠ dmax := by
  refine ⟨sh dmax, by simp [written], ?_⟩
  intro e
  exact dmax_not_six (hd ▸ e ▸ h dmax)

omit [LinearOrder α] in
/-- An option whose default is the empty string (`output_file` of Ipopt) takes the next name for its value, and all others follow. -/
theorem empty_default_shifts (sh : ℚ → ℚ) (dmax : ℚ) (a b c : α) (s t : String) :
    readPairs (optFile sh dmax [⟨a, a, .str []⟩, ⟨b, b, .str [s]⟩, ⟨c, c, .str [t]⟩]) = [(.name a, .name b), (.word s, .name c)] := by
  simp [optFile, written, readPairs]

omit [LinearOrder α] in
/-- The functions `isValidFor…` have an answer exactly for registered options. -/
theorem valid_defined_iff (isReg : α → Bool) (m : Infos α) (a : Alg) (n : α) : isValid isReg m a n = none ↔ isReg n = false := by
  unfold isValid
  cases isReg n <;> simp

omit [LinearOrder α] in
/-- A number written in the file of defaults is the default brought into `[-DBL_MAX, DBL_MAX]` and printed with six digits. -/
theorem num_written (sh : ℚ → ℚ) (dmax q : ℚ) (h : 0 ≤ dmax) : written (α := α) sh dmax (.num q) = [.num (sh (max (-dmax) (min q dmax)))] := by
  simp only [written]
  split
  · rename_i h1
    rw [min_eq_right h1, max_eq_right (by linarith)]
  · rename_i h1
    rw [min_eq_left (not_le.mp h1).le]
    split
    · rename_i h2
      rw [max_eq_left h2]
    · rename_i h2
      rw [max_eq_right (not_le.mp h2).le]
example : written (α := ℕ) id 100 (.num (-200)) = [.num (-100)] := by rw [num_written _ _ _ (by norm_num)]; norm_num
omit [LinearOrder α] in
/-- An integer written in the file of defaults is the default brought into `[-INT_MAX, INT_MAX]`. -/
theorem int_written (sh : ℚ → ℚ) (dmax : ℚ) (i : ℤ) : written (α := α) sh dmax (.int i) = [.int (max (-2147483647) (min i 2147483647))] := by
  have e : written (α := α) sh dmax (.int i) = if 2147483647 ≤ i then [.int 2147483647] else if i ≤ -2147483647 then [.int (-2147483647)] else [.int i] := rfl
  rw [e]
  by_cases h1 : (2147483647 : ℤ) ≤ i
  · rw [if_pos h1, min_eq_right h1, max_eq_right (by omega)]
  · rw [if_neg h1, min_eq_left (by omega)]
    by_cases h2 : i ≤ -2147483647
    · rw [if_pos h2, max_eq_left h2]
    · rw [if_neg h2, max_eq_right (by omega)]
example : written (α := ℕ) id 100 (.int 7) = [.int 7] := by rw [int_written]; norm_num

end Verif.Itf.RegOpts

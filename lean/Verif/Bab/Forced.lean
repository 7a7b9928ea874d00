import Verif.Bab.NodeStatus
import Mathlib.Data.Rat.Floor
import Mathlib.Tactic.Linarith
import Mathlib.Tactic.NormNum
/-!
# C243: nodes that are branched on although their NLP was not solved

src/Interfaces/BonOsiTMINLPInterface.hpp: `forceInfeasible` 282-285, `forceBranchable` 287-291; src/Interfaces/BonTMINLP2TNLP.cpp: `force_fractionnal_sol` 617-629;
src/CbcBonmin/BonCbcNlpStrategy.cpp: `status` 78-155 (its decision is modelled in `Bab/NodeStatus.lean`).

Doubles are rational numbers; as the value put in depends on rounding, the two additions of 1/2 are followed by a rounding function `fl`, of which only the facts in `Rounds` are used.
An infinite bound is a number of large absolute value, as in the code.
-/
namespace Verif.Bab.Forced

/-- `TMINLP::VariableType`. -/
inductive Kind where
  | cont | bin | int
  deriving DecidableEq

/-- A column: type, bounds and value in the solution stored. -/
structure Col where
  kind : Kind
  lo : ℚ
  up : ℚ
  x : ℚ
  deriving DecidableEq

/-- The problem object: columns and stored objective. -/
structure P where
  cols : List Col
  obj : ℚ
  deriving DecidableEq

/-- The body of the loop (BonTMINLP2TNLP.cpp:621-627); the test in line 623 compares the lower bound with the upper bound **plus** 1/2. -/
def forceCol (fl : ℚ → ℚ) (c : Col) : Col :=
  if (c.kind = .int ∨ c.kind = .bin) ∧ c.lo < fl (c.up + 1 / 2) then { c with x := fl (⌈c.lo⌉ + 1 / 2) } else c

/-- `force_fractionnal_sol` (BonTMINLP2TNLP.cpp:617-629). -/
def forceFrac (fl : ℚ → ℚ) (cs : List Col) : List Col := cs.map (forceCol fl)

/-- `forceBranchable` (BonOsiTMINLPInterface.hpp:287-291). -/
def forceBranchable (fl : ℚ → ℚ) (p : P) : P := ⟨forceFrac fl p.cols, -10 ^ 200⟩

/-- `forceInfeasible` (BonOsiTMINLPInterface.hpp:282-285). -/
def forceInfeasible (p : P) : P := ⟨p.cols, 10 ^ 200⟩

/-- What `status` leaves in the problem object (BonCbcNlpStrategy.cpp:115-153), by its verdict. -/
def afterStatus (fl : ℚ → ℚ) (v : Verdict) (p : P) : P :=
  match v with
  | .branch => forceBranchable fl p
  | .fathom => forceInfeasible p
  | _ => p

/-! ## Specification -/

/-- Facts about rounding to doubles: it is monotone, halves up to `2^52` are doubles, and doubles from `2^53` on are whole numbers. -/
structure Rounds (fl : ℚ → ℚ) : Prop where
  mono : ∀ a b, a ≤ b → fl a ≤ fl b
  half : ∀ k : ℤ, |(k : ℚ)| < 2 ^ 52 → fl (k + 1 / 2) = k + 1 / 2
  whole : ∀ q, 2 ^ 53 ≤ |q| → ∃ k : ℤ, fl q = k

/-- A column to branch on: of integer type, within its bounds, and at least `tol` away from all whole numbers. -/
def Branchable (tol : ℚ) (c : Col) : Prop := c.kind ≠ .cont ∧ c.lo ≤ c.x ∧ c.x ≤ c.up ∧ ∀ k : ℤ, tol ≤ |c.x - k|

/-! ## Theorems -/

/-- A half is 1/2 away from all whole numbers. -/
theorem half_away (a k : ℤ) : 1 / 2 ≤ |(a : ℚ) + 1 / 2 - k| := by
  rcases le_or_gt k a with h | h
  · have : (k : ℚ) ≤ a := by exact_mod_cast h
    rw [abs_of_nonneg (by linarith)]
    linarith
  · have : (a : ℚ) + 1 ≤ k := by exact_mod_cast h
    rw [abs_of_neg (by linarith)]
    linarith

theorem forceCol_value (fl : ℚ → ℚ) (hf : Rounds fl) (c : Col) (a b : ℤ) (hk : c.kind ≠ .cont) (hlo : c.lo = a) (hup : c.up = b) (hab : a ≤ b) (ha : |(a : ℚ)| < 2 ^ 52) :
    forceCol fl c = { c with x := a + 1 / 2 } := by
  have hk' : c.kind = .int ∨ c.kind = .bin := by
    cases h : c.kind <;> simp_all
  have hab' : (a : ℚ) ≤ b := by exact_mod_cast hab
  have h1 : fl ((a : ℚ) + 1 / 2) ≤ fl ((b : ℚ) + 1 / 2) := hf.mono _ _ (by linarith)
  rw [hf.half a ha] at h1
  unfold forceCol
  rw [if_pos ⟨hk', by rw [hlo, hup]; linarith⟩, hlo, Int.ceil_intCast, hf.half a ha]

/-- **C243 (partial).** After `forceBranchable` every integer variable that is not fixed, has whole bounds and a lower bound below `2^52` in absolute value can be branched on: it is in the middle between its
lower bound and the next whole number.  Continuous variables keep their values, no bound and no type changes, and the objective is below that of every solution.
Missing: fixed variables, and variables without lower bound. -/
theorem branchable_partial (fl : ℚ → ℚ) (hf : Rounds fl) (p : P) : (forceBranchable fl p).obj = -10 ^ 200 ∧ (forceBranchable fl p).cols.length = p.cols.length ∧
    ∀ (i : ℕ) (c : Col), p.cols[i]? = some c → ∃ d : Col, (forceBranchable fl p).cols[i]? = some d ∧ d.kind = c.kind ∧ d.lo = c.lo ∧ d.up = c.up ∧
      (c.kind = .cont → d.x = c.x) ∧
      ∀ a b : ℤ, c.kind ≠ .cont → c.lo = a → c.up = b → a < b → |(a : ℚ)| < 2 ^ 52 → d.x = (a : ℚ) + 1 / 2 ∧ Branchable (1 / 2) d := by
  refine ⟨rfl, by simp [forceBranchable, forceFrac], ?_⟩
  intro i c hc
  refine ⟨forceCol fl c, by simp [forceBranchable, forceFrac, hc], ?_, ?_, ?_, ?_, ?_⟩
  · unfold forceCol; split <;> rfl
  · unfold forceCol; split <;> rfl
  · unfold forceCol; split <;> rfl
  · intro h
    unfold forceCol
    rw [if_neg (by rintro ⟨h' | h', -⟩ <;> rw [h] at h' <;> cases h')]
  · intro a b hk hlo hup hab ha
    have hab' : (a : ℚ) + 1 ≤ b := by exact_mod_cast hab
    rw [forceCol_value fl hf c a b hk hlo hup hab.le ha]
    refine ⟨rfl, hk, ?_, ?_, fun k => half_away a k⟩
    · show c.lo ≤ a + 1 / 2; rw [hlo]; linarith
    · show (a : ℚ) + 1 / 2 ≤ c.up; rw [hup]; linarith

/-- **C243** A node that `status` lets be branched on (verdict 0) has a variable to branch on if there is one integer variable that is not fixed, with whole bounds of moderate size; and it is not cut off by the
value of any solution above `-1e200`. -/
theorem status_branchable_partial (fl : ℚ → ℚ) (hf : Rounds fl) (cfg : Cfg) (h : Bool) (pa : Parent) (f : Flags) (p : P) (hv : (status cfg h pa f).1 = .branch)
    (c : Col) (hc : c ∈ p.cols) (a b : ℤ) (hk : c.kind ≠ .cont) (hlo : c.lo = a) (hup : c.up = b) (hab : a < b) (ha : |(a : ℚ)| < 2 ^ 52) :
    (∃ d ∈ (afterStatus fl (status cfg h pa f).1 p).cols, Branchable (1 / 2) d) ∧ ∀ cutoff, -10 ^ 200 < cutoff → (afterStatus fl (status cfg h pa f).1 p).obj < cutoff := by
  rw [hv]
  obtain ⟨i, hi⟩ := List.getElem?_of_mem hc
  obtain ⟨h1, -, h2⟩ := branchable_partial fl hf p
  obtain ⟨d, hd, -, -, -, -, h3⟩ := h2 i c hi
  exact ⟨⟨d, List.mem_of_getElem? hd, (h3 a b hk hlo hup hab ha).2⟩, fun cutoff hcut => by show (forceBranchable fl p).obj < cutoff; rw [h1]; exact hcut⟩

/-- **C243** A node that is to be taken as infeasible is not better than any cutoff up to `1e200`; nothing else changes. -/
theorem infeasible_exact (p : P) : (forceInfeasible p).cols = p.cols ∧ ∀ cutoff, cutoff ≤ 10 ^ 200 → ¬ (forceInfeasible p).obj < cutoff :=
  ⟨rfl, fun _ h => not_lt.2 h⟩

/-- **C243** Forcing twice, as `status` may do, is the same as forcing once. -/
theorem force_idempotent (fl : ℚ → ℚ) (p : P) : forceBranchable fl (forceBranchable fl p) = forceBranchable fl p := by
  unfold forceBranchable forceFrac
  congr 1
  rw [List.map_map]
  refine List.map_congr_left fun c _ => ?_
  simp only [Function.comp]
  by_cases h : (c.kind = .int ∨ c.kind = .bin) ∧ c.lo < fl (c.up + 1 / 2)
  · have e : forceCol fl c = { c with x := fl (⌈c.lo⌉ + 1 / 2) } := by unfold forceCol; rw [if_pos h]
    rw [e]
    unfold forceCol
    rw [if_pos h]
  · have e : forceCol fl c = c := by unfold forceCol; rw [if_neg h]
    rw [e, e]

/-- **C243 (refuted).** Variables that are fixed are meant to be left alone, but the test has the 1/2 on the wrong side: a fixed integer variable is moved above its upper bound. -/
theorem fixed_moved (fl : ℚ → ℚ) (hf : Rounds fl) (c : Col) (a : ℤ) (hk : c.kind ≠ .cont) (hlo : c.lo = a) (hup : c.up = a) (ha : |(a : ℚ)| < 2 ^ 52) :
    (forceCol fl c).x = a + 1 / 2 ∧ (forceCol fl c).up < (forceCol fl c).x := by
  rw [forceCol_value fl hf c a a hk hlo hup le_rfl ha]
  exact ⟨rfl, by show c.up < a + 1 / 2; rw [hup]; linarith⟩

/-- **C243 (refuted).** If the integer variables have no lower bound, and upper bounds that are not negative, they are all whole after `forceBranchable`: there is no variable to branch on, and the point of a node
that was not solved counts as an integer solution of value `-1e200`. -/
theorem unbounded_not_branchable (fl : ℚ → ℚ) (hf : Rounds fl) (p : P) (h : ∀ c ∈ p.cols, c.kind ≠ .cont → c.lo ≤ -2 ^ 54 ∧ 0 ≤ c.up) :
    (forceBranchable fl p).obj = -10 ^ 200 ∧ ∀ d ∈ (forceBranchable fl p).cols, d.kind ≠ .cont → ∃ k : ℤ, d.x = k := by
  refine ⟨rfl, ?_⟩
  intro d hd hk
  obtain ⟨c, hc, rfl⟩ := List.mem_map.1 hd
  have hkc : c.kind ≠ .cont := by
    intro h'
    apply hk
    unfold forceCol
    split <;> exact h'
  obtain ⟨h1, h2⟩ := h c hc hkc
  have hk' : c.kind = .int ∨ c.kind = .bin := by
    cases h : c.kind <;> simp_all
  have h3 := hf.mono (((0 : ℤ) : ℚ) + 1 / 2) (c.up + 1 / 2) (by push_cast; linarith)
  rw [hf.half 0 (by norm_num)] at h3
  have h4 : c.lo < fl (c.up + 1 / 2) := by
    have : (((0 : ℤ) : ℚ)) + 1 / 2 = 1 / 2 := by norm_num
    rw [this] at h3
    have : (0 : ℚ) < 2 ^ 54 := by norm_num
    linarith
  unfold forceCol
  rw [if_pos ⟨hk', h4⟩]
  apply hf.whole
  have h5 : (⌈c.lo⌉ : ℚ) ≤ -2 ^ 54 := by
    have : ⌈c.lo⌉ ≤ -2 ^ 54 := Int.ceil_le.2 (by push_cast; exact h1)
    exact_mod_cast this
  have h6 : (⌈c.lo⌉ : ℚ) + 1 / 2 ≤ -2 ^ 53 := by norm_num at h5 ⊢; linarith
  have h7 : (0 : ℚ) < 2 ^ 53 := by norm_num
  rw [abs_of_nonpos (by linarith)]
  linarith

/-- **C243 (refuted).** Without integer variables, for instance with special ordered sets only, `forceBranchable` changes no variable. -/
theorem no_integers_unchanged (fl : ℚ → ℚ) (p : P) (h : ∀ c ∈ p.cols, c.kind = .cont) : (forceBranchable fl p).cols = p.cols := by
  show p.cols.map (forceCol fl) = p.cols
  conv_rhs => rw [← List.map_id p.cols]
  refine List.map_congr_left fun c hc => ?_
  unfold forceCol
  rw [if_neg (by rintro ⟨h' | h', -⟩ <;> rw [h c hc] at h' <;> cases h')]
  rfl

/-! ## Examples -/

/-- A rounding function that meets the three facts. -/
def exFl (q : ℚ) : ℚ := if |q| < 2 ^ 53 then q else ⌊q⌋

theorem exFl_rounds : Rounds exFl := by
  refine ⟨?_, ?_, ?_⟩
  · intro a b h
    unfold exFl
    have hb := Int.lt_floor_add_one b
    by_cases h1 : |a| < 2 ^ 53
    · rw [if_pos h1]
      split
      · exact h
      · rename_i h2
        rw [abs_lt] at h1
        rcases le_or_gt 0 b with h3 | h3
        · rw [abs_of_nonneg h3, not_lt] at h2
          have : (2 ^ 53 : ℤ) ≤ ⌊b⌋ := Int.le_floor.2 (by push_cast; exact h2)
          have h4 : ((2 ^ 53 : ℤ) : ℚ) ≤ ⌊b⌋ := by exact_mod_cast this
          push_cast at h4
          linarith
        · rw [abs_of_neg h3, not_lt] at h2
          linarith
    · rw [if_neg h1]
      split
      · exact (Int.floor_le a).trans h
      · exact_mod_cast Int.floor_le_floor h
  · intro k hk
    unfold exFl
    rw [if_pos]
    rw [abs_lt] at hk ⊢
    constructor <;> [have := hk.1; have := hk.2] <;> norm_num at this ⊢ <;> linarith
  · intro q hq
    exact ⟨⌊q⌋, by unfold exFl; rw [if_neg (not_lt.2 hq)]⟩

example : (forceBranchable exFl ⟨[⟨.int, 0, 3, 2⟩, ⟨.cont, 0, 1, 1 / 3⟩, ⟨.bin, 1, 1, 1⟩, ⟨.int, -10 ^ 20, 5, 1 / 2⟩], 7⟩).cols.map Col.x = [1 / 2, 1 / 3, 3 / 2, -10 ^ 20] := by decide +kernel

example : (status ⟨3, 0, false⟩ false (.node ⟨0, 1⟩) ⟨true, false, false⟩).1 = .branch := by decide

/-- **C243** What `status` leaves: a node given up is not better than any cutoff up to `1e200` and keeps its variables; without a verdict nothing changes. -/
theorem after_status_exact (fl : ℚ → ℚ) (v : Verdict) (p : P) :
    (v = .fathom → (afterStatus fl v p).cols = p.cols ∧ (afterStatus fl v p).obj = 10 ^ 200 ∧ ∀ cutoff, cutoff ≤ 10 ^ 200 → ¬ (afterStatus fl v p).obj < cutoff) ∧
    (v = .noEffect ∨ v = .throws → afterStatus fl v p = p) := by
  constructor
  · rintro rfl
    exact ⟨rfl, rfl, fun _ h => not_lt.2 h⟩
  · rintro (rfl | rfl) <;> rfl

end Verif.Bab.Forced

import Mathlib.Data.Rat.Lemmas
import Mathlib.Algebra.Order.Field.Rat
import Mathlib.Algebra.Order.Ring.Abs
import Mathlib.Algebra.Order.Field.Basic
import Mathlib.Data.List.Forall2
import Mathlib.Tactic.Linarith
import Mathlib.Tactic.NormNum
import Mathlib.Tactic.Ring
/-! # Model of `OsiTMINLPInterface::randomStartingPoint` (src/Interfaces/BonOsiTMINLPInterface.cpp:1748-1795)

Bounds are `Option ℚ`, `none` = infinite (an IEEE infinity); a large finite `COIN_DBL_MAX` is an ordinary rational. -/
namespace Verif.Itf

/-- `std::max(colLower, v)` with a possibly infinite lower bound. -/
def maxLo (l : Option ℚ) (v : ℚ) : ℚ := match l with | none => v | some a => max a v
/-- `std::min(colUpper, v)` with a possibly infinite upper bound. -/
def minUp (u : Option ℚ) (v : ℚ) : ℚ := match u with | none => v | some b => min b v

/-- The uniform draw (cpp:1768-1776); `t` is the value of `CoinDrand48()`, `R` is `maxRandomRadius_`. -/
def uniformCoord (R : ℚ) (l u : Option ℚ) (t : ℚ) : ℚ :=
  let lower := match u with | none => -R | some b => min (-R) (b - R)
  let lower := maxLo l lower
  let upper := match l with | none => R | some a => max R (a + R)
  let upper := minUp u upper
  let lower := min upper lower
  let upper := max upper lower
  t * (upper - lower) + lower

/-- The draw around the user's starting value `x` (cpp:1778-1790) in a radius `r`. -/
def perturbCoord (r x : ℚ) (l u : Option ℚ) (t : ℚ) : ℚ :=
  let lower := maxLo l (x - r)
  let upper := minUp u (x + r)
  lower + t * (upper - lower)

/-- `randomGenerationType_`. -/
inductive Gen | uniform | perturb | suffix
  deriving DecidableEq

/-- `v < colLower` / `v > colUpper`. -/
def below (l : Option ℚ) (v : ℚ) : Prop := match l with | none => False | some a => v < a
def above (u : Option ℚ) (v : ℚ) : Prop := match u with | none => False | some b => v > b
instance (l : Option ℚ) (v : ℚ) : Decidable (below l v) := by unfold below; cases l <;> infer_instance
instance (u : Option ℚ) (v : ℚ) : Decidable (above u v) := by unfold above; cases u <;> infer_instance

/-- One coordinate (cpp:1767-1791): `x` the user's start value, `mp` is `max_perturbation_`, `rad` the suffix radius of the variable. -/
def coord (gen : Gen) (R mp rad x : ℚ) (l u : Option ℚ) (t : ℚ) : ℚ :=
  if gen = .uniform ∨ below l x ∨ above u x then uniformCoord R l u t
  else match gen with
    | .perturb => perturbCoord mp x l u t
    | _ => perturbCoord (rad * mp) x l u t

/-- One variable as seen by the loop. -/
structure Var where
  l : Option ℚ
  u : Option ℚ
  x : ℚ
  rad : ℚ
  t : ℚ

/-- The whole point. -/
def randomPoint (gen : Gen) (R mp : ℚ) (vs : List Var) : List ℚ := vs.map (fun v => coord gen R mp v.rad v.x v.l v.u v.t)

/-! ### Specification -/

/-- `v` is within the (possibly infinite) bounds. -/
def InB (l u : Option ℚ) (v : ℚ) : Prop := (∀ a, l = some a → a ≤ v) ∧ (∀ b, u = some b → v ≤ b)

/-- Bounds are not crossed. -/
def Okb (l u : Option ℚ) : Prop := ∀ a b, l = some a → u = some b → a ≤ b

/-- The point of the bound interval nearest to 0. -/
def nearest0 : Option ℚ → Option ℚ → ℚ
  | some a, some b => if 0 < a then a else if b < 0 then b else 0
  | some a, none => if 0 < a then a else 0
  | none, some b => if b < 0 then b else 0
  | none, none => 0

theorem between (lo hi t : ℚ) (h : lo ≤ hi) (h0 : 0 ≤ t) (h1 : t ≤ 1) : lo ≤ t * (hi - lo) + lo ∧ t * (hi - lo) + lo ≤ hi := by
  have a := mul_nonneg h0 (sub_nonneg.mpr h)
  have b := mul_le_mul_of_nonneg_right h1 (sub_nonneg.mpr h)
  constructor <;> linarith

/-- Ends of the interval of the uniform draw. -/
theorem uniform_ends (R : ℚ) (l u : Option ℚ) (hR : 0 ≤ R) (hb : Okb l u) : ∃ lo hi, lo ≤ hi ∧
    (∀ t, uniformCoord R l u t = t * (hi - lo) + lo) ∧ InB l u lo ∧ InB l u hi ∧ nearest0 l u - R ≤ lo ∧ hi ≤ nearest0 l u + R ∧
    lo ≤ nearest0 l u ∧ nearest0 l u ≤ hi ∧
    (∀ v, InB l u v → |v - nearest0 l u| ≤ R → lo ≤ v ∧ v ≤ hi) := by
  have key : ∀ lo hi : ℚ, lo ≤ hi → (∀ t, uniformCoord R l u t = t * (max hi (min hi lo) - min hi lo) + min hi lo) →
      (∀ t, uniformCoord R l u t = t * (hi - lo) + lo) := by
    intro lo hi h hu t
    rw [hu t, min_eq_right h, max_eq_left h]
  cases l with
  | none =>
    cases u with
    | none =>
      refine ⟨-R, R, by linarith, key _ _ (by linarith) (fun t => rfl), ?_, ?_, ?_, ?_, ?_, ?_, ?_⟩
      · simp [InB]
      · simp [InB]
      · simp [nearest0]
      · simp [nearest0]
      · simpa [nearest0] using hR
      · simpa [nearest0] using hR
      · intro v _ h; simp only [nearest0, sub_zero] at h; exact abs_le.mp h
    | some b =>
      by_cases hb0 : b < 0
      · refine ⟨b - R, b, by linarith, key _ _ (by linarith) ?_, ?_, ?_, ?_, ?_, ?_, ?_, ?_⟩
        · intro t
          simp only [uniformCoord, maxLo, minUp]
          rw [min_eq_right (by linarith : b - R ≤ -R), min_eq_left (by linarith : b ≤ R)]
        all_goals simp only [InB, nearest0, if_pos hb0, Option.some.injEq, forall_eq', reduceCtorEq, false_implies, implies_true, true_and]
        · linarith
        · linarith
        · linarith
        · linarith
        · linarith
        · linarith
        · intro v hv h; have := abs_le.mp h; constructor <;> linarith
      · have hb0' := not_lt.mp hb0
        refine ⟨-R, min b R, le_min (by linarith) (by linarith), key _ _ (le_min (by linarith) (by linarith)) ?_, ?_, ?_, ?_, ?_, ?_, ?_, ?_⟩
        · intro t
          simp only [uniformCoord, maxLo, minUp]
          rw [min_eq_left (by linarith : -R ≤ b - R)]
        all_goals simp only [InB, nearest0, if_neg hb0, Option.some.injEq, forall_eq', reduceCtorEq, false_implies, implies_true, true_and, sub_zero, zero_add, zero_sub]
        · linarith
        · exact min_le_left _ _
        · exact le_refl _
        · exact min_le_right _ _
        · linarith
        · exact le_min hb0' hR
        · intro v hv h; have := abs_le.mp h; exact ⟨this.1, le_min hv this.2⟩
  | some a =>
    cases u with
    | none =>
      by_cases ha : 0 < a
      · refine ⟨a, a + R, by linarith, key _ _ (by linarith) ?_, ?_, ?_, ?_, ?_, ?_, ?_, ?_⟩
        · intro t
          simp only [uniformCoord, maxLo, minUp]
          rw [max_eq_left (by linarith : -R ≤ a), max_eq_right (by linarith : R ≤ a + R)]
        all_goals simp only [InB, nearest0, if_pos ha, Option.some.injEq, forall_eq', reduceCtorEq, false_implies, implies_true, and_true]
        · linarith
        · linarith
        · linarith
        · linarith
        · linarith
        · linarith
        · intro v hv h; have := abs_le.mp h; constructor <;> linarith
      · have ha' := not_lt.mp ha
        refine ⟨max a (-R), R, max_le (by linarith) (by linarith), key _ _ (max_le (by linarith) (by linarith)) ?_, ?_, ?_, ?_, ?_, ?_, ?_, ?_⟩
        · intro t
          simp only [uniformCoord, maxLo, minUp]
          rw [max_eq_left (by linarith : a + R ≤ R)]
        all_goals simp only [InB, nearest0, if_neg ha, Option.some.injEq, forall_eq', reduceCtorEq, false_implies, implies_true, and_true, sub_zero, zero_add, zero_sub]
        · exact le_max_left _ _
        · linarith
        · exact le_max_right _ _
        · exact le_refl _
        · exact max_le ha' (by linarith)
        · exact hR
        · intro v hv h; have := abs_le.mp h; exact ⟨max_le hv this.1, this.2⟩
    | some b =>
      have hab : a ≤ b := hb a b rfl rfl
      by_cases ha : 0 < a
      · refine ⟨a, min b (a + R), le_min hab (by linarith), key _ _ (le_min hab (by linarith)) ?_, ?_, ?_, ?_, ?_, ?_, ?_, ?_⟩
        · intro t
          simp only [uniformCoord, maxLo, minUp]
          rw [min_eq_left (by linarith : -R ≤ b - R), max_eq_left (by linarith : -R ≤ a), max_eq_right (by linarith : R ≤ a + R)]
        all_goals simp only [InB, nearest0, if_pos ha, Option.some.injEq, forall_eq']
        · exact ⟨le_refl _, hab⟩
        · exact ⟨le_min hab (by linarith), min_le_left _ _⟩
        · linarith
        · exact min_le_right _ _
        · exact le_refl _
        · exact le_min hab (by linarith)
        · intro v hv h; have := abs_le.mp h; exact ⟨hv.1, le_min hv.2 (by linarith)⟩
      · have ha' := not_lt.mp ha
        by_cases hb0 : b < 0
        · refine ⟨max a (b - R), b, max_le hab (by linarith), key _ _ (max_le hab (by linarith)) ?_, ?_, ?_, ?_, ?_, ?_, ?_, ?_⟩
          · intro t
            simp only [uniformCoord, maxLo, minUp]
            rw [min_eq_right (by linarith : b - R ≤ -R), max_eq_left (by linarith : a + R ≤ R), min_eq_left (by linarith : b ≤ R)]
          all_goals simp only [InB, nearest0, if_neg ha, if_pos hb0, Option.some.injEq, forall_eq']
          · exact ⟨le_max_left _ _, max_le hab (by linarith)⟩
          · exact ⟨hab, le_refl _⟩
          · exact le_max_right _ _
          · linarith
          · exact max_le hab (by linarith)
          · exact le_refl _
          · intro v hv h; have := abs_le.mp h; exact ⟨max_le hv.1 (by linarith), hv.2⟩
        · have hb0' := not_lt.mp hb0
          have hle : max a (-R) ≤ min b R := le_min (max_le hab (by linarith)) (max_le (by linarith) (by linarith))
          refine ⟨max a (-R), min b R, hle, key _ _ hle ?_, ?_, ?_, ?_, ?_, ?_, ?_, ?_⟩
          · intro t
            simp only [uniformCoord, maxLo, minUp]
            rw [min_eq_left (by linarith : -R ≤ b - R), max_eq_left (by linarith : a + R ≤ R)]
          all_goals simp only [InB, nearest0, if_neg ha, if_neg hb0, Option.some.injEq, forall_eq', sub_zero, zero_add, zero_sub]
          · exact ⟨le_max_left _ _, hle.trans (min_le_left _ _)⟩
          · exact ⟨(le_max_left _ _).trans hle, min_le_left _ _⟩
          · exact le_max_right _ _
          · exact min_le_right _ _
          · exact max_le ha' (by linarith)
          · exact le_min hb0' hR
          · intro v hv h; have := abs_le.mp h; exact ⟨max_le hv.1 this.1, le_min hv.2 this.2⟩

/-- **C16** (uniform draw): every draw is within the bounds and within the radius of the feasible value nearest 0, and every such value
can be drawn. -/
theorem uniform_in_bounds (R : ℚ) (l u : Option ℚ) (t : ℚ) (hR : 0 ≤ R) (hb : Okb l u) (h0 : 0 ≤ t) (h1 : t ≤ 1) :
    InB l u (uniformCoord R l u t) ∧ |uniformCoord R l u t - nearest0 l u| ≤ R := by
  obtain ⟨lo, hi, hle, hu, hlo, hhi, r1, r2, -, -, -⟩ := uniform_ends R l u hR hb
  rw [hu t]
  obtain ⟨b1, b2⟩ := between lo hi t hle h0 h1
  refine ⟨⟨fun a ha => (hlo.1 a ha).trans b1, fun b hb' => b2.trans (hhi.2 b hb')⟩, abs_le.mpr ⟨by linarith, by linarith⟩⟩

theorem uniform_covers (R : ℚ) (l u : Option ℚ) (hR : 0 ≤ R) (hb : Okb l u) (v : ℚ) (hv : InB l u v) (hr : |v - nearest0 l u| ≤ R) :
    ∃ t, 0 ≤ t ∧ t ≤ 1 ∧ uniformCoord R l u t = v := by
  obtain ⟨lo, hi, hle, hu, -, -, -, -, -, -, hc⟩ := uniform_ends R l u hR hb
  obtain ⟨h1, h2⟩ := hc v hv hr
  by_cases heq : lo = hi
  · exact ⟨0, le_refl _, by norm_num, by rw [hu]; linarith⟩
  · have hpos : 0 < hi - lo := sub_pos.mpr (lt_of_le_of_ne hle heq)
    refine ⟨(v - lo) / (hi - lo), div_nonneg (by linarith) hpos.le, (div_le_one hpos).mpr (by linarith), ?_⟩
    rw [hu, div_mul_cancel₀ _ (ne_of_gt hpos)]; ring

theorem notBelow (l : Option ℚ) (v : ℚ) : ¬ below l v ↔ ∀ a, l = some a → a ≤ v := by
  cases l <;> simp [below]

theorem notAbove (u : Option ℚ) (v : ℚ) : ¬ above u v ↔ ∀ b, u = some b → v ≤ b := by
  cases u <;> simp [above]

theorem perturb_in_bounds (r x : ℚ) (l u : Option ℚ) (t : ℚ) (hr : 0 ≤ r) (hx : InB l u x) (h0 : 0 ≤ t) (h1 : t ≤ 1) :
    InB l u (perturbCoord r x l u t) ∧ |perturbCoord r x l u t - x| ≤ r := by
  have hlo : maxLo l (x - r) ≤ x ∧ x - r ≤ maxLo l (x - r) ∧ ∀ a, l = some a → a ≤ maxLo l (x - r) := by
    cases l with
    | none => simp [maxLo, hr]
    | some a => simp only [maxLo]; exact ⟨max_le (hx.1 a rfl) (by linarith), le_max_right _ _, fun a' h => by cases h; exact le_max_left _ _⟩
  have hhi : x ≤ minUp u (x + r) ∧ minUp u (x + r) ≤ x + r ∧ ∀ b, u = some b → minUp u (x + r) ≤ b := by
    cases u with
    | none => simp [minUp, hr]
    | some b => simp only [minUp]; exact ⟨le_min (hx.2 b rfl) (by linarith), min_le_right _ _, fun b' h => by cases h; exact min_le_left _ _⟩
  unfold perturbCoord
  simp only
  rw [add_comm]
  obtain ⟨b1, b2⟩ := between (maxLo l (x - r)) (minUp u (x + r)) t (hlo.1.trans hhi.1) h0 h1
  refine ⟨⟨fun a ha => (hlo.2.2 a ha).trans b1, fun b hb' => b2.trans (hhi.2.2 b hb')⟩, abs_le.mpr ⟨?_, ?_⟩⟩
  · linarith [hlo.2.1]
  · linarith [hhi.2.1]

/-- **C16** (partial: suffix radii must not be negative).  Every coordinate of the random starting point is within its bounds, for every mode and every
sequence of draws. -/
theorem randomPoint_in_bounds_partial (gen : Gen) (R mp : ℚ) (vs : List Var) (hR : 0 ≤ R) (hmp : 0 ≤ mp)
    (hv : ∀ v ∈ vs, Okb v.l v.u ∧ 0 ≤ v.t ∧ v.t ≤ 1 ∧ (gen = .suffix → 0 ≤ v.rad)) :
    List.Forall₂ (fun v x => InB v.l v.u x) vs (randomPoint gen R mp vs) := by
  unfold randomPoint
  rw [List.forall₂_map_right_iff, List.forall₂_same]
  intro v hmem
  obtain ⟨hb, h0, h1, hr⟩ := hv v hmem
  unfold coord
  by_cases hc : gen = .uniform ∨ below v.l v.x ∨ above v.u v.x
  · rw [if_pos hc]; exact (uniform_in_bounds R v.l v.u v.t hR hb h0 h1).1
  · rw [if_neg hc]
    push Not at hc
    have hx : InB v.l v.u v.x := ⟨(notBelow _ _).mp hc.2.1, (notAbove _ _).mp hc.2.2⟩
    cases gen with
    | uniform => exact absurd rfl hc.1
    | perturb => exact (perturb_in_bounds mp v.x v.l v.u v.t hmp hx h0 h1).1
    | suffix => exact (perturb_in_bounds _ v.x v.l v.u v.t (mul_nonneg (hr rfl) hmp) hx h0 h1).1

/-- The perturbed modes start from the user's value and stay within the radius whenever that value is feasible. -/
theorem coord_perturb_radius (gen : Gen) (R mp rad x t : ℚ) (l u : Option ℚ) (hg : gen ≠ .uniform) (hx : InB l u x) (hmp : 0 ≤ mp) (hr : 0 ≤ rad)
    (h0 : 0 ≤ t) (h1 : t ≤ 1) : |coord gen R mp rad x l u t - x| ≤ (if gen = .perturb then mp else rad * mp) := by
  have hc : ¬ (gen = .uniform ∨ below l x ∨ above u x) := by
    push Not; exact ⟨hg, (notBelow _ _).mpr hx.1, (notAbove _ _).mpr hx.2⟩
  unfold coord
  rw [if_neg hc]
  cases gen with
  | uniform => exact absurd rfl hg
  | perturb => simpa using (perturb_in_bounds mp x l u t hmp hx h0 h1).2
  | suffix => simpa using (perturb_in_bounds _ x l u t (mul_nonneg hr hmp) hx h0 h1).2

/-- **C16** refuted for negative suffix radii (they come unchecked from the user's model): a draw outside the bounds. -/
theorem randomPoint_negative_radius :
    ∃ v : Var, Okb v.l v.u ∧ 0 ≤ v.t ∧ v.t ≤ 1 ∧ InB v.l v.u v.x ∧ ¬ InB v.l v.u (coord .suffix 10 1 v.rad v.x v.l v.u v.t) := by
  refine ⟨⟨some 0, some 1, 1/2, -1, 0⟩, ?_, ?_, ?_, ?_, ?_⟩
  · intro a b h1 h2; cases h1; cases h2; norm_num
  · norm_num
  · norm_num
  · constructor
    · intro a h; cases h; norm_num
    · intro b h; cases h; norm_num
  · have h : coord .suffix 10 1 (-1) (1/2) (some 0) (some 1) 0 = 3/2 := by
      decide +kernel
    intro hh
    have := hh.2 1 rfl
    simp only [h] at this
    norm_num at this

/-! ### non-trivial instances -/
example : InB (some 3) none (uniformCoord 2 (some 3) none (1/2)) ∧ uniformCoord 2 (some 3) none (1/2) = 4 :=
  ⟨(uniform_in_bounds 2 (some 3) none (1/2) (by norm_num) (by intro a b _ h; cases h) (by norm_num) (by norm_num)).1,
   by norm_num [uniformCoord, maxLo, minUp]⟩

example : List.Forall₂ (fun (v : Var) x => InB v.l v.u x) [⟨some 0, some 1, 5, 1, 1/3⟩, ⟨none, some (-2), -4, 1, 1⟩]
    (randomPoint .perturb 10 1 [⟨some 0, some 1, 5, 1, 1/3⟩, ⟨none, some (-2), -4, 1, 1⟩]) := by
  apply randomPoint_in_bounds_partial _ _ _ _ (by norm_num) (by norm_num)
  intro v hv
  simp only [List.mem_cons, List.not_mem_nil, or_false] at hv
  rcases hv with rfl | rfl
  · refine ⟨?_, by norm_num, by norm_num, by simp⟩
    intro a b h1 h2; cases h1; cases h2; norm_num
  · refine ⟨?_, by norm_num, by norm_num, by simp⟩
    intro a b h1 h2; cases h1

end Verif.Itf

import Verif.Sepa.Outer
import Mathlib.Tactic.Positivity
/-!
# Model of the choice of points for the first outer description
(experimental/Separable/SepaTMINLP2OsiLP.cpp:348-511, experimental/Separable/BonOuterDescription.cpp:275-376)
-/
namespace Verif.Sepa

/-- First point of `get_refined_oa` (SepaTMINLP2OsiLP.cpp:370-371, 378-380, 390-392). -/
def rFirst (C : Cols) (i : ℕ) : ℚ := if C.lin i then 0 else if C.lo i < -10000 then -10000 else C.lo i

/-- Last point of `get_refined_oa` (SepaTMINLP2OsiLP.cpp:372, 381-383, 390-392). -/
def rLast (C : Cols) (i : ℕ) : ℚ := if C.lin i then 0 else if 10000 < C.up i then 10000 else C.up i

/-- Step (SepaTMINLP2OsiLP.cpp:388-397). -/
def rStep (C : Cols) (N : ℕ) (i : ℕ) : ℚ := if C.lin i then 0 else (rLast C i - rFirst C i) / N

/-- The points between (SepaTMINLP2OsiLP.cpp:399-407): `k` left, `pp` growing. -/
def rMid (st : ℕ → ℚ) : ℕ → (ℕ → ℚ) → List (ℕ → ℚ)
  | 0, _ => []
  | k + 1, pp => (fun i => pp i + st i) :: rMid st k (fun i => pp i + st i)

/-- Points at which `get_refined_oa` makes tangents, in order (SepaTMINLP2OsiLP.cpp:348-414). -/
def rPoints (C : Cols) (N : ℤ) : List (ℕ → ℚ) :=
  if N ≤ 0 then [] else rFirst C :: (rMid (rStep C N.toNat) N.toNat (rFirst C) ++ [rLast C])

theorem rMid_eq (st : ℕ → ℚ) (k : ℕ) (pp : ℕ → ℚ) :
    rMid st k pp = (List.range k).map (fun (j : ℕ) i => pp i + ((j : ℚ) + 1) * st i) := by
  induction k generalizing pp with
  | zero => rfl
  | succ k ih =>
    rw [rMid, ih, List.range_succ_eq_map, List.map_cons, List.map_map]
    congr 1
    · funext i; simp
    · apply List.map_congr_left
      intro j _
      funext i
      simp only [Function.comp_apply]
      push_cast
      ring

/-- **C141** the points, exactly: none for a number `N ≤ 0`; otherwise `N + 2` points, cutting the clipped range of each
nonlinear variable in `N` equal parts (0 for linear variables), the upper end coming twice. -/
theorem points_exact (C : Cols) (N : ℤ) :
    (N ≤ 0 → rPoints C N = []) ∧
    (∀ k : ℕ, N = (k : ℤ) + 1 → ∃ mid, rPoints C N = rFirst C :: (mid ++ [rLast C]) ∧ mid.length = k + 1 ∧
      (∀ (j : ℕ) (p : ℕ → ℚ), mid[j]? = some p → ∀ i,
        p i = if C.lin i then 0 else rFirst C i + (j + 1) * ((rLast C i - rFirst C i) / (k + 1))) ∧
      mid[k]? = some (rLast C)) := by
  constructor
  · intro h
    rw [rPoints, if_pos h]
  · rintro k rfl
    refine ⟨rMid (rStep C (k + 1)) (k + 1) (rFirst C), ?_, ?_, ?_, ?_⟩
    · rw [rPoints, if_neg (by omega)]
      have : ((k : ℤ) + 1).toNat = k + 1 := by omega
      rw [this]
    · rw [rMid_eq]; simp
    · intro j p hj i
      rw [rMid_eq] at hj
      simp only [List.getElem?_map, Option.map_eq_some_iff] at hj
      obtain ⟨a, ha, rfl⟩ := hj
      rw [List.getElem?_eq_some_iff] at ha
      obtain ⟨_, rfl⟩ := ha
      simp only [List.getElem_range]
      cases hl : C.lin i with
      | true => simp [rFirst, rStep, hl]
      | false =>
        simp only [Bool.false_eq_true, if_false]
        rw [rStep, hl]
        simp
    · rw [rMid_eq]
      rw [List.getElem?_map, List.getElem?_range (by omega)]
      simp only [Option.map_some, Option.some.injEq]
      funext i
      cases hl : C.lin i with
      | true => simp [rFirst, rStep, rLast, hl]
      | false =>
        rw [rStep, hl]
        simp only [Bool.false_eq_true, if_false]
        have : ((k : ℚ) + 1) ≠ 0 := by positivity
        push_cast
        field_simp
        ring

/-- **C141** points are within the bounds (partial: the variable is nonlinear with `lo ≤ 10000` and `-10000 ≤ up`). -/
theorem points_in_box_partial (C : Cols) (N : ℤ) (i : ℕ) (hl : C.lin i = false) (h : C.lo i ≤ C.up i)
    (h1 : C.lo i ≤ 10000) (h2 : -10000 ≤ C.up i) (p : ℕ → ℚ) (hp : p ∈ rPoints C N) :
    C.lo i ≤ p i ∧ p i ≤ C.up i := by
  have a1 : C.lo i ≤ rFirst C i := by
    unfold rFirst
    rw [hl]
    simp only [Bool.false_eq_true, if_false]
    split_ifs with q
    · exact le_of_lt q
    · exact le_refl _
  have a2 : rLast C i ≤ C.up i := by
    unfold rLast
    rw [hl]
    simp only [Bool.false_eq_true, if_false]
    split_ifs with q
    · exact le_of_lt q
    · exact le_refl _
  have a3 : rFirst C i ≤ rLast C i := by
    unfold rFirst rLast
    rw [hl]
    simp only [Bool.false_eq_true, if_false]
    split_ifs <;> linarith
  rcases le_or_gt N 0 with hN | hN
  · rw [(points_exact C N).1 hN] at hp
    simp at hp
  · obtain ⟨mid, hm, hlen, hmid, -⟩ := (points_exact C N).2 (N.toNat - 1) (by omega)
    rw [hm] at hp
    simp only [List.mem_cons, List.mem_append, List.not_mem_nil, or_false] at hp
    rcases hp with rfl | hp | rfl
    · exact ⟨a1, le_trans a3 a2⟩
    · obtain ⟨j, hj, he⟩ := List.getElem_of_mem hp
      have := hmid j p (by rw [List.getElem?_eq_getElem hj, he]) i
      rw [hl] at this
      simp only [Bool.false_eq_true, if_false] at this
      rw [this]
      have hjk : ((j : ℚ) + 1) ≤ ((N.toNat - 1 : ℕ) : ℚ) + 1 := by
        have : j + 1 ≤ N.toNat - 1 + 1 := by omega
        exact_mod_cast this
      have hpos : (0 : ℚ) < ((N.toNat - 1 : ℕ) : ℚ) + 1 := by positivity
      have hd : 0 ≤ (rLast C i - rFirst C i) / (((N.toNat - 1 : ℕ) : ℚ) + 1) := div_nonneg (by linarith) (le_of_lt hpos)
      have h3 := mul_le_mul_of_nonneg_right hjk hd
      have h4 : (((N.toNat - 1 : ℕ) : ℚ) + 1) * ((rLast C i - rFirst C i) / (((N.toNat - 1 : ℕ) : ℚ) + 1))
          = rLast C i - rFirst C i := by
        field_simp
      have h5 : 0 ≤ ((j : ℚ) + 1) * ((rLast C i - rFirst C i) / (((N.toNat - 1 : ℕ) : ℚ) + 1)) :=
        mul_nonneg (by positivity) hd
      constructor <;> linarith
    · exact ⟨le_trans a1 a3, a2⟩

example : (rPoints ⟨fun _ => 0, fun _ => 8, fun _ => false⟩ 4).map (fun p => p 0) = [0, 2, 4, 6, 8, 8] := by decide +kernel

/-- **C141 (refuted).** Beyond 10000 the upper end is clipped below the lower bound: with `x0 ∈ [20000, 30000]` the last point
is 10000. -/
theorem clipped_below_lower : (rPoints ⟨fun _ => 20000, fun _ => 30000, fun _ => false⟩ 2).map (fun p => p 0)
    = [20000, 15000, 10000, 10000] := by decide +kernel

/-- **C141 (refuted).** Linear variables are put at 0, outside their bounds. -/
theorem linear_at_zero : (rPoints ⟨fun _ => 5, fun _ => 9, fun _ => true⟩ 2).map (fun p => p 0) = [0, 0, 0, 0] := by
  decide +kernel

/-! ## Sampling by function values -/

/-- The `while` loop for a row (SepaTMINLP2OsiLP.cpp:479-501, BonOuterDescription.cpp:339-359): `h n` is the value of the row at
the point after `n` steps, `last` the value at the last point taken, `left` = `num_approx - nbG[i]` points still to take, `n`
steps made.  Returns the numbers of steps at which tangents are made; `none` = not finished after the given number of turns. -/
def sample (h : ℕ → ℚ) (thr : ℚ) : ℕ → ℕ → ℚ → ℕ → Option (List ℕ)
  | _, 0, _, _ => some []
  | 0, _ + 1, _, _ => none
  | fuel + 1, left + 1, last, n =>
    if thr ≤ |last - h (n + 1)| then (sample h thr fuel left (h (n + 1)) (n + 1)).map ((n + 1) :: ·)
    else sample h thr fuel (left + 1) last (n + 1)

/-- Points still to take at the start: `nbG[i]` starts at 2 (SepaTMINLP2OsiLP.cpp:443, BonOuterDescription.cpp:300). -/
def toTake (N : ℤ) : ℕ := (N - 2).toNat

/-- Specification: each point is the first one after the previous whose value differs from it by the threshold. -/
def Jumps (h : ℕ → ℚ) (thr : ℚ) : ℕ → List ℕ → Prop
  | _, [] => True
  | m, n :: l => m < n ∧ thr ≤ |h m - h n| ∧ (∀ k, m < k → k < n → |h m - h k| < thr) ∧ Jumps h thr n l

theorem sample_fuel (h : ℕ → ℚ) (thr : ℚ) (m n : ℕ) (hmn : m ≤ n) (hno : ∀ k, m < k → k ≤ n → |h m - h k| < thr)
    (left : ℕ) (l : List ℕ) :
    (∃ fuel, sample h thr fuel left (h m) n = some l) ↔
      l.length = left ∧ Jumps h thr m l := by
  induction left generalizing m n l with
  | zero =>
    constructor
    · rintro ⟨fuel, hf⟩
      rw [sample] at hf
      simp only [Option.some.injEq] at hf
      subst hf
      exact ⟨rfl, trivial⟩
    · rintro ⟨h1, -⟩
      rw [List.length_eq_zero_iff] at h1
      subst h1
      exact ⟨0, by rw [sample]⟩
  | succ left ih =>
    constructor
    · rintro ⟨fuel, hf⟩
      induction fuel generalizing n with
      | zero => rw [sample] at hf; cases hf
      | succ fuel ihf =>
        rw [sample] at hf
        by_cases hj : thr ≤ |h m - h (n + 1)|
        · rw [if_pos hj] at hf
          simp only [Option.map_eq_some_iff] at hf
          obtain ⟨l', hl', rfl⟩ := hf
          obtain ⟨i1, i2⟩ := (ih (n + 1) (n + 1) (le_refl _) (fun k h1 h2 => absurd h1 (by omega)) l').1 ⟨fuel, hl'⟩
          exact ⟨by simp [i1], by omega, hj, fun k h1 h2 => hno k h1 (by omega), i2⟩
        · rw [if_neg hj] at hf
          exact ihf (n + 1) (by omega) (fun k h1 h2 => by
            rcases Nat.lt_or_ge k (n + 1) with h3 | h3
            · exact hno k h1 (by omega)
            · have : k = n + 1 := by omega
              subst this
              exact not_le.1 hj) hf
    · rintro ⟨h1, h2⟩
      cases l with
      | nil => simp at h1
      | cons q l =>
        obtain ⟨j1, j2, j3, j4⟩ := h2
        have hq : n < q := by
          by_contra hc
          exact absurd j2 (not_le.2 (hno q j1 (by omega)))
        obtain ⟨fuel, hf⟩ := (ih q q (le_refl _) (fun k h1 h2 => absurd h1 (by omega)) l).2
          ⟨by simpa using h1, j4⟩
        -- walk from n to q
        have walk : ∀ d n', n' + d + 1 = q → m ≤ n' → sample h thr (fuel + d + 1) (left + 1) (h m) n' = some (q :: l) := by
          intro d
          induction d with
          | zero =>
            intro n' hn' hm
            have e : n' + 1 = q := by omega
            rw [Nat.add_zero, sample, e, if_pos j2, hf]
            rfl
          | succ d ihd =>
            intro n' hn' hm
            rw [show fuel + (d + 1) + 1 = (fuel + d + 1) + 1 by omega, sample,
              if_neg (not_le.2 (j3 (n' + 1) (by omega) (by omega)))]
            exact ihd (n' + 1) (by omega) (by omega)
        exact ⟨_, walk (q - n - 1) n (by omega) hmn⟩

/-- **C142** the sampling loop, exactly: it ends, with the list `l`, iff `l` has `N - 2` members (none for `N ≤ 2`), each being
the first step after the previous one where the value has changed by the threshold since it. -/
theorem sample_exact (h : ℕ → ℚ) (thr : ℚ) (N : ℤ) (l : List ℕ) :
    (∃ fuel, sample h thr fuel (toTake N) (h 0) 0 = some l) ↔ l.length = (N - 2).toNat ∧ Jumps h thr 0 l :=
  sample_fuel h thr 0 0 (le_refl _) (fun k h1 h2 => absurd h1 (by omega)) _ l

/-- **C142** end of the loop (partial: from every step the value changes by the threshold later on). -/
theorem ends_partial (h : ℕ → ℚ) (thr : ℚ) (N : ℤ) (hj : ∀ m, ∃ n, m < n ∧ thr ≤ |h m - h n|) :
    ∃ fuel l, sample h thr fuel (toTake N) (h 0) 0 = some l := by
  have : ∀ k m, ∃ l : List ℕ, l.length = k ∧ Jumps h thr m l := by
    intro k
    induction k with
    | zero => exact fun m => ⟨[], rfl, trivial⟩
    | succ k ih =>
      intro m
      classical
      have hex := hj m
      obtain ⟨l, h1, h2⟩ := ih (Nat.find hex)
      refine ⟨Nat.find hex :: l, by simp [h1], (Nat.find_spec hex).1, (Nat.find_spec hex).2, ?_, h2⟩
      intro k hk1 hk2
      have := Nat.find_min hex hk2
      by_contra hc
      exact this ⟨hk1, not_lt.1 hc⟩
  obtain ⟨l, h1, h2⟩ := this (N - 2).toNat 0
  obtain ⟨fuel, hf⟩ := (sample_exact h thr N l).2 ⟨h1, h2⟩
  exact ⟨fuel, l, hf⟩

/-- **C142** points near (partial: `K` steps always change the value by the threshold): the points are at most `K` steps apart,
so the last one is within `K (N - 2)` steps — within the range if that is at most the number of steps of the range. -/
theorem near_partial (h : ℕ → ℚ) (thr : ℚ) (K : ℕ) (hK : 1 ≤ K) (hj : ∀ m, thr ≤ |h m - h (m + K)|) (m : ℕ) (l : List ℕ)
    (hl : Jumps h thr m l) : ∀ n ∈ l, n ≤ m + K * l.length := by
  induction l generalizing m with
  | nil => simp
  | cons q l ih =>
    obtain ⟨j1, j2, j3, j4⟩ := hl
    have hq : q ≤ m + K := by
      by_contra hc
      exact absurd (hj m) (not_le.2 (j3 (m + K) (by omega) (by omega)))
    intro n hn
    have e : K * (q :: l).length = K * l.length + K := by simp [Nat.mul_add]
    rw [e]
    rcases List.mem_cons.1 hn with rfl | hn
    · omega
    · have := ih q j4 n hn
      omega

/-- **C142 (refuted).** The loop never ends when the value settles: the convex function `max 0 (1 - x)` on `[0, 100]` with 4
points has steps 5/4 and threshold 1/3; the first step takes it to 0, where it stays. -/
theorem never_ends (fuel : ℕ) :
    sample (fun n => max 0 (1 - n * (100 / 80))) (|0 - 1| / 3) fuel (toTake 4) 1 0 = none := by
  have hz : ∀ n : ℕ, max (0 : ℚ) (1 - ((n + 1 : ℕ) : ℚ) * (100 / 80)) = 0 := by
    intro n
    apply max_eq_left
    have : (0 : ℚ) ≤ (n : ℚ) := Nat.cast_nonneg n
    push_cast
    linarith
  have stay : ∀ fuel n, sample (fun n => max 0 (1 - (n : ℚ) * (100 / 80))) (|0 - 1| / 3) fuel 1 0 n = none := by
    intro fuel
    induction fuel with
    | zero => intro n; rfl
    | succ fuel ih =>
      intro n
      rw [sample]
      simp only [hz]
      rw [if_neg (by norm_num)]
      exact ih (n + 1)
  cases fuel with
  | zero => rfl
  | succ fuel =>
    show sample _ _ (fuel + 1) 2 1 0 = none
    rw [sample]
    simp only [hz]
    rw [if_pos (by norm_num), stay]
    rfl

/-- **C142 (refuted).** In the `Bonmin` variant integer variables do not move (step 0) though the two end values differ: the
loop never ends for a row over integer variables, whatever the number of points above 2. -/
theorem never_ends_integer (v thr : ℚ) (hthr : 0 < thr) (N : ℤ) (hN : 2 < N) (fuel : ℕ) :
    sample (fun _ => v) thr fuel (toTake N) v 0 = none := by
  obtain ⟨k, hk⟩ : ∃ k, toTake N = k + 1 := ⟨toTake N - 1, by unfold toTake; omega⟩
  rw [hk]
  have : ∀ fuel n, sample (fun _ => v) thr fuel (k + 1) v n = none := by
    intro fuel
    induction fuel with
    | zero => intro n; rfl
    | succ fuel ih =>
      intro n
      rw [sample, if_neg (by simpa using hthr)]
      exact ih (n + 1)
  exact this fuel 0

/-- **C142 (refuted).** The points leave the range: a convex function flat but for the last of the 80 steps gets its second
point at step 81. -/
theorem leaves_range : Jumps (fun n => max 0 ((n : ℚ) - 79)) (1 / 3) 0 [80, 81] ∧
    ∃ fuel, sample (fun n => max 0 ((n : ℚ) - 79)) (1 / 3) fuel (toTake 4) (max 0 (((0 : ℕ) : ℚ) - 79)) 0 = some [80, 81] := by
  have hj : Jumps (fun n => max 0 ((n : ℚ) - 79)) (1 / 3) 0 [80, 81] := by
    refine ⟨by omega, by norm_num, ?_, by omega, by norm_num, ?_, trivial⟩
    · intro k _ h2
      have : (k : ℚ) ≤ 79 := by exact_mod_cast (by omega : k ≤ 79)
      have e : max (0 : ℚ) ((k : ℚ) - 79) = 0 := max_eq_left (by linarith)
      simp only [e]
      norm_num
    · intro k h1 h2
      omega
  exact ⟨hj, (sample_exact _ _ 4 _).2 ⟨rfl, hj⟩⟩

/-- **C142 (refuted).** Equal values at both ends make the threshold 0, and the points are the first steps: for `x²` on
`[-1, 1]` with 5 points (100 steps) they are the steps 1, 2 and 3. -/
theorem clustered : sample (fun n => (-1 + (n : ℚ) / 50) * (-1 + (n : ℚ) / 50)) (|1 - 1| / 4) 3 (toTake 5) 1 0 = some [1, 2, 3] := by
  decide +kernel

example : sample (fun n => (n : ℚ)) (100 / 4) 100 (toTake 5) 0 0 = some [25, 50, 75] := by decide +kernel

end Verif.Sepa

import Verif.Heur.DiveProps
import Mathlib.Data.List.Induction

/-!
# C34: the selection rules of the dives
-/
namespace Verif.Heur

/-! ### Specification -/

/-- The value to which the column is rounded. -/
def roundTo (x : Nat → ℚ) (i : Nat) : Bool → ℚ
  | true => (⌈x i⌉ : ℚ)
  | false => (⌊x i⌋ : ℚ)

/-- The rounded value is within the bounds. -/
def Allowed (b : Bnds) (x : Nat → ℚ) (i : Nat) : Bool → Prop
  | true => (⌈x i⌉ : ℚ) ≤ b.up i
  | false => b.lo i ≤ (⌊x i⌋ : ℚ)

/-- Distance to the rounded value. -/
def gap (x : Nat → ℚ) (i : Nat) (up : Bool) : ℚ := |roundTo x i up - x i|

/-! ### Lemmas -/

theorem gap_true (x : Nat → ℚ) (i : Nat) : gap x i true = ⌈x i⌉ - x i := by
  rw [gap, roundTo, abs_of_nonneg]; have := Int.le_ceil (x i); linarith

theorem gap_false (x : Nat → ℚ) (i : Nat) : gap x i false = x i - ⌊x i⌋ := by
  rw [gap, roundTo, abs_sub_comm, abs_of_nonneg]; have := Int.floor_le (x i); linarith

theorem gap_lt (x : Nat → ℚ) (i : Nat) (up : Bool) : gap x i up < 1 := by
  cases up
  · rw [gap_false]; have := Int.lt_floor_add_one (x i); linarith
  · rw [gap_true]; have := Int.ceil_lt_add_one (x i); linarith

/-- The step common to the two rules. -/
def stepC (cand : Nat → Bool) (s : Nat → ℚ) (u : Nat → Bool) (c : Cur) (i : Nat) : Cur := if cand i then c.offer (s i) i (u i) else c

theorem stepC_keep (cand : Nat → Bool) (s : Nat → ℚ) (u : Nat → Bool) : ∀ (l : List Nat) (c : Cur), (∀ i ∈ l, cand i = true → c.score ≤ s i) →
    l.foldl (stepC cand s u) c = c
  | [], _, _ => rfl
  | i :: l, c, h => by
    have e : stepC cand s u c i = c := by
      unfold stepC Cur.offer
      split_ifs with h1 h2
      · exact absurd h2 (not_lt.2 (h i (by simp) h1))
      · rfl
      · rfl
    rw [List.foldl_cons, e]
    exact stepC_keep cand s u l c fun j hj => h j (by simp [hj])

theorem stepC_lt (cand : Nat → Bool) (s : Nat → ℚ) (u : Nat → Bool) (v : ℚ) : ∀ (l : List Nat) (c : Cur), v < c.score → (∀ i ∈ l, cand i = true → v < s i) →
    v < (l.foldl (stepC cand s u) c).score
  | [], _, h, _ => h
  | i :: l, c, hc, h => by
    rw [List.foldl_cons]
    refine stepC_lt cand s u v l _ ?_ fun j hj => h j (by simp [hj])
    unfold stepC Cur.offer
    split_ifs with h1 h2
    · exact h i (by simp) h1
    · exact hc
    · exact hc

/-- First column with the least score. -/
def FirstBest (cand : Nat → Bool) (s : Nat → ℚ) (top : ℚ) (l : List Nat) (j : Nat) : Prop :=
  ∃ pre post, l = pre ++ j :: post ∧ cand j = true ∧ s j < top ∧ (∀ i ∈ pre, cand i = true → s j < s i) ∧ ∀ i ∈ post, cand i = true → s j ≤ s i

theorem stepC_first (cand : Nat → Bool) (s : Nat → ℚ) (u : Nat → Bool) (l : List Nat) (c : Cur) (j : Nat) (h : FirstBest cand s c.score l j) :
    l.foldl (stepC cand s u) c = ⟨s j, some (j, u j)⟩ := by
  obtain ⟨pre, post, rfl, hj, ht, h1, h2⟩ := h
  rw [List.foldl_append, List.foldl_cons]
  have := stepC_lt cand s u (s j) pre c ht h1
  have e : stepC cand s u (pre.foldl (stepC cand s u) c) j = ⟨s j, some (j, u j)⟩ := by
    generalize pre.foldl (stepC cand s u) c = c' at this ⊢
    unfold stepC Cur.offer
    rw [if_pos hj, if_pos this]
  rw [e]
  exact stepC_keep cand s u post _ h2

theorem stepC_cases (cand : Nat → Bool) (s : Nat → ℚ) : ∀ (l : List Nat) (top : ℚ),
    (∀ i ∈ l, cand i = true → top ≤ s i) ∨ ∃ j, FirstBest cand s top l j
  | [], _ => by simp
  | i :: l, top => by
    by_cases h : cand i = true ∧ s i < top
    · right
      rcases stepC_cases cand s l (s i) with h' | ⟨j, pre, post, rfl, hj, ht, h1, h2⟩
      · exact ⟨i, [], l, rfl, h.1, h.2, by simp, h'⟩
      · refine ⟨j, i :: pre, post, rfl, hj, lt_trans ht h.2, ?_, h2⟩
        intro k hk hc
        rcases List.mem_cons.1 hk with rfl | hk
        · exact ht
        · exact h1 k hk hc
    · have hi : cand i = true → top ≤ s i := fun hc => not_lt.1 fun hl => h ⟨hc, hl⟩
      rcases stepC_cases cand s l top with h' | ⟨j, pre, post, rfl, hj, ht, h1, h2⟩
      · left
        intro k hk hc
        rcases List.mem_cons.1 hk with rfl | hk
        · exact hi hc
        · exact h' k hk hc
      · refine Or.inr ⟨j, i :: pre, post, rfl, hj, ht, ?_, h2⟩
        intro k hk hc
        rcases List.mem_cons.1 hk with rfl | hk
        · exact lt_of_lt_of_le ht (hi hc)
        · exact h1 k hk hc

theorem stepC_none (cand : Nat → Bool) (s : Nat → ℚ) (u : Nat → Bool) (l : List Nat) (top : ℚ) :
    (l.foldl (stepC cand s u) ⟨top, none⟩).pick = none ↔ ∀ i ∈ l, cand i = true → top ≤ s i := by
  constructor
  · intro h
    rcases stepC_cases cand s l top with h' | ⟨j, hj⟩
    · exact h'
    · rw [stepC_first cand s u l ⟨top, none⟩ j hj] at h; cases h
  · intro h
    rw [stepC_keep cand s u l ⟨top, none⟩ h]

theorem stepC_some (cand : Nat → Bool) (s : Nat → ℚ) (u : Nat → Bool) (l : List Nat) (top : ℚ) (j : Nat) (d : Bool) :
    (l.foldl (stepC cand s u) ⟨top, none⟩).pick = some (j, d) ↔ FirstBest cand s top l j ∧ d = u j := by
  constructor
  · intro h
    rcases stepC_cases cand s l top with h' | ⟨k, hk⟩
    · rw [stepC_keep cand s u l ⟨top, none⟩ h'] at h; cases h
    · rw [stepC_first cand s u l ⟨top, none⟩ k hk] at h
      simp only [Option.some.injEq, Prod.mk.injEq] at h
      obtain ⟨rfl, rfl⟩ := h
      exact ⟨hk, rfl⟩
  · rintro ⟨h, rfl⟩
    rw [stepC_first cand s u l ⟨top, none⟩ j h]

theorem down_allowed (dmax : ℚ) (b : Bnds) (x : Nat → ℚ) (i : Nat) (h : Allowed b x i false) : downFrac dmax b x i = gap x i false := by
  rw [gap_false]; exact if_pos h
theorem down_not (dmax : ℚ) (b : Bnds) (x : Nat → ℚ) (i : Nat) (h : ¬ Allowed b x i false) : downFrac dmax b x i = dmax := if_neg h
theorem up_allowed (dmax : ℚ) (b : Bnds) (x : Nat → ℚ) (i : Nat) (h : Allowed b x i true) : upFrac dmax b x i = gap x i true := by
  rw [gap_true]; exact if_pos h
theorem up_not (dmax : ℚ) (b : Bnds) (x : Nat → ℚ) (i : Nat) (h : ¬ Allowed b x i true) : upFrac dmax b x i = dmax := if_neg h

theorem up_lt_iff (dmax : ℚ) (hd : 1 ≤ dmax) (b : Bnds) (x : Nat → ℚ) (i : Nat) : upFrac dmax b x i < dmax ↔ Allowed b x i true := by
  by_cases h : Allowed b x i true
  · rw [up_allowed dmax b x i h]; exact ⟨fun _ => h, fun _ => lt_of_lt_of_le (gap_lt x i true) hd⟩
  · rw [up_not dmax b x i h]; exact ⟨fun h' => absurd h' (lt_irrefl _), fun h' => absurd h' h⟩

theorem down_lt_iff (dmax : ℚ) (hd : 1 ≤ dmax) (b : Bnds) (x : Nat → ℚ) (i : Nat) : downFrac dmax b x i < dmax ↔ Allowed b x i false := by
  by_cases h : Allowed b x i false
  · rw [down_allowed dmax b x i h]; exact ⟨fun _ => h, fun _ => lt_of_lt_of_le (gap_lt x i false) hd⟩
  · rw [down_not dmax b x i h]; exact ⟨fun h' => absurd h' (lt_irrefl _), fun h' => absurd h' h⟩

/-- The direction for one column: allowed, nearest among the allowed ones, and the coin when both are as near. -/
def Nearest (coin : Nat → Bool) (b : Bnds) (x : Nat → ℚ) (i : Nat) (up : Bool) : Prop :=
  Allowed b x i up ∧ (Allowed b x i (!up) → gap x i up < gap x i (!up) ∨ gap x i up = gap x i (!up) ∧ coin i = !up)

theorem fracPick_spec (dmax : ℚ) (hd : 1 ≤ dmax) (coin : Nat → Bool) (b : Bnds) (x : Nat → ℚ) (i : Nat) :
    (∀ up, Nearest coin b x i up → fracPick dmax coin b x i = (gap x i up, up)) ∧
    ((∃ up, Allowed b x i up) → ∃ up, Nearest coin b x i up) ∧
    ((∀ up, ¬ Allowed b x i up) → (fracPick dmax coin b x i).1 = dmax) := by
  have g1 := lt_of_lt_of_le (gap_lt x i true) hd
  have g2 := lt_of_lt_of_le (gap_lt x i false) hd
  unfold fracPick Nearest
  by_cases hu : Allowed b x i true <;> by_cases hl : Allowed b x i false
  · rw [up_allowed dmax b x i hu, down_allowed dmax b x i hl]
    refine ⟨?_, ?_, fun h => absurd hu (h true)⟩
    · rintro (_ | _) ⟨_, h2⟩
      · rcases h2 hu with h | ⟨h, hc⟩
        · exact if_pos h
        · simp only [Bool.not_false] at h hc
          rw [if_neg (by linarith), if_neg (by linarith), if_pos hc]
      · rcases h2 hl with h | ⟨h, hc⟩
        · simp only [Bool.not_true] at h
          rw [if_neg (by linarith), if_pos h]
        · simp only [Bool.not_true] at h hc
          rw [if_neg (by linarith), if_neg (by linarith), hc]; simp
    · intro _
      rcases lt_trichotomy (gap x i false) (gap x i true) with h | h | h
      · exact ⟨false, hl, fun _ => Or.inl h⟩
      · cases hc : coin i
        · exact ⟨true, hu, fun _ => Or.inr ⟨h.symm, rfl⟩⟩
        · exact ⟨false, hl, fun _ => Or.inr ⟨h, rfl⟩⟩
      · exact ⟨true, hu, fun _ => Or.inl h⟩
  · rw [up_allowed dmax b x i hu, down_not dmax b x i hl]
    refine ⟨?_, fun _ => ⟨true, hu, fun h => absurd h hl⟩, fun h => absurd hu (h true)⟩
    rintro (_ | _) ⟨h1, _⟩
    · exact absurd h1 hl
    · rw [if_neg (by linarith), if_pos g1]
  · rw [up_not dmax b x i hu, down_allowed dmax b x i hl]
    refine ⟨?_, fun _ => ⟨false, hl, fun h => absurd h hu⟩, fun h => absurd hl (h false)⟩
    rintro (_ | _) ⟨h1, _⟩
    · rw [if_pos g2]
    · exact absurd h1 hu
  · rw [up_not dmax b x i hu, down_not dmax b x i hl]
    refine ⟨?_, ?_, ?_⟩
    · rintro (_ | _) ⟨h1, _⟩
      · exact absurd h1 hl
      · exact absurd h1 hu
    · rintro ⟨_ | _, h⟩
      · exact absurd h hl
      · exact absurd h hu
    · intro _
      simp only [lt_irrefl, if_false]
      split_ifs <;> rfl

theorem nearest_min (coin : Nat → Bool) (b : Bnds) (x : Nat → ℚ) (i : Nat) (up d : Bool) (h : Nearest coin b x i up) (hd : Allowed b x i d) : gap x i up ≤ gap x i d := by
  by_cases e : d = up
  · rw [e]
  · have : d = !up := by cases d <;> cases up <;> simp_all
    rw [this] at hd ⊢
    rcases h.2 hd with h | h
    · exact le_of_lt h
    · exact le_of_eq h.1

theorem selFractional_eq (dmax tol : ℚ) (coin : Nat → Bool) (cols : List Nat) (b : Bnds) (x : Nat → ℚ) :
    selFractional dmax tol coin cols b x =
      (cols.foldl (stepC (fun i => isFrac tol (x i)) (fun i => (fracPick dmax coin b x i).1) (fun i => (fracPick dmax coin b x i).2)) ⟨dmax, none⟩).pick := rfl

/-! ### Properties: fractional dive -/

/-- **C34**: the rule of the fractional dive gives up exactly when no fractional integer column can be rounded within its bounds. -/
theorem selFractional_none (dmax tol : ℚ) (hd : 1 ≤ dmax) (coin : Nat → Bool) (cols : List Nat) (b : Bnds) (x : Nat → ℚ) :
    selFractional dmax tol coin cols b x = none ↔ ∀ i ∈ cols, (∀ z : ℤ, tol < |(z : ℚ) - x i|) → ∀ up, ¬ Allowed b x i up := by
  rw [selFractional_eq, stepC_none]
  refine forall₂_congr fun i _ => ?_
  rw [isFrac_iff]
  refine imp_congr_right fun _ => ?_
  obtain ⟨h1, h2, h3⟩ := fracPick_spec dmax hd coin b x i
  constructor
  · intro h up hu
    obtain ⟨d, hn⟩ := h2 ⟨up, hu⟩
    rw [h1 d hn] at h
    have := gap_lt x i d
    simp only at h
    linarith
  · intro h; exact ge_of_eq (h3 h)

/-- **C34**: otherwise the column selected is a fractional one of the list, rounded to the nearest allowed side (coin on a tie), and it is the first one whose distance
to an allowed rounding is least.  The description determines the answer. -/
theorem selFractional_some (dmax tol : ℚ) (hd : 1 ≤ dmax) (coin : Nat → Bool) (cols : List Nat) (b : Bnds) (x : Nat → ℚ) (j : Nat) (up : Bool) :
    selFractional dmax tol coin cols b x = some (j, up) ↔ (∀ z : ℤ, tol < |(z : ℚ) - x j|) ∧ Nearest coin b x j up ∧
      ∃ pre post, cols = pre ++ j :: post ∧ (∀ i ∈ pre, (∀ z : ℤ, tol < |(z : ℚ) - x i|) → ∀ d, Allowed b x i d → gap x j up < gap x i d) ∧
        ∀ i ∈ post, (∀ z : ℤ, tol < |(z : ℚ) - x i|) → ∀ d, Allowed b x i d → gap x j up ≤ gap x i d := by
  rw [selFractional_eq, stepC_some]
  have key : ∀ i, (∃ d, Allowed b x i d) ∨ ∀ d, ¬ Allowed b x i d := fun i => by
    rw [← not_exists]; exact em _
  have hscore : ∀ i v, v < 1 → (v < (fracPick dmax coin b x i).1 ↔ ∀ d, Allowed b x i d → v < gap x i d) := by
    intro i v hv
    obtain ⟨h1, h2, h3⟩ := fracPick_spec dmax hd coin b x i
    rcases key i with h | h
    · obtain ⟨d, hn⟩ := h2 h
      rw [h1 d hn]
      exact ⟨fun hv d' hd' => lt_of_lt_of_le hv (nearest_min coin b x i d d' hn hd'), fun h => h d hn.1⟩
    · rw [h3 h]
      exact ⟨fun _ d hd' => absurd hd' (h d), fun _ => lt_of_lt_of_le hv hd⟩
  have hscore' : ∀ i v, v < 1 → (v ≤ (fracPick dmax coin b x i).1 ↔ ∀ d, Allowed b x i d → v ≤ gap x i d) := by
    intro i v hv
    obtain ⟨h1, h2, h3⟩ := fracPick_spec dmax hd coin b x i
    rcases key i with h | h
    · obtain ⟨d, hn⟩ := h2 h
      rw [h1 d hn]
      exact ⟨fun hv d' hd' => le_trans hv (nearest_min coin b x i d d' hn hd'), fun h => h d hn.1⟩
    · rw [h3 h]
      exact ⟨fun _ d hd' => absurd hd' (h d), fun _ => le_of_lt (lt_of_lt_of_le hv hd)⟩
  obtain ⟨h1, h2, h3⟩ := fracPick_spec dmax hd coin b x j
  constructor
  · rintro ⟨⟨pre, post, e, hj, ht, hp, hq⟩, hu⟩
    have hall : ∃ d, Allowed b x j d := by
      rcases key j with h | h
      · exact h
      · simp only [h3 h] at ht; exact absurd ht (lt_irrefl _)
    obtain ⟨d, hn⟩ := h2 hall
    have e1 := h1 d hn
    simp only [e1] at hp hq ht hu
    subst hu
    refine ⟨(isFrac_iff _ _).1 hj, hn, pre, post, e, ?_, ?_⟩
    · intro i hi hf
      exact (hscore i _ (gap_lt x j up)).1 (hp i hi ((isFrac_iff _ _).2 hf))
    · intro i hi hf
      exact (hscore' i _ (gap_lt x j up)).1 (hq i hi ((isFrac_iff _ _).2 hf))
  · rintro ⟨hj, hn, pre, post, e, hp, hq⟩
    have e1 := h1 up hn
    refine ⟨⟨pre, post, e, (isFrac_iff _ _).2 hj, ?_, ?_, ?_⟩, ?_⟩
    · simp only [e1]; exact lt_of_lt_of_le (gap_lt x j up) hd
    · intro i hi hf
      simp only [e1]
      exact (hscore i _ (gap_lt x j up)).2 (hp i hi ((isFrac_iff _ _).1 hf))
    · intro i hi hf
      simp only [e1]
      exact (hscore' i _ (gap_lt x j up)).2 (hq i hi ((isFrac_iff _ _).1 hf))
    · simp only [e1]

/-- **C33, C34**: the fractional dive (any solver that respects the bounds given, any coins) ends, with at most three solves per unit of integer width, and returns only
points that respect the original bounds, are integral and better than the incumbent. -/
theorem dive_fractional (dbg : Bool) (p : Prob) (dmax : ℚ) (coins : Nat → Nat → Bool) (d : Dive) (ht : 0 ≤ d.tol) (hd : 1 ≤ dmax)
    (hsel : ∀ k b x, d.sel k b x = selFractional dmax d.tol (coins k) (intCols p) b x) (hr : Respects p d.solve) (b0 : Bnds) (x0 g0 : Nat → ℚ)
    (hx : InBox p.n b0 x0) (fuel : Nat) (hf : width p b0 ≤ fuel) :
    dive dbg p d fuel b0 x0 g0 ≠ .running ∧
    ∀ k x v, dive dbg p d fuel b0 x0 g0 = .found k x v → InBox p.n b0 x ∧ Integral p d.tol x ∧ v = p.f x ∧ v < d.inc ∧ k ≤ 3 * width p b0 := by
  have hs : Selects p d := by
    intro k b x j up h
    rw [hsel, selFractional_some _ _ hd] at h
    obtain ⟨h1, _, pre, post, e, _⟩ := h
    have hm : j ∈ intCols p := by rw [e]; simp
    exact ⟨((mem_intCols p j).1 hm).1, ((mem_intCols p j).1 hm).2, (isFrac_iff _ _).2 h1⟩
  obtain ⟨a1, _, a3⟩ := dive_partial dbg p d ht hr hs b0 x0 g0 hx fuel hf
  refine ⟨a1, fun k x v h => ?_⟩
  obtain ⟨s1, _, s3, s4, _⟩ := dive_sound dbg p d fuel b0 x0 g0 k x v h
  exact ⟨(a3 k x v h).1, s1, s3, s4, (a3 k x v h).2⟩

/-! ### Properties: vector length dive -/

/-- Length of the last contiguous run of `c`. -/
def lastRun (c : Nat) (l : List Nat) : Nat := ((l.reverse.dropWhile (· != c)).takeWhile (· == c)).length

theorem colLengths_append (l : List Nat) (c : Nat) : ∀ (ini : Option Nat) (len : Nat → Option Nat),
    colLengths (l ++ [c]) ini len = fun j => if j = c then (if (l.getLast?.or ini) = some c then (colLengths l ini len c).map (· + 1) else some 1) else colLengths l ini len j := by
  induction l with
  | nil =>
    intro ini len
    funext j
    by_cases h : ini = some c <;> by_cases hj : j = c <;> simp [colLengths, h, hj]
  | cons a l ih =>
    intro ini len
    have hl : ∀ o : Option Nat, ((a :: l).getLast?.or o) = l.getLast?.or (some a) := by
      intro o
      cases l with
      | nil => simp
      | cons b l =>
        rw [List.getLast?_cons_cons, List.getLast?_eq_some_getLast (by simp : b :: l ≠ [])]
        simp
    rw [hl, List.cons_append]
    simp only [colLengths]
    by_cases h : ini = some a
    · simp only [if_pos h]
      rw [ih, h]
    · simp only [if_neg h]
      rw [ih]

/-- **C34**: the length recorded for a column is that of the last contiguous run of its entries; columns without entries keep what the array contained. -/
theorem colLengths_lastRun (l : List Nat) (len : Nat → Option Nat) (c : Nat) :
    colLengths l none len c = if c ∈ l then some (lastRun c l) else len c := by
  induction l using List.reverseRecOn with
  | nil => simp [colLengths]
  | append_singleton l a ih =>
    rw [colLengths_append]
    simp only [Option.or_none]
    by_cases hc : c = a
    · subst hc
      rw [if_pos rfl, if_pos (by simp : c ∈ l ++ [c])]
      have e : lastRun c (l ++ [c]) = (l.reverse.takeWhile (· == c)).length + 1 := by
        simp [lastRun]
      rw [e]
      split_ifs with h
      · have hm : c ∈ l := List.mem_of_getLast? h
        rw [ih, if_pos hm]
        simp only [Option.map_some, Option.some.injEq, lastRun, Nat.add_right_cancel_iff]
        rw [← List.head?_reverse] at h
        cases hr : l.reverse with
        | nil => rw [hr] at h; cases h
        | cons b t =>
          rw [hr] at h
          simp only [List.head?_cons, Option.some.injEq] at h
          subst h
          simp
      · rw [← List.head?_reverse] at h
        cases hr : l.reverse with
        | nil => simp
        | cons b t =>
          rw [hr] at h
          simp only [List.head?_cons, Option.some.injEq] at h
          simp [h]
    · rw [if_neg hc, ih]
      have hm : (c ∈ l ++ [a]) = (c ∈ l) := by simp [hc]
      have e : lastRun c (l ++ [a]) = lastRun c l := by
        simp only [lastRun, List.reverse_append, List.reverse_singleton, List.singleton_append]
        rw [List.dropWhile_cons_of_pos (by simpa using fun h => hc h.symm)]
      simp only [hm, e]

/-- **C34**: with the entries of each column together, it is the number of entries of the column. -/
theorem colLengths_grouped_partial (a b : List Nat) (k c : Nat) (hk : 0 < k) (ha : c ∉ a) (hb : c ∉ b) (len : Nat → Option Nat) :
    colLengths (a ++ List.replicate k c ++ b) none len c = some k ∧ (a ++ List.replicate k c ++ b).count c = k := by
  constructor
  · rw [colLengths_lastRun, if_pos (by simp; omega)]
    simp only [lastRun, List.reverse_append, List.reverse_replicate, List.append_assoc]
    have hd : (b.reverse ++ (List.replicate k c ++ a.reverse)).dropWhile (· != c) = List.replicate k c ++ a.reverse := by
      rw [List.dropWhile_append_of_pos (by intro x hx; simp; rintro rfl; exact hb (by simpa using hx))]
      obtain ⟨k, rfl⟩ := Nat.exists_eq_succ_of_ne_zero (by omega : k ≠ 0)
      rw [List.replicate_succ, List.cons_append, List.dropWhile_cons_of_neg (by simp)]
    rw [hd, List.takeWhile_append_of_pos (by intro x hx; simp [List.eq_of_mem_replicate hx])]
    have : a.reverse.takeWhile (· == c) = [] := by
      cases hr : a.reverse with
      | nil => rfl
      | cons y t =>
        have hy : y ∈ a := by rw [← List.mem_reverse, hr]; simp
        rw [List.takeWhile_cons_of_neg]
        simp; rintro rfl; exact ha hy
    simp [this]
  · simp [List.count_eq_zero_of_not_mem ha, List.count_eq_zero_of_not_mem hb]

/-- **C34** refuted in general: with the Jacobian stored by rows the number recorded is not the number of entries, and a column without entries is read uninitialised. -/
theorem colLengths_by_rows : colLengths [0, 1, 0] none (fun _ => none) 0 = some 1 ∧ [0, 1, 0].count 0 = 2 ∧ colLengths [0, 1, 0] none (fun _ => none) 2 = none := by
  decide +kernel

/-- Direction in the vector length rule: against the gradient's sign when that side is allowed, else the other side. -/
def VlDir (gr : Nat → ℚ) (b : Bnds) (x : Nat → ℚ) (i : Nat) (up : Bool) : Prop :=
  up = true ↔ Allowed b x i true ∧ (0 ≤ gr i ∨ ¬ Allowed b x i false)

/-- Score of a column: estimated change of the objective over the number of rows. -/
def vlSpec (dmax : ℚ) (gr : Nat → ℚ) (len : Nat) (b : Bnds) (x : Nat → ℚ) (i : Nat) (up : Bool) (s : ℚ) : Prop :=
  (Allowed b x i up → s = (gr i * gap x i up + 1 / 10 ^ 6) / (len + 1)) ∧ (¬ Allowed b x i up → s = (gr i * dmax + 1 / 10 ^ 6) / (len + 1))

open Classical in
theorem vlPick_spec (dmax : ℚ) (hd : 1 ≤ dmax) (gr : Nat → ℚ) (len : Nat) (b : Bnds) (x : Nat → ℚ) (i : Nat) :
    VlDir gr b x i (vlPick dmax gr b x i).2 ∧ vlSpec dmax gr len b x i (vlPick dmax gr b x i).2 (vlScore dmax gr len b x i) := by
  have hp : vlPick dmax gr b x i = if 0 ≤ gr i ∧ Allowed b x i true then (gr i * upFrac dmax b x i, true)
      else if ¬ 0 ≤ gr i ∧ Allowed b x i false then (gr i * downFrac dmax b x i, false)
      else if Allowed b x i true then (gr i * upFrac dmax b x i, true)
      else (gr i * downFrac dmax b x i, false) := by
    unfold vlPick
    simp only [up_lt_iff dmax hd, down_lt_iff dmax hd, not_le]
  unfold vlScore vlSpec VlDir
  rw [hp]
  by_cases hu : Allowed b x i true <;> by_cases hl : Allowed b x i false <;> by_cases hg : 0 ≤ gr i <;>
    simp [hu, hl, hg, up_allowed, down_allowed, down_not]

theorem selVectorLength_eq (dmax tol : ℚ) (gr : Nat → ℚ) (len : Nat → Option Nat) (lv : Nat → Nat) (b : Bnds) (x : Nat → ℚ) : ∀ (cols : List Nat) (c : Cur),
    (∀ i ∈ cols, isFrac tol (x i) = true → len i = some (lv i)) →
    selVectorLength dmax tol gr len b x cols c =
      some ((cols.foldl (stepC (fun i => isFrac tol (x i)) (fun i => vlScore dmax gr (lv i) b x i) (fun i => (vlPick dmax gr b x i).2)) c).pick)
  | [], c, _ => rfl
  | i :: is, c, h => by
    rw [selVectorLength, List.foldl_cons, stepC]
    have ih := fun c => selVectorLength_eq dmax tol gr len lv b x is c fun j hj => h j (by simp [hj])
    split_ifs with hf
    · rw [h i (by simp) hf, Option.bind_some, ih]
    · rw [ih]

/-- **C34**: exact description of the vector length rule (lengths `lv` recorded for all fractional columns): the first fractional column with the least score, provided
the score is below `COIN_DBL_MAX`, in its direction. -/
theorem selVectorLength_some (dmax tol : ℚ) (hd : 1 ≤ dmax) (gr : Nat → ℚ) (len : Nat → Option Nat) (lv : Nat → Nat) (sc : Nat → ℚ) (dir : Nat → Bool) (b : Bnds)
    (x : Nat → ℚ) (cols : List Nat) (hlen : ∀ i ∈ cols, (∀ z : ℤ, tol < |(z : ℚ) - x i|) → len i = some (lv i))
    (hdir : ∀ i ∈ cols, VlDir gr b x i (dir i)) (hsc : ∀ i ∈ cols, vlSpec dmax gr (lv i) b x i (dir i) (sc i)) (j : Nat) (up : Bool) :
    selVectorLength dmax tol gr len b x cols ⟨dmax, none⟩ = some (some (j, up)) ↔
      (∀ z : ℤ, tol < |(z : ℚ) - x j|) ∧ sc j < dmax ∧ up = dir j ∧
        ∃ pre post, cols = pre ++ j :: post ∧ (∀ i ∈ pre, (∀ z : ℤ, tol < |(z : ℚ) - x i|) → sc j < sc i) ∧
          ∀ i ∈ post, (∀ z : ℤ, tol < |(z : ℚ) - x i|) → sc j ≤ sc i := by
  have hpick : ∀ i ∈ cols, (vlPick dmax gr b x i).2 = dir i := by
    intro i hi
    have h1 := (vlPick_spec dmax hd gr 0 b x i).1
    have h2 := hdir i hi
    unfold VlDir at h1 h2
    rw [Bool.eq_iff_iff, h1, h2]
  have hs : ∀ i ∈ cols, vlScore dmax gr (lv i) b x i = sc i := by
    intro i hi
    have h1 := (vlPick_spec dmax hd gr (lv i) b x i).2
    rw [hpick i hi] at h1
    have h2 := hsc i hi
    by_cases ha : Allowed b x i (dir i)
    · rw [h1.1 ha, h2.1 ha]
    · rw [h1.2 ha, h2.2 ha]
  rw [selVectorLength_eq dmax tol gr len lv b x cols _ fun i hi hf => hlen i hi ((isFrac_iff _ _).1 hf), Option.some.injEq, stepC_some]
  constructor
  · rintro ⟨⟨pre, post, rfl, hj, ht, hp, hq⟩, hu⟩
    simp only [hs j (by simp)] at ht
    beta_reduce at hp hq
    refine ⟨(isFrac_iff _ _).1 hj, ht, by rw [hu]; exact hpick j (by simp), pre, post, rfl, ?_, ?_⟩
    · intro i hi hf
      have := hp i hi ((isFrac_iff _ _).2 hf)
      rwa [hs j (by simp), hs i (by simp [hi])] at this
    · intro i hi hf
      have := hq i hi ((isFrac_iff _ _).2 hf)
      rwa [hs j (by simp), hs i (by simp [hi])] at this
  · rintro ⟨hj, ht, rfl, pre, post, rfl, hp, hq⟩
    refine ⟨⟨pre, post, rfl, (isFrac_iff _ _).2 hj, ?_, ?_, ?_⟩, (hpick j (by simp)).symm⟩ <;> beta_reduce
    · rw [hs j (by simp)]; exact ht
    · intro i hi hf
      rw [hs j (by simp), hs i (by simp [hi])]; exact hp i hi ((isFrac_iff _ _).1 hf)
    · intro i hi hf
      rw [hs j (by simp), hs i (by simp [hi])]; exact hq i hi ((isFrac_iff _ _).1 hf)

/-- **C34**: the rounding chosen by the vector length rule is within the bounds whenever the column has one that is. -/
theorem selVectorLength_allowed_partial (gr : Nat → ℚ) (b : Bnds) (x : Nat → ℚ) (i : Nat) (up : Bool) (h : VlDir gr b x i up)
    (ha : Allowed b x i true ∨ Allowed b x i false) : Allowed b x i up := by
  cases up
  · by_contra hl
    have hu := ha.resolve_right hl
    exact absurd (h.2 ⟨hu, Or.inr hl⟩) (by simp)
  · exact (h.1 rfl).1

/-- **C34** refuted for the vector length rule: a column with no allowed rounding is selected nevertheless (and rounded down below its lower bound), although another
fractional column can be rounded. -/
theorem selVectorLength_out_of_bounds :
    selVectorLength (10 ^ 300) (1 / 10 ^ 6) (fun i => if i = 0 then -1 else 1) (fun _ => some 1) ⟨fun i => if i = 0 then 1 / 4 else 0, fun i => if i = 0 then 3 / 4 else 1⟩
      (fun _ => 1 / 2) [0, 1] ⟨10 ^ 300, none⟩ = some (some (0, false)) ∧
    ¬ Allowed ⟨fun i => if i = 0 then 1 / 4 else 0, fun i => if i = 0 then 3 / 4 else 1⟩ (fun _ => 1 / 2) 0 false ∧
    Allowed ⟨fun i => if i = 0 then 1 / 4 else 0, fun i => if i = 0 then 3 / 4 else 1⟩ (fun _ => 1 / 2) 1 true := by
  refine ⟨by decide +kernel, ?_, ?_⟩
  · simp only [Allowed]; norm_num
  · simp only [Allowed]; norm_num

/-! ### non-trivial instances -/

example : selFractional (10 ^ 300) (1 / 10 ^ 6) (fun _ => true) [0, 1, 2] ⟨fun _ => 0, fun i => if i = 1 then 3 / 4 else 5⟩
    (fun i => if i = 0 then 1 / 2 else if i = 1 then 9 / 10 else 13 / 10) = some (2, false) := by decide +kernel

example : selFractional (10 ^ 300) (1 / 10 ^ 6) (fun _ => true) [0] ⟨fun _ => 1 / 4, fun _ => 3 / 4⟩ (fun _ => 1 / 2) = none := by decide +kernel

example : selVectorLength (10 ^ 300) (1 / 10 ^ 6) (fun i => if i = 0 then -1 else 1) (fun i => some (i + 1)) ⟨fun _ => 0, fun _ => 5⟩ (fun _ => 1 / 2) [0, 1] ⟨10 ^ 300, none⟩
    = some (some (0, false)) := by decide +kernel

end Verif.Heur

import Verif.Heur.PumpProps
import Mathlib.Data.List.Sort

/-!
# C35: the targets of the feasibility pump, and what it returns
-/
namespace Verif.Heur

/-! ### Specification -/

/-- A step of one unit from `old` towards `v`, not taken when it would leave the bounds. -/
def Stepped (pt lo up old v w : ℚ) : Prop :=
  (old < v → w = if old + 1 ≤ up + pt then old + 1 else old) ∧ (v ≤ old → w = if lo - pt ≤ old - 1 then old - 1 else old)

/-- Two targets agree on the columns, up to the tolerance. -/
def Agree (tol : ℚ) (cols : List Nat) (y o : Nat → ℚ) : Prop := ∀ c ∈ cols, |y c - o c| ≤ tol

/-! ### Lemmas -/

theorem moveVal_stepped (pt lo up old v : ℚ) (h : lo - pt ≤ old ∧ old ≤ up + pt) : Stepped pt lo up old v (moveVal pt lo up old v) := by
  unfold Stepped moveVal
  constructor
  · intro hv
    have hp : 0 < v - old := by linarith
    simp only [if_pos hp]
    rw [if_neg (by linarith)]
    by_cases h2 : old + 1 ≤ up + pt
    · rw [if_pos h2, if_neg (by linarith)]
    · rw [if_neg h2, if_pos (by linarith)]; ring
  · intro hv
    have hp : ¬ 0 < v - old := by linarith
    simp only [if_neg hp]
    by_cases h2 : lo - pt ≤ old - 1
    · rw [if_pos h2, if_neg (by linarith), if_neg (by linarith)]
    · rw [if_neg h2, if_pos (by linarith)]; ring

theorem moveVal_frac (tol pt lo up old v : ℚ) : isFrac tol (moveVal pt lo up old v) = isFrac tol old := by
  have h1 : isFrac tol (old + 1) = isFrac tol old := by simpa using isFrac_shift tol old 1
  have h2 : isFrac tol (old - 1) = isFrac tol old := by simpa [sub_eq_add_neg] using isFrac_shift tol old (-1)
  have h3 : isFrac tol (old + 1 + 1) = isFrac tol old := by
    have := isFrac_shift tol (old + 1) 1; push_cast at this; rw [this, h1]
  have h4 : isFrac tol (old - 1 - 1) = isFrac tol old := by
    have := isFrac_shift tol (old - 1) (-1); push_cast at this; rw [← sub_eq_add_neg] at this; rw [this, h2]
  unfold moveVal
  split_ifs <;> simp only [*, sub_add_cancel, add_sub_cancel_right]

theorem same_some (tol : ℚ) (cols : List Nat) (y o : Nat → ℚ) : same tol cols y (some o) = true ↔ Agree tol cols y o := by
  simp [same, Agree]

theorem stepped_wide (pt lo up old v w : ℚ) (h : lo - pt ≤ old ∧ old ≤ up + pt) (hs : Stepped pt lo up old v w) : lo - pt ≤ w ∧ w ≤ up + pt := by
  rcases lt_or_ge old v with hv | hv
  · rw [hs.1 hv]; split_ifs with h1 <;> constructor <;> linarith
  · rw [hs.2 hv]; split_ifs with h1 <;> constructor <;> linarith

/-- The first column of the sorted list has the largest score. -/
theorem sort_head (sort : (Nat → ℚ) → List Nat → List Nat) (hs : SortsDesc sort) (s : Nat → ℚ) (l : List Nat) (c : Nat) (t : List Nat) (h : sort s l = c :: t) :
    c ∈ l ∧ ∀ i ∈ l, s i ≤ s c := by
  obtain ⟨h1, h2⟩ := hs s l
  rw [h] at h1 h2
  refine ⟨h1.mem_iff.1 (by simp), fun i hi => ?_⟩
  rcases List.mem_cons.1 (h1.mem_iff.2 hi) with rfl | hm
  · exact le_refl _
  · exact (List.pairwise_cons.1 h2).1 i hm

/-! ### Properties: the target of an iteration -/

/-- **C35**: the first target, and any target whose rounding differs from the previous target, is the rounded point. -/
theorem target_round (dbg : Bool) (p : Prob) (d : Pump) (b : Bnds) (k : Nat) (x : Nat → ℚ) (old0 : Option (Nat → ℚ)) (olds : List (Option (Nat → ℚ))) (y : Nat → ℚ)
    (hy : roundPt dbg d.tol d.pt p.isInt b d.rows x = some y) (h : ∀ old, old0 = some old → ¬ Agree d.tol (intCols p) y old) :
    target dbg p d b k x old0 olds = some y := by
  unfold target
  rw [hy, Option.bind_some]
  cases old0 with
  | none => rfl
  | some old =>
    simp only
    rw [if_neg (by rw [same_some]; exact h old rfl)]

/-- **C35**: when the rounding agrees with the previous target, a column at largest distance of its previous value is stepped towards the solution of the NLP, unless
the distance is 0; if the result agrees with one of the three targets before, instead every column whose distance plus a random number exceeds 1/2 is stepped from its previous
value and the others keep it.  No assertion fails. -/
theorem target_flip (dbg : Bool) (p : Prob) (d : Pump) (hs : SortsDesc d.sort) (b : Bnds) (k : Nat) (x old : Nat → ℚ) (olds : List (Option (Nat → ℚ))) (y : Nat → ℚ)
    (hI : Integral p d.tol old) (hW : Wide d.pt b (intCols p) old) (hne : intCols p ≠ [])
    (hy : roundPt dbg d.tol d.pt p.isInt b d.rows x = some y) (h : Agree d.tol (intCols p) y old) :
    ∃ c z t, c ∈ intCols p ∧ (∀ i ∈ intCols p, |x i - old i| ≤ |x c - old c|) ∧ (∀ i, i ≠ c → z i = y i) ∧
      (x c = old c → z c = y c) ∧ (x c ≠ old c → Stepped d.pt (b.lo c) (b.up c) (old c) (x c) (z c)) ∧
      target dbg p d b k x (some old) olds = some t ∧
      ((∀ o, some o ∈ olds → ¬ Agree d.tol (intCols p) z o) → t = z) ∧
      ((∃ o, some o ∈ olds ∧ Agree d.tol (intCols p) z o) → ∀ i ∈ intCols p,
        (1 / 2 < |x i - old i| + max 0 (d.rnd k i - 3 / 10) → Stepped d.pt (b.lo i) (b.up i) (old i) (x i) (t i)) ∧
        (|x i - old i| + max 0 (d.rnd k i - 3 / 10) ≤ 1 / 2 → t i = old i)) := by
  have hfr : ∀ c ∈ intCols p, isFrac d.tol (moveVal d.pt (b.lo c) (b.up c) (old c) (x c)) = false := by
    intro c hc
    rw [moveVal_frac, not_isFrac_iff]
    exact hI c ((mem_intCols p c).1 hc).1 ((mem_intCols p c).1 hc).2
  cases hsort : d.sort (fun c => |x c - old c|) (intCols p) with
  | nil =>
    have := (hs (fun c => |x c - old c|) (intCols p)).1
    rw [hsort] at this
    exact absurd this.nil_eq.symm hne
  | cons c rest =>
    obtain ⟨hc, hmax⟩ := sort_head d.sort hs _ _ _ _ hsort
    have hone : ∃ z, flipOne dbg d b x old y (c :: rest) = some z ∧ (∀ i, i ≠ c → z i = y i) ∧ (x c = old c → z c = y c) ∧
        (x c ≠ old c → z c = moveVal d.pt (b.lo c) (b.up c) (old c) (x c)) := by
      unfold flipOne
      simp only
      rw [hfr c hc]
      simp only [Bool.and_false, Bool.false_eq_true, if_false]
      by_cases h0 : x c = old c
      · rw [if_neg (by rw [h0]; simp)]
        exact ⟨y, rfl, fun _ _ => rfl, fun _ => rfl, fun h => absurd h0 h⟩
      · rw [if_pos (abs_pos.2 (sub_ne_zero.2 h0))]
        exact ⟨_, rfl, fun i hi => by simp [hi], fun h => absurd h h0, fun _ => by simp⟩
    obtain ⟨z, hz, z1, z2, z3⟩ := hone
    have htar : target dbg p d b k x (some old) olds =
        if olds.any (same d.tol (intCols p) z) then perturb dbg d b (intCols p) x old k else some z := by
      unfold target
      rw [hy, Option.bind_some]
      simp only
      rw [if_pos ((same_some _ _ _ _).2 h), flipAll, hsort, hz, Option.bind_some]
    have hper : perturb dbg d b (intCols p) x old k = some fun c => perturbVal d b x old k c := by
      unfold perturb
      rw [if_neg]
      rw [Bool.and_eq_true, List.any_eq_true]
      rintro ⟨_, i, hi, hh⟩
      rw [hfr i hi] at hh
      simp at hh
    have hany : olds.any (same d.tol (intCols p) z) = true ↔ ∃ o, some o ∈ olds ∧ Agree d.tol (intCols p) z o := by
      rw [List.any_eq_true]
      constructor
      · rintro ⟨o, ho, hh⟩
        cases o with
        | none => simp [same, hne] at hh
        | some o => exact ⟨o, ho, (same_some _ _ _ _).1 hh⟩
      · rintro ⟨o, ho, hh⟩
        exact ⟨some o, ho, (same_some _ _ _ _).2 hh⟩
    have hst : x c ≠ old c → Stepped d.pt (b.lo c) (b.up c) (old c) (x c) (z c) := fun h => by
      rw [z3 h]; exact moveVal_stepped _ _ _ _ _ (hW c hc)
    by_cases hm : ∃ o, some o ∈ olds ∧ Agree d.tol (intCols p) z o
    · refine ⟨c, z, fun c => perturbVal d b x old k c, hc, hmax, z1, z2, hst, ?_, ?_, ?_⟩
      · rw [htar, if_pos (hany.2 hm), hper]
      · intro hh; obtain ⟨o, ho, ha⟩ := hm; exact absurd ha (hh o ho)
      · intro _ i hi
        constructor
        · intro hlt
          simp only [perturbVal]
          rw [if_pos hlt]
          exact moveVal_stepped _ _ _ _ _ (hW i hi)
        · intro hle
          simp only [perturbVal]
          rw [if_neg (not_lt.2 hle)]
    · refine ⟨c, z, z, hc, hmax, z1, z2, hst, ?_, fun _ => rfl, fun hh => absurd hh hm⟩
      rw [htar, if_neg (by rw [hany]; exact hm)]

/-! ### Properties: the whole pump -/

/-- Conditions under which targets stay within the bounds: integer columns have integers within their bounds and columns of sum-to-one rows may be 0 and 1. -/
def Sane (p : Prob) (d : Pump) (b : Bnds) : Prop :=
  (∀ c ∈ intCols p, ∃ z : ℤ, b.lo c - d.pt ≤ z ∧ (z : ℚ) ≤ b.up c + d.pt) ∧
  ∀ c ∈ intCols p, (∃ r ∈ d.rows, r.gl = 1 ∧ r.gu = 1 ∧ c ∈ r.cols) → b.lo c - d.pt ≤ 0 ∧ 1 ≤ b.up c + d.pt

theorem target_good (dbg : Bool) (p : Prob) (d : Pump) (ht : 0 ≤ d.tol) (hs : SortsDesc d.sort) (b : Bnds) (hS : Sane p d b) (k : Nat) (x : Nat → ℚ)
    (hx : Wide d.pt b (intCols p) x) (old0 : Option (Nat → ℚ)) (olds : List (Option (Nat → ℚ))) (hne : intCols p ≠ [])
    (ho : ∀ old, old0 = some old → Integral p d.tol old ∧ Wide d.pt b (intCols p) old) (t : Nat → ℚ)
    (h : target dbg p d b k x old0 olds = some t) : Integral p d.tol t ∧ Wide d.pt b (intCols p) t := by
  cases hy : roundPt dbg d.tol d.pt p.isInt b d.rows x with
  | none => unfold target at h; rw [hy] at h; cases h
  | some y =>
    have hyI : Integral p d.tol y := fun i _ hi => (roundPt_integral dbg d.tol d.pt ht p.isInt b d.rows x y hy i).1 hi
    have hyW : Wide d.pt b (intCols p) y := roundPt_box_partial dbg d.tol d.pt p.isInt b d.rows x y hy _ hx (fun c hc _ => hS.1 c hc) hS.2
    by_cases hA : ∃ old, old0 = some old ∧ Agree d.tol (intCols p) y old
    · obtain ⟨old, rfl, hA⟩ := hA
      obtain ⟨hoI, hoW⟩ := ho old rfl
      obtain ⟨c, z, t', hc, _, z1, z2, z3, ht', e1, e2⟩ := target_flip dbg p d hs b k x old olds y hoI hoW hne hy hA
      rw [h] at ht'
      cases ht'
      have hstI : ∀ i ∈ intCols p, ∀ w, Stepped d.pt (b.lo i) (b.up i) (old i) (x i) w → ∃ u : ℤ, |(u : ℚ) - w| ≤ d.tol := by
        intro i hi w hw
        obtain ⟨u, hu⟩ := hoI i ((mem_intCols p i).1 hi).1 ((mem_intCols p i).1 hi).2
        have h1 : |((u + 1 : ℤ) : ℚ) - (old i + 1)| ≤ d.tol := by push_cast; rwa [add_sub_add_right_eq_sub]
        have h2 : |((u - 1 : ℤ) : ℚ) - (old i - 1)| ≤ d.tol := by push_cast; rwa [sub_sub_sub_cancel_right]
        rcases lt_or_ge (old i) (x i) with hv | hv
        · rw [hw.1 hv]; split_ifs
          · exact ⟨_, h1⟩
          · exact ⟨_, hu⟩
        · rw [hw.2 hv]; split_ifs
          · exact ⟨_, h2⟩
          · exact ⟨_, hu⟩
      by_cases hm : ∃ o, some o ∈ olds ∧ Agree d.tol (intCols p) z o
      · constructor
        · intro i hi hiI
          have hmem := (mem_intCols p i).2 ⟨hi, hiI⟩
          obtain ⟨f1, f2⟩ := e2 hm i hmem
          rcases lt_or_ge (1 / 2) (|x i - old i| + max 0 (d.rnd k i - 3 / 10)) with hh | hh
          · exact hstI i hmem _ (f1 hh)
          · rw [f2 hh]; exact hoI i hi hiI
        · intro i hmem
          obtain ⟨f1, f2⟩ := e2 hm i hmem
          rcases lt_or_ge (1 / 2) (|x i - old i| + max 0 (d.rnd k i - 3 / 10)) with hh | hh
          · exact stepped_wide _ _ _ _ _ _ (hoW i hmem) (f1 hh)
          · rw [f2 hh]; exact hoW i hmem
      · have et : t = z := e1 (by push Not at hm; exact hm)
        rw [et]
        constructor
        · intro i hi hiI
          by_cases hic : i = c
          · subst hic
            by_cases hxo : x i = old i
            · rw [z2 hxo]; exact hyI i hi hiI
            · exact hstI i hc _ (z3 hxo)
          · rw [z1 i hic]; exact hyI i hi hiI
        · intro i hmem
          by_cases hic : i = c
          · subst hic
            by_cases hxo : x i = old i
            · rw [z2 hxo]; exact hyW i hmem
            · exact stepped_wide _ _ _ _ _ _ (hoW i hmem) (z3 hxo)
          · rw [z1 i hic]; exact hyW i hmem
    · have := target_round dbg p d b k x old0 olds y hy (fun old e ha => hA ⟨old, e, ha⟩)
      rw [this] at h
      cases h
      exact ⟨hyI, hyW⟩

theorem pumpLoop_spec (dbg : Bool) (p : Prob) (d : Pump) (ht : 0 ≤ d.tol) (hs : SortsDesc d.sort) (b : Bnds) (hS : Sane p d b)
    (hf : ∀ k y, Wide d.pt b (intCols p) (d.feas k y).1) : ∀ (rem : Nat) (x : Nat → ℚ) (old0 : Option (Nat → ℚ)) (olds : List (Option (Nat → ℚ))) (log : List (Nat → ℚ)),
    Wide d.pt b (intCols p) x → (∀ old, old0 = some old → Integral p d.tol old ∧ Wide d.pt b (intCols p) old) →
    (∀ t ∈ log, Integral p d.tol t ∧ Wide d.pt b (intCols p) t) → ∀ x' log', pumpLoop dbg p d b rem x old0 olds log = some (x', log') →
      Wide d.pt b (intCols p) x' ∧ (∀ t ∈ log', Integral p d.tol t ∧ Wide d.pt b (intCols p) t) ∧ log'.length ≤ log.length + rem
  | 0, x, old0, olds, log, hx, _, hl, x', log', h => by
    simp only [pumpLoop, Option.some.injEq, Prod.mk.injEq] at h
    obtain ⟨rfl, rfl⟩ := h
    exact ⟨hx, hl, by omega⟩
  | rem + 1, x, old0, olds, log, hx, ho, hl, x', log', h => by
    rw [pumpLoop] at h
    split_ifs at h with hfr
    · rw [Option.bind_eq_some_iff] at h
      obtain ⟨y, hy, h⟩ := h
      have hne : intCols p ≠ [] := by
        intro e; rw [e] at hfr; simp at hfr
      have hg := target_good dbg p d ht hs b hS log.length x hx old0 olds hne ho y hy
      have hl' : ∀ t ∈ log ++ [y], Integral p d.tol t ∧ Wide d.pt b (intCols p) t := by
        intro t htm
        rcases List.mem_append.1 htm with hm | hm
        · exact hl t hm
        · rw [List.mem_singleton.1 hm]; exact hg
      split_ifs at h with hv
      · simp only [Option.some.injEq, Prod.mk.injEq] at h
        obtain ⟨rfl, rfl⟩ := h
        exact ⟨hf _ _, hl', by simp⟩
      · obtain ⟨a1, a2, a3⟩ := pumpLoop_spec dbg p d ht hs b hS hf rem _ _ _ _ (hf _ _) (fun old e => by cases e; exact hg) hl' x' log' h
        exact ⟨a1, a2, by simp at a3; omega⟩
    · simp only [Option.some.injEq, Prod.mk.injEq] at h
      obtain ⟨rfl, rfl⟩ := h
      exact ⟨hx, hl, by omega⟩

/-- **C35**: every target handed to the feasibility NLP is integral and within the bounds, and there are at most 200 of them. -/
theorem pump_targets (dbg : Bool) (p : Prob) (d : Pump) (ht : 0 ≤ d.tol) (hs : SortsDesc d.sort) (b : Bnds) (hS : Sane p d b)
    (hf : ∀ k y, Wide d.pt b (intCols p) (d.feas k y).1) (x0 : Nat → ℚ) (hx : Wide d.pt b (intCols p) x0) (x : Nat → ℚ) (log : List (Nat → ℚ))
    (h : pumpLoop dbg p d b 200 x0 none [none, none, none] [] = some (x, log)) :
    (∀ t ∈ log, Integral p d.tol t ∧ Wide d.pt b (intCols p) t) ∧ log.length ≤ 200 := by
  obtain ⟨_, h2, h3⟩ := pumpLoop_spec dbg p d ht hs b hS hf 200 x0 none [none, none, none] [] hx (by simp) (by simp) x log h
  exact ⟨h2, by simpa using h3⟩

/-- The loop ends in exactly three ways: nothing fractional is left, the last value is below 1e-5, or 200 targets were used. -/
theorem pumpLoop_end (dbg : Bool) (p : Prob) (d : Pump) (b : Bnds) : ∀ (rem : Nat) (x : Nat → ℚ) (old0 : Option (Nat → ℚ)) (olds : List (Option (Nat → ℚ))) (log : List (Nat → ℚ))
    (x' : Nat → ℚ) (log' : List (Nat → ℚ)), pumpLoop dbg p d b rem x old0 olds log = some (x', log') →
    ((∀ i ∈ intCols p, ∃ z : ℤ, |(z : ℚ) - x' i| ≤ d.tol) ∨ (∃ k y, (d.feas k y).1 = x' ∧ (d.feas k y).2 < 1 / 10 ^ 5 ∧ log'[k]? = some y ∧ k + 1 = log'.length) ∨
      log'.length = log.length + rem)
  | 0, x, old0, olds, log, x', log', h => by
    simp only [pumpLoop, Option.some.injEq, Prod.mk.injEq] at h
    obtain ⟨rfl, rfl⟩ := h
    exact Or.inr (Or.inr rfl)
  | rem + 1, x, old0, olds, log, x', log', h => by
    rw [pumpLoop] at h
    split_ifs at h with hfr
    · rw [Option.bind_eq_some_iff] at h
      obtain ⟨y, hy, h⟩ := h
      split_ifs at h with hv
      · simp only [Option.some.injEq, Prod.mk.injEq] at h
        obtain ⟨rfl, rfl⟩ := h
        exact Or.inr (Or.inl ⟨log.length, y, rfl, hv, by simp, by simp⟩)
      · rcases pumpLoop_end dbg p d b rem _ _ _ _ x' log' h with h | h | h
        · exact Or.inl h
        · exact Or.inr (Or.inl h)
        · exact Or.inr (Or.inr (by rw [h]; simp; omega))
    · simp only [Option.some.injEq, Prod.mk.injEq] at h
      obtain ⟨rfl, rfl⟩ := h
      left
      intro i hi
      rw [← not_isFrac_iff, ← Bool.not_eq_true]
      intro hh
      exact hfr (List.any_eq_true.2 ⟨i, hi, hh⟩)

/-- **C35**: with a last solve whose successful answers respect the bounds given: a returned point is better than the incumbent and its integer columns are exactly
integers; it respects the original bounds when those of integer columns are integers and the relaxations are solved within the bounds (up to a tolerance below 1/2). -/
theorem pump_sound_partial (dbg : Bool) (p : Prob) (d : Pump) (ht : 0 ≤ d.tol) (hs : SortsDesc d.sort) (b : Bnds) (hS : Sane p d b) (hpt : d.pt < 1 / 2)
    (hf : ∀ k y, Wide d.pt b (intCols p) (d.feas k y).1) (x0 : Nat → ℚ) (hx : Wide d.pt b (intCols p) x0)
    (hsolve : ∀ b' y, d.solve b' = some y → InBox p.n b' y) (hb : ∀ c ∈ intCols p, ∃ l u : ℤ, b.lo c = l ∧ b.up c = u) (y : Nat → ℚ) (v : ℚ)
    (h : pump dbg p d b x0 = .found y v) :
    v = p.f y ∧ v < d.inc ∧ (∀ c ∈ intCols p, ∃ z : ℤ, y c = z) ∧ InBox p.n b y := by
  unfold pump at h
  cases hl : pumpLoop dbg p d b 200 x0 none [none, none, none] [] with
  | none => rw [hl] at h; cases h
  | some r =>
    obtain ⟨x, log⟩ := r
    rw [hl] at h
    simp only [finish] at h
    cases hso : d.solve (fixAll p x b) with
    | none => rw [hso] at h; cases h
    | some w =>
      rw [hso] at h
      simp only at h
      split_ifs at h with hlt
      simp only [PVerdict.found.injEq] at h
      obtain ⟨rfl, rfl⟩ := h
      have hin := hsolve _ _ hso
      have hxw := (pumpLoop_spec dbg p d ht hs b hS hf 200 x0 none [none, none, none] [] hx (by simp) (by simp) x log hl).1
      have hint : ∀ c ∈ intCols p, w c = (⌊x c + 1 / 2⌋ : ℚ) := by
        intro c hc
        obtain ⟨hcn, hcI⟩ := (mem_intCols p c).1 hc
        have := hin c hcn
        simp only [fixAll, hcn, hcI, and_self, if_true] at this
        exact le_antisymm this.2 this.1
      refine ⟨rfl, hlt, fun c hc => ⟨_, hint c hc⟩, fun c hcn => ?_⟩
      by_cases hcI : p.isInt c = true
      · have hc := (mem_intCols p c).2 ⟨hcn, hcI⟩
        obtain ⟨l, u, el, eu⟩ := hb c hc
        obtain ⟨h1, h2⟩ := hxw c hc
        rw [hint c hc, el, eu]
        rw [el] at h1; rw [eu] at h2
        constructor
        · exact_mod_cast (Int.le_floor.2 (by linarith) : l ≤ ⌊x c + 1 / 2⌋)
        · have : ⌊x c + 1 / 2⌋ < u + 1 := Int.floor_lt.2 (by push_cast; linarith)
          exact_mod_cast (by omega : ⌊x c + 1 / 2⌋ ≤ u)
      · have := hin c hcn
        simp only [fixAll, hcI, and_false, Bool.false_eq_true, if_false] at this
        exact this

/-- **C35**: exact outcome: the answer of the last solve, with the integer columns fixed at the roundings of the last point, when it is a success and better. -/
theorem pump_found_iff (dbg : Bool) (p : Prob) (d : Pump) (b : Bnds) (x0 y : Nat → ℚ) (v : ℚ) :
    pump dbg p d b x0 = .found y v ↔ ∃ x log b', pumpLoop dbg p d b 200 x0 none [none, none, none] [] = some (x, log) ∧
      (∀ c, (c ∈ intCols p → b'.lo c = (round (x c) : ℚ) ∧ b'.up c = (round (x c) : ℚ)) ∧ (c ∉ intCols p → b'.lo c = b.lo c ∧ b'.up c = b.up c)) ∧
      d.solve b' = some y ∧ v = p.f y ∧ p.f y < d.inc := by
  have hfix : ∀ x b', (∀ c, (c ∈ intCols p → b'.lo c = (round (x c) : ℚ) ∧ b'.up c = (round (x c) : ℚ)) ∧ (c ∉ intCols p → b'.lo c = b.lo c ∧ b'.up c = b.up c)) ↔
      b' = fixAll p x b := by
    intro x b'
    constructor
    · intro h
      ext c
      · simp only [fixAll]
        split_ifs with hc
        · rw [((h c).1 ((mem_intCols p c).2 hc)).1, round_eq]
        · exact ((h c).2 (fun hm => hc ((mem_intCols p c).1 hm))).1
      · simp only [fixAll]
        split_ifs with hc
        · rw [((h c).1 ((mem_intCols p c).2 hc)).2, round_eq]
        · exact ((h c).2 (fun hm => hc ((mem_intCols p c).1 hm))).2
    · rintro rfl c
      simp only [fixAll, ← mem_intCols, round_eq]
      exact ⟨fun hc => by simp [hc], fun hc => by simp [hc]⟩
  unfold pump
  cases hl : pumpLoop dbg p d b 200 x0 none [none, none, none] [] with
  | none => simp
  | some r =>
    obtain ⟨x, log⟩ := r
    simp only [finish, Option.some.injEq, Prod.mk.injEq]
    constructor
    · intro h
      cases hso : d.solve (fixAll p x b) with
      | none => rw [hso] at h; cases h
      | some w =>
        rw [hso] at h
        simp only at h
        split_ifs at h with hlt
        simp only [PVerdict.found.injEq] at h
        obtain ⟨rfl, rfl⟩ := h
        exact ⟨x, log, fixAll p x b, ⟨rfl, rfl⟩, (hfix x _).2 rfl, hso, rfl, hlt⟩
    · rintro ⟨x', log', b', ⟨rfl, rfl⟩, hb', hso, rfl, hlt⟩
      rw [(hfix _ _).1 hb'] at hso
      rw [hso]
      simp only
      rw [if_pos hlt]

/-! ### a non-trivial instance -/

/-- One integer column in [0, 3]; the feasibility NLP answers near the target. -/
def exPump : Pump := ⟨1 / 10 ^ 6, 1 / 10 ^ 6, 5, [], fun s l => l.insertionSort fun a b => s b ≤ s a, fun _ _ => 0,
  fun k y => (fun c => if k = 0 then 3 / 2 else min 3 (max 0 (y c)), if k = 0 then 1 / 2 else 0), fun b => if b.lo 0 ≤ b.up 0 then some fun c => b.lo c else none⟩

def exPumpP : Prob := ⟨1, 0, fun _ => true, fun _ => 0, fun _ => 0, fun x => x 0, fun _ _ => 0⟩

def PVerdict.val : PVerdict → Option ℚ
  | .found _ v => some v
  | _ => none

/-- The first target is 2 (rounding 3/2 up); the second rounding agrees with it, so that 1 is tried next, and found. -/
example : (pump true exPumpP exPump ⟨fun _ => 0, fun _ => 3⟩ fun _ => 3 / 2).val = some 1 := by decide +kernel

theorem exPump_sorts : SortsDesc exPump.sort := by
  intro s l
  refine ⟨List.perm_insertionSort _ l, ?_⟩
  have : Std.Total (fun a b : Nat => s b ≤ s a) := ⟨fun a b => le_total _ _⟩
  have : IsTrans Nat (fun a b : Nat => s b ≤ s a) := ⟨fun a b c h1 h2 => le_trans h2 h1⟩
  exact List.pairwise_insertionSort (fun a b : Nat => s b ≤ s a) l

example : Sane exPumpP exPump ⟨fun _ => 0, fun _ => 3⟩ ∧ (∀ k y, Wide exPump.pt ⟨fun _ => 0, fun _ => 3⟩ (intCols exPumpP) (exPump.feas k y).1) ∧
    (∀ b' y, exPump.solve b' = some y → InBox exPumpP.n b' y) := by
  refine ⟨⟨fun c _ => ⟨0, by norm_num [exPump]⟩, fun c _ ⟨r, hr, _⟩ => by simp [exPump] at hr⟩, ?_, ?_⟩
  · intro k y c _
    simp only [exPump]
    have h1 : min 3 (max 0 (y c)) ≤ 3 := min_le_left _ _
    have h2 : 0 ≤ min 3 (max 0 (y c)) := le_min (by norm_num) (le_max_left _ _)
    split_ifs
    · constructor <;> norm_num
    · constructor <;> linarith
  · intro b' y h i hi
    have : i = 0 := by simp [exPumpP] at hi; exact hi
    simp only [exPump] at h
    split_ifs at h with hb
    cases h
    rw [this]
    exact ⟨le_refl _, hb⟩

end Verif.Heur

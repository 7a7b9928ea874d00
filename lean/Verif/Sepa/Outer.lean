import Verif.Sepa.Inner
/-!
# Model of the tangents with indicator variables
(experimental/Separable/SepaTMINLP2OsiLP.cpp:146-346, experimental/Separable/BonOuterDescription.cpp:19-182)

Infinite sides are `none`.
-/
namespace Verif.Sepa

open Verif.Oa (act)

/-- A cut with optional sides. -/
structure OCut where
  co : List (ℕ × ℚ)
  lb : Option ℚ
  ub : Option ℚ
deriving DecidableEq

/-- Adding to a side, infinite sides staying so. -/
def addTo (o : Option ℚ) (d : ℚ) : Option ℚ := o.map (· + d)

/-- Tolerances `tiny_`, `very_tiny_`; for `od` (BonOuterDescription.cpp:112-113) they are 1e-8 and 1e-20. -/
structure STol where
  tiny : ℚ
  vt : ℚ

/-- Outcome of cleaning a coefficient: the value kept or `none`, and the two sides. -/
structure SClean where
  keep : Option ℚ
  lb : Option ℚ
  ub : Option ℚ
deriving DecidableEq

/-- `TMINLP2OsiLP::cleanNnz` (BonTMINLP2OsiLP.hpp:118-159), used by `SepaTMINLP2OsiLP`. -/
def cleanSep (T : STol) (v cl cu : ℚ) (rl ru : Option ℚ) (xs : ℚ) (lb ub : Option ℚ) : SClean :=
  if T.tiny ≤ |v| then ⟨some v, lb, ub⟩
  else if |v| < T.vt then ⟨none, lb, ub⟩
  else if -10000 < cl ∧ ¬ 0 < v ∧ ru = none then ⟨none, addTo lb (v * (xs - cl)), ub⟩
  else if -10000 < cl ∧ 0 < v ∧ rl = none then ⟨none, lb, addTo ub (v * (xs - cl))⟩
  else if cu < 10000 ∧ 0 < v ∧ ru = none then ⟨none, addTo lb (v * (xs - cu)), ub⟩
  else if cu < 10000 ∧ ¬ 0 < v ∧ rl = none then ⟨none, lb, addTo ub (v * (xs - cu))⟩
  else ⟨some v, lb, ub⟩

/-- `cleanNnz` of BonOuterDescription.cpp:20-61. -/
def cleanOD (T : STol) (v cl cu : ℚ) (rl ru : Option ℚ) (xs : ℚ) (lb ub : Option ℚ) : SClean :=
  if T.tiny ≤ |v| then ⟨some v, lb, ub⟩
  else if |v| < T.vt then ⟨none, lb, ub⟩
  else if -10000 < cl ∧ 0 < v ∧ ru = none then ⟨none, addTo lb (v * (xs - cl)), ub⟩
  else if -10000 < cl ∧ ¬ 0 < v ∧ rl = none then ⟨none, lb, addTo ub (v * (xs - cl))⟩
  else if cu < 10000 ∧ ¬ 0 < v ∧ ru = none then ⟨none, addTo lb (v * (xs - cu)), ub⟩
  else if cu < 10000 ∧ 0 < v ∧ rl = none then ⟨none, lb, addTo ub (v * (xs - cu))⟩
  else ⟨some (if 0 < v then T.tiny else -T.tiny), lb, ub⟩

/-- What a call does: an exception (an index inserted twice), nothing (a coefficient above 1e15), or a cut. -/
inductive OOut where
  | thrown
  | nothing
  | cut (c : OCut)
deriving DecidableEq

/-- Function that cleans a coefficient. -/
abbrev Cleaner := ℚ → ℚ → ℚ → Option ℚ → Option ℚ → ℚ → Option ℚ → Option ℚ → SClean

/-- The loop over the columns (SepaTMINLP2OsiLP.cpp:296-315, with `big` = `some 1e15`; BonOuterDescription.cpp:115-129, with
`big` = `none`).  Columns are distinct here (an index twice is treated in `perspective`).  `none` = the return at a big
coefficient. -/
def tanLoop (clean : Cleaner) (big : Option ℚ) (C : Cols) (r : Row) (x : ℕ → ℚ) :
    List ℕ → OCut → Option OCut
  | [], k => some k
  | c :: cs, k =>
    match (clean (r.d x c) (C.lo c) (C.up c) r.rl r.ru (x c) k.lb k.ub).keep with
    | none => tanLoop clean big C r x cs
        ⟨k.co, (clean (r.d x c) (C.lo c) (C.up c) r.rl r.ru (x c) k.lb k.ub).lb,
          (clean (r.d x c) (C.lo c) (C.up c) r.rl r.ru (x c) k.lb k.ub).ub⟩
    | some v =>
      if big.any (fun b => decide (b < |v|)) then none
      else tanLoop clean big C r x cs
        ⟨k.co ++ [(c, v)],
          addTo (clean (r.d x c) (C.lo c) (C.up c) r.rl r.ru (x c) k.lb k.ub).lb (v * x c),
          addTo (clean (r.d x c) (C.lo c) (C.up c) r.rl r.ru (x c) k.lb k.ub).ub (v * x c)⟩

/-- The indicator of the row (SepaTMINLP2OsiLP.cpp:321-344, BonOuterDescription.cpp:154-178): with a positive index, a finite
side is moved to the coefficient of the indicator; two finite sides insert the index twice, which throws. -/
def perspective (bin : ℤ) (k : OCut) : OOut :=
  if 0 < bin then
    match k.lb, k.ub with
    | none, none => .cut k
    | some l, none =>
      if bin.toNat ∈ k.co.map Prod.fst then .thrown else .cut ⟨k.co ++ [(bin.toNat, -l)], some 0, none⟩
    | none, some u =>
      if bin.toNat ∈ k.co.map Prod.fst then .thrown else .cut ⟨k.co ++ [(bin.toNat, -u)], none, some 0⟩
    | some _, some _ => .thrown
  else .cut k

/-- `SepaTMINLP2OsiLP::get_oa` (SepaTMINLP2OsiLP.cpp:258-346) and, row by row, `get_oas` (146-256). -/
def sepTangent (T : STol) (C : Cols) (r : Row) (x : ℕ → ℚ) : OOut :=
  match tanLoop (cleanSep T) (some 1000000000000000) C r x r.cols
      ⟨[], addTo r.rl (-r.g x), addTo r.ru (-r.g x)⟩ with
  | none => .nothing
  | some k => perspective r.bin k

/-- First sides of `getMyOuterApproximation` (BonOuterDescription.cpp:97-110): of a row with two finite bounds the sign of the
multiplier chooses. -/
def odSides (r : Row) (dual g : ℚ) : Option ℚ × Option ℚ :=
  if r.rl ≠ none ∧ r.ru ≠ none then
    (if 0 ≤ dual then none else addTo r.rl (-g), if dual ≤ 0 then none else addTo r.ru (-g))
  else (addTo r.rl (-g), addTo r.ru (-g))

/-- `getMyOuterApproximation` (BonOuterDescription.cpp:67-182) as called by `addOuterDescription`, with no second point. -/
def odTangent (T : STol) (C : Cols) (r : Row) (dual : ℚ) (x : ℕ → ℚ) : OOut :=
  match tanLoop (cleanOD T) none C r x r.cols ⟨[], (odSides r dual (r.g x)).1, (odSides r dual (r.g x)).2⟩ with
  | none => .nothing
  | some k => perspective r.bin k

/-- `SepaTMINLP2OsiLP::get_oas` (SepaTMINLP2OsiLP.cpp:146-256): the cuts of the rows declared nonlinear, in order; a big
coefficient in one of them returns before any cut is inserted; `none` = exception. -/
def sepTangents (T : STol) (C : Cols) (rows : List Row) (x : ℕ → ℚ) : Option (List OCut) :=
  if (rows.filter (·.nonlin)).any (fun r => decide (sepTangent T C r x = .nothing)) then some []
  else (rows.filter (·.nonlin)).foldr (fun r acc =>
    match sepTangent T C r x, acc with
    | .cut c, some cs => some (c :: cs)
    | _, _ => none) (some [])

/-! ## Validity -/

/-- Directional derivative term `Σ d_c (y_c - x_c)`. -/
def dir (r : Row) (x y : ℕ → ℚ) : ℚ := (r.cols.map (fun c => r.d x c * (y c - x c))).sum

/-- A point meets the sides of a cut. -/
def sat (c : OCut) (y : ℕ → ℚ) : Prop := inRow c.lb c.ub (act c.co y)

theorem act_snoc (co : List (ℕ × ℚ)) (e : ℕ) (v : ℚ) (y : ℕ → ℚ) : act (co ++ [(e, v)]) y = act co y + v * y e := by
  simp [act]

theorem addTo_some {o : Option ℚ} {d q : ℚ} (h : addTo o d = some q) : ∃ p, o = some p ∧ q = p + d := by
  cases o with
  | none => cases h
  | some p =>
    simp only [addTo, Option.map_some, Option.some.injEq] at h
    exact ⟨p, rfl, h.symm⟩

/-- The invariant of the loop for `cleanSep`. -/
theorem tanLoop_valid (T : STol) (big : Option ℚ) (C : Cols) (r : Row) (x y : ℕ → ℚ) (cs : List ℕ) (k k' : OCut)
    (h : tanLoop (cleanSep T) big C r x cs k = some k')
    (hy : ∀ c ∈ cs, C.lo c ≤ y c ∧ y c ≤ C.up c) (hv : ∀ c ∈ cs, |r.d x c| < T.vt → r.d x c = 0)
    (hl : r.rl = none → k.lb = none) (hu : r.ru = none → k.ub = none) :
    (∀ U', k'.ub = some U' → ∃ U, k.ub = some U ∧
      act k'.co y - U' ≤ act k.co y - U + (cs.map (fun c => r.d x c * (y c - x c))).sum) ∧
    (∀ L', k'.lb = some L' → ∃ L, k.lb = some L ∧
      act k.co y - L + (cs.map (fun c => r.d x c * (y c - x c))).sum ≤ act k'.co y - L') := by
  induction cs generalizing k with
  | nil =>
    simp only [tanLoop, Option.some.injEq] at h
    subst h
    exact ⟨fun U hU => ⟨U, hU, by simp⟩, fun L hL => ⟨L, hL, by simp⟩⟩
  | cons c cs ih =>
    obtain ⟨yl, yu⟩ := hy c (by simp)
    have hvc := hv c (by simp)
    -- one step
    have stepDrop : ∀ lb ub, tanLoop (cleanSep T) big C r x cs ⟨k.co, lb, ub⟩ = some k' →
        (r.rl = none → lb = none) → (r.ru = none → ub = none) →
        (∀ U, ub = some U → ∃ U0, k.ub = some U0 ∧ - U ≤ - U0 + r.d x c * (y c - x c)) →
        (∀ L, lb = some L → ∃ L0, k.lb = some L0 ∧ - L0 + r.d x c * (y c - x c) ≤ - L) →
        (∀ U', k'.ub = some U' → ∃ U, k.ub = some U ∧
          act k'.co y - U' ≤ act k.co y - U + ((c :: cs).map (fun c => r.d x c * (y c - x c))).sum) ∧
        (∀ L', k'.lb = some L' → ∃ L, k.lb = some L ∧
          act k.co y - L + ((c :: cs).map (fun c => r.d x c * (y c - x c))).sum ≤ act k'.co y - L') := by
      intro lb ub h' h1 h2 h3 h4
      obtain ⟨i1, i2⟩ := ih ⟨k.co, lb, ub⟩ h' (fun e he => hy e (by simp [he])) (fun e he => hv e (by simp [he])) h1 h2
      simp only [List.map_cons, List.sum_cons]
      constructor
      · intro U' hU'
        obtain ⟨U, hU, hle⟩ := i1 U' hU'
        obtain ⟨U0, hU0, hle0⟩ := h3 U hU
        exact ⟨U0, hU0, by linarith⟩
      · intro L' hL'
        obtain ⟨L, hL, hle⟩ := i2 L' hL'
        obtain ⟨L0, hL0, hle0⟩ := h4 L hL
        exact ⟨L0, hL0, by linarith⟩
    have stepKeep : tanLoop (cleanSep T) big C r x cs
          ⟨k.co ++ [(c, r.d x c)], addTo k.lb (r.d x c * x c), addTo k.ub (r.d x c * x c)⟩ = some k' →
        (∀ U', k'.ub = some U' → ∃ U, k.ub = some U ∧
          act k'.co y - U' ≤ act k.co y - U + ((c :: cs).map (fun c => r.d x c * (y c - x c))).sum) ∧
        (∀ L', k'.lb = some L' → ∃ L, k.lb = some L ∧
          act k.co y - L + ((c :: cs).map (fun c => r.d x c * (y c - x c))).sum ≤ act k'.co y - L') := by
      intro h'
      obtain ⟨i1, i2⟩ := ih _ h' (fun e he => hy e (by simp [he])) (fun e he => hv e (by simp [he]))
        (fun hr => by simp [hl hr, addTo]) (fun hr => by simp [hu hr, addTo])
      simp only [List.map_cons, List.sum_cons]
      constructor
      · intro U' hU'
        obtain ⟨U, hU, hle⟩ := i1 U' hU'
        obtain ⟨U0, hU0, rfl⟩ := addTo_some hU
        refine ⟨U0, hU0, ?_⟩
        simp only [act_snoc] at hle
        linarith [mul_sub (r.d x c) (y c) (x c)]
      · intro L' hL'
        obtain ⟨L, hL, hle⟩ := i2 L' hL'
        obtain ⟨L0, hL0, rfl⟩ := addTo_some hL
        refine ⟨L0, hL0, ?_⟩
        simp only [act_snoc] at hle
        linarith [mul_sub (r.d x c) (y c) (x c)]
    rw [tanLoop] at h
    unfold cleanSep at h
    by_cases c1 : T.tiny ≤ |r.d x c|
    · simp only [if_pos c1] at h
      by_cases hb : big.any (fun b => decide (b < |r.d x c|)) = true
      · rw [if_pos hb] at h; cases h
      · rw [if_neg hb] at h
        exact stepKeep h
    simp only [if_neg c1] at h
    by_cases c2 : |r.d x c| < T.vt
    · simp only [if_pos c2] at h
      have h0 := hvc c2
      exact stepDrop k.lb k.ub h hl hu (fun U hU => ⟨U, hU, by rw [h0]; simp⟩) (fun L hL => ⟨L, hL, by rw [h0]; simp⟩)
    simp only [if_neg c2] at h
    by_cases c3 : -10000 < C.lo c ∧ ¬ 0 < r.d x c ∧ r.ru = none
    · simp only [if_pos c3] at h
      refine stepDrop _ _ h (fun hr => by simp [hl hr, addTo]) hu (fun U hU => ?_) (fun L hL => ?_)
      · rw [hu c3.2.2] at hU; cases hU
      · obtain ⟨L0, hL0, rfl⟩ := addTo_some hL
        refine ⟨L0, hL0, ?_⟩
        have := mul_nonneg (sub_nonneg.2 yl) (neg_nonneg.2 (not_lt.1 c3.2.1))
        nlinarith
    simp only [if_neg c3] at h
    by_cases c4 : -10000 < C.lo c ∧ 0 < r.d x c ∧ r.rl = none
    · simp only [if_pos c4] at h
      refine stepDrop _ _ h hl (fun hr => by simp [hu hr, addTo]) (fun U hU => ?_) (fun L hL => ?_)
      · obtain ⟨U0, hU0, rfl⟩ := addTo_some hU
        refine ⟨U0, hU0, ?_⟩
        have := mul_nonneg (sub_nonneg.2 yl) (le_of_lt c4.2.1)
        nlinarith
      · rw [hl c4.2.2] at hL; cases hL
    simp only [if_neg c4] at h
    by_cases c5 : C.up c < 10000 ∧ 0 < r.d x c ∧ r.ru = none
    · simp only [if_pos c5] at h
      refine stepDrop _ _ h (fun hr => by simp [hl hr, addTo]) hu (fun U hU => ?_) (fun L hL => ?_)
      · rw [hu c5.2.2] at hU; cases hU
      · obtain ⟨L0, hL0, rfl⟩ := addTo_some hL
        refine ⟨L0, hL0, ?_⟩
        have := mul_nonneg (sub_nonneg.2 yu) (le_of_lt c5.2.1)
        nlinarith
    simp only [if_neg c5] at h
    by_cases c6 : C.up c < 10000 ∧ ¬ 0 < r.d x c ∧ r.rl = none
    · simp only [if_pos c6] at h
      refine stepDrop _ _ h hl (fun hr => by simp [hu hr, addTo]) (fun U hU => ?_) (fun L hL => ?_)
      · obtain ⟨U0, hU0, rfl⟩ := addTo_some hU
        refine ⟨U0, hU0, ?_⟩
        have := mul_nonneg (sub_nonneg.2 yu) (neg_nonneg.2 (not_lt.1 c6.2.1))
        nlinarith
      · rw [hl c6.2.2] at hL; cases hL
    simp only [if_neg c6] at h
    by_cases hb : big.any (fun b => decide (b < |r.d x c|)) = true
    · rw [if_pos hb] at h; cases h
    · rw [if_neg hb] at h
      exact stepKeep h

/-- **C140** a tangent holds where the row is active (partial: coefficients below `very_tiny_` are zero): a point in the column
bounds that meets the row — the row lying above its tangent if it has an upper bound and below it if it has a lower one — meets
the cut, if the row has no indicator of positive index or the indicator is 1 there. -/
theorem tangent_valid_partial (T : STol) (C : Cols) (r : Row) (x y : ℕ → ℚ) (c : OCut) (h : sepTangent T C r x = .cut c)
    (hy : ∀ c ∈ r.cols, C.lo c ≤ y c ∧ y c ≤ C.up c) (hv : ∀ c ∈ r.cols, |r.d x c| < T.vt → r.d x c = 0)
    (hup : r.ru ≠ none → r.g x + dir r x y ≤ r.g y) (hlo : r.rl ≠ none → r.g y ≤ r.g x + dir r x y)
    (hrow : inRow r.rl r.ru (r.g y)) (hz : 0 < r.bin → y r.bin.toNat = 1) : sat c y := by
  unfold sepTangent at h
  cases hk : tanLoop (cleanSep T) (some 1000000000000000) C r x r.cols
      ⟨[], addTo r.rl (-r.g x), addTo r.ru (-r.g x)⟩ with
  | none => rw [hk] at h; cases h
  | some k =>
    rw [hk] at h
    simp only at h
    obtain ⟨i1, i2⟩ := tanLoop_valid T _ C r x y r.cols _ k hk hy hv (fun hr => by simp [hr, addTo])
      (fun hr => by simp [hr, addTo])
    have j1 : ∀ U, k.ub = some U → act k.co y ≤ U := by
      intro U hU
      obtain ⟨U0, h0, hle⟩ := i1 U hU
      obtain ⟨u, hu, rfl⟩ := addTo_some h0
      have h1 := hup (by rw [hu]; simp)
      have h2 := hrow.2 u hu
      simp only [act, List.map_nil, List.sum_nil] at hle
      unfold dir at h1
      unfold act
      linarith
    have j2 : ∀ L, k.lb = some L → L ≤ act k.co y := by
      intro L hL
      obtain ⟨L0, h0, hle⟩ := i2 L hL
      obtain ⟨l, hl, rfl⟩ := addTo_some h0
      have h1 := hlo (by rw [hl]; simp)
      have h2 := hrow.1 l hl
      simp only [act, List.map_nil, List.sum_nil] at hle
      unfold dir at h1
      unfold act
      linarith
    unfold perspective at h
    by_cases hb : 0 < r.bin
    · rw [if_pos hb] at h
      have hz1 := hz hb
      cases hL : k.lb with
      | none =>
        cases hU : k.ub with
        | none =>
          simp only [hL, hU, OOut.cut.injEq] at h
          subst h
          exact ⟨j2, j1⟩
        | some U =>
          simp only [hL, hU] at h
          by_cases hm : r.bin.toNat ∈ k.co.map Prod.fst
          · rw [if_pos hm] at h; cases h
          · rw [if_neg hm] at h
            simp only [OOut.cut.injEq] at h
            subst h
            refine ⟨fun l hl => (by cases hl), fun u hu => ?_⟩
            simp only [Option.some.injEq] at hu
            subst hu
            rw [act_snoc, hz1]
            linarith [j1 U hU]
      | some L =>
        cases hU : k.ub with
        | none =>
          simp only [hL, hU] at h
          by_cases hm : r.bin.toNat ∈ k.co.map Prod.fst
          · rw [if_pos hm] at h; cases h
          · rw [if_neg hm] at h
            simp only [OOut.cut.injEq] at h
            subst h
            refine ⟨fun l hl => ?_, fun u hu => (by cases hu)⟩
            simp only [Option.some.injEq] at hl
            subst hl
            rw [act_snoc, hz1]
            linarith [j2 L hL]
        | some U =>
          simp only [hL, hU] at h
          cases h
    · rw [if_neg hb] at h
      simp only [OOut.cut.injEq] at h
      subst h
      exact ⟨j2, j1⟩

/-- **C140** a tangent with an indicator holds where everything is switched off: at a point where the indicator and all the
columns of the row are 0, the cut of a row with an indicator of positive index holds. -/
theorem off_valid (T : STol) (C : Cols) (r : Row) (x y : ℕ → ℚ) (c : OCut) (h : sepTangent T C r x = .cut c)
    (hb : 0 < r.bin) (hz : y r.bin.toNat = 0) (hy : ∀ c ∈ r.cols, y c = 0) : sat c y := by
  unfold sepTangent at h
  cases hk : tanLoop (cleanSep T) (some 1000000000000000) C r x r.cols
      ⟨[], addTo r.rl (-r.g x), addTo r.ru (-r.g x)⟩ with
  | none => rw [hk] at h; cases h
  | some k =>
    rw [hk] at h
    have hact : act k.co y = 0 := by
      have : ∀ (cs : List ℕ) (k0 k1 : OCut), (∀ c ∈ cs, y c = 0) → act k0.co y = 0 →
          tanLoop (cleanSep T) (some 1000000000000000) C r x cs k0 = some k1 → act k1.co y = 0 := by
        intro cs
        induction cs with
        | nil =>
          intro k0 k1 _ h0 h1
          simp only [tanLoop, Option.some.injEq] at h1
          rw [← h1]; exact h0
        | cons q cs ih =>
          intro k0 k1 hc h0 h1
          rw [tanLoop] at h1
          cases hq : (cleanSep T (r.d x q) (C.lo q) (C.up q) r.rl r.ru (x q) k0.lb k0.ub).keep with
          | none =>
            simp only [hq] at h1
            refine ih _ k1 (fun e he => hc e (by simp [he])) ?_ h1
            exact h0
          | some v =>
            simp only [hq] at h1
            by_cases hbig : (some (1000000000000000 : ℚ)).any (fun b => decide (b < |v|)) = true
            · rw [if_pos hbig] at h1; cases h1
            · rw [if_neg hbig] at h1
              refine ih _ k1 (fun e he => hc e (by simp [he])) ?_ h1
              rw [act_snoc, h0, hc q (by simp)]
              ring
      exact this r.cols _ k hy rfl hk
    simp only [perspective, if_pos hb] at h
    cases hL : k.lb with
    | none =>
      cases hU : k.ub with
      | none =>
        simp only [hL, hU, OOut.cut.injEq] at h
        subst h
        exact ⟨fun l hl => (by rw [hL] at hl; cases hl), fun u hu => (by rw [hU] at hu; cases hu)⟩
      | some U =>
        simp only [hL, hU] at h
        by_cases hm : r.bin.toNat ∈ k.co.map Prod.fst
        · rw [if_pos hm] at h; cases h
        · rw [if_neg hm] at h
          simp only [OOut.cut.injEq] at h
          subst h
          refine ⟨fun l hl => (by cases hl), fun u hu => ?_⟩
          simp only [Option.some.injEq] at hu
          subst hu
          rw [act_snoc, hz, hact]
          linarith
    | some L =>
      cases hU : k.ub with
      | none =>
        simp only [hL, hU] at h
        by_cases hm : r.bin.toNat ∈ k.co.map Prod.fst
        · rw [if_pos hm] at h; cases h
        · rw [if_neg hm] at h
          simp only [OOut.cut.injEq] at h
          subst h
          refine ⟨fun l hl => ?_, fun u hu => (by cases hu)⟩
          simp only [Option.some.injEq] at hl
          subst hl
          rw [act_snoc, hz, hact]
          linarith
      | some U =>
        simp only [hL, hU] at h
        cases h

/-- **C140** exact tangent: when no coefficient is smaller than `tiny_` nor larger than 1e15, the cut is the first-order
expansion, its finite sides moved to the indicator. -/
theorem tangent_exact (T : STol) (C : Cols) (r : Row) (x : ℕ → ℚ)
    (hd : ∀ c ∈ r.cols, T.tiny ≤ |r.d x c| ∧ |r.d x c| ≤ 1000000000000000) :
    sepTangent T C r x = perspective r.bin ⟨r.cols.map (fun c => (c, r.d x c)),
      r.rl.map (fun l => l - r.g x + (r.cols.map (fun c => r.d x c * x c)).sum),
      r.ru.map (fun u => u - r.g x + (r.cols.map (fun c => r.d x c * x c)).sum)⟩ := by
  have key : ∀ (cs : List ℕ) (k : OCut), (∀ c ∈ cs, T.tiny ≤ |r.d x c| ∧ |r.d x c| ≤ 1000000000000000) →
      tanLoop (cleanSep T) (some 1000000000000000) C r x cs k = some ⟨k.co ++ cs.map (fun c => (c, r.d x c)),
        addTo k.lb (cs.map (fun c => r.d x c * x c)).sum, addTo k.ub (cs.map (fun c => r.d x c * x c)).sum⟩ := by
    intro cs
    induction cs with
    | nil =>
      intro k _
      have : ∀ o : Option ℚ, addTo o 0 = o := by intro o; cases o <;> simp [addTo]
      simp [tanLoop, this]
    | cons c cs ih =>
      intro k hc
      obtain ⟨h1, h2⟩ := hc c (by simp)
      rw [tanLoop]
      simp only [cleanSep, if_pos h1]
      rw [if_neg (by simpa using h2), ih _ (fun e he => hc e (by simp [he]))]
      have : ∀ (o : Option ℚ) (a b : ℚ), addTo (addTo o a) b = addTo o (a + b) := by
        intro o a b
        cases o <;> simp [addTo, add_assoc]
      simp [this]
  unfold sepTangent
  rw [key r.cols _ hd]
  have : ∀ (o : Option ℚ) (a b : ℚ), addTo (addTo o (-a)) b = o.map (fun l => l - a + b) := by
    intro o a b
    cases o <;> simp [addTo, sub_eq_add_neg]
  simp [this]

/-- **C140** cuts of all rows: one per row declared nonlinear, in order, unless a coefficient is above 1e15 in one of them —
then none at all. -/
theorem tangents_exact (T : STol) (C : Cols) (rows : List Row) (x : ℕ → ℚ) (cs : List OCut) :
    sepTangents T C rows x = some cs ↔
      ((∃ r ∈ rows, r.nonlin = true ∧ sepTangent T C r x = .nothing) ∧ cs = []) ∨
      ((∀ r ∈ rows, r.nonlin = true → sepTangent T C r x ≠ .nothing) ∧
        (rows.filter (·.nonlin)).map (fun r => sepTangent T C r x) = cs.map OOut.cut) := by
  unfold sepTangents
  by_cases h : (rows.filter (·.nonlin)).any (fun r => decide (sepTangent T C r x = .nothing)) = true
  · rw [if_pos h]
    have h' : ∃ r ∈ rows, r.nonlin = true ∧ sepTangent T C r x = .nothing := by
      simp only [List.any_eq_true, List.mem_filter, decide_eq_true_eq] at h
      obtain ⟨r, ⟨h1, h2⟩, h3⟩ := h
      exact ⟨r, h1, h2, h3⟩
    constructor
    · intro e
      left
      simp only [Option.some.injEq] at e
      exact ⟨h', e.symm⟩
    · rintro (⟨-, rfl⟩ | ⟨h2, -⟩)
      · rfl
      · obtain ⟨r, h3, h4, h5⟩ := h'
        exact absurd h5 (h2 r h3 h4)
  · rw [if_neg h]
    have h' : ∀ r ∈ rows, r.nonlin = true → sepTangent T C r x ≠ .nothing := by
      intro r h1 h2 h3
      apply h
      simp only [List.any_eq_true, List.mem_filter, decide_eq_true_eq]
      exact ⟨r, ⟨h1, h2⟩, h3⟩
    have key : ∀ (l : List Row) (cs : List OCut), l.foldr (fun r acc =>
        match sepTangent T C r x, acc with
        | .cut c, some cs => some (c :: cs)
        | _, _ => none) (some []) = some cs ↔ l.map (fun r => sepTangent T C r x) = cs.map OOut.cut := by
      intro l
      induction l with
      | nil =>
        intro cs
        cases cs <;> simp
      | cons r l ih =>
        intro cs
        simp only [List.foldr_cons, List.map_cons]
        cases hr : sepTangent T C r x with
        | thrown => cases cs <;> simp
        | nothing => cases cs <;> simp
        | cut c =>
          cases hf : l.foldr (fun r acc =>
            match sepTangent T C r x, acc with
            | .cut c, some cs => some (c :: cs)
            | _, _ => none) (some []) with
          | none =>
            simp only
            constructor
            · intro h; cases h
            · intro h
              cases cs with
              | nil => simp at h
              | cons d ds =>
                simp only [List.map_cons, List.cons.injEq] at h
                have := (ih ds).2 h.2
                rw [hf] at this
                cases this
          | some ds =>
            have e := (ih ds).1 hf
            simp only [Option.some.injEq]
            constructor
            · rintro rfl
              simp [e]
            · intro h
              cases cs with
              | nil => simp at h
              | cons d ds' =>
                simp only [List.map_cons, List.cons.injEq, OOut.cut.injEq] at h
                have := (ih ds').2 h.2
                rw [hf] at this
                simp only [Option.some.injEq] at this
                rw [this, h.1]
    rw [key]
    constructor
    · intro e
      right
      exact ⟨h', e⟩
    · rintro (⟨⟨r, h3, h4, h5⟩, -⟩ | ⟨-, h2⟩)
      · exact absurd h5 (h' r h3 h4)
      · exact h2

/-! ## Examples and refutations -/

/-- Tolerances of the examples. -/
def exTol : STol := ⟨1 / 100000000, 1 / 100000000000000000000⟩

/-- Example: `(x1 - 2)² - 1 ≤ 0`, active where the column `bin` is 1. -/
def discRow (b : ℤ) : Row :=
  { nonlin := true, g := fun y => (y 1 - 2) * (y 1 - 2) - 1, cols := [1],
    d := fun y _ => 2 * (y 1 - 2), rl := none, ru := some 0, bin := b }

/-- Example columns. -/
def exOC : Cols := ⟨fun _ => 0, fun _ => 5, fun _ => false⟩

example : sepTangent exTol exOC (discRow 2) (pt2 0 1) = .cut ⟨[(1, -2), (2, 2)], none, some 0⟩ := by decide +kernel

example : sat ⟨[(1, -2), (2, 2)], none, some 0⟩ (fun i => if i = 1 then 3 else 1) :=
  tangent_valid_partial exTol exOC (discRow 2) (pt2 0 1) _ _ (by decide +kernel)
    (by intro c hc; simp [discRow] at hc; subst hc; norm_num [exOC])
    (by intro c hc; simp [discRow] at hc; subst hc; norm_num [discRow, exTol, pt2])
    (by intro _; norm_num [discRow, dir, pt2]) (by intro h; exact absurd rfl h)
    ⟨fun l hl => (by cases hl), fun u hu => (by
      simp only [discRow, Option.some.injEq] at hu
      subst hu
      norm_num [discRow])⟩ (by intro _; norm_num [discRow]; decide)

/-- **C140 (refuted).** An indicator of index 0 is not seen: with `bin = 0` the tangent is not switched off at `z = x0 = 0`,
`x1 = 0`, where the row is inactive. -/
theorem indicator_zero_ignored :
    sepTangent exTol exOC (discRow 0) (pt2 0 1) = .cut ⟨[(1, -2)], none, some (-2)⟩ ∧
    ¬ sat ⟨[(1, -2)], none, some (-2)⟩ (pt2 0 0) := by
  refine ⟨by decide +kernel, ?_⟩
  intro h
  have := h.2 (-2) rfl
  norm_num [act, pt2] at this

/-- **C140 (refuted).** A row with two finite bounds and an indicator: its index is inserted twice, an exception. -/
theorem two_sides_throw : sepTangent exTol exOC { discRow 2 with rl := some (-1) } (pt2 0 1) = .thrown := by
  decide +kernel

/-- Example: `-x1 / 10⁹ + x2 ≤ 0`. -/
def smallRow : Row :=
  { nonlin := true, g := fun y => -(1 / 1000000000) * y 1 + y 2, cols := [1, 2],
    d := fun _ c => if c = 1 then -(1 / 1000000000) else 1, rl := none, ru := some 0, bin := -1 }

/-- **C140 (refuted).** The rule of `BonOuterDescription` moves a small coefficient to the wrong bound: the row
`-x1 / 10⁹ + x2 ≤ 0`, with `x1 ∈ [0, 5]`, linearised at 0, becomes `x2 ≤ 0` instead of `x2 ≤ 5·10⁻⁹` and cuts off the feasible
point `x1 = 5, x2 = 5·10⁻⁹`. -/
theorem od_cuts_off : ∃ (r : Row) (c : OCut), r.ru = some 0 ∧ (∀ y, r.g y = -(1 / 1000000000) * y 1 + y 2) ∧
    odTangent exTol exOC r 0 (fun _ => 0) = .cut c ∧
    sepTangent exTol exOC r (fun _ => 0) = .cut ⟨[(2, 1)], none, some (1 / 200000000)⟩ ∧
    inRow r.rl r.ru (r.g (fun i => if i = 1 then 5 else 1 / 200000000)) ∧
    ¬ sat c (fun i => if i = 1 then 5 else 1 / 200000000) := by
  refine ⟨smallRow, ⟨[(2, 1)], none, some 0⟩, rfl, fun _ => rfl, by decide +kernel, by decide +kernel, ?_, ?_⟩
  · refine ⟨fun l hl => (by cases hl), fun u hu => ?_⟩
    simp only [smallRow, Option.some.injEq] at hu
    subst hu
    norm_num [smallRow]
  · intro h
    have := h.2 0 rfl
    norm_num [act] at this

/-- **C140 (refuted).** A row with two finite bounds and multiplier 0 gives, in `getMyOuterApproximation`, a cut without
sides. -/
theorem od_zero_dual_free : odTangent exTol exOC { discRow (-1) with rl := some (-1) } 0 (pt2 0 1) =
    .cut ⟨[(1, -2)], none, none⟩ := by decide +kernel

/-- **C140** exact tangent of `BonOuterDescription` when no coefficient is smaller than `tiny`: the first-order expansion with both finite sides for a row with one bound, and with
the lower side exactly for a negative, the upper side exactly for a positive multiplier for a row with two. -/
theorem od_tangent_exact (T : STol) (C : Cols) (r : Row) (dual : ℚ) (x : ℕ → ℚ) (hd : ∀ c ∈ r.cols, T.tiny ≤ |r.d x c|) :
    odTangent T C r dual x = perspective r.bin ⟨r.cols.map (fun c => (c, r.d x c)),
      if r.ru ≠ none ∧ 0 ≤ dual then none else r.rl.map (fun l => l - r.g x + (r.cols.map (fun c => r.d x c * x c)).sum),
      if r.rl ≠ none ∧ dual ≤ 0 then none else r.ru.map (fun u => u - r.g x + (r.cols.map (fun c => r.d x c * x c)).sum)⟩ := by
  have key : ∀ (cs : List ℕ) (k : OCut), (∀ c ∈ cs, T.tiny ≤ |r.d x c|) →
      tanLoop (cleanOD T) none C r x cs k = some ⟨k.co ++ cs.map (fun c => (c, r.d x c)),
        addTo k.lb (cs.map (fun c => r.d x c * x c)).sum, addTo k.ub (cs.map (fun c => r.d x c * x c)).sum⟩ := by
    intro cs
    induction cs with
    | nil =>
      intro k _
      have : ∀ o : Option ℚ, addTo o 0 = o := by intro o; cases o <;> simp [addTo]
      simp [tanLoop, this]
    | cons c cs ih =>
      intro k hc
      have h1 := hc c (by simp)
      rw [tanLoop]
      simp only [cleanOD, if_pos h1, Option.any_none]
      rw [if_neg (by simp), ih _ (fun e he => hc e (by simp [he]))]
      have : ∀ (o : Option ℚ) (a b : ℚ), addTo (addTo o a) b = addTo o (a + b) := by
        intro o a b
        cases o <;> simp [addTo, add_assoc]
      simp [this]
  unfold odTangent
  rw [key r.cols _ hd]
  simp only [List.nil_append]
  congr 2
  · unfold odSides
    cases hl : r.rl <;> cases hu : r.ru <;> simp [addTo, sub_eq_add_neg] <;> split <;> simp
  · unfold odSides
    cases hl : r.rl <;> cases hu : r.ru <;> simp [addTo, sub_eq_add_neg] <;> split <;> simp

/-- **C140** exact rule of `BonOuterDescription` for a small coefficient of a row with one bound: with `b` the lower column bound if the sign of the coefficient and the kind of row are
(positive, ≥) or (negative, ≤) and the upper column bound otherwise, the term is replaced by its value at `b` if `b` is below 10000 in the direction of the bound, and else the coefficient is raised
to ±`tiny`.  (A valid cut needs the other bound.) -/
theorem od_small_exact (T : STol) (v cl cu q xs : ℚ) (lb ub : Option ℚ) (h1 : T.vt ≤ |v|) (h2 : |v| < T.tiny) :
    (0 < v → cleanOD T v cl cu (some q) none xs lb ub = if -10000 < cl then ⟨none, lb.map (· + v * (xs - cl)), ub⟩ else ⟨some T.tiny, lb, ub⟩) ∧
    (v < 0 → cleanOD T v cl cu (some q) none xs lb ub = if cu < 10000 then ⟨none, lb.map (· + v * (xs - cu)), ub⟩ else ⟨some (-T.tiny), lb, ub⟩) ∧
    (0 < v → cleanOD T v cl cu none (some q) xs lb ub = if cu < 10000 then ⟨none, lb, ub.map (· + v * (xs - cu))⟩ else ⟨some T.tiny, lb, ub⟩) ∧
    (v < 0 → cleanOD T v cl cu none (some q) xs lb ub = if -10000 < cl then ⟨none, lb, ub.map (· + v * (xs - cl))⟩ else ⟨some (-T.tiny), lb, ub⟩) := by
  unfold cleanOD
  have n1 : ¬ T.tiny ≤ |v| := not_le.2 h2
  have n2 : ¬ |v| < T.vt := not_lt.2 h1
  simp only [if_neg n1, if_neg n2]
  refine ⟨fun hv => ?_, fun hv => ?_, fun hv => ?_, fun hv => ?_⟩
  · simp [hv, addTo]
  · have : ¬ 0 < v := by linarith
    simp [this, addTo]
  · simp [hv, addTo]
  · have : ¬ 0 < v := by linarith
    simp [this, addTo]

/-- **C140** coefficients of at least `tiny` are kept, those below `very_tiny` dropped without changing the sides, and small ones of a row with two bounds raised to ±`tiny`. -/
theorem od_small_other (T : STol) (v cl cu xs : ℚ) (rl ru lb ub : Option ℚ) :
    (T.tiny ≤ |v| → cleanOD T v cl cu rl ru xs lb ub = ⟨some v, lb, ub⟩) ∧
    (|v| < T.tiny → |v| < T.vt → cleanOD T v cl cu rl ru xs lb ub = ⟨none, lb, ub⟩) ∧
    (|v| < T.tiny → T.vt ≤ |v| → rl ≠ none → ru ≠ none → (0 < v → cleanOD T v cl cu rl ru xs lb ub = ⟨some T.tiny, lb, ub⟩) ∧ (v < 0 → cleanOD T v cl cu rl ru xs lb ub = ⟨some (-T.tiny), lb, ub⟩)) := by
  unfold cleanOD
  refine ⟨fun h => if_pos h, fun h1 h2 => by rw [if_neg (not_le.2 h1), if_pos h2], fun h1 h2 h3 h4 => ?_⟩
  rw [if_neg (not_le.2 h1), if_neg (not_lt.2 h2)]
  refine ⟨fun hv => ?_, fun hv => ?_⟩
  · simp [h3, h4, hv]
  · have : ¬ 0 < v := by linarith
    simp [h3, h4, this]

/-- The four cases of `od_small_exact` with column bounds 0 and 5. -/
example : exTol.vt ≤ |(1 / 1000000000 : ℚ)| ∧ |(1 / 1000000000 : ℚ)| < exTol.tiny ∧
    cleanOD exTol (1 / 1000000000) 0 5 (some 0) none 1 (some 0) none = ⟨none, some (1 / 1000000000), none⟩ ∧
    cleanOD exTol (1 / 1000000000) 0 5 none (some 0) 1 none (some 0) = ⟨none, none, some (-4 / 1000000000)⟩ := by decide +kernel

end Verif.Sepa

import Verif.Oa.Lemmas
import Mathlib.Algebra.BigOperators.Intervals
import Mathlib.Algebra.BigOperators.Ring.Finset
import Mathlib.Algebra.Order.BigOperators.Group.Finset
/-! # C12: Benders cut -/
namespace Verif.Oa
open Finset

/-- Multiplier with which row `i` enters the aggregated cut (0 for linear rows and negligible multipliers). -/
def mult (rows : List RowData) (i : Nat) : ℚ :=
  match rows[i]? with
  | some r => if r.nonlin ∧ |r.dual| > 1 / 1000000 then r.dual else 0
  | none => 0

/-- Side of the row selected by the sign of its multiplier. -/
def side (rows : List RowData) (i : Nat) : ℚ :=
  match rows[i]? with
  | some r => if r.dual < 0 then r.rl - r.g else r.ru - r.g
  | none => 0

/-- Silent removals of the aggregated coefficients. -/
def silentB (T : Tol) (rows : List RowData) (jac : List (Nat × Nat × ℚ)) (x y : Nat → ℚ) : ℚ :=
  (jac.map (fun t => if |mult rows t.1 * t.2.2| < T.tiny ∧ |mult rows t.1 * t.2.2| < T.vt then
    |mult rows t.1 * t.2.2| * |y t.2.1 - x t.2.1| else 0)).sum

theorem bendersRows_spec (rows : List RowData) : ∀ {ks u}, bendersRows rows = some (ks, u) →
    ks.length = rows.length ∧ u = ∑ i ∈ range rows.length, mult rows i * side rows i ∧
    (∀ i, ks[i]? = some true → mult rows i ≠ 0 ∧ ∃ r, rows[i]? = some r ∧ mult rows i = r.dual ∧
      (r.dual < 0 → r.rl > -10000000000) ∧ (0 < r.dual → r.ru < 10000000000)) ∧
    (∀ i, ks[i]? = some false → mult rows i = 0) := by
  induction rows with
  | nil =>
    intro ks u h
    simp only [bendersRows, Option.some.injEq, Prod.mk.injEq] at h
    obtain ⟨rfl, rfl⟩ := h
    simp
  | cons r rs ih =>
    intro ks u h
    have hm0 : mult (r :: rs) 0 = if r.nonlin ∧ |r.dual| > 1 / 1000000 then r.dual else 0 := by simp [mult]
    have hmS : ∀ i, mult (r :: rs) (i + 1) = mult rs i := by intro i; simp [mult]
    have hs0 : side (r :: rs) 0 = if r.dual < 0 then r.rl - r.g else r.ru - r.g := by simp [side]
    have hsS : ∀ i, side (r :: rs) (i + 1) = side rs i := by intro i; simp [side]
    unfold bendersRows at h
    cases hb : bendersRows rs with
    | none => rw [hb] at h; simp at h
    | some p =>
      obtain ⟨ks', u'⟩ := p
      rw [hb] at h
      obtain ⟨i1, i2, i3, i4⟩ := ih hb
      simp only [Option.bind_eq_bind, Option.bind_some, Option.pure_def] at h
      have fin : ∀ (b : Bool) (w : ℚ), (b = true → mult (r :: rs) 0 ≠ 0 ∧ mult (r :: rs) 0 = r.dual ∧
          (r.dual < 0 → r.rl > -10000000000) ∧ (0 < r.dual → r.ru < 10000000000)) → (b = false → mult (r :: rs) 0 = 0) →
          w = mult (r :: rs) 0 * side (r :: rs) 0 → ks = b :: ks' → u = u' + w →
          ks.length = (r :: rs).length ∧ u = ∑ i ∈ range (r :: rs).length, mult (r :: rs) i * side (r :: rs) i ∧
          (∀ i, ks[i]? = some true → mult (r :: rs) i ≠ 0 ∧ ∃ r', (r :: rs)[i]? = some r' ∧ mult (r :: rs) i = r'.dual ∧
            (r'.dual < 0 → r'.rl > -10000000000) ∧ (0 < r'.dual → r'.ru < 10000000000)) ∧
          (∀ i, ks[i]? = some false → mult (r :: rs) i = 0) := by
        intro b w hbt hbf hw hk hu
        subst hk
        refine ⟨by simp [i1], ?_, ?_, ?_⟩
        · rw [hu, List.length_cons, sum_range_succ', hw, i2]
          simp only [hmS, hsS]
        · intro i hi
          cases i with
          | zero =>
            simp only [List.getElem?_cons_zero, Option.some.injEq] at hi
            obtain ⟨a, b', c, d⟩ := hbt hi
            exact ⟨a, r, by simp, b', c, d⟩
          | succ i =>
            simp only [List.getElem?_cons_succ] at hi
            rw [hmS]; simpa using i3 i hi
        · intro i hi
          cases i with
          | zero => simp only [List.getElem?_cons_zero, Option.some.injEq] at hi; exact hbf hi
          | succ i => simp only [List.getElem?_cons_succ] at hi; rw [hmS]; exact i4 i hi
      by_cases hk : r.nonlin = true ∧ |r.dual| > 1 / 1000000
      · rw [if_pos hk] at h
        have hne : r.dual ≠ 0 := by
          intro h0; have := hk.2; rw [h0, abs_zero] at this; norm_num at this
        have hm : mult (r :: rs) 0 = r.dual := by rw [hm0, if_pos hk]
        by_cases hd : r.dual < 0
        · rw [if_pos hd] at h
          by_cases hl : r.rl > -10000000000
          · rw [if_pos hl] at h
            simp only [Option.some.injEq, Prod.mk.injEq] at h
            exact fin true (r.dual * (r.rl - r.g)) (fun _ => ⟨by rw [hm]; exact hne, hm, fun _ => hl, fun h' => absurd hd (not_lt.mpr h'.le)⟩)
              (by simp) (by rw [hm, hs0, if_pos hd]) h.1.symm h.2.symm
          · rw [if_neg hl] at h; simp at h
        · rw [if_neg hd] at h
          by_cases hl : r.ru < 10000000000
          · rw [if_pos hl] at h
            simp only [Option.some.injEq, Prod.mk.injEq] at h
            exact fin true (r.dual * (r.ru - r.g)) (fun _ => ⟨by rw [hm]; exact hne, hm, fun h' => absurd h' hd, fun _ => hl⟩)
              (by simp) (by rw [hm, hs0, if_neg hd]) h.1.symm h.2.symm
          · rw [if_neg hl] at h; simp at h
      · rw [if_neg hk] at h
        simp only [Option.some.injEq, Prod.mk.injEq] at h
        have hm : mult (r :: rs) 0 = 0 := by rw [hm0, if_neg hk]
        exact fin false 0 (by simp) (fun _ => hm) (by rw [hm]; simp) h.1.symm (by rw [h.2.symm]; simp)

/-- Dense activity. -/
def dact (n : Nat) (c y : Nat → ℚ) : ℚ := ∑ i ∈ range n, c i * y i

theorem dact_upd {n : Nat} {c y : Nat → ℚ} {j : Nat} (hj : j < n) (v : ℚ) :
    dact n (fun i => if i = j then c i + v else c i) y = dact n c y + v * y j := by
  unfold dact
  have : ∀ i ∈ range n, (if i = j then c i + v else c i) * y i = c i * y i + (if i = j then v * y j else 0) := by
    intro i _
    by_cases h : i = j
    · subst h; simp; ring
    · simp [h]
  rw [sum_congr rfl this, sum_add_distrib, sum_ite_eq' (range n) j]
  simp [hj]

theorem bendersJac_spec {T : Tol} {cl cu x y : Nat → ℚ} {rows : List RowData} {ks : List Bool} {n : Nat}
    (hx : InCols T.infM cl cu x) (hy : InCols T.infM cl cu y) (hbig : 10000000000 ≤ T.infM)
    (hk1 : ∀ i, ks[i]? = some true → mult rows i ≠ 0 ∧ ∃ r, rows[i]? = some r ∧ mult rows i = r.dual ∧
      (r.dual < 0 → r.rl > -10000000000) ∧ (0 < r.dual → r.ru < 10000000000))
    (hk2 : ∀ i, ks[i]? = some false → mult rows i = 0) (jac : List (Nat × Nat × ℚ))
    (hcol : ∀ t ∈ jac, t.2.1 < n)
    (hneg : ∀ t ∈ jac, ∀ r, rows[t.1]? = some r → mult rows t.1 < 0 → r.ru < T.infM ∨ T.tiny ≤ |mult rows t.1 * t.2.2| ∨
      |mult rows t.1 * t.2.2| < T.vt) :
    ∀ {s s' : BState}, bendersJac T cl cu x rows ks jac s = some s' →
    dact n s'.cut y - s'.ub ≤ dact n s.cut y - s.ub +
      (jac.map (fun t => mult rows t.1 * t.2.2 * (y t.2.1 - x t.2.1))).sum + silentB T rows jac x y := by
  induction jac with
  | nil => intro s s' h; simp only [bendersJac, Option.some.injEq] at h; subst h; simp [silentB]
  | cons t es ih =>
    intro s s' h
    obtain ⟨i, j, v⟩ := t
    have ih' := @ih (fun t h => hcol t (List.mem_cons_of_mem _ h)) (fun t h => hneg t (List.mem_cons_of_mem _ h))
    have hsil : silentB T rows ((i, j, v) :: es) x y = (if |mult rows i * v| < T.tiny ∧ |mult rows i * v| < T.vt then
        |mult rows i * v| * |y j - x j| else 0) + silentB T rows es x y := by simp [silentB]
    have hs0 : 0 ≤ (if |mult rows i * v| < T.tiny ∧ |mult rows i * v| < T.vt then |mult rows i * v| * |y j - x j| else 0) := by
      split
      · positivity
      · exact le_refl _
    rw [hsil, List.map_cons, List.sum_cons]
    unfold bendersJac at h
    cases hki : ks[i]? with
    | none => rw [hki] at h; simp at h
    | some b =>
      cases b with
      | false =>
        have hm := hk2 i hki
        rw [hki] at h
        cases hri : rows[i]? with
        | none => rw [hri] at h; simp at h
        | some r =>
          rw [hri] at h
          simp only at h
          have := ih' h
          rw [hm] at hs0 ⊢
          simp only [zero_mul] at *
          linarith
      | true =>
        obtain ⟨hmne, r, hri, hmr, hlo, hup⟩ := hk1 i hki
        rw [hki, hri] at h
        simp only at h
        have hrec := ih' h
        have hstep : dact n (bStep T T.vt cl cu x r.rl r.ru s j (r.dual * v)).cut y - (bStep T T.vt cl cu x r.rl r.ru s j (r.dual * v)).ub ≤
            dact n s.cut y - s.ub + mult rows i * v * (y j - x j) +
            (if |mult rows i * v| < T.tiny ∧ |mult rows i * v| < T.vt then |mult rows i * v| * |y j - x j| else 0) := by
          rw [hmr]
          rw [hmr] at hs0
          have hjn : j < n := hcol (i, j, v) List.mem_cons_self
          obtain ⟨k1, k2, k3, k4, k5, k6, k7⟩ := cleanO_spec (tiny := T.tiny) (vt := T.vt) (v := r.dual * v) (rl := r.rl) (ru := r.ru)
            (lb := s.lb) (ub := s.ub) (hy j) (hx j)
          have hrow : (cleanO T.infM T.tiny T.vt (r.dual * v) (cl j) (cu j) r.rl r.ru (x j) s.lb s.ub).keep = false →
              r.ru < T.infM ∨ |r.dual * v| < T.vt ∧ |r.dual * v| < T.tiny := by
            intro hkeep
            have hnt : ¬ T.tiny ≤ |r.dual * v| := by
              intro hb; unfold cleanO at hkeep; rw [if_pos hb] at hkeep; simp at hkeep
            rcases lt_or_gt_of_ne (show r.dual ≠ 0 by rw [← hmr]; exact hmne) with hd | hd
            · rcases hneg (i, j, v) List.mem_cons_self r hri (by rw [hmr]; exact hd) with h1 | h1 | h1
              · exact Or.inl h1
              · simp only [hmr] at h1; exact absurd h1 hnt
              · simp only [hmr] at h1; exact Or.inr ⟨h1, not_le.mp hnt⟩
            · left; exact lt_of_lt_of_le (hup hd) hbig
          have hsilentcase : |r.dual * v| < T.vt ∧ |r.dual * v| < T.tiny →
              cleanO T.infM T.tiny T.vt (r.dual * v) (cl j) (cu j) r.rl r.ru (x j) s.lb s.ub = ⟨false, r.dual * v, s.lb, s.ub⟩ := by
            intro hb; unfold cleanO; rw [if_neg (not_le.mpr hb.2), if_pos hb.1]
          have hab : -(r.dual * v * (y j - x j)) ≤ |r.dual * v| * |y j - x j| := by
            rw [← abs_mul]; exact neg_le_abs _
          unfold bStep
          generalize cleanO T.infM T.tiny T.vt (r.dual * v) (cl j) (cu j) r.rl r.ru (x j) s.lb s.ub = k at *
          by_cases hk : k.keep = true
          · obtain ⟨_, e2⟩ := k6 hk
            simp only [hk, if_true, k1, e2, dact_upd hjn]
            linarith
          · have hk' : k.keep = false := by simpa using hk
            simp only [hk', Bool.false_eq_true, if_false]
            rcases hrow hk' with h1 | h1
            · have := (k7 hk').1 h1; linarith
            · have he := hsilentcase h1
              subst he
              rw [if_pos ⟨h1.2, h1.1⟩]
              simp only
              linarith
        linarith

theorem pack_act (n : Nat) (c y : Nat → ℚ) :
    act (((List.range n).filter (fun i => |c i| > 1 / 10 ^ 20)).map (fun i => (i, c i))) y ≤
      dact n c y + 1 / 10 ^ 20 * ∑ i ∈ range n, |y i| := by
  have h1 : act (((List.range n).filter (fun i => |c i| > 1 / 10 ^ 20)).map (fun i => (i, c i))) y =
      ∑ i ∈ range n, (if |c i| > 1 / 10 ^ 20 then c i * y i else 0) := by
    induction n with
    | zero => simp [act]
    | succ n ih =>
      rw [List.range_succ, List.filter_append, List.map_append, act_append, ih, sum_range_succ]
      congr 1
      by_cases h : |c n| > 1 / 10 ^ 20
      · rw [List.filter_cons, if_pos (by simpa using h), if_pos h]; simp [act]
      · rw [List.filter_cons, if_neg (by simpa using h), if_neg h]; simp [act]
  rw [h1, dact, mul_sum, ← sum_add_distrib]
  apply sum_le_sum
  intro i _
  split
  · have : 0 ≤ 1 / 10 ^ 20 * |y i| := by positivity
    linarith
  · rename_i h
    have h2 : |c i| ≤ 1 / 10 ^ 20 := not_lt.mp h
    have h3 : |c i * y i| ≤ 1 / 10 ^ 20 * |y i| := by
      rw [abs_mul]; exact mul_le_mul_of_nonneg_right h2 (abs_nonneg _)
    have := neg_le_abs (c i * y i)
    linarith

theorem jac_sum (rows : List RowData) (jac : List (Nat × Nat × ℚ)) (x y : Nat → ℚ) (m : Nat) (hj : ∀ t ∈ jac, t.1 < m) :
    (jac.map (fun t => mult rows t.1 * t.2.2 * (y t.2.1 - x t.2.1))).sum =
      ∑ i ∈ range m, mult rows i * lin (rowEntries jac i) x y := by
  induction jac with
  | nil => simp [rowEntries, lin]
  | cons t es ih =>
    rw [List.map_cons, List.sum_cons, ih (fun t h => hj t (List.mem_cons_of_mem _ h))]
    have hi := hj t List.mem_cons_self
    have : ∀ i ∈ range m, mult rows i * lin (rowEntries (t :: es) i) x y =
        (if i = t.1 then mult rows t.1 * t.2.2 * (y t.2.1 - x t.2.1) else 0) + mult rows i * lin (rowEntries es i) x y := by
      intro i _
      by_cases h : i = t.1
      · have : rowEntries (t :: es) i = t.2 :: rowEntries es i := by
          unfold rowEntries; rw [List.filter_cons, if_pos (by simp [h])]; rfl
        rw [this, lin_cons, if_pos h, h]; ring
      · have : rowEntries (t :: es) i = rowEntries es i := by
          unfold rowEntries; rw [List.filter_cons, if_neg (by simpa using fun hh => h hh.symm)]
        rw [this, if_neg h]; ring
    rw [sum_congr rfl this, sum_add_distrib, sum_ite_eq' (range m) t.1]
    simp [hi]

/-- **C12** (partial).  With a linear objective (or a feasibility problem) the aggregated cut is satisfied by every feasible `y`
of a convex problem, up to silently dropped coefficients, provided no coefficient of a one-sided `≥` row is small.
Missing: nonlinear objectives (`benders_objective_refuted`) and small coefficients of `≥` rows (`benders_small_refuted`). -/
theorem benders_valid_partial {T : Tol} {cl cu x y : Nat → ℚ} {n : Nat} {rows : List RowData} {jac : List (Nat × Nat × ℚ)}
    {G : Nat → (Nat → ℚ) → ℚ} {c : Cut} (hx : InCols T.infM cl cu x) (hy : InCols T.infM cl cu y)
    (hbig : 10000000000 ≤ T.infM) (hcol : ∀ t ∈ jac, t.2.1 < n) (hj : ∀ t ∈ jac, t.1 < rows.length)
    (hneg : ∀ t ∈ jac, ∀ r, rows[t.1]? = some r → mult rows t.1 < 0 → r.ru < T.infM ∨ T.tiny ≤ |mult rows t.1 * t.2.2| ∨
      |mult rows t.1 * t.2.2| < T.vt)
    (hfeas : ∀ (i : Nat) r, rows[i]? = some r → InRow T.infM r (G i y))
    (hconv : ∀ (i : Nat) r, rows[i]? = some r → (0 < mult rows i → r.g + lin (rowEntries jac i) x y ≤ G i y) ∧
      (mult rows i < 0 → G i y ≤ r.g + lin (rowEntries jac i) x y))
    (hc : benders T cl cu x n rows jac none = some c) :
    act c.co y ≤ c.ub + silentB T rows jac x y + 1 / 10 ^ 20 * ∑ i ∈ range n, |y i| := by
  unfold benders at hc
  cases hb : bendersRows rows with
  | none => rw [hb] at hc; simp at hc
  | some p =>
    obtain ⟨ks, u⟩ := p
    rw [hb] at hc
    obtain ⟨_, hu, hk1, hk2⟩ := bendersRows_spec rows hb
    simp only [Option.bind_eq_bind, Option.bind_some, Option.pure_def] at hc
    cases hs : bendersJac T cl cu x rows ks jac ⟨fun _ => 0, 0, u⟩ with
    | none => rw [hs] at hc; simp at hc
    | some s =>
      rw [hs] at hc
      simp only [Option.bind_some, Option.some.injEq] at hc
      have hsp := bendersJac_spec hx hy hbig hk1 hk2 jac hcol hneg hs
      rw [jac_sum rows jac x y rows.length hj] at hsp
      have hd0 : dact n (fun _ => (0:ℚ)) y = 0 := by simp [dact]
      simp only [hd0] at hsp
      have hp := pack_act n s.cut y
      have hagg : ∑ i ∈ range rows.length, mult rows i * lin (rowEntries jac i) x y ≤ u := by
        rw [hu]
        apply sum_le_sum
        intro i hi
        have hil : i < rows.length := mem_range.mp hi
        have hri : rows[i]? = some rows[i] := List.getElem?_eq_getElem hil
        obtain ⟨c1, c2⟩ := hconv i _ hri
        have hf := hfeas i _ hri
        by_cases hm : mult rows i = 0
        · rw [hm]; simp
        · have hmv : mult rows i = rows[i].dual := by
            have : mult rows i = if rows[i].nonlin ∧ |rows[i].dual| > 1 / 1000000 then rows[i].dual else 0 := by
              unfold mult; rw [hri]
            rw [this] at hm ⊢
            by_cases h : rows[i].nonlin = true ∧ |rows[i].dual| > 1 / 1000000
            · rw [if_pos h]
            · rw [if_neg h] at hm; exact absurd rfl hm
          have hkt : ks[i]? = some true := by
            have hlen := (bendersRows_spec rows hb).1
            have : ks[i]? = some (ks[i]'(by omega)) := List.getElem?_eq_getElem _
            cases hkb : ks[i]'(by omega) with
            | true => rw [this, hkb]
            | false => rw [hkb] at this; exact absurd (hk2 i this) hm
          obtain ⟨_, r, hr, _, hlo, hup⟩ := hk1 i hkt
          rw [hri] at hr; simp only [Option.some.injEq] at hr; subst hr
          have hside : side rows i = if rows[i].dual < 0 then rows[i].rl - rows[i].g else rows[i].ru - rows[i].g := by
            unfold side; rw [hri]
          rcases lt_or_gt_of_ne hm with h | h
          · have hd : rows[i].dual < 0 := hmv ▸ h
            rw [hside, if_pos hd]
            have h1 := c2 h
            have h2 := hf.2 (by have := hlo hd; linarith)
            nlinarith
          · have hd : 0 < rows[i].dual := hmv ▸ h
            rw [hside, if_neg (not_lt.mpr hd.le)]
            have h1 := c1 h
            have h2 := hf.1 (by have := hup hd; linarith)
            nlinarith
      subst hc
      simp only at *
      linarith

/-- Tolerances used in the examples. -/
def tolB : Tol := { inf := 10 ^ 30, infM := 10 ^ 20, tiny := 1 / 10 ^ 6, vt := 1 / 10 ^ 17, relax := 0 }

/-- **C12** refuted with a nonlinear objective: minimise `(y-3)²` subject to `y ≤ 1` (declared nonlinear).  At the optimum `x = 1`,
`f = 4`, multiplier 4, the right-hand side accumulated from the row is overwritten, and the cut `-α ≤ -8` cuts off the optimal point
`(1, f(1)) = (1, 4)` itself. -/
theorem benders_objective_refuted :
    let c := benders tolB (fun _ => 0) (fun _ => 10) (fun _ => 1) 1 [⟨true, -10^30, 1, 1, 4⟩] [(0, 0, 1)] (some (4, [(0, -4)], 1/10^15))
    c = some ⟨[(1, -1)], -10^30, -8⟩ ∧ ¬ Sat tolB.inf ⟨[(1, -1)], -10^30, -8⟩ (fun i => if i = 0 then 1 else 4) := by
  constructor
  · norm_num [benders, bendersRows, bendersJac, bendersObj, bStep, cleanO, tolB, List.range_succ]
  · norm_num [Sat, tolB, act]

/-- **C12** refuted for a `≥` row with a small coefficient: the row `5e-7·y ≥ 2.5e-5` (satisfied by `y = 100`, column `[0,100]`),
linearised at the infeasible point 0 with multiplier -1, yields the cut `0 ≤ -2.5e-5`. -/
theorem benders_small_refuted :
    let c := benders tolB (fun _ => 0) (fun _ => 100) (fun _ => 0) 1 [⟨true, 25/10^6, 10^30, 0, -1⟩] [(0, 0, 5/10^7)] none
    c = some ⟨[], -10^30, -25/10^6⟩ ∧ ¬ Sat tolB.inf ⟨[], -10^30, -25/10^6⟩ (fun _ => 100) := by
  constructor
  · norm_num [benders, bendersRows, bendersJac, bStep, cleanO, tolB, List.range_succ]
  · norm_num [Sat, tolB, act]

/-- The hypotheses of `benders_valid_partial` are met by `y ≤ 1` and `y₀ ≥ -2` with multipliers 1 and -1; here the cut is
`1·y + 1·(-y)...` aggregated to `y₀ - y₁ ≤ 3`. -/
example : benders tolB (fun _ => -10) (fun _ => 10) (fun i => if i = 0 then 1 else -2) 2
    [⟨true, -10^30, 1, 1, 1⟩, ⟨true, -2, 10^30, -2, -1⟩] [(0, 0, 1), (1, 1, 1)] none = some ⟨[(0, 1), (1, -1)], -10^30, 3⟩ := by
  norm_num [benders, bendersRows, bendersJac, bStep, cleanO, tolB, List.range_succ]

end Verif.Oa

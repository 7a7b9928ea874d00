import Verif.Oa.Extract
import Verif.Oa.Lemmas
/-! # C11, C46: linear relaxations contain the feasible set (positive parts and refutations) -/
namespace Verif.Oa

theorem act_cons (e : Nat × ℚ) (p : List (Nat × ℚ)) (x : Nat → ℚ) : act (e :: p) x = e.2 * x e.1 + act p x := by simp [act]

theorem lin_eq (es : List (Nat × ℚ)) (x y : Nat → ℚ) : lin es x y = act es y - act es x := by
  induction es with
  | nil => simp [lin, act]
  | cons e es ih => rw [lin_cons, act_cons, act_cons, ih]; ring

theorem ext_fold {T : Tol} {cl cu x : Nat → ℚ} {r : RowData} (hn : r.nonlin = true) (h0 : 0 < T.tiny) (h1 : 0 < T.vt)
    (es : List (Nat × ℚ)) (hes : ∀ e ∈ es, T.tiny ≤ |e.2| ∨ e.2 = 0) : ∀ b : ℚ × ℚ,
    (T.inf ≤ b.2 → T.inf ≤ (es.foldl (extStep T cl cu x r) b).2) ∧
    (b.1 ≤ -T.inf → (es.foldl (extStep T cl cu x r) b).1 ≤ -T.inf) ∧
    (T.inf ≤ (es.foldl (extStep T cl cu x r) b).2 ∨ (es.foldl (extStep T cl cu x r) b).2 = b.2 + act es x) ∧
    ((es.foldl (extStep T cl cu x r) b).1 ≤ -T.inf ∨ (es.foldl (extStep T cl cu x r) b).1 = b.1 + act es x) := by
  induction es with
  | nil => intro b; simp [act]
  | cons e es ih =>
    intro b
    have ih' := ih (fun e' h => hes e' (List.mem_cons_of_mem _ h))
    rw [List.foldl_cons, act_cons]
    rcases hes e List.mem_cons_self with he | he
    · have hs : extStep T cl cu x r b e =
          (if b.1 > -T.inf then b.1 + e.2 * x e.1 else b.1, if b.2 < T.inf then b.2 + e.2 * x e.1 else b.2) := by
        have : cleanO T.infM T.tiny T.vt e.2 (cl e.1) (cu e.1) r.rl r.ru (x e.1) b.1 b.2 = ⟨true, e.2, b.1, b.2⟩ := by
          unfold cleanO; rw [if_pos he]
        unfold extStep; rw [this]; simp [hn]
      rw [hs]
      obtain ⟨i1, i2, i3, i4⟩ := ih' (if b.1 > -T.inf then b.1 + e.2 * x e.1 else b.1, if b.2 < T.inf then b.2 + e.2 * x e.1 else b.2)
      refine ⟨fun h => i1 (by simp [not_lt.mpr h, h]), fun h => i2 (by simp [not_lt.mpr h, h]), ?_, ?_⟩
      · by_cases hb : b.2 < T.inf
        · rcases i3 with h | h
          · exact Or.inl h
          · right; rw [h]; simp only [hb, if_true]; ring
        · left; exact i1 (by simp [hb]; exact not_lt.mp hb)
      · by_cases hb : b.1 > -T.inf
        · rcases i4 with h | h
          · exact Or.inl h
          · right; rw [h]; simp only [hb, if_true]; ring
        · left; apply i2; simp only [hb, if_false]; exact not_lt.mp hb
    · have hs : extStep T cl cu x r b e = b := by
        have : cleanO T.infM T.tiny T.vt e.2 (cl e.1) (cu e.1) r.rl r.ru (x e.1) b.1 b.2 = ⟨false, e.2, b.1, b.2⟩ := by
          unfold cleanO; rw [he]; simp [h0, h1]
        unfold extStep; rw [this]; simp [hn]
      rw [hs, he]
      simpa using ih' b

theorem ext_fold_lin {T : Tol} {cl cu x : Nat → ℚ} {r : RowData} (hn : r.nonlin = false)
    (es : List (Nat × ℚ)) : ∀ b : ℚ × ℚ, es.foldl (extStep T cl cu x r) b = b := by
  induction es with
  | nil => intro b; rfl
  | cons e es ih => intro b; rw [List.foldl_cons]; simp only [extStep, hn, Bool.false_eq_true, if_false]; exact ih b

theorem extInit_spec {T : Tol} {r : RowData} (hn : r.nonlin = true) (hnb : nonBinding T r = false) :
    (UsesLo { T with inf := T.infM } r → (extInit T r).1 = r.rl - r.g - 1/10^7) ∧
    (¬ UsesLo { T with inf := T.infM } r → (extInit T r).1 = -T.inf) ∧
    (UsesUp { T with inf := T.infM } r → (extInit T r).2 = r.ru - r.g + 1/10^7) ∧
    (¬ UsesUp { T with inf := T.infM } r → (extInit T r).2 = T.inf) := by
  simp only [extInit, hn, if_true, hnb, Bool.false_eq_true, if_false, UsesLo, UsesUp]
  by_cases a1 : r.rl > -T.infM <;> by_cases a2 : r.ru < T.infM
  · simp only [a1, a2, and_self, if_true, true_and, true_implies, ge_iff_le, not_lt]
    refine ⟨fun h => ?_, fun h => ?_, fun h => ?_, fun h => ?_⟩
    · rw [if_neg (not_le.mpr h)]
    · rw [if_pos h]
    · rw [if_neg (not_le.mpr h)]
    · rw [if_pos h]
  · refine ⟨fun h => ?_, fun h => absurd ⟨a1, fun h' => absurd h'.2 a2⟩ h, fun h => absurd h.1 a2, fun h => ?_⟩ <;>
      simp only [a2, and_false, if_false, a1, if_true]
  · refine ⟨fun h => absurd h.1 a1, fun h => ?_, fun h => ?_, fun h => absurd ⟨a2, fun h' => absurd h'.1 a1⟩ h⟩ <;>
      simp only [a2, false_and, if_false, a1, if_true]
  · refine ⟨fun h => absurd h.1 a1, fun h => ?_, fun h => absurd h.1 a2, fun h => ?_⟩ <;>
      simp only [a2, false_and, if_false, a1]

/-- **C46** (partial).  The relaxation extracted by the interface contains every feasible point `y` of a convex problem,
provided no ranged nonlinear row has a zero multiplier, no nonlinear row has a small nonzero coefficient and linear rows have
no constant term.  Each of the three provisos is necessary: see the refutations below. -/
theorem extract_valid_partial {T : Tol} {cl cu x y : Nat → ℚ} {rows : List RowData} {jac : List (Nat × Nat × ℚ)}
    {G : Nat → (Nat → ℚ) → ℚ} (hr : 0 ≤ T.relax) (h0 : 0 < T.tiny) (h1 : 0 < T.vt)
    (hnb : ∀ r ∈ rows, nonBinding T r = false)
    (hbig : ∀ (i : Nat) r, rows[i]? = some r → r.nonlin = true → ∀ e ∈ rowEntries jac i, T.tiny ≤ |e.2| ∨ e.2 = 0)
    (hlin : ∀ (i : Nat) r, rows[i]? = some r → r.nonlin = false → G i y = act (rowEntries jac i) y)
    (hfeas : ∀ (i : Nat) r, rows[i]? = some r → InRow T.infM r (G i y))
    (hconv : ∀ (i : Nat) r, rows[i]? = some r → r.nonlin = true →
      (UsesUp { T with inf := T.infM } r → r.g + lin (rowEntries jac i) x y ≤ G i y) ∧
      (UsesLo { T with inf := T.infM } r → G i y ≤ r.g + lin (rowEntries jac i) x y)) :
    (extract T cl cu x rows jac).length = rows.length ∧ ∀ c ∈ extract T cl cu x rows jac, Sat T.inf c y := by
  have hm : ∀ b : ℚ, 0 ≤ T.relax * max |b| 1 := fun b => mul_nonneg hr (le_trans (abs_nonneg _) (le_max_left _ _))
  have hfil : rows.zipIdx.filter (fun p => !nonBinding T p.1) = rows.zipIdx := by
    apply List.filter_eq_self.mpr
    intro p hp
    have := List.mem_zipIdx_iff_getElem?.mp hp
    rw [hnb _ (List.mem_of_getElem? this)]; rfl
  unfold extract
  simp only [hfil]
  refine ⟨by simp, ?_⟩
  intro c hc
  obtain ⟨q, hq, rfl⟩ := List.mem_map.mp hc
  rw [List.zip_map', List.mem_map] at hq
  obtain ⟨p, hp, rfl⟩ := hq
  have hpr : rows[p.2]? = some p.1 := List.mem_zipIdx_iff_getElem?.mp hp
  obtain ⟨r, i⟩ := p
  simp only at *
  have hrow := hfeas i r hpr
  -- bounds before relaxation are valid
  suffices hs : ∀ b : ℚ × ℚ, b = (rowEntries jac i).foldl (extStep T cl cu x r) (extInit T r) →
      (b.1 ≤ -T.inf ∨ b.1 ≤ act (rowEntries jac i) y) ∧ (T.inf ≤ b.2 ∨ act (rowEntries jac i) y ≤ b.2) by
    obtain ⟨s1, s2⟩ := hs _ rfl
    unfold extBounds extRelax
    constructor
    · dsimp only
      split
      · have := hm ((rowEntries jac i).foldl (extStep T cl cu x r) (extInit T r)).1
        rcases s1 with h | h
        · left; linarith
        · right; linarith
      · exact s1
    · dsimp only
      split
      · have := hm ((rowEntries jac i).foldl (extStep T cl cu x r) (extInit T r)).2
        rcases s2 with h | h
        · left; linarith
        · right; linarith
      · exact s2
  intro b hb
  by_cases hn : r.nonlin = true
  · obtain ⟨f1, f2, f3, f4⟩ := ext_fold (cl := cl) (cu := cu) (x := x) hn h0 h1 _ (hbig i r hpr hn) (extInit T r)
    rw [← hb] at f1 f2 f3 f4
    obtain ⟨cU, cL⟩ := hconv i r hpr hn
    rw [lin_eq] at cU cL
    obtain ⟨g1, g2, g3, g4⟩ := extInit_spec hn (hnb r (List.mem_of_getElem? hpr))
    constructor
    · by_cases hl : UsesLo { T with inf := T.infM } r
      · rcases f4 with h | h
        · exact Or.inl h
        · right; rw [h, g1 hl]
          have := cL hl
          have := hrow.2 hl.1
          linarith
      · left; apply f2; rw [g2 hl]
    · by_cases hl : UsesUp { T with inf := T.infM } r
      · rcases f3 with h | h
        · exact Or.inl h
        · right; rw [h, g3 hl]
          have := cU hl
          have := hrow.1 hl.1
          linarith
      · left; apply f1; rw [g4 hl]
  · have hn' : r.nonlin = false := by simpa using hn
    rw [ext_fold_lin hn'] at hb
    simp only [extInit, hn', Bool.false_eq_true, if_false] at hb
    subst hb
    rw [← hlin i r hpr hn']
    constructor
    · dsimp only; by_cases h : r.rl > -T.infM
      · right; rw [if_pos h]; exact hrow.2 h
      · left; rw [if_neg h]
    · dsimp only; by_cases h : r.ru < T.infM
      · right; rw [if_pos h]; exact hrow.1 h
      · left; rw [if_neg h]

/-- Default tolerances of the interface (`infty_` 1e100, `tiny_` 1e-8, `veryTiny_` 1e-20 scaled down to convenient numbers). -/
def tolEx : Tol := { inf := 10 ^ 30, infM := 10 ^ 20, tiny := 1 / 10 ^ 6, vt := 1 / 10 ^ 17, relax := 0 }

/-- **C46** refuted (1): a ranged nonlinear row whose multiplier is zero is removed from the matrix but not from the bound
arrays.  Rows `y² ∈ [0, 100]` and `y ≤ 5`, linearised at 3: the LP gets the row `18 ≤ y ≤ 18`, which cuts off `y = 1`. -/
theorem extract_misaligned :
    let rows : List RowData := [⟨true, 0, 100, 9, 0⟩, ⟨false, -10^30, 5, 3, 0⟩]
    let jac : List (Nat × Nat × ℚ) := [(0, 0, 6), (1, 0, 1)]
    extract tolEx (fun _ => 0) (fun _ => 10) (fun _ => 3) rows jac = [⟨[(0, 1)], 18, 18⟩] ∧
      ¬ Sat tolEx.inf ⟨[(0, 1)], 18, 18⟩ (fun _ => 1) := by
  constructor
  · norm_num [extract, nonBinding, tolEx, rowEntries, extBounds, extRelax, extStep, extInit, cleanO]
  · norm_num [Sat, tolEx, act]

/-- **C46** refuted (2): a coefficient that is removed from the right-hand side is left in the matrix.  Row `-5e-7·y ≤ 0.5`
(declared nonlinear), `y ≤ -1e6`, linearised at the feasible point `-1e6`, which the resulting row cuts off. -/
theorem extract_keeps_removed :
    let rows : List RowData := [⟨true, -10^30, 1/2, 1/2, 0⟩]
    let jac : List (Nat × Nat × ℚ) := [(0, 0, -5/10^7)]
    extract tolEx (fun _ => -10^30) (fun _ => -10^6) (fun _ => -10^6) rows jac = [⟨[(0, -5/10^7)], -10^30, 1/10^7⟩] ∧
      ¬ Sat tolEx.inf ⟨[(0, -5/10^7)], -10^30, 1/10^7⟩ (fun _ => -10^6) := by
  constructor
  · norm_num [extract, nonBinding, tolEx, rowEntries, extBounds, extRelax, extStep, extInit, cleanO]
  · norm_num [Sat, tolEx, act]

/-- **C46** refuted (3): the bounds of linear rows are copied without the row's constant term.  Row `y + 1 ≥ 1`, declared linear:
the LP gets `y ≥ 1`, which cuts off `y = 0`. -/
theorem extract_linear_constant :
    let rows : List RowData := [⟨false, 1, 10^30, 1, 0⟩]
    let jac : List (Nat × Nat × ℚ) := [(0, 0, 1)]
    extract tolEx (fun _ => 0) (fun _ => 10) (fun _ => 0) rows jac = [⟨[(0, 1)], 1, 10^30⟩] ∧
      ¬ Sat tolEx.inf ⟨[(0, 1)], 1, 10^30⟩ (fun _ => 0) := by
  constructor
  · norm_num [extract, nonBinding, tolEx, rowEntries, extBounds, extRelax, extStep, extInit, cleanO]
  · norm_num [Sat, tolEx, act]

/-! ### `OuterApprox` -/

theorem out_fold {inf tiny vt : ℚ} {cl cu x : Nat → ℚ} {nl : Bool} (es : List (Nat × ℚ))
    (hes : nl = true ∨ ∀ e ∈ es, tiny ≤ |e.2|) : ∀ c : Cut,
    (es.foldl (outStep inf tiny vt cl cu x nl) c).co = c.co ++ es ∧
    (inf ≤ c.ub → (es.foldl (outStep inf tiny vt cl cu x nl) c).ub = c.ub) ∧
    (c.lb ≤ -inf → (es.foldl (outStep inf tiny vt cl cu x nl) c).lb = c.lb) ∧
    ((∀ p, p <+: es → |c.ub + act p x| < inf) → (es.foldl (outStep inf tiny vt cl cu x nl) c).ub = c.ub + act es x) ∧
    ((∀ p, p <+: es → |c.lb + act p x| < inf) → (es.foldl (outStep inf tiny vt cl cu x nl) c).lb = c.lb + act es x) := by
  induction es with
  | nil => intro c; simp [act]
  | cons e es ih =>
    intro c
    have ih' := ih (hes.imp id (fun h e' h' => h e' (List.mem_cons_of_mem _ h')))
    have hs : outStep inf tiny vt cl cu x nl c e =
        ⟨c.co ++ [e], addInf inf c.lb (e.2 * x e.1), addInf inf c.ub (e.2 * x e.1)⟩ := by
      unfold outStep
      rcases hes with h | h
      · simp [h]
      · have : cleanA (10^20) 10000 tiny vt e.2 (cl e.1) (cu e.1) c.lb c.ub (x e.1) c.lb c.ub = ⟨true, e.2, c.lb, c.ub⟩ := by
          unfold cleanA; rw [if_pos (h e List.mem_cons_self)]
        rw [this]; simp
    rw [List.foldl_cons, hs]
    obtain ⟨i1, i2, i3, i4, i5⟩ := ih' ⟨c.co ++ [e], addInf inf c.lb (e.2 * x e.1), addInf inf c.ub (e.2 * x e.1)⟩
    refine ⟨by rw [i1]; simp, ?_, ?_, ?_, ?_⟩
    · intro h
      have : addInf inf c.ub (e.2 * x e.1) = c.ub := by unfold addInf; rw [if_pos (Or.inr h)]
      rw [i2 (by simp only [this]; exact h)]; exact this
    · intro h
      have : addInf inf c.lb (e.2 * x e.1) = c.lb := by unfold addInf; rw [if_pos (Or.inl h)]
      rw [i3 (by simp only [this]; exact h)]; exact this
    · intro hp
      have hc : |c.ub| < inf := by simpa [act] using hp [] List.nil_prefix
      have hc' := abs_lt.mp hc
      have hadd : addInf inf c.ub (e.2 * x e.1) = c.ub + e.2 * x e.1 := by
        unfold addInf; rw [if_neg (by push Not; exact ⟨hc'.1, hc'.2⟩)]
      simp only [hadd] at i4
      rw [hadd, i4 (by
        intro p hpp
        have := hp (e :: p) (List.cons_prefix_cons.mpr ⟨rfl, hpp⟩)
        rw [act_cons, ← add_assoc] at this; exact this), act_cons]; ring
    · intro hp
      have hc : |c.lb| < inf := by simpa [act] using hp [] List.nil_prefix
      have hc' := abs_lt.mp hc
      have hadd : addInf inf c.lb (e.2 * x e.1) = c.lb + e.2 * x e.1 := by
        unfold addInf; rw [if_neg (by push Not; exact ⟨hc'.1, hc'.2⟩)]
      simp only [hadd] at i5
      rw [hadd, i5 (by
        intro p hpp
        have := hp (e :: p) (List.cons_prefix_cons.mpr ⟨rfl, hpp⟩)
        rw [act_cons, ← add_assoc] at this; exact this), act_cons]; ring

/-- **C11** (partial).  A row loaded by the OuterApprox class is satisfied by every feasible point if the gradient inequality
holds on each finite side (nonlinear rows), or if the row is affine without small coefficients (linear rows; a small coefficient
breaks it, see `outer_linear_row_refuted`).  Magnitudes are assumed to stay below the infinity value.  What is missing from C11:
small coefficients, and the objective cut with small coefficients (`outer_objective_refuted`). -/
theorem outer_row_valid_partial {inf tiny vt : ℚ} {cl cu x y : Nat → ℚ} {r : RowData} {es : List (Nat × ℚ)} {gy : ℚ}
    (hes : r.nonlin = true ∨ ∀ e ∈ es, tiny ≤ |e.2|) (hrow : InRow inf r gy)
    (hU : r.ru < inf → r.g + lin es x y ≤ gy) (hL : r.rl > -inf → gy ≤ r.g + lin es x y)
    (hmU : r.ru < inf → ∀ p, p <+: es → |r.ru - r.g + 1/10^7 + act p x| < inf)
    (hmL : r.rl > -inf → ∀ p, p <+: es → |r.rl - r.g - 1/10^7 + act p x| < inf) :
    (outRow inf tiny vt cl cu x r es).co = es ∧ Sat inf (outRow inf tiny vt cl cu x r es) y := by
  obtain ⟨f1, f2, f3, f4, f5⟩ := out_fold (inf := inf) (vt := vt) (cl := cl) (cu := cu) (x := x) es hes
    ⟨[], (outInit inf r).1, (outInit inf r).2⟩
  simp only [lin_eq] at hU hL
  have hco : (outRow inf tiny vt cl cu x r es).co = es := by unfold outRow; rw [f1]; simp
  refine ⟨hco, ?_, ?_⟩
  · by_cases h : r.rl > -inf
    · right
      have h1 : (outInit inf r).1 = r.rl - r.g - 1/10^7 := by simp only [outInit]; rw [if_pos h]
      rw [hco]; unfold outRow
      rw [f5 (by simp only [h1]; exact hmL h)]
      simp only [h1]
      have := hL h; have := hrow.2 h; linarith
    · left
      have h1 : (outInit inf r).1 = r.rl := by simp only [outInit]; rw [if_neg h]
      unfold outRow; rw [f3 (by simp only [h1]; exact not_lt.mp h)]; simp only [h1]; exact not_lt.mp h
  · by_cases h : r.ru < inf
    · right
      have h1 : (outInit inf r).2 = r.ru - r.g + 1/10^7 := by simp only [outInit]; rw [if_pos h]
      rw [hco]; unfold outRow
      rw [f4 (by simp only [h1]; exact hmU h)]
      simp only [h1]
      have := hU h; have := hrow.1 h; linarith
    · left
      have h1 : (outInit inf r).2 = r.ru := by simp only [outInit]; rw [if_neg h]
      unfold outRow; rw [f2 (by simp only [h1]; exact not_lt.mp h)]; simp only [h1]; exact not_lt.mp h

/-- **C11** refuted for linear rows: `5e-7·y ≤ 5e-5` with `y ∈ [0,100]` linearised at 0 becomes `5e-7·y ≤ 1e-7`, which cuts off the
feasible point `y = 100`. -/
theorem outer_linear_row_refuted :
    let c := outRow (10^30) (1/10^6) (1/10^17) (fun _ => 0) (fun _ => 100) (fun _ => 0) ⟨false, -10^30, 5/10^5, 0, 0⟩ [(0, 5/10^7)]
    (5/10^7 : ℚ) * 100 ≤ 5/10^5 ∧ c = ⟨[(0, 5/10^7)], -10^30, 1/10^7⟩ ∧ ¬ Sat (10^30) c (fun _ => 100) := by
  have : outRow (10^30) (1/10^6) (1/10^17) (fun _ => 0) (fun _ => 100) (fun _ => 0) ⟨false, -10^30, 5/10^5, 0, 0⟩ [(0, 5/10^7)] =
      ⟨[(0, 5/10^7)], -10^30, 1/10^7⟩ := by
    norm_num [outRow, outStep, outInit, cleanA]
  simp only [this]
  norm_num [Sat, act]

/-- **C11** refuted for the objective cut: objective `f(y) = 5e-7·y` (convex), `y ∈ [0,100]`, linearised at 0; the cut is
`-α ≤ -5e-5`, which cuts off `(y, α) = (0, f(0)) = (0, 0)`. -/
theorem outer_objective_refuted :
    let c := outObj (1/10^6) (1/10^17) (fun _ => 0) (fun _ => 100) (fun _ => 0) 1 (10^30) 0 [(0, 5/10^7)]
    c = ⟨[(1, -1)], -10^30, -5/10^5⟩ ∧ ¬ Sat (10^30) c (fun _ => 0) := by
  have : outObj (1/10^6) (1/10^17) (fun _ => 0) (fun _ => 100) (fun _ => 0) 1 (10^30) 0 [(0, 5/10^7)] =
      ⟨[(1, -1)], -10^30, -5/10^5⟩ := by
    norm_num [outObj, cleanA]
  simp only [this]
  norm_num [Sat, act]

/-- **C11** (partial): the objective cut is valid when no gradient coefficient is small. -/
theorem outer_objective_valid_partial {inf tiny vt : ℚ} {cl cu x y : Nat → ℚ} {n : Nat} {f fy : ℚ} {grad : List (Nat × ℚ)}
    (hes : ∀ e ∈ grad, tiny ≤ |e.2|) (hconv : f + lin grad x y ≤ fy) (hα : fy ≤ y n) :
    (outObj tiny vt cl cu x n inf f grad).co = grad ++ [(n, -1)] ∧ Sat inf (outObj tiny vt cl cu x n inf f grad) y := by
  have key : ∀ (es : List (Nat × ℚ)), (∀ e ∈ es, tiny ≤ |e.2|) → ∀ c : Cut,
      (es.foldl (fun c e =>
        let k := cleanA (10 ^ 20) 10000 tiny vt e.2 (cl e.1) (cu e.1) (-inf) 0 (x e.1) c.lb c.ub
        if k.keep then ⟨c.co ++ [(e.1, k.val)], c.lb, k.ub + k.val * x e.1⟩ else ⟨c.co, c.lb, k.ub⟩) c) =
      ⟨c.co ++ es, c.lb, c.ub + act es x⟩ := by
    intro es
    induction es with
    | nil => intro _ c; simp [act]
    | cons e es ih =>
      intro h c
      have : cleanA (10^20) 10000 tiny vt e.2 (cl e.1) (cu e.1) (-inf) 0 (x e.1) c.lb c.ub = ⟨true, e.2, c.lb, c.ub⟩ := by
        unfold cleanA; rw [if_pos (h e List.mem_cons_self)]
      rw [List.foldl_cons]
      simp only [this, if_true]
      rw [ih (fun e' h' => h e' (List.mem_cons_of_mem _ h')), act_cons]
      simp [add_assoc]
  unfold outObj
  rw [key grad hes]
  rw [lin_eq] at hconv
  refine ⟨by simp, Or.inl (le_refl _), Or.inr ?_⟩
  simp only [List.nil_append, act_append, act_single]
  linarith

end Verif.Oa

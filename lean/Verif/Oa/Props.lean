import Verif.Oa.Lemmas
/-! # C09, C10: outer-approximation cuts of the interface are valid and tight -/
namespace Verif.Oa

/-- **C09** (single row, `getConstraintOuterApproximation`).  Let the row be convex on the side(s) it is linearised on:
`g(x) + ∇g(x)(y-x) ≤ g(y)` if the upper side is used, `≥` if the lower one is.  Then every point `y` within the column
and row bounds satisfies the cut, up to the coefficients that are below the silent-removal threshold. -/
theorem row_cut_valid {T : Tol} {cl cu x y : Nat → ℚ} {r : RowData} {es : List (Nat × ℚ)} {gy : ℚ}
    (hx : InCols T.infM cl cu x) (hy : InCols T.infM cl cu y) (hrow : InRow T.infM r gy)
    (hU : UsesUp T r → r.g + lin es x y ≤ gy) (hL : UsesLo T r → gy ≤ r.g + lin es x y) :
    SatUpTo T.inf (silent T.tiny T.vt es x y) (rowOa T cl cu x r es) y := by
  have hi := rowOa_inv (r := r) hx hy es
  have hun := rowOa_unused (r := r) hx es
  constructor
  · by_cases hl : UsesLo T r
    · rcases hi.lo with h | ⟨h1, h2⟩
      · exact Or.inl h
      · right
        rw [initCut_lb_of_uses hl] at h2
        have := hL hl
        have := hrow.2 h1
        linarith
    · exact Or.inl (hun.2 hl)
  · by_cases hu : UsesUp T r
    · rcases hi.up with h | ⟨h1, h2⟩
      · exact Or.inl h
      · right
        rw [initCut_ub_of_uses hu] at h2
        have := hU hu
        have := hrow.1 h1
        linarith
    · exact Or.inl (hun.1 hu)

/-- **C09**: exactly valid when no nonzero coefficient is below the silent-removal threshold. -/
theorem row_cut_valid_exact {T : Tol} {cl cu x y : Nat → ℚ} {r : RowData} {es : List (Nat × ℚ)} {gy : ℚ}
    (hx : InCols T.infM cl cu x) (hy : InCols T.infM cl cu y) (hrow : InRow T.infM r gy)
    (hvt : ∀ e ∈ es, e.2 ≠ 0 → T.vt ≤ |e.2|)
    (hU : UsesUp T r → r.g + lin es x y ≤ gy) (hL : UsesLo T r → gy ≤ r.g + lin es x y) :
    Sat T.inf (rowOa T cl cu x r es) y := by
  have h := row_cut_valid hx hy hrow hU hL
  rw [silent_zero hvt] at h
  simpa [SatUpTo, Sat] using h

/-- Exact shape of the answer of `getOuterApproximation` (no second point): one relaxed cut per nonlinear row, in row order,
built from that row's own gradient entries only. -/
theorem oa_rows_exact {T : Tol} {cl cu x : Nat → ℚ} {rows : List RowData} {jac : List (Nat × Nat × ℚ)}
    (hj : ∀ t ∈ jac, t.1 < rows.length) (theta : ℚ) (lp : Bool) :
    getOa T cl cu x rows jac none theta lp none =
      some ((nlRows rows 0).map (fun p => relaxRhs T (rowOa T cl cu x p.1 (rowEntries jac p.2)))) := by
  unfold getOa
  simp only
  rw [numberRows_cuts T rows 0 0, jacLoop_spec T cl cu x rows jac hj]
  simp [skipCut, rowOa, Function.comp_def]

/-- With a second point, the rows returned are those of `oa_rows_exact` which are either violated by at least `theta` there
or all of them when the log level is zero: the threshold is ignored in silent mode. -/
theorem oa_rows_filtered {T : Tol} {cl cu x : Nat → ℚ} {rows : List RowData} {jac : List (Nat × Nat × ℚ)}
    (hj : ∀ t ∈ jac, t.1 < rows.length) (x2 : Nat → ℚ) (theta : ℚ) (lp : Bool) :
    getOa T cl cu x rows jac (some x2) theta lp none =
      some ((((nlRows rows 0).map (fun p => rowOa T cl cu x p.1 (rowEntries jac p.2))).filter
        (fun c => lp = false ∨ theta ≤ 0 ∨ theta ≤ act c.co x2 - c.ub ∨ theta ≤ c.lb - act c.co x2)).map (relaxRhs T)) := by
  unfold getOa
  simp only
  rw [numberRows_cuts T rows 0 0, jacLoop_spec T cl cu x rows jac hj]
  simp only [Option.bind_eq_bind, Option.bind_some, Option.pure_def, rowOa]
  congr 2
  apply List.filter_congr
  intro c _
  cases lp
  · simp [skipCut]
  · rw [Bool.eq_iff_iff]; simp [skipCut, or_assoc, not_lt]

theorem relaxRhs_satUpTo {T : Tol} {eps : ℚ} {c : Cut} {y : Nat → ℚ} (hr : 0 ≤ T.relax) (h : SatUpTo T.inf eps c y) :
    SatUpTo T.inf eps (relaxRhs T c) y := by
  have hm : ∀ b : ℚ, 0 ≤ T.relax * max |b| 1 := fun b => mul_nonneg hr (le_trans (abs_nonneg _) (le_max_left _ _))
  unfold relaxRhs
  constructor
  · simp only
    have := hm c.lb
    split
    · rcases h.1 with h | h
      · left; linarith
      · right; linarith
    · exact h.1
  · simp only
    have := hm c.ub
    split
    · rcases h.2 with h | h
      · left; linarith
      · right; linarith
    · exact h.2

/-- Objective cut invariant. -/
theorem obj_inv {T : Tol} {vt : ℚ} {cl cu x y : Nat → ℚ} (h0 : 0 < T.infM) (hx : InCols T.infM cl cu x)
    (hy : InCols T.infM cl cu y) (es : List (Nat × ℚ)) : ∀ {B : ℚ} {c : Cut}, act c.co y - c.ub ≤ B →
    act (es.foldl (objStep T vt cl cu x) c).co y - (es.foldl (objStep T vt cl cu x) c).ub ≤
      B + lin es x y + silent T.tiny vt es x y := by
  induction es with
  | nil => intro B c h; simpa [lin_nil, silent_nil] using h
  | cons e es ih =>
    intro B c h
    rw [List.foldl_cons, lin_cons, silent_cons]
    have hs : act (objStep T vt cl cu x c e).co y - (objStep T vt cl cu x c e).ub ≤ B + e.2 * (y e.1 - x e.1) +
        (if |e.2| < T.tiny ∧ |e.2| < vt then |e.2| * |y e.1 - x e.1| else 0) := by
      obtain ⟨k1, k2, k3, k4, k5, k6, k7⟩ := cleanO_spec (tiny := T.tiny) (vt := vt) (v := e.2) (rl := -T.inf) (ru := 0)
        (lb := c.lb) (ub := c.ub) (hy e.1) (hx e.1)
      unfold objStep
      generalize cleanO T.infM T.tiny vt e.2 (cl e.1) (cu e.1) (-T.inf) 0 (x e.1) c.lb c.ub = k at *
      have hs0 : 0 ≤ (if |e.2| < T.tiny ∧ |e.2| < vt then |e.2| * |y e.1 - x e.1| else 0) := by
        split
        · positivity
        · exact le_refl _
      by_cases hk : k.keep = true
      · obtain ⟨_, e2⟩ := k6 hk
        simp only [hk, if_true, act_append, act_single, k1, e2]
        linarith
      · have hk' : k.keep = false := by simpa using hk
        have := (k7 hk').1 h0
        simp only [hk', Bool.false_eq_true, if_false]
        linarith
    have := ih hs
    linarith

/-- **C09** (objective cut).  Every `y` within the column bounds together with any `α ≥ f(y)` (the value `y n` of the
objective variable) satisfies the objective cut of a convex objective, up to silently removed coefficients. -/
theorem obj_cut_valid {T : Tol} {vt : ℚ} {cl cu x y : Nat → ℚ} {n : Nat} {f fy : ℚ} {grad : List (Nat × ℚ)} (h0 : 0 < T.infM)
    (hx : InCols T.infM cl cu x) (hy : InCols T.infM cl cu y) (hconv : f + lin grad x y ≤ fy) (hα : fy ≤ y n) :
    SatUpTo T.inf (silent T.tiny vt grad x y) (objOa T vt cl cu x n f grad) y := by
  have h := obj_inv (vt := vt) h0 hx hy grad (B := f) (c := ⟨[], -f, -f⟩) (by simp [act])
  unfold objOa
  refine ⟨Or.inl (le_refl _), Or.inr ?_⟩
  simp only [act_append, act_single]
  linarith

/-- **C09** for the whole call: every cut returned by `getOuterApproximation`, with or without a second point and with or
without an objective cut, is satisfied by every feasible `(y, α)` with `α ≥ f(y)`.  `G i y` is the value of row `i`. -/
theorem oa_cuts_valid {T : Tol} {cl cu x y : Nat → ℚ} {rows : List RowData} {jac : List (Nat × Nat × ℚ)}
    {G : Nat → (Nat → ℚ) → ℚ} {F : (Nat → ℚ) → ℚ} {n : Nat} {f : ℚ} {grad : List (Nat × ℚ)} {vt eps : ℚ}
    (h0 : 0 < T.infM) (hr : 0 ≤ T.relax) (hj : ∀ t ∈ jac, t.1 < rows.length)
    (hx : InCols T.infM cl cu x) (hy : InCols T.infM cl cu y)
    (hfeas : ∀ (i : Nat) r, rows[i]? = some r → InRow T.infM r (G i y))
    (hconv : ∀ (i : Nat) r, rows[i]? = some r → r.nonlin = true →
      (UsesUp T r → r.g + lin (rowEntries jac i) x y ≤ G i y) ∧ (UsesLo T r → G i y ≤ r.g + lin (rowEntries jac i) x y))
    (hobj : f + lin grad x y ≤ F y) (hα : F y ≤ y n)
    (heps : ∀ (i : Nat) r, rows[i]? = some r → r.nonlin = true → silent T.tiny T.vt (rowEntries jac i) x y ≤ eps)
    (heps' : silent T.tiny vt grad x y ≤ eps)
    (x2 : Option (Nat → ℚ)) (theta : ℚ) (lp useObj : Bool) :
    ∃ cuts, getOa T cl cu x rows jac x2 theta lp (if useObj then some (n, f, grad, vt) else none) = some cuts ∧
      ∀ c ∈ cuts, SatUpTo T.inf eps c y := by
  have hmono : ∀ {e : ℚ} {c : Cut}, e ≤ eps → SatUpTo T.inf e c y → SatUpTo T.inf eps c y := by
    intro e c he h
    refine ⟨h.1.imp id (fun h => by linarith), h.2.imp id (fun h => by linarith)⟩
  have hrows : ∀ p ∈ nlRows rows 0, SatUpTo T.inf eps (rowOa T cl cu x p.1 (rowEntries jac p.2)) y := by
    intro p hp
    unfold nlRows at hp
    obtain ⟨hp1, hp3⟩ := List.mem_filter.mp hp
    have hpr : rows[p.2]? = some p.1 := by
      have := List.mem_zipIdx_iff_getElem?.mp hp1
      simpa using this
    have hc := hconv _ _ hpr hp3
    exact hmono (heps _ _ hpr hp3) (row_cut_valid hx hy (hfeas _ _ hpr) hc.1 hc.2)
  have hobjc : SatUpTo T.inf eps (objOa T vt cl cu x n f grad) y := hmono heps' (obj_cut_valid h0 hx hy hobj hα)
  unfold getOa
  simp only
  rw [numberRows_cuts T rows 0 0, jacLoop_spec T cl cu x rows jac hj]
  simp only [Option.bind_eq_bind, Option.bind_some, Option.pure_def]
  set out := List.map (relaxRhs T) (List.filter (fun c => !skipCut c x2 theta lp)
    (List.map (fun p => List.foldl (oaStep T cl cu x p.1) (initCut T p.1) (rowEntries jac p.2)) (nlRows rows 0))) with hout
  have hall : ∀ c ∈ out, SatUpTo T.inf eps c y := by
    intro c hc
    obtain ⟨c1, hc1, rfl⟩ := List.mem_map.mp hc
    obtain ⟨p, hp, rfl⟩ := List.mem_map.mp (List.mem_filter.mp hc1).1
    exact relaxRhs_satUpTo hr (hrows p hp)
  have hall' : ∀ c ∈ out ++ [objOa T vt cl cu x n f grad], SatUpTo T.inf eps c y := by
    intro c hc
    rcases List.mem_append.mp hc with h | h
    · exact hall c h
    · rw [List.mem_singleton.mp h]; exact hobjc
  cases useObj
  · exact ⟨out, rfl, hall⟩
  · cases x2 with
    | none => exact ⟨_, rfl, hall'⟩
    | some z =>
      simp only [if_true]
      split
      · exact ⟨_, rfl, hall⟩
      · exact ⟨_, rfl, hall'⟩

/-! ### C10 -/

/-- One step on a coefficient that is zero or not small: plain accumulation. -/
theorem oaStep_big {T : Tol} {cl cu x : Nat → ℚ} {r : RowData} {c : Cut} {e : Nat × ℚ}
    (he : T.tiny ≤ |e.2|) : oaStep T cl cu x r c e =
      ⟨c.co ++ [e], if c.lb > -T.inf then c.lb + e.2 * x e.1 else c.lb, if c.ub < T.inf then c.ub + e.2 * x e.1 else c.ub⟩ := by
  have : cleanO T.infM T.tiny T.vt e.2 (cl e.1) (cu e.1) r.rl r.ru (x e.1) c.lb c.ub = ⟨true, e.2, c.lb, c.ub⟩ := by
    unfold cleanO; rw [if_pos he]
  unfold oaStep; rw [this]; simp

theorem oaStep_zero {T : Tol} {cl cu x : Nat → ℚ} {r : RowData} {c : Cut} {e : Nat × ℚ} (h0 : 0 < T.tiny)
    (h1 : 0 < T.vt) (he : e.2 = 0) : oaStep T cl cu x r c e = c := by
  have : cleanO T.infM T.tiny T.vt e.2 (cl e.1) (cu e.1) r.rl r.ru (x e.1) c.lb c.ub = ⟨false, e.2, c.lb, c.ub⟩ := by
    unfold cleanO; rw [he]; simp [h0, h1]
  unfold oaStep; rw [this]; simp

theorem fold_big {T : Tol} {cl cu x : Nat → ℚ} {r : RowData} (h0 : 0 < T.tiny) (h1 : 0 < T.vt) (es : List (Nat × ℚ))
    (hes : ∀ e ∈ es, T.tiny ≤ |e.2| ∨ e.2 = 0) : ∀ c : Cut,
    (es.foldl (oaStep T cl cu x r) c).co = c.co ++ es.filter (fun e => e.2 ≠ 0) ∧
    ((∀ p, p <+: es → c.ub + act p x < T.inf) → (es.foldl (oaStep T cl cu x r) c).ub = c.ub + act es x) ∧
    ((∀ p, p <+: es → -T.inf < c.lb + act p x) → (es.foldl (oaStep T cl cu x r) c).lb = c.lb + act es x) := by
  induction es with
  | nil => intro c; simp [act]
  | cons e es ih =>
    intro c
    have hact : ∀ p, act (e :: p) x = e.2 * x e.1 + act p x := by intro p; simp [act]
    have ih' := ih (fun e' h => hes e' (List.mem_cons_of_mem _ h))
    rw [List.foldl_cons]
    rcases hes e List.mem_cons_self with he | he
    · have hne : e.2 ≠ 0 := by intro h; rw [h] at he; simp at he; linarith
      rw [oaStep_big he]
      obtain ⟨a, b, d⟩ := ih' ⟨c.co ++ [e], if c.lb > -T.inf then c.lb + e.2 * x e.1 else c.lb,
        if c.ub < T.inf then c.ub + e.2 * x e.1 else c.ub⟩
      refine ⟨by rw [a]; simp [hne], ?_, ?_⟩
      · intro hp
        have hc : c.ub < T.inf := by simpa [act] using hp [] (List.nil_prefix)
        have := b (by
          intro p hpp
          have := hp (e :: p) (List.cons_prefix_cons.mpr ⟨rfl, hpp⟩)
          rw [hact] at this
          simp only [hc, if_true]; linarith)
        rw [this, hact]; simp only [hc, if_true]; ring
      · intro hp
        have hc : -T.inf < c.lb := by simpa [act] using hp [] (List.nil_prefix)
        have := d (by
          intro p hpp
          have := hp (e :: p) (List.cons_prefix_cons.mpr ⟨rfl, hpp⟩)
          rw [hact] at this
          simp only [gt_iff_lt, hc, if_true]; linarith)
        rw [this, hact]; simp only [gt_iff_lt, hc, if_true]; ring
    · rw [oaStep_zero h0 h1 he]
      obtain ⟨a, b, d⟩ := ih' c
      refine ⟨by rw [a]; simp [he], ?_, ?_⟩
      · intro hp
        rw [b (by
          intro p hpp
          have := hp (e :: p) (List.cons_prefix_cons.mpr ⟨rfl, hpp⟩)
          rw [hact, he] at this; simpa using this), hact, he]; ring
      · intro hp
        rw [d (by
          intro p hpp
          have := hp (e :: p) (List.cons_prefix_cons.mpr ⟨rfl, hpp⟩)
          rw [hact, he] at this; simpa using this), hact, he]; ring

/-- **C10**.  When no coefficient is small, the cut is exactly the first-order expansion: its coefficients are the nonzero
gradient entries, and on each side that is used its margin at the linearisation point is the margin of the row (the partial
sums are assumed not to run into the infinity value). -/
theorem row_cut_support {T : Tol} {cl cu x : Nat → ℚ} {r : RowData} {es : List (Nat × ℚ)} (h0 : 0 < T.tiny) (h1 : 0 < T.vt)
    (hes : ∀ e ∈ es, T.tiny ≤ |e.2| ∨ e.2 = 0) :
    (rowOa T cl cu x r es).co = es.filter (fun e => e.2 ≠ 0) ∧
    (UsesUp T r → (∀ p, p <+: es → r.ru - r.g + act p x < T.inf) →
      act (rowOa T cl cu x r es).co x - (rowOa T cl cu x r es).ub = r.g - r.ru) ∧
    (UsesLo T r → (∀ p, p <+: es → -T.inf < r.rl - r.g + act p x) →
      (rowOa T cl cu x r es).lb - act (rowOa T cl cu x r es).co x = r.rl - r.g) := by
  obtain ⟨a, b, d⟩ := fold_big (cl := cl) (cu := cu) (x := x) (r := r) h0 h1 es hes (initCut T r)
  have hf : act (es.filter (fun e => e.2 ≠ 0)) x = act es x := by
    clear a b d hes
    induction es with
    | nil => rfl
    | cons e es ih =>
      by_cases he : e.2 = 0
      · rw [List.filter_cons, if_neg (by simpa using he), ih]; simp [act, he]
      · rw [List.filter_cons, if_pos (by simpa using he)]
        simp only [act, List.map_cons, List.sum_cons] at *
        rw [ih]
  have hco : (rowOa T cl cu x r es).co = es.filter (fun e => e.2 ≠ 0) := by
    unfold rowOa; rw [a, initCut_co]; simp
  refine ⟨hco, ?_, ?_⟩
  · intro hu hp
    rw [hco, hf]; unfold rowOa
    rw [b (by rw [initCut_ub_of_uses hu]; exact hp), initCut_ub_of_uses hu]; ring
  · intro hu hp
    rw [hco, hf]; unfold rowOa
    rw [d (by rw [initCut_lb_of_uses hu]; exact hp), initCut_lb_of_uses hu]; ring

/-- **C10**: so the linearisation point violates the upper side of the cut exactly when it violates the row. -/
theorem row_cut_violated_iff {T : Tol} {cl cu x : Nat → ℚ} {r : RowData} {es : List (Nat × ℚ)} (h0 : 0 < T.tiny)
    (h1 : 0 < T.vt) (hes : ∀ e ∈ es, T.tiny ≤ |e.2| ∨ e.2 = 0) (hu : UsesUp T r)
    (hp : ∀ p, p <+: es → r.ru - r.g + act p x < T.inf) :
    (rowOa T cl cu x r es).ub < act (rowOa T cl cu x r es).co x ↔ r.ru < r.g := by
  have := (row_cut_support (cl := cl) (cu := cu) (x := x) h0 h1 hes).2.1 hu hp
  constructor <;> intro h <;> linarith

/-- **C10**: a side that is not used (infinite, or the inactive side of a ranged row) stays free. -/
theorem row_cut_unused_side_free {T : Tol} {cl cu x : Nat → ℚ} {r : RowData} (hx : InCols T.infM cl cu x)
    (es : List (Nat × ℚ)) :
    (¬ UsesUp T r → T.inf ≤ (rowOa T cl cu x r es).ub) ∧ (¬ UsesLo T r → (rowOa T cl cu x r es).lb ≤ -T.inf) :=
  rowOa_unused hx es

/-! ### the other two removal procedures -/

/-- **C09** for the removal rule of `TMINLP2OsiLP`: dropping a coefficient never makes a bounded point violate the
remaining inequality (for points within the column bounds; silent removals excepted). -/
theorem cleanT_valid {rowInf colThr tiny vt v cl cu rl ru xs lb ub y A : ℚ}
    (hy : (cl > -colThr → cl ≤ y) ∧ (cu < colThr → y ≤ cu))
    (hvt : v = 0 ∨ vt ≤ |v|) :
    let k := cleanT rowInf colThr tiny vt v cl cu rl ru xs lb ub
    (ru < rowInf → A + v * (y - xs) ≤ ub → if k.keep then A + k.val * (y - xs) ≤ k.ub else A ≤ k.ub) ∧
    (-rowInf < rl → lb ≤ A + v * (y - xs) → if k.keep then k.lb ≤ A + k.val * (y - xs) else k.lb ≤ A) := by
  intro k
  simp only [k, cleanT]
  by_cases h1 : |v| ≥ tiny
  · rw [if_pos h1]; exact ⟨fun _ h => by simpa using h, fun _ h => by simpa using h⟩
  rw [if_neg h1]
  by_cases h2 : |v| < vt
  · rw [if_pos h2]
    rcases hvt with h | h
    · subst h; simp
    · exact absurd h2 (not_lt.mpr h)
  rw [if_neg h2]
  by_cases h3 : cl > -colThr ∧ ¬ v > 0 ∧ ru ≥ rowInf
  · rw [if_pos h3]
    have a1 := hy.1 h3.1
    have a3 := not_lt.mp h3.2.1
    refine ⟨fun h => absurd h3.2.2 (not_le.mpr h), fun _ h => ?_⟩
    simp only [Bool.false_eq_true, if_false]; nlinarith
  rw [if_neg h3]
  by_cases h4 : cl > -colThr ∧ v > 0 ∧ rl ≤ -rowInf
  · rw [if_pos h4]
    have a1 := hy.1 h4.1
    refine ⟨fun _ h => ?_, fun h => absurd h4.2.2 (not_le.mpr h)⟩
    simp only [Bool.false_eq_true, if_false]; nlinarith [h4.2.1]
  rw [if_neg h4]
  by_cases h5 : cu < colThr ∧ v > 0 ∧ ru ≥ rowInf
  · rw [if_pos h5]
    have a1 := hy.2 h5.1
    refine ⟨fun h => absurd h5.2.2 (not_le.mpr h), fun _ h => ?_⟩
    simp only [Bool.false_eq_true, if_false]; nlinarith [h5.2.1]
  rw [if_neg h5]
  by_cases h6 : cu < colThr ∧ ¬ v > 0 ∧ rl ≤ -rowInf
  · rw [if_pos h6]
    have a1 := hy.2 h6.1
    have a3 := not_lt.mp h6.2.1
    refine ⟨fun _ h => ?_, fun h => absurd h6.2.2 (not_le.mpr h)⟩
    simp only [Bool.false_eq_true, if_false]; nlinarith
  rw [if_neg h6]
  exact ⟨fun _ h => by simpa using h, fun _ h => by simpa using h⟩

/-- **C11** refuted at the level of one coefficient: the removal rule of `OuterApprox` pairs signs and bounds the wrong way
round.  Coefficient `5e-7 > 0` of a `≤` row, column in `[0,100]`, linearised at `0`: the inequality `5e-7·y ≤ 1e-5` (satisfied
by `y = 20`) is turned into `0 ≤ 1e-5 - 5e-5`, satisfied by no point. -/
theorem cleanA_invalid :
    let k := cleanA (10^20) 10000 (1/10^6) (1/10^17) (5/10^7) 0 100 (-10^20) 1 0 (-10^20) (1/10^5)
    (5/10^7 : ℚ) * (20 - 0) ≤ 1/10^5 ∧ k.keep = false ∧ k.ub < 0 := by
  norm_num [cleanA]

/-! ### examples -/

/-- Tolerances used in the examples. -/
def tolP : Tol := { inf := 10 ^ 30, infM := 10 ^ 20, tiny := 1 / 10 ^ 6, vt := 1 / 10 ^ 17, relax := 0 }

/-- `y₀² + 5e-7·y₁ ≤ 4` with `y ∈ [0,10]²` linearised at `(2, 1)`: the small coefficient is dropped and the side weakened by using
`y₁ ≥ 0`. -/
example : rowOa tolP (fun _ => 0) (fun _ => 10) (fun i => if i = 0 then 2 else 1) ⟨true, -10^30, 4, 4 + 5/10^7, 1⟩ [(0, 4), (1, 5/10^7)]
    = ⟨[(0, 4)], -10^30, 8⟩ := by
  norm_num [rowOa, initCut, oaStep, cleanO, tolP]

/-- The hypotheses of `row_cut_valid_exact` hold for it and `y = (1, 10)`. -/
example : Sat tolP.inf (rowOa tolP (fun _ => 0) (fun _ => 10) (fun i => if i = 0 then 2 else 1) ⟨true, -10^30, 4, 4 + 5/10^7, 1⟩
    [(0, 4), (1, 5/10^7)]) (fun i => if i = 0 then 1 else 10) := by
  apply row_cut_valid_exact (gy := 1 + 5/10^6)
  · intro j; by_cases h : j = 0 <;> norm_num [tolP, h]
  · intro j; by_cases h : j = 0 <;> norm_num [tolP, h]
  · norm_num [InRow, tolP]
  · intro e he
    simp only [List.mem_cons, List.not_mem_nil, or_false] at he
    rcases he with rfl | rfl <;> norm_num [tolP, abs_of_pos]
  · intro _; norm_num [lin]
  · intro h; exfalso; have := h.1; norm_num [tolP] at this

/-- `row_cut_violated_iff` at the infeasible point 3 of `y² ≤ 4`. -/
example : (rowOa tolP (fun _ => 0) (fun _ => 10) (fun _ => 3) ⟨true, -10^30, 4, 9, 0⟩ [(0, 6)]).ub <
    act (rowOa tolP (fun _ => 0) (fun _ => 10) (fun _ => 3) ⟨true, -10^30, 4, 9, 0⟩ [(0, 6)]).co (fun _ => 3) := by
  norm_num [rowOa, initCut, oaStep, cleanO, tolP, act]

/-- The silent-mode filter: with log level 0 a cut that is not violated at the second point is returned all the same, with a
positive log level it is not. -/
theorem filter_depends_on_log_level :
    (∃ c, getOa tolP (fun _ => 0) (fun _ => 10) (fun _ => 3) [⟨true, -10^30, 4, 9, 0⟩] [(0, 0, 6)] (some (fun _ => 0)) 1 false none = some [c]) ∧
    getOa tolP (fun _ => 0) (fun _ => 10) (fun _ => 3) [⟨true, -10^30, 4, 9, 0⟩] [(0, 0, 6)] (some (fun _ => 0)) 1 true none = some [] := by
  refine ⟨⟨⟨[(0, 6)], -10^30, 13⟩, ?_⟩, ?_⟩
  · norm_num [getOa, numberRows, jacLoop, initCut, oaStep, cleanO, skipCut, relaxRhs, tolP, act]
  · norm_num [getOa, numberRows, jacLoop, initCut, oaStep, cleanO, skipCut, relaxRhs, tolP, act]

end Verif.Oa

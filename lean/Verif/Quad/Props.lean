import Verif.Quad.HessLemmas
import Mathlib.Tactic.NormNum
import Mathlib.Tactic.Linarith
/-!
# Properties of quadratic rows and quadratic cut management (C01-C06)
-/
namespace Verif.Quad

/-! ## C01: value of a quadratic row -/

/-- C01. For every constant, linear part, upper-triangular triplet list (duplicates allowed) and every order in which
`std::sort` may leave equivalent entries, the row is built and evaluates to `c + a·x + xᵀQx` at every point. -/
theorem quadRow_value (c : ℚ) (a : List (Nat × ℚ)) (q : List Ent) (ro co : List Nat)
    (hu : ∀ e ∈ q, e.row ≤ e.col) (hro : IsOrdering rowLt q ro) (hco : IsOrdering colLt q co) :
    ∃ r, QRow.initialize c a q ro co = some r ∧ ∀ x, r.evalF x = quadFun c a q x := by
  obtain ⟨r, h1, h2, h3, h4, h5⟩ := initialize_wf (c := c) (a := a) hu hro hco
  exact ⟨r, h1, fun x => by rw [evalF_eq r h5, h2, h3, h4]⟩

/-- A row with an entry below the diagonal is refused. -/
theorem quadRow_refuses_lower (c : ℚ) (a : List (Nat × ℚ)) (q : List Ent) (ro co : List Nat)
    (hu : ∃ e ∈ q, e.col < e.row) : QRow.initialize c a q ro co = none := by
  obtain ⟨e, he, hlt⟩ := hu
  unfold QRow.initialize
  rw [if_neg]
  simp only [List.all_eq_true, decide_eq_true_eq, not_forall]
  exact ⟨e, he, by omega⟩

def exQ : List Ent := [⟨0, 1, 2⟩, ⟨0, 0, 3⟩, ⟨0, 1, 5⟩]

theorem exQ_row : IsOrdering rowLt exQ [1, 2, 0] := by
  refine ⟨by decide, ?_⟩
  intro rs h
  have : gather [1, 2, 0] exQ = some [⟨0, 0, 3⟩, ⟨0, 1, 5⟩, ⟨0, 1, 2⟩] := rfl
  rw [this] at h; simp only [Option.some.injEq] at h; subst h; simp [rowLt]

theorem exQ_col : IsOrdering colLt exQ [1, 0, 2] := by
  refine ⟨by decide, ?_⟩
  intro rs h
  have : gather [1, 0, 2] exQ = some [⟨0, 0, 3⟩, ⟨0, 1, 2⟩, ⟨0, 1, 5⟩] := rfl
  rw [this] at h; simp only [Option.some.injEq] at h; subst h; simp [colLt]

/-- The hypotheses are met by `1 + 4 x₁ + 3x₀² + 2·7·x₀x₁` (duplicate entry): value 1+8+3+28 = 40 at (1,2). -/
example : ∃ r, QRow.initialize 1 [(1, 4)] exQ [1, 2, 0] [1, 0, 2] = some r ∧
    r.evalF (fun i => if i = 0 then 1 else 2) = 40 := by
  obtain ⟨r, h, hv⟩ := quadRow_value 1 [(1, 4)] exQ [1, 2, 0] [1, 0, 2] (by decide) exQ_row exQ_col
  refine ⟨r, h, ?_⟩
  rw [hv]; norm_num [quadFun, linForm, symForm, exQ]

theorem symForm_lowerToUpper (q : List Ent) (x y : Nat → ℚ) : symForm (lowerToUpper q) x y = symForm q x y := by
  unfold symForm lowerToUpper
  rw [List.map_map]
  congr 1
  apply List.map_congr_left
  intro e _
  simp only [Function.comp]
  by_cases h : e.row = e.col
  · simp [h]
  · rw [if_neg h, if_neg (fun hh => h hh.symm)]; ring

/-- C06 (part). Whatever `make_upper_triangular` accepts comes out upper triangular with the same quadratic form. -/
theorem makeUpper_form (ty : Storage) (q q' : List Ent) (h : makeUpper ty q = some q') :
    (∀ e ∈ q', e.row ≤ e.col) ∧ ∀ x y, symForm q' x y = symForm q x y := by
  cases ty with
  | upper =>
    simp only [makeUpper] at h
    split_ifs at h with hc
    simp only [Option.some.injEq] at h
    subst h
    exact ⟨by simpa using hc, fun _ _ => rfl⟩
  | lower =>
    simp only [makeUpper] at h
    split_ifs at h with hc
    simp only [Option.some.injEq] at h
    subst h
    refine ⟨?_, fun x y => symForm_lowerToUpper q x y⟩
    intro e he
    obtain ⟨e', he', rfl⟩ := List.mem_map.1 he
    simp at hc
    exact hc e' he'
  | full =>
    simp only [makeUpper] at h
    split_ifs at h with hc
    simp only [Option.some.injEq] at h
    subst h; subst hc
    simp

/-- Triangular matrices stored as declared are accepted. -/
theorem makeUpper_accepts (ty : Storage) (q : List Ent)
    (h : match ty with | .upper => ∀ e ∈ q, e.row ≤ e.col | .lower => ∀ e ∈ q, e.col ≤ e.row | .full => q = []) :
    ∃ q', makeUpper ty q = some q' ∧ q'.length = q.length := by
  cases ty with
  | upper => exact ⟨q, by simp only [makeUpper]; rw [if_pos]; simpa using h, rfl⟩
  | lower => exact ⟨lowerToUpper q, by simp only [makeUpper]; rw [if_pos]; simpa using h, by simp [lowerToUpper]⟩
  | full => simp only at h; subst h; exact ⟨[], by simp [makeUpper], rfl⟩

example : makeUpper .lower [⟨1, 0, 2⟩, ⟨1, 1, 4⟩] = some [⟨0, 1, 2⟩, ⟨1, 1, 4⟩] := by decide +kernel

/-- C06 (refuted part). With `Full` storage and at least one entry, the rewriting loop never ends: after every number of
iterations it is still running. -/
theorem full_storage_never_returns (q : List Ent) (hq : q ≠ []) (n : Nat) :
    ∃ st, fullIter n (0, 0, q) = some st := by
  have gen : ∀ n q, q ≠ [] → ∃ st, fullIter n (0, 0, q) = some st := by
    intro n
    induction n with
    | zero => intro q _; exact ⟨_, rfl⟩
    | succ n ih =>
      intro q hq
      have hl : 0 < q.length := List.length_pos_iff.2 hq
      have hg : q[0]? = some q[0] := by simp [hl]
      simp only [fullIter, fullStep, hl, and_self, if_true, hg]
      apply ih
      split_ifs
      · intro h
        have := congrArg List.length h
        rw [List.length_set] at this
        simp only [List.length_nil] at this; omega
      · exact hq
  exact gen n q hq

example : fullIter 5 (0, 0, [⟨0, 1, 2⟩]) = some (0, 0, [⟨1, 0, 2⟩]) := by decide +kernel

/-- `removeDuplicates` drops the only entry of a one-entry matrix: the quadratic form becomes zero. -/
theorem removeDuplicates_loses_last (e : Ent) : removeDuplicates [0] [e] = some [] := by rfl

/-- C06 (refuted part): merging duplicates does not keep the quadratic form. -/
theorem removeDuplicates_changes_form :
    ∃ (q q' : List Ent) (ord : List Nat) (x : Nat → ℚ), IsOrdering rowLt q ord ∧ removeDuplicates ord q = some q' ∧
      symForm q' x x ≠ symForm q x x := by
  refine ⟨exQ, _, [1, 2, 0], fun i => if i = 0 then 1 else 2, exQ_row, rfl, ?_⟩
  norm_num [symForm, exQ, dupLoop]

/-- C01 (partial) for rows built from a quadratic cut: the row built by the constructor evaluates to the cut's function
WITHOUT its constant term.  Full claim (with `cut.c`) fails, see `quadRow_ofCut_drops_constant`. -/
theorem quadRow_ofCut_partial (cut : QCut) (q : List Ent) (ro co : List Nat) (hq : makeUpper cut.ty cut.q = some q)
    (hro : IsOrdering rowLt q ro) (hco : IsOrdering colLt q co) :
    ∃ r, QRow.ofCut cut ro co = some r ∧ ∀ x, r.evalF x = quadFun 0 cut.a cut.q x := by
  obtain ⟨h1, h2⟩ := makeUpper_form _ _ _ hq
  obtain ⟨r, h3, h4⟩ := quadRow_value 0 cut.a q ro co h1 hro hco
  refine ⟨r, by simp [QRow.ofCut, hq, h3], fun x => ?_⟩
  rw [h4]; simp [quadFun, h2]

/-- The same cut, assigned instead of constructed, keeps its constant. -/
theorem quadRow_assignCut (cut : QCut) (q : List Ent) (ro co : List Nat) (hq : makeUpper cut.ty cut.q = some q)
    (hro : IsOrdering rowLt q ro) (hco : IsOrdering colLt q co) :
    ∃ r, QRow.assignCut cut ro co = some r ∧ ∀ x, r.evalF x = quadFun cut.c cut.a cut.q x := by
  obtain ⟨h1, h2⟩ := makeUpper_form _ _ _ hq
  obtain ⟨r, h3, h4⟩ := quadRow_value cut.c cut.a q ro co h1 hro hco
  refine ⟨r, by simp [QRow.assignCut, hq, h3], fun x => ?_⟩
  rw [h4]; simp [quadFun, h2]

/-- Disagreement: for every cut with a nonzero constant the constructed row has the wrong value at every point, by
exactly the constant. -/
theorem quadRow_ofCut_drops_constant (cut : QCut) (q : List Ent) (ro co : List Nat)
    (hq : makeUpper cut.ty cut.q = some q) (hro : IsOrdering rowLt q ro) (hco : IsOrdering colLt q co) :
    ∃ r, QRow.ofCut cut ro co = some r ∧ ∀ x, quadFun cut.c cut.a cut.q x - r.evalF x = cut.c := by
  obtain ⟨r, h1, h2⟩ := quadRow_ofCut_partial cut q ro co hq hro hco
  exact ⟨r, h1, fun x => by rw [h2]; simp [quadFun]⟩

example : ∃ r, QRow.ofCut ⟨7, [(1, 4)], exQ, .upper, 0, 1⟩ [1, 2, 0] [1, 0, 2] = some r ∧
    ∀ x, quadFun 7 [(1, 4)] exQ x - r.evalF x = 7 :=
  quadRow_ofCut_drops_constant ⟨7, [(1, 4)], exQ, .upper, 0, 1⟩ exQ _ _ (by decide +kernel) exQ_row exQ_col

/-! ## C02: gradient of a quadratic row -/

/-- C02. The reported sparse gradient is the derivative: `f(x+d) = f(x) + ∇f(x)·d + dᵀQd` for all `x`, `d`. -/
theorem quadRow_gradient (c : ℚ) (a : List (Nat × ℚ)) (q : List Ent) (ro co : List Nat)
    (hu : ∀ e ∈ q, e.row ≤ e.col) (hro : IsOrdering rowLt q ro) (hco : IsOrdering colLt q co)
    (hn : (a.map (·.1)).Nodup) :
    ∃ r, QRow.initialize c a q ro co = some r ∧ ∀ x d,
      quadFun c a q (fun i => x i + d i) =
        quadFun c a q x + sparseDot (r.gradStruct false) (r.evalGrad x) d + symForm q d d := by
  obtain ⟨r, h1, h2, h3, h4, h5⟩ := initialize_wf (c := c) (a := a) hu hro hco
  refine ⟨r, h1, fun x d => ?_⟩
  rw [sparse_grad r h5 (by rw [h3]; exact hn), h3, h4]
  unfold quadFun
  rw [linForm_add, symForm_add_left, symForm_add_right, symForm_add_right, symForm_comm q x d]
  ring

/-- C02. The gradient structure lists, in strictly increasing order, exactly the variables occurring in the row, and its
length, the number of gradient values and the announced number of nonzeros agree; Fortran style adds one. -/
theorem quadRow_gradStruct (c : ℚ) (a : List (Nat × ℚ)) (q : List Ent) (ro co : List Nat)
    (hu : ∀ e ∈ q, e.row ≤ e.col) (hro : IsOrdering rowLt q ro) (hco : IsOrdering colLt q co) :
    ∃ r, QRow.initialize c a q ro co = some r ∧
      (r.gradStruct false).Pairwise (· < ·) ∧
      (∀ i, i ∈ r.gradStruct false ↔ (∃ e ∈ a, e.1 = i) ∨ ∃ e ∈ q, e.row = i ∨ e.col = i) ∧
      (∀ x, (r.evalGrad x).length = r.nnzGrad) ∧ (r.gradStruct false).length = r.nnzGrad ∧
      r.gradStruct true = (r.gradStruct false).map (· + 1) := by
  obtain ⟨r, h1, h2, h3, h4, h5⟩ := initialize_wf (c := c) (a := a) hu hro hco
  have hk : r.gradStruct false = r.g.keys := by simp [QRow.gradStruct, GMap.keys]
  refine ⟨r, h1, by rw [hk]; exact h5.gsort, ?_, ?_, by simp [QRow.gradStruct, QRow.nnzGrad], ?_⟩
  · intro i
    rw [hk, h5.gkeys, h3, h4]
    simp only [List.mem_map]
    constructor
    · rintro (h | ⟨e, h, h'⟩ | ⟨e, h, h'⟩)
      · exact Or.inl h
      · exact Or.inr ⟨e, h, Or.inl h'⟩
      · exact Or.inr ⟨e, h, Or.inr h'⟩
    · rintro (h | ⟨e, h, h' | h'⟩)
      · exact Or.inl h
      · exact Or.inr (Or.inl ⟨e, h, h'⟩)
      · exact Or.inr (Or.inr ⟨e, h, h'⟩)
  · intro x
    have := congrArg List.length (eval_keys r x)
    simpa [QRow.evalGrad, QRow.nnzGrad, GMap.keys] using this
  · simp [QRow.gradStruct]

/-- Both theorems apply to the row of the C01 example. -/
example : ∃ r, QRow.initialize 1 [(1, 4)] exQ [1, 2, 0] [1, 0, 2] = some r ∧ r.gradStruct false = [0, 1] ∧
    r.evalGrad (fun i => if i = 0 then 1 else 2) = [34, 18] := by
  refine ⟨_, rfl, by decide +kernel, ?_⟩
  decide +kernel

/-! ## C05: adding and removing cuts -/

/-- C05. Any history of additions, removals and Hessian-structure queries acts on the list of appended rows exactly as
specified by `ARun`: the history succeeds iff every removal names distinct existing appended rows; then the row bounds
are the original ones followed by those of the live rows in order, and the Jacobian size is the original one plus the
gradient sizes of the live rows. -/
theorem cut_history (b : Base) (ops : List CutOp) (hn : (ops.map CutOp.added).sum ≤ INT_MAX) :
    ∃ s0, NState.init b.gl b.gu b.orig b.nnzJac b.off = some s0 ∧
      match ARun b.gl.length [] ops with
      | some a => ∃ s, s0.run b.orig.length ops = some s ∧ Rep b a s
      | none => s0.run b.orig.length ops = none := by
  obtain ⟨H, h1, h2⟩ := initH_inv b.orig b.nodup
  refine ⟨{ off := b.off, gl := b.gl, gu := b.gu, rows := [], H := H, nnzJac := b.nnzJac },
    by simp only [NState.init, h1]; rfl, ?_⟩
  have h0 : Rep b [] { off := b.off, gl := b.gl, gu := b.gu, rows := [], H := H, nnzJac := b.nnzJac } :=
    ⟨⟨by simp, by simp, rfl, rfl, by simp⟩, h2⟩
  generalize hs : ({ off := b.off, gl := b.gl, gu := b.gu, rows := [], H := H, nnzJac := b.nnzJac } : NState) = s at h0
  clear hs
  have gen : ∀ (ops : List CutOp) (a : ARows) (s : NState), Rep b a s →
      a.length + (ops.map CutOp.added).sum ≤ INT_MAX →
      match ARun b.gl.length a ops with
      | some a' => ∃ s', s.run b.orig.length ops = some s' ∧ Rep b a' s'
      | none => s.run b.orig.length ops = none := by
    intro ops
    induction ops with
    | nil => intro a s h _; exact ⟨s, rfl, h⟩
    | cons op ops ih =>
      intro a s h hlen
      simp only [List.map_cons, List.sum_cons] at hlen
      have hstep := h.step op (by omega)
      simp only [ARun, NState.run, List.foldlM_cons, Option.bind_eq_bind]
      cases hA : AStep b.gl.length a op with
      | none => rw [hA] at hstep; simp only at hstep; rw [hstep]; rfl
      | some a1 =>
        rw [hA] at hstep
        obtain ⟨s1, hs1, hr1⟩ := hstep
        rw [hs1]
        have hl : a1.length ≤ a.length + op.added := by
          cases op with
          | add cuts => simp only [AStep, Option.some.injEq] at hA; subst hA; simp [CutOp.added]
          | remove idxs =>
            simp only [AStep] at hA
            split_ifs at hA with hc
            simp only [Option.some.injEq] at hA
            have := surviving_length_le (fun j => decide ¬ (j + b.gl.length ∈ idxs)) a
            rw [← hA]
            omega
          | structure_call => simp only [AStep, Option.some.injEq] at hA; subst hA; omega
        exact ih a1 s1 hr1 (by omega)
  exact gen ops [] s h0 (by simpa using hn)

/-- C05. Removing the rows just added gives back the very same state (rows, bounds, Jacobian size and Hessian map). -/
theorem add_remove_restores {b a s} (h : Rep b a s) (cuts : List (ℚ × ℚ × HRow))
    (hn : a.length + cuts.length ≤ INT_MAX) :
    (s.addCuts cuts).removeCuts ((List.range cuts.length).map (fun j => b.gl.length + a.length + j)) = some s := by
  set idxs := (List.range cuts.length).map (fun j => b.gl.length + a.length + j) with hidx
  have hadd := h.addCuts cuts
  have hmem : ∀ i, i ∈ idxs ↔ b.gl.length + a.length ≤ i ∧ i < b.gl.length + a.length + cuts.length := by
    intro i
    simp only [hidx, List.mem_map, List.mem_range]
    constructor
    · rintro ⟨j, hj, rfl⟩; omega
    · intro hi; exact ⟨i - (b.gl.length + a.length), by omega, by omega⟩
  obtain ⟨s', e1, e2⟩ := hadd.remove idxs (by simpa using hn)
    (List.Nodup.map (fun x y hxy => by simpa using hxy) List.nodup_range)
    (fun i hi => by have := (hmem i).1 hi; simp; omega)
  have hsurv : surviving (fun j => decide ¬ (j + b.gl.length ∈ idxs)) (a ++ cuts) = a := by
    unfold surviving
    rw [List.zipIdx_append, List.filter_append]
    have h1 : (a.zipIdx).filter (fun e => decide ¬ (e.2 + b.gl.length ∈ idxs)) = a.zipIdx := by
      rw [List.filter_eq_self]
      rintro ⟨x, i⟩ hx
      have := List.mem_zipIdx hx
      simp only [decide_eq_true_eq, hmem]
      omega
    have h2 : (cuts.zipIdx (0 + a.length)).filter (fun e => decide ¬ (e.2 + b.gl.length ∈ idxs)) = [] := by
      rw [List.filter_eq_nil_iff]
      rintro ⟨x, i⟩ hx
      have := List.mem_zipIdx hx
      simp only [decide_eq_true_eq, hmem]
      omega
    rw [h1, h2, List.append_nil]
    exact List.zipIdx_map_fst 0 a
  rw [hsurv] at e2
  rw [e1]
  congr 1
  have hH : s'.H = s.H := by
    symm
    apply HInv.eq_of_idx h.hinv e2.hinv
    intro k i hi
    have hi2 : HMap.idx (s.addCuts cuts).H k = some i := addCuts_idx cuts s k i hi
    have hk : k ∈ s'.H.keys := by
      rw [e2.hinv.mem_keys, ← h.hinv.mem_keys]
      unfold HMap.idx at hi
      obtain ⟨p, hp, _⟩ := Option.map_eq_some_iff.1 hi
      exact find_some_mem hp
    obtain ⟨p, hp⟩ : ∃ p, s'.H.find k = some p := by
      cases hf : s'.H.find k with
      | none => exact absurd hk ((find_none_iff _ _).1 hf)
      | some p => exact ⟨p, rfl⟩
    have h3 := removeCuts_idx _ _ _ e1 k p.1 (by simp [HMap.idx, hp])
    rw [hi2] at h3
    simp only [Option.some.injEq] at h3
    simp [HMap.idx, hp, h3]
  cases s; cases s'
  have a1 := e2.shows_; have a2 := h.shows_
  simp only [NState.mk.injEq]
  exact ⟨a1.off.trans a2.off.symm, a1.gl.trans a2.gl.symm, a1.gu.trans a2.gu.symm, a1.rows.trans a2.rows.symm,
    hH, a1.nnzJac.trans a2.nnzJac.symm⟩

def exBase : Base := ⟨[0], [1], [(0, 0)], 2, 0, rfl, by decide⟩
def exA : ℚ × ℚ × HRow := (0, 1, ⟨[⟨0, 1, 1⟩], 2⟩)
def exB : ℚ × ℚ × HRow := (2, 3, ⟨[⟨1, 1, 1⟩, ⟨0, 0, 4⟩], 2⟩)
def exC : ℚ × ℚ × HRow := (4, 5, ⟨[⟨0, 2, 1⟩, ⟨0, 1, 1⟩], 3⟩)
def exOps : List CutOp := [.add [exA, exB], .structure_call, .remove [1], .add [exC], .structure_call]

/-- A history that succeeds, leaving rows B and C. -/
example : ARun exBase.gl.length [] exOps = some [exB, exC] := by decide +kernel
example : (exOps.map CutOp.added).sum ≤ INT_MAX := by decide
/-- Removing the same row twice in one call, or an original row, is undefined behaviour. -/
example : ARun exBase.gl.length [] [.add [exA, exB], .remove [1, 1]] = none := by decide +kernel
example : ARun exBase.gl.length [] [.add [exA, exB], .remove [0]] = none := by decide +kernel

/-! ## C04, C03: Hessian structure and values -/

/-- C04. After any history, the Hessian-structure query succeeds; it fills every cell of the `|H|`-long index arrays;
the listed positions are exactly those of the original problem and those needed by the live rows, each exactly once; and
the original positions stay in their original cells. -/
theorem hessian_structure {b a s} (h : Rep b a s) :
    ∃ (s' : NState) (ws : List (Nat × Key)) (ks : List Key), evalHStruct b.orig.length s.H = some (s'.H, ws) ∧
      s.step b.orig.length .structure_call = some s' ∧
      applyWrites s.H.length ws = ks.map some ∧ ks.length = s.H.length ∧ ks.Nodup ∧
      (∀ k, k ∈ ks ↔ k ∈ b.orig ∨ k ∈ neededKeys b.off a) ∧
      (∀ (i : Nat) (k : Key), b.orig[i]? = some k → ks[i]? = some k) := by
  obtain ⟨H', ws, h1, h2, h3, h4, h5⟩ := h.struct
  rw [← h5] at h4
  rw [h3] at h4
  obtain ⟨ks, k1, k2, k3, _⟩ := structure_reads H' H'.length rfl h4
  rw [h5] at k1 k2
  have hmem : ∀ k, k ∈ ks ↔ k ∈ b.orig ∨ k ∈ neededKeys b.off a := fun k => by rw [k3, h2.hinv.mem_keys]
  refine ⟨{ s with H := H' }, ws, ks, h1, by simp [NState.step, h1], by rw [h3]; exact k2, k1, ?_, hmem, ?_⟩
  · -- same length and same elements as the duplicate-free key list
    have hsub : H'.keys ⊆ ks := fun k hk => (k3 k).2 hk
    have hnd := keys_nodup h2.hinv.sorted
    have hlen : ks.length ≤ H'.keys.length := by rw [k1, ← h5]; simp [HMap.keys]
    exact ((List.subperm_of_subset hnd hsub).perm_of_length_le hlen).nodup_iff.1 hnd
  · intro i k hik
    have hf := h2.hinv.orig_find i k hik
    have hm : (k, (i, (-1 : Int))) ∈ H' := (mem_iff_find H' h2.hinv.sorted _ _).2 hf
    have hw : (i, k) ∈ H'.map (fun e => (e.2.1, e.1)) :=
      List.mem_map.2 ⟨_, hm, rfl⟩
    obtain ⟨_, hg⟩ := applyWrites_getElem? H'.length _ (h4.nodup_iff.2 List.nodup_range) (fun w hw => by
      have := h4.mem_iff.1 (List.mem_map_of_mem (f := (·.1)) hw); simpa using this)
    have := hg _ hw
    rw [h5, k2, List.getElem?_map] at this
    obtain ⟨k', hk', he⟩ := Option.map_eq_some_iff.1 this
    simp at he; rw [hk', he]

/-- C03. After any history and a Hessian-structure query, the value query succeeds for all multipliers and original
values, fills the announced number of cells, and the triplets (structure, values) represent
`original Hessian + Σ λᵢ·∇²(row i)`, where `∇²(xᵀQx) = 2Q`; the original problem's values are passed through. -/
theorem hessian_values {b a s} (h : Rep b a s) (v0 : List ℚ) (hv : v0.length = b.orig.length)
    (lam : List ℚ) :
    ∃ (H' : HMap) (ws : List (Nat × Key)) (ks : List Key) (vs : List ℚ), evalHStruct b.orig.length s.H = some (H', ws) ∧
      applyWrites s.H.length ws = ks.map some ∧
      evalHValues b.off H' v0 ((s.rows.map (·.q)).zip lam) = some vs ∧ vs.length = s.H.length ∧
      ∀ d, tripletForm b.off d ks vs =
        tripletForm b.off d b.orig v0 + ((a.zip lam).map (fun r => r.2 * (2 * symForm r.1.2.2.q d d))).sum := by
  obtain ⟨H', ws, h1, h2, h3, h4, h5⟩ := h.struct
  rw [← h5] at h4
  rw [h3] at h4
  obtain ⟨ks, k1, k2, k3, k4⟩ := structure_reads H' H'.length rfl h4
  have hnd : (H'.map (fun e => e.2.1)).Nodup := by
    have := h4.nodup_iff.2 List.nodup_range
    rw [List.map_map] at this; exact this
  have hlt : ∀ e ∈ H', e.2.1 < H'.length := by
    intro e he
    have := h4.mem_iff.1 (List.mem_map.2 ⟨(e.2.1, e.1), List.mem_map.2 ⟨e, he, rfl⟩, rfl⟩)
    simpa using this
  have hvlen : (v0 ++ List.replicate (H'.length - v0.length) (0 : ℚ)).length = H'.length := by
    have := h2.hinv.orig_le
    simp only [List.length_append, List.length_replicate]
    have : v0.length ≤ List.length H' := by rw [hv]; exact this
    omega
  have hrows : s.rows = a.map (·.2.2) := h.shows_.rows
  have hq : ∀ r ∈ (s.rows.map (·.q)).zip lam, ∀ e ∈ r.1, entKey b.off e ∈ H'.keys := by
    intro r hr e he
    rw [h2.hinv.mem_keys]
    right
    have := (List.of_mem_zip hr).1
    rw [hrows, List.map_map] at this
    obtain ⟨x, hx, hxe⟩ := List.mem_map.1 this
    unfold neededKeys
    rw [List.mem_flatMap]
    refine ⟨x, hx, List.mem_map_of_mem ?_⟩
    simp only [Function.comp] at hxe
    rw [hxe]; exact he
  obtain ⟨vs, g1, g2, _⟩ := evalHValues_fold b.off (fun _ => 0) H' h2.hinv.sorted hnd
    ((s.rows.map (·.q)).zip lam) hq _ (by rw [hvlen]; exact hlt)
  refine ⟨H', ws, ks, vs, h1, by rw [h3, ← h5]; exact k2, g1, by rw [g2, hvlen, h5], ?_⟩
  intro d
  obtain ⟨vs', g1', g2', g3'⟩ := evalHValues_fold b.off d H' h2.hinv.sorted hnd
    ((s.rows.map (·.q)).zip lam) hq _ (by rw [hvlen]; exact hlt)
  have : vs' = vs := by rw [g1] at g1'; exact (Option.some.inj g1').symm
  subst this
  rw [k4 b.off d vs' (by rw [g2', hvlen]), g3', hForm_init h2.hinv b.off d v0 hv]
  congr 1
  rw [hrows, List.map_map, List.zip_map_left, List.map_map]
  congr 1

/-- The example history: structure (0,0) | (1,0) (1,1) (2,0), both C03 and C04 apply to it. -/
example : ((NState.init exBase.gl exBase.gu exBase.orig exBase.nnzJac exBase.off).bind
    (fun s => s.run exBase.orig.length exOps)).map (fun s => (s.H, s.gl, s.nnzJac)) =
    some ([((0, 0), 0, -1), ((1, 0), 1, 1), ((1, 1), 2, 1), ((2, 0), 3, 1)], [0, 2, 4], 7) := by decide +kernel

/-- C04 (needed hypothesis). Between a removal and the next structure query the internal cell numbers are NOT unique:
after add A, add B, remove A, add C two positions share a cell, so a value query at that moment would mix them. -/
theorem indices_collide_without_structure_query :
    ∃ s, ((NState.init exBase.gl exBase.gu exBase.orig exBase.nnzJac exBase.off).bind
      (fun s => s.run exBase.orig.length [.add [exA, exB], .remove [1], .add [exC]])) = some s ∧
      ∃ k k' : Key, k ≠ k' ∧ s.H.idx k = s.H.idx k' ∧ s.H.idx k ≠ none := by
  refine ⟨_, rfl, (1, 1), (2, 0), by decide, ?_, ?_⟩ <;> decide +kernel

/-- C06: one iteration of the loop for full storage: it runs exactly while both counters are inside the matrix, keeps both counters, and turns entry `i` over if it is above the diagonal. -/
theorem full_step_iff (i j : Nat) (q : List Ent) (st : Nat × Nat × List Ent) :
    fullStep (i, j, q) = some st ↔ i < q.length ∧ j < q.length ∧ st.1 = i ∧ st.2.1 = j ∧ st.2.2.length = q.length ∧
      (∀ k, k ≠ i → st.2.2[k]? = q[k]?) ∧ ∀ e, q[i]? = some e → st.2.2[i]? = some (if e.row < e.col then ⟨e.col, e.row, e.val⟩ else e) := by
  obtain ⟨a, b, l⟩ := st
  unfold fullStep
  dsimp only
  by_cases h : i < q.length ∧ j < q.length
  · rw [if_pos h]
    have hg : q[i]? = some q[i] := List.getElem?_eq_getElem h.1
    rw [hg]
    simp only [Option.some.injEq, Prod.mk.injEq, forall_eq', h.1, h.2, true_and]
    constructor
    · rintro ⟨rfl, rfl, rfl⟩
      refine ⟨rfl, rfl, by split_ifs <;> simp, fun k hk => ?_, ?_⟩
      · split_ifs
        · rw [List.getElem?_set_ne (Ne.symm hk)]
        · rfl
      · split_ifs
        · rw [List.getElem?_set_self h.1]
        · exact hg
    · rintro ⟨rfl, rfl, hl, h1, h2⟩
      refine ⟨rfl, rfl, ?_⟩
      apply List.ext_getElem?
      intro k
      by_cases hk : k = a
      · subst hk
        rw [h2]
        split_ifs
        · rw [List.getElem?_set_self h.1]
        · exact hg
      · rw [h1 k hk]
        split_ifs
        · rw [List.getElem?_set_ne (Ne.symm hk)]
        · rfl
  · rw [if_neg h]
    constructor
    · intro h'; cases h'
    · rintro ⟨h1, h2, _⟩; exact absurd ⟨h1, h2⟩ h

/-- Specification: neighbouring entries at the same position added up, `c` being the current one. -/
def mergeAdj : Ent → List Ent → List Ent
  | c, [] => [c]
  | c, e :: es => if e.row = c.row ∧ e.col = c.col then mergeAdj ⟨c.row, c.col, c.val + e.val⟩ es else c :: mergeAdj e es

/-- The entries in the order `ord`. -/
def viewed (ord : List Nat) (q : List Ent) : List Ent := ord.map fun o => q.getD o ⟨0, 0, 0⟩

theorem viewed_set (ord : List Nat) (q : List Ent) (hn : ord.Nodup) (hb : ∀ o ∈ ord, o < q.length) (k : Nat) (hk : k < ord.length) (e : Ent) :
    viewed ord (q.set ord[k] e) = (viewed ord q).set k e := by
  apply List.ext_getElem
  · simp [viewed]
  · intro m h1 h2
    have hm : m < ord.length := by simpa [viewed] using h1
    rw [List.getElem_set]
    simp only [viewed, List.getElem_map]
    by_cases hkm : k = m
    · subst hkm
      rw [if_pos rfl, List.getD_eq_getElem?_getD, List.getElem?_set_self (hb _ (List.getElem_mem hk))]; rfl
    · rw [if_neg hkm]
      have hne : ord[k] ≠ ord[m] := fun h => hkm ((hn.getElem_inj_iff).1 h)
      rw [List.getD_eq_getElem?_getD, List.getD_eq_getElem?_getD, List.getElem?_set_ne hne]

theorem dupLoop_view (ord : List Nat) (hn : ord.Nodup) : ∀ (m i j : Nat) (q : List Ent) (_ : ∀ o ∈ ord, o < q.length) (_ : ord.length = q.length) (_ : j < i) (_ : i + m = q.length) (hjl : j < (viewed ord q).length),
    ∃ q' j', dupLoop ord (List.range' i m) j q = some (q', j') ∧ q'.length = q.length ∧ j' < q.length ∧
      (viewed ord q').take (j' + 1) = (viewed ord q).take j ++ mergeAdj (viewed ord q)[j] ((viewed ord q).drop i) := by
  intro m
  induction m with
  | zero =>
    intro i j q hb hl hj hi hjl
    have hvl : (viewed ord q).length = q.length := by simp [viewed, hl]
    refine ⟨q, j, rfl, rfl, by omega, ?_⟩
    rw [List.drop_of_length_le (by omega), mergeAdj, List.take_succ_eq_append_getElem hjl]
  | succ m ih =>
    intro i j q hb hl hj hi hjl
    have hvl : (viewed ord q).length = q.length := by simp [viewed, hl]
    have hio : i < ord.length := by omega
    have hjo : j < ord.length := by omega
    have hiq : ord[i] < q.length := hb _ (List.getElem_mem hio)
    have hjq : ord[j] < q.length := hb _ (List.getElem_mem hjo)
    have vi : (viewed ord q)[i]'(by omega) = q[ord[i]] := by
      simp only [viewed, List.getElem_map]; rw [List.getD_eq_getElem?_getD, List.getElem?_eq_getElem hiq]; rfl
    have vj : (viewed ord q)[j]'(by omega) = q[ord[j]] := by
      simp only [viewed, List.getElem_map]; rw [List.getD_eq_getElem?_getD, List.getElem?_eq_getElem hjq]; rfl
    have hdrop : (viewed ord q).drop i = q[ord[i]] :: (viewed ord q).drop (i + 1) := by
      rw [List.drop_eq_getElem_cons (by omega), vi]
    rw [List.range'_succ]
    simp only [dupLoop, List.getElem?_eq_getElem hio, List.getElem?_eq_getElem hjo, Option.bind_eq_bind, Option.bind_some, List.getElem?_eq_getElem hiq, List.getElem?_eq_getElem hjq]
    rw [hdrop, vj]
    by_cases hc : q[ord[i]].col = q[ord[j]].col ∧ q[ord[i]].row = q[ord[j]].row
    · rw [if_pos hc]
      have hset := viewed_set ord q hn hb j hjo ⟨q[ord[j]].row, q[ord[j]].col, q[ord[j]].val + q[ord[i]].val⟩
      obtain ⟨q', j', h1, h2, h3, h4⟩ := ih (i + 1) j (q.set ord[j] ⟨q[ord[j]].row, q[ord[j]].col, q[ord[j]].val + q[ord[i]].val⟩)
        (by simpa using hb) (by simpa using hl) (by omega) (by rw [List.length_set]; omega) (by rw [hset, List.length_set]; omega)
      refine ⟨q', j', h1, by simpa using h2, by simpa using h3, ?_⟩
      rw [h4]
      simp only [hset, List.take_set_of_le (le_refl j), List.getElem_set_self, List.drop_set_of_lt (show j < i + 1 by omega)]
      rw [mergeAdj, if_pos ⟨hc.2, hc.1⟩]
    · rw [if_neg hc]
      have hj1 : j + 1 < ord.length := by omega
      have hj1q : ord[j + 1] < q.length := hb _ (List.getElem_mem hj1)
      rw [List.getElem?_eq_getElem hj1]
      simp only [Option.bind_some, if_pos hj1q]
      have hset := viewed_set ord q hn hb (j + 1) hj1 q[ord[i]]
      obtain ⟨q', j', h1, h2, h3, h4⟩ := ih (i + 1) (j + 1) (q.set ord[j + 1] q[ord[i]])
        (by simpa using hb) (by simpa using hl) (by omega) (by rw [List.length_set]; omega) (by rw [hset, List.length_set]; omega)
      refine ⟨q', j', h1, by simpa using h2, by simpa using h3, ?_⟩
      rw [h4]
      simp only [hset, List.take_set_of_le (le_refl (j + 1)), List.getElem_set_self, List.drop_set_of_lt (show j + 1 < i + 1 by omega)]
      rw [mergeAdj, if_neg fun h => hc ⟨h.2, h.1⟩, List.take_succ_eq_append_getElem hjl, vj, List.append_assoc]
      rfl

/-- C06, the part of duplicate merging that works: after the loop the first entries in the given order are the entries of the matrix with neighbours at the same position added up; `j` is the position of the last one. -/
theorem dup_merges_partial (ord : List Nat) (q : List Ent) (hp : ord.Perm (List.range q.length)) (e : Ent) (es : List Ent) (hv : viewed ord q = e :: es) :
    ∃ q' j', dupLoop ord (List.range' 1 (q.length - 1)) 0 q = some (q', j') ∧ (viewed ord q').take (j' + 1) = mergeAdj e es ∧ j' + 1 = (mergeAdj e es).length := by
  have hl : ord.length = q.length := by simpa using hp.length_eq
  have hvl : (viewed ord q).length = q.length := by simp [viewed, hl]
  have hpos : 0 < q.length := by rw [← hvl, hv]; simp
  obtain ⟨q', j', h1, h2, h3, h4⟩ := dupLoop_view ord (hp.nodup_iff.2 List.nodup_range) (q.length - 1) 1 0 q (fun o ho => List.mem_range.1 (hp.mem_iff.1 ho)) hl (by omega) (by omega) (by omega)
  have h5 : (viewed ord q').take (j' + 1) = mergeAdj e es := by
    rw [h4]; simp [hv]
  refine ⟨q', j', h1, h5, ?_⟩
  rw [← h5, List.length_take, Nat.min_eq_left]
  simp only [viewed, List.length_map]; omega

/-- C06 refuted for every matrix: `nnz_` is the position of the last entry instead of their number, so one entry fewer is kept than there are positions (the last group in the order, or another one if the order is not that of storage). -/
theorem dup_one_too_few (ord : List Nat) (q : List Ent) (hp : ord.Perm (List.range q.length)) (e : Ent) (es : List Ent) (hv : viewed ord q = e :: es) :
    ∃ q', removeDuplicates ord q = some q' ∧ q'.length + 1 = (mergeAdj e es).length := by
  have hl : ord.length = q.length := by simpa using hp.length_eq
  have hvl : (viewed ord q).length = q.length := by simp [viewed, hl]
  have hpos : 0 < q.length := by rw [← hvl, hv]; simp
  obtain ⟨q1, j', h1, h2, h3, h4⟩ := dupLoop_view ord (hp.nodup_iff.2 List.nodup_range) (q.length - 1) 1 0 q (fun o ho => List.mem_range.1 (hp.mem_iff.1 ho)) hl (by omega) (by omega) (by omega)
  obtain ⟨q2, j2, g1, g2, g3⟩ := dup_merges_partial ord q hp e es hv
  rw [h1] at g1
  obtain ⟨rfl, rfl⟩ := Prod.mk.inj (Option.some.inj g1)
  refine ⟨q1.take j', by simp [removeDuplicates, h1], ?_⟩
  rw [← g3, List.length_take, Nat.min_eq_left (by omega)]

example : viewed [1, 0, 2] [⟨0, 1, 5⟩, ⟨0, 0, 1⟩, ⟨0, 1, 7⟩] = [⟨0, 0, 1⟩, ⟨0, 1, 5⟩, ⟨0, 1, 7⟩] ∧ mergeAdj ⟨0, 0, 1⟩ [⟨0, 1, 5⟩, ⟨0, 1, 7⟩] = [⟨0, 0, 1⟩, ⟨0, 1, 12⟩] ∧
    removeDuplicates [1, 0, 2] [⟨0, 1, 5⟩, ⟨0, 0, 1⟩, ⟨0, 1, 7⟩] = some [⟨0, 1, 12⟩] := by decide +kernel

/-- C06: whatever the ordering, if the loop of `removeDuplicates` stays within the arrays, the array keeps its length and the last position written is at most the number of steps. -/
theorem dupLoop_length (ord : List Nat) : ∀ (is : List Nat) (j : Nat) (q q' : List Ent) (j' : Nat), dupLoop ord is j q = some (q', j') → q'.length = q.length ∧ j ≤ j' ∧ j' ≤ j + is.length
  | [], j, q, q', j', h => by
    simp only [dupLoop, Option.some.injEq, Prod.mk.injEq] at h
    obtain ⟨rfl, rfl⟩ := h
    simp
  | i :: is, j, q, q', j', h => by
    simp only [dupLoop, Option.bind_eq_bind, Option.bind_eq_some_iff] at h
    obtain ⟨oi, -, oj, -, ei, -, ej, -, h⟩ := h
    split_ifs at h with h1
    · have := dupLoop_length ord is _ _ _ _ h
      simp only [List.length_set, List.length_cons] at this ⊢
      omega
    · rw [Option.bind_eq_some_iff] at h
      obtain ⟨oj', -, h⟩ := h
      split_ifs at h with h2
      have := dupLoop_length ord is _ _ _ _ h
      simp only [List.length_set, List.length_cons] at this ⊢
      omega

end Verif.Quad

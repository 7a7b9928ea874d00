import Verif.Fp.Model
import Verif.LinObj.Props
/-! # C14, C15: feasibility-pump reformulation -/
namespace Verif.Fp

/-- Squared Euclidean distance on the selected coordinates. -/
def sq (is : List Nat) (vs x : List ℚ) : ℚ := (List.zipWith (fun i v => (at' x i - v) ^ 2) is vs).sum

/-- Manhattan distance on the selected coordinates. -/
def man (is : List Nat) (vs x : List ℚ) : ℚ := (List.zipWith (fun i v => |at' x i - v|) is vs).sum

theorem l2_eq (is : List Nat) (vs x : List ℚ) : l2 is vs x = sq is vs x := by
  induction is generalizing vs with
  | nil => simp [l2, sq]
  | cons i is ih =>
    cases vs with
    | nil => simp [l2, sq]
    | cons v vs => simp only [l2, sq, List.zipWith_cons_cons, List.sum_cons] at *; rw [ih]; ring

theorem l1_eq (is : List Nat) (vs x : List ℚ) (h : ∀ v ∈ vs, v = 0 ∨ v = 1) (hx : ∀ i ∈ is, 0 ≤ at' x i ∧ at' x i ≤ 1) :
    l1 is vs x = man is vs x := by
  induction is generalizing vs with
  | nil => simp [l1, man]
  | cons i is ih =>
    cases vs with
    | nil => simp [l1, man]
    | cons v vs =>
      have := ih vs (fun v h' => h v (List.mem_cons_of_mem _ h')) (fun i h' => hx i (List.mem_cons_of_mem _ h'))
      simp only [l1, man, List.zipWith_cons_cons, List.sum_cons] at *
      rw [this]
      obtain ⟨h0, h1⟩ := hx i List.mem_cons_self
      rcases h v List.mem_cons_self with rfl | rfl
      · norm_num [abs_of_nonneg h0]
      · rw [if_neg (by norm_num), abs_of_nonpos (by linarith)]; ring

/-- **C14** (value).  With the projection objective on, the reported objective is
`scale·λ·distance + (1-λ)·σ·f`, where the distance is the squared Euclidean one (norm 2) or, for a 0/1 target and a point of the unit box, the
Manhattan one (norm 1). -/
theorem fp_value (q : Par) (p : Nlp) (x : List ℚ) (ho : q.useObj = true) :
    (q.norm = 2 → evalF q p x = q.scale * q.lam * sq q.inds q.vals x + (1 - q.lam) * q.sig * p.evalF x) ∧
    (q.norm = 1 → (∀ v ∈ q.vals, v = 0 ∨ v = 1) → (∀ i ∈ q.inds, 0 ≤ at' x i ∧ at' x i ≤ 1) →
      evalF q p x = q.scale * q.lam * man q.inds q.vals x + (1 - q.lam) * q.sig * p.evalF x) := by
  constructor
  · intro hn; simp only [evalF, ho, if_true, dist, hn, l2_eq]; ring
  · intro hn hv hx; simp only [evalF, ho, if_true, dist, hn, l1_eq _ _ _ hv hx]; norm_num; ring

theorem dot_modify (g : List ℚ) (d : List ℚ) (i : Nat) (c : ℚ) (hi : i < g.length) (hl : g.length = d.length) :
    dot (g.modify i (· + c)) d = dot g d + c * at' d i := by
  induction g generalizing d i with
  | nil => simp at hi
  | cons a g ih =>
    cases d with
    | nil => simp at hl
    | cons b d =>
      cases i with
      | zero => simp [dot, at', List.modify_zero_cons]; ring
      | succ i =>
        have := ih d i (by simpa using hi) (by simpa using hl)
        simp only [dot, at', List.modify_succ_cons, List.zipWith_cons_cons, List.sum_cons, List.getD_cons_succ] at *
        rw [this]; ring

theorem dot_map_mul (g d : List ℚ) (c : ℚ) : dot (g.map (· * c)) d = c * dot g d := by
  induction g generalizing d with
  | nil => simp [dot]
  | cons a g ih =>
    cases d with
    | nil => simp [dot]
    | cons b d =>
      have := ih d
      simp only [dot, List.map_cons, List.zipWith_cons_cons, List.sum_cons] at *
      rw [this]; ring

/-- Derivative of the distance in direction `d`. -/
def ddist (q : Par) (x : List ℚ) : List Nat → List ℚ → List ℚ → ℚ
  | i :: is, v :: vs, d =>
    (if q.norm = 2 then 2 * (at' x i - v) * at' d i else if v ≤ 1 / 10 then at' d i else -at' d i) + ddist q x is vs d
  | _, _, _ => 0

theorem addGrad_length (q : Par) (x : List ℚ) (is : List Nat) (vs g : List ℚ) : (addGrad q x is vs g).length = g.length := by
  induction is generalizing vs g with
  | nil => simp [addGrad]
  | cons i is ih =>
    cases vs with
    | nil => simp [addGrad]
    | cons v vs => simp only [addGrad]; rw [ih]; simp

theorem addGrad_dot (q : Par) (x : List ℚ) (is : List Nat) (vs : List ℚ) : ∀ (g d : List ℚ), g.length = d.length →
    (∀ i ∈ is, i < g.length) → dot (addGrad q x is vs g) d = dot g d + q.scale * q.lam * ddist q x is vs d := by
  induction is generalizing vs with
  | nil => intro g d _ _; simp [addGrad, ddist]
  | cons i is ih =>
    intro g d hl hi
    cases vs with
    | nil => simp [addGrad, ddist]
    | cons v vs =>
      have hcase : ∃ c, (fun a : ℚ => if q.norm = 2 then a + q.scale * 2 * q.lam * (at' x i - v)
          else if v ≤ 1 / 10 then a + q.scale * q.lam else a - q.scale * q.lam) = (· + c) ∧
          c * at' d i = q.scale * q.lam * (if q.norm = 2 then 2 * (at' x i - v) * at' d i else if v ≤ 1 / 10 then at' d i else -at' d i) := by
        by_cases h2 : q.norm = 2
        · refine ⟨q.scale * 2 * q.lam * (at' x i - v), ?_, ?_⟩
          · funext a; simp [h2]
          · simp only [h2, if_true]; ring
        · by_cases hv : v ≤ 1 / 10
          · refine ⟨q.scale * q.lam, ?_, ?_⟩
            · funext a; rw [if_neg h2, if_pos hv]
            · rw [if_neg h2, if_pos hv]
          · refine ⟨-(q.scale * q.lam), ?_, ?_⟩
            · funext a; rw [if_neg h2, if_neg hv]; ring
            · rw [if_neg h2, if_neg hv]; ring
      obtain ⟨c, hc1, hc2⟩ := hcase
      simp only [addGrad, ddist, hc1]
      rw [ih vs _ d (by simpa using hl) (by intro j hj; simpa using hi j (List.mem_cons_of_mem _ hj)),
        dot_modify g d i c (hi i List.mem_cons_self) hl, hc2]
      ring

/-- Point shifted by a displacement. -/
def shift (x d : List ℚ) : List ℚ := List.zipWith (· + ·) x d

theorem at_shift (x d : List ℚ) (i : Nat) (h : x.length = d.length) : at' (shift x d) i = at' x i + at' d i := by
  unfold at' shift
  simp only [List.getD_eq_getElem?_getD, List.getElem?_zipWith]
  by_cases hi : i < x.length
  · simp [List.getElem?_eq_getElem hi, List.getElem?_eq_getElem (h ▸ hi)]
  · simp [List.getElem?_eq_none (not_lt.mp hi), List.getElem?_eq_none (h ▸ not_lt.mp hi)]

/-- Sum of squares of the selected coordinates of a displacement. -/
def sqd (is : List Nat) (vs d : List ℚ) : ℚ := (List.zipWith (fun i _ => at' d i ^ 2) is vs).sum

theorem dist_expand (q : Par) (x d : List ℚ) (hl : x.length = d.length) (is : List Nat) (vs : List ℚ) :
    (q.norm = 2 → l2 is vs (shift x d) - l2 is vs x = ddist q x is vs d + sqd is vs d) ∧
    (q.norm = 1 → l1 is vs (shift x d) - l1 is vs x = ddist q x is vs d) := by
  induction is generalizing vs with
  | nil => simp [l1, l2, ddist, sqd]
  | cons i is ih =>
    cases vs with
    | nil => simp [l1, l2, ddist, sqd]
    | cons v vs =>
      obtain ⟨h1, h2⟩ := ih vs
      constructor
      · intro hn
        have := h1 hn
        simp only [l2, ddist, sqd, hn, if_true, List.zipWith_cons_cons, List.sum_cons, at_shift x d i hl] at *
        linarith
      · intro hn
        have := h2 hn
        simp only [l1, ddist, hn, at_shift x d i hl] at *
        split <;> simp <;> linarith

/-- **C14** (gradient).  The reported gradient is the derivative of the reported objective: the error of the first-order expansion is
`(1-λ)σ` times that of `f`, plus (norm 2) a term purely quadratic in the displacement. -/
theorem fp_gradient (q : Par) (p : Nlp) (hp : p.Sized) (x d : List ℚ) (ho : q.useObj = true) (hx : x.length = p.n) (hd : d.length = p.n)
    (hi : ∀ i ∈ q.inds, i < p.n) (hn : q.norm = 1 ∨ q.norm = 2) :
    evalF q p (shift x d) - evalF q p x - dot (gradF q p x) d =
      (1 - q.lam) * q.sig * (p.evalF (shift x d) - p.evalF x - dot (p.gradF x) d) +
      (if q.norm = 2 then q.scale * q.lam * sqd q.inds q.vals d else 0) := by
  have hg : dot (gradF q p x) d = (1 - q.lam) * q.sig * dot (p.gradF x) d + q.scale * q.lam * ddist q x q.inds q.vals d := by
    simp only [gradF, ho, if_true]
    rw [addGrad_dot q x q.inds q.vals _ d (by simp [hp.gradF, hd]) (by simpa [hp.gradF] using hi), dot_map_mul]
  rw [hg]
  obtain ⟨e1, e2⟩ := dist_expand q x d (hx.trans hd.symm) q.inds q.vals
  simp only [evalF, ho, if_true, dist]
  rcases hn with h | h
  · have := e2 h
    simp only [h]
    norm_num
    rw [show l1 q.inds q.vals (shift x d) = l1 q.inds q.vals x + ddist q x q.inds q.vals d by linarith]
    ring
  · have := e1 h
    simp only [h, if_true]
    rw [show l2 q.inds q.vals (shift x d) = l2 q.inds q.vals x + ddist q x q.inds q.vals d + sqd q.inds q.vals d by linarith]
    ring

theorem triForm_append (off : Nat) (S S' : List (Nat × Nat)) (V V' d : List ℚ) (h : S.length = V.length) :
    triForm off (S ++ S') (V ++ V') d = triForm off S V d + triForm off S' V' d := by
  unfold triForm
  rw [List.zip_append h, List.map_append, List.sum_append]

theorem triForm_diag (off : Nat) (is : List Nat) (c : ℚ) (d : List ℚ) :
    triForm off (is.map (fun i => (i + off, i + off))) (is.map (fun _ => c)) d = c * (is.map (fun i => at' d i ^ 2)).sum := by
  induction is with
  | nil => simp [triForm]
  | cons i is ih =>
    simp only [triForm, List.map_cons, List.zip_cons_cons, List.sum_cons, if_true, Nat.add_sub_cancel] at *
    rw [ih]; unfold at'; ring

/-- **C14** (Hessian).  With the projection objective on and no cutoff row, the reported Hessian is well-formed and represents the quadratic
form of `obj·((1-λ)σ f) + multipliers` plus (norm 2) `2·obj·scale·λ·Σ dᵢ²`, the second derivative of `fp_gradient`'s objective. -/
theorem fp_hessian (q : Par) (p : Nlp) (hp : p.Sized) (x d l : List ℚ) (obj : ℚ) (ho : q.useObj = true) (hc : q.useCut = false)
    (hv : q.vals.length = q.inds.length) :
    ∃ S V, hS q p = some S ∧ hV q p x obj l = some V ∧ S.length = infoH q p ∧ V.length = infoH q p ∧
      triForm p.off S V d = triForm p.off p.hS (p.hV x (obj * (1 - q.lam) * q.sig) (l.take p.m)) d +
        (if q.norm = 2 then 2 * obj * (q.scale * q.lam * sqd q.inds q.vals d) else 0) := by
  have hsq : sqd q.inds q.vals d = (q.inds.map (fun i => at' d i ^ 2)).sum := by
    unfold sqd
    generalize q.inds = is at hv
    generalize q.vals = vs at hv
    induction is generalizing vs with
    | nil => simp
    | cons i is ih =>
      cases vs with
      | nil => simp at hv
      | cons v vs => simp only [List.zipWith_cons_cons, List.sum_cons, List.map_cons]; rw [ih vs (by simpa using hv)]
  have hF : hFactor q p obj l = obj * (1 - q.lam) * q.sig := by simp [hFactor, hc]
  have hM : infoM q p - extra q = p.m := by simp [infoM]
  by_cases hn : q.norm = 2
  · have hcond : nnzObjH q ≤ infoH q p ∧ infoH q p - nnzObjH q = p.nnzH := by
      simp [nnzObjH, infoH, ho, hn, hv]
    refine ⟨_, _, by rw [hS, if_pos hcond], by rw [hV, if_pos hcond], ?_, ?_, ?_⟩
    · simp [ho, hn, infoH, hp.hS, hv]
    · simp [ho, hn, infoH, hp.hV, hv]
    · simp only [ho, hn, and_self, if_true, hF, hM]
      rw [triForm_append _ _ _ _ _ _ (by rw [hp.hS, hp.hV]), triForm_diag, hsq]; ring
  · have hcond : nnzObjH q ≤ infoH q p ∧ infoH q p - nnzObjH q = p.nnzH := by
      simp [nnzObjH, infoH, ho, hn]
    refine ⟨_, _, by rw [hS, if_pos hcond], by rw [hV, if_pos hcond], ?_, ?_, ?_⟩
    · simp [hn, infoH, hp.hS]
    · simp [hn, infoH, hp.hV]
    · simp only [hn, and_false, if_false, hF, hM, List.append_nil, add_zero]

/-- **C14** refuted (1): with the projection objective off and norm 2 (the default), as after switching a fresh problem to local branching, the
wrapped problem is asked for fewer Hessian entries than it has, for every problem. -/
theorem local_branching_hessian_size (p : Nlp) (dmax s rhs : ℚ) (vals : List ℚ) (inds : List Nat) (h : inds ≠ []) :
    hS (((Par.new dmax s).toLoc vals inds rhs)) p = none := by
  have : 0 < inds.length := List.length_pos_iff.mpr h
  unfold hS
  rw [if_neg]
  simp [nnzObjH, infoH, Par.toLoc, Par.new]
  omega

/-- **C14** refuted (2): the same problem reports the original objective but multiplies its Hessian by `(1-λ)σ`, which is 0 by default. -/
theorem local_branching_objective_hessian (p : Nlp) (dmax s rhs obj : ℚ) (vals : List ℚ) (inds : List Nat) (x l : List ℚ) :
    evalF ((Par.new dmax s).toLoc vals inds rhs) p x = p.evalF x ∧
    hFactor ((Par.new dmax s).toLoc vals inds rhs) p obj l = 0 := by
  constructor
  · simp [evalF, Par.toLoc, Par.new]
  · simp [hFactor, Par.toLoc, Par.new]

/-- **C14** refuted (3): with the cutoff row added to the projection problem, the multiplier of that row weighs the Hessian of the original
objective `f` although the row (`cutoff_row_refuted`) is the scaled distance, whose Hessian is not weighed by that multiplier. -/
theorem cutoff_hessian_refuted (q : Par) (p : Nlp) (x l vals : List ℚ) (inds : List Nat) (c obj : ℚ)
    (hv : vals.length = inds.length) :
    hV (q.toFpCut vals inds 2 c) p x obj l =
      some (p.hV x (l.getD p.m 0) (l.take p.m) ++ inds.map (fun _ => 2 * q.scale * obj)) := by
  have hcond : nnzObjH (q.toFpCut vals inds 2 c) ≤ infoH (q.toFpCut vals inds 2 c) p ∧
      infoH (q.toFpCut vals inds 2 c) p - nnzObjH (q.toFpCut vals inds 2 c) = p.nnzH := by
    simp [nnzObjH, infoH, Par.toFpCut, hv]
  rw [hV, if_pos hcond]
  simp [hFactor, infoM, extra, Par.toFpCut]

/-! ### C15 -/

/-- **C15**: the cutoff stored is strictly below the one requested, by at most `1.01e-6·max(1,|c|)`. -/
theorem setCutoff_range (c : ℚ) : setCutoff c < c ∧ c - 101 / 10 ^ 8 * max 1 |c| ≤ setCutoff c := by
  unfold setCutoff
  have hm1 := le_max_left 1 |c|
  have hm2 := le_max_right 1 |c|
  generalize max 1 |c| = M at *
  by_cases h1 : c > 1 / 10 ^ 8
  · rw [if_pos h1]
    have hp : (0 : ℚ) < 1 / 10 ^ 8 := by norm_num
    have : |c| = c := abs_of_pos (by linarith)
    rw [this] at hm2
    constructor <;> linarith
  rw [if_neg h1]
  by_cases h2 : c < -(1 / 10 ^ 8)
  · rw [if_pos h2]
    have hp : (0 : ℚ) < 1 / 10 ^ 8 := by norm_num
    have : |c| = -c := abs_of_neg (by linarith)
    rw [this] at hm2
    constructor <;> linarith
  rw [if_neg h2]
  constructor <;> linarith

theorem box_append1 (inf : ℚ) (l u v : List ℚ) (c w : ℚ) (_hinf : 0 < inf) (hc : c < inf) :
    Box inf (l ++ [-inf]) (u ++ [c]) (v ++ [w]) ↔ Box inf l u v ∧ w ≤ c := by
  rw [LinObj.box_snoc]
  simp [within, not_le.mpr hc]

/-- **C15** (partial: objective not reformulated).  With only the cutoff row added and the original objective, a point satisfies the row bounds
iff it satisfies the original ones and `f(x) ≤ cutoff`.  Missing: the reformulated objective, for which it is false. -/
theorem cutoff_row_partial (inf : ℚ) (hinf : 0 < inf) (q : Par) (p : Nlp) (x : List ℚ) (ho : q.useObj = false) (hc : q.useCut = true)
    (hl : q.useLoc = false) (hcut : q.cutoff < inf) :
    Box inf (gl q inf p) (gu q p) (evalG q p x) ↔ Box inf p.gl p.gu (p.evalG x) ∧ p.evalF x ≤ q.cutoff := by
  simp only [gl, gu, evalG, hc, hl, if_true, Bool.false_eq_true, if_false, List.append_nil, evalF, ho]
  exact box_append1 _ _ _ _ _ _ hinf hcut

/-- **C15**: with the local-branching row, for a 0/1 target and points of the unit box on the listed coordinates: the row holds iff the Manhattan distance
to the target is at most the right-hand side. -/
theorem local_branching_row (inf : ℚ) (hinf : 0 < inf) (q : Par) (p : Nlp) (x : List ℚ) (hc : q.useCut = false)
    (hl : q.useLoc = true) (hr : q.rhs < inf) (hv : ∀ v ∈ q.vals, v = 0 ∨ v = 1) (hx : ∀ i ∈ q.inds, 0 ≤ at' x i ∧ at' x i ≤ 1) :
    Box inf (gl q inf p) (gu q p) (evalG q p x) ↔ Box inf p.gl p.gu (p.evalG x) ∧ man q.inds q.vals x ≤ q.rhs := by
  simp only [gl, gu, evalG, hc, hl, if_true, Bool.false_eq_true, if_false, List.nil_append, l1_eq _ _ _ hv hx]
  exact box_append1 _ _ _ _ _ _ hinf hr

/-- **C15** refuted: in the only place of the code base that turns the cutoff row on, the row does not involve the objective at all: it bounds the
scaled distance by the cutoff. -/
theorem cutoff_row_refuted (q : Par) (p : Nlp) (x vals : List ℚ) (inds : List Nat) (L : Nat) (c : ℚ) :
    evalG (q.toFpCut vals inds L c) p x = p.evalG x ++ [q.scale * dist (q.toFpCut vals inds L c) x] := by
  simp [evalG, Par.toFpCut, evalF]

/-- …so there is a problem and a point with `f(x)` far above the requested cutoff which satisfies every row: `f(x) = 1000`, cutoff 1, at the target. -/
theorem cutoff_row_accepts_worse :
    ∃ p : Nlp, p.Sized ∧ p.evalF [0] = 1000 ∧
      Box (10^30) (gl ((Par.new (10^30) 100).toFpCut [0] [0] 2 1) (10^30) p) (gu ((Par.new (10^30) 100).toFpCut [0] [0] 2 1) p)
        (evalG ((Par.new (10^30) 100).toFpCut [0] [0] 2 1) p [0]) := by
  refine ⟨{ n := 1, m := 0, nnzJac := 0, nnzH := 0, off := 0, xl := [0], xu := [1], gl := [], gu := [], isInt := [true], isLin := [],
            start := [0], evalF := fun _ => 1000, gradF := fun _ => [0], evalG := fun _ => [], evalGi := fun _ _ => 0, jacS := [],
            jacV := fun _ => [], gradGi := fun _ _ => [], hS := [], hV := fun _ _ _ => [] }, ?_, rfl, ?_⟩
  · constructor <;> simp
  · have hc : setCutoff 1 = 1 - 1 / 10 ^ 6 := by norm_num [setCutoff]
    have : Box (10^30 : ℚ) ([] ++ [-10^30]) ([] ++ [setCutoff 1]) ([] ++ [0]) := by
      rw [box_append1 _ _ _ _ _ _ (by norm_num) (by rw [hc]; norm_num)]
      refine ⟨⟨rfl, rfl, by simp⟩, by rw [hc]; norm_num⟩
    simpa [gl, gu, evalG, Par.toFpCut, evalF, dist, l2, Par.new, at'] using this

/-- Rows announced = rows reported. -/
theorem fp_sizes (q : Par) (p : Nlp) (hp : p.Sized) (inf : ℚ) (x : List ℚ) :
    (gl q inf p).length = infoM q p ∧ (gu q p).length = infoM q p ∧ (evalG q p x).length = infoM q p ∧ (isLin q p).length = infoM q p := by
  cases hc : q.useCut <;> cases hl : q.useLoc <;>
    simp [gl, gu, evalG, infoM, extra, isLin, hc, hl, hp.gl, hp.gu, hp.evalG, hp.isLin]

theorem writeAt_end {α : Type} (mem : List α) (k : Nat) (xs : List α) (h : mem.length = k + xs.length) :
    writeAt mem k xs = some (mem.take k ++ xs) := by
  unfold writeAt
  by_cases hx : xs = []
  · subst hx; simp at h; simp [← h]
  · rw [if_neg hx, if_pos (by omega), List.drop_eq_nil_of_le (by omega)]; simp

theorem writeAt_start {α : Type} (a : α) (k : Nat) (xs : List α) :
    writeAt (List.replicate (xs.length + k) a) 0 xs = some (xs ++ List.replicate k a) := by
  unfold writeAt
  by_cases hx : xs = []
  · subst hx; simp
  · rw [if_neg hx, if_pos (by simp)]; simp

/-- **C15** (Jacobian, one added row): the entries are exactly those of the wrapped problem followed by the gradient of the added row, inside the
announced arrays. -/
theorem fp_jacobian_cutoff (q : Par) (p : Nlp) (hp : p.Sized) (x : List ℚ) (hc : q.useCut = true) (hl : q.useLoc = false) :
    jacS q p = some (p.jacS.map some ++ (List.range p.n).map (fun i => some (p.m + p.off, i + p.off))) ∧
    jacV q p x = some ((p.jacV x).map some ++ (gradF q p x).map some) := by
  have hgl : (gradF q p x).length = p.n := by
    unfold gradF; split
    · rw [addGrad_length]; simp [hp.gradF]
    · exact hp.gradF x
  have hoff : offCut q p = p.nnzJac := by simp [offCut, infoJac, hc, hl]
  have hM : infoM q p - 1 = p.m := by simp [infoM, extra, hc, hl]
  constructor
  · have h1 : writeAt (List.replicate (infoJac q p) none) 0 (p.jacS.map some) = some (p.jacS.map some ++ List.replicate p.n none) := by
      rw [show infoJac q p = (p.jacS.map some).length + p.n by simp [infoJac, hc, hl, hp.jacS]]
      exact writeAt_start _ _ _
    simp only [jacS, h1, hc, hl, if_true, Bool.false_eq_true, if_false, Option.bind_eq_bind, Option.bind_some, hoff, hM, Option.pure_def]
    rw [writeAt_end _ _ _ (by simp [hp.jacS])]
    simp [hp.jacS]
  · have h1 : writeAt (List.replicate (infoJac q p) none) 0 ((p.jacV x).map some) = some ((p.jacV x).map some ++ List.replicate p.n none) := by
      rw [show infoJac q p = ((p.jacV x).map some).length + p.n by simp [infoJac, hc, hl, hp.jacV]]
      exact writeAt_start _ _ _
    simp only [jacV, h1, hc, hl, if_true, Bool.false_eq_true, if_false, Option.bind_eq_bind, Option.bind_some, hoff, Option.pure_def]
    rw [writeAt_end _ _ _ (by simp [hp.jacV, hgl])]
    simp [hp.jacV]

theorem fp_jacobian_local (q : Par) (p : Nlp) (hp : p.Sized) (x : List ℚ) (hc : q.useCut = false) (hl : q.useLoc = true)
    (hv : q.vals.length = q.inds.length) :
    jacS q p = some (p.jacS.map some ++ q.inds.map (fun i => some (p.m + p.off, i + p.off))) ∧
    jacV q p x = some ((p.jacV x).map some ++ q.vals.map (fun v => some (if v ≤ 1 / 10 then (1 : ℚ) else -1))) := by
  have hoff : offLoc q p = p.nnzJac := by simp [offLoc, infoJac, hc, hl]
  have hM : infoM q p - 1 = p.m := by simp [infoM, extra, hc, hl]
  constructor
  · have h1 : writeAt (List.replicate (infoJac q p) none) 0 (p.jacS.map some) = some (p.jacS.map some ++ List.replicate q.vals.length none) := by
      rw [show infoJac q p = (p.jacS.map some).length + q.vals.length by simp [infoJac, hc, hl, hp.jacS]]
      exact writeAt_start _ _ _
    simp only [jacS, h1, hc, hl, if_true, Bool.false_eq_true, if_false, Option.bind_eq_bind, Option.bind_some, hoff, hM, Option.pure_def]
    rw [writeAt_end _ _ _ (by simp [hp.jacS, hv])]
    simp [hp.jacS]
  · have h1 : writeAt (List.replicate (infoJac q p) none) 0 ((p.jacV x).map some) =
        some ((p.jacV x).map some ++ List.replicate q.vals.length none) := by
      rw [show infoJac q p = ((p.jacV x).map some).length + q.vals.length by simp [infoJac, hc, hl, hp.jacV]]
      exact writeAt_start _ _ _
    simp only [jacV, h1, hc, hl, if_true, Bool.false_eq_true, if_false, Option.bind_eq_bind, Option.bind_some, hoff, Option.pure_def]
    rw [writeAt_end _ _ _ (by simp [hp.jacV])]
    simp [hp.jacV]

/-- The derivative of the local-branching row in direction `d` is what its Jacobian entries say. -/
theorem local_row_gradient (q : Par) (x d : List ℚ) (hl : x.length = d.length) :
    l1 q.inds q.vals (shift x d) - l1 q.inds q.vals x =
      (List.zipWith (fun i v => (if v ≤ 1 / 10 then (1 : ℚ) else -1) * at' d i) q.inds q.vals).sum := by
  generalize q.inds = is
  generalize q.vals = vs
  induction is generalizing vs with
  | nil => simp [l1]
  | cons i is ih =>
    cases vs with
    | nil => simp [l1]
    | cons v vs =>
      have := ih vs
      simp only [l1, List.zipWith_cons_cons, List.sum_cons, at_shift x d i hl] at *
      rw [← this]
      split <;> ring

/-- **C15** refuted: with both rows on, the Jacobian of the second one is written beyond the end of the announced arrays, for every problem with a
nonempty Jacobian and a nonempty target. -/
theorem fp_jacobian_both (q : Par) (p : Nlp) (x : List ℚ) (hc : q.useCut = true) (hl : q.useLoc = true)
    (hv : q.vals.length = q.inds.length) (hne : q.inds ≠ []) (hj : 0 < p.nnzJac) : jacS q p = none ∧ jacV q p x = none := by
  have hw : ∀ {α : Type} (mem : List α) (k : Nat) (xs mem' : List α), writeAt mem k xs = some mem' → mem'.length = mem.length := by
    intro α mem k xs mem' h
    unfold writeAt at h
    split at h
    · simp at h; rw [h]
    · split at h
      · simp at h; rw [← h]; simp; omega
      · simp at h
  have hbad : ∀ {α : Type} (mem : List α) (xs : List α), mem.length = infoJac q p → xs.length = q.inds.length →
      writeAt mem (offLoc q p) xs = none := by
    intro α mem xs h1 h2
    have : 0 < q.inds.length := List.length_pos_iff.mpr hne
    unfold writeAt
    rw [if_neg (by intro h; rw [h] at h2; simp at h2; omega), if_neg]
    rw [h1, h2]
    simp [offLoc, offCut, infoJac, hc, hl, hv]
    omega
  constructor
  · unfold jacS
    cases h1 : writeAt (List.replicate (infoJac q p) none) 0 (p.jacS.map some) with
    | none => simp
    | some mem =>
      simp only [Option.bind_eq_bind, Option.bind_some, hc, if_true]
      cases h2 : writeAt mem (offCut q p) ((List.range p.n).map (fun i => some (infoM q p - (if q.useLoc then 2 else 1) + p.off, i + p.off))) with
      | none => simp
      | some mem2 =>
        simp only [Option.bind_some, hl, if_true]
        exact hbad _ _ (by rw [hw _ _ _ _ h2, hw _ _ _ _ h1]; simp) (by simp)
  · unfold jacV
    cases h1 : writeAt (List.replicate (infoJac q p) none) 0 ((p.jacV x).map some) with
    | none => simp
    | some mem =>
      simp only [Option.bind_eq_bind, Option.bind_some, hc, if_true]
      cases h2 : writeAt mem (offCut q p) ((gradF q p x).map some) with
      | none => simp
      | some mem2 =>
        simp only [Option.bind_some, hl, if_true]
        exact hbad _ _ (by rw [hw _ _ _ _ h2, hw _ _ _ _ h1]; simp) (by simp [hv])

/-- **C15** refuted: with both rows on, the linearity flags of the two rows are exchanged: the objective row (last but one) is declared linear. -/
theorem fp_linearity_swapped (q : Par) (p : Nlp) (hp : p.Sized) (hc : q.useCut = true) (hl : q.useLoc = true) (x : List ℚ) :
    (evalG q p x)[p.m]? = some (evalF q p x) ∧ (isLin q p)[p.m]? = some true ∧
    (evalG q p x)[p.m + 1]? = some (l1 q.inds q.vals x) ∧ (isLin q p)[p.m + 1]? = some false := by
  simp [evalG, isLin, hc, hl, hp.evalG, hp.isLin]

/-- The wrapped problem is told the wrong number of rows whenever a row is added. -/
theorem fp_inner_rows (q : Par) (p : Nlp) : jacInnerM q p = p.m ↔ q.useCut = false ∧ q.useLoc = false := by
  cases hc : q.useCut <;> cases hl : q.useLoc <;> simp [jacInnerM, infoM, extra, hc, hl]

/-! ### non-trivial instances -/

example : evalF ((Par.new (10^30) 1).toFp [0, 1] [0, 1] (1/2) 2 2) LinObj.exP [1, 3] =
    1 * (1/2) * ((1 - 0)^2 + (3 - 1)^2) + (1 - 1/2) * 2 * LinObj.exP.evalF [1, 3] := by
  have := (fp_value ((Par.new (10^30) 1).toFp [0, 1] [0, 1] (1/2) 2 2) LinObj.exP [1, 3] rfl).1 rfl
  simpa [sq, at', Par.toFp, Par.new] using this

example : man [0, 1] [0, 1] [1/4, 1/2] = 3/4 := by norm_num [man, at', abs_of_nonneg, abs_of_nonpos]

/-- **C14**: a norm other than 1 and 2 makes the distance term vanish: only the weighted original objective is left. -/
theorem fp_other_norm (q : Par) (p : Nlp) (x : List ℚ) (ho : q.useObj = true) (h1 : q.norm ≠ 1) (h2 : q.norm ≠ 2) : evalF q p x = (1 - q.lam) * q.sig * p.evalF x := by
  unfold evalF dist
  rw [if_pos ho, if_neg h2, if_neg h1]; ring

/-- **C14**: where the two added rows go in the Jacobian arrays if both are on: the cutoff row directly after the original entries, the local-branching row
`nnz + n` places further than the end of the original entries instead of `n`. -/
theorem fp_offsets (q : Par) (p : Nlp) (hc : q.useCut = true) (hl : q.useLoc = true) :
    offCut q p = p.nnzJac ∧ offLoc q p = p.nnzJac + (p.nnzJac + p.n) := by
  have h1 : offCut q p = p.nnzJac := by unfold offCut infoJac; rw [hc, hl]; simp; omega
  refine ⟨h1, ?_⟩
  unfold offLoc
  rw [if_pos hc, h1]
  unfold infoJac
  rw [hc, hl]; simp; omega

end Verif.Fp

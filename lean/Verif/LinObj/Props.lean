import Verif.LinObj.Model
import Mathlib.Tactic.Ring
import Mathlib.Tactic.Linarith
import Mathlib.Tactic.NormNum
/-! # C07, C08: the epigraph reformulation is equivalent to the original problem and differentiates correctly -/
namespace Verif.LinObj

theorem box_snoc (inf : ℚ) (l u v : List ℚ) (a b c : ℚ) :
    Box inf (l ++ [a]) (u ++ [b]) (v ++ [c]) ↔ Box inf l u v ∧ within inf a b c := by
  unfold Box
  simp only [List.length_append, List.length_cons, List.length_nil, Nat.add_right_cancel_iff]
  constructor
  · rintro ⟨h1, h2, h3⟩
    refine ⟨⟨h1, h2, fun i a' b' c' ha hb hc => h3 i a' b' c' ?_ ?_ ?_⟩, h3 v.length a b c ?_ ?_ ?_⟩
    · rw [List.getElem?_append_left (List.getElem?_eq_some_iff.1 ha).1, ha]
    · rw [List.getElem?_append_left (List.getElem?_eq_some_iff.1 hb).1, hb]
    · rw [List.getElem?_append_left (List.getElem?_eq_some_iff.1 hc).1, hc]
    · rw [← h1]; simp
    · rw [← h2]; simp
    · simp
  · rintro ⟨⟨h1, h2, h3⟩, h4⟩
    refine ⟨h1, h2, fun i a' b' c' ha hb hc => ?_⟩
    by_cases hi : i < v.length
    · rw [List.getElem?_append_left (by omega)] at ha hb hc
      exact h3 i a' b' c' ha hb hc
    · have hi' : i = v.length := by
        have := (List.getElem?_eq_some_iff.1 hc).1
        simp at this; omega
      subst hi'
      have e1 : (l ++ [a])[v.length]? = some a := by rw [← h1]; simp
      have e2 : (u ++ [b])[v.length]? = some b := by rw [← h2]; simp
      have e3 : (v ++ [c])[v.length]? = some c := by simp
      rw [e1] at ha; rw [e2] at hb; rw [e3] at hc
      simp at ha hb hc; subst ha; subst hb; subst hc; exact h4

theorem box_cons (inf : ℚ) (l u v : List ℚ) (a b c : ℚ) :
    Box inf (a :: l) (b :: u) (c :: v) ↔ within inf a b c ∧ Box inf l u v := by
  unfold Box
  simp only [List.length_cons, Nat.add_right_cancel_iff]
  constructor
  · rintro ⟨h1, h2, h3⟩
    exact ⟨h3 0 a b c (by simp) (by simp) (by simp), h1, h2,
      fun i a' b' c' ha hb hc => h3 (i + 1) a' b' c' (by simpa) (by simpa) (by simpa)⟩
  · rintro ⟨h4, h1, h2, h3⟩
    refine ⟨h1, h2, fun i a' b' c' ha hb hc => ?_⟩
    cases i with
    | zero => simp at ha hb hc; subst ha; subst hb; subst hc; exact h4
    | succ i => exact h3 i a' b' c' (by simpa using ha) (by simpa using hb) (by simpa using hc)

theorem intOn_snoc (I : List Bool) (x : List ℚ) (t : ℚ) (h : I.length = x.length) :
    IntOn (I ++ [false]) (x ++ [t]) ↔ IntOn I x := by
  unfold IntOn
  constructor
  · intro h' i v h1 h2
    refine h' i v ?_ ?_
    · rw [List.getElem?_append_left (List.getElem?_eq_some_iff.1 h1).1, h1]
    · rw [List.getElem?_append_left (List.getElem?_eq_some_iff.1 h2).1, h2]
  · intro h' i v h1 h2
    by_cases hi : i < I.length
    · rw [List.getElem?_append_left hi] at h1
      rw [List.getElem?_append_left (by omega)] at h2
      exact h' i v h1 h2
    · exfalso
      have hl := (List.getElem?_eq_some_iff.1 h1).1
      simp at hl
      have : i = I.length := by omega
      subst this
      simp at h1

/-- C07. `(x,t)` is feasible for the reformulated problem iff `x` is feasible for the original and `f(x) ≤ t`;
and every feasible point of the reformulated problem has this shape. -/
theorem epigraph_feasible (inf : ℚ) (hinf : 0 < inf) (p : Nlp) (hp : p.Sized) (z : List ℚ) :
    (lin inf p).Feas inf z ↔ ∃ x t, z = x ++ [t] ∧ p.Feas inf x ∧ p.evalF x ≤ t := by
  have key : ∀ x t, x.length = p.n →
      ((lin inf p).Feas inf (x ++ [t]) ↔ p.Feas inf x ∧ p.evalF x ≤ t) := by
    intro x t hx
    have htk : (x ++ [t]).take p.n = x := by rw [← hx]; simp
    have hgt : (x ++ [t]).getD p.n 0 = t := by rw [← hx]; simp
    unfold Nlp.Feas
    have hg : (lin inf p).evalG (x ++ [t]) = (p.evalF x - t) :: p.evalG x := by
      simp only [lin, htk, hgt]
    rw [hg]
    simp only [lin]
    rw [box_snoc, box_cons, intOn_snoc _ _ _ (by rw [hp.isInt, hx])]
    have w1 : within inf (-inf) inf t := ⟨Or.inl (le_refl _), Or.inl (le_refl _)⟩
    have w2 : within inf (-inf) 0 (p.evalF x - t) ↔ p.evalF x ≤ t := by
      unfold within
      constructor
      · rintro ⟨_, h | h⟩ <;> linarith
      · intro h; exact ⟨Or.inl (le_refl _), Or.inr (by linarith)⟩
    rw [w2]
    simp only [List.length_append, List.length_cons, List.length_nil, Nat.add_right_cancel_iff]
    tauto
  constructor
  · intro h
    have hl : z.length = p.n + 1 := h.1
    have hz : z = z.take p.n ++ [z.getD p.n 0] := by
      have := List.take_append_getElem (l := z) (i := p.n) (by omega)
      rw [List.getD_eq_getElem?_getD, List.getElem?_eq_getElem (by omega)]
      simp only [Option.getD_some]
      rw [this, List.take_of_length_le (by omega)]
    have hx : (z.take p.n).length = p.n := by simp; omega
    refine ⟨z.take p.n, z.getD p.n 0, hz, ?_⟩
    rw [hz] at h
    exact (key _ _ hx).1 h
  · rintro ⟨x, t, rfl, hx, ht⟩
    exact (key x t hx.1).2 ⟨hx, ht⟩

/-- The objective of the reformulated problem is its last variable. -/
theorem epigraph_objective (inf : ℚ) (p : Nlp) (x : List ℚ) (t : ℚ) (hx : x.length = p.n) :
    (lin inf p).evalF (x ++ [t]) = t := by
  simp only [lin, ← hx]; simp

/-- C07. Optimal points correspond: `(x,t)` is optimal for the reformulated problem iff `x` is optimal for the original
and `t = f(x)`; so the optimal values coincide. -/
theorem epigraph_optimal (inf : ℚ) (hinf : 0 < inf) (p : Nlp) (hp : p.Sized) (x : List ℚ) (t : ℚ)
    (hx : x.length = p.n) :
    (lin inf p).Opt inf (x ++ [t]) ↔ p.Opt inf x ∧ t = p.evalF x := by
  have hf := epigraph_feasible inf hinf p hp
  have hinj : ∀ (y : List ℚ) (s : ℚ), x ++ [t] = y ++ [s] → y = x ∧ s = t := by
    intro y s h
    have := List.append_inj' h (by simp)
    exact ⟨this.1.symm, by simpa using this.2.symm⟩
  unfold Nlp.Opt
  constructor
  · rintro ⟨h1, h2⟩
    obtain ⟨y, s, he, hy, hs⟩ := (hf _).1 h1
    obtain ⟨rfl, rfl⟩ := hinj y s he
    have hle : s ≤ p.evalF y := by
      have := h2 (y ++ [p.evalF y]) ((hf _).2 ⟨y, _, rfl, hy, le_refl _⟩)
      rwa [epigraph_objective inf p y _ hx, epigraph_objective inf p y _ hx] at this
    refine ⟨⟨hy, fun w hw => ?_⟩, le_antisymm hle hs⟩
    have := h2 (w ++ [p.evalF w]) ((hf _).2 ⟨w, _, rfl, hw, le_refl _⟩)
    rw [epigraph_objective inf p y _ hx, epigraph_objective inf p w _ hw.1] at this
    linarith
  · rintro ⟨⟨h1, h2⟩, rfl⟩
    refine ⟨(hf _).2 ⟨x, _, rfl, h1, le_refl _⟩, ?_⟩
    intro z hz
    obtain ⟨w, s, rfl, hw, hs⟩ := (hf z).1 hz
    rw [epigraph_objective inf p x _ hx, epigraph_objective inf p w _ hw.1]
    exact le_trans (h2 w hw) hs

/-- The starting point of the reformulated problem is on the epigraph of the original starting point, and satisfies the
objective row. -/
theorem epigraph_start (inf : ℚ) (p : Nlp) (hp : p.Sized) :
    (lin inf p).start = p.start ++ [p.evalF p.start] ∧ ((lin inf p).evalG (lin inf p).start).head? = some 0 := by
  refine ⟨rfl, ?_⟩
  have h1 : (p.start ++ [p.evalF p.start]).take p.n = p.start := by rw [← hp.start]; simp
  have h2 : (p.start ++ [p.evalF p.start]).getD p.n 0 = p.evalF p.start := by rw [← hp.start]; simp
  simp only [lin, h1, h2]; simp

/-- The announced sizes of the reformulated problem are those of its answers. -/
theorem epigraph_sized (inf : ℚ) (p : Nlp) (hp : p.Sized) : (lin inf p).Sized := by
  constructor
  · simp [lin, hp.xl]
  · simp [lin, hp.xu]
  · simp [lin, hp.gl]
  · simp [lin, hp.gu]
  · simp [lin, hp.isInt]
  · simp [lin, hp.isLin]
  · simp [lin, hp.start]
  · intro x; simp [lin]
  · intro x; simp [lin, hp.evalG]
  · simp [lin, hp.jacS]; omega
  · intro x; simp [lin, hp.gradF, hp.jacV]; omega
  · simp [lin, hp.hS]
  · intro x s l; simp [lin, hp.hV]

/-! ## C08 -/

theorem dot_eq_range (a d : List ℚ) :
    dot a d = ((List.range a.length).map (fun i => a.getD i 0 * d.getD i 0)).sum := by
  unfold dot
  induction a generalizing d with
  | nil => simp
  | cons x a ih =>
    cases d with
    | nil => simp
    | cons y d => simp [List.range_succ_eq_map, ih, Function.comp_def]

theorem row0_sum (off : Nat) (v : List ℚ) (d : List ℚ) :
    (((((List.range v.length).map (fun i => (off, i + off)))).zip v).map
      (fun e => e.2 * d.getD (e.1.2 - off) 0)).sum = dot v d := by
  rw [dot_eq_range]
  congr 1
  apply List.ext_getElem
  · simp
  · intro i h1 h2
    simp at h1
    simp [h1]

/-- C08. The Jacobian triplets of the reformulated problem: row 0 is `(∇f(x), -1)`, row `i+1` is the original row `i` (its
last column is empty), for both index styles and any direction `(d,s)`. -/
theorem epigraph_jacobian (inf : ℚ) (p : Nlp) (hp : p.Sized) (hrow : ∀ e ∈ p.jacS, p.off ≤ e.1 ∧ p.off ≤ e.2 ∧ e.2 < p.n + p.off)
    (x d : List ℚ) (t s : ℚ) (hx : x.length = p.n) (hd : d.length = p.n) :
    rowDot p.off (lin inf p).jacS ((lin inf p).jacV (x ++ [t])) 0 (d ++ [s]) = dot (p.gradF x) d - s ∧
    ∀ i, rowDot p.off (lin inf p).jacS ((lin inf p).jacV (x ++ [t])) (i + 1) (d ++ [s]) =
      rowDot p.off p.jacS (p.jacV x) i d := by
  have htk : (x ++ [t]).take p.n = x := by rw [← hx]; simp
  have hV : (lin inf p).jacV (x ++ [t]) = (p.gradF x ++ [-1]) ++ p.jacV x := by simp only [lin, htk]
  have hzip : (lin inf p).jacS.zip ((lin inf p).jacV (x ++ [t])) =
      (((List.range (p.n + 1)).map (fun i => (p.off, i + p.off))).zip (p.gradF x ++ [-1])) ++
      ((p.jacS.map (fun e => (e.1 + 1, e.2))).zip (p.jacV x)) := by
    rw [hV]
    exact List.zip_append (by simp [hp.gradF])
  have hlen : (p.gradF x ++ [(-1 : ℚ)]).length = p.n + 1 := by simp [hp.gradF]
  unfold rowDot
  rw [hzip]
  simp only [List.map_append, List.sum_append]
  constructor
  · have h2 : (((p.jacS.map (fun e => (e.1 + 1, e.2))).zip (p.jacV x)).map
        (fun e => if e.1.1 = 0 + p.off then e.2 * (d ++ [s]).getD (e.1.2 - p.off) 0 else 0)).sum = 0 := by
      apply List.sum_eq_zero
      intro y hy
      obtain ⟨e, he, rfl⟩ := List.mem_map.1 hy
      have := (List.of_mem_zip he).1
      obtain ⟨e', he', h⟩ := List.mem_map.1 this
      have := hrow e' he'
      rw [← h]
      rw [if_neg]; simp only; omega
    rw [h2, add_zero]
    have h1 : (((List.range (p.n + 1)).map (fun i => (p.off, i + p.off))).zip (p.gradF x ++ [-1])).map
        (fun e => if e.1.1 = 0 + p.off then e.2 * (d ++ [s]).getD (e.1.2 - p.off) 0 else 0) =
        (((List.range (p.n + 1)).map (fun i => (p.off, i + p.off))).zip (p.gradF x ++ [-1])).map
        (fun e => e.2 * (d ++ [s]).getD (e.1.2 - p.off) 0) := by
      apply List.map_congr_left
      intro e he
      have := (List.of_mem_zip he).1
      obtain ⟨i, _, h⟩ := List.mem_map.1 this
      rw [if_pos]; rw [← h]; simp
    rw [h1, ← hlen, row0_sum]
    unfold dot
    rw [List.zipWith_append (by rw [hp.gradF, hd])]
    simp
    ring
  · intro i
    have h1 : ((((List.range (p.n + 1)).map (fun i => (p.off, i + p.off))).zip (p.gradF x ++ [-1])).map
        (fun e => if e.1.1 = i + 1 + p.off then e.2 * (d ++ [s]).getD (e.1.2 - p.off) 0 else 0)).sum = 0 := by
      apply List.sum_eq_zero
      intro y hy
      obtain ⟨e, he, rfl⟩ := List.mem_map.1 hy
      have := (List.of_mem_zip he).1
      obtain ⟨j, _, h⟩ := List.mem_map.1 this
      rw [← h, if_neg]; simp only; omega
    rw [h1, zero_add, List.zip_map_left, List.map_map]
    congr 1
    apply List.map_congr_left
    intro e he
    have hm := hrow _ (List.of_mem_zip he).1
    simp only [Function.comp, Prod.map, id]
    have : (e.1.1 + 1 = i + 1 + p.off) ↔ (e.1.1 = i + p.off) := by omega
    have hcol : (d ++ [s]).getD (e.1.2 - p.off) 0 = d.getD (e.1.2 - p.off) 0 := by
      rw [List.getD_eq_getElem?_getD, List.getD_eq_getElem?_getD, List.getElem?_append_left (by omega)]
    by_cases hc : e.1.1 = i + p.off
    · rw [if_pos (this.2 hc), if_pos hc, hcol]
    · rw [if_neg (fun h => hc (this.1 h)), if_neg hc]

/-- C08. Single-row evaluation agrees with the vector of rows, provided the original problem's does. -/
theorem epigraph_gi (inf : ℚ) (p : Nlp) (hp : p.Sized)
    (hgi : ∀ x i, i < p.m → (p.evalG x)[i]? = some (p.evalGi x i)) (z : List ℚ) (i : Nat) (hi : i < p.m + 1) :
    ((lin inf p).evalG z)[i]? = some ((lin inf p).evalGi z i) := by
  cases i with
  | zero => simp [lin]
  | succ i => simpa [lin] using hgi (z.take p.n) i (by omega)

/-- C08. Single-row gradients (values queries) are rows of the Jacobian, provided the original problem's are. -/
theorem epigraph_grad_gi (inf : ℚ) (p : Nlp) (hp : p.Sized)
    (hrow : ∀ e ∈ p.jacS, p.off ≤ e.1 ∧ p.off ≤ e.2 ∧ e.2 < p.n + p.off)
    (hg : ∀ x i d, i < p.m → sparseRow p.off (p.gradGi x i) d = rowDot p.off p.jacS (p.jacV x) i d)
    (hgn : ∀ x i, ∀ e ∈ p.gradGi x i, p.off ≤ e.1 ∧ e.1 < p.n + p.off)
    (x d : List ℚ) (t s : ℚ) (hx : x.length = p.n) (hd : d.length = p.n) (i : Nat) (hi : i < p.m + 1) :
    sparseRow p.off ((lin inf p).gradGi (x ++ [t]) i) (d ++ [s]) =
      rowDot p.off (lin inf p).jacS ((lin inf p).jacV (x ++ [t])) i (d ++ [s]) := by
  have htk : (x ++ [t]).take p.n = x := by rw [← hx]; simp
  obtain ⟨h0, h1⟩ := epigraph_jacobian inf p hp hrow x d t s hx hd
  cases i with
  | zero =>
    rw [h0]
    have hlen : (p.gradF x ++ [(-1 : ℚ)]).length = p.n + 1 := by simp [hp.gradF]
    have : sparseRow p.off ((lin inf p).gradGi (x ++ [t]) 0) (d ++ [s]) = dot (p.gradF x ++ [-1]) (d ++ [s]) := by
      rw [dot_eq_range, hlen]
      unfold sparseRow
      simp only [lin, htk, if_true]
      congr 1
      apply List.ext_getElem
      · simp [hp.gradF]
      · intro j h1 h2
        simp only [List.length_map, List.length_range] at h2
        simp only [List.getElem_map, List.getElem_zipWith, List.getElem_range, Nat.add_sub_cancel]
        rw [List.getD_eq_getElem?_getD (l := p.gradF x ++ [-1]), List.getElem?_eq_getElem (by omega)]
        simp
    rw [this]
    unfold dot
    rw [List.zipWith_append (by rw [hp.gradF, hd])]
    simp
    ring
  | succ i =>
    rw [h1, ← hg x i d (by omega)]
    unfold sparseRow
    simp only [lin, htk, Nat.add_sub_cancel, Nat.succ_ne_zero, if_false]
    congr 1
    apply List.map_congr_left
    intro e he
    have := hgn x i e he
    rw [List.getD_eq_getElem?_getD, List.getD_eq_getElem?_getD, List.getElem?_append_left (by omega)]

/-- C08. If the original Hessian callback returns `σ·∇²f + Σ λᵢ∇²gᵢ` (as forms `Hf`, `Hg i`), the reformulated one returns the
Hessian of its own Lagrangian `σ·t + λ₀(f - t) + Σ λᵢ₊₁ gᵢ`, for every objective factor and multipliers. -/
theorem epigraph_hessian (inf : ℚ) (p : Nlp) (Hf : List ℚ → List ℚ → ℚ) (Hg : Nat → List ℚ → List ℚ → ℚ)
    (hS : ∀ e ∈ p.hS, p.off ≤ e.1 ∧ p.off ≤ e.2 ∧ e.1 < p.n + p.off ∧ e.2 < p.n + p.off)
    (hH : ∀ x σ l d, l.length = p.m → triForm p.off p.hS (p.hV x σ l) d =
      σ * Hf x d + ((List.range p.m).map (fun i => l.getD i 0 * Hg i x d)).sum)
    (x d : List ℚ) (t s σ : ℚ) (l : List ℚ) (hx : x.length = p.n) (hd : d.length = p.n) (hl : l.length = p.m + 1) :
    triForm p.off (lin inf p).hS ((lin inf p).hV (x ++ [t]) σ l) (d ++ [s]) =
      σ * 0 + l.getD 0 0 * Hf x d + ((List.range p.m).map (fun i => l.getD (i + 1) 0 * Hg i x d)).sum := by
  have htk : (x ++ [t]).take p.n = x := by rw [← hx]; simp
  have h1 : triForm p.off (lin inf p).hS ((lin inf p).hV (x ++ [t]) σ l) (d ++ [s]) =
      triForm p.off p.hS (p.hV x (l.getD 0 0) l.tail) d := by
    unfold triForm
    simp only [lin, htk]
    congr 1
    apply List.map_congr_left
    intro e he
    have := hS _ (List.of_mem_zip he).1
    have c1 : (d ++ [s]).getD (e.1.1 - p.off) 0 = d.getD (e.1.1 - p.off) 0 := by
      rw [List.getD_eq_getElem?_getD, List.getD_eq_getElem?_getD, List.getElem?_append_left (by omega)]
    have c2 : (d ++ [s]).getD (e.1.2 - p.off) 0 = d.getD (e.1.2 - p.off) 0 := by
      rw [List.getD_eq_getElem?_getD, List.getD_eq_getElem?_getD, List.getElem?_append_left (by omega)]
    rw [c1, c2]
  rw [h1, hH x _ _ d (by simp [hl])]
  have : ∀ i, l.tail.getD i 0 = l.getD (i + 1) 0 := by intro i; cases l <;> simp
  simp only [this]
  ring

/-- C08 (refuted part). A structure-only query of the objective row's gradient (NULL values) is undefined behaviour, and a
values query never reports the number of elements. -/
theorem epigraph_row0_query (p : Nlp) (x : List ℚ) (w : Bool) :
    gradRow0 p x w false = none ∧ ∀ r, gradRow0 p x w true = some r → r.nele = none := by
  refine ⟨rfl, ?_⟩
  intro r h
  simp only [gradRow0, if_true, Option.some.injEq] at h
  rw [← h]

/-! ### a concrete problem meeting all hypotheses: min x₀² + x₁ s.t. 1 ≤ x₀x₁ , x₀ ∈ [0,5] integer, x₁ ∈ [0,7] -/

def exP : Nlp where
  n := 2
  m := 1
  nnzJac := 2
  nnzH := 2
  off := 1
  xl := [0, 0]
  xu := [5, 7]
  gl := [1]
  gu := [1000]
  isInt := [true, false]
  isLin := [false]
  start := [1, 1]
  evalF := fun x => x.getD 0 0 * x.getD 0 0 + x.getD 1 0
  gradF := fun x => [2 * x.getD 0 0, 1]
  evalG := fun x => [x.getD 0 0 * x.getD 1 0]
  evalGi := fun x _ => x.getD 0 0 * x.getD 1 0
  jacS := [(1, 1), (1, 2)]
  jacV := fun x => [x.getD 1 0, x.getD 0 0]
  gradGi := fun x _ => [(1, x.getD 1 0), (2, x.getD 0 0)]
  hS := [(1, 1), (2, 1)]
  hV := fun _ s l => [2 * s, l.getD 0 0]

theorem exP_sized : exP.Sized := by
  constructor <;> first | rfl | (intros; rfl)

example : (lin 1000 exP).Feas 1000 ([1, 2] ++ [4]) := by
  rw [epigraph_feasible 1000 (by norm_num) exP exP_sized]
  refine ⟨[1, 2], 4, rfl, ⟨rfl, ⟨rfl, rfl, ?_⟩, ?_, ⟨rfl, rfl, ?_⟩⟩, by norm_num [exP]⟩
  · intro i a b c ha hb hc
    match i with
    | 0 => simp [exP] at ha hb hc; subst ha; subst hb; subst hc; norm_num [within]
    | 1 => simp [exP] at ha hb hc; subst ha; subst hb; subst hc; norm_num [within]
    | i + 2 => simp at hc
  · intro i v hi hv
    match i with
    | 0 => simp at hv; subst hv; exact ⟨1, by norm_num⟩
    | i + 1 => simp [exP] at hi; cases i <;> simp at hi
  · intro i a b c ha hb hc
    match i with
    | 0 => simp [exP] at ha hb hc; subst ha; subst hb; subst hc; norm_num [within]
    | i + 1 => simp [exP] at hc

example : (∀ e ∈ exP.jacS, exP.off ≤ e.1 ∧ exP.off ≤ e.2 ∧ e.2 < exP.n + exP.off) ∧
    (∀ x i, i < exP.m → (exP.evalG x)[i]? = some (exP.evalGi x i)) ∧
    (∀ x i d, i < exP.m → sparseRow exP.off (exP.gradGi x i) d = rowDot exP.off exP.jacS (exP.jacV x) i d) ∧
    (∀ x i, ∀ e ∈ exP.gradGi x i, exP.off ≤ e.1 ∧ e.1 < exP.n + exP.off) := by
  refine ⟨by decide, ?_, ?_, ?_⟩
  · intro x i hi
    have : i = 0 := by simp [exP] at hi; omega
    subst this; rfl
  · intro x i d hi
    have : i = 0 := by simp [exP] at hi; omega
    subst this
    simp [sparseRow, rowDot, exP]
  · intro x i e he
    simp [exP] at he ⊢
    rcases he with rfl | rfl <;> simp

example : ∀ x σ (l : List ℚ) d, l.length = exP.m → triForm exP.off exP.hS (exP.hV x σ l) d =
    σ * (2 * (d.getD 0 0 * d.getD 0 0)) +
      ((List.range exP.m).map (fun i => l.getD i 0 * (2 * (d.getD 0 0 * d.getD 1 0)))).sum := by
  intro x σ l d hl
  simp [triForm, exP]; ring

/-- **C08**: what `eval_grad_gi` delivers for the objective row when the value array is given: the objective gradient at the original part of the point and `-1` for `α`, and the indices
of all `n + 1` columns in the numbering of the problem exactly when they are asked for. -/
theorem gradRow0_exact (p : Nlp) (x z : List ℚ) (w : Bool) (hx : x.length = p.n) :
    gradRow0 p (x ++ z) w true = some ⟨none, if w then some ((List.range' p.off (p.n + 1))) else none, p.gradF x ++ [-1]⟩ := by
  unfold gradRow0
  rw [if_pos rfl, ← hx, List.take_left]
  cases w
  · rfl
  · simp only [if_true]
    rw [List.range_eq_range', show (fun k => k + p.off) = (fun k => p.off + k) from funext fun k => Nat.add_comm _ _, List.map_add_range']
    rfl

end Verif.LinObj

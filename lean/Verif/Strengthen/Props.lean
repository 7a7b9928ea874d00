import Verif.Strengthen.Model
import Verif.Oa.Lemmas
/-! # C13: disjunctive strengthening -/
namespace Verif.Strengthen
open Verif.Oa

/-- The strengthening problems are solved correctly for the feasible set `P`: a bound computed on a box bounds the cut's activity on
the points of `P` in that box. -/
def Sound (bnd : Bool → (Nat → ℚ) → (Nat → ℚ) → Option ℚ) (P : (Nat → ℚ) → Prop) (co : List (Nat × ℚ)) : Prop :=
  ∀ xl xu b, (bnd false xl xu = some b → ∀ y, P y → (∀ i, xl i ≤ y i ∧ y i ≤ xu i) → act co y ≤ b) ∧
    (bnd true xl xu = some b → ∀ y, P y → (∀ i, xl i ≤ y i ∧ y i ≤ xu i) → b ≤ act co y)

theorem act_set {co : List (Nat × ℚ)} {k j : Nat} {v w : ℚ} (y : Nat → ℚ) : co[k]? = some (j, v) →
    act (co.set k (j, w)) y = act co y + (w - v) * y j := by
  induction co generalizing k with
  | nil => intro h; simp at h
  | cons e es ih =>
    intro h
    cases k with
    | zero =>
      simp at h; subst h
      simp only [List.set_cons_zero, act, List.map_cons, List.sum_cons]; ring
    | succ k =>
      simp at h
      have := ih h
      simp only [List.set_cons_succ, act, List.map_cons, List.sum_cons] at *
      rw [this]; ring

theorem strengthenCut_valid {inf : ℚ} {bnd : Bool → (Nat → ℚ) → (Nat → ℚ) → Option ℚ} {P : (Nat → ℚ) → Prop} {c : Cut}
    (hs : Sound bnd P c.co) {xl xu : Nat → ℚ} {ok : Bool} {lb ub : ℚ}
    (h : strengthenCut inf bnd xl xu c.lb c.ub = some (ok, lb, ub)) {y : Nat → ℚ} (hy : P y) (hsat : Sat inf c y)
    (hbox : ∀ i, xl i ≤ y i ∧ y i ≤ xu i) :
    Sat inf ⟨c.co, lb, ub⟩ y ∧ (c.lb ≤ -inf → ok = true → act c.co y ≤ ub) ∧ (¬ c.lb ≤ -inf → ok = true → lb ≤ act c.co y) ∧
      (ok = false → lb = c.lb ∧ ub = c.ub) := by
  unfold strengthenCut at h
  by_cases hl : c.lb ≤ -inf
  · rw [if_pos hl] at h
    by_cases hu : c.ub < inf
    · rw [if_pos hu] at h
      cases hb : bnd false xl xu with
      | none =>
        rw [hb] at h; simp only [Option.some.injEq, Prod.mk.injEq] at h; obtain ⟨rfl, rfl, rfl⟩ := h
        exact ⟨hsat, by simp, by simp, by simp⟩
      | some b =>
        rw [hb] at h; simp only [Option.some.injEq, Prod.mk.injEq] at h; obtain ⟨rfl, rfl, rfl⟩ := h
        have := (hs xl xu b).1 hb y hy hbox
        exact ⟨⟨Or.inl hl, Or.inr this⟩, fun _ _ => this, fun h => absurd hl h, by simp⟩
    · rw [if_neg hu] at h; simp at h
  · rw [if_neg hl] at h
    by_cases hu : c.ub ≥ inf
    · rw [if_pos hu] at h
      cases hb : bnd true xl xu with
      | none =>
        rw [hb] at h; simp only [Option.some.injEq, Prod.mk.injEq] at h; obtain ⟨rfl, rfl, rfl⟩ := h
        exact ⟨hsat, by simp, by simp, by simp⟩
      | some b =>
        rw [hb] at h; simp only [Option.some.injEq, Prod.mk.injEq] at h; obtain ⟨rfl, rfl, rfl⟩ := h
        have := (hs xl xu b).2 hb y hy hbox
        exact ⟨⟨Or.inr this, Or.inl hu⟩, fun h => absurd h hl, fun _ _ => this, by simp⟩
    · rw [if_neg hu] at h; simp at h

theorem mostFrac_spec {n : Nat} {isInt : Nat → Bool} {x : Nat → ℚ} (es : List (Nat × ℚ)) : ∀ (pre : List (Nat × ℚ)) (best : Option Nat)
    (viol : ℚ), (∀ k, best = some k → ∃ e, pre[k]? = some e ∧ e.1 < n ∧ isInt e.1 = true ∧ viol = frac (x e.1)) →
    (best = none → viol = 1 / 1000000) → 1 / 1000000 ≤ viol →
    (∀ e ∈ pre, e.1 < n → isInt e.1 = true → frac (x e.1) ≤ viol) →
    match mostFrac n isInt x es pre.length best viol with
    | none => ∀ e ∈ pre ++ es, e.1 < n → isInt e.1 = true → frac (x e.1) ≤ 1 / 1000000
    | some k => ∃ e, (pre ++ es)[k]? = some e ∧ e.1 < n ∧ isInt e.1 = true ∧ 1 / 1000000 ≤ frac (x e.1) ∧
        ∀ e' ∈ pre ++ es, e'.1 < n → isInt e'.1 = true → frac (x e'.1) ≤ frac (x e.1) := by
  induction es with
  | nil =>
    intro pre best viol h1 h2 h3 h4
    unfold mostFrac
    cases best with
    | none => simp only [List.append_nil]; rw [h2 rfl] at h4; exact h4
    | some k =>
      obtain ⟨e, a, b, c, d⟩ := h1 k rfl
      simp only [List.append_nil]
      exact ⟨e, a, b, c, by rw [← d]; exact h3, by rw [← d]; exact h4⟩
  | cons e es ih =>
    intro pre best viol h1 h2 h3 h4
    unfold mostFrac
    have hpre : pre ++ e :: es = (pre ++ [e]) ++ es := by simp
    have hlen : pre.length + 1 = (pre ++ [e]).length := by simp
    rw [hpre, hlen]
    by_cases h : e.1 < n ∧ isInt e.1 = true ∧ frac (x e.1) > viol
    · rw [if_pos h]
      apply ih
      · intro k hk
        simp only [Option.some.injEq] at hk; subst hk
        exact ⟨e, by simp, h.1, h.2.1, rfl⟩
      · intro h'; simp at h'
      · linarith [h.2.2]
      · intro e' he' a b
        rcases List.mem_append.mp he' with h5 | h5
        · have := h4 e' h5 a b; linarith [h.2.2]
        · rw [List.mem_singleton.mp h5]
    · rw [if_neg h]
      apply ih
      · intro k hk
        obtain ⟨e', a, b⟩ := h1 k hk
        refine ⟨e', ?_, b⟩
        rw [List.getElem?_append_left (by exact (List.getElem?_eq_some_iff.mp a).1)]; exact a
      · exact h2
      · exact h3
      · intro e' he' a b
        rcases List.mem_append.mp he' with h5 | h5
        · exact h4 e' h5 a b
        · rw [List.mem_singleton.mp h5] at a b ⊢
          by_contra hc
          exact h ⟨a, b, not_le.mp hc⟩

/-- **C13** (selection).  The disjunction is made on a discrete variable of the cut that is fractional by at least 1e-6 and at least as
fractional as every other one, and is made whenever there is one fractional by more than 1e-6. -/
theorem disjunction_variable {n : Nat} {isInt : Nat → Bool} {x : Nat → ℚ} {co : List (Nat × ℚ)} :
    match mostFrac n isInt x co 0 none (1 / 1000000) with
    | none => ∀ e ∈ co, e.1 < n → isInt e.1 = true → frac (x e.1) ≤ 1 / 1000000
    | some k => ∃ e, co[k]? = some e ∧ e.1 < n ∧ isInt e.1 = true ∧ 1 / 1000000 ≤ frac (x e.1) ∧
        ∀ e' ∈ co, e'.1 < n → isInt e'.1 = true → frac (x e'.1) ≤ frac (x e.1) := by
  have := mostFrac_spec (n := n) (isInt := isInt) (x := x) co [] none (1 / 1000000) (by simp) (by simp) (le_refl _) (by simp)
  simpa using this

/-- **C13** (partial).  If every discrete variable of the cut takes, at the feasible point `y`, one of the two values `⌊xᵢ⌋`, `⌊xᵢ⌋+1`
(in particular if the discrete variables of the cut are binary), then `y` satisfies the cut returned.  Missing: general integer
variables, for which it is false (`disjunction_general_integer_refuted`). -/
theorem handleOneCut_valid_partial {inf : ℚ} {bnd : Bool → (Nat → ℚ) → (Nat → ℚ) → Option ℚ} {P : (Nat → ℚ) → Prop} {c c' : Cut}
    {disj isTight ok : Bool} {n : Nat} {isInt : Nat → Bool} {x lo up y : Nat → ℚ} (hs : Sound bnd P c.co)
    (h : handleOneCut inf bnd disj isTight n isInt x lo up c = some (ok, c')) (hy : P y) (hsat : Sat inf c y)
    (hbox : ∀ i, lo i ≤ y i ∧ y i ≤ up i)
    (hint : ∀ i, i < n → isInt i = true → y i = (⌊x i⌋ : ℚ) ∨ y i = (⌊x i⌋ : ℚ) + 1) : Sat inf c' y := by
  have hplain : ∀ {ok c'}, (if isTight then some (true, c)
      else (strengthenCut inf bnd lo up c.lb c.ub).map (fun r => (r.1, (⟨c.co, r.2.1, r.2.2⟩ : Cut)))) = some (ok, c') → Sat inf c' y := by
    intro ok c' h
    cases isTight with
    | true => simp at h; rw [← h.2]; exact hsat
    | false =>
      simp only [Bool.false_eq_true, if_false] at h
      cases hst : strengthenCut inf bnd lo up c.lb c.ub with
      | none => rw [hst] at h; simp at h
      | some r =>
        rw [hst] at h; simp at h
        rw [← h.2]
        exact (strengthenCut_valid hs (ok := r.1) (lb := r.2.1) (ub := r.2.2) hst hy hsat hbox).1
  unfold handleOneCut at h
  cases disj with
  | false => simp only [Bool.false_eq_true, if_false] at h; exact hplain h
  | true =>
    simp only [if_true] at h
    have hsel := disjunction_variable (n := n) (isInt := isInt) (x := x) (co := c.co)
    cases hm : mostFrac n isInt x c.co 0 none (1 / 1000000) with
    | none => rw [hm] at h; exact hplain h
    | some k =>
      rw [hm] at h hsel
      obtain ⟨e, he, hen, hei, _, _⟩ := hsel
      simp only [he] at h
      set d : ℚ := (⌊x e.1⌋ : ℚ) with hd
      cases h1 : strengthenCut inf bnd lo (Function.update up e.1 d) c.lb c.ub with
      | none => rw [h1] at h; simp at h
      | some r1 =>
        obtain ⟨ok1, lbd, ubd⟩ := r1
        rw [h1] at h
        cases ok1 with
        | false => simp only [Option.some.injEq, Prod.mk.injEq] at h; rw [← h.2]; exact hsat
        | true =>
          simp only at h
          cases h2 : strengthenCut inf bnd (Function.update lo e.1 (d + 1)) up c.lb c.ub with
          | none => rw [h2] at h; simp at h
          | some r2 =>
            obtain ⟨ok2, lbu, ubu⟩ := r2
            rw [h2] at h
            cases ok2 with
            | false => simp only [Option.some.injEq, Prod.mk.injEq] at h; rw [← h.2]; exact hsat
            | true =>
              simp only at h
              have hdown : y e.1 = d → ∀ i, lo i ≤ y i ∧ y i ≤ Function.update up e.1 d i := by
                intro hyd i
                by_cases hi : i = e.1
                · subst hi; simp [hyd]; rw [← hyd]; exact (hbox e.1).1
                · rw [Function.update_of_ne hi]; exact hbox i
              have hup : y e.1 = d + 1 → ∀ i, Function.update lo e.1 (d + 1) i ≤ y i ∧ y i ≤ up i := by
                intro hyd i
                by_cases hi : i = e.1
                · subst hi; simp [hyd]; rw [← hyd]; exact (hbox e.1).2
                · rw [Function.update_of_ne hi]; exact hbox i
              have he' : c.co[k]? = some (e.1, e.2) := he
              by_cases hl : c.lb ≤ -inf
              · rw [if_pos hl] at h
                simp only [Option.some.injEq, Prod.mk.injEq] at h
                rw [← h.2]
                refine ⟨Or.inl hl, Or.inr ?_⟩
                simp only [act_set y he']
                rcases hint e.1 hen hei with hyd | hyd
                · have := (strengthenCut_valid hs h1 hy hsat (hdown hyd)).2.1 hl rfl
                  rw [hyd, ← hd]; nlinarith
                · have := (strengthenCut_valid hs h2 hy hsat (hup hyd)).2.1 hl rfl
                  rw [hyd, ← hd]; nlinarith
              · rw [if_neg hl] at h
                simp only [Option.some.injEq, Prod.mk.injEq] at h
                rw [← h.2]
                have hub : inf ≤ c.ub := by
                  unfold strengthenCut at h1
                  rw [if_neg hl] at h1
                  by_contra hc
                  rw [if_neg hc] at h1; simp at h1
                refine ⟨Or.inr ?_, Or.inl hub⟩
                simp only [act_set y he']
                rcases hint e.1 hen hei with hyd | hyd
                · have := (strengthenCut_valid hs h1 hy hsat (hdown hyd)).2.2.1 hl rfl
                  rw [hyd, ← hd]; nlinarith
                · have := (strengthenCut_valid hs h2 hy hsat (hup hyd)).2.2.1 hl rfl
                  rw [hyd, ← hd]; nlinarith

/-- **C13** for binaries: all discrete variables have bounds within `[0,1]`, `y` is integral there and `x` is strictly between. -/
theorem handleOneCut_valid_binary {inf : ℚ} {bnd : Bool → (Nat → ℚ) → (Nat → ℚ) → Option ℚ} {P : (Nat → ℚ) → Prop} {c c' : Cut}
    {disj isTight ok : Bool} {n : Nat} {isInt : Nat → Bool} {x lo up y : Nat → ℚ} (hs : Sound bnd P c.co)
    (h : handleOneCut inf bnd disj isTight n isInt x lo up c = some (ok, c')) (hy : P y) (hsat : Sat inf c y)
    (hbox : ∀ i, lo i ≤ y i ∧ y i ≤ up i)
    (hx : ∀ i, i < n → isInt i = true → 0 ≤ x i ∧ x i < 1) (hb : ∀ i, i < n → isInt i = true → y i = 0 ∨ y i = 1) : Sat inf c' y := by
  apply handleOneCut_valid_partial hs h hy hsat hbox
  intro i hi hii
  obtain ⟨a, b⟩ := hx i hi hii
  have : ⌊x i⌋ = 0 := Int.floor_eq_zero_iff.mpr ⟨a, b⟩
  rw [this]; simpa using hb i hi hii

/-- On failure of a strengthening problem the cut comes back unchanged. -/
theorem handleOneCut_failure {inf : ℚ} {bnd : Bool → (Nat → ℚ) → (Nat → ℚ) → Option ℚ} {c c' : Cut}
    {disj isTight : Bool} {n : Nat} {isInt : Nat → Bool} {x lo up : Nat → ℚ}
    (h : handleOneCut inf bnd disj isTight n isInt x lo up c = some (false, c')) : c' = c := by
  have hst : ∀ {xl xu lb ub l u}, strengthenCut inf bnd xl xu lb ub = some (false, l, u) → l = lb ∧ u = ub := by
    intro xl xu lb ub l u h
    unfold strengthenCut at h
    split at h
    · split at h
      · split at h <;> simp at h
        exact ⟨h.1.symm, h.2.symm⟩
      · simp at h
    · split at h
      · split at h <;> simp at h
        exact ⟨h.1.symm, h.2.symm⟩
      · simp at h
  have hplain : ∀ {c'}, (if isTight then some (true, c)
      else (strengthenCut inf bnd lo up c.lb c.ub).map (fun r => (r.1, (⟨c.co, r.2.1, r.2.2⟩ : Cut)))) = some (false, c') → c' = c := by
    intro c' h
    cases isTight with
    | true => simp at h
    | false =>
      simp only [Bool.false_eq_true, if_false] at h
      cases hs : strengthenCut inf bnd lo up c.lb c.ub with
      | none => rw [hs] at h; simp at h
      | some r =>
        obtain ⟨r1, r2, r3⟩ := r
        rw [hs] at h; simp at h
        obtain ⟨rfl, rfl⟩ := h
        obtain ⟨a, b⟩ := hst hs
        rw [a, b]
  unfold handleOneCut at h
  cases disj with
  | false => simp only [Bool.false_eq_true, if_false] at h; exact hplain h
  | true =>
    simp only [if_true] at h
    split at h
    · exact hplain h
    · split at h
      · simp at h
      · split at h
        · simp at h
        · simp at h; exact h.symm
        · split at h
          · simp at h
          · simp at h; exact h.symm
          · split at h <;> simp at h

/-- **C13** refuted for a general integer variable: the row `y ≤ 3` over `y ∈ {0,…,3}` with `x = 3/2`.  The exact bounds of the two sides are
1 and 3, and the merged cut `-y ≤ -1` cuts off the feasible point `y = 0`. -/
theorem disjunction_general_integer_refuted :
    let bnd : Bool → (Nat → ℚ) → (Nat → ℚ) → Option ℚ := fun lower xl xu => if lower then some (xl 0) else some (xu 0)
    let c : Cut := ⟨[(0, 1)], -10^30, 3⟩
    Sound bnd (fun _ => True) c.co ∧ Sat (10^30) c (fun _ => 0) ∧
    handleOneCut (10^30) bnd true false 1 (fun _ => true) (fun _ => 3/2) (fun _ => 0) (fun _ => 3) c = some (true, ⟨[(0, -1)], -10^30, -1⟩) ∧
    ¬ Sat (10^30) ⟨[(0, -1)], -10^30, -1⟩ (fun _ => 0) := by
  have hfl : ⌊(3/2 : ℚ)⌋ = 1 := by rw [Int.floor_eq_iff]; norm_num
  have hce : ⌈(3/2 : ℚ)⌉ = 2 := by rw [Int.ceil_eq_iff]; norm_num
  refine ⟨?_, ?_, ?_, ?_⟩
  · intro xl xu b
    constructor
    · intro h y _ hb
      simp only [Bool.false_eq_true, if_false, Option.some.injEq] at h
      simp only [act, List.map_cons, List.map_nil, List.sum_cons, List.sum_nil]
      have := (hb 0).2; linarith
    · intro h y _ hb
      simp only [if_true, Option.some.injEq] at h
      simp only [act, List.map_cons, List.map_nil, List.sum_cons, List.sum_nil]
      have := (hb 0).1; linarith
  · norm_num [Sat, act]
  · norm_num [handleOneCut, mostFrac, frac, hfl, hce, strengthenCut]
  · norm_num [Sat, act]

/-- A binary instance: `y₀ + y₁ ≤ 3/2` on `y₀ ∈ {0,1}`, `y₁ ∈ [0,1]` with bounds 1 (down) and 3/2 (up); merged to `y₀/2 + y₁ ≤ 1`. -/
example : handleOneCut (10^30) (fun _ xl xu => if xl 0 = 1 then some (3/2) else if xu 0 = 0 then some 1 else none) true false 1
    (fun i => i == 0) (fun _ => 1/2) (fun _ => 0) (fun _ => 1) ⟨[(0, 1), (1, 1)], -10^30, 3/2⟩ =
    some (true, ⟨[(0, 1/2), (1, 1)], -10^30, 1⟩) := by
  have hfl : ⌊(1/2 : ℚ)⌋ = 0 := by rw [Int.floor_eq_iff]; norm_num
  have hce : ⌈(1/2 : ℚ)⌉ = 1 := by rw [Int.ceil_eq_iff]; norm_num
  have hfl' : ⌊(2⁻¹ : ℚ)⌋ = 0 := by rw [Int.floor_eq_iff]; norm_num
  have hce' : ⌈(2⁻¹ : ℚ)⌉ = 1 := by rw [Int.ceil_eq_iff]; norm_num
  norm_num [handleOneCut, mostFrac, frac, hfl, hce, hfl', hce', strengthenCut, Function.update]

/-- The fractionality used in the selection is the distance to the nearest integer. -/
theorem frac_eq (q : ℚ) : frac q = |q - (round q : ℚ)| := by
  rw [abs_sub_round_eq_min]
  unfold frac
  by_cases h : Int.fract q = 0
  · have hq : q = (⌊q⌋ : ℚ) := by have := Int.floor_add_fract q; rw [h] at this; linarith
    have hc : ⌈q⌉ = ⌊q⌋ := by rw [hq]; simp
    rw [hc, h, ← hq]; simp
  · have hc : ((⌈q⌉ : ℤ) : ℚ) = ⌊q⌋ + 1 := by
      have : ⌈q⌉ = ⌊q⌋ + 1 := Int.ceil_eq_floor_add_one_iff_notMem q |>.2 (by
        rintro ⟨z, hz⟩
        exact h (by rw [← hz]; simp))
      rw [this]; push_cast; ring
    have hf : q - (⌊q⌋ : ℚ) = Int.fract q := rfl
    rw [hf, hc]
    congr 1
    rw [← hf]; ring

/-- **C13** (selection, in terms of the distance to the nearest integer). -/
theorem disjunction_nearest {n : Nat} {isInt : Nat → Bool} {x : Nat → ℚ} (co : List (Nat × ℚ)) :
    match mostFrac n isInt x co 0 none (1 / 1000000) with
    | none => ∀ e ∈ co, e.1 < n → isInt e.1 = true → |x e.1 - round (x e.1)| ≤ 1 / 1000000
    | some k => ∃ e, co[k]? = some e ∧ e.1 < n ∧ isInt e.1 = true ∧ 1 / 1000000 ≤ |x e.1 - round (x e.1)| ∧
        ∀ e' ∈ co, e'.1 < n → isInt e'.1 = true → |x e'.1 - round (x e'.1)| ≤ |x e.1 - round (x e.1)| := by
  have h := disjunction_variable (n := n) (isInt := isInt) (x := x) (co := co)
  simp only [frac_eq] at h
  exact h

example : |(5 / 2 : ℚ) - round (5 / 2 : ℚ)| = 1 / 2 := by
  rw [← frac_eq]
  have h1 : ⌊(5 / 2 : ℚ)⌋ = 2 := by rw [Int.floor_eq_iff]; norm_num
  have h2 : ⌈(5 / 2 : ℚ)⌉ = 3 := by rw [Int.ceil_eq_iff]; norm_num
  unfold frac; rw [h1, h2]; norm_num

end Verif.Strengthen

import Verif.Oa.Spec
import Mathlib.Tactic.Linarith
import Mathlib.Tactic.Ring
import Mathlib.Tactic.NormNum
import Mathlib.Algebra.Order.Ring.Abs
import Mathlib.Data.List.Nodup
/-! # Helper lemmas for the outer-approximation cuts -/
namespace Verif.Oa

theorem act_append (a b : List (Nat × ℚ)) (y : Nat → ℚ) : act (a ++ b) y = act a y + act b y := by
  simp [act]

theorem act_single (j : Nat) (v : ℚ) (y : Nat → ℚ) : act [(j, v)] y = v * y j := by simp [act]

theorem lin_nil (x y : Nat → ℚ) : lin [] x y = 0 := by simp [lin]
theorem lin_cons (e : Nat × ℚ) (es : List (Nat × ℚ)) (x y : Nat → ℚ) :
    lin (e :: es) x y = e.2 * (y e.1 - x e.1) + lin es x y := by simp [lin]
theorem silent_nil (t v : ℚ) (x y : Nat → ℚ) : silent t v [] x y = 0 := by simp [silent]
theorem silent_cons (t v : ℚ) (e : Nat × ℚ) (es : List (Nat × ℚ)) (x y : Nat → ℚ) :
    silent t v (e :: es) x y = (if |e.2| < t ∧ |e.2| < v then |e.2| * |y e.1 - x e.1| else 0) + silent t v es x y := by
  simp [silent]

theorem silent_nonneg (t v : ℚ) (es : List (Nat × ℚ)) (x y : Nat → ℚ) : 0 ≤ silent t v es x y := by
  induction es with
  | nil => simp [silent]
  | cons e es ih =>
    rw [silent_cons]
    have : 0 ≤ (if |e.2| < t ∧ |e.2| < v then |e.2| * |y e.1 - x e.1| else 0) := by
      split
      · positivity
      · exact le_refl _
    linarith

theorem silent_zero {t v : ℚ} {es : List (Nat × ℚ)} {x y : Nat → ℚ}
    (h : ∀ e ∈ es, e.2 ≠ 0 → v ≤ |e.2|) : silent t v es x y = 0 := by
  induction es with
  | nil => simp [silent]
  | cons e es ih =>
    rw [silent_cons, ih (fun e' h' => h e' (List.mem_cons_of_mem _ h'))]
    by_cases h0 : e.2 = 0
    · simp [h0]
    · have := h e List.mem_cons_self h0
      rw [if_neg (by intro hh; linarith [hh.2])]
      simp

/-- What `cleanO` guarantees about one coefficient, seen from one point `y` within the column bounds. -/
theorem cleanO_spec {infM tiny vt v cl cu rl ru xs lb ub : ℚ} {y : ℚ}
    (hy : (cl > -infM → cl ≤ y) ∧ (cu < infM → y ≤ cu))
    (hx : (cl > -infM → cl ≤ xs) ∧ (cu < infM → xs ≤ cu)) :
    let k := cleanO infM tiny vt v cl cu rl ru xs lb ub
    let s := if |v| < tiny ∧ |v| < vt then |v| * |y - xs| else 0
    k.val = v ∧ k.lb ≤ lb ∧ ub ≤ k.ub ∧ (ru < infM → k.lb = lb) ∧ (-infM < rl → k.ub = ub) ∧
    (k.keep = true → k.lb = lb ∧ k.ub = ub) ∧
    (k.keep = false → (ru < infM → -k.ub ≤ v * (y - xs) - ub + s) ∧ (-infM < rl → v * (y - xs) - lb ≤ -k.lb + s)) := by
  intro k s
  have hs : 0 ≤ s := by
    simp only [s]; split
    · positivity
    · exact le_refl _
  simp only [k, cleanO]
  by_cases h1 : |v| ≥ tiny
  · simp [h1]
  rw [if_neg h1]
  by_cases h2 : |v| < vt
  · rw [if_pos h2]
    have hse : s = |v| * |y - xs| := by
      simp only [s]; rw [if_pos ⟨not_le.mp h1, h2⟩]
    have h3 : |v * (y - xs)| ≤ s := by rw [hse, abs_mul]
    have := abs_le.mp h3
    refine ⟨rfl, le_refl _, le_refl _, fun _ => rfl, fun _ => rfl, by simp, fun _ => ⟨fun _ => ?_, fun _ => ?_⟩⟩ <;>
      simp only <;> linarith
  rw [if_neg h2]
  by_cases h3 : cu < infM ∧ v > 0 ∧ ru ≥ infM
  · rw [if_pos h3]
    have a1 := hx.2 h3.1
    have a2 := hy.2 h3.1
    refine ⟨rfl, ?_, le_refl _, fun h => absurd h3.2.2 (not_le.mpr h), fun _ => rfl, by simp,
      fun _ => ⟨fun h => absurd h3.2.2 (not_le.mpr h), fun _ => ?_⟩⟩ <;> simp only <;> nlinarith [h3.2.1]
  rw [if_neg h3]
  by_cases h4 : cu < infM ∧ ¬ v > 0 ∧ rl ≤ -infM
  · rw [if_pos h4]
    have a1 := hx.2 h4.1
    have a2 := hy.2 h4.1
    have a3 := not_lt.mp h4.2.1
    refine ⟨rfl, le_refl _, ?_, fun _ => rfl, fun h => absurd h4.2.2 (not_le.mpr h), by simp,
      fun _ => ⟨fun _ => ?_, fun h => absurd h4.2.2 (not_le.mpr h)⟩⟩ <;> simp only <;> nlinarith
  rw [if_neg h4]
  by_cases h5 : cl > -infM ∧ ¬ v > 0 ∧ ru ≥ infM
  · rw [if_pos h5]
    have a1 := hx.1 h5.1
    have a2 := hy.1 h5.1
    have a3 := not_lt.mp h5.2.1
    refine ⟨rfl, ?_, le_refl _, fun h => absurd h5.2.2 (not_le.mpr h), fun _ => rfl, by simp,
      fun _ => ⟨fun h => absurd h5.2.2 (not_le.mpr h), fun _ => ?_⟩⟩ <;> simp only <;> nlinarith
  rw [if_neg h5]
  by_cases h6 : cl > -infM ∧ v > 0 ∧ rl ≤ -infM
  · rw [if_pos h6]
    have a1 := hx.1 h6.1
    have a2 := hy.1 h6.1
    refine ⟨rfl, le_refl _, ?_, fun _ => rfl, fun h => absurd h6.2.2 (not_le.mpr h), by simp,
      fun _ => ⟨fun _ => ?_, fun h => absurd h6.2.2 (not_le.mpr h)⟩⟩ <;> simp only <;> nlinarith [h6.2.1]
  rw [if_neg h6]
  simp

/-- Invariant of the loop over gradient entries. -/
structure Inv (T : Tol) (r : RowData) (y : Nat → ℚ) (L S : ℚ) (c0 c : Cut) : Prop where
  up : T.inf ≤ c.ub ∨ (r.ru < T.infM ∧ act c.co y - c.ub ≤ L - c0.ub + S)
  lo : c.lb ≤ -T.inf ∨ (-T.infM < r.rl ∧ L - c0.lb ≤ act c.co y - c.lb + S)

theorem inv_step {T : Tol} {cl cu x y : Nat → ℚ} {r : RowData} {L S : ℚ} {c0 c : Cut} {e : Nat × ℚ}
    (hx : InCols T.infM cl cu x) (hy : InCols T.infM cl cu y) (h : Inv T r y L S c0 c) :
    Inv T r y (L + e.2 * (y e.1 - x e.1))
      (S + (if |e.2| < T.tiny ∧ |e.2| < T.vt then |e.2| * |y e.1 - x e.1| else 0)) c0 (oaStep T cl cu x r c e) := by
  obtain ⟨k1, k2, k3, k4, k5, k6, k7⟩ := cleanO_spec (tiny := T.tiny) (vt := T.vt) (v := e.2) (rl := r.rl) (ru := r.ru)
    (lb := c.lb) (ub := c.ub) (hy e.1) (hx e.1)
  unfold oaStep
  generalize cleanO T.infM T.tiny T.vt e.2 (cl e.1) (cu e.1) r.rl r.ru (x e.1) c.lb c.ub = k at *
  set s := (if |e.2| < T.tiny ∧ |e.2| < T.vt then |e.2| * |y e.1 - x e.1| else 0) with hs
  have hs0 : 0 ≤ s := by
    rw [hs]; split
    · positivity
    · exact le_refl _
  by_cases hk : k.keep = true
  · obtain ⟨e1, e2⟩ := k6 hk
    simp only [hk, if_true]
    constructor
    · show T.inf ≤ (if k.ub < T.inf then k.ub + k.val * x e.1 else k.ub) ∨ _
      by_cases hu : k.ub < T.inf
      · rw [if_pos hu]
        rcases h.up with hc | ⟨hr, hc⟩
        · rw [e2] at hu; exact absurd hu (not_lt.mpr hc)
        · right; refine ⟨hr, ?_⟩
          simp only [act_append, act_single, k1, e2] at *
          linarith
      · rw [if_neg hu]; left; exact not_lt.mp hu
    · show (if k.lb > -T.inf then k.lb + k.val * x e.1 else k.lb) ≤ -T.inf ∨ _
      by_cases hu : k.lb > -T.inf
      · rw [if_pos hu]
        rcases h.lo with hc | ⟨hr, hc⟩
        · rw [e1] at hu; exact absurd hu (not_lt.mpr hc)
        · right; refine ⟨hr, ?_⟩
          simp only [act_append, act_single, k1, e1] at *
          linarith
      · rw [if_neg hu]; left; exact not_lt.mp hu
  · have hk' : k.keep = false := by simpa using hk
    obtain ⟨f1, f2⟩ := k7 hk'
    simp only [hk', Bool.false_eq_true, if_false]
    constructor
    · rcases h.up with hc | ⟨hr, hc⟩
      · left; exact le_trans hc k3
      · right; exact ⟨hr, by have := f1 hr; simp only; linarith⟩
    · rcases h.lo with hc | ⟨hr, hc⟩
      · left; exact le_trans k2 hc
      · right; exact ⟨hr, by have := f2 hr; simp only; linarith⟩

theorem inv_fold {T : Tol} {cl cu x y : Nat → ℚ} {r : RowData} (hx : InCols T.infM cl cu x)
    (hy : InCols T.infM cl cu y) (es : List (Nat × ℚ)) : ∀ {L S : ℚ} {c0 c : Cut}, Inv T r y L S c0 c →
    Inv T r y (L + lin es x y) (S + silent T.tiny T.vt es x y) c0 (es.foldl (oaStep T cl cu x r) c) := by
  induction es with
  | nil => intro L S c0 c h; simpa [lin_nil, silent_nil] using h
  | cons e es ih =>
    intro L S c0 c h
    have := ih (inv_step (e := e) hx hy h)
    rw [List.foldl_cons, lin_cons, silent_cons, ← add_assoc, ← add_assoc]
    exact this

theorem initCut_up (T : Tol) (r : RowData) :
    T.inf ≤ (initCut T r).ub ∨ (r.ru < T.infM ∧ (initCut T r).ub = r.ru - r.g) := by
  unfold initCut
  by_cases h1 : r.rl > -T.inf ∧ r.ru < T.inf
  · rw [if_pos h1]
    by_cases h2 : r.dual ≤ 0
    · left; simp [h2]
    · by_cases h3 : r.ru < T.infM
      · right; simp [h2, h3]
      · left; simp [h2, h3]
  · rw [if_neg h1]
    by_cases h3 : r.ru < T.infM
    · right; simp [h3]
    · left; simp [h3]

theorem initCut_lo (T : Tol) (r : RowData) :
    (initCut T r).lb ≤ -T.inf ∨ (-T.infM < r.rl ∧ (initCut T r).lb = r.rl - r.g) := by
  unfold initCut
  by_cases h1 : r.rl > -T.inf ∧ r.ru < T.inf
  · rw [if_pos h1]
    by_cases h2 : r.dual ≥ 0
    · left; simp [h2]
    · by_cases h3 : r.rl > -T.infM
      · right; simp [h2, h3]
      · left; simp [h2, h3]
  · rw [if_neg h1]
    by_cases h3 : r.rl > -T.infM
    · right; simp [h3]
    · left; simp [h3]

theorem inv_init (T : Tol) (r : RowData) (y : Nat → ℚ) : Inv T r y 0 0 (initCut T r) (initCut T r) := by
  have hco : (initCut T r).co = [] := by simp only [initCut]; split <;> rfl
  constructor
  · rcases initCut_up T r with h | ⟨h, _⟩
    · exact Or.inl h
    · right; exact ⟨h, by simp [hco, act]⟩
  · rcases initCut_lo T r with h | ⟨h, _⟩
    · exact Or.inl h
    · right; exact ⟨h, by simp [hco, act]⟩

/-! ### the loop over all rows -/

theorem numberRows_cuts (T : Tol) (rows : List RowData) : ∀ k off,
    (numberRows T rows k).2 = (nlRows rows off).map (fun p => initCut T p.1) := by
  induction rows with
  | nil => intro k off; rfl
  | cons r rs ih =>
    intro k off
    unfold numberRows nlRows
    rw [List.zipIdx_cons]
    by_cases h : r.nonlin = true
    · simp only [h, if_true, List.filter_cons, List.map_cons]
      rw [ih (k+1) (off+1)]; rfl
    · simp only [h, List.filter_cons, Bool.false_eq_true, if_false]
      rw [ih k (off+1)]; rfl

theorem numberRows_len (T : Tol) (rows : List RowData) : ∀ k, (numberRows T rows k).1.length = rows.length := by
  induction rows with
  | nil => intro k; rfl
  | cons r rs ih =>
    intro k
    unfold numberRows
    split <;> simp [ih]

theorem numberRows_idx (T : Tol) (rows : List RowData) : ∀ (k off i : Nat) (r : RowData), rows[i]? = some r →
    (r.nonlin = false ∧ (numberRows T rows k).1[i]? = some none) ∨
    (r.nonlin = true ∧ ∃ d, (numberRows T rows k).1[i]? = some (some (k + d)) ∧ (nlRows rows off)[d]? = some (r, off + i)) := by
  induction rows with
  | nil => intro k off i r h; simp at h
  | cons r0 rs ih =>
    intro k off i r h
    unfold numberRows nlRows
    rw [List.zipIdx_cons]
    cases i with
    | zero =>
      simp at h; subst h
      by_cases hn : r0.nonlin = true
      · right; refine ⟨hn, 0, ?_, ?_⟩ <;> simp [hn]
      · left; simp [hn]
    | succ i =>
      simp at h
      by_cases hn : r0.nonlin = true
      · rcases ih (k+1) (off+1) i r h with ⟨a, b⟩ | ⟨a, d, b, c⟩
        · left; refine ⟨a, ?_⟩; simpa [hn] using b
        · right; refine ⟨a, d+1, ?_, ?_⟩
          · simp only [hn, if_true, List.getElem?_cons_succ, b]; congr 2; omega
          · simp only [hn, List.filter_cons, if_true, List.getElem?_cons_succ]
            show (nlRows rs (off+1))[d]? = _
            rw [c]; congr 2; omega
      · rcases ih k (off+1) i r h with ⟨a, b⟩ | ⟨a, d, b, c⟩
        · left; refine ⟨a, ?_⟩; simpa [hn] using b
        · right; refine ⟨a, d, ?_, ?_⟩
          · simpa [hn] using b
          · simp only [hn, List.filter_cons, Bool.false_eq_true, if_false]
            show (nlRows rs (off+1))[d]? = _
            rw [c]; congr 2; omega

theorem nlRows_nodup (rows : List RowData) (off : Nat) : ((nlRows rows off).map Prod.snd).Nodup := by
  unfold nlRows
  have h : ((rows.zipIdx off).map Prod.snd).Nodup := by
    rw [List.zipIdx_map_snd]; exact List.nodup_range'
  exact h.sublist (List.Sublist.map _ List.filter_sublist)

theorem map_set_update {nl : List (RowData × Nat)} (hn : (nl.map Prod.snd).Nodup) {F : RowData × Nat → Cut} {d : Nat}
    {p : RowData × Nat} (hp : nl[d]? = some p) (c : Cut) :
    (nl.map F).set d c = nl.map (fun q => if q.2 = p.2 then c else F q) := by
  apply List.ext_getElem?
  intro i
  obtain ⟨hd, hd'⟩ := List.getElem?_eq_some_iff.mp hp
  rw [List.getElem?_set]
  by_cases h : d = i
  · subst h
    simp [hd, hd']
  · rw [if_neg h]
    simp only [List.getElem?_map]
    cases hi : nl[i]? with
    | none => rfl
    | some q =>
      have hne : q.2 ≠ p.2 := by
        intro he
        apply h
        obtain ⟨hi1, hi2⟩ := List.getElem?_eq_some_iff.mp hi
        have := List.nodup_iff_injective_get.mp hn
        have h2 := @this ⟨d, by simpa using hd⟩ ⟨i, by simpa using hi1⟩ (by simp [hd', hi2, he])
        simpa using h2
      simp [hne]

theorem jacLoop_spec (T : Tol) (cl cu x : Nat → ℚ) (rows : List RowData) (jac : List (Nat × Nat × ℚ))
    (hj : ∀ t ∈ jac, t.1 < rows.length) : ∀ (F : RowData × Nat → Cut),
    jacLoop T cl cu x rows (numberRows T rows 0).1 jac ((nlRows rows 0).map F) =
      some ((nlRows rows 0).map (fun p => (rowEntries jac p.2).foldl (oaStep T cl cu x p.1) (F p))) := by
  induction jac with
  | nil => intro F; simp [jacLoop, rowEntries]
  | cons t es ih =>
    intro F
    obtain ⟨i, j, v⟩ := t
    have hi : i < rows.length := hj (i, j, v) List.mem_cons_self
    have ih' := ih (fun t h => hj t (List.mem_cons_of_mem _ h))
    have hr : rows[i]? = some rows[i] := List.getElem?_eq_getElem hi
    unfold jacLoop
    rcases numberRows_idx T rows 0 0 i _ hr with ⟨a, b⟩ | ⟨a, d, b, c⟩
    · rw [b, hr]
      simp only
      rw [ih']
      congr 1
      apply List.map_congr_left
      intro p hp
      have hp2 : p.2 ≠ i := by
        intro he
        unfold nlRows at hp
        obtain ⟨hp1, hp3⟩ := List.mem_filter.mp hp
        have := List.mem_zipIdx hp1
        obtain ⟨_, _, h3⟩ := this
        simp only [Nat.sub_zero] at h3
        have : p.1 = rows[i] := by rw [h3]; congr 1
        rw [this] at hp3; simp [a] at hp3
      have : rowEntries ((i, j, v) :: es) p.2 = rowEntries es p.2 := by
        unfold rowEntries; rw [List.filter_cons, if_neg (by simpa using fun h => hp2 h.symm)]
      rw [this]
    · rw [b, hr]
      simp only [Nat.zero_add]
      simp only [Nat.zero_add] at c
      rw [List.getElem?_map, c]
      simp only [Option.map_some]
      rw [map_set_update (nlRows_nodup rows 0) c, ih']
      congr 1
      apply List.map_congr_left
      intro p hp
      by_cases hpi : p.2 = i
      · have hpe : p = (rows[i], i) := by
          unfold nlRows at hp
          obtain ⟨hp1, hp3⟩ := List.mem_filter.mp hp
          obtain ⟨_, _, h3⟩ := List.mem_zipIdx hp1
          simp only [Nat.sub_zero] at h3
          have : p.1 = rows[i] := by rw [h3]; congr 1
          exact Prod.ext this hpi
        subst hpe
        have : rowEntries ((i, j, v) :: es) i = (j, v) :: rowEntries es i := by
          unfold rowEntries; rw [List.filter_cons, if_pos (by simp)]; rfl
        simp only [if_true, this, List.foldl_cons]
      · have : rowEntries ((i, j, v) :: es) p.2 = rowEntries es p.2 := by
          unfold rowEntries; rw [List.filter_cons, if_neg (by simpa using fun h => hpi h.symm)]
        rw [this, if_neg hpi]

theorem initCut_ub_of_uses {T : Tol} {r : RowData} (h : UsesUp T r) : (initCut T r).ub = r.ru - r.g := by
  simp only [initCut]
  by_cases h1 : r.rl > -T.inf ∧ r.ru < T.inf
  · rw [if_pos h1]; simp [not_le.mpr (h.2 h1), h.1]
  · rw [if_neg h1]; simp [h.1]

theorem initCut_ub_of_not_uses {T : Tol} {r : RowData} (h : ¬ UsesUp T r) : (initCut T r).ub = T.inf := by
  simp only [initCut]
  by_cases h0 : r.ru < T.infM
  · have h1 : r.rl > -T.inf ∧ r.ru < T.inf ∧ ¬ 0 < r.dual := by
      by_contra hc; apply h; refine ⟨h0, fun h1 => ?_⟩
      by_contra hd; exact hc ⟨h1.1, h1.2, hd⟩
    rw [if_pos ⟨h1.1, h1.2.1⟩]; simp [not_lt.mp h1.2.2]
  · rw [if_neg h0]; split <;> simp

theorem initCut_lb_of_uses {T : Tol} {r : RowData} (h : UsesLo T r) : (initCut T r).lb = r.rl - r.g := by
  simp only [initCut]
  by_cases h1 : r.rl > -T.inf ∧ r.ru < T.inf
  · rw [if_pos h1]; simp only [ge_iff_le, not_le.mpr (h.2 h1), if_false, if_pos h.1]
  · rw [if_neg h1]; simp only [if_pos h.1]

theorem initCut_lb_of_not_uses {T : Tol} {r : RowData} (h : ¬ UsesLo T r) : (initCut T r).lb = -T.inf := by
  simp only [initCut]
  by_cases h0 : r.rl > -T.infM
  · have h1 : r.rl > -T.inf ∧ r.ru < T.inf ∧ ¬ r.dual < 0 := by
      by_contra hc; apply h; refine ⟨h0, fun h1 => ?_⟩
      by_contra hd; exact hc ⟨h1.1, h1.2, hd⟩
    rw [if_pos ⟨h1.1, h1.2.1⟩]; simp [not_lt.mp h1.2.2]
  · rw [if_neg h0]; split <;> simp only [ite_self]

theorem initCut_co (T : Tol) (r : RowData) : (initCut T r).co = [] := by
  simp only [initCut]; split <;> rfl

/-- The invariant can be continued from any side that is not used. -/
theorem rowOa_inv {T : Tol} {cl cu x y : Nat → ℚ} {r : RowData} (hx : InCols T.infM cl cu x)
    (hy : InCols T.infM cl cu y) (es : List (Nat × ℚ)) :
    Inv T r y (lin es x y) (silent T.tiny T.vt es x y) (initCut T r) (rowOa T cl cu x r es) := by
  have := inv_fold hx hy es (inv_init T r y)
  simpa [rowOa] using this

theorem ub_mono {T : Tol} {cl cu x : Nat → ℚ} {r : RowData} (hx : InCols T.infM cl cu x) (es : List (Nat × ℚ)) :
    ∀ {c : Cut}, (T.inf ≤ c.ub → T.inf ≤ (es.foldl (oaStep T cl cu x r) c).ub) ∧
      (c.lb ≤ -T.inf → (es.foldl (oaStep T cl cu x r) c).lb ≤ -T.inf) := by
  induction es with
  | nil => intro c; exact ⟨id, id⟩
  | cons e es ih =>
    intro c
    have hstep : (T.inf ≤ c.ub → T.inf ≤ (oaStep T cl cu x r c e).ub) ∧
        (c.lb ≤ -T.inf → (oaStep T cl cu x r c e).lb ≤ -T.inf) := by
      obtain ⟨k1, k2, k3, k4, k5, k6, k7⟩ := cleanO_spec (tiny := T.tiny) (vt := T.vt) (v := e.2) (rl := r.rl) (ru := r.ru)
        (lb := c.lb) (ub := c.ub) (hx e.1) (hx e.1)
      unfold oaStep
      generalize cleanO T.infM T.tiny T.vt e.2 (cl e.1) (cu e.1) r.rl r.ru (x e.1) c.lb c.ub = k at *
      constructor
      · intro h
        have h' := le_trans h k3
        dsimp only
        split
        · simp [not_lt.mpr h', h']
        · exact h'
      · intro h
        have h' := le_trans k2 h
        dsimp only
        split
        · simp [not_lt.mpr h', h']
        · exact h'
    rw [List.foldl_cons]
    exact ⟨fun h => ih.1 (hstep.1 h), fun h => ih.2 (hstep.2 h)⟩

theorem rowOa_unused {T : Tol} {cl cu x : Nat → ℚ} {r : RowData} (hx : InCols T.infM cl cu x) (es : List (Nat × ℚ)) :
    (¬ UsesUp T r → T.inf ≤ (rowOa T cl cu x r es).ub) ∧ (¬ UsesLo T r → (rowOa T cl cu x r es).lb ≤ -T.inf) := by
  unfold rowOa
  exact ⟨fun h => (ub_mono hx es).1 (by rw [initCut_ub_of_not_uses h]),
    fun h => (ub_mono hx es).2 (by rw [initCut_lb_of_not_uses h])⟩

end Verif.Oa

import Verif.Heur.Dive
import Mathlib.Algebra.Order.BigOperators.Group.List
import Mathlib.Tactic.Linarith
import Mathlib.Tactic.NormNum
import Mathlib.Algebra.Order.Round

/-!
# C33: dive heuristics return feasible improving points, and end
-/
namespace Verif.Heur

/-! ### Specification -/

/-- `x` respects the bounds of the first `n` columns. -/
def InBox (n : Nat) (b : Bnds) (x : Nat → ℚ) : Prop := ∀ i < n, b.lo i ≤ x i ∧ x i ≤ b.up i

/-- The bounds `b'` are at least as tight as `b`. -/
def Tighter (n : Nat) (b' b : Bnds) : Prop := ∀ i < n, b.lo i ≤ b'.lo i ∧ b'.up i ≤ b.up i

/-- All integer components are within `tol` of an integer. -/
def Integral (p : Prob) (tol : ℚ) (x : Nat → ℚ) : Prop := ∀ i < p.n, p.isInt i = true → ∃ z : ℤ, |(z : ℚ) - x i| ≤ tol

/-- The rows are respected up to `t`. -/
def RowsIn (p : Prob) (t : ℚ) (gs : Nat → ℚ) : Prop := ∀ i < p.m, p.gl i - t ≤ gs i ∧ gs i ≤ p.gu i + t

/-- Contract of the NLP solver: answers marked successful respect the bounds. -/
def Respects (p : Prob) (o : Oracle) : Prop := ∀ k b x, o k b = some x → InBox p.n b x

/-- Contract of the selection rule: the column is an integer column with a fractional value. -/
def Selects (p : Prob) (d : Dive) : Prop := ∀ k b x j up, d.sel k b x = some (j, up) → j < p.n ∧ p.isInt j = true ∧ isFrac d.tol (x j) = true

/-- Total width of the integer columns. -/
def width (p : Prob) (b : Bnds) : Nat := ((intCols p).map fun i => (⌈b.up i⌉ - ⌊b.lo i⌋).toNat).sum

/-! ### Lemmas -/

theorem isFrac_iff (tol v : ℚ) : isFrac tol v = true ↔ ∀ z : ℤ, tol < |(z : ℚ) - v| := by
  unfold isFrac
  rw [decide_eq_true_iff]
  constructor
  · intro h z
    refine lt_of_lt_of_le h ?_
    have h1 := round_le v z
    rw [round_eq] at h1
    rw [abs_sub_comm, abs_sub_comm (z : ℚ)]
    exact h1
  · intro h; exact h _

theorem not_isFrac_iff (tol v : ℚ) : isFrac tol v = false ↔ ∃ z : ℤ, |(z : ℚ) - v| ≤ tol := by
  rw [← Bool.not_eq_true, isFrac_iff]
  push Not
  rfl

theorem isFrac_not_int {tol v : ℚ} (ht : 0 ≤ tol) (h : isFrac tol v = true) (z : ℤ) : (z : ℚ) ≠ v := by
  intro e
  have := (isFrac_iff tol v).1 h z
  rw [e] at this
  simp at this
  linarith

theorem mem_intCols (p : Prob) (i : Nat) : i ∈ intCols p ↔ i < p.n ∧ p.isInt i = true := by
  simp [intCols]

theorem intCols_nodup (p : Prob) : (intCols p).Nodup := List.nodup_range.filter _

theorem boxOk_iff (p : Prob) (b : Bnds) (x : Nat → ℚ) : boxOk p b x = true ↔ InBox p.n b x := by
  simp [boxOk, InBox]

theorem rowsOk_iff (p : Prob) (t : ℚ) (gs : Nat → ℚ) : rowsOk p t gs = true ↔ RowsIn p t gs := by
  simp [rowsOk, RowsIn]

theorem accept_iff (p : Prob) (d : Dive) (t : ℚ) (b : Bnds) (x : Nat → ℚ) :
    accept p d t b x = true ↔ InBox p.n b x ∧ Integral p d.tol x ∧ RowsIn p t (p.g x) := by
  unfold accept
  rw [Bool.and_eq_true, rowsOk_iff, ← and_assoc]
  refine and_congr_left fun _ => ?_
  simp only [List.all_eq_true, List.mem_range, Bool.and_eq_true, Bool.not_eq_true', Bool.or_eq_false_iff, decide_eq_false_iff_not, not_lt,
    Bool.and_eq_false_iff, InBox, Integral, not_isFrac_iff]
  constructor
  · intro h
    exact ⟨fun i hi => (h i hi).1, fun i hi hI => (h i hi).2.resolve_left (by simp [hI])⟩
  · rintro ⟨h1, h2⟩ i hi
    refine ⟨h1 i hi, ?_⟩
    cases hI : p.isInt i
    · exact Or.inl rfl
    · exact Or.inr (h2 i hi hI)

theorem adjust_aux (p : Prob) (gs : Nat → ℚ) : ∀ (l : List Nat) (t : ℚ), (∀ i ∈ l, p.gl i ≤ p.gu i) → 0 ≤ t →
    let r := l.foldl (fun t i => if gs i < p.gl i - t then p.gl i - gs i else if p.gu i + t < gs i then gs i - p.gu i else t) t
    t ≤ r ∧ (∀ i ∈ l, p.gl i - r ≤ gs i ∧ gs i ≤ p.gu i + r) ∧ (r = t ∨ ∃ i ∈ l, r = max (p.gl i - gs i) (gs i - p.gu i))
  | [], t, _, _ => by simp
  | i :: l, t, hb, ht => by
    intro r
    have hi := hb i (by simp)
    have hbl : ∀ i ∈ l, p.gl i ≤ p.gu i := fun i h => hb i (by simp [h])
    by_cases h1 : gs i < p.gl i - t
    · obtain ⟨a1, a2, a3⟩ := adjust_aux p gs l (p.gl i - gs i) hbl (by linarith)
      have e : r = l.foldl (fun t i => if gs i < p.gl i - t then p.gl i - gs i else if p.gu i + t < gs i then gs i - p.gu i else t) (p.gl i - gs i) := by
        show List.foldl _ t (i :: l) = _
        rw [List.foldl_cons, if_pos h1]
      rw [← e] at a1 a2 a3
      refine ⟨by linarith, ?_, Or.inr ?_⟩
      · intro j hj
        rcases List.mem_cons.1 hj with rfl | hj
        · constructor <;> linarith
        · exact a2 j hj
      · rcases a3 with a3 | ⟨j, hj, a3⟩
        · exact ⟨i, by simp, by rw [a3, max_eq_left (by linarith)]⟩
        · exact ⟨j, by simp [hj], a3⟩
    · by_cases h2 : p.gu i + t < gs i
      · obtain ⟨a1, a2, a3⟩ := adjust_aux p gs l (gs i - p.gu i) hbl (by linarith)
        have e : r = l.foldl (fun t i => if gs i < p.gl i - t then p.gl i - gs i else if p.gu i + t < gs i then gs i - p.gu i else t) (gs i - p.gu i) := by
          show List.foldl _ t (i :: l) = _
          rw [List.foldl_cons, if_neg h1, if_pos h2]
        rw [← e] at a1 a2 a3
        refine ⟨by linarith, ?_, Or.inr ?_⟩
        · intro j hj
          rcases List.mem_cons.1 hj with rfl | hj
          · constructor <;> linarith
          · exact a2 j hj
        · rcases a3 with a3 | ⟨j, hj, a3⟩
          · exact ⟨i, by simp, by rw [a3, max_eq_right (by linarith)]⟩
          · exact ⟨j, by simp [hj], a3⟩
      · obtain ⟨a1, a2, a3⟩ := adjust_aux p gs l t hbl ht
        have e : r = l.foldl (fun t i => if gs i < p.gl i - t then p.gl i - gs i else if p.gu i + t < gs i then gs i - p.gu i else t) t := by
          show List.foldl _ t (i :: l) = _
          rw [List.foldl_cons, if_neg h1, if_neg h2]
        rw [← e] at a1 a2 a3
        refine ⟨a1, ?_, ?_⟩
        · intro j hj
          rcases List.mem_cons.1 hj with rfl | hj
          · constructor <;> linarith
          · exact a2 j hj
        · rcases a3 with a3 | ⟨j, hj, a3⟩
          · exact Or.inl a3
          · exact Or.inr ⟨j, by simp [hj], a3⟩

/-- C33: the row tolerance used is the larger of 1e-6 and the largest row violation of the relaxation's solution. -/
theorem adjust_spec (p : Prob) (gs : Nat → ℚ) (t : ℚ) (hb : ∀ i < p.m, p.gl i ≤ p.gu i) (ht : 0 ≤ t) :
    t ≤ adjust p gs t ∧ RowsIn p (adjust p gs t) gs ∧ (adjust p gs t = t ∨ ∃ i < p.m, adjust p gs t = max (p.gl i - gs i) (gs i - p.gu i)) := by
  have := adjust_aux p gs (List.range p.m) t (by simpa using hb) ht
  simpa [RowsIn, adjust] using this

/-! #### Fixing and taking back -/

theorem unfix_setUp (i : Nat) (v : ℚ) : ∀ (fs : List Fix) (b : Bnds), (∀ f ∈ fs, f.col ≠ i) → unfix fs (b.setUp i v) = (unfix fs b).setUp i v
  | [], b, _ => rfl
  | f :: fs, b, h => by
    have hf : f.col ≠ i := h f (by simp)
    have ih := unfix_setUp i v fs (if f.atLower then b.setUp f.col f.orig else b.setLo f.col f.orig) (fun g hg => h g (by simp [hg]))
    simp only [unfix, List.foldl_cons] at ih ⊢
    rw [← ih]
    congr 1
    split
    · ext j
      · rfl
      · simp only [Bnds.setUp]; split_ifs <;> first | rfl | (exfalso; omega)
    · rfl

theorem unfix_setLo (i : Nat) (v : ℚ) : ∀ (fs : List Fix) (b : Bnds), (∀ f ∈ fs, f.col ≠ i) → unfix fs (b.setLo i v) = (unfix fs b).setLo i v
  | [], b, _ => rfl
  | f :: fs, b, h => by
    have hf : f.col ≠ i := h f (by simp)
    have ih := unfix_setLo i v fs (if f.atLower then b.setUp f.col f.orig else b.setLo f.col f.orig) (fun g hg => h g (by simp [hg]))
    simp only [unfix, List.foldl_cons] at ih ⊢
    rw [← ih]
    congr 1
    split
    · rfl
    · ext j
      · simp only [Bnds.setLo]; split_ifs <;> first | rfl | (exfalso; omega)
      · rfl

/-- What the fixing loop does: the fixings are at columns of the list with integral values, taking them back gives the old bounds, other columns are untouched. -/
theorem fixLoop_spec (tol : ℚ) (maxFix : Nat) (x : Nat → ℚ) : ∀ (cols : List Nat) (b : Bnds) (fs : List Fix), cols.Nodup → (∀ i ∈ cols, b.lo i ≤ b.up i) →
    ∃ gs, (fixLoop tol maxFix x cols b fs).2 = fs ++ gs ∧ (∀ g ∈ gs, g.col ∈ cols ∧ isFrac tol (x g.col) = false) ∧
      unfix gs (fixLoop tol maxFix x cols b fs).1 = b ∧
      (∀ i, b.lo i ≤ (fixLoop tol maxFix x cols b fs).1.lo i ∧ (fixLoop tol maxFix x cols b fs).1.up i ≤ b.up i) ∧
      (∀ i, (i ∉ cols ∨ isFrac tol (x i) = true) → (fixLoop tol maxFix x cols b fs).1.lo i = b.lo i ∧ (fixLoop tol maxFix x cols b fs).1.up i = b.up i)
  | [], b, fs, _, _ => ⟨[], by simp [fixLoop], by simp, rfl, fun i => ⟨le_refl _, le_refl _⟩, fun i _ => ⟨rfl, rfl⟩⟩
  | i :: is, b, fs, hn, hb => by
    have hni : i ∉ is := (List.nodup_cons.1 hn).1
    have hns : is.Nodup := (List.nodup_cons.1 hn).2
    rw [fixLoop]
    by_cases hc : (!isFrac tol (x i) && decide (fs.length < maxFix)) = true
    · rw [if_pos hc]
      have hfr : isFrac tol (x i) = false := by simpa using (Bool.and_eq_true_iff.1 hc).1
      -- description of one step
      have hone : ∃ gs, (fixOne tol x i b fs).2 = fs ++ gs ∧ (∀ g ∈ gs, g.col = i) ∧ gs.length ≤ 1 ∧
          (∀ (c : Bnds), (c.lo i = (fixOne tol x i b fs).1.lo i) → c.up i = (fixOne tol x i b fs).1.up i → unfix gs c =
            ⟨fun j => if j = i then b.lo i else c.lo j, fun j => if j = i then b.up i else c.up j⟩) ∧
          (b.lo i ≤ (fixOne tol x i b fs).1.lo i ∧ (fixOne tol x i b fs).1.up i ≤ b.up i) ∧
          (fixOne tol x i b fs).1.lo i ≤ (fixOne tol x i b fs).1.up i ∧
          (∀ j, j ≠ i → (fixOne tol x i b fs).1.lo j = b.lo j ∧ (fixOne tol x i b fs).1.up j = b.up j) := by
        have hbi := hb i (by simp)
        unfold fixOne
        split_ifs with h1 h2
        · refine ⟨[⟨i, b.up i, true⟩], rfl, by simp, by simp, ?_, ?_, ?_, ?_⟩
          · intro c h1 h2
            simp only [Bnds.setUp, if_true] at h1 h2
            ext j
            · simp only [unfix, List.foldl_cons, List.foldl_nil, if_true, Bnds.setUp]
              split_ifs with e
              · rw [e, h1]
              · rfl
            · simp only [unfix, List.foldl_cons, List.foldl_nil, if_true, Bnds.setUp]
          · simpa [Bnds.setUp] using hbi
          · simp [Bnds.setUp]
          · intro j hj; simp [Bnds.setUp, hj]
        · refine ⟨[⟨i, b.lo i, false⟩], rfl, by simp, by simp, ?_, ?_, ?_, ?_⟩
          · intro c h1 h2
            simp only [Bnds.setLo, if_true] at h1 h2
            ext j
            · simp [unfix, Bnds.setLo]
            · simp only [unfix, List.foldl_cons, List.foldl_nil, Bool.false_eq_true, if_false, Bnds.setLo]
              split_ifs with e
              · rw [e, h2]
              · rfl
          · simpa [Bnds.setLo] using hbi
          · simp [Bnds.setLo]
          · intro j hj; simp [Bnds.setLo, hj]
        · refine ⟨[], by simp, by simp, by simp, ?_, ⟨le_refl _, le_refl _⟩, hbi, fun j _ => ⟨rfl, rfl⟩⟩
          intro c h1 h2
          simp only at h1 h2
          ext j
          · simp only [unfix, List.foldl_nil]; split_ifs with e
            · rw [e, h1]
            · rfl
          · simp only [unfix, List.foldl_nil]; split_ifs with e
            · rw [e, h2]
            · rfl
      obtain ⟨g1, e1, c1, -, u1, ⟨t1, t2⟩, t3, o1⟩ := hone
      split
      · refine ⟨g1, e1, fun g hg => by rw [c1 g hg]; exact ⟨by simp, hfr⟩, ?_, ?_, ?_⟩
        · rw [u1 _ rfl rfl]
          ext j
          · simp only; split_ifs with e
            · rw [e]
            · exact (o1 j e).1
          · simp only; split_ifs with e
            · rw [e]
            · exact (o1 j e).2
        · intro j
          by_cases e : j = i
          · rw [e]; exact ⟨t1, t2⟩
          · rw [(o1 j e).1, (o1 j e).2]; exact ⟨le_refl _, le_refl _⟩
        · intro j hj
          refine o1 j ?_
          rintro rfl
          rcases hj with hj | hj
          · simp at hj
          · rw [hfr] at hj; cases hj
      · obtain ⟨g2, e2, c2, u2, s2, o2⟩ := fixLoop_spec tol maxFix x is (fixOne tol x i b fs).1 (fixOne tol x i b fs).2 hns (by
          intro j hj
          have hji : j ≠ i := by rintro rfl; exact hni hj
          rw [(o1 j hji).1, (o1 j hji).2]; exact hb j (by simp [hj]))
        refine ⟨g1 ++ g2, by rw [e2, e1, List.append_assoc], ?_, ?_, ?_, ?_⟩
        · intro g hg
          rcases List.mem_append.1 hg with hg | hg
          · rw [c1 g hg]; exact ⟨by simp, hfr⟩
          · exact ⟨by simp [(c2 g hg).1], (c2 g hg).2⟩
        · have key : ∀ (gs : List Fix) (c : Bnds), unfix (g1 ++ gs) c = unfix gs (unfix g1 c) := by
            intro gs c; simp [unfix, List.foldl_append]
          rw [key]
          have h2 := o2 i (Or.inl hni)
          rw [u1 _ h2.1 h2.2]
          -- the two assignments at column i commute with taking back the others
          have hcol : ∀ f ∈ g2, f.col ≠ i := by
            intro f hf e
            exact hni (e ▸ (c2 f hf).1)
          have hsplit : (⟨fun j => if j = i then b.lo i else (fixLoop tol maxFix x is (fixOne tol x i b fs).1 (fixOne tol x i b fs).2).1.lo j,
              fun j => if j = i then b.up i else (fixLoop tol maxFix x is (fixOne tol x i b fs).1 (fixOne tol x i b fs).2).1.up j⟩ : Bnds) =
              ((fixLoop tol maxFix x is (fixOne tol x i b fs).1 (fixOne tol x i b fs).2).1.setLo i (b.lo i)).setUp i (b.up i) := rfl
          rw [hsplit, unfix_setUp i _ g2 _ hcol, unfix_setLo i _ g2 _ hcol, u2]
          ext j
          · simp only [Bnds.setUp, Bnds.setLo]; split_ifs with e
            · rw [e]
            · exact (o1 j e).1
          · simp only [Bnds.setUp, Bnds.setLo]; split_ifs with e
            · rw [e]
            · exact (o1 j e).2
        · intro j
          have := s2 j
          by_cases e : j = i
          · rw [e] at this ⊢; exact ⟨le_trans t1 this.1, le_trans this.2 t2⟩
          · rw [← (o1 j e).1, ← (o1 j e).2]; exact this
        · intro j hj
          have hji : j ≠ i := by
            rintro rfl
            rcases hj with hj | hj
            · simp at hj
            · rw [hfr] at hj; cases hj
          have := o2 j (by
            rcases hj with hj | hj
            · left; intro h; exact hj (by simp [h])
            · exact Or.inr hj)
          rw [this.1, this.2]; exact o1 j hji
    · rw [if_neg hc]
      obtain ⟨g2, e2, c2, u2, s2, o2⟩ := fixLoop_spec tol maxFix x is b fs hns (fun j hj => hb j (by simp [hj]))
      refine ⟨g2, e2, fun g hg => ⟨by simp [(c2 g hg).1], (c2 g hg).2⟩, u2, s2, fun j hj => o2 j ?_⟩
      rcases hj with hj | hj
      · left; intro h; exact hj (by simp [h])
      · exact Or.inr hj

theorem flip_bound (x : Nat → ℚ) (j : Nat) (up : Bool) (b : Bnds) : flip x j up (if up then b.lo j else b.up j) (bound x j up b) = bound x j (!up) b := by
  cases up
  · ext i
    · simp [flip, bound, Bnds.setLo, Bnds.setUp]
    · simp only [flip, bound, Bnds.setLo, Bnds.setUp, Bool.not_false, if_true, if_false, Bool.false_eq_true]
      split_ifs with e
      · rw [e]
      · rfl
  · ext i
    · simp only [flip, bound, Bnds.setLo, Bnds.setUp, Bool.not_true, if_true, if_false, Bool.false_eq_true]
      split_ifs with e
      · rw [e]
      · rfl
    · simp [flip, bound, Bnds.setLo, Bnds.setUp]

theorem unfix_bound (x : Nat → ℚ) (j : Nat) (up : Bool) (fs : List Fix) (b : Bnds) (h : ∀ f ∈ fs, f.col ≠ j) :
    unfix fs (bound x j up b) = bound x j up (unfix fs b) := by
  cases up
  · exact unfix_setUp j _ fs b h
  · exact unfix_setLo j _ fs b h

/-- Solving on the first bounds of the list for which the solver succeeds. -/
def firstOf (o : Oracle) : Nat → List Bnds → Bnds → Nat × Bnds × Option (Nat → ℚ)
  | k, [], last => (k, last, none)
  | k, b :: bs, _ => match o k b with
    | some x => (k + 1, b, some x)
    | none => firstOf o (k + 1) bs b

/-- C33: exactly which NLPs one iteration solves: the chosen column bounded on the chosen side, with columns fixed; the same without the fixings (if there were
any); the chosen column bounded on the other side.  The first success ends it. -/
theorem iterate_exact (p : Prob) (d : Dive) (x : Nat → ℚ) (b : Bnds) (k j : Nat) (up : Bool) (hb : ∀ i ∈ intCols p, b.lo i ≤ b.up i)
    (hj : isFrac d.tol (x j) = true) :
    iterate p d x b k j up = firstOf d.solve k ((if (start p d x b).2 = [] then [] else [bound x j up (start p d x b).1]) ++ [bound x j up b, bound x j (!up) b]) b := by
  obtain ⟨gs, e, c, u, -, o⟩ := fixLoop_spec d.tol d.maxFix x (intCols p) b [] (intCols_nodup p) hb
  have hj' := o j (Or.inr hj)
  have hgs : (start p d x b).2 = gs := by rw [show start p d x b = fixLoop d.tol d.maxFix x (intCols p) b [] from rfl, e]; rfl
  have hne : ∀ f ∈ gs, f.col ≠ j := by
    intro f hf h
    have := (c f hf).2
    rw [h, hj] at this; cases this
  have hst : (start p d x b).1 = (fixLoop d.tol d.maxFix x (intCols p) b []).1 := rfl
  have hu : unfix gs (bound x j up (start p d x b).1) = bound x j up b := by
    rw [unfix_bound x j up gs _ hne, hst, u]
  have hfl : flip x j up (if up then (start p d x b).1.lo j else (start p d x b).1.up j) (bound x j up b) = bound x j (!up) b := by
    rw [hst, hj'.1, hj'.2, flip_bound]
  unfold iterate
  rw [hgs]
  cases gs with
  | nil =>
    have hb1 : (start p d x b).1 = b := by rw [hst]; exact u
    rw [hb1] at hfl ⊢
    simp only [tryAll, tryFlip, tryLast, hfl, if_true, List.nil_append, firstOf]
    cases h1 : d.solve k (bound x j up b) with
    | some x' => rfl
    | none =>
      simp only
      cases h2 : d.solve (k + 1) (bound x j (!up) b) <;> rfl
  | cons f gs =>
    simp only [tryAll, tryFlip, tryLast, hfl, hu, reduceCtorEq, if_false, List.cons_append, List.nil_append, firstOf]
    cases h0 : d.solve k (bound x j up (start p d x b).1) with
    | some x' => rfl
    | none =>
      simp only
      cases h1 : d.solve (k + 1) (bound x j up b) with
      | some x' => rfl
      | none =>
        simp only
        cases h2 : d.solve (k + 1 + 1) (bound x j (!up) b) <;> rfl

theorem firstOf_spec (o : Oracle) (bs : List Bnds) : ∀ (k : Nat) (l : Bnds) (k' : Nat) (b' : Bnds) (r : Option (Nat → ℚ)), firstOf o k bs l = (k', b', r) →
    k' ≤ k + bs.length ∧ (∀ x, r = some x → b' ∈ bs ∧ ∃ i, o i b' = some x) := by
  induction bs with
  | nil => intro k l k' b' r h; simp only [firstOf, Prod.mk.injEq] at h; obtain ⟨rfl, rfl, rfl⟩ := h; simp
  | cons b bs ih =>
    intro k l k' b' r h
    rw [firstOf] at h
    cases ho : o k b with
    | some x =>
      rw [ho] at h
      simp only [Prod.mk.injEq] at h
      obtain ⟨rfl, rfl, rfl⟩ := h
      refine ⟨by simp, ?_⟩
      intro y hy
      cases hy
      exact ⟨by simp, k, ho⟩
    | none =>
      rw [ho] at h
      obtain ⟨h1, h2⟩ := ih _ _ _ _ _ h
      refine ⟨by simp; omega, fun x hx => ?_⟩
      obtain ⟨h3, h4⟩ := h2 x hx
      exact ⟨by simp [h3], h4⟩

/-! #### Widths -/

theorem width_mono (p : Prob) (b' b : Bnds) (h : Tighter p.n b' b) : width p b' ≤ width p b := by
  apply List.sum_le_sum
  intro i hi
  obtain ⟨h1, h2⟩ := h i ((mem_intCols p i).1 hi).1
  exact Int.toNat_le_toNat (by have := Int.ceil_le_ceil h2; have := Int.floor_le_floor h1; omega)

theorem bound_tighter (n : Nat) (x : Nat → ℚ) (j : Nat) (up : Bool) (b : Bnds) (h : b.lo j ≤ x j ∧ x j ≤ b.up j) : Tighter n (bound x j up b) b := by
  intro i _
  cases up
  · simp only [bound, Bnds.setUp, Bool.false_eq_true, if_false]
    refine ⟨le_refl _, ?_⟩
    split_ifs with e
    · rw [e]; exact le_trans (Int.floor_le _) h.2
    · exact le_refl _
  · simp only [bound, Bnds.setLo, if_true]
    refine ⟨?_, le_refl _⟩
    split_ifs with e
    · rw [e]; exact le_trans h.1 (Int.le_ceil _)
    · exact le_refl _

theorem width_bound (p : Prob) (tol : ℚ) (ht : 0 ≤ tol) (x : Nat → ℚ) (j : Nat) (up : Bool) (b b1 : Bnds) (hj : j ∈ intCols p) (hx : b.lo j ≤ x j ∧ x j ≤ b.up j)
    (hf : isFrac tol (x j) = true) (h1 : ∀ i, b.lo i ≤ b1.lo i ∧ b1.up i ≤ b.up i) (h2 : b1.lo j = b.lo j ∧ b1.up j = b.up j) :
    width p (bound x j up b1) < width p b := by
  apply List.sum_lt_sum
  · intro i hi
    have ht := bound_tighter p.n x j up b1 (by rw [h2.1, h2.2]; exact hx) i ((mem_intCols p i).1 hi).1
    apply Int.toNat_le_toNat
    have := Int.ceil_le_ceil (le_trans ht.2 (h1 i).2)
    have := Int.floor_le_floor (le_trans (h1 i).1 ht.1)
    omega
  · refine ⟨j, hj, ?_⟩
    have hfl : (⌊x j⌋ : ℚ) < x j := lt_of_le_of_ne (Int.floor_le _) (isFrac_not_int ht hf _)
    have hce : x j < (⌈x j⌉ : ℚ) := lt_of_le_of_ne (Int.le_ceil _) (isFrac_not_int ht hf _).symm
    have a1 : ⌊b.lo j⌋ ≤ ⌊x j⌋ := Int.floor_le_floor hx.1
    have a2 : ⌈x j⌉ ≤ ⌈b.up j⌉ := Int.ceil_le_ceil hx.2
    have a3 : ⌊x j⌋ < ⌈x j⌉ := by exact_mod_cast lt_trans hfl hce
    cases up
    · simp only [bound, Bnds.setUp, Bool.false_eq_true, if_false, if_true, Int.ceil_intCast, h2.1]
      omega
    · simp only [bound, Bnds.setLo, if_true, Int.floor_intCast, h2.2]
      omega

theorem width_pos (p : Prob) (tol : ℚ) (ht : 0 ≤ tol) (x : Nat → ℚ) (b : Bnds) (hx : InBox p.n b x) (h : ((intCols p).any fun i => isFrac tol (x i)) = true) :
    0 < width p b := by
  obtain ⟨j, hj, hf⟩ := List.any_eq_true.1 h
  have := width_bound p tol ht x j true b b hj (hx j ((mem_intCols p j).1 hj).1) hf (fun i => ⟨le_refl _, le_refl _⟩) ⟨rfl, rfl⟩
  omega

theorem loop_spec (p : Prob) (d : Dive) (ht : 0 ≤ d.tol) (hr : Respects p d.solve) (hs : Selects p d) (b0 : Bnds) : ∀ (fuel k : Nat) (b : Bnds) (x : Nat → ℚ),
    InBox p.n b x → Tighter p.n b b0 → width p b ≤ fuel → ∃ k' b' x', loop p d fuel k b x = some (k', b', x') ∧ InBox p.n b0 x' ∧ k' ≤ k + 3 * width p b := by
  intro fuel
  induction fuel with
  | zero =>
    intro k b x hx hb hw
    rw [loop]
    split_ifs with h
    · have := width_pos p d.tol ht x b hx h; omega
    · exact ⟨k, b, x, rfl, fun i hi => ⟨le_trans (hb i hi).1 (hx i hi).1, le_trans (hx i hi).2 (hb i hi).2⟩, by omega⟩
  | succ fuel ih =>
    intro k b x hx hb hw
    have hx0 : InBox p.n b0 x := fun i hi => ⟨le_trans (hb i hi).1 (hx i hi).1, le_trans (hx i hi).2 (hb i hi).2⟩
    rw [loop]
    split_ifs with h
    · have hpos := width_pos p d.tol ht x b hx h
      cases hsel : d.sel k b x with
      | none => exact ⟨_, _, _, rfl, hx0, by omega⟩
      | some ju =>
        obtain ⟨j, up⟩ := ju
        obtain ⟨hjn, hjI, hjf⟩ := hs k b x j up hsel
        have hjc : j ∈ intCols p := (mem_intCols p j).2 ⟨hjn, hjI⟩
        have hbb : ∀ i ∈ intCols p, b.lo i ≤ b.up i := fun i hi => by
          have := hx i ((mem_intCols p i).1 hi).1; exact le_trans this.1 this.2
        have hit := iterate_exact p d x b k j up hbb hjf
        obtain ⟨gs, e, c, u, t, o⟩ := fixLoop_spec d.tol d.maxFix x (intCols p) b [] (intCols_nodup p) hbb
        simp only
        rw [hit]
        cases hF : firstOf d.solve k ((if (start p d x b).2 = [] then [] else [bound x j up (start p d x b).1]) ++ [bound x j up b, bound x j (!up) b]) b with
        | mk k' rest =>
          obtain ⟨b', r⟩ := rest
          obtain ⟨f1, f2⟩ := firstOf_spec _ _ _ _ _ _ _ hF
          have hlen : k' ≤ k + 3 := by
            refine le_trans f1 ?_
            split_ifs <;> simp
          cases r with
          | none => exact ⟨_, _, _, rfl, hx0, by omega⟩
          | some x' =>
            obtain ⟨hmem, i, hi⟩ := f2 x' rfl
            have hx' : InBox p.n b' x' := hr _ _ _ hi
            have hcase : ∃ b1 up', b' = bound x j up' b1 ∧ (∀ i, b.lo i ≤ b1.lo i ∧ b1.up i ≤ b.up i) ∧ b1.lo j = b.lo j ∧ b1.up j = b.up j := by
              rcases List.mem_append.1 hmem with hm | hm
              · split_ifs at hm with hnil
                · simp at hm
                · simp at hm
                  exact ⟨_, up, hm, t, o j (Or.inr hjf)⟩
              · simp at hm
                rcases hm with hm | hm
                · exact ⟨b, up, hm, fun i => ⟨le_refl _, le_refl _⟩, rfl, rfl⟩
                · exact ⟨b, !up, hm, fun i => ⟨le_refl _, le_refl _⟩, rfl, rfl⟩
            obtain ⟨b1, up', eb, ht1, hj1, hj2⟩ := hcase
            have hwid : width p b' < width p b := by
              rw [eb]; exact width_bound p d.tol ht x j up' b b1 hjc (hx j hjn) hjf ht1 ⟨hj1, hj2⟩
            have htb : Tighter p.n b' b0 := by
              intro i hi
              have h1 := bound_tighter p.n x j up' b1 (by rw [hj1, hj2]; exact hx j hjn) i hi
              have h2 := ht1 i
              have h3 := hb i hi
              rw [eb]
              exact ⟨le_trans h3.1 (le_trans h2.1 h1.1), le_trans h1.2 (le_trans h2.2 h3.2)⟩
            simp only
            split_ifs with hinc
            · exact ⟨_, _, _, rfl, fun i hi => ⟨le_trans (htb i hi).1 (hx' i hi).1, le_trans (hx' i hi).2 (htb i hi).2⟩, by omega⟩
            · obtain ⟨k2, b2, x2, e2, h2, h3⟩ := ih k' b' x' hx' htb (by omega)
              exact ⟨k2, b2, x2, e2, h2, by omega⟩
    · exact ⟨_, _, _, rfl, hx0, by omega⟩

/-! ### Properties -/

/-- **C33**: whatever the solver and the selection rule answer: a returned point is integral within the tolerance, respects the rows up to the tolerance used, its
value is the one reported and is better than the incumbent; and it is the point the dive ended with, within the bounds then in force. -/
theorem dive_sound (dbg : Bool) (p : Prob) (d : Dive) (fuel : Nat) (b0 : Bnds) (x0 g0 : Nat → ℚ) (k : Nat) (x : Nat → ℚ) (v : ℚ)
    (h : dive dbg p d fuel b0 x0 g0 = .found k x v) :
    Integral p d.tol x ∧ RowsIn p (adjust p g0 (1 / 10 ^ 6)) (p.g x) ∧ v = p.f x ∧ v < d.inc ∧ ∃ b, loop p d fuel 0 b0 x0 = some (k, b, x) ∧ InBox p.n b x := by
  unfold dive at h
  split_ifs at h
  cases hl : loop p d fuel 0 b0 x0 with
  | none => rw [hl] at h; cases h
  | some r =>
    obtain ⟨k', b', x'⟩ := r
    rw [hl] at h
    simp only at h
    split_ifs at h with ha
    rw [Bool.and_eq_true, decide_eq_true_iff, accept_iff] at ha
    simp only [Verdict.found.injEq] at h
    obtain ⟨rfl, rfl, rfl⟩ := h
    exact ⟨ha.1.2.1, ha.1.2.2, rfl, ha.2, b', rfl, ha.1.1⟩

/-- **C33**: the dive ends after at most three NLP solves per unit of integer width, and, with a solver whose successful answers respect the bounds it was given, the
point returned respects the bounds the dive was started with. -/
theorem dive_partial (dbg : Bool) (p : Prob) (d : Dive) (ht : 0 ≤ d.tol) (hr : Respects p d.solve) (hs : Selects p d) (b0 : Bnds) (x0 g0 : Nat → ℚ)
    (hx : InBox p.n b0 x0) (fuel : Nat) (hf : width p b0 ≤ fuel) :
    dive dbg p d fuel b0 x0 g0 ≠ .running ∧
    (∀ k, dive dbg p d fuel b0 x0 g0 = .nothing k → k ≤ 3 * width p b0) ∧
    (∀ k x v, dive dbg p d fuel b0 x0 g0 = .found k x v → InBox p.n b0 x ∧ k ≤ 3 * width p b0) := by
  obtain ⟨k', b', x', e, hin, hk⟩ := loop_spec p d ht hr hs b0 fuel 0 b0 x0 hx (fun i _ => ⟨le_refl _, le_refl _⟩) hf
  unfold dive
  rw [e]
  simp only
  refine ⟨?_, ?_, ?_⟩
  · split_ifs <;> exact fun h => nomatch h
  · intro k h
    split_ifs at h
    simp only [Verdict.nothing.injEq] at h; omega
  · intro k x v h
    split_ifs at h
    simp only [Verdict.found.injEq] at h; rw [← h.2.1]; exact ⟨hin, by omega⟩

/-- **C33**: the assertion at the start: it holds exactly when the solution of the relaxation respects the bounds exactly; rows never matter, since the tolerance was
just adjusted to them. -/
theorem dive_abort_iff (p : Prob) (d : Dive) (fuel : Nat) (b0 : Bnds) (x0 g0 : Nat → ℚ) (hb : ∀ i < p.m, p.gl i ≤ p.gu i) :
    dive true p d fuel b0 x0 g0 = .abort ↔ ¬ InBox p.n b0 x0 := by
  have hrow : rowsOk p (adjust p g0 (1 / 10 ^ 6)) g0 = true := (rowsOk_iff _ _ _).2 (adjust_spec p g0 _ hb (by norm_num)).2.1
  unfold dive
  rw [nlpFeasible, hrow, Bool.and_true, Bool.true_and, ← boxOk_iff]
  cases hbx : boxOk p b0 x0
  · simp
  · simp only [Bool.not_true, Bool.false_eq_true, if_false, not_true_eq_false, iff_false]
    cases loop p d fuel 0 b0 x0 with
    | none => simp
    | some r => obtain ⟨k', b', x'⟩ := r; simp only; split_ifs <;> simp

/-- **C33**: an integral relaxation that passes the final check is returned without any solve. -/
theorem dive_integral_start (dbg : Bool) (p : Prob) (d : Dive) (fuel : Nat) (b0 : Bnds) (x0 g0 : Nat → ℚ) (hb : ∀ i < p.m, p.gl i ≤ p.gu i)
    (hx : InBox p.n b0 x0) (hI : Integral p d.tol x0) (hg : p.g x0 = g0) :
    dive dbg p d fuel b0 x0 g0 = if p.f x0 < d.inc then .found 0 x0 (p.f x0) else .nothing 0 := by
  have ha := (adjust_spec p g0 (1 / 10 ^ 6) hb (by norm_num)).2.1
  have hloop : loop p d fuel 0 b0 x0 = some (0, b0, x0) := by
    have hany : ((intCols p).any fun i => isFrac d.tol (x0 i)) = false := by
      rw [List.any_eq_false]
      intro i hi
      rw [Bool.not_eq_true, not_isFrac_iff]
      exact hI i ((mem_intCols p i).1 hi).1 ((mem_intCols p i).1 hi).2
    cases fuel <;> rw [loop, hany] <;> simp
  unfold dive
  rw [hloop, nlpFeasible, (boxOk_iff _ _ _).2 hx, (rowsOk_iff _ _ _).2 ha]
  simp only [(accept_iff p d _ b0 x0).2 ⟨hx, hI, by rw [hg]; exact ha⟩, Bool.and_self, Bool.not_true, Bool.and_false, Bool.false_eq_true, if_false, Bool.true_and, decide_eq_true_eq]

/-- One integer column in [0, 1], one row `g ≥ 1` equal to the column, zero objective. -/
def exP : Prob := ⟨1, 1, fun _ => true, fun _ => 1, fun _ => 5, fun _ => 0, fun x _ => x 0⟩

/-- **C33** refuted for the tolerance 1e-6: the relaxation's answer violates a row by 1, the tolerance becomes 1, and a point violating the row by 1 is returned, with
assertions compiled in. -/
theorem dive_tolerance_grows :
    ∃ (p : Prob) (d : Dive) (b0 : Bnds) (x0 : Nat → ℚ), dive true p d 0 b0 x0 (p.g x0) = .found 0 x0 0 ∧ InBox p.n b0 x0 ∧ ¬ RowsIn p (1 / 10 ^ 6) (p.g x0) := by
  refine ⟨exP, ⟨1 / 10 ^ 6, 0, 1, fun _ _ => none, fun _ _ _ => none⟩, ⟨fun _ => 0, fun _ => 1⟩, fun _ => 0, ?_, ?_, ?_⟩
  · have := dive_integral_start true exP ⟨1 / 10 ^ 6, 0, 1, fun _ _ => none, fun _ _ _ => none⟩ 0 ⟨fun _ => 0, fun _ => 1⟩ (fun _ => 0) (exP.g fun _ => 0)
      (by intro i _; norm_num [exP]) (by intro i _; norm_num) (by intro i _ _; exact ⟨0, by norm_num⟩) rfl
    rw [this]
    norm_num [exP]
  · intro i _; norm_num
  · intro h
    have := (h 0 (by norm_num [exP])).1
    norm_num [exP] at this

/-- The solver of the next theorem: its first successful answer is out of bounds. -/
def badSolve : Oracle := fun k _ => if k = 0 then some fun _ => 5 / 2 else some fun _ => 2

/-- The dive of the next theorem. -/
def badDive : Dive := ⟨1 / 10 ^ 6, 0, 1, badSolve, fun k _ x => if isFrac (1 / 10 ^ 6) (x 0) then some (0, k = 0) else none⟩

/-- One integer column, no rows. -/
def exQ : Prob := ⟨1, 0, fun _ => true, fun _ => 0, fun _ => 0, fun _ => 0, fun _ _ => 0⟩

def Verdict.foundAt (i : Nat) (v : ℚ) : Verdict → Bool
  | .found _ x _ => x i = v
  | _ => false

theorem Verdict.foundAt_iff (i : Nat) (v : ℚ) (r : Verdict) : r.foundAt i v = true ↔ ∃ k x w, r = .found k x w ∧ x i = v := by
  cases r <;> simp [Verdict.foundAt]

/-- **C33** refuted for solvers whose successful answers may leave the bounds: the dive then widens a bound, and the point 2 is returned for a column with bounds [0, 1]. -/
theorem dive_leaves_bounds :
    ∃ (p : Prob) (d : Dive) (b0 : Bnds) (x0 : Nat → ℚ) (k : Nat) (x : Nat → ℚ) (v : ℚ), Selects p d ∧ InBox p.n b0 x0 ∧ dive true p d 5 b0 x0 (p.g x0) = .found k x v ∧
      ¬ InBox p.n b0 x := by
  have h : (dive true exQ badDive 5 ⟨fun _ => 0, fun _ => 1⟩ (fun _ => 1 / 2) (exQ.g fun _ => 1 / 2)).foundAt 0 2 = true := by decide +kernel
  obtain ⟨k, x, w, e, hx⟩ := (Verdict.foundAt_iff _ _ _).1 h
  refine ⟨exQ, badDive, ⟨fun _ => 0, fun _ => 1⟩, fun _ => 1 / 2, k, x, w, ?_, ?_, e, ?_⟩
  · intro k b x j up h
    simp only [badDive] at h
    split_ifs at h with hf
    cases h
    exact ⟨by norm_num [exQ], rfl, hf⟩
  · intro i _; norm_num
  · intro h
    have := (h 0 (by norm_num [exQ])).2
    rw [hx] at this
    norm_num at this

/-! ### non-trivial instances -/

/-- A solver that respects the bounds: the middle of the box, when there is one. -/
def midSolve : Oracle := fun _ b => if b.lo 0 ≤ b.up 0 then some fun _ => (b.lo 0 + b.up 0) / 2 else none

def midDive : Dive := ⟨1 / 10 ^ 6, 0, 1, midSolve, badDive.sel⟩

example : Respects exQ midDive.solve ∧ Selects exQ midDive ∧ 0 ≤ midDive.tol := by
  refine ⟨?_, ?_, by norm_num [midDive]⟩
  · intro k b x h i hi
    have hi0 : i = 0 := by simp [exQ] at hi; exact hi
    simp only [midDive, midSolve] at h
    split_ifs at h with hb
    cases h
    rw [hi0]
    constructor <;> linarith
  · intro k b x j up h
    simp only [midDive, badDive] at h
    split_ifs at h with hf
    cases h
    exact ⟨by norm_num [exQ], rfl, hf⟩

example : (dive true exQ midDive 7 ⟨fun _ => 0, fun _ => 7⟩ (fun _ => 7 / 2) (exQ.g fun _ => 7 / 2)).foundAt 0 4 = true ∧
    width exQ ⟨fun _ => 0, fun _ => 7⟩ = 7 := by
  constructor <;> decide +kernel

end Verif.Heur

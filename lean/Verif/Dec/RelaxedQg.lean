import Verif.Dec.Relaxed
/-!
# C318: B-QG with relaxed right-hand sides

The cuts of the interface are relaxed (BonOsiTMINLPInterface.cpp:2043-2044), so that the LP can come back to integers whose NLP was solved, with a value slightly below the cutoff.  The checker then drops the node
(BonOaFeasChecker.cpp:113-117).  Here: what is lost by that, and that the search still ends.
-/
namespace Verif.Dec.Cvx
open Verif.Div Verif.Bab.Search Verif.Oa

/-- The LP, with valid rows and a cutoff of at least `u`, came within 1/10 of the integers of an NLP it has the cuts of, but not to these integers. -/
def Beside {X κ : Type} (w : Qg.World X κ) (P : Minlp X) (sat : κ → X → Prop) (u : ℚ) (b : Box) : Prop := ∃ rows v x, u ≤ v ∧ (∀ c ∈ rows, ∀ y, P.feas y → sat c y) ∧ Qg.Treated w rows v x ∧
  Qg.Below w b rows v ∧ Qg.Close (w.ints (w.nlp x).pt) (w.ints (w.lp b rows v).pt) ∧ w.ints (w.lp b rows v).pt ≠ w.ints (w.nlp x).pt

/-- **C318.**  With exact cuts (C306) a box is only dropped beside the integers of an NLP, never at them. -/
theorem lost_beside {P : Prob} {L : Pt P → Prop} (hP : Convex P L) (hE : Exact P L) (w : Qg.World (Pt P) Cut) (dual : Pt P → ℕ → ℚ) (theta : ℚ) (lp : Bool)
    (hw : w.oa = fun xh x => cutsAt P (dual x) none theta lp xh) (hL : ∀ x, L (w.nlp x).pt) (hs : QgSolvers P w) (hx : LpExact P w) (hF : ∀ x, FirstOrder P w.ints (w.nlp x) (dual x))
    (hben : ∀ b rows v x, (∀ c ∈ w.benders (w.nlp x).pt, c ∈ rows) → ((w.nlp x).optimal = true → v ≤ (w.nlp x).obj) → Qg.Below w b rows v →
      w.ints (w.lp b rows v).pt ≠ w.ints (w.nlp x).pt) (u : ℚ) (b : Box) (h : Qg.RepeatsAt w (minlp P) (fun c y => Sat P.T.inf c y.1) u b) :
    Beside w (minlp P) (fun c y => Sat P.T.inf c y.1) u b := by
  obtain ⟨rows, v, x, h1, h2, h3, h4, h5⟩ := h
  refine ⟨rows, v, x, h1, h2, h3, h4, h5, fun hi => ?_⟩
  rcases h3.2 with hoa | hbe
  · rw [hw] at hoa
    obtain ⟨x1, x2, x3⟩ := hx b rows v h4.1 h4.2.1
    have := no_return hP.toShape hE w.ints (w.nlp x) (dual x) theta lp (hF x) (hL x) (fun ho => (hs.nlpOpt x ho).2) v h3.1 _ hi (fun c hc => x1 c (hoa c hc)) x2
    have := h4.2.2
    rw [x3] at this
    linarith
  · exact hben b rows v x hbe h3.1 h4 hi

/-- **C318.**  With relaxed cuts, a box dropped at the integers of an NLP holds nothing better than the cutoff by more than the margin. -/
theorem lost_margin {P : Prob} {L : Pt P → Prop} (hP : Convex P L) (hE : Plain P L) (w : Qg.World (Pt P) Cut) (dual : Pt P → ℕ → ℚ) (theta : ℚ) (lp : Bool) (mu : ℚ)
    (hw : w.oa = fun xh x => cutsAt P (dual x) none theta lp xh) (hL : ∀ x, L (w.nlp x).pt) (hs : QgSolvers P w) (hx : LpExact P w) (hF : ∀ x, FirstOrderR P w.ints (w.nlp x) (dual x) mu)
    (hben : ∀ b rows v x, (∀ c ∈ w.benders (w.nlp x).pt, c ∈ rows) → ((w.nlp x).optimal = true → v ≤ (w.nlp x).obj) → Qg.Below w b rows v →
      w.ints (w.lp b rows v).pt = w.ints (w.nlp x).pt → v - mu ≤ (w.lp b rows v).obj) (u : ℚ) (b : Box) (h : Qg.RepeatsAt w (minlp P) (fun c y => Sat P.T.inf c y.1) u b) :
    Beside w (minlp P) (fun c y => Sat P.T.inf c y.1) u b ∨ ∀ y, Feas P y → InBox b (w.ints y) → u - mu ≤ P.F y.1 := by
  obtain ⟨rows, v, x, h1, h2, h3, h4, h5⟩ := h
  by_cases hi : w.ints (w.lp b rows v).pt = w.ints (w.nlp x).pt
  · right
    have hv : v - mu ≤ (w.lp b rows v).obj := by
      rcases h3.2 with hoa | hbe
      · rw [hw] at hoa
        obtain ⟨x1, x2, x3⟩ := hx b rows v h4.1 h4.2.1
        have := (no_return_relaxed hP.toShape hE w.ints (w.nlp x) (dual x) mu theta lp (hF x) (hL x) (fun ho => (hs.nlpOpt x ho).2) v h3.1 _ hi (fun c hc => x1 c (hoa c hc)) x2).2
        rw [x3]
        exact this
      · exact hben b rows v x hbe h3.1 h4 hi
    intro y hy hb
    have := hs.lpBound b rows v h4.1 h4.2.1 y hy hb (fun c hc => h2 c hc y hy)
    linarith
  · exact Or.inl ⟨rows, v, x, h1, h2, h3, h4, h5, hi⟩

/-- **C318.**  B-QG on a convex problem with the relaxed cuts of the interface, multipliers up to `mu` at the answers of the NLP solver, an integer tolerance of at most 1/10 and solvers whose answers do not depend on the past:
the search ends; the best solution is one below the start cutoff; and every solution is no better than the best one by more than the decrement or increment plus `mu`, or the gap (not below the start cutoff by
more than `mu` if there is none), or lies in a box dropped beside the integers of an NLP.  Missing for the full claim: those boxes (`qg_repeat_loses`), NLPs infeasible by less than the relaxation
(`qg_relaxed_refuted`), small coefficients in columns without finite bounds; Benders cuts and other generators are assumed to be right. -/
theorem qg_relaxed_partial {σ : Type} {T : Bab.Search.Tree σ} {ready : σ → Prop} (hT : Lawful T ready) {P : Prob} {L : Pt P → Prop} (hP : Convex P L) (hE : Plain P L)
    (w : Qg.World (Pt P) Cut) (dual : Pt P → ℕ → ℚ) (theta : ℚ) (lp : Bool) (mu : ℚ) (hmu : 0 ≤ mu) (hw : w.oa = fun xh x => cutsAt P (dual x) none theta lp xh) (hL : ∀ x, L (w.nlp x).pt)
    (hs : QgSolvers P w) (hx : LpExact P w) (ht : 0 ≤ w.tol) (ht1 : w.tol ≤ 1 / 10) (hmem : Qg.Memoryless w) (hF : ∀ x, FirstOrderR P w.ints (w.nlp x) (dual x) mu)
    (hben : ∀ b rows v x, (∀ c ∈ w.benders (w.nlp x).pt, c ∈ rows) → ((w.nlp x).optimal = true → v ≤ (w.nlp x).obj) → Qg.Below w b rows v →
      w.ints (w.lp b rows v).pt = w.ints (w.nlp x).pt → v - mu ≤ (w.lp b rows v).obj)
    (b0 : Box) (cut0 : ℚ) (opt : Qg.Opt) (hf : Qg.Found w (minlp P) (fun c y => Sat P.T.inf c y.1) opt.eps b0) (hd : 0 ≤ opt.decr) (h0 : 0 ≤ opt.eps) (h1 : opt.eps ≤ 1) (g : Gaps) (n : ℕ)
    (pool : List Cut) (hpool : ∀ c ∈ pool, ∀ y, Feas P y → Sat P.T.inf c y.1)
    (hp : 2 * (b0.map (fun p => (p.2 - p.1 + 1).toNat)).prod + 1 ≤ opt.passes) (hn : 2 * (2 ^ width b0 - 1) ≤ n) :
    ∃ st, Qg.search T w opt cut0 g n pool b0 = .done st ∧
      (∀ v x, st.inc = some (v, x) → v = P.F x.1 ∧ Feas P x ∧ InBox b0 (w.ints x) ∧ Whole (w.ints x) ∧ v < cut0) ∧
      ∀ y, Feas P y → InBox b0 (w.ints y) → Whole (w.ints y) →
        (∃ b ∈ st.lost, InBox b (w.ints y) ∧ Beside w (minlp P) (fun c y => Sat P.T.inf c y.1) (Qg.thr opt cut0 st.inc) b) ∨
        (∀ v x, st.inc = some (v, x) → v - opt.decr - mu ≤ P.F y.1 ∨ v - opt.eps * |v| - mu ≤ P.F y.1 ∨ v - P.F y.1 < testGap g v (T.bound st.tree)) ∧
          (st.inc = none → cut0 - mu ≤ P.F y.1) := by
  have hr := right_of_convex hP w dual false theta lp (by simpa using hw) hL hs
  obtain ⟨st, hst⟩ := Qg.qg_finite_again hT w (minlp P) (fun c y => Sat P.T.inf c y.1) hr ht b0 cut0 opt hf hd h0 h1 g n pool hpool hmem ht1 hp hn
  obtain ⟨e1, -, e3⟩ := Qg.qg_sound_partial hT w (minlp P) (fun c y => Sat P.T.inf c y.1) hr ht b0 cut0 opt hf hd h0 h1 g n pool hpool st hst
  have hlost := Qg.qg_lost hT w (minlp P) (fun c y => Sat P.T.inf c y.1) hr ht b0 cut0 opt hf hd h0 h1 g n pool hpool st hst
  refine ⟨st, hst, fun v x hi => ?_, fun y a b c => ?_⟩
  · obtain ⟨a1, a2, a3⟩ := e1 v x hi
    exact ⟨a1, a2.1, a2.2.1, a2.2.2, a3⟩
  · rcases e3 y ⟨a, b, c⟩ with ⟨bx, hb, hin⟩ | h'
    · rcases lost_margin hP hE w dual theta lp mu hw hL hs hx hF hben _ bx (hlost bx hb) with hbe | hm
      · exact Or.inl ⟨bx, hb, hin, hbe⟩
      · right
        have := hm y a hin
        refine ⟨fun v x hi => ?_, fun hi => ?_⟩
        · rw [hi] at this
          simp only [Qg.thr] at this
          rcases min_choice (v - opt.decr) (v - opt.eps * |v|) with hc | hc
          · rw [hc] at this; exact Or.inl this
          · rw [hc] at this; exact Or.inr (Or.inl this)
        · rw [hi] at this
          exact this
    · right
      refine ⟨fun v x hi => ?_, fun hi => ?_⟩
      · rw [hi] at h'
        rcases h' with h' | h' | h'
        · change v - opt.decr ≤ P.F y.1 at h'
          exact Or.inl (by linarith)
        · change v - opt.eps * |v| ≤ P.F y.1 at h'
          exact Or.inr (Or.inl (by linarith))
        · exact Or.inr (Or.inr h')
      · rw [hi] at h'
        change cut0 ≤ P.F y.1 at h'
        linarith

/-! ## LPs in one unknown -/

/-- The interval of the unknown after one more row with coefficient `co c`. -/
def narrow (inf : ℚ) (co : Cut → ℚ) (p : ℚ × ℚ) (c : Cut) : ℚ × ℚ :=
  if co c = 0 then (if (c.lb ≤ -inf ∨ c.lb ≤ 0) ∧ (inf ≤ c.ub ∨ 0 ≤ c.ub) then p else (1, 0)) else
  if 0 < co c then (if c.lb ≤ -inf then p.1 else max p.1 (c.lb / co c), if inf ≤ c.ub then p.2 else min p.2 (c.ub / co c)) else
  (if inf ≤ c.ub then p.1 else max p.1 (c.ub / co c), if c.lb ≤ -inf then p.2 else min p.2 (c.lb / co c))

theorem narrow_iff (inf : ℚ) (co : Cut → ℚ) (p : ℚ × ℚ) (c : Cut) (t : ℚ) : ((narrow inf co p c).1 ≤ t ∧ t ≤ (narrow inf co p c).2) ↔
    (p.1 ≤ t ∧ t ≤ p.2) ∧ (c.lb ≤ -inf ∨ c.lb ≤ co c * t) ∧ (inf ≤ c.ub ∨ co c * t ≤ c.ub) := by
  unfold narrow
  split
  · rename_i h
    rw [h, zero_mul]
    split
    · rename_i h2; exact ⟨fun h => ⟨h, h2⟩, fun h => h.1⟩
    · rename_i h2
      constructor
      · intro h; dsimp only at h; linarith [h.1, h.2]
      · intro h; exact absurd h.2 h2
  · split
    · rename_i h
      dsimp only
      have a1 : c.lb / co c ≤ t ↔ c.lb ≤ co c * t := by rw [div_le_iff₀ h, mul_comm]
      have a2 : t ≤ c.ub / co c ↔ co c * t ≤ c.ub := by rw [le_div_iff₀ h, mul_comm]
      by_cases h1 : c.lb ≤ -inf <;> by_cases h2 : inf ≤ c.ub <;> simp only [h1, h2, if_true, if_false, max_le_iff, le_min_iff, a1, a2, true_or, false_or, and_true] <;> tauto
    · rename_i h0 h
      have h : co c < 0 := lt_of_le_of_ne (not_lt.mp h) h0
      dsimp only
      have a1 : c.ub / co c ≤ t ↔ co c * t ≤ c.ub := by rw [div_le_iff_of_neg h, mul_comm]
      have a2 : t ≤ c.lb / co c ↔ c.lb ≤ co c * t := by rw [le_div_iff_of_neg h, mul_comm]
      by_cases h1 : c.lb ≤ -inf <;> by_cases h2 : inf ≤ c.ub <;> simp only [h1, h2, if_true, if_false, max_le_iff, le_min_iff, a1, a2, true_or, false_or, and_true] <;> tauto

theorem narrows_iff (inf : ℚ) (co : Cut → ℚ) (rows : List Cut) (t : ℚ) : ∀ p : ℚ × ℚ, ((rows.foldl (narrow inf co) p).1 ≤ t ∧ t ≤ (rows.foldl (narrow inf co) p).2) ↔
    (p.1 ≤ t ∧ t ≤ p.2) ∧ ∀ c ∈ rows, (c.lb ≤ -inf ∨ c.lb ≤ co c * t) ∧ (inf ≤ c.ub ∨ co c * t ≤ c.ub) := by
  induction rows with
  | nil => intro p; simp
  | cons c rows ih =>
    intro p
    rw [List.foldl_cons, ih, narrow_iff]
    simp only [List.mem_cons, forall_eq_or_imp]
    tauto

/-- The least value of the interval, if there is one. -/
def least (inf : ℚ) (co : Cut → ℚ) (p : ℚ × ℚ) (rows : List Cut) : Option ℚ :=
  if (rows.foldl (narrow inf co) p).1 ≤ (rows.foldl (narrow inf co) p).2 then some (rows.foldl (narrow inf co) p).1 else none

theorem least_some (inf : ℚ) (co : Cut → ℚ) (p : ℚ × ℚ) (rows : List Cut) (t : ℚ) : least inf co p rows = some t ↔
    ((p.1 ≤ t ∧ t ≤ p.2) ∧ ∀ c ∈ rows, (c.lb ≤ -inf ∨ c.lb ≤ co c * t) ∧ (inf ≤ c.ub ∨ co c * t ≤ c.ub)) ∧
    ∀ s, (p.1 ≤ s ∧ s ≤ p.2) → (∀ c ∈ rows, (c.lb ≤ -inf ∨ c.lb ≤ co c * s) ∧ (inf ≤ c.ub ∨ co c * s ≤ c.ub)) → t ≤ s := by
  unfold least
  constructor
  · intro h
    split at h
    · rename_i hle
      have := Option.some.inj h
      subst this
      exact ⟨(narrows_iff inf co rows _ p).mp ⟨le_rfl, hle⟩, fun s h1 h2 => ((narrows_iff inf co rows s p).mpr ⟨h1, h2⟩).1⟩
    · cases h
  · rintro ⟨h1, h2⟩
    obtain ⟨a1, a2⟩ := (narrows_iff inf co rows t p).mpr h1
    have hle := a1.trans a2
    rw [if_pos hle]
    obtain ⟨b1, b2⟩ := (narrows_iff inf co rows _ p).mp ⟨le_rfl, hle⟩
    exact congrArg some (le_antisymm a1 (h2 _ b1 b2))

theorem least_none (inf : ℚ) (co : Cut → ℚ) (p : ℚ × ℚ) (rows : List Cut) (h : least inf co p rows = none) (s : ℚ) :
    ¬ ((p.1 ≤ s ∧ s ≤ p.2) ∧ ∀ c ∈ rows, (c.lb ≤ -inf ∨ c.lb ≤ co c * s) ∧ (inf ≤ c.ub ∨ co c * s ≤ c.ub)) := by
  intro hs
  obtain ⟨a1, a2⟩ := (narrows_iff inf co rows s p).mpr hs
  unfold least at h
  rw [if_pos (a1.trans a2)] at h
  cases h

theorem least_congr (inf : ℚ) (co : Cut → ℚ) (p : ℚ × ℚ) (rows rows' : List Cut) (h : ∀ c, c ∈ rows ↔ c ∈ rows') : least inf co p rows = least inf co p rows' := by
  cases h1 : least inf co p rows with
  | none =>
    cases h2 : least inf co p rows' with
    | none => rfl
    | some t =>
      obtain ⟨⟨a, b⟩, _⟩ := (least_some inf co p rows' t).mp h2
      exact absurd ⟨a, fun c hc => b c ((h c).mp hc)⟩ (least_none inf co p rows h1 t)
  | some t =>
    obtain ⟨⟨a, b⟩, d⟩ := (least_some inf co p rows t).mp h1
    exact ((least_some inf co p rows' t).mpr ⟨⟨a, fun c hc => b c ((h c).mpr hc)⟩, fun s h3 h4 => d s h3 fun c hc => h4 c ((h c).mp hc)⟩).symm

/-! ## A case where the margin is used

The integer `y` is fixed to 0, `x ∈ [0, 10]`; minimise `x` with `-x ≤ -2`, right-hand sides relaxed by 1e-8; the objective variable has index 2. -/

/-- The problem. -/
def rlP : Prob where
  T := ⟨10 ^ 30, 10 ^ 20, 1 / 10 ^ 6, 1 / 10 ^ 17, 1 / 10 ^ 8⟩
  vt := 1 / 10 ^ 15
  n := 2
  cl := fun j => if j = 2 then -10 ^ 30 else 0
  cu := fun j => if j = 1 then 10 else if j = 2 then 10 ^ 30 else 0
  m := 1
  nonlin := fun _ => true
  rl := fun _ => -10 ^ 30
  ru := fun _ => -2
  G := fun _ y => -y 1
  jac := fun _ => [(0, 1, -1)]
  F := fun y => y 1
  grad := fun _ => [(1, 1)]

/-- The point with `x` and the objective variable at `t`, moved into its bounds. -/
def rlPt (t : ℚ) : Pt rlP := ⟨fun j => if j = 1 ∨ j = 2 then min 10 (max 0 t) else 0, by
  intro j
  rcases j with _ | _ | _ | j
  · norm_num [rlP]
  · exact ⟨fun _ => by simp [rlP], fun _ => by simp [rlP]⟩
  · constructor <;> intro h <;> exact absurd h (by norm_num [rlP])
  · exact ⟨fun _ => by simp [rlP], fun _ => by simp [rlP]⟩⟩

/-- The coefficient of a row on `x` and the objective variable together. -/
def rlCo (c : Cut) : ℚ := ((c.co.filter (fun e => decide (e.1 = 1 ∨ e.1 = 2))).map (fun e => e.2)).sum

/-- The LP: the least `x`. -/
def rlLp (b : Box) (rows : List Cut) : LpAns (Pt rlP) :=
  match b with
  | [p] => if p.1 ≤ 0 ∧ 0 ≤ p.2 then (match least rlP.T.inf rlCo (0, 10) rows with
      | some t => ⟨true, false, t, rlPt t⟩
      | none => ⟨false, false, 0, rlPt 0⟩) else ⟨false, false, 0, rlPt 0⟩
  | _ => ⟨false, false, 0, rlPt 0⟩

/-- The solvers and the cuts of the interface (also in the place of the Benders cuts). -/
def rlW : Qg.World (Pt rlP) Cut where
  ints := fun x => [x.1 0]
  lp := fun b rows _ => rlLp b rows
  nlp := fun _ => ⟨true, 2, rlPt 2⟩
  oa := fun xh _ => cutsAt rlP (fun _ => 1) none 0 false xh
  benders := fun xh => cutsAt rlP (fun _ => 1) none 0 false xh
  extra := fun _ _ => []
  heur := fun _ _ _ => none
  quit := fun _ _ _ => none
  tol := 1 / 10 ^ 6
  choose := fun _ => 0
  upFirst := fun _ => false
  guess := fun _ => 0
  picks := fun _ _ => 0

theorem rl_at {t : ℚ} (h : 0 ≤ t ∧ t ≤ 10) : (rlPt t).1 0 = 0 ∧ (rlPt t).1 1 = t ∧ (rlPt t).1 2 = t := by
  simp [rlPt, h.1, h.2]

theorem rl_act (co : List (ℕ × ℚ)) {t : ℚ} (h : 0 ≤ t ∧ t ≤ 10) : act co (rlPt t).1 = ((co.filter (fun e => decide (e.1 = 1 ∨ e.1 = 2))).map (fun e => e.2)).sum * t := by
  induction co with
  | nil => simp [act]
  | cons e co ih =>
    have he : act (e :: co) (rlPt t).1 = e.2 * (rlPt t).1 e.1 + act co (rlPt t).1 := by simp [act]
    rw [he, ih, List.filter_cons]
    by_cases hk : e.1 = 1 ∨ e.1 = 2
    · have : (rlPt t).1 e.1 = t := by
        rcases hk with hk | hk
        · rw [hk]; exact (rl_at h).2.1
        · rw [hk]; exact (rl_at h).2.2
      simp only [hk, decide_true, if_true, List.map_cons, List.sum_cons, this]; ring
    · have : (rlPt t).1 e.1 = 0 := by simp only [rlPt, hk, if_false]
      simp only [hk, decide_false, Bool.false_eq_true, if_false, this]; ring

theorem rl_sat (c : Cut) {t : ℚ} (h : 0 ≤ t ∧ t ≤ 10) : Sat rlP.T.inf c (rlPt t).1 ↔ (c.lb ≤ -rlP.T.inf ∨ c.lb ≤ rlCo c * t) ∧ (rlP.T.inf ≤ c.ub ∨ rlCo c * t ≤ c.ub) := by
  unfold Sat rlCo
  rw [rl_act c.co h]

theorem rl_cols (y : Pt rlP) : y.1 0 = 0 ∧ (0 ≤ y.1 1 ∧ y.1 1 ≤ 10) ∧ ∀ j, 3 ≤ j → y.1 j = 0 := by
  have hb : ∀ j, rlP.cl j = 0 → rlP.cu j = 0 → y.1 j = 0 := by
    intro j h1 h2
    have a := (y.2 j).1 (by rw [h1]; norm_num [rlP])
    have b := (y.2 j).2 (by rw [h2]; norm_num [rlP])
    rw [h1] at a
    rw [h2] at b
    exact le_antisymm b a
  refine ⟨hb 0 (by simp [rlP]) (by simp [rlP]), ⟨(y.2 1).1 (by norm_num [rlP]), (y.2 1).2 (by norm_num [rlP])⟩, fun j hj => hb j ?_ ?_⟩
  · simp only [rlP]
    rw [if_neg (by omega)]
  · simp only [rlP]
    rw [if_neg (by omega), if_neg (by omega)]

theorem rl_feas (y : Pt rlP) : Feas rlP y ↔ 2 ≤ y.1 1 ∧ y = rlPt (y.1 1) := by
  obtain ⟨c0, c1, c3⟩ := rl_cols y
  have e : y = rlPt (y.1 1) ↔ y.1 2 = y.1 1 := by
    constructor
    · intro h
      have := congrArg (fun z : Pt rlP => z.1 2) h
      exact this.trans (rl_at c1).2.2
    · intro h
      apply Subtype.ext
      funext j
      obtain ⟨a0, a1, a2⟩ := rl_at c1
      rcases j with _ | _ | _ | j
      · rw [c0, a0]
      · exact a1.symm
      · exact h.trans a2.symm
      · rw [c3 _ (by omega)]
        simp [rlPt]
  rw [e]
  constructor
  · intro h
    have : -y.1 1 ≤ -2 := (h.1 0 (by norm_num [rlP])).1 (by norm_num [rlP])
    exact ⟨by linarith, h.2.symm⟩
  · rintro ⟨h1, h2⟩
    refine ⟨fun i _ => ⟨fun _ => ?_, fun h => absurd h (by norm_num [rlP])⟩, h2.symm⟩
    change -y.1 1 ≤ -2
    linarith

/-- What the LP answers. -/
theorem rl_lp (b : Box) (rows : List Cut) : (rlLp b rows).limit = false ∧ ((rlLp b rows).optimal = true →
    ∃ t, (0 ≤ t ∧ t ≤ 10) ∧ (∀ c ∈ rows, Sat rlP.T.inf c (rlPt t).1) ∧ InBox b [0] ∧ rlLp b rows = ⟨true, false, t, rlPt t⟩ ∧
      ∀ s, (0 ≤ s ∧ s ≤ 10) → (∀ c ∈ rows, Sat rlP.T.inf c (rlPt s).1) → t ≤ s) ∧
    ((rlLp b rows).optimal = false → InBox b [0] → ∀ s, (0 ≤ s ∧ s ≤ 10) → ¬ ∀ c ∈ rows, Sat rlP.T.inf c (rlPt s).1) := by
  have hone : ∀ b : Box, InBox b [0] → ∃ p : ℤ × ℤ, b = [p] ∧ p.1 ≤ 0 ∧ 0 ≤ p.2 := by
    intro b hb
    obtain ⟨p, rfl⟩ : ∃ p, b = [p] := List.length_eq_one_iff.mp (by simpa using hb.1.symm)
    obtain ⟨h1, h2⟩ := (Qg.inBox_one p.1 p.2 0).mp hb
    exact ⟨p, rfl, by exact_mod_cast h1, by exact_mod_cast h2⟩
  by_cases hb : InBox b [0]
  · obtain ⟨p, rfl, hp⟩ := hone b hb
    cases hl : least rlP.T.inf rlCo (0, 10) rows with
    | none =>
      have e : rlLp [p] rows = ⟨false, false, 0, rlPt 0⟩ := by simp only [rlLp, if_pos hp, hl]
      rw [e]
      refine ⟨rfl, by simp, fun _ _ s hs hc => ?_⟩
      exact least_none _ _ _ _ hl s ⟨hs, fun c h => (rl_sat c hs).mp (hc c h)⟩
    | some t =>
      have e : rlLp [p] rows = ⟨true, false, t, rlPt t⟩ := by simp only [rlLp, if_pos hp, hl]
      obtain ⟨⟨h1, h2⟩, h3⟩ := (least_some _ _ _ _ _).mp hl
      rw [e]
      exact ⟨rfl, fun _ => ⟨t, h1, fun c hc => (rl_sat c h1).mpr (h2 c hc), hb, rfl, fun s hs hc => h3 s hs fun c h => (rl_sat c hs).mp (hc c h)⟩, by simp⟩
  · have e : rlLp b rows = ⟨false, false, 0, rlPt 0⟩ := by
      rcases b with _ | ⟨p, _ | ⟨q, b⟩⟩
      · rfl
      · have : ¬ (p.1 ≤ 0 ∧ 0 ≤ p.2) := fun h => hb ((Qg.inBox_one p.1 p.2 0).mpr ⟨by exact_mod_cast h.1, by exact_mod_cast h.2⟩)
        simp only [rlLp, if_neg this]
      · rfl
    rw [e]
    exact ⟨rfl, by simp, fun _ h => absurd h hb⟩

/-- The points linearised at. -/
def rlL (x : Pt rlP) : Prop := x = rlPt 2

theorem rl_convex : Convex rlP rlL where
  inf := by norm_num [rlP]
  relax := by norm_num [rlP]
  rows := by
    intro x t ht
    have : t = (0, 1, -1) := by simpa [rlP] using ht
    subst this; norm_num [rlP]
  up := by
    intro i hi _ _ x y
    have : i = 0 := by simpa [rlP] using hi
    subst this
    simp [expand, rlP, rowEntries, lin]
  lo := by intro i _ _ h; exact absurd h (by norm_num [rlP])
  obj := by intro x y; simp [rlP, lin]
  jacBig := by
    intro x _ t ht
    have : t = (0, 1, -1) := by simpa [rlP] using ht
    subst this; norm_num [rlP]
  gradBig := by
    intro x _ e he
    have : e = (1, 1) := by simpa [rlP] using he
    subst this; norm_num [rlP]

theorem rl_entries (x : Pt rlP) : rowEntries (rlP.jac x.1) 0 = [(1, -1)] := by simp [rowEntries, rlP]

theorem rl_relaxBy (x : Pt rlP) : relaxBy rlP x 0 = 2 / 10 ^ 8 := by
  rw [relaxBy_big (by rw [rl_entries]; norm_num [rlP]), rl_entries]
  have : rlP.ru 0 - rlP.G 0 x.1 + act [(1, -1)] x.1 = -2 := by simp [rlP, act]
  rw [this]
  norm_num [rlP]

theorem rl_plainB : PlainBig rlP rlL where
  tols := by norm_num [rlP]
  jacBig := by
    intro x _ t ht
    have : t = (0, 1, -1) := by simpa [rlP] using ht
    subst this; norm_num [rlP]
  gradBig := by
    intro x _ e he
    have : e = (1, 1) := by simpa [rlP] using he
    subst this; norm_num [rlP]
  upFin := by
    intro i hi _ x hx p hp
    have : i = 0 := by simpa [rlP] using hi
    subst this
    rw [rl_entries] at hp
    have hp' : p ∈ [[], [(1, (-1 : ℚ))]] := by
      have := (List.mem_inits p _).mpr hp
      simpa using this
    have hx : x = rlPt 2 := hx
    subst hx
    fin_cases hp' <;> norm_num [rlP, act, rlPt]
  upRelax := by
    intro i hi _ x hx
    have : i = 0 := by simpa [rlP] using hi
    subst this
    have hx : x = rlPt 2 := hx
    subst hx
    rw [rl_relaxBy, rl_entries]
    norm_num [rlP, act, rlPt]
  loFin := by intro i _ h; exact absurd h (by norm_num [rlP])
  objFin := by intro x _; simp [rlP, act]

theorem rl_plain : Plain rlP rlL := rl_plainB.plain

theorem rl_two : (rlPt 2).1 0 = 0 ∧ (rlPt 2).1 1 = 2 ∧ (rlPt 2).1 2 = 2 := rl_at ⟨by norm_num, by norm_num⟩

theorem rl_solvers : QgSolvers rlP rlW where
  lpNone := by
    intro b rows v h y hy hb hr
    obtain ⟨l1, _, l3⟩ := rl_lp b rows
    have ho : (rlLp b rows).optimal = false := by
      cases hc : (rlLp b rows).optimal with
      | false => rfl
      | true => exact absurd ⟨hc, l1⟩ h
    obtain ⟨c0, c1, _⟩ := rl_cols y
    have he := ((rl_feas y).mp hy).2
    refine absurd ?_ (l3 ho (by rw [← c0]; exact hb) _ c1)
    rw [← he]
    exact hr
  lpBound := by
    intro b rows v h _ y hy hb hr
    obtain ⟨t, _, _, _, h4, h5⟩ := (rl_lp b rows).2.1 h
    obtain ⟨c0, c1, _⟩ := rl_cols y
    have he := ((rl_feas y).mp hy).2
    change (rlLp b rows).obj ≤ y.1 1
    rw [h4]
    refine h5 _ c1 ?_
    rw [← he]
    exact hr
  lpBox := by
    intro b rows v h _
    obtain ⟨t, h1, _, h3, h4, _⟩ := (rl_lp b rows).2.1 h
    change InBox b [(rlLp b rows).pt.1 0]
    rw [h4, (rl_at h1).1]
    exact h3
  benders := fun x y hy => (cuts_hold rl_convex (fun _ => 1) none 0 false _ y rfl hy).2
  extra := by intro b rows _ c hc; simp [rlW] at hc
  nlpInts := fun x => by
    change [(rlPt 2).1 0] = [((round (x.1 0) : ℤ) : ℚ)]
    rw [rl_two.1, (rl_cols x).1]
    norm_num
  nlpOpt := fun x _ => ⟨(rl_feas _).mpr ⟨rl_two.2.1.ge, by change rlPt 2 = rlPt ((rlPt 2).1 1); rw [rl_two.2.1]⟩, rl_two.2.1.symm⟩

theorem rl_lpExact : LpExact rlP rlW := by
  intro b rows v h _
  obtain ⟨t, h1, h2, _, h4, _⟩ := (rl_lp b rows).2.1 h
  change (∀ c ∈ rows, Sat rlP.T.inf c (rlLp b rows).pt.1) ∧ _ ∧ (rlLp b rows).obj = (rlLp b rows).pt.1 2
  rw [h4]
  exact ⟨h2, fun i _ hn => absurd hn (by simp [rlP]), (rl_at h1).2.2.symm⟩

theorem rl_first (x : Pt rlP) : FirstOrderR rlP rlW.ints (rlW.nlp x) (fun _ => 1) (2 / 10 ^ 8) where
  opt := by
    intro _
    have hm : List.range rlP.m = [0] := rfl
    refine ⟨fun _ => 1, 0, ⟨?_, ?_, ?_⟩, ?_⟩
    · intro z _ _
      rw [hm]
      simp only [List.map_cons, List.map_nil, List.sum_cons, List.sum_nil, rl_entries]
      simp [rlP, lin]
    · intro i hi _ _
      have : i = 0 := by simpa [rlP] using hi
      subst this
      exact ⟨by norm_num [rlP, rowAt], fun _ => by norm_num [rowAt]⟩
    · intro i _ _ h
      norm_num at h
    · unfold margin
      rw [hm, dropBy_big (P := rlP) (es := rlP.grad _) (by norm_num [rlP])]
      simp only [List.map_cons, List.map_nil, List.sum_cons, List.sum_nil, rl_relaxBy, rl_entries]
      rw [dropBy_big (P := rlP) (es := [(1, -1)]) (by norm_num [rlP])]
      have : rlP.G 0 (rlW.nlp x).pt.1 = -2 := by
        change -(rlPt 2).1 1 = -2
        rw [rl_two.2.1]
      rw [this]
      norm_num [rlP]
  none := by intro h; cases h

theorem rl_memoryless : Qg.Memoryless rlW where
  lp := by
    intro b rows rows' v h
    change rlLp b rows = rlLp b rows'
    unfold rlLp
    rw [least_congr _ _ _ _ _ h]
  nlp := fun _ _ _ => ⟨rfl, rfl⟩

/-- The example meets all assumptions of `qg_relaxed_partial` with a positive margin: after the NLP gave 2 the LP proposes `y = 0` again with the value `2 - 2e-8` below the cutoff `2 - 2e-10`, and the root is dropped; the best
solution is 2, and nothing is better than it by more than the increment and the margin. -/
example : (Qg.search (diveTree false (10 ^ 50)) rlW ⟨1 / 10 ^ 10, 0, 100, true, 3⟩ (10 ^ 50) ⟨0, 0⟩ 0 [] [(0, 0)]).view.map (fun v => (v.1, v.2.1.map (fun p => p.1), v.2.2)) = some (true, some 2, [[(0, 0)]]) ∧
    ∃ st, Qg.search (diveTree false (10 ^ 50)) rlW ⟨1 / 10 ^ 10, 0, 100, true, 3⟩ (10 ^ 50) ⟨0, 0⟩ 0 [] [(0, 0)] = .done st ∧
      ∀ y, Feas rlP y → ∀ v x, st.inc = some (v, x) → v - 1 / 10 ^ 10 * |v| - 2 / 10 ^ 8 ≤ rlP.F y.1 := by
  refine ⟨by decide +kernel, ?_⟩
  obtain ⟨st, h1, -, h3⟩ := qg_relaxed_partial (diveTree_lawful false (10 ^ 50)) rl_convex rl_plain rlW (fun _ _ => 1) 0 false (2 / 10 ^ 8) (by norm_num) rfl (fun x => rfl) rl_solvers rl_lpExact
    (by norm_num [rlW]) (by norm_num [rlW]) rl_memoryless rl_first (by
      intro b rows v x hb hv hbel hi
      obtain ⟨a1, a2, a3⟩ := rl_lpExact b rows v hbel.1 hbel.2.1
      rw [a3]
      exact (no_return_relaxed rl_convex.toShape rl_plain rlW.ints (rlW.nlp x) (fun _ => 1) (2 / 10 ^ 8) 0 false (rl_first x) rfl (fun ho => (rl_solvers.nlpOpt x ho).2) v hv _ hi
        (fun c hc => a1 c (hb c hc)) a2).2) [(0, 0)] (10 ^ 50) ⟨1 / 10 ^ 10, 0, 100, true, 3⟩ ⟨fun b rows v u x h => by simp [rlW] at h, fun b rows v s _ h => by simp [rlW] at h⟩ le_rfl
      (by norm_num) (by norm_num) ⟨0, 0⟩ 0 [] (by simp) (by norm_num) (by decide +kernel)
  refine ⟨st, h1, fun y hy v x hi => ?_⟩
  obtain ⟨c0, _, _⟩ := rl_cols y
  rcases h3 y hy (by change InBox [(0, 0)] [y.1 0]; rw [c0, Qg.inBox_one]; norm_num) (by
      intro a ha
      have : a = y.1 0 := by simpa [rlW] using ha
      exact ⟨0, by rw [this, c0]; norm_num⟩) with ⟨b, _, _, rows, v', x', _, _, _, hbel, _, hne⟩ | h
  · refine absurd ?_ hne
    change [_] = [_]
    rw [(rl_cols _).1, (rl_cols _).1]
  · have := mul_nonneg (by norm_num : (0 : ℚ) ≤ 1 / 10 ^ 10) (abs_nonneg v)
    rcases h.1 v x hi with h' | h' | h'
    · dsimp only at h'; linarith
    · exact h'
    · simp only [testGap, mul_zero, max_self] at h'
      linarith

/-! ## An NLP infeasible by less than the relaxation

The problem `bigP`: minimise the integer `y ∈ [10^6, 10^6 + 1]` with `-y ≤ -1000000.005`, the cut relaxed by 0.01. -/

/-- The point with `y` and the objective variable at `t`, moved into its bounds. -/
def bgPt (t : ℚ) : Pt bigP := ⟨fun j => if j ≤ 1 then min (10 ^ 6 + 1) (max (10 ^ 6) t) else 0, by
  intro j
  rcases j with _ | _ | j
  · exact ⟨fun _ => by norm_num [bigP], fun _ => by norm_num [bigP]⟩
  · constructor <;> intro h <;> exact absurd h (by norm_num [bigP])
  · exact ⟨fun _ => by simp [bigP], fun _ => by simp [bigP]⟩⟩

/-- The coefficient of a row on `y` and the objective variable together. -/
def bgCo (c : Cut) : ℚ := ((c.co.filter (fun e => decide (e.1 ≤ 1))).map (fun e => e.2)).sum

/-- The LP: the least `y`. -/
def bgLp (b : Box) (rows : List Cut) : LpAns (Pt bigP) :=
  match b with
  | [p] => (match least bigP.T.inf bgCo (max (10 ^ 6) p.1, min (10 ^ 6 + 1) p.2) rows with
      | some t => ⟨true, false, t, bgPt t⟩
      | none => ⟨false, false, 0, bgPt 0⟩)
  | _ => ⟨false, false, 0, bgPt 0⟩

/-- The solvers and the cuts of the interface (also in the place of the Benders cuts). -/
def bgW : Qg.World (Pt bigP) Cut where
  ints := fun x => [x.1 0]
  lp := fun b rows _ => bgLp b rows
  nlp := fun x => ⟨decide (10 ^ 6 + 5 / 1000 ≤ ((round (x.1 0) : ℤ) : ℚ)), ((round (x.1 0) : ℤ) : ℚ), bgPt ((round (x.1 0) : ℤ) : ℚ)⟩
  oa := fun xh _ => cutsAt bigP (fun _ => 1) none 0 false xh
  benders := fun xh => cutsAt bigP (fun _ => 1) none 0 false xh
  extra := fun _ _ => []
  heur := fun _ _ _ => none
  quit := fun _ _ _ => none
  tol := 0
  choose := fun _ => 0
  upFirst := fun _ => false
  guess := fun _ => 0
  picks := fun _ _ => 0

theorem bg_at {t : ℚ} (h : 10 ^ 6 ≤ t ∧ t ≤ 10 ^ 6 + 1) : (bgPt t).1 0 = t ∧ (bgPt t).1 1 = t := by
  simp only [bgPt, zero_le_one, le_refl, if_true]
  rw [max_eq_right h.1, min_eq_right h.2]
  exact ⟨rfl, rfl⟩

theorem bg_act (co : List (ℕ × ℚ)) {t : ℚ} (h : 10 ^ 6 ≤ t ∧ t ≤ 10 ^ 6 + 1) : act co (bgPt t).1 = ((co.filter (fun e => decide (e.1 ≤ 1))).map (fun e => e.2)).sum * t := by
  induction co with
  | nil => simp [act]
  | cons e co ih =>
    have he : act (e :: co) (bgPt t).1 = e.2 * (bgPt t).1 e.1 + act co (bgPt t).1 := by simp [act]
    rw [he, ih, List.filter_cons]
    by_cases hk : e.1 ≤ 1
    · have : (bgPt t).1 e.1 = t := by
        have : e.1 = 0 ∨ e.1 = 1 := by omega
        rcases this with hk | hk
        · rw [hk]; exact (bg_at h).1
        · rw [hk]; exact (bg_at h).2
      simp only [hk, decide_true, if_true, List.map_cons, List.sum_cons, this]; ring
    · have : (bgPt t).1 e.1 = 0 := by simp only [bgPt, hk, if_false]
      simp only [hk, decide_false, Bool.false_eq_true, if_false, this]; ring

theorem bg_sat (c : Cut) {t : ℚ} (h : 10 ^ 6 ≤ t ∧ t ≤ 10 ^ 6 + 1) :
    Sat bigP.T.inf c (bgPt t).1 ↔ (c.lb ≤ -bigP.T.inf ∨ c.lb ≤ bgCo c * t) ∧ (bigP.T.inf ≤ c.ub ∨ bgCo c * t ≤ c.ub) := by
  unfold Sat bgCo
  rw [bg_act c.co h]

theorem bg_feas (y : Pt bigP) : Feas bigP y ↔ 10 ^ 6 + 5 / 1000 ≤ y.1 0 ∧ y = bgPt (y.1 0) := by
  have c0 := big_cols y
  have e : y = bgPt (y.1 0) ↔ y.1 1 = y.1 0 := by
    constructor
    · intro h
      have := congrArg (fun z : Pt bigP => z.1 1) h
      exact this.trans (bg_at c0).2
    · intro h
      apply Subtype.ext
      funext j
      obtain ⟨a0, a1⟩ := bg_at c0
      rcases j with _ | _ | j
      · exact a0.symm
      · exact h.trans a1.symm
      · have a := (y.2 (j + 2)).1 (by simp [bigP])
        have b := (y.2 (j + 2)).2 (by simp [bigP])
        have : y.1 (j + 2) = 0 := le_antisymm (by simpa [bigP] using b) (by simpa [bigP] using a)
        rw [show j + 1 + 1 = j + 2 from rfl, this]
        simp [bgPt]
  rw [e]
  constructor
  · intro h
    exact ⟨big_feas h, h.2.symm⟩
  · rintro ⟨h1, h2⟩
    refine ⟨fun i _ => ⟨fun _ => ?_, fun h => absurd h (by norm_num [bigP])⟩, h2.symm⟩
    change -y.1 0 ≤ -(10 ^ 6 + 5 / 1000)
    linarith

theorem bg_lp (b : Box) (rows : List Cut) : (bgLp b rows).limit = false ∧ ((bgLp b rows).optimal = true →
    ∃ t, (10 ^ 6 ≤ t ∧ t ≤ 10 ^ 6 + 1) ∧ (∀ c ∈ rows, Sat bigP.T.inf c (bgPt t).1) ∧ InBox b [t] ∧ bgLp b rows = ⟨true, false, t, bgPt t⟩ ∧
      ∀ s, (10 ^ 6 ≤ s ∧ s ≤ 10 ^ 6 + 1) → InBox b [s] → (∀ c ∈ rows, Sat bigP.T.inf c (bgPt s).1) → t ≤ s) ∧
    ((bgLp b rows).optimal = false → ∀ s, (10 ^ 6 ≤ s ∧ s ≤ 10 ^ 6 + 1) → InBox b [s] → ¬ ∀ c ∈ rows, Sat bigP.T.inf c (bgPt s).1) := by
  have hno : b.length ≠ 1 → ∀ s, ¬ InBox b [s] := by
    intro h s hs
    exact h (by simpa using hs.1.symm)
  by_cases hb : b.length = 1
  · obtain ⟨p, rfl⟩ := List.length_eq_one_iff.mp hb
    have key : ∀ s : ℚ, (max (10 ^ 6) (p.1 : ℚ) ≤ s ∧ s ≤ min (10 ^ 6 + 1) (p.2 : ℚ)) ↔ (10 ^ 6 ≤ s ∧ s ≤ 10 ^ 6 + 1) ∧ InBox [p] [s] := by
      intro s
      rw [show [p] = [(p.1, p.2)] from rfl, Qg.inBox_one, max_le_iff, le_min_iff]
      tauto
    cases hl : least bigP.T.inf bgCo (max (10 ^ 6) (p.1 : ℚ), min (10 ^ 6 + 1) (p.2 : ℚ)) rows with
    | none =>
      have e : bgLp [p] rows = ⟨false, false, 0, bgPt 0⟩ := by simp only [bgLp, hl]
      rw [e]
      refine ⟨rfl, by simp, fun _ s hs hbx hc => ?_⟩
      exact least_none _ _ _ _ hl s ⟨(key s).mpr ⟨hs, hbx⟩, fun c h => (bg_sat c hs).mp (hc c h)⟩
    | some t =>
      have e : bgLp [p] rows = ⟨true, false, t, bgPt t⟩ := by simp only [bgLp, hl]
      obtain ⟨⟨h1, h2⟩, h3⟩ := (least_some _ _ _ _ _).mp hl
      obtain ⟨h1, hbx⟩ := (key t).mp h1
      rw [e]
      exact ⟨rfl, fun _ => ⟨t, h1, fun c hc => (bg_sat c h1).mpr (h2 c hc), hbx, rfl,
        fun s hs hbs hc => h3 s ((key s).mpr ⟨hs, hbs⟩) fun c h => (bg_sat c hs).mp (hc c h)⟩, by simp⟩
  · have e : bgLp b rows = ⟨false, false, 0, bgPt 0⟩ := by
      rcases b with _ | ⟨p, _ | ⟨q, b⟩⟩
      · rfl
      · exact absurd rfl hb
      · rfl
    rw [e]
    exact ⟨rfl, by simp, fun _ s _ h => absurd h (hno hb s)⟩

theorem bg_round (x : Pt bigP) : (10 ^ 6 ≤ ((round (x.1 0) : ℤ) : ℚ) ∧ ((round (x.1 0) : ℤ) : ℚ) ≤ 10 ^ 6 + 1) ∧ (bgW.nlp x).pt.1 0 = ((round (x.1 0) : ℤ) : ℚ) := by
  obtain ⟨h0, h5⟩ := big_cols x
  obtain ⟨a, b⟩ := Qg.round_in (lo := 10 ^ 6) (hi := 10 ^ 6 + 1) (by push_cast; exact h0) (by push_cast; linarith)
  have a' : ((10 ^ 6 : ℤ) : ℚ) ≤ ((round (x.1 0) : ℤ) : ℚ) := by exact_mod_cast a
  have b' : ((round (x.1 0) : ℤ) : ℚ) ≤ ((10 ^ 6 + 1 : ℤ) : ℚ) := by exact_mod_cast b
  push_cast at a' b'
  replace b' : ((round (x.1 0) : ℤ) : ℚ) ≤ 10 ^ 6 + 1 := by linarith
  exact ⟨⟨a', b'⟩, (bg_at ⟨a', b'⟩).1⟩

theorem bg_solvers : QgSolvers bigP bgW where
  lpNone := by
    intro b rows v h y hy hb hr
    obtain ⟨l1, _, l3⟩ := bg_lp b rows
    have ho : (bgLp b rows).optimal = false := by
      cases hc : (bgLp b rows).optimal with
      | false => rfl
      | true => exact absurd ⟨hc, l1⟩ h
    have he := ((bg_feas y).mp hy).2
    refine absurd ?_ (l3 ho _ (big_cols y) hb)
    rw [← he]
    exact hr
  lpBound := by
    intro b rows v h _ y hy hb hr
    obtain ⟨t, _, _, _, h4, h5⟩ := (bg_lp b rows).2.1 h
    have he := ((bg_feas y).mp hy).2
    change (bgLp b rows).obj ≤ y.1 0
    rw [h4]
    refine h5 _ (big_cols y) hb ?_
    rw [← he]
    exact hr
  lpBox := by
    intro b rows v h _
    obtain ⟨t, h1, _, h3, h4, _⟩ := (bg_lp b rows).2.1 h
    change InBox b [(bgLp b rows).pt.1 0]
    rw [h4, (bg_at h1).1]
    exact h3
  benders := fun x y hy => (cuts_hold big_convex (fun _ => 1) none 0 false _ y trivial hy).2
  extra := by intro b rows _ c hc; simp [bgW] at hc
  nlpInts := fun x => by
    change [(bgW.nlp x).pt.1 0] = [((round (x.1 0) : ℤ) : ℚ)]
    rw [(bg_round x).2]
  nlpOpt := by
    intro x h
    obtain ⟨r1, r0⟩ := bg_round x
    have h' : 10 ^ 6 + 5 / 1000 ≤ ((round (x.1 0) : ℤ) : ℚ) := by simpa only [bgW, decide_eq_true_eq] using h
    refine ⟨(bg_feas _).mpr ?_, r0.symm⟩
    rw [r0]
    exact ⟨h', rfl⟩

theorem bg_lpExact : LpExact bigP bgW := by
  intro b rows v h _
  obtain ⟨t, h1, h2, _, h4, _⟩ := (bg_lp b rows).2.1 h
  change (∀ c ∈ rows, Sat bigP.T.inf c (bgLp b rows).pt.1) ∧ _ ∧ (bgLp b rows).obj = (bgLp b rows).pt.1 1
  rw [h4]
  exact ⟨h2, fun i _ hn => absurd hn (by simp [bigP]), (bg_at h1).2.symm⟩

theorem bg_memoryless : Qg.Memoryless bgW where
  lp := by
    intro b rows rows' v h
    change bgLp b rows = bgLp b rows'
    unfold bgLp
    split
    · rw [least_congr _ _ _ _ _ h]
    · rfl
  nlp := by
    intro x x' h
    have hr : (round (x.1 0) : ℤ) = round (x'.1 0) := by simpa [bgW] using h
    have : bgW.nlp x = bgW.nlp x' := by simp only [bgW, hr]
    exact ⟨this, by rw [this]; rfl⟩

theorem bg_first (x : Pt bigP) : FirstOrder bigP bgW.ints (bgW.nlp x) (fun _ => 1) where
  opt := by
    intro _ z hz _
    have hz' : z.1 0 = (bgW.nlp x).pt.1 0 := by
      have : [z.1 0] = [(bgW.nlp x).pt.1 0] := hz
      simpa using this
    simp only [bigP, lin, List.map_cons, List.map_nil, List.sum_cons, List.sum_nil]
    rw [hz']
    simp
  none := by
    intro h z hz hl
    have hz' : z.1 0 = (bgW.nlp x).pt.1 0 := by
      have : [z.1 0] = [(bgW.nlp x).pt.1 0] := hz
      simpa using this
    have h' : ¬ 10 ^ 6 + 5 / 1000 ≤ ((round (x.1 0) : ℤ) : ℚ) := by simpa only [bgW, decide_eq_false_iff_not] using h
    have := ((hl 0 (by norm_num [bigP])).2 rfl).1 ⟨by norm_num [bigP, rowAt], fun _ => by norm_num [rowAt]⟩
    simp only [expand, bigP, rowEntries, lin, List.filter_cons] at this
    rw [(bg_round x).2] at hz'
    have e : (bgW.nlp x).pt.1 0 = z.1 0 := by rw [(bg_round x).2, hz']
    simp [e] at this
    rw [hz'] at this
    exact h' (by linarith)

/-- **C318 (refuted).**  With the relaxed right-hand sides B-QG can end as complete without a solution on a convex problem that has one, with exact solvers and no tolerance on integers: `y = 10^6` violates the row by 0.005, the NLP says
infeasible, but the cut, relaxed by 1e-8 times its right-hand side, still admits `y = 10^6`; the LP proposes it again, the checker takes the repetition for the end of the node and the root is dropped with the
solution `y = 10^6 + 1`. -/
theorem qg_relaxed_refuted :
    Convex bigP (fun _ => True) ∧ Plain bigP (fun _ => True) ∧ QgSolvers bigP bgW ∧ LpExact bigP bgW ∧ Qg.Memoryless bgW ∧ (∀ x, FirstOrder bigP bgW.ints (bgW.nlp x) (fun _ => 1)) ∧
    (bgW.oa = fun xh _ => cutsAt bigP (fun _ => 1) none 0 false xh) ∧
    (∃ st, Qg.search (diveTree false (10 ^ 50)) bgW ⟨0, 0, 100, true, 5⟩ (10 ^ 50) ⟨0, 0⟩ 2 [] [(10 ^ 6, 10 ^ 6 + 1)] = .done st ∧ st.inc = none ∧ st.lost = [[(10 ^ 6, 10 ^ 6 + 1)]]) ∧
    Sol bgW.ints (minlp bigP) [(10 ^ 6, 10 ^ 6 + 1)] (bgPt (10 ^ 6 + 1)) ∧ bigP.F (bgPt (10 ^ 6 + 1)).1 = 10 ^ 6 + 1 := by
  have hup : (bgPt (10 ^ 6 + 1)).1 0 = 10 ^ 6 + 1 := (bg_at ⟨by norm_num, le_rfl⟩).1
  refine ⟨big_convex, big_plain, bg_solvers, bg_lpExact, bg_memoryless, bg_first, rfl, ?_, ⟨(bg_feas _).mpr ⟨by rw [hup]; norm_num, by rw [hup]⟩, ?_, ?_⟩, hup⟩
  · have hrun : (Qg.search (diveTree false (10 ^ 50)) bgW ⟨0, 0, 100, true, 5⟩ (10 ^ 50) ⟨0, 0⟩ 2 [] [(10 ^ 6, 10 ^ 6 + 1)]).view.map (fun v => (v.1, v.2.1.isSome, v.2.2)) =
        some (true, false, [[(10 ^ 6, 10 ^ 6 + 1)]]) := by decide +kernel
    cases hc : Qg.search (diveTree false (10 ^ 50)) bgW ⟨0, 0, 100, true, 5⟩ (10 ^ 50) ⟨0, 0⟩ 2 [] [(10 ^ 6, 10 ^ 6 + 1)] with
    | done st =>
      rw [hc] at hrun
      simp only [Qg.End.view, Option.map_some, Option.some.injEq, Prod.mk.injEq] at hrun
      exact ⟨st, rfl, by simpa using hrun.2.1, hrun.2.2⟩
    | limit st => rw [hc] at hrun; simp [Qg.End.view] at hrun
    | stuck => rw [hc] at hrun; simp [Qg.End.view] at hrun
    | crash => rw [hc] at hrun; simp [Qg.End.view] at hrun
  · change InBox [(10 ^ 6, 10 ^ 6 + 1)] [(bgPt (10 ^ 6 + 1)).1 0]
    rw [hup, Qg.inBox_one]
    norm_num
  · intro a ha
    have : a = (bgPt (10 ^ 6 + 1)).1 0 := by simpa [bgW] using ha
    exact ⟨10 ^ 6 + 1, by rw [this, hup]; norm_num⟩

end Verif.Dec.Cvx

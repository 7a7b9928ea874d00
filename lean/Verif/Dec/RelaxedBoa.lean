import Verif.Dec.RelaxedQg
import Verif.Dec.BoaConvex
/-!
# C320: B-OA with relaxed right-hand sides

The OA decomposition at the root (BonOACutGenerator2.cpp:60-289) followed by the search with the feasibility checker (src/Algorithms/BonBonminSetup.cpp:655-667, 776-800), on problems whose cuts the interface
relaxes by `oa_rhs_relax` (BonOsiTMINLPInterface.cpp:2043-2044), with a MILP solver that stops within a gap.
-/
namespace Verif.Dec.Cvx
open Verif.Oa Verif.Div Verif.Bab.Search

/-- What is assumed of the call at the root: as `OaCall`, but with multipliers and relaxations up to `mu` and a MILP solver that stops within `mg`. -/
structure OaCallR (P : Prob) (ints : Pt P → List ℚ) (b0 : Box) (cut0 eps : ℚ) (L : Pt P → Prop) (o : Oracles (Pt P) Cut) (c : OaCfg) (dmax : ℚ) (dual : Pt P → ℕ → ℕ → ℚ)
    (theta : ℚ) (lp : Bool) (mu mg : ℚ) : Prop where
  cuts : o.cuts = fun xh x k => cutsAt P (dual x k) none theta lp xh
  pts : ∀ x k, L (o.nlp x k).pt
  solvers : OaSolversR P ints o mg
  first : ∀ x k, FirstOrderR P ints (o.nlp x k) (dual x k) mu
  box : ∀ y, Feas P y → InBox b0 (ints y)
  low : ∀ y, Feas P y → Whole (ints y) → -dmax ≤ P.F y.1
  eps : c.eps = eps
  gap : c.gapTol ≤ c.eps
  big : cut0 ≤ 10 ^ 50
  apart : ∀ y, Feas P y → Whole (ints y) → P.F y.1 ≤ cut0 - slack c.gapTol cut0 ∨ cut0 ≤ P.F y.1

/-- **C320.**  On convex problems with relaxed cuts, when the OA decomposition gives the root up, no solution is better than the one stored last by more than the increment, the margin of the multipliers and
the gap of the MILP solver; and the solution and all cuts handed over are right in any case. -/
theorem boa_root_relaxed {P : Prob} {L : Pt P → Prop} (hP : Convex P L) (hE : Plain P L) (ints : Pt P → List ℚ) (b0 : Box) (pool : List Cut) (cut0 eps : ℚ) (o : Oracles (Pt P) Cut) (c : OaCfg)
    (dmax : ℚ) (dual : Pt P → ℕ → ℕ → ℚ) (theta : ℚ) (lp : Bool) (mu mg : ℚ) (hmu : 0 ≤ mu) (hmg : 0 ≤ mg) (hc : OaCallR P ints b0 cut0 eps L o c dmax dual theta lp mu mg) (n nLocal nSols : ℕ)
    (hpool : ∀ k ∈ pool, ∀ y, Feas P y → Sat P.T.inf k y.1) (t : OaSt (Pt P) Cut) (h : performOa o c dmax n pool cut0 nLocal nSols = some (.inr t)) :
    (∀ k ∈ t.cuts, ∀ y, Feas P y → Sat P.T.inf k y.1) ∧
    (∀ u x, oaSol (fun y => P.F y.1) t = some (u, x) → u = P.F x.1 ∧ Sol ints (minlp P) b0 x ∧ u < cut0) ∧
    (10 ^ 50 ≤ t.bound → ∀ y, Feas P y → Whole (ints y) → Qg.kept eps cut0 (oaSol (fun y => P.F y.1) t) - (mu + mg) ≤ P.F y.1) := by
  have hf : ∀ x k, (o.nlp x k).optimal = true → P.F (o.nlp x k).pt.1 = (o.nlp x k).obj := fun x k ho => (hc.solvers.nlp x k ho).2
  have htr := oa_trail o c (fun y : Pt P => P.F y.1) hf dmax n pool cut0 nLocal nSols _ h
  change Trail o c pool cut0 _ t at htr
  obtain ⟨c1, c2, -, -, c5⟩ := oa_relaxed_partial hP hE ints o dual theta lp mu mg hmu hmg hc.cuts hc.pts hc.solvers hc.first c dmax n pool cut0
    (hc.big.trans (by norm_num)) nLocal nSols (fun k hk y hy _ => hpool k hk y hy) hc.low _ t h rfl
  refine ⟨?_, ?_, ?_⟩
  · obtain ⟨l, hl1, hl2⟩ := htr.cuts
    intro k hk y hy
    rw [hl1] at hk
    rcases List.mem_append.mp hk with hk | hk
    · exact hpool k hk y hy
    · obtain ⟨x, j, hk⟩ := hl2 k hk
      rw [hc.cuts] at hk
      exact (cuts_hold hP _ _ _ _ _ y (hc.pts x j) hy).2 k hk
  · intro u x hux
    rcases htr.last with ⟨e1, _, _⟩ | ⟨l, z, e1, e2, _, _, e5⟩
    · simp [oaSol, e1] at hux
    · simp only [oaSol, e1, List.getLast?_append, List.getLast?_singleton, Option.some_or, Option.map_some, Option.some.injEq, Prod.mk.injEq] at hux
      obtain ⟨rfl, rfl⟩ := hux
      obtain ⟨⟨f1, f2⟩, _⟩ := c2 z (by rw [e1]; simp)
      exact ⟨rfl, ⟨f1, hc.box z f1, f2⟩, by rw [e2]; exact e5⟩
  · intro hb y hy hw
    rcases htr.last with ⟨e1, e2, e3⟩ | ⟨l, z, e1, e2, e3, e4, e5⟩
    · have : oaSol (fun y : Pt P => P.F y.1) t = none := by simp [oaSol, e1]
      rw [this]
      change cut0 - (mu + mg) ≤ P.F y.1
      rcases c5 (by rw [e3]; exact hc.big.trans hb) y hy hw with h' | h'
      · rw [← e3]; exact h'
      · rw [e2] at h'
        rcases hc.apart y hy hw with h'' | h''
        · linarith
        · linarith
    · have hs : oaSol (fun y : Pt P => P.F y.1) t = some (P.F z.1, z) := by simp [oaSol, e1]
      have hz : P.F z.1 = t.ub := e2
      rw [hs]
      change P.F z.1 - eps * |P.F z.1| - (mu + mg) ≤ P.F y.1
      rw [hz]
      rw [newCutoff_eq, hc.eps] at e3 e4
      rcases c5 (by linarith [hc.big]) y hy hw with h' | h'
      · rw [← e3]; exact h'
      · have hne : t.ub ≠ 0 := by
          intro h0
          rw [h0] at e4
          simp at e4
        have hsl : slack c.gapTol t.ub ≤ eps * |t.ub| := by
          unfold slack
          rw [if_pos hne, ← hc.eps]
          exact mul_le_mul_of_nonneg_right hc.gap (abs_nonneg _)
        linarith

/-- **C320.**  B-OA on a convex problem with the relaxed cuts of the interface: if the OA decomposition at the root returns, the search ends; the best solution is one below the start cutoff; when the decomposition
gave the root up, it is the one stored last, and no box is dropped; and every solution is no better than the best one by more than the decrement or increment plus `mu` (plus the gap of the MILP solver when the
root was given up), or the gap of the search, or lies in a box dropped beside the integers of an NLP.  Missing for the full claim: as in C318. -/
theorem boa_relaxed_partial {σ : Type} {T : Bab.Search.Tree σ} {ready : σ → Prop} (hT : Lawful T ready) {P : Prob} {L : Pt P → Prop} (hP : Convex P L) (hE : Plain P L)
    (w : Qg.World (Pt P) Cut) (dual : Pt P → ℕ → ℚ) (theta : ℚ) (lp : Bool) (mu mg : ℚ) (hmu : 0 ≤ mu) (hmg : 0 ≤ mg) (hw : w.oa = fun xh x => cutsAt P (dual x) none theta lp xh) (hL : ∀ x, L (w.nlp x).pt)
    (b0 : Box) (cut0 : ℚ) (opt : Qg.Opt) (pool : List Cut) (hpool : ∀ c ∈ pool, ∀ y, Feas P y → Sat P.T.inf c y.1)
    (o : Oracles (Pt P) Cut) (c : OaCfg) (dmax : ℚ) (dual' : Pt P → ℕ → ℕ → ℚ) (hc : OaCallR P w.ints b0 cut0 opt.eps L o c dmax dual' theta lp mu mg) (m nLocal nSols : ℕ) (t : OaSt (Pt P) Cut)
    (hrun : performOa o c dmax m pool cut0 nLocal nSols = some (.inr t))
    (hex : w.extra = fun b _ => oaCuts b0 pool (oaEnd (performOa o c dmax m pool cut0 nLocal nSols)) b)
    (hhe : w.heur = fun b _ _ => oaHeur (fun y => P.F y.1) b0 (oaEnd (performOa o c dmax m pool cut0 nLocal nSols)) b)
    (hqu : w.quit = fun b _ v => oaQuit (fun y => P.F y.1) b0 cut0 (oaEnd (performOa o c dmax m pool cut0 nLocal nSols)) b v)
    (lpNone : ∀ b rows v, ¬ ((w.lp b rows v).optimal = true ∧ (w.lp b rows v).limit = false) → ∀ y, Feas P y → InBox b (w.ints y) → (∀ c ∈ rows, Sat P.T.inf c y.1) → v ≤ P.F y.1)
    (lpBound : ∀ b rows v, (w.lp b rows v).optimal = true → (w.lp b rows v).limit = false →
      ∀ y, Feas P y → InBox b (w.ints y) → (∀ c ∈ rows, Sat P.T.inf c y.1) → (w.lp b rows v).obj ≤ P.F y.1)
    (lpBox : ∀ b rows v, (w.lp b rows v).optimal = true → (w.lp b rows v).limit = false → InBox b (w.ints (w.lp b rows v).pt))
    (benders : ∀ x y, Feas P y → ∀ c ∈ w.benders (w.nlp x).pt, Sat P.T.inf c y.1)
    (nlpInts : ∀ x, w.ints (w.nlp x).pt = (w.ints x).map (fun a => ((round a : ℤ) : ℚ)))
    (nlpOpt : ∀ x, (w.nlp x).optimal = true → Feas P (w.nlp x).pt ∧ (w.nlp x).obj = P.F (w.nlp x).pt.1)
    (hx : LpExact P w) (ht : 0 ≤ w.tol) (ht1 : w.tol ≤ 1 / 10) (hmem : Qg.Memoryless w) (hF : ∀ x, FirstOrderR P w.ints (w.nlp x) (dual x) mu)
    (hben : ∀ b rows v x, (∀ c ∈ w.benders (w.nlp x).pt, c ∈ rows) → ((w.nlp x).optimal = true → v ≤ (w.nlp x).obj) → Qg.Below w b rows v →
      w.ints (w.lp b rows v).pt = w.ints (w.nlp x).pt → v - mu ≤ (w.lp b rows v).obj)
    (hd : 0 ≤ opt.decr) (h0 : 0 ≤ opt.eps) (h1 : opt.eps ≤ 1) (gap : Gaps) (n : ℕ)
    (hp : 2 * (b0.map (fun p => (p.2 - p.1 + 1).toNat)).prod + 1 ≤ opt.passes) (hn : 2 * (2 ^ width b0 - 1) ≤ n) :
    ∃ st, Qg.search T w opt cut0 gap n pool b0 = .done st ∧
      (∀ v x, st.inc = some (v, x) → v = P.F x.1 ∧ Feas P x ∧ InBox b0 (w.ints x) ∧ Whole (w.ints x) ∧ v < cut0) ∧
      (10 ^ 50 ≤ t.bound → st.inc = oaSol (fun y => P.F y.1) t ∧ st.lost = []) ∧
      ∀ y, Feas P y → InBox b0 (w.ints y) → Whole (w.ints y) →
        (∃ b ∈ st.lost, InBox b (w.ints y) ∧ Beside w (minlp P) (fun c y => Sat P.T.inf c y.1) (Qg.thr opt cut0 st.inc) b) ∨
        (∀ v x, st.inc = some (v, x) → v - opt.decr - mu ≤ P.F y.1 ∨ v - opt.eps * |v| - (if 10 ^ 50 ≤ t.bound then mu + mg else mu) ≤ P.F y.1 ∨ v - P.F y.1 < testGap gap v (T.bound st.tree)) ∧
          (st.inc = none → cut0 - (if 10 ^ 50 ≤ t.bound then mu + mg else mu) ≤ P.F y.1) := by
  obtain ⟨r1, r2, r3⟩ := boa_root_relaxed hP hE w.ints b0 pool cut0 opt.eps o c dmax dual' theta lp mu mg hmu hmg hc m nLocal nSols hpool t hrun
  rw [hrun] at hex hhe hqu
  by_cases hb : (10 : ℚ) ^ 50 ≤ t.bound
  · have hq : w.quit b0 pool cut0 = some (oaSol (fun y => P.F y.1) t) := by rw [hqu]; simp [oaQuit, oaEnd, hb]
    have hh : ∀ rows v, w.heur b0 rows v = oaSol (fun y => P.F y.1) t := by intro rows v; rw [hhe]; simp [oaHeur, oaEnd]
    obtain ⟨st, f1, f2, f3⟩ := quit_root hT w opt cut0 gap n pool b0 _ hq hh hd
    refine ⟨st, f1, fun v x hi => ?_, fun _ => ⟨f2, f3⟩, fun y a _ b => Or.inr ?_⟩
    · obtain ⟨a1, a2, a3⟩ := r2 v x (f2 ▸ hi)
      exact ⟨a1, a2.1, a2.2.1, a2.2.2, a3⟩
    · have := r3 hb y a b
      rw [← f2] at this
      rw [if_pos hb]
      refine ⟨fun v x hi => Or.inr (Or.inl ?_), fun hi => ?_⟩
      · rw [hi] at this
        exact this
      · rw [hi] at this
        exact this
  · have hs : QgSolvers P w := by
      refine ⟨lpNone, lpBound, lpBox, benders, fun b rows _ => ?_, nlpInts, nlpOpt⟩
      intro k hk y hy
      rw [hex] at hk
      simp only [oaCuts, oaEnd, Option.elim_some] at hk
      split at hk
      · exact r1 k (List.mem_of_mem_drop hk) y hy
      · simp at hk
    have hfound : Qg.Found w (minlp P) (fun c y => Sat P.T.inf c y.1) opt.eps b0 := by
      refine ⟨fun b rows v u x h => ?_, fun b rows v s _ h => ?_⟩
      · rw [hhe] at h
        simp only [oaHeur, oaEnd, Option.bind_some] at h
        split at h
        · obtain ⟨e1, e2, _⟩ := r2 u x h
          exact ⟨e1, e2⟩
        · simp at h
      · rw [hqu] at h
        simp [oaQuit, oaEnd, hb] at h
    obtain ⟨st, e1, e2, e3⟩ := qg_relaxed_partial hT hP hE w dual theta lp mu hmu hw hL hs hx ht ht1 hmem hF hben b0 cut0 opt hfound hd h0 h1 gap n pool hpool hp hn
    refine ⟨st, e1, e2, fun h => absurd h hb, ?_⟩
    rw [if_neg hb]
    exact e3

/-! ## Cases -/

/-- The oracles of the example of `Dec/RelaxedQg.lean`; there is one whole point, so that the LP is the MILP. -/
def rlO : Oracles (Pt rlP) Cut where
  milp := fun cs _ _ => if (rlLp [(0, 0)] cs).optimal then ⟨(rlLp [(0, 0)] cs).obj, some (rlLp [(0, 0)] cs).pt⟩ else ⟨0, none⟩
  nlp := fun _ _ => ⟨true, 2, rlPt 2⟩
  cuts := fun xh _ _ => cutsAt rlP (fun _ => 1) none 0 false xh
  lp := fun cs _ _ => rlLp [(0, 0)] cs
  integral := fun _ => true
  differ := fun _ _ => false
  differ01 := fun _ _ => false
  late := fun _ => false

/-- Its parameters. -/
def rlC : OaCfg := ⟨1 / 10 ^ 10, 1 / 10 ^ 10, 100, 100⟩

/-- B-OA in the example. -/
def rlB : Qg.World (Pt rlP) Cut :=
  { rlW with
    extra := fun b _ => oaCuts [(0, 0)] [] (oaEnd (performOa rlO rlC (10 ^ 200) 5 [] (10 ^ 50) 0 0)) b
    heur := fun b _ _ => oaHeur (fun y => rlP.F y.1) [(0, 0)] (oaEnd (performOa rlO rlC (10 ^ 200) 5 [] (10 ^ 50) 0 0)) b
    quit := fun b _ v => oaQuit (fun y => rlP.F y.1) [(0, 0)] (10 ^ 50) (oaEnd (performOa rlO rlC (10 ^ 200) 5 [] (10 ^ 50) 0 0)) b v }

theorem rl_oa_solvers : OaSolversR rlP rlB.ints rlO 0 where
  bound := by
    intro cs v k z hz hf _ _
    change (if (rlLp [(0, 0)] cs).optimal then _ else _ : MilpAns (Pt rlP)).low ≤ _
    split
    · exact rl_solvers.lpBound [(0, 0)] cs v ‹_› (rl_lp _ _).1 z hf (by change InBox [(0, 0)] [z.1 0]; rw [(rl_cols z).1, Qg.inBox_one]; norm_num) hz
    · exact (rl_cols z).2.1.1
  nlp := fun x k _ => ⟨⟨(rl_solvers.nlpOpt (rlPt 0) rfl).1, by
    intro a ha
    have : a = (rlPt 2).1 0 := by simpa [rlB, rlW, rlO] using ha
    exact ⟨0, by rw [this, rl_two.1]; norm_num⟩⟩, rl_two.2.1⟩
  milpSol := by
    intro cs v k z h
    change (if (rlLp [(0, 0)] cs).optimal then _ else _ : MilpAns (Pt rlP)).sol = some z at h
    change _ ∧ _ ∧ _ ≤ (if (rlLp [(0, 0)] cs).optimal then _ else _ : MilpAns (Pt rlP)).low + 0
    split at h
    · rename_i ho
      rw [if_pos ho]
      have h' : (rlLp [(0, 0)] cs).pt = z := Option.some.inj h
      subst h'
      obtain ⟨a1, a2, a3⟩ := rl_lpExact [(0, 0)] cs v ho (rl_lp _ _).1
      exact ⟨a1, a2, by rw [add_zero]; exact a3.ge⟩
    · cases h
  lpSol := fun cs v k h h' => rl_lpExact [(0, 0)] cs v h h'
  lpBound := fun cs v k z h h' hz hf _ => rl_solvers.lpBound [(0, 0)] cs v h h' z hf (by change InBox [(0, 0)] [z.1 0]; rw [(rl_cols z).1, Qg.inBox_one]; norm_num) hz
  differ := fun _ _ _ _ _ => by change [_] = [_]; rw [(rl_cols _).1, (rl_cols _).1]
  differ01 := fun _ _ _ _ _ _ _ => by change [_] = [_]; rw [(rl_cols _).1, (rl_cols _).1]

theorem rl_call : OaCallR rlP rlB.ints [(0, 0)] (10 ^ 50) (1 / 10 ^ 10) rlL rlO rlC (10 ^ 200) (fun _ _ _ => 1) 0 false (2 / 10 ^ 8) 0 where
  cuts := rfl
  pts := fun _ _ => rfl
  solvers := rl_oa_solvers
  first := fun x _ => rl_first x
  box := fun y _ => by change InBox [(0, 0)] [y.1 0]; rw [(rl_cols y).1, Qg.inBox_one]; norm_num
  low := fun y _ _ => by
    have := (rl_cols y).2.1.1
    change -10 ^ 200 ≤ y.1 1
    have h200 : (0 : ℚ) ≤ 10 ^ 200 := by positivity
    linarith
  eps := rfl
  gap := le_rfl
  big := le_rfl
  apart := fun y _ _ => Or.inl (by
    have := (rl_cols y).2.1.2
    change y.1 1 ≤ _
    norm_num [slack, rlC]
    linarith)

/-- The example meets all assumptions of `boa_relaxed_partial` with a positive margin: the decomposition takes the LP's return to `y = 0` with `2 - 2e-8` for the end and gives the root up; the run ends with 2, and
nothing is better than it by more than the increment and the margin. -/
example : ∃ st x, Qg.search (diveTree false (10 ^ 50)) rlB ⟨1 / 10 ^ 10, 0, 100, true, 3⟩ (10 ^ 50) ⟨0, 0⟩ 0 [] [(0, 0)] = .done st ∧ st.inc = some (2, x) ∧ st.lost = [] ∧
      ∀ y, Feas rlP y → 2 - 1 / 10 ^ 10 * |2| - 2 / 10 ^ 8 ≤ rlP.F y.1 := by
  have hrun : (performOa rlO rlC (10 ^ 200) 5 [] (10 ^ 50) 0 0).map (fun r => (r.isRight, (r.elim id id).bound, (oaSol (fun y : Pt rlP => rlP.F y.1) (r.elim id id)).map Prod.fst)) =
      some (true, 10 ^ 50, some 2) := by decide +kernel
  obtain ⟨r, hr, he⟩ := Option.map_eq_some_iff.mp hrun
  simp only [Prod.mk.injEq] at he
  obtain ⟨e0, e1, e2⟩ := he
  cases r with
  | inl t => cases e0
  | inr t =>
    change t.bound = _ at e1
    change (oaSol _ t).map Prod.fst = _ at e2
    obtain ⟨⟨u, x⟩, hx, hu⟩ := Option.map_eq_some_iff.mp e2
    simp only at hu
    subst hu
    obtain ⟨st, h1, -, h2, h3⟩ := boa_relaxed_partial (diveTree_lawful false (10 ^ 50)) rl_convex rl_plain rlB (fun _ _ => 1) 0 false (2 / 10 ^ 8) 0 (by norm_num) le_rfl rfl (fun x => rfl)
      [(0, 0)] (10 ^ 50) ⟨1 / 10 ^ 10, 0, 100, true, 3⟩ [] (by simp) rlO rlC (10 ^ 200) (fun _ _ _ => 1) rl_call 5 0 0 t hr rfl rfl rfl rl_solvers.lpNone rl_solvers.lpBound rl_solvers.lpBox
      rl_solvers.benders rl_solvers.nlpInts rl_solvers.nlpOpt rl_lpExact (by norm_num [rlB, rlW]) (by norm_num [rlB, rlW]) ⟨rl_memoryless.lp, rl_memoryless.nlp⟩ rl_first (by
        intro b rows v x hb hv hbel hi
        obtain ⟨a1, a2, a3⟩ := rl_lpExact b rows v hbel.1 hbel.2.1
        change v - _ ≤ (rlW.lp b rows v).obj
        rw [a3]
        exact (no_return_relaxed rl_convex.toShape rl_plain rlW.ints (rlW.nlp x) (fun _ => 1) (2 / 10 ^ 8) 0 false (rl_first x) rfl (fun ho => (rl_solvers.nlpOpt x ho).2) v hv _ hi
          (fun c hc => a1 c (hb c hc)) a2).2) le_rfl (by norm_num) (by norm_num) ⟨0, 0⟩ 0 (by norm_num) (by decide +kernel)
    obtain ⟨i1, i2⟩ := h2 e1.ge
    refine ⟨st, x, h1, i1.trans hx, i2, fun y hy => ?_⟩
    obtain ⟨c0, _, _⟩ := rl_cols y
    rcases h3 y hy (by change InBox [(0, 0)] [y.1 0]; rw [c0, Qg.inBox_one]; norm_num) (by
        intro a ha
        have : a = y.1 0 := by simpa [rlB, rlW] using ha
        exact ⟨0, by rw [this, c0]; norm_num⟩) with ⟨b, hb, _⟩ | h
    · rw [i2] at hb; simp at hb
    · rw [if_pos e1.ge] at h
      rcases h.1 2 x (i1.trans hx) with h' | h' | h'
      · dsimp only at h'; norm_num at h' ⊢; linarith
      · simpa using h'
      · simp only [testGap, mul_zero, max_self] at h'
        norm_num
        linarith

/-- B-OA on the problem `bigP`: minimise the integer `y ∈ [10^6, 10^6 + 1]` with `-y ≤ -1000000.005`, the cut relaxed by 0.01. -/
def bgB : Qg.World (Pt bigP) Cut :=
  { bgW with
    extra := fun b _ => oaCuts [(10 ^ 6, 10 ^ 6 + 1)] [] (oaEnd (performOa bigO ⟨1 / 10 ^ 10, 1 / 10 ^ 8, 100, 100⟩ (10 ^ 300) 5 [] (10 ^ 50) 0 0)) b
    heur := fun b _ _ => oaHeur (fun y => bigP.F y.1) [(10 ^ 6, 10 ^ 6 + 1)] (oaEnd (performOa bigO ⟨1 / 10 ^ 10, 1 / 10 ^ 8, 100, 100⟩ (10 ^ 300) 5 [] (10 ^ 50) 0 0)) b
    quit := fun b _ v => oaQuit (fun y => bigP.F y.1) [(10 ^ 6, 10 ^ 6 + 1)] (10 ^ 50) (oaEnd (performOa bigO ⟨1 / 10 ^ 10, 1 / 10 ^ 8, 100, 100⟩ (10 ^ 300) 5 [] (10 ^ 50) 0 0)) b v }

/-- **C320 (refuted).**  With exact solvers, but an NLP infeasible by less than the relaxation of its cuts, B-OA declares a convex problem finished at the root, without a solution and without a dropped box, though
it has the solution `y = 10^6 + 1`. -/
theorem boa_relaxed_refuted :
    Convex bigP (fun _ => True) ∧ Plain bigP (fun _ => True) ∧ OaSolversR bigP bigInts bigO 0 ∧ (∀ x k, FirstOrder bigP bigInts (bigO.nlp x k) (fun _ => 1)) ∧
    (bigO.cuts = fun xh _ _ => cutsAt bigP (fun _ => 1) none 0 false xh) ∧
    (∃ st, Qg.search (diveTree false (10 ^ 50)) bgB ⟨1 / 10 ^ 10, 0, 100, true, 5⟩ (10 ^ 50) ⟨0, 0⟩ 2 [] [(10 ^ 6, 10 ^ 6 + 1)] = .done st ∧ st.inc = none ∧ st.lost = []) ∧
    Sol bgB.ints (minlp bigP) [(10 ^ 6, 10 ^ 6 + 1)] (bgPt (10 ^ 6 + 1)) ∧ bigP.F (bgPt (10 ^ 6 + 1)).1 = 10 ^ 6 + 1 := by
  obtain ⟨-, -, -, -, -, -, -, -, s1, s2⟩ := qg_relaxed_refuted
  obtain ⟨c1, c2, c3, c4, c5, ⟨r, hr, hb, -, hf⟩, -⟩ := oa_relaxed_refuted
  refine ⟨c1, c2, c3, c4, c5, ?_, s1, s2⟩
  have hs : oaSol (fun y : Pt bigP => bigP.F y.1) r = none := by simp [oaSol, hf]
  exact quit_root (diveTree_lawful false (10 ^ 50)) bgB ⟨1 / 10 ^ 10, 0, 100, true, 5⟩ (10 ^ 50) ⟨0, 0⟩ 2 [] [(10 ^ 6, 10 ^ 6 + 1)] none
    (by simp only [bgB]; rw [hr]; simp [oaQuit, oaEnd, hb, hs]) (fun rows v => by simp only [bgB]; rw [hr]; simp [oaHeur, oaEnd, hs]) le_rfl

end Verif.Dec.Cvx

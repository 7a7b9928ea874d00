import Verif.Dec.RelaxedQg
import Verif.Dec.HybConvex
/-!
# C319: B-Hyb and B-Ecp with relaxed right-hand sides

The generators of `Dec/HybConvex.lean` in front of the feasibility checker (src/Algorithms/BonBonminSetup.cpp:737-762), on problems whose cuts the interface relaxes by `oa_rhs_relax`
(BonOsiTMINLPInterface.cpp:2043-2044), and with an integer tolerance.
-/
namespace Verif.Dec.Cvx
open Verif.Oa Verif.Div Verif.Bab.Search

/-- **C319.**  B-Hyb and B-Ecp on a convex problem with the relaxed cuts of the interface, NLP relaxations at nodes, ECP rounds, further valid cuts and heuristics, multipliers up to `mu` at the answers of the
NLP solver and an integer tolerance of at most 1/10: the search ends; the best solution is one below the start cutoff; and every solution is no better than the best one by more than the decrement or increment
plus `mu`, or the gap (not below the start cutoff by more than `mu` if there is none), or lies in a box dropped beside the integers of an NLP.  Missing for the full claim: as in C318. -/
theorem hyb_relaxed_partial {σ : Type} {T : Bab.Search.Tree σ} {ready : σ → Prop} (hT : Lawful T ready) {P : Prob} {L L' : Pt P → Prop} (hP : Convex P L) (hE : Plain P L')
    (w : Qg.World (Pt P) Cut) (dual : Pt P → ℕ → ℚ) (theta : ℚ) (lp : Bool) (mu : ℚ) (hmu : 0 ≤ mu) (hw : w.oa = fun xh x => cutsAt P (dual x) none theta lp xh)
    (hL : ∀ x, L (w.nlp x).pt ∧ L' (w.nlp x).pt)
    (b0 : Box) (g : Gens P L) (root : Bnds) (f : List ℚ → ℚ) (hg : g.Ok w.ints b0 root f) (hx' : w.extra = g.cuts) (hh : w.heur = g.given) (hq : ∀ b rows v, w.quit b rows v = none)
    (lpNone : ∀ b rows v, ¬ ((w.lp b rows v).optimal = true ∧ (w.lp b rows v).limit = false) → ∀ y, Feas P y → InBox b (w.ints y) → (∀ c ∈ rows, Sat P.T.inf c y.1) → v ≤ P.F y.1)
    (lpBound : ∀ b rows v, (w.lp b rows v).optimal = true → (w.lp b rows v).limit = false →
      ∀ y, Feas P y → InBox b (w.ints y) → (∀ c ∈ rows, Sat P.T.inf c y.1) → (w.lp b rows v).obj ≤ P.F y.1)
    (lpBox : ∀ b rows v, (w.lp b rows v).optimal = true → (w.lp b rows v).limit = false → InBox b (w.ints (w.lp b rows v).pt))
    (benders : ∀ x y, Feas P y → ∀ c ∈ w.benders (w.nlp x).pt, Sat P.T.inf c y.1)
    (nlpInts : ∀ x, w.ints (w.nlp x).pt = (w.ints x).map (fun a => ((round a : ℤ) : ℚ)))
    (nlpOpt : ∀ x, (w.nlp x).optimal = true → Feas P (w.nlp x).pt ∧ (w.nlp x).obj = P.F (w.nlp x).pt.1)
    (hx : LpExact P w) (ht : 0 ≤ w.tol) (ht1 : w.tol ≤ 1 / 10) (hmem : Qg.Memoryless w) (hF : ∀ x, FirstOrderR P w.ints (w.nlp x) (dual x) mu)
    (hben : ∀ b rows v x, (∀ c ∈ w.benders (w.nlp x).pt, c ∈ rows) → ((w.nlp x).optimal = true → v ≤ (w.nlp x).obj) → Qg.Below w b rows v →
      w.ints (w.lp b rows v).pt = w.ints (w.nlp x).pt → v - mu ≤ (w.lp b rows v).obj)
    (cut0 : ℚ) (opt : Qg.Opt) (hd : 0 ≤ opt.decr) (h0 : 0 ≤ opt.eps) (h1 : opt.eps ≤ 1) (gap : Gaps) (n : ℕ) (pool : List Cut) (hpool : ∀ c ∈ pool, ∀ y, Feas P y → Sat P.T.inf c y.1)
    (hp : 2 * (b0.map (fun p => (p.2 - p.1 + 1).toNat)).prod + 1 ≤ opt.passes) (hn : 2 * (2 ^ width b0 - 1) ≤ n) :
    ∃ st, Qg.search T w opt cut0 gap n pool b0 = .done st ∧
      (∀ v x, st.inc = some (v, x) → v = P.F x.1 ∧ Feas P x ∧ InBox b0 (w.ints x) ∧ Whole (w.ints x) ∧ v < cut0) ∧
      ∀ y, Feas P y → InBox b0 (w.ints y) → Whole (w.ints y) →
        (∃ b ∈ st.lost, InBox b (w.ints y) ∧ Beside w (minlp P) (fun c y => Sat P.T.inf c y.1) (Qg.thr opt cut0 st.inc) b) ∨
        (∀ v x, st.inc = some (v, x) → v - opt.decr - mu ≤ P.F y.1 ∨ v - opt.eps * |v| - mu ≤ P.F y.1 ∨ v - P.F y.1 < testGap gap v (T.bound st.tree)) ∧
          (st.inc = none → cut0 - mu ≤ P.F y.1) := by
  have hs : QgSolvers P w := ⟨lpNone, lpBound, lpBox, benders, fun b rows hrows => by rw [hx']; exact gens_valid hP g w.ints b0 root f hg b rows hrows, nlpInts, nlpOpt⟩
  have hP' : Convex P (fun x => L x ∧ L' x) := ⟨hP.toShape, hP.up, hP.lo, hP.obj, fun x h => hP.jacBig x h.1, fun x h => hP.gradBig x h.1⟩
  have hE' : Plain P (fun x => L x ∧ L' x) := ⟨hE.tols, fun x h => hE.jacBig x h.2, fun x h => hE.gradBig x h.2, fun i hi hu x h => hE.upFin i hi hu x h.2,
    fun i hi hu x h => hE.upRelax i hi hu x h.2, fun i hi hu x h => hE.loFin i hi hu x h.2, fun x h => hE.objFin x h.2⟩
  refine qg_relaxed_partial hT hP' hE' w dual theta lp mu hmu hw hL hs hx ht ht1 hmem hF hben b0 cut0 opt ⟨fun b rows v u x h => ?_, fun b rows v s _ h => ?_⟩ hd h0 h1 gap n pool hpool hp hn
  · rw [hh] at h
    exact gens_found g w.ints b0 root f hg b rows v u x h
  · rw [hq] at h
    cases h

/-! ## The example of `Dec/RelaxedQg.lean` with both generators -/

/-- The NLP relaxation in a box. -/
def rlRel : Bnds → HybA
  | [(l, u), (l', u')] => if l ≤ 0 ∧ 0 ≤ u ∧ l' ≤ 2 ∧ 2 ≤ u' then ⟨true, false, [0, 2], 2⟩ else ⟨false, false, [0, 2], 0⟩
  | _ => ⟨false, false, [0, 2], 0⟩

/-- NLP relaxations at every node, one ECP round from the NLP point. -/
def rlG : Gens rlP rlL where
  hyb := ⟨10, 10 ^ 10, [true, false], false⟩
  rel := rlRel
  pt := fun _ => ⟨rlPt 2, rfl⟩
  full := fun x => rlPt (x.getD 1 0)
  call := fun _ _ => ⟨true, 0, 0, 0, 0, [(0, 0), (0, 10)], [0, 0]⟩
  st := fun _ _ => ⟨[(0, 0), (0, 10)], 0, none⟩
  ecp := ⟨1, 1 / 10 ^ 6, 1 / 10 ^ 6, false, 1, false, true, 10 ^ 50⟩
  ecpO := fun _ _ => ⟨fun _ _ => some 1, fun q p => cutsAt rlP (fun _ => 1) (q.map fun u => u.1) 0 false p.1, fun _ => ⟨false, 2, ⟨rlPt 2, rfl⟩⟩⟩
  level := fun _ _ => 0
  rand := fun _ _ => 0
  x0 := fun _ _ => ⟨rlPt 2, rfl⟩
  obj0 := fun _ _ => 0
  mem := fun _ _ => ⟨none, none⟩
  more := fun _ _ => []
  other := fun _ _ _ => none
  dual := fun _ => 1
  theta := 0
  logPos := false

theorem rlRel_opt {b : Bnds} (h : (rlRel b).optimal = true) : rlRel b = ⟨true, false, [0, 2], 2⟩ ∧ Within b [0, 2] := by
  match b, h with
  | [(l, u), (l', u')], h =>
    simp only [rlRel] at h ⊢
    split at h
    · rename_i hh
      rw [if_pos hh]
      refine ⟨rfl, fun i q hq => ?_⟩
      match i, hq with
      | 0, hq =>
        simp only [List.getElem?_cons_zero, Option.some.injEq] at hq
        rw [← hq]
        exact ⟨0, rfl, hh.1, hh.2.1⟩
      | 1, hq =>
        simp only [List.getElem?_cons_succ, List.getElem?_cons_zero, Option.some.injEq] at hq
        rw [← hq]
        exact ⟨2, rfl, hh.2.2⟩
      | i + 2, hq => simp at hq
    · simp at h
  | [], h => simp [rlRel] at h
  | [_], h => simp [rlRel] at h
  | _ :: _ :: _ :: _, h => simp [rlRel] at h

theorem rl_gens : rlG.Ok rlW.ints [(0, 0)] [(0, 0), (0, 10)] (fun x => x.getD 1 0) where
  rel := by
    intro b h
    obtain ⟨he, hw⟩ := rlRel_opt h
    change rlG.Good _ _ _ _ (rlRel _).x ∧ Within _ (rlRel _).x ∧ (rlRel _).obj = (rlRel _).x.getD 1 0
    rw [he]
    obtain ⟨e0, e1, -⟩ := rl_two
    refine ⟨⟨(rl_feas _).mpr ?_, e1, fun _ _ => ⟨?_, ?_⟩⟩, hw, rfl⟩
    · change 2 ≤ (rlPt 2).1 1 ∧ rlPt 2 = rlPt ((rlPt 2).1 1)
      rw [e1]
      exact ⟨le_rfl, rfl⟩
    · change InBox [(0, 0)] [(rlPt 2).1 0]
      rw [e0, Qg.inBox_one]
      norm_num
    · intro a ha
      have : a = (rlPt 2).1 0 := by simpa [rlW, rlG] using ha
      exact ⟨0, by rw [this, e0]; norm_num⟩
  solved := by
    intro b
    right
    change (rlRel b).fail = false
    unfold rlRel
    split
    · split <;> rfl
    · rfl
  bnds := fun _ _ => rfl
  inside := by
    intro b rows i q r hq hr
    have : q = r := Option.some.inj (hq.symm.trans hr)
    rw [this]
    exact ⟨le_rfl, le_rfl⟩
  prev := by intro b rows y h; simp [rlG] at h
  runs := by
    intro b rows
    change rlG.rounds [] [] ≠ none
    exact Option.isSome_iff_ne_none.mp (by decide +kernel)
  ecp := fun _ _ _ _ => rfl
  more := by intro b rows _ c hc; simp [rlG] at hc
  other := by intro b rows v u x h; simp [rlG] at h

/-- The world of `Dec/RelaxedQg.lean` with them. -/
def rlW' : Qg.World (Pt rlP) Cut := { rlW with extra := rlG.cuts, heur := rlG.given }

/-- The example meets all assumptions of `hyb_relaxed_partial` with a positive margin: the relaxation at the root gives the solution 2 and both generators the row `x ≥ 2 - 2e-8`; the LP keeps proposing `2 - 2e-8`
below the cutoff `2 - 2e-10`, and the root is dropped; nothing is better than 2 by more than the increment and the margin. -/
example : (rlG.given [(0, 0)] [] 0).map (fun r => (r.1, r.2.1 1)) = some (2, 2) ∧ (rlG.relaxed [(0, 0)] []).cuts.length = 2 ∧ ((rlG.rounds [(0, 0)] []).map fun r => r.2.length) = some 2 ∧
    (Qg.search (diveTree false (10 ^ 50)) rlW' ⟨1 / 10 ^ 10, 0, 100, true, 3⟩ (10 ^ 50) ⟨0, 0⟩ 0 [] [(0, 0)]).view.map (fun v => (v.1, v.2.1.map (fun p => p.1), v.2.2)) = some (true, some 2, [[(0, 0)]]) ∧
    ∃ st, Qg.search (diveTree false (10 ^ 50)) rlW' ⟨1 / 10 ^ 10, 0, 100, true, 3⟩ (10 ^ 50) ⟨0, 0⟩ 0 [] [(0, 0)] = .done st ∧
      ∀ y, Feas rlP y → ∀ v x, st.inc = some (v, x) → v - 1 / 10 ^ 10 * |v| - 2 / 10 ^ 8 ≤ rlP.F y.1 := by
  refine ⟨by decide +kernel, by decide +kernel, by decide +kernel, by decide +kernel, ?_⟩
  obtain ⟨st, h1, -, h3⟩ := hyb_relaxed_partial (diveTree_lawful false (10 ^ 50)) rl_convex rl_plain rlW' (fun _ _ => 1) 0 false (2 / 10 ^ 8) (by norm_num) rfl (fun x => ⟨rfl, rfl⟩)
    [(0, 0)] rlG [(0, 0), (0, 10)] (fun x => x.getD 1 0) rl_gens rfl rfl (fun _ _ _ => rfl) rl_solvers.lpNone rl_solvers.lpBound rl_solvers.lpBox rl_solvers.benders rl_solvers.nlpInts rl_solvers.nlpOpt
    rl_lpExact (by norm_num [rlW', rlW]) (by norm_num [rlW', rlW]) ⟨rl_memoryless.lp, rl_memoryless.nlp⟩ rl_first (by
      intro b rows v x hb hv hbel hi
      obtain ⟨a1, a2, a3⟩ := rl_lpExact b rows v hbel.1 hbel.2.1
      change v - _ ≤ (rlW.lp b rows v).obj
      rw [a3]
      exact (no_return_relaxed rl_convex.toShape rl_plain rlW.ints (rlW.nlp x) (fun _ => 1) (2 / 10 ^ 8) 0 false (rl_first x) rfl (fun ho => (rl_solvers.nlpOpt x ho).2) v hv _ hi
        (fun c hc => a1 c (hb c hc)) a2).2) (10 ^ 50) ⟨1 / 10 ^ 10, 0, 100, true, 3⟩ le_rfl
      (by norm_num) (by norm_num) ⟨0, 0⟩ 0 [] (by simp) (by norm_num) (by decide +kernel)
  refine ⟨st, h1, fun y hy v x hi => ?_⟩
  obtain ⟨c0, _, _⟩ := rl_cols y
  rcases h3 y hy (by change InBox [(0, 0)] [y.1 0]; rw [c0, Qg.inBox_one]; norm_num) (by
      intro a ha
      have : a = y.1 0 := by simpa [rlW', rlW] using ha
      exact ⟨0, by rw [this, c0]; norm_num⟩) with ⟨b, _, _, rows, v', x', _, _, _, hbel, _, hne⟩ | h
  · refine absurd ?_ hne
    change [_] = [_]
    rw [(rl_cols _).1, (rl_cols _).1]
  · have := mul_nonneg (by norm_num : (0 : ℚ) ≤ 1 / 10 ^ 10) (abs_nonneg v)
    rcases h.1 v x hi with h' | h' | h'
    · dsimp only at h'; linarith
    · exact h'
    · simp only [testGap, mul_zero, max_self] at h'
      linarith

end Verif.Dec.Cvx

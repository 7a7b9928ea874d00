import Verif.Dec.Convex
import Verif.Dec.Ecp
import Verif.Dec.Hybrid
/-!
# C309: B-Hyb and B-Ecp on convex problems

The search of `Dec/Quesada.lean` with the generators the setup adds before the feasibility checker (src/Algorithms/BonBonminSetup.cpp:737-762): NLP relaxations at nodes (`Dec/Hybrid.lean`),
ECP rounds (`Dec/Ecp.lean`), both with the cuts of the interface, and arbitrary further generators and heuristics that are right.
Each node is treated once, so that what differs from call to call (level, random numbers, members) may be taken as a function of the node.
-/
namespace Verif.Dec.Cvx
open Verif.Oa Verif.Div Verif.Bab.Search

/-- The generators before the checker, and what they are called with at the node with box `b` and rows `rows`.  Linearisations are made at points of `L` only (`ecpO`, `pt`). -/
structure Gens (P : Prob) (L : Pt P → Prop) where
  hyb : HybCfg
  rel : Bnds → HybA
  pt : List ℚ → { x : Pt P // L x }
  full : List ℚ → Pt P
  call : Box → List Cut → HybCall
  st : Box → List Cut → HybSt
  ecp : EcpCfg
  ecpO : Box → List Cut → EcpO { x : Pt P // L x } Cut
  level : Box → List Cut → ℕ
  rand : Box → List Cut → ℚ
  x0 : Box → List Cut → { x : Pt P // L x }
  obj0 : Box → List Cut → ℚ
  mem : Box → List Cut → EcpMem
  more : Box → List Cut → List Cut
  other : Box → List Cut → ℚ → Option (ℚ × Pt P)
  dual : ℕ → ℚ
  theta : ℚ
  logPos : Bool

/-- The call of `OaNlpOptim::generateCuts` at a node (BonOaNlpOptim.cpp:62-173); line 109 is the call of the interface. -/
def Gens.relaxed {P : Prob} {L : Pt P → Prop} (g : Gens P L) (b : Box) (rows : List Cut) : HybOut Cut :=
  hybGen g.rel (fun x v => cutsAt P g.dual (v.map fun u => (g.pt u).1) g.theta g.logPos (g.pt x).1) g.hyb (g.call b rows) (g.st b rows)

/-- The call of `EcpCuts::generateCuts` at a node (BonEcpCuts.cpp:45-143). -/
def Gens.rounds {P : Prob} {L : Pt P → Prop} (g : Gens P L) (b : Box) (rows : List Cut) : Option (EcpMem × List Cut) :=
  ecpGen g.ecp (g.ecpO b rows) (g.level b rows) (g.rand b rows) (g.x0 b rows) (g.obj0 b rows) (g.mem b rows)

/-- What all of them add, in the order in which they are added to the setup (BonBonminSetup.cpp:739-762). -/
def Gens.cuts {P : Prob} {L : Pt P → Prop} (g : Gens P L) (b : Box) (rows : List Cut) : List Cut :=
  (g.relaxed b rows).cuts ++ ((g.rounds b rows).elim [] Prod.snd ++ g.more b rows)

/-- The solution handed over: the one stored with the LP (BonOaNlpOptim.cpp:121-132), else that of a heuristic. -/
def Gens.given {P : Prob} {L : Pt P → Prop} (g : Gens P L) (b : Box) (rows : List Cut) (v : ℚ) : Option (ℚ × Pt P) :=
  ((g.relaxed b rows).st.stored.map fun y => (y.2, g.full y.1)).or (g.other b rows v)

/-! ## Specification -/

/-- The array `x` of an NLP solution, with its value `f x` behind it, is a feasible point with this value; within the bounds of the problem and whole up to 1e-7 (BonOaNlpOptim.cpp:113-120) it is whole. -/
def Gens.Good {P : Prob} {L : Pt P → Prop} (g : Gens P L) (ints : Pt P → List ℚ) (b0 : Box) (root : Bnds) (f : List ℚ → ℚ) (x : List ℚ) : Prop :=
  Feas P (g.full (x ++ [f x])) ∧ P.F (g.full (x ++ [f x])).1 = f x ∧
    (Within root x → hybInt g.hyb.isInt x = true → InBox b0 (ints (g.full (x ++ [f x]))) ∧ Whole (ints (g.full (x ++ [f x]))))

/-- What is assumed of the solvers behind the generators: `rel` is right and never fails (else the exception of BonOaNlpOptim.cpp:140 ends the run), its bounds are those of the problem and nodes are
inside; the assertions of the ECP rounds hold; their cuts are those of the interface; other cuts and solutions are right. -/
structure Gens.Ok {P : Prob} {L : Pt P → Prop} (g : Gens P L) (ints : Pt P → List ℚ) (b0 : Box) (root : Bnds) (f : List ℚ → ℚ) : Prop where
  rel : ∀ b, (g.rel b).optimal = true → g.Good ints b0 root f (g.rel b).x ∧ Within b (g.rel b).x ∧ (g.rel b).obj = f (g.rel b).x
  solved : ∀ b, (g.rel b).optimal = true ∨ (g.rel b).fail = false
  bnds : ∀ b rows, (g.st b rows).bnds = root
  inside : ∀ b rows (i : ℕ) (q r : ℚ × ℚ), (g.call b rows).bnds[i]? = some q → root[i]? = some r → r.1 ≤ q.1 ∧ q.2 ≤ r.2
  prev : ∀ b rows y, (g.st b rows).stored = some y → ∃ x, y = (x ++ [f x], f x) ∧ g.Good ints b0 root f x ∧ Within root x ∧ hybInt g.hyb.isInt x = true
  runs : ∀ b rows, g.rounds b rows ≠ none
  ecp : ∀ b rows q p, (g.ecpO b rows).cuts q p = cutsAt P g.dual (q.map fun u => u.1) g.theta g.logPos p.1
  more : ∀ b rows, (∀ c ∈ rows, ∀ y, Feas P y → Sat P.T.inf c y.1) → ∀ c ∈ g.more b rows, ∀ y, Feas P y → Sat P.T.inf c y.1
  other : ∀ b rows v u x, g.other b rows v = some (u, x) → u = P.F x.1 ∧ Sol ints (minlp P) b0 x

/-! ## The generators -/

/-- **C309.**  On convex problems everything NLP relaxations and ECP rounds add is valid for every feasible point, whatever the level, the random numbers, the LPs solved in the rounds and the
tolerances that end them. -/
theorem gens_valid {P : Prob} {L : Pt P → Prop} (hP : Convex P L) (g : Gens P L) (ints : Pt P → List ℚ) (b0 : Box) (root : Bnds) (f : List ℚ → ℚ) (h : g.Ok ints b0 root f)
    (b : Box) (rows : List Cut) (hrows : ∀ c ∈ rows, ∀ y, Feas P y → Sat P.T.inf c y.1) : ∀ c ∈ g.cuts b rows, ∀ y, Feas P y → Sat P.T.inf c y.1 := by
  intro c hc y hy
  rcases List.mem_append.mp hc with hc | hc
  · cases hs : hybSkip g.hyb (g.call b rows) with
    | true =>
      rw [Gens.relaxed, hyb_skipped _ _ _ _ _ hs] at hc
      simp at hc
    | false =>
      obtain ⟨q, _, h2, _⟩ := hyb_exact g.rel (fun x v => cutsAt P g.dual (v.map fun u => (g.pt u).1) g.theta g.logPos (g.pt x).1) g.hyb (g.call b rows) (g.st b rows) hs
      rw [Gens.relaxed, h2] at hc
      exact (cuts_hold hP _ _ _ _ _ y (g.pt _).2 hy).2 c hc
  · rcases List.mem_append.mp hc with hc | hc
    · cases hr : g.rounds b rows with
      | none => exact absurd hr (h.runs b rows)
      | some r =>
        obtain ⟨m', cs⟩ := r
        rw [hr] at hc
        change c ∈ cs at hc
        have hv : ∀ q p, ∀ k ∈ (g.ecpO b rows).cuts q p, Sat P.T.inf k y.1 := by
          intro q p k hk
          rw [h.ecp] at hk
          exact (cuts_hold hP _ _ _ _ _ y p.2 hy).2 k hk
        -- the LPs of the rounds do not matter for the cuts
        unfold Gens.rounds ecpGen at hr
        split at hr
        · simp only [Option.some.injEq, Prod.mk.injEq] at hr
          rw [← hr.2] at hc; simp at hc
        · split at hr
          · simp at hr
          · rename_i orig _
            split at hr
            · simp only [Option.some.injEq, Prod.mk.injEq] at hr
              rw [← hr.2] at hc; simp at hc
            · obtain ⟨t, ht, he⟩ := Option.map_eq_some_iff.1 hr
              obtain ⟨k, _, hend⟩ := ecp_exact g.ecp (g.ecpO b rows) (g.x0 b rows) orig t ht
              rw [← (Prod.mk.inj he).2] at hc
              have hI : t.inst = (ecpIter g.ecp (g.ecpO b rows) (g.x0 b rows) k).2 := by cases hend <;> first | assumption | exact EcpInv.inst ‹_›
              have hval : ∀ u ∈ t.inst, Sat P.T.inf u y.1 := by rw [hI]; exact iter_valid g.ecp (g.ecpO b rows) (g.x0 b rows) (fun u => Sat P.T.inf u y.1) hv k
              have hm : c ∈ t.inst ++ ecpCutsAt g.ecp (g.ecpO b rows) (g.x0 b rows) k := by
                cases hend with
                | small h _ => rw [h.cs] at hc; exact List.mem_append_left _ hc
                | last _ hc' => rw [hc'] at hc; exact hc
                | infeasible _ hc' => rw [hc'] at hc; exact List.mem_append_left _ hc
                | none h _ => rw [h.cs] at hc; exact List.mem_append_left _ hc
              rcases List.mem_append.1 hm with h' | h'
              · exact hval c h'
              · exact hv _ _ c h'
    · exact h.more b rows hrows c hc y hy

/-- **C309.**  Every solution handed over is a solution of the MINLP with its value: that of the NLP relaxation of the node, or an earlier one, or that of another heuristic. -/
theorem gens_found {P : Prob} {L : Pt P → Prop} (g : Gens P L) (ints : Pt P → List ℚ) (b0 : Box) (root : Bnds) (f : List ℚ → ℚ) (h : g.Ok ints b0 root f) (b : Box) (rows : List Cut)
    (v u : ℚ) (x : Pt P) (hg : g.given b rows v = some (u, x)) : u = P.F x.1 ∧ Sol ints (minlp P) b0 x := by
  unfold Gens.given at hg
  rcases Option.or_eq_some_iff.mp hg with hg | ⟨_, hg⟩
  · obtain ⟨y, hy, he⟩ := Option.map_eq_some_iff.mp hg
    have hrun : (hybRun g.rel (fun x v => cutsAt P g.dual (v.map fun u => (g.pt u).1) g.theta g.logPos (g.pt x).1) g.hyb [g.call b rows] (g.st b rows)).st = (g.relaxed b rows).st := by
      rw [hyb_run_single]; rfl
    obtain ⟨_, h2⟩ := hyb_sound g.rel (fun x v => cutsAt P g.dual (v.map fun u => (g.pt u).1) g.theta g.logPos (g.pt x).1) g.hyb root (g.Good ints b0 root f) f (fun _ => True) h.rel (fun _ _ _ _ => trivial)
      [g.call b rows] (g.st b rows) (h.bnds b rows) (by
        intro k hk
        rw [List.mem_singleton.mp hk]
        exact h.inside b rows) (h.prev b rows)
    rw [hrun] at h2
    obtain ⟨x', rfl, g1, g2, g3⟩ := h2 y hy
    simp only [Prod.mk.injEq] at he
    obtain ⟨rfl, rfl⟩ := he
    obtain ⟨w1, w2⟩ := g1.2.2 g2 g3
    exact ⟨g1.2.1.symm, g1.1, w1, w2⟩
  · exact h.other b rows v u x hg

/-! ## The search -/

/-- **C309.**  B-Hyb and B-Ecp on a convex problem, with NLP relaxations at nodes, ECP rounds, further valid cuts and heuristics: the search ends; the best solution is one below the start cutoff; and
every solution is no better than the best one by more than decrement, increment or gap (not below the start cutoff if there is none), or lies in a box that was dropped because the LP with valid rows
came within 1/10 of the integers of an NLP it has the cuts of.  Missing for the full claim is the same as in C306. -/
theorem hyb_convex_partial {σ : Type} {T : Bab.Search.Tree σ} {ready : σ → Prop} (hT : Lawful T ready) {P : Prob} {L L' : Pt P → Prop} (hP : Convex P L) (hE : Exact P L')
    (w : Qg.World (Pt P) Cut) (dual : Pt P → ℕ → ℚ) (theta : ℚ) (lp : Bool) (hw : w.oa = fun xh x => cutsAt P (dual x) none theta lp xh) (hL : ∀ x, L (w.nlp x).pt ∧ L' (w.nlp x).pt)
    (b0 : Box) (g : Gens P L) (root : Bnds) (f : List ℚ → ℚ) (hg : g.Ok w.ints b0 root f) (hx' : w.extra = g.cuts) (hh : w.heur = g.given) (hq : ∀ b rows v, w.quit b rows v = none)
    (lpNone : ∀ b rows v, ¬ ((w.lp b rows v).optimal = true ∧ (w.lp b rows v).limit = false) → ∀ y, Feas P y → InBox b (w.ints y) → (∀ c ∈ rows, Sat P.T.inf c y.1) → v ≤ P.F y.1)
    (lpBound : ∀ b rows v, (w.lp b rows v).optimal = true → (w.lp b rows v).limit = false →
      ∀ y, Feas P y → InBox b (w.ints y) → (∀ c ∈ rows, Sat P.T.inf c y.1) → (w.lp b rows v).obj ≤ P.F y.1)
    (lpBox : ∀ b rows v, (w.lp b rows v).optimal = true → (w.lp b rows v).limit = false → InBox b (w.ints (w.lp b rows v).pt))
    (benders : ∀ x y, Feas P y → ∀ c ∈ w.benders (w.nlp x).pt, Sat P.T.inf c y.1)
    (nlpInts : ∀ x, w.ints (w.nlp x).pt = (w.ints x).map (fun a => ((round a : ℤ) : ℚ)))
    (nlpOpt : ∀ x, (w.nlp x).optimal = true → Feas P (w.nlp x).pt ∧ (w.nlp x).obj = P.F (w.nlp x).pt.1)
    (hx : LpExact P w) (ht : w.tol = 0) (hF : ∀ x, FirstOrder P w.ints (w.nlp x) (dual x))
    (hben : ∀ b rows v x, (∀ c ∈ w.benders (w.nlp x).pt, c ∈ rows) → ((w.nlp x).optimal = true → v ≤ (w.nlp x).obj) → Qg.Below w b rows v →
      w.ints (w.lp b rows v).pt ≠ w.ints (w.nlp x).pt)
    (cut0 : ℚ) (opt : Qg.Opt) (hd : 0 ≤ opt.decr) (h0 : 0 ≤ opt.eps) (h1 : opt.eps ≤ 1) (gap : Gaps) (n : ℕ) (pool : List Cut) (hpool : ∀ c ∈ pool, ∀ y, Feas P y → Sat P.T.inf c y.1)
    (hp : (b0.map (fun p => (p.2 - p.1 + 1).toNat)).prod ≤ opt.passes) (hn : 2 * (2 ^ width b0 - 1) ≤ n) :
    ∃ st, Qg.search T w opt cut0 gap n pool b0 = .done st ∧
      (∀ v x, st.inc = some (v, x) → v = P.F x.1 ∧ Feas P x ∧ InBox b0 (w.ints x) ∧ Whole (w.ints x) ∧ v < cut0) ∧
      (∀ b ∈ st.lost, Qg.Repeats w (minlp P) (fun c y => Sat P.T.inf c y.1) b) ∧
      ∀ y, Feas P y → InBox b0 (w.ints y) → Whole (w.ints y) → (∃ b ∈ st.lost, InBox b (w.ints y)) ∨
        (∀ v x, st.inc = some (v, x) → v - opt.decr ≤ P.F y.1 ∨ v - opt.eps * |v| ≤ P.F y.1 ∨ v - P.F y.1 < testGap gap v (T.bound st.tree)) ∧ (st.inc = none → cut0 ≤ P.F y.1) := by
  have hs : QgSolvers P w := ⟨lpNone, lpBound, lpBox, benders, fun b rows hrows => by rw [hx']; exact gens_valid hP g w.ints b0 root f hg b rows hrows, nlpInts, nlpOpt⟩
  have hP' : Convex P (fun x => L x ∧ L' x) := ⟨hP.toShape, hP.up, hP.lo, hP.obj, fun x h => hP.jacBig x h.1, fun x h => hP.gradBig x h.1⟩
  have hE' : Exact P (fun x => L x ∧ L' x) := ⟨hE.tols, hE.relax, fun x h => hE.jacBig x h.2, fun x h => hE.gradBig x h.2, fun i hi hu x h => hE.upFin i hi hu x h.2,
    fun i hi hu x h => hE.loFin i hi hu x h.2, fun x h => hE.objFin x h.2⟩
  refine qg_convex_partial hT hP' hE' w dual theta lp hw hL hs hx ht hF hben b0 cut0 opt ⟨fun b rows v u x h => ?_, fun b rows v s _ h => ?_⟩ hd h0 h1 gap n pool hpool hp hn
  · rw [hh] at h
    exact gens_found g w.ints b0 root f hg b rows v u x h
  · rw [hq] at h
    cases h

/-! ## The example of `Dec/Convex.lean` with both generators -/

/-- The NLP relaxation in a box: the least `y`. -/
def exRel : Bnds → HybA
  | [(l, u)] => if max 1 ⌈l⌉ ≤ min u 5 then ⟨true, false, [max 1 ⌈l⌉], max 1 ⌈l⌉⟩ else ⟨false, false, [0], 0⟩
  | _ => ⟨false, false, [0], 0⟩

/-- NLP relaxations at every node, two ECP rounds from `y = 0`. -/
def exG : Gens exP exL where
  hyb := ⟨10, 10 ^ 10, [true], true⟩
  rel := exRel
  pt := fun x => ⟨exPt ((round (exClamp (x.headD 0)) : ℤ) : ℚ), ⟨round (exClamp ((round (exClamp (x.headD 0)) : ℤ) : ℚ)), by
    obtain ⟨r0, _, _⟩ := ex_round (exPt ((round (exClamp (x.headD 0)) : ℤ) : ℚ))
    obtain ⟨r1, r2, r3⟩ := ex_round (exPt (x.headD 0))
    have e : (exPt ((round (exClamp (x.headD 0)) : ℤ) : ℚ)).1 0 = ((round (exClamp (x.headD 0)) : ℤ) : ℚ) := exClamp_eq r2 r3
    have e' : exClamp ((round (exClamp (x.headD 0)) : ℤ) : ℚ) = ((round (exClamp (x.headD 0)) : ℤ) : ℚ) := exClamp_eq r2 r3
    rw [e, e', round_intCast]⟩⟩
  full := fun x => exPt (x.headD 0)
  call := fun b _ => ⟨true, 0, 0, 0, 0, b.map fun p => (max 0 (p.1 : ℚ), min 5 (p.2 : ℚ)), [0]⟩
  st := fun _ _ => ⟨[(0, 5)], 0, none⟩
  ecp := ⟨2, 1 / 10 ^ 6, 1 / 10 ^ 6, false, 1, false, true, 10 ^ 50⟩
  ecpO := fun _ _ => ⟨fun p _ => some (max 0 ((p.1.1 0 - 3) ^ 2 - 4)), fun q p => cutsAt exP (fun _ => 0) (q.map fun u => u.1) 0 false p.1,
    fun _ => ⟨false, 1, ⟨exPt 1, 1, by norm_num [exPt, exClamp]⟩⟩⟩
  level := fun _ _ => 0
  rand := fun _ _ => 0
  x0 := fun _ _ => ⟨exPt 0, 0, by norm_num [exPt, exClamp]⟩
  obj0 := fun _ _ => 0
  mem := fun _ _ => ⟨none, none⟩
  more := fun _ _ => []
  other := fun _ _ _ => none
  dual := fun _ => 0
  theta := 0
  logPos := false

theorem exRel_opt {b : Bnds} (h : (exRel b).optimal = true) : ∃ (k : ℤ) (l u : ℚ), b = [(l, u)] ∧ exRel b = ⟨true, false, [k], k⟩ ∧ 1 ≤ (k : ℚ) ∧ (k : ℚ) ≤ 5 ∧ l ≤ k ∧ (k : ℚ) ≤ u := by
  match b, h with
  | [(l, u)], h =>
    simp only [exRel] at h ⊢
    split at h
    · rename_i hh
      rw [if_pos hh]
      have e : ((max 1 ⌈l⌉ : ℤ) : ℚ) = max 1 (⌈l⌉ : ℚ) := by push_cast; rfl
      refine ⟨max 1 ⌈l⌉, l, u, rfl, by rw [e], ?_⟩
      rw [e] at hh ⊢
      exact ⟨le_max_left _ _, hh.trans (min_le_right _ _), (Int.le_ceil l).trans (le_max_right _ _), hh.trans (min_le_left _ _)⟩
    · simp at h
  | [], h => simp [exRel] at h
  | _ :: _ :: _, h => simp [exRel] at h

theorem ex_gens : exG.Ok exW.ints [(0, 5)] [(0, 5)] (fun x => x.headD 0) where
  rel := by
    intro b h
    obtain ⟨k, l, u, rfl, he, h1, h5, hl, hu⟩ := exRel_opt h
    change exG.Good _ _ _ _ (exRel _).x ∧ Within _ (exRel _).x ∧ (exRel _).obj = (exRel _).x.headD 0
    rw [he]
    have e1 : (exPt (k : ℚ)).1 0 = k := exClamp_eq (by linarith) h5
    refine ⟨⟨(ex_feas _).mpr ?_, e1, fun _ _ => ⟨?_, ?_⟩⟩, ?_, rfl⟩
    · change ((exPt (k : ℚ)).1 0 - 3) ^ 2 ≤ 4 ∧ exPt (k : ℚ) = exPt ((exPt (k : ℚ)).1 0)
      rw [e1]
      exact ⟨by nlinarith, rfl⟩
    · change InBox [(0, 5)] [(exPt (k : ℚ)).1 0]
      rw [e1, Qg.inBox_one]
      exact ⟨by push_cast; linarith, by push_cast; exact h5⟩
    · intro a ha
      have : a = k := by simpa [exW, exG, e1] using ha
      exact ⟨k, this⟩
    · intro i q hq
      match i, hq with
      | 0, hq =>
        simp only [List.getElem?_cons_zero, Option.some.injEq] at hq
        rw [← hq]
        exact ⟨k, rfl, hl, hu⟩
      | i + 1, hq => simp at hq
  solved := by
    intro b
    by_cases h : (exRel b).optimal = true
    · exact Or.inl h
    · right
      change (exRel b).fail = false
      unfold exRel
      split
      · split <;> rfl
      · rfl
  bnds := fun _ _ => rfl
  inside := by
    intro b rows i q r hq hr
    match i, hr with
    | 0, hr =>
      have hr' : (0, 5) = r := by simpa using hr
      have hq' : (b.map fun p => (max 0 (p.1 : ℚ), min 5 (p.2 : ℚ)))[0]? = some q := hq
      rw [List.getElem?_map] at hq'
      obtain ⟨p, _, rfl⟩ := Option.map_eq_some_iff.mp hq'
      rw [← hr']
      exact ⟨le_max_left _ _, min_le_left _ _⟩
    | i + 1, hr => simp at hr
  prev := by intro b rows y h; simp [exG] at h
  runs := by
    intro b rows
    change exG.rounds [] [] ≠ none
    exact Option.isSome_iff_ne_none.mp (by decide +kernel)
  ecp := fun _ _ _ _ => rfl
  more := by intro b rows _ c hc; simp [exG] at hc
  other := by intro b rows v u x h; simp [exG] at h

/-- The world of `Dec/Convex.lean` with them. -/
noncomputable def exW' : Qg.World (Pt exP) Cut := { exW with extra := exG.cuts, heur := exG.given }

/-- Both generators are at work: at the root the NLP relaxation gives the solution `y = 1` and the first ECP round the row `y ≥ 5/6`; at the node `2 ≤ y` the relaxation gives the row `y ≥ 1/2`. -/
example : (exG.given [(0, 5)] [] 0).map (fun r => (r.1, r.2.1 0)) = some (1, 1) ∧
    ((exG.rounds [(0, 5)] []).map fun r => r.2.map fun c => (c.ub, c.co)) = some [(-5, [(0, -6)]), (0, [(0, 1), (1, -1)])] ∧
    ((exG.relaxed [(2, 5)] []).cuts.map fun c => (c.ub, c.co)) = [(-1, [(0, -2)]), (0, [(0, 1), (1, -1)])] := by
  decide +kernel

/-- `gens_valid` and `gens_found` for the example. -/
example : (∀ c ∈ exG.cuts [(2, 5)] [], ∀ y, Feas exP y → Sat exP.T.inf c y.1) ∧ ∀ u x, exG.given [(0, 5)] [] 0 = some (u, x) → u = x.1 0 :=
  ⟨gens_valid ex_convex exG _ _ _ _ ex_gens _ _ (by simp), fun u x h => (gens_found exG _ _ _ _ ex_gens _ _ 0 u x h).1⟩

/-- The example meets all assumptions of `hyb_convex_partial`; the search ends with the optimum `y = 1`. -/
example : ∃ st, Qg.search (diveTree false (10 ^ 50)) exW' ⟨0, 0, 100, true, 6⟩ (10 ^ 50) ⟨0, 0⟩ 62 [] [(0, 5)] = .done st ∧ ∃ x, st.inc = some (1, x) ∧ x.1 0 = 1 := by
  obtain ⟨st, h1, h2, h3, h4⟩ := hyb_convex_partial (diveTree_lawful false (10 ^ 50)) ex_convex ex_exact exW' (fun _ _ => 0) 0 false rfl (fun x => ⟨⟨_, (ex_round x).1⟩, ⟨_, (ex_round x).1⟩⟩)
    [(0, 5)] exG [(0, 5)] (fun x => x.headD 0) ex_gens rfl rfl (fun _ _ _ => rfl) ex_solvers.lpNone ex_solvers.lpBound ex_solvers.lpBox ex_solvers.benders ex_solvers.nlpInts ex_solvers.nlpOpt ex_lpExact rfl ex_first (by
      intro b rows v x hb hv hbel hi
      obtain ⟨a1, a2, a3⟩ := ex_lpExact b rows v hbel.1 hbel.2.1
      have := no_return ex_convex.toShape ex_exact exW.ints (exW.nlp x) (fun _ => 0) 0 false (ex_first x) ⟨_, (ex_round x).1⟩ (fun ho => (ex_solvers.nlpOpt x ho).2) v hv _ hi
        (fun c hc => a1 c (hb c hc)) a2
      have := hbel.2.2
      change (exW.lp b rows v).obj < v at this
      rw [a3] at this
      exact absurd (lt_of_lt_of_le this ‹_›) (lt_irrefl _)) (10 ^ 50) ⟨0, 0, 100, true, 6⟩ le_rfl le_rfl zero_le_one ⟨0, 0⟩ 62 [] (by simp) (by simp) (by decide +kernel)
  have e1 : (exPt 1).1 0 = 1 := exClamp_eq (t := 1) (by norm_num) (by norm_num)
  have hy : Feas exP (exPt 1) := (ex_feas _).mpr (by rw [e1]; exact ⟨by norm_num, rfl⟩)
  rcases h4 (exPt 1) hy (by change InBox [(0, 5)] [(exPt 1).1 0]; rw [e1, Qg.inBox_one]; norm_num) (by
      intro a ha
      have : a = 1 := by simpa [exW', exW, e1] using ha
      exact ⟨1, by rw [this]; simp⟩) with ⟨b, hb, _⟩ | ⟨h5, h6⟩
  · exact absurd (h3 b hb) (ex_apart b)
  · cases hi : st.inc with
    | none =>
      have := h6 hi
      change (10 : ℚ) ^ 50 ≤ (exPt 1).1 0 at this
      rw [e1] at this
      norm_num at this
    | some e =>
      obtain ⟨v, x⟩ := e
      obtain ⟨a1, a2, _⟩ := h2 v x hi
      have a3 := exactly rfl (h5 v x hi)
      change v ≤ (exPt 1).1 0 at a3
      change v = x.1 0 at a1
      rw [e1] at a3
      have a4 := ((ex_feas x).mp a2).1
      have : v = 1 := by nlinarith
      exact ⟨st, h1, x, by rw [hi, this], by rw [← a1, this]⟩

end Verif.Dec.Cvx

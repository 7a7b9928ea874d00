import Verif.Bab.Search
import Verif.Dec.Checker
/-!
# C259: the whole search of B-QG (Quesada and Grossmann)

The pieces of this repository a run of B-QG is made of, put together: the feasibility checker (src/Algorithms/OaGenerators/BonOaFeasChecker.cpp:37-135, `Dec/Checker.lean`) that is called
at every node whose LP solution is integral (BonOaDecBase.cpp:236-345), the hand-over of the NLP solutions it finds (BonOaDecBase.cpp:358-400, BonDummyHeuristic.cpp:38-51), the trees
(src/CbcBonmin/BonDiver.cpp, `Div/Model.lean`), branching and Cbc's loop as in `Bab/Search.lean`.

Every node is an LP over the box of the node and all cuts generated so far.  The LP solver, the NLP solver for fixed integers, the cuts, the chooser and all orders are arbitrary.
Simplifications: after the checker Cbc solves the LP with the new cuts again; here the last LP of the checker (same box, same cuts) is used.  Strong
branching is left out; the cuts of other generators (B-Hyb, B-Ecp) are all there before the LP of a node is looked at.  What Cbc does with the bound 1e200 (`setMipBound`, BonOaDecBase.cpp:331-332) is not in this repository; by its documentation (`OsiBabSolver::mipFeasible`: bound
below 1e50) the node is given up.  No cut is ever discarded (option
`feas_check_discard_policy` = `keep-all`, BonOaFeasChecker.cpp:124-128; with the default the cuts saved at 85-86 are returned again when Cbc discarded them, C51).
-/
namespace Verif.Dec.Qg
open Verif.Div Verif.Bab.Search

/-- Everything the search calls.  `nlp x` is the NLP with the integers fixed at those of `x` (rounded), `lp b rows cutoff` the LP on a box,
`extra b rows` what all other cut generators add at a node (ECP, linearisations at NLP solutions, MILP cuts), `heur b rows cutoff` the solution heuristics or other generators hand over at it
(the auxiliary information of the LP, BonOaNlpOptim.cpp:121-132, BonDummyHeuristic.cpp:38-51), `quit b rows cutoff` whether one of the other generators gives the node up (`setMipBound` with 1e50 or more,
BonOaDecBase.cpp:329-334), and the solution it hands over then. -/
structure World (X κ : Type) where
  ints : X → List ℚ
  lp : Box → List κ → ℚ → LpAns X
  nlp : X → NlpAns X
  oa : X → X → List κ
  benders : X → List κ
  extra : Box → List κ → List κ
  heur : Box → List κ → ℚ → Option (ℚ × X)
  quit : Box → List κ → ℚ → Option (Option (ℚ × X))
  tol : ℚ
  choose : Box → ℕ
  upFirst : Box → Bool
  guess : Box → ℚ
  picks : ℕ → Pick

/-- Options: `cbcCutoffIncrement_` of the checker, Cbc's cutoff decrement, `maximum_oa_cuts_`, `type_ == OA`, bound on the passes of one call of the checker (the code has none). -/
structure Opt where
  eps : ℚ
  decr : ℚ
  maxOa : ℕ
  oaType : Bool
  passes : ℕ

/-- `isDifferentOnIntegers` with tolerance 0.1 (BonOaFeasChecker.cpp:103-107) for integer variables. -/
def differ (a l : List ℚ) : Bool := (a.zip l).any (fun e => decide (1 / 10 < |e.1 - e.2|))

/-- `integerFeasible` (BonOaFeasChecker.cpp:108-112) for points in the box. -/
def whole (tol : ℚ) (b : Box) (v : List ℚ) : Bool :=
  decide (v.length = b.length) && (b.zip v).all (fun e => decide ((e.1.1 : ℚ) ≤ e.2) && decide (e.2 ≤ e.1.2) && !fractional tol e.1 e.2)

variable {X κ σ : Type}

/-- What the checker calls at a node with box `b` when the cuts `pool` are in the LP. -/
def World.oracles (w : World X κ) (b : Box) (pool : List κ) : FcOracles X κ where
  nlp := w.nlp
  oa := w.oa
  benders := w.benders
  lp := fun rows v => w.lp b (pool ++ rows) v
  integral := fun x => whole w.tol b (w.ints x)
  differ01 := fun a l => differ (w.ints a) (w.ints l)

/-- The NLP solution the checker hands over (BonOaDecBase.cpp:371-388): the last one that improved the cutoff. -/
def found (o : FcOracles X κ) (eps : ℚ) (maxOa : ℕ) (oaType : Bool) : ℕ → FcSt X κ → Option (ℚ × X) → Option (ℚ × X)
  | 0, _, i => i
  | n + 1, s, i =>
    if s.isInt && s.feasible then
      found o eps maxOa oaType n (fcPass o eps maxOa oaType s) (if (o.nlp s.pt).optimal = true ∧ (o.nlp s.pt).obj < s.cutoff then some ((o.nlp s.pt).obj, (o.nlp s.pt).pt) else i)
    else i

/-- What becomes of a node: dropped, dropped because the LP came back to the integers of the NLP (the bound 1e200, BonOaFeasChecker.cpp:113-117), put into the tree, or the checker
did not end within the passes looked at. -/
inductive Fate where
  | closed
  | repeated
  | opened (obj : ℚ) (var : ℕ) (val : ℤ)
  | stuck
deriving DecidableEq

/-- Result of treating a node: fate, new cuts, solution found, counter of cuts. -/
structure Out (X κ : Type) where
  fate : Fate
  new : List κ
  sol : Option (ℚ × X)
  count : ℕ

/-- A node: LP; if its solution is integral, the checker (BonOaDecBase.cpp:236-345). -/
def check (w : World X κ) (opt : Opt) (b : Box) (pool : List κ) (cut : ℚ) (count : ℕ) : Out X κ :=
  let l := w.lp b pool cut
  if !(l.optimal && !l.limit && decide (l.obj < cut)) then ⟨.closed, [], none, count⟩
  else
    match pickVar (w.choose b) (cands w.tol b (w.ints l.pt)) with
    | some (i, k) => ⟨.opened l.obj i k, [], none, count⟩
    | none =>
      let o := w.oracles b pool
      let s0 : FcSt X κ := fcInit (10 ^ 200) count cut l.pt
      let r := fcRun o opt.eps opt.maxOa opt.oaType opt.passes s0
      let f := found o opt.eps opt.maxOa opt.oaType opt.passes s0 none
      if !r.1 then ⟨.stuck, r.2.new, f, r.2.count⟩
      else if !r.2.feasible then ⟨.closed, r.2.new, f, r.2.count⟩
      else if r.2.bound = 10 ^ 200 then ⟨.repeated, r.2.new, f, r.2.count⟩
      else
        match pickVar (w.choose b) (cands w.tol b (w.ints r.2.pt)) with
        | some (i, k) => ⟨.opened (w.lp b (pool ++ r.2.rows) r.2.cutoff).obj i k, r.2.new, f, r.2.count⟩
        | none => ⟨.stuck, r.2.new, f, r.2.count⟩

/-- The same after the other cut generators, which all come before the checker (src/Algorithms/BonBonminSetup.cpp:736-800; those that look for MILP cuts 278-392).  When one of them gave
the node up, the checker returns at once (`mipFeasible`, BonOaDecBase.cpp:252-254) and Cbc drops the node. -/
def treat (w : World X κ) (opt : Opt) (b : Box) (pool : List κ) (cut : ℚ) (count : ℕ) : Out X κ :=
  match w.quit b pool cut with
  | some s => ⟨.closed, w.extra b pool, s, count⟩
  | none =>
    let r := check w opt b (pool ++ w.extra b pool) cut count
    { r with new := w.extra b pool ++ r.new }

/-- The state of the search.  `lost` is not in the code: the boxes dropped because of a repetition. -/
structure St (σ X κ : Type) where
  tree : σ
  tab : List Pay
  pool : List κ
  inc : Option (ℚ × X)
  cut : ℚ
  count : ℕ
  lost : List Box

/-- Result of one step. -/
inductive Next (σ X κ : Type) where
  | run (st : St σ X κ)
  | stuck
  | crash

/-- The solution found becomes the incumbent and sets Cbc's cutoff. -/
def St.take (st : St σ X κ) (opt : Opt) (sol : Option (ℚ × X)) : St σ X κ :=
  match sol with
  | none => st
  | some (v, x) => { st with inc := some (v, x), cut := v - opt.decr }

/-- The treated node is dropped or put into the tree. -/
def place (T : Bab.Search.Tree σ) (w : World X κ) (st : St σ X κ) (b : Box) (depth : ℤ) : Fate → Next σ X κ
  | .stuck => .stuck
  | .closed => .run st
  | .repeated => .run { st with lost := b :: st.lost }
  | .opened o i k =>
    match T.step st.tree (.push ⟨st.tab.length, o, w.guess b, depth, 2, 2⟩ byValue) with
    | none => .crash
    | some (t, _) => .run { st with tree := t, tab := st.tab ++ [⟨b, i, k, w.upFirst b, .root⟩] }

/-- After a node was treated: the cuts and the solution are taken, the node is placed, and the tree is cleaned when there is a new solution. -/
def settle (T : Bab.Search.Tree σ) (w : World X κ) (opt : Opt) (st : St σ X κ) (b : Box) (depth : ℤ) (r : Out X κ) : Next σ X κ :=
  match place T w (({ st with pool := st.pool ++ r.new, count := r.count } : St σ X κ).take opt r.sol) b depth r.fate with
  | .run st2 =>
    if r.sol.isSome then
      match T.step st2.tree (.clean st2.cut) with
      | none => .crash
      | some (t, _) => .run { st2 with tree := t }
    else .run st2
  | e => e

/-- A solution handed over by a heuristic or by another generator is taken when it is better than the cutoff (`CbcModel::setBestSolution`). -/
def improve (T : Bab.Search.Tree σ) (opt : Opt) (st : St σ X κ) : Option (ℚ × X) → Next σ X κ
  | none => .run st
  | some (v, x) =>
    if v < st.cut then
      match T.step st.tree (.clean (v - opt.decr)) with
      | none => .crash
      | some (t, _) => .run { st with tree := t, inc := some (v, x), cut := v - opt.decr }
    else .run st

/-- All that is done at a node: cuts, LP and checker, then the solutions of heuristics and other generators. -/
def handle (T : Bab.Search.Tree σ) (w : World X κ) (opt : Opt) (st : St σ X κ) (b : Box) (depth : ℤ) : Next σ X κ :=
  match settle T w opt st b depth (treat w opt b st.pool st.cut st.count) with
  | .run st' => improve T opt st' (w.heur b st'.pool st'.cut)
  | e => e

/-- The root. -/
def start (T : Bab.Search.Tree σ) (w : World X κ) (opt : Opt) (cut : ℚ) (pool : List κ) (b : Box) : Next σ X κ :=
  handle T w opt ⟨T.init, [], pool, none, cut, 0, []⟩ b 0

/-- One pass of Cbc's loop. -/
def visit (T : Bab.Search.Tree σ) (w : World X κ) (opt : Opt) (pick : Pick) (st : St σ X κ) : Next σ X κ :=
  match T.step st.tree (.best st.cut pick) with
  | none => .crash
  | some (t, log) =>
    match log.handed with
    | [] => .run { st with tree := t }
    | x :: _ =>
      match st.tab[x.id]? with
      | none => .crash
      | some p =>
        let b := side p (x.total - x.left)
        match (if 1 < x.left then T.step t (.push { x with left := x.left - 1 } byValue) else some (t, {})) with
        | none => .crash
        | some (t2, _) => handle T w opt { st with tree := t2 } b (x.depth + 1)

def closeEnough (g : Gaps) (T : Bab.Search.Tree σ) (st : St σ X κ) : Bool :=
  match st.inc with
  | none => false
  | some (v, _) => decide (v - T.bound st.tree < testGap g v (T.bound st.tree))

/-- How the search ends. -/
inductive End (σ X κ : Type) where
  | done (st : St σ X κ)
  | limit (st : St σ X κ)
  | stuck
  | crash

/-- The loop, with a limit on the number of nodes. -/
def loop (T : Bab.Search.Tree σ) (w : World X κ) (opt : Opt) (g : Gaps) : ℕ → St σ X κ → End σ X κ
  | 0, st => if T.empty st.tree || closeEnough g T st then .done st else .limit st
  | n + 1, st =>
    if T.empty st.tree || closeEnough g T st then .done st
    else
      match visit T w opt (w.picks n) st with
      | .run st' => loop T w opt g n st'
      | .stuck => .stuck
      | .crash => .crash

/-- The whole run, from the first outer approximation `pool`. -/
def search (T : Bab.Search.Tree σ) (w : World X κ) (opt : Opt) (cut : ℚ) (g : Gaps) (n : ℕ) (pool : List κ) (b : Box) : End σ X κ :=
  match start T w opt cut pool b with
  | .run st => loop T w opt g n st
  | .stuck => .stuck
  | .crash => .crash

/-- The treatment of a node does not end exactly if the checker does not: a tree that refuses a node is a crash, not an endless loop. -/
theorem settle_stuck_iff {σ X κ : Type} (T : Bab.Search.Tree σ) (w : World X κ) (opt : Opt) (st : St σ X κ) (b : Box) (depth : ℤ) (r : Out X κ) :
    settle T w opt st b depth r = .stuck ↔ r.fate = .stuck := by
  unfold settle place
  cases hf : r.fate <;> simp
  all_goals (repeat' split) <;> simp_all

theorem handle_stuck_iff (T : Bab.Search.Tree σ) (w : World X κ) (opt : Opt) (st : St σ X κ) (b : Box) (depth : ℤ) :
    handle T w opt st b depth = .stuck ↔ (treat w opt b st.pool st.cut st.count).fate = .stuck := by
  rw [← settle_stuck_iff T w opt st b depth]
  unfold handle
  cases h : settle T w opt st b depth (treat w opt b st.pool st.cut st.count) with
  | stuck => simp
  | crash => simp
  | run st' =>
    simp only [reduceCtorEq, iff_false]
    unfold improve
    repeat' split
    all_goals simp

/-- **C259.** For every tree, lawful or not, the search does not end only if a call of the checker at some node does not. -/
theorem search_stuck (T : Bab.Search.Tree σ) (w : World X κ) (opt : Opt) (cut : ℚ) (g : Gaps) (n : ℕ) (pool : List κ) (b : Box) (h : search T w opt cut g n pool b = .stuck) :
    ∃ b pool cut count, (treat w opt b pool cut count).fate = .stuck := by
  have hv : ∀ pick st, visit T w opt pick st = .stuck → ∃ b pool cut count, (treat w opt b pool cut count).fate = .stuck := by
    intro pick st h
    unfold visit at h
    repeat' split at h
    all_goals first | (simp at h; done) | exact ⟨_, _, _, _, (handle_stuck_iff T w opt _ _ _).mp h⟩
  have hl : ∀ n st, loop T w opt g n st = .stuck → ∃ b pool cut count, (treat w opt b pool cut count).fate = .stuck := by
    intro n
    induction n with
    | zero => intro st h; unfold loop at h; split at h <;> simp at h
    | succ n ih =>
      intro st h
      unfold loop at h
      split at h
      · simp at h
      · cases hx : visit T w opt (w.picks n) st with
        | run st' => rw [hx] at h; exact ih st' h
        | stuck => exact hv _ _ hx
        | crash => rw [hx] at h; simp at h
  unfold search at h
  cases hx : start T w opt cut pool b with
  | run st => rw [hx] at h; exact hl n st h
  | stuck => exact ⟨_, _, _, _, (handle_stuck_iff T w opt _ _ _).mp hx⟩
  | crash => rw [hx] at h; simp at h

end Verif.Dec.Qg

import Verif.Bab.NodeStatus
import Verif.Bab.Final
import Verif.Div.Spec
import Verif.Branch.Debug
import Mathlib.Data.List.Dedup
import Mathlib.Data.Rat.Floor
import Mathlib.Algebra.Order.Round
/-!
# C257: the whole search of B-BB

The pieces of this repository a branch-and-bound run is made of, put together: the dive trees (src/CbcBonmin/BonDiver.cpp, `Div/Model.lean`), the treatment of
nodes whose NLP failed or is infeasible (src/CbcBonmin/BonCbcNlpStrategy.cpp:78-155, `Bab/NodeStatus.lean`), the values left in such nodes
(src/Interfaces/BonOsiTMINLPInterface.hpp:287-291, src/Interfaces/BonTMINLP2TNLP.cpp:617-629), the settings given to Cbc
(src/CbcBonmin/BonCbc.cpp:309-314: cutoff, cutoff decrement, gaps) and the report at the end (src/CbcBonmin/BonCbc.cpp:537-689, `Bab/Final.lean`).

The loop itself belongs to Cbc (`CbcModel::branchAndBound`, `CbcModel::doOneNode`), not to this repository.  It is modelled by its documented behaviour:
take a node from the tree, go down its next branch, put the node back when branches are left, solve the NLP of the child, ask the strategy, and drop the child,
record a solution, or put the child into the tree.  Strong branching (`BonChooseVariable::chooseVariable`, C29) at a node to be branched on may find the node infeasible or bounds to
tighten; then the node is solved again, in a given number of rounds (in the code: what is done in Cbc with `fixVariables`).  Heuristics (C33-C37) may hand over solutions at every node.  Left out: cuts and presolve.
Each integer variable has finite integral bounds; a box lists them.  The NLP solver, the choice of the variable, of the first branch and of the next node are arbitrary.
-/
namespace Verif.Bab.Search
open Verif.Div

/-- Bounds of the integer variables. -/
abbrev Box := List (ℤ × ℤ)

/-- What the NLP solver says about a box. -/
structure Answer (X : Type) where
  flags : Flags
  value : ℚ
  point : X

/-- What strong branching finds at a node (src/Algorithms/Branching/BonChooseVariable.cpp:599-764): nothing to be done before branching, no solution better than the cutoff, or tighter bounds. -/
inductive Strong where
  | go
  | infeasible
  | tight (b : Box)

/-- Everything the search calls: the values of the integer variables of a point, the NLP solver, `integer_tolerance`, the chooser (an index into the list of
candidates), the side explored first, the guessed value of a node, the order of the heap at each visit, the solves from the hot start, the columns that strong branching looks at (in order, given the cutoff), the number of
rounds it may ask for, and what heuristics find at a node (given the cutoff). -/
structure World (X : Type) where
  ints : X → List ℚ
  nlp : Box → Answer X
  tol : ℚ
  choose : Box → ℕ
  upFirst : Box → Bool
  guess : Box → ℚ
  picks : ℕ → Pick
  hot : Box → Branch.Debug.Nlp
  tried : Box → ℚ → List ℕ
  rounds : ℕ
  heur : Box → ℚ → Option (ℚ × X)

/-- A tree of open nodes: its calls, content, `empty()` and `getBestPossibleObjective()`. -/
structure Tree (σ : Type) where
  init : σ
  step : σ → Op → Option (σ × Log)
  inside : σ → List Node
  empty : σ → Bool
  bound : σ → ℚ

/-- The value of a variable as `OsiSimpleInteger::infeasibility` sees it: moved into the bounds. -/
def clamp (b : ℤ × ℤ) (v : ℚ) : ℚ := max (b.1 : ℚ) (min v b.2)

/-- Not within the tolerance of a whole number. -/
def fractional (tol : ℚ) (b : ℤ × ℤ) (v : ℚ) : Bool := decide (tol < |clamp b v - round (clamp b v)|)

/-- The variables that may be branched on, with the whole number below their value. -/
def cands (tol : ℚ) (b : Box) (vals : List ℚ) : List (ℕ × ℤ) :=
  ((b.zip vals).zipIdx.filter (fun e => fractional tol e.1.1 e.1.2)).map (fun e => (e.2, ⌊clamp e.1.1 e.1.2⌋))

/-- The variable chosen; none when the point is integral. -/
def pickVar (k : ℕ) (l : List (ℕ × ℤ)) : Option (ℕ × ℤ) := l[k % l.length]?

/-- `force_fractionnal_sol` (src/Interfaces/BonTMINLP2TNLP.cpp:617-629) for integral bounds. -/
def forced (b : Box) : List ℚ := b.map (fun p => (p.1 : ℚ) + 1 / 2)

/-- What is kept with a node: its box, the variable branched on, the floor of its value, the side explored first, and what its children find as the information of
their parent (src/CbcBonmin/BonCbcNlpStrategy.cpp:57-71). -/
structure Pay where
  box : Box
  var : ℕ
  val : ℤ
  up : Bool
  info : Parent
deriving DecidableEq

/-- The two branches. -/
def down (p : Pay) : Box := p.box.modify p.var (fun b => (b.1, p.val))
def upper (p : Pay) : Box := p.box.modify p.var (fun b => (p.val + 1, b.2))

/-- The branch explored as number `k` = 0, 1. -/
def side (p : Pay) (k : ℕ) : Box := if p.up = decide (k = 0) then upper p else down p

/-- What becomes of a child: dropped (with the mark whether its NLP was not solved), a new solution, put into the tree, or the exception. -/
inductive Fate (X : Type) where
  | closed (unsolved : Bool)
  | solution (v : ℚ) (x : X)
  | opened (obj : ℚ) (var : ℕ) (val : ℤ)
  | threw

/-- What Cbc does with a node on which the strategy has no say: dropped when not solved, infeasible or not below the cutoff, else a solution or put into the tree. -/
def plain {X : Type} (w : World X) (b : Box) (cut : ℚ) : Fate X :=
  let a := w.nlp b
  if proceeds .noEffect a.flags then
    if cut ≤ a.value then .closed false
    else
      match pickVar (w.choose b) (cands w.tol b (w.ints a.point)) with
      | some (i, k) => .opened a.value i k
      | none => .solution a.value a.point
  else .closed a.flags.abandoned

/-- Solving a child: `CbcNlpStrategy::status` (BonCbcNlpStrategy.cpp:78-155) and what Cbc does with its verdict. -/
def fate {X : Type} (w : World X) (cfg : Cfg) (hf : Bool) (info : Parent) (b : Box) (cut : ℚ) : Fate X × Bool :=
  let a := w.nlp b
  let r := status cfg hf info a.flags
  match r.1 with
  | .throws => (.threw, r.2)
  | .fathom => (.closed true, r.2)
  | .branch =>
    match pickVar (w.choose b) (cands w.tol b (forced b)) with
    | some (i, k) => (.opened (-10 ^ 200) i k, r.2)
    | none => (.closed a.flags.abandoned, r.2)
  | .noEffect => (plain w b cut, r.2)

/-- The status of a branch solved from the hot start (BonChooseVariable.cpp:1118-1145, `Branch/Strong.lean`). -/
def probe {X : Type} (w : World X) (cut : ℚ) (b : Box) : ℤ :=
  Branch.hotStatus (Branch.Debug.osiStatus cut (w.hot b)) (w.hot b).infeasible (w.hot b).optimal (w.hot b).value

/-- The status of the two branches of a candidate. -/
def probes {X : Type} (w : World X) (cut : ℚ) (b : Box) (c : ℕ × ℤ) : ℤ × ℤ :=
  (probe w cut (down ⟨b, c.1, c.2, false, .root⟩), probe w cut (upper ⟨b, c.1, c.2, false, .root⟩))

/-- Fixing a candidate (BonChooseVariable.cpp:689-735): the up branch infeasible, the bounds of the down branch are set; then the down branch infeasible, those of the up branch. -/
def fixOne (s : ℤ × ℤ) (b : Box) (c : ℕ × ℤ) : Box :=
  if s.1 = 1 then upper ⟨b, c.1, c.2, false, .root⟩ else if s.2 = 1 then down ⟨b, c.1, c.2, false, .root⟩ else b

/-- The candidates looked at. -/
def inspected {X : Type} (w : World X) (cut : ℚ) (b : Box) (cs : List (ℕ × ℤ)) : List (ℕ × ℤ) :=
  (w.tried b cut).dedup.filterMap (fun i => cs.find? (fun c => c.1 == i))

/-- Strong branching: the return code of `doStrongBranching` (BonChooseVariable.cpp:916-923) and the fixings of `chooseVariable` (676-735). -/
def strong {X : Type} (w : World X) (cut : ℚ) (b : Box) (cs : List (ℕ × ℤ)) : Strong :=
  let l := inspected w cut b cs
  let code := l.foldl (fun k c => Branch.newCode k (probes w cut b c).1 (probes w cut b c).2) 0
  if code = -1 then .infeasible
  else if code = 1 then .tight (l.foldl (fun acc c => fixOne (probes w cut b c) acc c) b)
  else .go

/-- The rounds of strong branching at a node to be branched on: what becomes of it in the end, and its box then. -/
def deepen {X : Type} (w : World X) (cut : ℚ) : ℕ → Box → List ℚ → Fate X → Fate X × Box
  | n + 1, b, vals, .opened o i k =>
    match strong w cut b (cands w.tol b vals) with
    | .go => (.opened o i k, b)
    | .infeasible => (.closed false, b)
    | .tight b' => deepen w cut n b' (w.ints (w.nlp b').point) (plain w b' cut)
  | _, b, _, f => (f, b)

/-- The values of the integer variables the chooser sees. -/
def shown {X : Type} (w : World X) (cfg : Cfg) (hf : Bool) (info : Parent) (b : Box) : List ℚ :=
  if (status cfg hf info (w.nlp b).flags).1 = .branch then forced b else w.ints (w.nlp b).point

/-- The state of the search.  `lost` is not in the code: the boxes dropped although their NLP was not solved. -/
structure St (σ X : Type) where
  tree : σ
  tab : List Pay
  inc : Option (ℚ × X)
  cut : ℚ
  failed : Bool
  lost : List Box

/-- Result of one step: go on, the exception `UnsolvedError`, or a failed assertion / undefined behaviour of the tree. -/
inductive Next (σ X : Type) where
  | run (st : St σ X)
  | threw (st : St σ X)
  | crash

/-- The comparison given to `push` of the tree. -/
def byValue (x y : Node) : Bool := decide (x.obj < y.obj)

/-- What follows the solution of a child: `node` and `pay` describe it when it is put into the tree. -/
def settle {σ X : Type} (T : Tree σ) (w : World X) (decr : ℚ) (st : St σ X) (b : Box) (depth : ℤ) (info : Parent) : Fate X × Bool → Next σ X
  | (.threw, f) => .threw { st with failed := f }
  | (.closed l, f) => .run { st with failed := f, lost := if l then b :: st.lost else st.lost }
  | (.solution v x, f) =>
    match T.step st.tree (.clean (v - decr)) with
    | none => .crash
    | some (t, _) => .run { st with tree := t, inc := some (v, x), cut := v - decr, failed := f }
  | (.opened o i k, f) =>
    match T.step st.tree (.push ⟨st.tab.length, o, w.guess b, depth, 2, 2⟩ byValue) with
    | none => .crash
    | some (t, _) => .run { st with tree := t, tab := st.tab ++ [⟨b, i, k, w.upFirst b, info⟩], failed := f }

/-- A solution handed over by a heuristic is taken when it is better than the cutoff (`CbcModel::setBestSolution`). -/
def improve {σ X : Type} (T : Tree σ) (decr : ℚ) (st : St σ X) : Option (ℚ × X) → Next σ X
  | none => .run st
  | some (v, x) =>
    if v < st.cut then
      match T.step st.tree (.clean (v - decr)) with
      | none => .crash
      | some (t, _) => .run { st with tree := t, inc := some (v, x), cut := v - decr }
    else .run st

/-- All that is done with a child: the NLP, strong branching, the heuristics. -/
def treat {σ X : Type} (T : Tree σ) (w : World X) (cfg : Cfg) (decr : ℚ) (st : St σ X) (b : Box) (depth : ℤ) (info : Parent) (next : Flags → Parent) : Next σ X :=
  let f := fate w cfg st.failed info b st.cut
  let d := deepen w st.cut w.rounds b (shown w cfg st.failed info b) f.1
  match settle T w decr st d.2 depth (next (w.nlp d.2).flags) (d.1, f.2) with
  | .run st' => improve T decr st' (w.heur d.2 st'.cut)
  | r => r

/-- The root (`CbcModel::initialSolve`): it has no parent, and its children find a plain `CbcFullNodeInfo`. -/
def start {σ X : Type} (T : Tree σ) (w : World X) (cfg : Cfg) (decr cut : ℚ) (b : Box) : Next σ X :=
  treat T w cfg decr ⟨T.init, [], none, cut, false, []⟩ b 0 .root (fun _ => .root)

/-- One pass of the loop. -/
def visit {σ X : Type} (T : Tree σ) (w : World X) (cfg : Cfg) (decr : ℚ) (pick : Pick) (st : St σ X) : Next σ X :=
  match T.step st.tree (.best st.cut pick) with
  | none => .crash
  | some (t, log) =>
    match log.handed with
    | [] => .run { st with tree := t }
    | x :: _ =>
      match st.tab[x.id]? with
      | none => .crash
      | some p =>
        match (if 1 < x.left then T.step t (.push { x with left := x.left - 1 } byValue) else some (t, {})) with
        | none => .crash
        | some (t2, _) =>
          treat T w cfg decr { st with tree := t2 } (side p (x.total - x.left)) (x.depth + 1) p.info (fun f => .node (childInfo p.info f))

/-- The gaps at which Cbc stops (`allowable_gap`, `allowable_fraction_gap`). -/
structure Gaps where
  abs : ℚ
  frac : ℚ

def testGap (g : Gaps) (v bd : ℚ) : ℚ := max g.abs (max |v| |bd| * g.frac)

def closeEnough {σ X : Type} (g : Gaps) (T : Tree σ) (st : St σ X) : Bool :=
  match st.inc with
  | none => false
  | some (v, _) => decide (v - T.bound st.tree < testGap g v (T.bound st.tree))

/-- How the search ends: completed (tree empty or gap closed), node limit, exception, crash. -/
inductive End (σ X : Type) where
  | done (st : St σ X)
  | limit (st : St σ X)
  | threw (st : St σ X)
  | crash

/-- The loop, with a limit on the number of passes. -/
def loop {σ X : Type} (T : Tree σ) (w : World X) (cfg : Cfg) (decr : ℚ) (g : Gaps) : ℕ → St σ X → End σ X
  | 0, st => if T.empty st.tree || closeEnough g T st then .done st else .limit st
  | n + 1, st =>
    if T.empty st.tree || closeEnough g T st then .done st
    else
      match visit T w cfg decr (w.picks n) st with
      | .run st' => loop T w cfg decr g n st'
      | .threw st' => .threw st'
      | .crash => .crash

/-- The whole run. -/
def search {σ X : Type} (T : Tree σ) (w : World X) (cfg : Cfg) (decr cut : ℚ) (g : Gaps) (n : ℕ) (b : Box) : End σ X :=
  match start T w cfg decr cut b with
  | .run st => loop T w cfg decr g n st
  | .threw st => .threw st
  | .crash => .crash

/-- What `Bab::branchAndBound` finds in Cbc's model after the search (src/CbcBonmin/BonCbc.cpp:537-538, 632-668): status 0 for a completed search, 1 at the node limit. -/
def toRun {σ X : Type} [Inhabited X] (T : Tree σ) (st : St σ X) (complete : Bool) : Run X where
  aborted := false
  objects := 1
  contOptimal := true
  contInfeasible := false
  contDualInfeasible := false
  contSol := default
  contObj := 0
  best2 := st.inc.map (fun e => (e.2, e.1))
  modelBest := st.inc.map (·.2)
  modelObj := match st.inc with | some (v, _) => v | none => 10 ^ 50
  modelBound := T.bound st.tree
  remaining := true
  status := if complete then 0 else 1
  contUnbounded := false

/-! ## The trees -/

/-- The heap of Cbc (`CbcTree`), used by the option `tree_search_strategy` = `top-node`. -/
def heapTree (big : ℚ) : Tree (List Node) where
  init := []
  step := fun l o => match o with
    | .push x _ => some (x :: l, {})
    | .best c pick => let r := heapBest pick c l.length l; some (r.2.1, ⟨r.1.toList, r.2.2⟩)
    | .pop pick => (heapTake pick l).map (fun r => (r.2, ⟨[r.1], []⟩))
    | .clean c => some (l.filter (fun x => decide (x.obj < c)), ⟨[], l.filter (fun x => !decide (x.obj < c))⟩)
  inside := id
  empty := List.isEmpty
  bound := fun l => l.foldl (fun b x => if x.obj < b then x.obj else b) big

/-- The dive tree (src/CbcBonmin/BonDiver.cpp:40-166), with assertions, `stop_diving_on_cutoff` given. -/
def diveTree (stop : Bool) (big : ℚ) : Tree Diver where
  init := { stop := stop }
  step := Diver.step true
  inside := Diver.inside
  empty := Diver.empty
  bound := fun s => s.bestPossible big

end Verif.Bab.Search

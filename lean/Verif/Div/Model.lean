import Mathlib.Data.Rat.Defs
import Mathlib.Algebra.Order.Ring.Rat
import Mathlib.Data.List.Perm.Basic

/-!
# The dive trees (`src/CbcBonmin/BonDiver.{hpp,cpp}`)

`CbcTree` belongs to Cbc, not to this repository.  It is modelled as the list `nodes_` with the documented
behaviour of its methods; the heap order is an arbitrary selection function `pick` (given with each call,
since the comparison object may change at any time), so the theorems hold for every comparison.

A failed `assert`, an exception, a null pointer dereference and a `pop` of an empty heap are the outcome
`none`.  `dbg` tells whether `assert` is compiled in (no `NDEBUG`).
-/
namespace Verif.Div

/-- What the trees read of a `CbcNode`: `objectiveValue()`, `guessedObjectiveValue()`, `depth()`,
`branchingObject()->numberBranchesLeft()` and `numberBranches()`.  `id` stands for the pointer. -/
structure Node where
  id : Nat
  obj : ℚ
  guess : ℚ
  depth : Int
  left : Nat
  total : Nat
deriving DecidableEq

/-- `numberBranchesLeft() == numberBranches()` (BonDiver.cpp:83, 262): no branch explored yet. -/
def Node.fresh (x : Node) : Bool := x.left == x.total

/-- The choice of the top of the heap. -/
abbrev Pick := List Node → Nat

/-- Remove the top of the heap (Cbc: `nodes_.front()`, `pop_heap`, `pop_back`). -/
def heapTake (pick : Pick) (l : List Node) : Option (Node × List Node) :=
  match l[pick l % l.length]? with
  | some x => some (x, l.eraseIdx (pick l % l.length))
  | none => none

/-- `CbcTree::bestNode(cutoff)`: take nodes off the top; delete those whose objective value is not below the
cutoff; return the first other one.  Result, remaining nodes, deleted nodes. -/
def heapBest (pick : Pick) (c : ℚ) : Nat → List Node → Option Node × List Node × List Node
  | 0, l => (none, l, [])
  | n + 1, l =>
    match heapTake pick l with
    | none => (none, l, [])
    | some (x, l') =>
      if x.obj < c then (some x, l', [])
      else
        let r := heapBest pick c n l'
        (r.1, r.2.1, x :: r.2.2)

/-- The calls made by Cbc's branch-and-bound. -/
inductive Op where
  | push (x : Node) (cmp : Node → Node → Bool)
  | best (c : ℚ) (pick : Pick)
  | pop (pick : Pick)
  | clean (c : ℚ)

/-- What the caller sees of an operation: nodes handed out (returned by `bestNode`, or removed by `pop`)
and nodes deleted by `CbcTree`. -/
structure Log where
  handed : List Node := []
  deleted : List Node := []
deriving DecidableEq

/-- Run a history. -/
def run {σ : Type} (step : σ → Op → Option (σ × Log)) : σ → List Op → Option (σ × Log)
  | s, [] => some (s, {})
  | s, o :: os =>
    match step s o with
    | none => none
    | some (s', l) =>
      match run step s' os with
      | none => none
      | some (s'', l') => some (s'', ⟨l.handed ++ l'.handed, l.deleted ++ l'.deleted⟩)

/-! ## CbcDiver -/

/-- BonDiver.hpp:86-95: the fields (`treeCleaning_` is true only inside `cleanTree`). -/
structure Diver where
  nodes : List Node := []
  next : Option Node := none
  stop : Bool := false
deriving DecidableEq

/-- CbcDiver::top (BonDiver.cpp:63-73). -/
def Diver.top (s : Diver) (pick : Pick) : Option Node :=
  match s.next with
  | some x => some x
  | none => (heapTake pick s.nodes).map (·.1)

/-- CbcDiver::push (BonDiver.cpp:76-90). -/
def Diver.push (dbg : Bool) (s : Diver) (x : Node) : Option Diver :=
  if x.fresh then
    if dbg && s.next.isSome then none
    else some { s with next := some x }
  else some { s with nodes := x :: s.nodes }

/-- CbcDiver::pop (BonDiver.cpp:93-104). -/
def Diver.pop (s : Diver) (pick : Pick) : Option (Diver × Node) :=
  match s.next with
  | some x => some ({ s with next := none }, x)
  | none =>
    match heapTake pick s.nodes with
    | some (x, l) => some ({ s with nodes := l }, x)
    | none => none

/-- CbcDiver::bestNode (BonDiver.cpp:106-130).  New state, returned node (`none` = NULL), deleted nodes. -/
def Diver.best (s : Diver) (c : ℚ) (pick : Pick) : Diver × Option Node × List Node :=
  match s.next with
  | some x =>
    if x.obj < c then
      if s.stop && decide (x.guess ≥ c) then
        let r := heapBest pick c (s.nodes.length + 1) (x :: s.nodes)
        ({ s with nodes := r.2.1, next := none }, r.1, r.2.2)
      else ({ s with next := none }, some x, [])
    else
      let r := heapBest pick c (s.nodes.length + 1) (x :: s.nodes)
      ({ s with nodes := r.2.1, next := none }, r.1, r.2.2)
  | none =>
    let r := heapBest pick c s.nodes.length s.nodes
    ({ s with nodes := r.2.1 }, r.1, r.2.2)

/-- CbcDiver::empty (BonDiver.cpp:134-137). -/
def Diver.empty (s : Diver) : Bool := s.nodes.isEmpty && s.next.isNone

/-- CbcDiver::size (BonDiver.hpp:62-65). -/
def Diver.size (s : Diver) : Nat := s.nodes.length + (if s.next.isSome then 1 else 0)

/-- CbcDiver::cleanTree (BonDiver.cpp:142-151); `CbcTree::cleanTree` deletes the nodes whose objective value
is not below the cutoff.  Only the tree is modelled here; the reported bound is in `Bound.lean`. -/
def Diver.clean (s : Diver) (c : ℚ) : Diver × List Node :=
  let l := match s.next with
    | some x => x :: s.nodes
    | none => s.nodes
  ({ s with nodes := l.filter (fun x => decide (x.obj < c)), next := none },
   l.filter (fun x => !decide (x.obj < c)))

/-- CbcDiver::endSearch (BonDiver.hpp:82-85). -/
def Diver.endSearch (s : Diver) : Diver := { s with next := none }

/-- CbcDiver::getBestPossibleObjective (BonDiver.cpp:154-166). -/
def Diver.bestPossible (s : Diver) (big : ℚ) : ℚ :=
  s.nodes.foldl (fun b x => if x.obj < b then x.obj else b)
    (match s.next with | some x => x.obj | none => big)

def Diver.step (dbg : Bool) (s : Diver) : Op → Option (Diver × Log)
  | .push x _ => (s.push dbg x).map (fun s' => (s', {}))
  | .best c pick =>
    let r := s.best c pick
    some (r.1, ⟨r.2.1.toList, r.2.2⟩)
  | .pop pick => (s.pop pick).map (fun r => (r.1, ⟨[r.2], []⟩))
  | .clean c =>
    let r := s.clean c
    some (r.1, ⟨[], r.2⟩)

/-! ## CbcProbedDiver -/

/-- BonDiver.hpp:164-174. -/
structure Probed where
  nodes : List Node := []
  next : Option Node := none
  cand : Option Node := none
  stop : Bool := false
deriving DecidableEq

/-- CbcProbedDiver::top (BonDiver.cpp:238-251). -/
def Probed.top (s : Probed) (pick : Pick) : Option Node :=
  match s.next, s.cand with
  | some x, _ => some x
  | none, some y => some y
  | none, none => (heapTake pick s.nodes).map (·.1)

/-- CbcProbedDiver::push (BonDiver.cpp:254-315).  `cmp x y` is `comparison_.compareNodes(x,y)`, true when `y` is
preferred to `x`. -/
def Probed.push (dbg : Bool) (s : Probed) (x : Node) (cmp : Node → Node → Bool) : Option Probed :=
  if x.fresh then
    match s.next, s.cand with
    | none, none => some { s with next := some x }
    | _, none => some { s with cand := some x }
    | _, some y =>
      if cmp x y then some { s with next := some y, nodes := x :: s.nodes, cand := none }
      else some { s with next := some x, nodes := y :: s.nodes, cand := none }
  else
    match s.next with
    | some z =>
      if dbg && s.cand.isSome then none
      else some { s with cand := some z, next := some x }
    | none => some { s with next := some x }

/-- CbcProbedDiver::pop (BonDiver.cpp:317-331). -/
def Probed.pop (s : Probed) (pick : Pick) : Option (Probed × Node) :=
  match s.next, s.cand with
  | some x, _ => some ({ s with next := none }, x)
  | none, some y => some ({ s with cand := none }, y)
  | none, none =>
    match heapTake pick s.nodes with
    | some (x, l) => some ({ s with nodes := l }, x)
    | none => none

/-- CbcProbedDiver::bestNode (BonDiver.cpp:333-395).  Lines 345-350: when the dive is stopped `candidateChild_` is
pushed on the heap even when it is NULL; `CbcTree::push` dereferences it: outcome `none`. -/
def Probed.best (s : Probed) (c : ℚ) (pick : Pick) : Option (Probed × Option Node × List Node) :=
  match s.next with
  | some x =>
    if x.obj < c then
      if s.stop && decide (x.guess ≥ c) then
        match s.cand with
        | none => none
        | some y =>
          let r := heapBest pick c (s.nodes.length + 2) (y :: x :: s.nodes)
          some ({ s with nodes := r.2.1, next := none, cand := none }, r.1, r.2.2)
      else some ({ s with next := none }, some x, [])
    else
      let r := heapBest pick c (s.nodes.length + 1) (x :: s.nodes)
      some ({ s with nodes := r.2.1, next := none }, r.1, r.2.2)
  | none =>
    match s.cand with
    | some y =>
      if y.obj < c then
        if s.stop && decide (y.guess ≥ c) then
          let r := heapBest pick c (s.nodes.length + 1) (y :: s.nodes)
          some ({ s with nodes := r.2.1, cand := none }, r.1, r.2.2)
        else some ({ s with cand := none }, some y, [])
      else
        let r := heapBest pick c s.nodes.length s.nodes
        some ({ s with nodes := r.2.1 }, r.1, r.2.2)
    | none =>
      let r := heapBest pick c s.nodes.length s.nodes
      some ({ s with nodes := r.2.1 }, r.1, r.2.2)

/-- CbcProbedDiver::empty (BonDiver.cpp:399-402). -/
def Probed.empty (s : Probed) : Bool := s.nodes.isEmpty && s.next.isNone && s.cand.isNone

/-- CbcProbedDiver::size (BonDiver.hpp:137-140). -/
def Probed.size (s : Probed) : Nat :=
  s.nodes.length + (if s.next.isSome then 1 else 0) + (if s.cand.isSome then 1 else 0)

/-- CbcProbedDiver::cleanTree (BonDiver.cpp:407-419). -/
def Probed.clean (s : Probed) (c : ℚ) : Probed × List Node :=
  let l1 := match s.next with
    | some x => x :: s.nodes
    | none => s.nodes
  let l := match s.cand with
    | some y => y :: l1
    | none => l1
  ({ s with nodes := l.filter (fun x => decide (x.obj < c)), next := none, cand := none },
   l.filter (fun x => !decide (x.obj < c)))

/-- CbcProbedDiver::getBestPossibleObjective (BonDiver.cpp:422-436). -/
def Probed.bestPossible (s : Probed) (big : ℚ) : ℚ :=
  let b0 := match s.next with | some x => x.obj | none => big
  let b1 := match s.cand with
    | some y => if y.obj < b0 then y.obj else b0
    | none => b0
  s.nodes.foldl (fun b x => if x.obj < b then x.obj else b) b1

def Probed.step (dbg : Bool) (s : Probed) : Op → Option (Probed × Log)
  | .push x cmp => (s.push dbg x cmp).map (fun s' => (s', {}))
  | .best c pick => (s.best c pick).map (fun r => (r.1, ⟨r.2.1.toList, r.2.2⟩))
  | .pop pick => (s.pop pick).map (fun r => (r.1, ⟨[r.2], []⟩))
  | .clean c =>
    let r := s.clean c
    some (r.1, ⟨[], r.2⟩)

/-! ## CbcDfsDiver -/

/-- CbcDfsDiver::ComparisonModes (BonDiver.hpp:193-197). -/
inductive Mode where
  | enlarge | findSolutions | closeBound | limitTreeSize
deriving DecidableEq

/-- `mode_ > FindSolutions`. -/
def Mode.bound : Mode → Bool
  | .enlarge => false
  | .findSolutions => false
  | .closeBound => true
  | .limitTreeSize => true

/-- BonDiver.hpp:258-285.  `dive` is the list `dive_`, front first; `diveListSize_` is kept apart as in the code. -/
structure Dfs where
  nodes : List Node := []
  dive : List Node := []
  diveSize : Int := 0
  board : Int := -1
  nBack : Int := 0
  maxBFS : Int := 4
  maxBack : Int := 2
  maxDepth : Int := 2147483647
  mode : Mode := .enlarge
deriving DecidableEq

/-- An `assert`: with asserts compiled in and a false condition, abort. -/
def chk {α : Type} (dbg : Bool) (c : Bool) (k : Option α) : Option α := if dbg && !c then none else k

/-- CbcDfsDiver::pushDiveOntoHeap (BonDiver.cpp:675-686): the argument is not used. -/
def Dfs.diveToHeap (s : Dfs) : Dfs :=
  { s with nodes := s.dive.reverse ++ s.nodes, dive := [], diveSize := s.diveSize - s.dive.length }

/-- CbcDfsDiver::setComparisonMode (BonDiver.cpp:758-786). -/
def Dfs.setMode (s : Dfs) (m : Mode) : Dfs :=
  if m = s.mode then s
  else { ({ s with mode := m } : Dfs).diveToHeap with nBack := s.maxBack - 1 }

/-- CbcDfsDiver::top (BonDiver.cpp:508-523). -/
def Dfs.top (dbg : Bool) (s : Dfs) (pick : Pick) : Option (Option Node) :=
  chk dbg (s.mode = .findSolutions || s.dive.isEmpty) <|
  if s.diveSize ≠ 0 then
    match s.dive with
    | x :: _ => some (some x)
    | [] => none
  else some ((heapTake pick s.nodes).map (·.1))

/-- CbcDfsDiver::push (BonDiver.cpp:526-545). -/
def Dfs.push (dbg : Bool) (s : Dfs) (x : Node) : Option Dfs :=
  if s.mode.bound then chk dbg s.dive.isEmpty (some { s with nodes := x :: s.nodes })
  else some { s with dive := x :: s.dive, diveSize := s.diveSize + 1 }

/-- CbcDfsDiver::pop (BonDiver.cpp:548-564). -/
def Dfs.pop (dbg : Bool) (s : Dfs) (pick : Pick) : Option (Dfs × Node) :=
  chk dbg (!s.mode.bound || s.dive.isEmpty) <|
  match s.dive with
  | x :: d => some ({ s with dive := d, diveSize := s.diveSize - 1 }, x)
  | [] =>
    match heapTake pick s.nodes with
    | some (x, l) => some ({ s with nodes := l }, x)
    | none => none

/-- CbcDfsDiver::bestNode, lines 664-671: the dive is empty, take the best node of the heap; `node->depth()` is read
without a test, so a NULL node is the outcome `none`. -/
def Dfs.fromHeap (s : Dfs) (c : ℚ) (pick : Pick) : Option (Dfs × Option Node × List Node) :=
  let r := heapBest pick c s.nodes.length s.nodes
  match r.1 with
  | none => none
  | some x => some ({ s with nodes := r.2.1, board := x.depth, nBack := 0 }, some x, r.2.2)

/-- One pass of the loop of CbcDfsDiver::bestNode on the front node `x` of the dive (lines 616-661; `s` already has `x`
removed).  Lines 634-642 are dead code (`0 && …`).  The second component is the node to be returned, if any. -/
def Dfs.examine (s : Dfs) (x : Node) (c : ℚ) : Dfs × Option Node :=
  let r : Dfs × Option Node :=
    if x.obj > c then ({ s with nodes := x :: s.nodes, nBack := s.nBack + 1 }, none)
    else if x.depth - s.board > s.maxDepth then
      ({ s with nodes := x :: s.nodes, nBack := s.nBack + 1 }, none)
    else if x.left < x.total then ({ s with nBack := s.nBack + 1 }, some x)
    else (s, some x)
  if r.1.nBack ≥ r.1.maxBack then
    let s' := r.1.diveToHeap
    match r.2 with
    | some y => ({ s' with nodes := y :: s'.nodes }, none)
    | none => (s', none)
  else r

/-- The `while (diveListSize_ > 0)` loop (lines 607-662) and what follows it.  The first argument bounds the number of passes;
it is called with the length of the dive, which every pass decreases. -/
def Dfs.loop (dbg : Bool) (c : ℚ) (pick : Pick) : Nat → Dfs → Option (Dfs × Option Node × List Node)
  | 0, s => if s.diveSize > 0 then none else s.fromHeap c pick
  | n + 1, s =>
    if s.diveSize > 0 then
      match s.dive with
      | [] => none
      | x :: d =>
        chk dbg (decide (x.depth - s.board ≤ s.maxDepth)) <|
        match ({ s with dive := d, diveSize := s.diveSize - 1 } : Dfs).examine x c with
        | (s', some y) => some (s', some y, [])
        | (s', none) => Dfs.loop dbg c pick n s'
    else s.fromHeap c pick

/-- CbcDfsDiver::bestNode, lines 600-605: outside FindSolutions mode the result of `CbcTree::bestNode` is thrown away.  The
result is the state after it, the nodes deleted, and the node that was taken out and dropped. -/
def Dfs.misstep (s : Dfs) (c : ℚ) (pick : Pick) : Dfs × List Node × Option Node :=
  if s.mode = .findSolutions then (s, [], none)
  else
    let r := heapBest pick c s.nodes.length s.nodes
    ({ s with nodes := r.2.1 }, r.2.2, r.1)

/-- CbcDfsDiver::bestNode from line 600 on. -/
def Dfs.bestRest (dbg : Bool) (s : Dfs) (c : ℚ) (pick : Pick) : Option (Dfs × Option Node × List Node) :=
  chk dbg (s.mode = .findSolutions || s.dive.isEmpty) <|
  let m := s.misstep c pick
  chk dbg (decide (m.1.nBack < m.1.maxBack)) <|
  match Dfs.loop dbg c pick m.1.dive.length m.1 with
  | none => none
  | some (s', r, del) => some (s', r, m.2.1 ++ del)

/-- CbcDfsDiver::bestNode (BonDiver.cpp:567-672). -/
def Dfs.best (dbg : Bool) (s : Dfs) (c : ℚ) (pick : Pick) : Option (Dfs × Option Node × List Node) :=
  if s.mode = .enlarge then
    if s.diveSize = 0 then Dfs.bestRest dbg { s with mode := .findSolutions } c pick
    else
      match s.dive.getLast? with
      | none => none
      | some x =>
        if x.depth > s.maxBFS then Dfs.bestRest dbg (s.setMode .findSolutions) c pick
        else some ({ s with dive := s.dive.dropLast, diveSize := s.diveSize - 1 }, some x, [])
  else Dfs.bestRest dbg s c pick

/-- CbcDfsDiver::empty (BonDiver.cpp:688-691). -/
def Dfs.empty (s : Dfs) : Bool := s.nodes.isEmpty && s.dive.isEmpty

/-- CbcDfsDiver::size (BonDiver.hpp:230-233). -/
def Dfs.size (s : Dfs) : Int := s.nodes.length + s.diveSize

/-- CbcDfsDiver::cleanTree (BonDiver.cpp:696-707). -/
def Dfs.clean (s : Dfs) (c : ℚ) : Dfs × List Node :=
  let s' := s.diveToHeap
  ({ s' with nodes := s'.nodes.filter (fun x => decide (x.obj < c)) },
   s'.nodes.filter (fun x => !decide (x.obj < c)))

/-- CbcDfsDiver::getBestPossibleObjective (BonDiver.cpp:710-725); `CbcTree::getBestPossibleObjective` starts from 1e100
(`big`), the empty heap counts COIN_DBL_MAX (`huge`). -/
def Dfs.bestPossible (s : Dfs) (big huge : ℚ) : ℚ :=
  s.dive.foldl (fun b x => if x.obj < b then x.obj else b)
    (if s.nodes.isEmpty then huge
     else s.nodes.foldl (fun b x => if x.obj < b then x.obj else b) big)

/-- CbcDfsDiver::operator= (BonDiver.cpp:477-494): `maxDiveDepth_ = maxDiveDepth_` keeps the old value. -/
def Dfs.assign (s rhs : Dfs) : Dfs :=
  { s with nodes := rhs.nodes, dive := rhs.dive, diveSize := rhs.diveSize, board := rhs.board, nBack := rhs.nBack,
           maxBFS := rhs.maxBFS, maxBack := rhs.maxBack, maxDepth := s.maxDepth, mode := rhs.mode }

/-- The calls on the dfs diver: those of every tree, and mode changes requested by `DiverCompare`
(BonDiver.cpp:792-810, 846-855). -/
inductive DOp where
  | tree (o : Op)
  | mode (m : Mode)

def Dfs.step (dbg : Bool) (s : Dfs) : DOp → Option (Dfs × Log)
  | .tree (.push x _) => (s.push dbg x).map (fun s' => (s', {}))
  | .tree (.best c pick) => (s.best dbg c pick).map (fun r => (r.1, ⟨r.2.1.toList, r.2.2⟩))
  | .tree (.pop pick) => (s.pop dbg pick).map (fun r => (r.1, ⟨[r.2], []⟩))
  | .tree (.clean c) =>
    let r := s.clean c
    some (r.1, ⟨[], r.2⟩)
  | .mode m => some (s.setMode m, {})

/-- Run a history of the dfs diver. -/
def Dfs.run (dbg : Bool) : Dfs → List DOp → Option (Dfs × Log)
  | s, [] => some (s, {})
  | s, o :: os =>
    match s.step dbg o with
    | none => none
    | some (s', l) =>
      match Dfs.run dbg s' os with
      | none => none
      | some (s'', l') => some (s'', ⟨l.handed ++ l'.handed, l.deleted ++ l'.deleted⟩)

/-- Looking at the top is undefined exactly when the recorded size of the dive is wrong, or, with assertions, when there is a dive outside of the mode that makes dives. -/
theorem top_undefined_iff (dbg : Bool) (s : Dfs) (pick : Pick) : s.top dbg pick = none ↔ (dbg = true ∧ s.mode ≠ .findSolutions ∧ s.dive ≠ []) ∨ (s.diveSize ≠ 0 ∧ s.dive = []) := by
  unfold Dfs.top chk
  cases dbg
  · cases hd : s.dive with
    | nil => by_cases h0 : s.diveSize = 0 <;> simp [h0]
    | cons x l => by_cases h0 : s.diveSize = 0 <;> simp [h0]
  · by_cases hm : s.mode = .findSolutions
    · cases hd : s.dive with
      | nil => by_cases h0 : s.diveSize = 0 <;> simp [h0, hm]
      | cons x l => by_cases h0 : s.diveSize = 0 <;> simp [h0, hm]
    · cases hd : s.dive with
      | nil => by_cases h0 : s.diveSize = 0 <;> simp [h0, hm]
      | cons x l => by_cases h0 : s.diveSize = 0 <;> simp [hm]

end Verif.Div

import Verif.Bcp.Node
/-!
# Model of a whole search by BCP with nonlinear relaxations
(experimental/Bcp/BM_lp.cpp:88-132, 164-196, 312-328, experimental/Bcp/BM_lp_branch.cpp:30-88, 745-988, 992-1003)

The framework BCP is not part of the code.  What is assumed of it: nodes are taken from the open ones in any order (`picks`), one solve at a time;
an infeasible node is dropped; `compute_lower_bound` and `test_feasibility` are called for every other result, and for an abandoned one if
`late` is set; a solution better than the best one becomes the best one; a node whose bound is over the upper bound (`over_ub`, with the granularity) is
dropped before branching; a node to be solved again stays open; the children of a node start with its bound.  Bounds handed over for the children
(BM_lp_branch.cpp:942-950) are not used.  Solving a box gives always the same result; `base` is `BCP_lp_user::try_to_branch`, used when no branches are to be
evaluated; `num` is the number of branches for a node and the number of candidates (`limit`).  All integer columns are objects (`BM_DISREGARD_SOS`), and
the value of a column is within its bounds.
-/
namespace Verif.Bcp.Search

/-- Everything the search calls. -/
structure World where
  S : Box → Raw
  pt : Box → ℕ → ℚ
  ints : List ℕ
  tol : ℚ
  prim : ℚ
  gran : ℚ
  maxFail : Int
  late : Bool
  dbg : Bool
  C : Cfg
  prio : ℕ → Int
  useI : Box → ℕ → ℚ
  useF : Box → ℕ → ℚ
  sel : Box → Sel
  num : ℕ → ℕ → Int
  base : St → Box → Except Err Out

/-- An open node: number, bounds, failures in a row, lower bound. -/
structure Nd where
  idx : ℕ
  box : Box
  fails : ℕ
  bound : ℚ

/-- The state: open nodes, next number, best solution with its value, records of strong branching; `lost`, not in the code, are the boxes of the nodes
dropped after too many failures. -/
structure Sr where
  nodes : List Nd
  next : ℕ
  best : Option (ℚ × (ℕ → ℚ))
  sb : ℕ → SbRes
  lost : List Box

/-- Distance to the nearest whole number. -/
def dist (v : ℚ) : ℚ := |v - ⌊v + 1 / 2⌋|

/-- The point the branching sees: that of the solve, after a failure with the integer columns not fixed moved half-way between whole numbers (BM_lp_branch.cpp:58,
src/Interfaces/BonTMINLP2TNLP.cpp:619-629). -/
def shown (w : World) (B : Box) (c : ℕ) : ℚ :=
  if (w.S B).aband = true ∧ B.lo c < B.up c + 1 / 2 then ⌈B.lo c⌉ + 1 / 2 else w.pt B c

/-- The objects at a node; the infeasibility is judged with the primal tolerance of the NLP solver (BM_lp_branch.cpp:833, 193-196). -/
def objs (w : World) (B : Box) : List Obj :=
  w.ints.zipIdx.map fun p =>
    ⟨p.2, p.1, w.prio p.2, if w.prim < dist (shown w B p.1) then dist (shown w B p.1) else 0, shown w B p.1, B.lo p.1, B.up p.1, w.useI B p.2, w.useF B p.2⟩

/-- `over_ub`. -/
def over (w : World) (best : Option (ℚ × (ℕ → ℚ))) (v : ℚ) : Bool :=
  match best with
  | none => false
  | some u => decide (u.1 - w.gran ≤ v)

/-- `test_feasibility_BB` (BM_lp.cpp:180-196): all integer columns are whole up to `integerTolerance_`. -/
def integral (w : World) (x : ℕ → ℚ) : Bool := w.ints.all fun c => decide (dist (x c) ≤ w.tol)

/-- The best solution after a solve. -/
def newBest (w : World) (best : Option (ℚ × (ℕ → ℚ))) (B : Box) : Option (ℚ × (ℕ → ℚ)) :=
  if ((w.S B).aband = false ∨ w.late = true) ∧ integral w (w.pt B) = true then
    match best with
    | none => some ((w.S B).obj, w.pt B)
    | some u => if (w.S B).obj < u.1 then some ((w.S B).obj, w.pt B) else some u
  else best

/-- The lower bound after a solve (`compute_lower_bound`, BM_lp.cpp:312-328). -/
def newBound (w : World) (nd : Nd) : ℚ :=
  if (w.S nd.box).aband = false ∨ w.late = true then max (w.S nd.box).obj nd.bound else nd.bound

/-- `try_to_branch` (BM_lp_branch.cpp:745-819), with the records afterwards. -/
def tryAt (w : World) (best : Option (ℚ × (ℕ → ℚ))) (idx : ℕ) (sb : ℕ → SbRes) (s : St) (B : Box) : Except Err (Out × (ℕ → SbRes)) :=
  if s.inf = [] then .ok (⟨0, B, none⟩, sb)
  else if 0 < w.num idx s.num then
    (process w.dbg (over w best) (w.sel B) (records w.S B (w.num idx s.num).toNat s sb) s.inf s.feas B).map
      fun o => (o, records w.S B (w.num idx s.num).toNat s sb)
  else (w.base s B).map fun o => (o, clear sb)

/-- The children in the order in which they are handed over (BM_lp_branch.cpp:929-956). -/
def children (B : Box) (next fails : ℕ) (bound : ℚ) (b : Obj × Bool) : List Nd :=
  [⟨next, branchBox B ⟨b.2, b.1.ind, b.1.col, b.1.v, if b.2 then ⌈b.1.v⌉ else ⌊b.1.v⌋⟩, fails, bound⟩,
   ⟨next + 1, branchBox B ⟨!b.2, b.1.ind, b.1.col, b.1.v, if b.2 then ⌊b.1.v⌋ else ⌈b.1.v⌉⟩, fails, bound⟩]

/-- What follows `try_to_branch` (BM_lp_branch.cpp:880-981). -/
def follow (st : Sr) (nd : Nd) (fails : ℕ) (bound : ℚ) (o : Out) : Except Err Sr :=
  match decision o.ret o.brObj.isSome with
  | .error e => .error e
  | .ok .fathomed => .ok st
  | .ok .resolve => .ok { st with nodes := ⟨nd.idx, propagate o.ret nd.box o.box nd.box, fails, bound⟩ :: st.nodes }
  | .ok .branch =>
    match o.brObj with
    | none => .error .fatal
    | some b => .ok { st with nodes := children (propagate o.ret nd.box o.box nd.box) st.next fails bound b ++ st.nodes, next := st.next + 2 }

/-- `select_branching_candidates` (BM_lp_branch.cpp:30-88) and what it leads to. -/
def branchAt (w : World) (st : Sr) (nd : Nd) (bound : ℚ) : Except Err Sr :=
  if (failStep w.maxFail nd.fails (w.S nd.box).aband).2 then .ok { st with lost := nd.box :: st.lost }
  else
    match sortObjects w.C (objs w nd.box) with
    | none => .error .undef
    | some (_, s) =>
      match tryAt w st.best nd.idx st.sb s nd.box with
      | .error e => .error e
      | .ok (o, sb) => follow { st with sb := sb } nd (failStep w.maxFail nd.fails (w.S nd.box).aband).1 bound o

/-- One solve of a node taken from the open ones. -/
def solve (w : World) (st : Sr) (nd : Nd) : Except Err Sr :=
  if (w.S nd.box).inf then .ok st
  else if over w (newBest w st.best nd.box) (newBound w nd) then .ok { st with best := newBest w st.best nd.box }
  else branchAt w { st with best := newBest w st.best nd.box } nd (newBound w nd)

/-- One step: node number `k` of the list is taken. -/
def visit (w : World) (st : Sr) (k : ℕ) : Except Err Sr :=
  match st.nodes[k]? with
  | none => .ok st
  | some nd => solve w { st with nodes := st.nodes.eraseIdx k } nd

/-- A run. -/
def run (w : World) : Sr → List ℕ → Except Err Sr
  | st, [] => .ok st
  | st, k :: ks =>
    match visit w st k with
    | .error e => .error e
    | .ok st' => run w st' ks

/-- The root (BM_tm.cpp:137-144), with what is known to be a lower bound. -/
def root (R : Box) (bound : ℚ) (sb : ℕ → SbRes) : Sr := ⟨[⟨0, R, 0, bound⟩], 1, none, sb, []⟩

/-! ## Specification -/

/-- A feasible point with whole values in the integer columns. -/
def Sol (F : (ℕ → ℚ) → Prop) (ints : List ℕ) (x : ℕ → ℚ) : Prop := F x ∧ ∀ c ∈ ints, ∃ k : ℤ, x c = k

/-- The number of branches evaluated is even or all are evaluated. -/
def Paired (num : ℕ → ℕ → Int) : Prop := ∀ i m, 0 < num i m → num i m % 2 = 0 ∨ (m : Int) ≤ num i m

/-- The integer columns have whole bounds. -/
def Whole (ints : List ℕ) (B : Box) : Prop := ∀ c ∈ ints, (∃ k : ℤ, B.lo c = k) ∧ ∃ k : ℤ, B.up c = k

/-- What is asked of the branching of BCP itself: it drops nothing wanted, keeps bounds whole, only tightens them, and branches on an infeasible object. -/
def BaseOk (w : World) (F : (ℕ → ℚ) → Prop) : Prop :=
  ∀ s B o, w.base s B = .ok o → (∀ x, Sol F w.ints x → B.has x → o.ret ≠ -2 ∧ (propagate o.ret B o.box B).has x) ∧
    (Whole w.ints B → Whole w.ints (propagate o.ret B o.box B)) ∧ (∀ c, B.lo c ≤ (propagate o.ret B o.box B).lo c ∧ (propagate o.ret B o.box B).up c ≤ B.up c) ∧
    ∀ b, o.brObj = some b → b.1 ∈ s.inf

/-- The sorts sort. -/
def Sorts (w : World) : Prop := ∃ di df, SortOk di Obj.useI w.C.srtI ∧ SortOk df Obj.useF w.C.srtF

/-- The integer columns of a point are within the bounds it was found with. -/
def InBox (w : World) : Prop := ∀ T, (w.S T).inf = false → ∀ c ∈ w.ints, T.lo c ≤ w.pt T c ∧ w.pt T c ≤ T.up c

/-- The values used as lower bounds are lower bounds. -/
def BoundOk (w : World) (F : (ℕ → ℚ) → Prop) (f : (ℕ → ℚ) → ℚ) : Prop :=
  ∀ T, (w.S T).inf = false → ((w.S T).aband = false ∨ w.late = true) → ∀ x, F x → T.has x → (w.S T).obj ≤ f x

/-- Points looked at as solutions are feasible, and their value is the one reported. -/
def PointOk (w : World) (F : (ℕ → ℚ) → Prop) (f : (ℕ → ℚ) → ℚ) : Prop :=
  ∀ T, (w.S T).inf = false → ((w.S T).aband = false ∨ w.late = true) → F (w.pt T) ∧ f (w.pt T) = (w.S T).obj

/-- Everything asked for: the solver tells the truth, values used as lower bounds are such, integer columns are within their bounds. -/
structure Hyp (w : World) (F : (ℕ → ℚ) → Prop) (f : (ℕ → ℚ) → ℚ) : Prop where
  honest : Honest F f w.S
  bound : BoundOk w F f
  base : BaseOk w F
  sorts : Sorts w
  paired : Paired w.num
  inBox : InBox w
  prim : w.prim < 1 / 2

/-- What is asked so that no run ends with an error: some integer column, none listed twice, a primal tolerance not above the integer tolerance, and a branching of BCP
itself which decides. -/
structure Quiet (w : World) : Prop where
  some : w.ints ≠ []
  once : w.ints.Nodup
  tols : 0 ≤ w.prim ∧ w.prim ≤ w.tol
  gran : 0 ≤ w.gran
  base : ∀ s B, s.inf ≠ [] → ∃ o d, w.base s B = .ok o ∧ decision o.ret o.brObj.isSome = .ok d

/-- The branching of BCP itself does not have a node solved again. -/
def BaseMoves (w : World) : Prop := ∀ s B o, w.base s B = .ok o → decision o.ret o.brObj.isSome ≠ .ok .resolve

/-- The number of failures in a row at which a node is dropped. -/
def cap (w : World) : ℕ := (max 1 w.maxFail).toNat

/-- The number of steps of length one in the integer columns of a box. -/
def size (w : World) (B : Box) : ℕ := (w.ints.map fun c => (⌊B.up c⌋ - ⌊B.lo c⌋).toNat).sum

end Verif.Bcp.Search

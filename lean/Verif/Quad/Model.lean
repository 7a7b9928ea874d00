import Mathlib.Algebra.BigOperators.Group.List.Basic
import Mathlib.Algebra.Order.Field.Rat

/-!
# Model of quadratic rows (`BonTMatrix`, `BonQuadRow`, `BonTMINLP2Quad`)

Points are total functions `Nat → ℚ` (the code indexes a raw `double*`; the length of that array is the
caller's business and not modelled).  `double` is `ℚ`.
-/
namespace Verif.Quad

/-- One stored entry of a triplet matrix `TMat` (src/Algorithms/QuadCuts/BonTMatrix.hpp:22-27,
arrays `iRow_`, `jCol_`, `value_` zipped together). -/
structure Ent where
  row : Nat
  col : Nat
  val : ℚ
deriving DecidableEq, Repr

/-- Comparator `RowOrder` (BonTMatrix.hpp:105-115). -/
def rowLt (a b : Ent) : Bool :=
  if a.row < b.row then true
  else if a.row = b.row ∧ a.col < b.col then true
  else false

/-- Comparator `ColumnOrder` (BonTMatrix.hpp:90-101). -/
def colLt (a b : Ent) : Bool :=
  if a.col < b.col then true
  else if a.col = b.col ∧ a.row < b.row then true
  else false

/-- Reading the entries through an ordering vector, `M[ordering[i]]` for all `i`
(BonTMatrix.cpp:108-112, BonQuadRow.cpp:235-239).  `none` = out-of-range index (undefined behaviour). -/
def gather (ord : List Nat) (es : List Ent) : Option (List Ent) :=
  ord.mapM (fun k => es[k]?)

/-- `ord` is a possible result of `std::sort` on the index vector `0..nnz-1` with comparator `lt`
(`orderByRows`/`orderByColumns`, BonTMatrix.hpp:118-128, with `resizeOrdering` 137-142 on an empty or
same-size vector).  `std::sort` may order equivalent entries arbitrarily, hence a predicate. -/
def IsOrdering (lt : Ent → Ent → Bool) (es : List Ent) (ord : List Nat) : Prop :=
  ord.Perm (List.range es.length) ∧
  ∀ rs, gather ord es = some rs → rs.Pairwise (fun a b => lt b a = false)

/-- The scan of `numNonEmptyRows`/`numNonEmptyCols` after the first entry
(BonTMatrix.cpp:110-115 and 129-134); `i` is the loop counter, `b` is `nonEmptyRows_.back().first`. -/
def nonEmptyScan (key : Ent → Nat) : List Ent → Nat → Nat → List (Nat × Nat)
  | [], _, _ => []
  | e :: es, i, b =>
    if key e > b then (key e, i) :: nonEmptyScan key es (i+1) (key e)
    else nonEmptyScan key es (i+1) b

/-- `numNonEmptyRows` (BonTMatrix.cpp:103-117) / `numNonEmptyCols` (122-136): list of (index, first position). -/
def nonEmpty (key : Ent → Nat) : List Ent → List (Nat × Nat)
  | [] => []
  | e :: es => (key e, 0) :: nonEmptyScan key es 1 (key e)

/-- `gStore` = `std::map<int, pair<double,double>>` (BonQuadRow.hpp:106) as a key-sorted association list:
(index, linear coefficient, gradient accumulator). -/
abbrev GMap := List (Nat × ℚ × ℚ)

/-- `g_.insert(make_pair(k, make_pair(a,0.)))` (BonQuadRow.cpp:119,128,138): no effect if the key exists. -/
def GMap.insert (k : Nat) (a : ℚ) : GMap → GMap
  | [] => [(k, a, 0)]
  | (k', p) :: g =>
    if k < k' then (k, a, 0) :: (k', p) :: g
    else if k = k' then (k', p) :: g
    else (k', p) :: GMap.insert k a g

/-- `it->second.second += v` through an iterator to key `k` (BonQuadRow.cpp:240,254). -/
def GMap.bump (k : Nat) (v : ℚ) (g : GMap) : GMap :=
  g.map (fun e => if e.1 = k then (e.1, e.2.1, e.2.2 + v) else e)

/-- Zeroing of the accumulators (BonQuadRow.cpp:225-227). -/
def GMap.zero (g : GMap) : GMap := g.map (fun e => (e.1, e.2.1, 0))

/-- A quadratic row `c + a x + xᵀQx` (BonQuadRow.hpp:29-120).  `a` is the `CoinPackedVector`, `q` the triplets of
`Q_` and `rs`/`cs` the entries read through `rowOrdering_`/`columnOrdering_`. -/
structure QRow where
  c : ℚ
  a : List (Nat × ℚ)
  q : List Ent
  rs : List Ent
  cs : List Ent
  g : GMap

/-- `QuadRow::initialize` (BonQuadRow.cpp:102-142) with given orderings; the `assert(jCol >= iRow)` of line 106
and out-of-range orderings are the outcome `none`. -/
def QRow.initialize (c : ℚ) (a : List (Nat × ℚ)) (q : List Ent) (ro co : List Nat) : Option QRow :=
  if q.all (fun e => e.row ≤ e.col) then do
    let rs ← gather ro q
    let cs ← gather co q
    let g1 := a.foldl (fun g e => GMap.insert e.1 e.2 g) []
    let g2 := (nonEmpty Ent.row rs).foldl (fun g e => GMap.insert e.1 0 g) g1
    let g3 := (nonEmpty Ent.col cs).foldl (fun g e => GMap.insert e.1 0 g) g2
    pure ⟨c, a, q, rs, cs, g3⟩
  else none

/-- Inner loop of the row pass (BonQuadRow.cpp:234-239): from position `s` while the row is `r`. -/
def rowSeg (x : Nat → ℚ) (rs : List Ent) (p : Nat × Nat) : ℚ :=
  (((rs.drop p.2).takeWhile (fun e => p.1 = e.row)).map (fun e => x e.col * e.val)).sum

/-- Inner loop of the column pass (BonQuadRow.cpp:247-253), skipping the diagonal. -/
def colSeg (x : Nat → ℚ) (cs : List Ent) (p : Nat × Nat) : ℚ :=
  (((cs.drop p.2).takeWhile (fun e => p.1 = e.col)).map
    (fun e => if e.row ≠ e.col then x e.row * e.val else 0)).sum

/-- `QuadRow::internal_eval_grad` (BonQuadRow.cpp:222-259). -/
def QRow.internalEvalGrad (r : QRow) (x : Nat → ℚ) : GMap :=
  let g0 := GMap.zero r.g
  let g1 := (nonEmpty Ent.row r.rs).foldl (fun g p => GMap.bump p.1 (rowSeg x r.rs p) g) g0
  (nonEmpty Ent.col r.cs).foldl (fun g p => GMap.bump p.1 (colSeg x r.cs p) g) g1

/-- `QuadRow::eval_f` (BonQuadRow.cpp:159-180). -/
def QRow.evalF (r : QRow) (x : Nat → ℚ) : ℚ :=
  let g := r.internalEvalGrad x
  let lin := r.a.foldl (fun v e => v + e.2 * x e.1) r.c
  g.foldl (fun v e => v + e.2.2 * x e.1) lin

/-- `QuadRow::gradiant_struct` (BonQuadRow.cpp:187-195); the `bool offset` adds 1 for Fortran style. -/
def QRow.gradStruct (r : QRow) (offset : Bool) : List Nat :=
  r.g.map (fun e => e.1 + (if offset then 1 else 0))

/-- `QuadRow::eval_grad` (BonQuadRow.cpp:198-220). -/
def QRow.evalGrad (r : QRow) (x : Nat → ℚ) : List ℚ :=
  (r.internalEvalGrad x).map (fun e => 2 * e.2.2 + e.2.1)

/-- `QuadRow::nnz_grad` (BonQuadRow.cpp:183-185). -/
def QRow.nnzGrad (r : QRow) : Nat := r.g.length

/-- Storage types of the matrix of a quadratic cut (BonQuadCut.hpp, `MatrixStorageType`). -/
inductive Storage where | upper | lower | full
deriving DecidableEq

/-- `TMat::make_lower_to_be_upper` (BonTMatrix.cpp:184-189): swap the two index arrays. -/
def lowerToUpper (q : List Ent) : List Ent := q.map (fun e => ⟨e.col, e.row, e.val⟩)

/-- One evaluation of the loop header and body of `make_full_upper_triangular` (BonTMatrix.cpp:195-201) on the state
(i, j, entries): `none` when the loop is left.  Neither counter is ever incremented. -/
def fullStep (st : Nat × Nat × List Ent) : Option (Nat × Nat × List Ent) :=
  match st with
  | (i, j, q) =>
    if i < q.length ∧ j < q.length then
      match q[i]? with
      | some e => some (i, j, if e.row < e.col then q.set i ⟨e.col, e.row, e.val⟩ else q)
      | none => none
    else none

/-- `n` iterations; `none` if the loop was left before. -/
def fullIter : Nat → Nat × Nat × List Ent → Option (Nat × Nat × List Ent)
  | 0, st => some st
  | n + 1, st => (fullStep st).bind (fullIter n)

/-- Loop of `removeDuplicates` (BonTMatrix.cpp:141-152) for `i` in the given list, on the physical array `q` read and
written through the row ordering `ord`; returns the array and the final `j`.  `none` = out-of-range access. -/
def dupLoop (ord : List Nat) : List Nat → Nat → List Ent → Option (List Ent × Nat)
  | [], j, q => some (q, j)
  | i :: is, j, q => do
    let oi ← ord[i]?
    let oj ← ord[j]?
    let ei ← q[oi]?
    let ej ← q[oj]?
    if ei.col = ej.col ∧ ei.row = ej.row then
      dupLoop ord is j (q.set oj ⟨ej.row, ej.col, ej.val + ei.val⟩)
    else do
      let oj' ← ord[j + 1]?
      if oj' < q.length then dupLoop ord is (j + 1) (q.set oj' ei) else none

/-- `TMat::removeDuplicates` (BonTMatrix.cpp:138-157): run the loop, then keep the first `j` physical entries
(`nnz_ = j`). -/
def removeDuplicates (ord : List Nat) (q : List Ent) : Option (List Ent) :=
  (dupLoop ord (List.range' 1 (q.length - 1)) 0 q).map (fun r => r.1.take r.2)

/-- A quadratic cut: constant, linear part, triplets, storage type (BonQuadCut.hpp). -/
structure QCut where
  c : ℚ
  a : List (Nat × ℚ)
  q : List Ent
  ty : Storage
  lb : ℚ
  ub : ℚ

/-- `TMat::make_upper_triangular` (BonTMatrix.cpp:159-180) for the `Upper` and `Lower` cases; failing asserts are
`none`.  The `Full` case does not return unless the matrix is empty (`fullStep` below,
theorem `full_storage_never_returns`), so it is `none` for a nonempty matrix. -/
def makeUpper (ty : Storage) (q : List Ent) : Option (List Ent) :=
  match ty with
  | .upper => if q.all (fun e => e.row ≤ e.col) then some q else none
  | .lower => if q.all (fun e => e.col ≤ e.row) then some (lowerToUpper q) else none
  | .full => if q = [] then some [] else none

/-- `QuadRow::QuadRow(const QuadCut&)` (BonQuadRow.cpp:54-60): the constant term is set to 0. -/
def QRow.ofCut (cut : QCut) (ro co : List Nat) : Option QRow := do
  let q ← makeUpper cut.ty cut.q
  QRow.initialize 0 cut.a q ro co

/-- `QuadRow::operator=(const QuadCut&)` (BonQuadRow.cpp:62-76): the constant term is kept. -/
def QRow.assignCut (cut : QCut) (ro co : List Nat) : Option QRow := do
  let q ← makeUpper cut.ty cut.q
  QRow.initialize cut.c cut.a q ro co

end Verif.Quad

import Verif.Quad.Spec
import Mathlib.Data.List.Sort
/-!
# Model of the Hessian structure and cut management of `TMINLP2TNLPQuadCuts`
(src/Algorithms/QuadCuts/BonTMINLP2Quad.cpp, BonQuadRow.cpp)
-/
namespace Verif.Quad

/-- `matEntry` (BonQuadRow.hpp:20): (column, row) as used by `add_to_hessian`. -/
abbrev Key := Nat × Nat

/-- Order of `std::pair<int,int>` in `std::map`. -/
def klt (a b : Key) : Prop := a.1 < b.1 ∨ (a.1 = b.1 ∧ a.2 < b.2)
instance (a b : Key) : Decidable (klt a b) := by unfold klt; infer_instance

/-- `AdjustableMat = std::map<matEntry, matIdx>` (BonQuadRow.hpp:26) as key-sorted association list;
the payload is (index in the value array, reference count; -1 = entry of the original problem). -/
abbrev HMap := List (Key × Nat × Int)

/-- `H.find(e)`. -/
def HMap.find (H : HMap) (k : Key) : Option (Nat × Int) :=
  match H with
  | [] => none
  | (k', p) :: H' => if k' = k then some p else HMap.find H' k

/-- `H.insert(...)` of an absent key at its sorted place. -/
def HMap.insert (k : Key) (p : Nat × Int) : HMap → HMap
  | [] => [(k, p)]
  | (k', p') :: H => if klt k k' then (k, p) :: (k', p') :: H else (k', p') :: HMap.insert k p H

/-- Assignment of the payload through an iterator. -/
def HMap.upd (k : Key) (p : Nat × Int) (H : HMap) : HMap :=
  H.map (fun e => if e.1 = k then (e.1, p) else e)

/-- `H.erase(it)`. -/
def HMap.erase (k : Key) (H : HMap) : HMap := H.filter (fun e => e.1 ≠ k)

/-- The pair used as map key for an entry (BonQuadRow.cpp:266). -/
def entKey (off : Nat) (e : Ent) : Key := (e.col + off, e.row + off)

/-- One iteration of `QuadRow::add_to_hessian` (BonQuadRow.cpp:264-279). -/
def HMap.addKey (H : HMap) (k : Key) : HMap :=
  match H.find k with
  | some (i, c) => if c ≠ -1 then H.upd k (i, c + 1) else H
  | none => H.insert k (H.length, 1)

/-- `QuadRow::add_to_hessian` (BonQuadRow.cpp:261-280); the iterators pushed in `Q_hessian_idx_` are
represented by their keys (`q.map (entKey off)`), since `std::map` iterators stay valid. -/
def HMap.addRow (off : Nat) (q : List Ent) (H : HMap) : HMap :=
  (q.map (entKey off)).foldl HMap.addKey H

/-- One iteration of `QuadRow::remove_from_hessian` (BonQuadRow.cpp:284-290);
`none` = the iterator was already erased (undefined behaviour). -/
def HMap.removeKey (H : HMap) (k : Key) : Option HMap :=
  match H.find k with
  | none => none
  | some (i, c) =>
    let c' := if c ≠ -1 then c - 1 else c
    some (if c' = 0 then H.erase k else H.upd k (i, c'))

/-- `QuadRow::remove_from_hessian` (BonQuadRow.cpp:282-292). -/
def HMap.removeRow (off : Nat) (q : List Ent) (H : HMap) : Option HMap :=
  (q.map (entKey off)).foldlM HMap.removeKey H

/-- Structure call of `eval_h` (BonTMINLP2Quad.cpp:295-326): loop over the map in key order, renumbering the entries
that are not original from `sup` on, and recording the writes `iRow[pos], jCol[pos] = key`.
A failing `assert` (lines 306, 309, 310) is `none`. -/
def structLoop (nOrig : Nat) : HMap → Nat → Option (HMap × List (Nat × Key))
  | [], _ => some ([], [])
  | (k, i, c) :: H, sup =>
    if c = -1 then
      if i < nOrig then
        (structLoop nOrig H sup).map (fun r => ((k, i, c) :: r.1, (i, k) :: r.2))
      else none
    else
      if c > 0 ∧ i ≥ nOrig then
        (structLoop nOrig H (sup + 1)).map (fun r => ((k, sup, c) :: r.1, (sup, k) :: r.2))
      else none

/-- `eval_h` with `values == NULL`: `nnz_sup` starts at `nnz_h_lag_orig` (line 303). -/
def evalHStruct (nOrig : Nat) (H : HMap) : Option (HMap × List (Nat × Key)) := structLoop nOrig H nOrig

/-- Contents of `iRow`/`jCol` (of length `n`) after the writes of the structure call; `none` = never written. -/
def applyWrites (n : Nat) (ws : List (Nat × Key)) : List (Option Key) :=
  ws.foldl (fun arr w => arr.set w.1 (some w.2)) (List.replicate n none)

/-- `values[i] += v`; `none` = out of range. -/
def addAt (vs : List ℚ) (i : Nat) (v : ℚ) : Option (List ℚ) :=
  match vs[i]? with
  | some w => some (vs.set i (w + v))
  | none => none

/-- `QuadRow::eval_hessian` (BonQuadRow.cpp:295-307). -/
def evalHessian (off : Nat) (q : List Ent) (H : HMap) (lam : ℚ) (vs : List ℚ) : Option (List ℚ) :=
  q.foldlM (fun vs e => (H.find (entKey off e)).bind (fun p => addAt vs p.1 (lam * 2 * e.val))) vs

/-- Value call of `eval_h` (BonTMINLP2Quad.cpp:332-342); `v0` are the values written by the original problem's
`eval_h` in the first `nnz_h_lag_orig` places; the rest is zeroed (337). `rows` pairs each live row's triplets with its
multiplier `lambda[i + m_orig]`. -/
def evalHValues (off : Nat) (H : HMap) (v0 : List ℚ) (rows : List (List Ent × ℚ)) : Option (List ℚ) :=
  rows.foldlM (fun vs r => evalHessian off r.1 H r.2 vs) (v0 ++ List.replicate (H.length - v0.length) 0)

/-! ### rows and bounds -/

/-- What the problem stores per appended row: its triplets and the number of gradient entries. -/
structure HRow where
  q : List Ent
  gnz : Nat
deriving DecidableEq

/-- The part of `TMINLP2TNLPQuadCuts` (and its base) touched by cut management: row bounds (original rows
first), appended rows, Hessian map, Jacobian size.  `off` is 1 for Fortran index style. -/
structure NState where
  off : Nat
  gl : List ℚ
  gu : List ℚ
  rows : List HRow
  H : HMap
  nnzJac : Int

/-- Adding one cut (loop body of BonTMINLP2Quad.cpp:360-366, 383-395 and 424-441). A linear cut has `q = []`. -/
def NState.add (s : NState) (cut : ℚ × ℚ × HRow) : NState :=
  { s with gl := s.gl ++ [cut.1], gu := s.gu ++ [cut.2.1], rows := s.rows ++ [cut.2.2],
           H := s.H.addRow s.off cut.2.2.q, nnzJac := s.nnzJac + cut.2.2.gnz }

/-- `addCuts` (BonTMINLP2Quad.cpp:374-399). -/
def NState.addCuts (s : NState) (cuts : List (ℚ × ℚ × HRow)) : NState := cuts.foldl NState.add s

/-- `INT_MAX` -/
def INT_MAX : Nat := 2147483647

/-- First loop of `removeCuts` (BonTMINLP2Quad.cpp:453-458).  Rows are `Option` as pointers are set to NULL;
an index before the first cut, past the end, or already NULL is undefined behaviour (`none`). -/
def eraseLoop (m off : Nat) : List Nat → List (Option HRow) → HMap → Int →
    Option (List (Option HRow) × HMap × Int)
  | [], rows, H, nz => some (rows, H, nz)
  | ix :: ixs, rows, H, nz =>
    if ix < m then none else
    match rows[ix - m]? with
    | some (some r) =>
      (HMap.removeRow off r.q H).bind
        (fun H' => eraseLoop m off ixs (rows.set (ix - m) none) H' (nz - r.gnz))
    | _ => none

/-- `order` before sorting (BonTMINLP2Quad.cpp:460-466): identity with removed positions set to `INT_MAX`. -/
def orderInit (m : Nat) (n : Nat) (idxs : List Nat) : List Nat :=
  idxs.foldl (fun o ix => o.set (ix - m) INT_MAX) (List.range n)

/-- Compaction loop (BonTMINLP2Quad.cpp:474-479) for one array, in place; returns the array and the final `i`.
Running off the end of `order`, or an out-of-range read, is `none`. -/
def compact {α} : List Nat → Nat → List α → Option (List α × Nat)
  | [], _, _ => none
  | o :: os, i, arr =>
    if o < INT_MAX then
      if o ≥ i then
        match arr[o]? with
        | some a => compact os (i + 1) (arr.set i a)
        | none => none
      else none
    else some (arr, i)

/-- `m_tminlp` (BonTMINLP2Quad.cpp:451): number of constraints minus number of appended rows. -/
def NState.mTminlp (s : NState) : Nat := s.gl.length - s.rows.length

/-- `removeCuts` (BonTMINLP2Quad.cpp:447-483); `std::sort` on `int`s has one possible result, so any sorting function
models it. -/
def NState.removeCuts (s : NState) (idxs : List Nat) : Option NState :=
  if idxs = [] then some s else do
    let m := s.mTminlp
    let (rows1, H1, nz1) ← eraseLoop m s.off idxs (s.rows.map some) s.H s.nnzJac
    let order := (orderInit m s.rows.length idxs).insertionSort (· ≤ ·)
    let (rows2, i) ← compact order 0 rows1
    let (gl2, _) ← compact order 0 (s.gl.drop m)
    let (gu2, _) ← compact order 0 (s.gu.drop m)
    -- a NULL pointer kept among the live rows would be dereferenced later
    let rows3 ← (rows2.take i).mapM id
    pure { s with rows := rows3, gl := s.gl.take m ++ gl2.take i, gu := s.gu.take m ++ gu2.take i,
                  H := H1, nnzJac := nz1 }

/-- Operations of the cut-management interface. -/
inductive CutOp where
  | add (cuts : List (ℚ × ℚ × HRow))
  | remove (idxs : List Nat)
  | structure_call

/-- One operation; `none` is undefined behaviour / failed assertion. -/
def NState.step (nOrig : Nat) (s : NState) : CutOp → Option NState
  | .add cuts => some (s.addCuts cuts)
  | .remove idxs => s.removeCuts idxs
  | .structure_call => (evalHStruct nOrig s.H).map (fun r => { s with H := r.1 })

/-- The initial map of the constructor (BonTMINLP2Quad.cpp:34-41): i-th structure entry gets index i, count -1;
`none` if an entry is repeated (`assert(inserted)`). -/
def initHFrom : List Key → Nat → HMap → Option HMap
  | [], _, H => some H
  | k :: ks, i, H => match H.find k with
    | some _ => none
    | none => initHFrom ks (i + 1) (H.insert k (i, -1))

def initH (orig : List Key) : Option HMap := initHFrom orig 0 []

/-- The constructor (BonTMINLP2Quad.cpp:18-47): no appended rows. -/
def NState.init (gl gu : List ℚ) (orig : List Key) (nnzJac : Int) (off : Nat) : Option NState :=
  (initH orig).map (fun H => { off := off, gl := gl, gu := gu, rows := [], H := H, nnzJac := nnzJac })

/-- A history of operations from a given state. -/
def NState.run (nOrig : Nat) (s : NState) (ops : List CutOp) : Option NState := ops.foldlM (NState.step nOrig) s

end Verif.Quad

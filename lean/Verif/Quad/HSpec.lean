import Verif.Quad.HModel
/-! # Specification vocabulary for cut management and Hessians, independent of the map-based implementation -/
namespace Verif.Quad

/-- Elements of a list whose position satisfies `p`, in order. -/
def surviving {α} (p : Nat → Bool) (l : List α) : List α :=
  (l.zipIdx.filter (fun e => p e.2)).map (·.1)

/-- What a user sees of the appended rows: lower bound, upper bound, row. -/
abbrev ARows := List (ℚ × ℚ × HRow)

/-- The intended meaning of the cut operations on the list of appended rows, for a problem with `m` original rows.
Removal must name distinct existing appended rows. -/
def AStep (m : Nat) (a : ARows) : CutOp → Option ARows
  | .add cuts => some (a ++ cuts)
  | .remove idxs =>
    if idxs.Nodup ∧ ∀ i ∈ idxs, m ≤ i ∧ i < m + a.length then
      some (surviving (fun j => ¬ (j + m ∈ idxs)) a)
    else none
  | .structure_call => some a

/-- Intended meaning of a history. -/
def ARun (m : Nat) (a : ARows) (ops : List CutOp) : Option ARows := ops.foldlM (AStep m) a

/-- Positions of the lower triangle needed by the rows `a` (with multiplicity). -/
def neededKeys (off : Nat) (a : ARows) : List Key := a.flatMap (fun r => r.2.2.q.map (entKey off))

/-- A problem as first built: bounds of its own rows, its Hessian structure, its Jacobian size. -/
structure Base where
  gl : List ℚ
  gu : List ℚ
  orig : List Key
  nnzJac : Int
  off : Nat
  len : gu.length = gl.length
  nodup : orig.Nodup

/-- The observable state "problem `b` extended by the rows `a`". -/
structure Shows (b : Base) (a : ARows) (s : NState) : Prop where
  gl : s.gl = b.gl ++ a.map (·.1)
  gu : s.gu = b.gu ++ a.map (·.2.1)
  rows : s.rows = a.map (·.2.2)
  off : s.off = b.off
  nnzJac : s.nnzJac = b.nnzJac + (a.map (fun r => (r.2.2.gnz : Int))).sum

/-- Number of cuts an operation adds. -/
def CutOp.added : CutOp → Nat
  | .add cuts => cuts.length
  | _ => 0

/-- Weight of a lower-triangle position in `dᵀ·d`, for index base `off`. -/
def keyWt (off : Nat) (d : Nat → ℚ) (k : Key) : ℚ :=
  if k.1 = k.2 then d (k.1 - off) * d (k.2 - off) else 2 * (d (k.1 - off) * d (k.2 - off))

/-- The quadratic form of a triplet matrix given by (positions, values) as an NLP solver reads it: triplets list one
triangle, entries at the same position are added. -/
def tripletForm (off : Nat) (d : Nat → ℚ) (ks : List Key) (vs : List ℚ) : ℚ :=
  ((ks.zip vs).map (fun p => p.2 * keyWt off d p.1)).sum

end Verif.Quad

import Verif.Quad.Model
/-! # Specification vocabulary for quadratic rows, independent of the model's data structures -/
namespace Verif.Quad

/-- Linear form of a sparse vector. -/
def linForm (a : List (Nat × ℚ)) (x : Nat → ℚ) : ℚ := (a.map (fun e => e.2 * x e.1)).sum

/-- `xᵀQy` of the symmetric matrix of which the triplets list one triangle: an off-diagonal triplet stands for two
symmetric entries. -/
def symForm (q : List Ent) (x y : Nat → ℚ) : ℚ :=
  (q.map (fun e => if e.row = e.col then e.val * x e.row * y e.col
                   else e.val * x e.row * y e.col + e.val * x e.col * y e.row)).sum

/-- The quadratic function a row stands for. -/
def quadFun (c : ℚ) (a : List (Nat × ℚ)) (q : List Ent) (x : Nat → ℚ) : ℚ :=
  c + linForm a x + symForm q x x

/-- Sparse dot product of index list and value list. -/
def sparseDot (idx : List Nat) (v : List ℚ) (d : Nat → ℚ) : ℚ :=
  ((idx.zip v).map (fun p => p.2 * d p.1)).sum

end Verif.Quad

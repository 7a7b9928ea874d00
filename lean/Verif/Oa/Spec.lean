import Verif.Oa.Model
/-! # What it means for a cut to be valid -/
namespace Verif.Oa

/-- A point satisfies a cut; a side at or beyond `∓inf` is no constraint. -/
def Sat (inf : ℚ) (c : Cut) (y : Nat → ℚ) : Prop :=
  (c.lb ≤ -inf ∨ c.lb ≤ act c.co y) ∧ (inf ≤ c.ub ∨ act c.co y ≤ c.ub)

/-- A point satisfies a cut up to `eps` on both sides. -/
def SatUpTo (inf eps : ℚ) (c : Cut) (y : Nat → ℚ) : Prop :=
  (c.lb ≤ -inf ∨ c.lb - eps ≤ act c.co y) ∧ (inf ≤ c.ub ∨ act c.co y ≤ c.ub + eps)

/-- Value of the linearisation step `Σ ∂ⱼg (yⱼ - xⱼ)`. -/
def lin (es : List (Nat × ℚ)) (x y : Nat → ℚ) : ℚ := (es.map (fun e => e.2 * (y e.1 - x e.1))).sum

/-- `y` respects the column bounds (bounds beyond `±inf` are no bounds). -/
def InCols (inf : ℚ) (cl cu y : Nat → ℚ) : Prop := ∀ j, (cl j > -inf → cl j ≤ y j) ∧ (cu j < inf → y j ≤ cu j)

/-- Total effect, between `x` and `y`, of the gradient coefficients that are nonzero but below the silent-removal
threshold. -/
def silent (tiny vt : ℚ) (es : List (Nat × ℚ)) (x y : Nat → ℚ) : ℚ :=
  (es.map (fun e => if |e.2| < tiny ∧ |e.2| < vt then |e.2| * |y e.1 - x e.1| else 0)).sum

/-- The upper side of a row is one the interface may linearise: finite, and not the inactive side of a ranged row. -/
def UsesUp (T : Tol) (r : RowData) : Prop := r.ru < T.infM ∧ (r.rl > -T.inf ∧ r.ru < T.inf → 0 < r.dual)

/-- The lower side of a row is one the interface may linearise. -/
def UsesLo (T : Tol) (r : RowData) : Prop := r.rl > -T.infM ∧ (r.rl > -T.inf ∧ r.ru < T.inf → r.dual < 0)

/-- `gy` respects the bounds of a row. -/
def InRow (inf : ℚ) (r : RowData) (gy : ℚ) : Prop := (r.ru < inf → gy ≤ r.ru) ∧ (r.rl > -inf → r.rl ≤ gy)

/-- The nonlinear rows with their indices. -/
def nlRows (rows : List RowData) (off : Nat) : List (RowData × Nat) := (rows.zipIdx off).filter (fun p => p.1.nonlin)

/-- Gradient entries of row `i`, in the order of the Jacobian triplets. -/
def rowEntries (jac : List (Nat × Nat × ℚ)) (i : Nat) : List (Nat × ℚ) :=
  (jac.filter (fun t => t.1 = i)).map (fun t => t.2)

end Verif.Oa

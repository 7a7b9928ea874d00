import Verif.Oa.Spec
/-!
# Model of the extraction of a linear relaxation
(`OsiTMINLPInterface::extractLinearRelaxation`, BonOsiTMINLPInterface.cpp:2377-2537, and `OuterApprox::extractLinearRelaxation`,
BonOuterApprox.cpp:24-174)

The loops over Jacobian triplets only touch the row of the triplet, so they are modelled row by row.
-/
namespace Verif.Oa

/-- Ranged nonlinear row with zero multiplier: "prepare to remove it" (BonOsiTMINLPInterface.cpp:2423-2427). -/
def nonBinding (T : Tol) (r : RowData) : Bool := r.nonlin && decide (r.rl > -T.infM ∧ r.ru < T.infM ∧ r.dual = 0)

/-- Initial row bounds (BonOsiTMINLPInterface.cpp:2420-2463); a non-binding row keeps the initial zeros of the vectors. -/
def extInit (T : Tol) (r : RowData) : ℚ × ℚ :=
  if r.nonlin then
    if nonBinding T r then (0, 0)
    else
      let lo := if r.rl > -T.infM then r.rl - r.g - 1 / 10 ^ 7 else -T.inf
      let up := if r.ru < T.infM then r.ru - r.g + 1 / 10 ^ 7 else T.inf
      if r.rl > -T.infM ∧ r.ru < T.infM then
        (if r.dual ≥ 0 then -T.inf else lo, if r.dual ≤ 0 then T.inf else up)
      else (lo, up)
  else (if r.rl > -T.infM then r.rl else -T.inf, if r.ru < T.infM then r.ru else T.inf)

/-- One Jacobian entry (BonOsiTMINLPInterface.cpp:2469-2489): the bounds are updated, the matrix entry never is. -/
def extStep (T : Tol) (cl cu x : Nat → ℚ) (r : RowData) (b : ℚ × ℚ) (e : Nat × ℚ) : ℚ × ℚ :=
  if r.nonlin then
    let k := cleanO T.infM T.tiny T.vt e.2 (cl e.1) (cu e.1) r.rl r.ru (x e.1) b.1 b.2
    if k.keep then
      (if k.lb > -T.inf then k.lb + e.2 * x e.1 else k.lb, if k.ub < T.inf then k.ub + e.2 * x e.1 else k.ub)
    else (k.lb, k.ub)
  else b

/-- Relaxation of the bounds (BonOsiTMINLPInterface.cpp:2508-2511). -/
def extRelax (T : Tol) (b : ℚ × ℚ) : ℚ × ℚ :=
  (if b.1 > T.inf then b.1 - T.relax * max |b.1| 1 else b.1, if b.2 < T.inf then b.2 + T.relax * max |b.2| 1 else b.2)

/-- Bounds computed for a row. -/
def extBounds (T : Tol) (cl cu x : Nat → ℚ) (r : RowData) (es : List (Nat × ℚ)) : ℚ × ℚ :=
  extRelax T (es.foldl (extStep T cl cu x r) (extInit T r))

/-- The rows loaded in the LP solver: the matrix has lost its non-binding rows (2496) but the bound arrays have not (2513),
so the solver reads the first `m - k` bounds. -/
def extract (T : Tol) (cl cu x : Nat → ℚ) (rows : List RowData) (jac : List (Nat × Nat × ℚ)) : List Cut :=
  let mat := (rows.zipIdx.filter (fun p => !nonBinding T p.1)).map (fun p => rowEntries jac p.2)
  let bnds := rows.zipIdx.map (fun p => extBounds T cl cu x p.1 (rowEntries jac p.2))
  (mat.zip bnds).map (fun q => ⟨q.1, q.2.1, q.2.2⟩)

/-! ### `OuterApprox` -/

/-- Addition in which an infinite bound absorbs (what double arithmetic does at `±COIN_DBL_MAX`). -/
def addInf (inf b d : ℚ) : ℚ := if b ≤ -inf ∨ inf ≤ b then b else b + d

/-- Initial bounds (BonOuterApprox.cpp:73-82). -/
def outInit (inf : ℚ) (r : RowData) : ℚ × ℚ :=
  (if r.rl > -inf then r.rl - r.g - 1 / 10 ^ 7 else r.rl, if r.ru < inf then r.ru - r.g + 1 / 10 ^ 7 else r.ru)

/-- One entry (BonOuterApprox.cpp:86-96): nonlinear rows accumulate; LINEAR rows go through the removal rule, which may replace
the value by `±tiny` but never removes it from the matrix. -/
def outStep (inf tiny vt : ℚ) (cl cu x : Nat → ℚ) (nonlin : Bool) (c : Cut) (e : Nat × ℚ) : Cut :=
  if nonlin then ⟨c.co ++ [e], addInf inf c.lb (e.2 * x e.1), addInf inf c.ub (e.2 * x e.1)⟩
  else
    let k := cleanA (10 ^ 20) 10000 tiny vt e.2 (cl e.1) (cu e.1) c.lb c.ub (x e.1) c.lb c.ub
    if k.keep then ⟨c.co ++ [(e.1, k.val)], addInf inf k.lb (k.val * x e.1), addInf inf k.ub (k.val * x e.1)⟩
    else ⟨c.co ++ [e], k.lb, k.ub⟩

/-- A row of the linear program loaded by `OuterApprox::extractLinearRelaxation`. -/
def outRow (inf tiny vt : ℚ) (cl cu x : Nat → ℚ) (r : RowData) (es : List (Nat × ℚ)) : Cut :=
  es.foldl (outStep inf tiny vt cl cu x r.nonlin) ⟨[], (outInit inf r).1, (outInit inf r).2⟩

/-- Its objective cut (BonOuterApprox.cpp:124-160); the lower side starts at -1e300 and is not modelled. -/
def outObj (tiny vt : ℚ) (cl cu x : Nat → ℚ) (n : Nat) (inf f : ℚ) (grad : List (Nat × ℚ)) : Cut :=
  let c := grad.foldl (fun c e =>
    let k := cleanA (10 ^ 20) 10000 tiny vt e.2 (cl e.1) (cu e.1) (-inf) 0 (x e.1) c.lb c.ub
    if k.keep then ⟨c.co ++ [(e.1, k.val)], c.lb, k.ub + k.val * x e.1⟩ else ⟨c.co, c.lb, k.ub⟩) (⟨[], -inf, -f⟩ : Cut)
  ⟨c.co ++ [(n, -1)], -inf, c.ub⟩

end Verif.Oa

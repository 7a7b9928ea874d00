import Mathlib.Algebra.BigOperators.Group.List.Basic
import Mathlib.Algebra.Order.Field.Rat
/-!
# Model of the outer-approximation cut generators
(src/Interfaces/BonOsiTMINLPInterface.cpp, src/Interfaces/BonTMINLP2OsiLP.hpp, src/Algorithms/QuadCuts/BonOuterApprox.*)

Points are functions `Nat → ℚ`.
-/
namespace Verif.Oa

/-- Result of `cleanNnz`: is the coefficient kept, its (possibly changed) value, and the two right-hand sides. -/
structure Clean where
  keep : Bool
  val : ℚ
  lb : ℚ
  ub : ℚ
deriving DecidableEq

/-- `cleanNnz` of the interface (BonOsiTMINLPInterface.cpp:1881-1919). -/
def cleanO (infM tiny vt v cl cu rl ru xs lb ub : ℚ) : Clean :=
  if |v| ≥ tiny then ⟨true, v, lb, ub⟩
  else if |v| < vt then ⟨false, v, lb, ub⟩
  else if cu < infM ∧ v > 0 ∧ ru ≥ infM then ⟨false, v, lb + v * (xs - cu), ub⟩
  else if cu < infM ∧ ¬ v > 0 ∧ rl ≤ -infM then ⟨false, v, lb, ub + v * (xs - cu)⟩
  else if cl > -infM ∧ ¬ v > 0 ∧ ru ≥ infM then ⟨false, v, lb + v * (xs - cl), ub⟩
  else if cl > -infM ∧ v > 0 ∧ rl ≤ -infM then ⟨false, v, lb, ub + v * (xs - cl)⟩
  else ⟨true, v, lb, ub⟩

/-- `TMINLP2OsiLP::cleanNnz` (BonTMINLP2OsiLP.hpp:118-159); `rowInf` is 1e20, `colThr` is 10000 there. -/
def cleanT (rowInf colThr tiny vt v cl cu rl ru xs lb ub : ℚ) : Clean :=
  if |v| ≥ tiny then ⟨true, v, lb, ub⟩
  else if |v| < vt then ⟨false, v, lb, ub⟩
  else if cl > -colThr ∧ ¬ v > 0 ∧ ru ≥ rowInf then ⟨false, v, lb + v * (xs - cl), ub⟩
  else if cl > -colThr ∧ v > 0 ∧ rl ≤ -rowInf then ⟨false, v, lb, ub + v * (xs - cl)⟩
  else if cu < colThr ∧ v > 0 ∧ ru ≥ rowInf then ⟨false, v, lb + v * (xs - cu), ub⟩
  else if cu < colThr ∧ ¬ v > 0 ∧ rl ≤ -rowInf then ⟨false, v, lb, ub + v * (xs - cu)⟩
  else ⟨true, v, lb, ub⟩

/-- `OuterApprox::cleanNnz` (BonOuterApprox.hpp:77-119). -/
def cleanA (rowInf colThr tiny vt v cl cu rl ru xs lb ub : ℚ) : Clean :=
  if |v| ≥ tiny then ⟨true, v, lb, ub⟩
  else if |v| < vt then ⟨false, v, lb, ub⟩
  else if cl > -colThr ∧ v > 0 ∧ ru ≥ rowInf then ⟨false, v, lb + v * (xs - cl), ub⟩
  else if cl > -colThr ∧ ¬ v > 0 ∧ rl ≤ -rowInf then ⟨false, v, lb, ub + v * (xs - cl)⟩
  else if cu < colThr ∧ ¬ v > 0 ∧ ru ≥ rowInf then ⟨false, v, lb + v * (xs - cu), ub⟩
  else if cu < colThr ∧ v > 0 ∧ rl ≤ -rowInf then ⟨false, v, lb, ub + v * (xs - cu)⟩
  else ⟨true, if v > 0 then tiny else -tiny, lb, ub⟩

/-- A linear cut `lb ≤ Σ coef ≤ ub` (`OsiRowCut`). -/
structure Cut where
  co : List (Nat × ℚ)
  lb : ℚ
  ub : ℚ
deriving DecidableEq

/-- Data of a row used by the generators: declared nonlinear, bounds, value at the point, dual multiplier. -/
structure RowData where
  nonlin : Bool
  rl : ℚ
  ru : ℚ
  g : ℚ
  dual : ℚ

/-- Interface tolerances: `getInfinity()`, `infty_`, `tiny_`, `veryTiny_`, `rhsRelax_`. -/
structure Tol where
  inf : ℚ
  infM : ℚ
  tiny : ℚ
  vt : ℚ
  relax : ℚ

/-- Initial right-hand sides of a cut (BonOsiTMINLPInterface.cpp:1962-1978 and 2229-2244). -/
def initCut (T : Tol) (r : RowData) : Cut :=
  let lb := if r.rl > -T.infM then r.rl - r.g else -T.inf
  let ub := if r.ru < T.infM then r.ru - r.g else T.inf
  if r.rl > -T.inf ∧ r.ru < T.inf then
    ⟨[], if r.dual ≥ 0 then -T.inf else lb, if r.dual ≤ 0 then T.inf else ub⟩
  else ⟨[], lb, ub⟩

/-- Processing of one Jacobian entry (BonOsiTMINLPInterface.cpp:1985-2001 and 2246-2260). -/
def oaStep (T : Tol) (cl cu x : Nat → ℚ) (r : RowData) (c : Cut) (e : Nat × ℚ) : Cut :=
  let k := cleanO T.infM T.tiny T.vt e.2 (cl e.1) (cu e.1) r.rl r.ru (x e.1) c.lb c.ub
  if k.keep then
    ⟨c.co ++ [(e.1, k.val)], if k.lb > -T.inf then k.lb + k.val * x e.1 else k.lb,
      if k.ub < T.inf then k.ub + k.val * x e.1 else k.ub⟩
  else ⟨c.co, k.lb, k.ub⟩

/-- `getConstraintOuterApproximation` (BonOsiTMINLPInterface.cpp:2206-2275) for the row with gradient `es` at `x`. -/
def rowOa (T : Tol) (cl cu x : Nat → ℚ) (r : RowData) (es : List (Nat × ℚ)) : Cut :=
  es.foldl (oaStep T cl cu x r) (initCut T r)

/-- Relaxation of right-hand sides (BonOsiTMINLPInterface.cpp:2043-2044); note the test `lb > infty`. -/
def relaxRhs (T : Tol) (c : Cut) : Cut :=
  ⟨c.co, if c.lb > T.inf then c.lb - T.relax * max |c.lb| 1 else c.lb,
    if c.ub < T.inf then c.ub + T.relax * max |c.ub| 1 else c.ub⟩

/-- Activity of a cut. -/
def act (co : List (Nat × ℚ)) (y : Nat → ℚ) : ℚ := (co.map (fun e => e.2 * y e.1)).sum

/-- Numbering of the cuts (BonOsiTMINLPInterface.cpp:1959-1980): `row2cutIdx` and the initial cuts in order. -/
def numberRows (T : Tol) : List RowData → Nat → List (Option Nat) × List Cut
  | [], _ => ([], [])
  | r :: rs, k =>
    if r.nonlin then
      let q := numberRows T rs (k + 1)
      (some k :: q.1, initCut T r :: q.2)
    else
      let q := numberRows T rs k
      (none :: q.1, q.2)

/-- The loop over Jacobian triplets (BonOsiTMINLPInterface.cpp:1984-2002).  `none` = index out of range. -/
def jacLoop (T : Tol) (cl cu x : Nat → ℚ) (rows : List RowData) (r2c : List (Option Nat)) :
    List (Nat × Nat × ℚ) → List Cut → Option (List Cut)
  | [], cuts => some cuts
  | (i, j, v) :: es, cuts =>
    match r2c[i]?, rows[i]? with
    | some none, some _ => jacLoop T cl cu x rows r2c es cuts
    | some (some k), some r =>
      match cuts[k]? with
      | some c => jacLoop T cl cu x rows r2c es (cuts.set k (oaStep T cl cu x r c (j, v)))
      | none => none
    | _, _ => none

/-- Violation filter at a second point (BonOsiTMINLPInterface.cpp:2016-2027): a cut is skipped only when it is not violated
enough AND the log level is positive. -/
def skipCut (c : Cut) (x2 : Option (Nat → ℚ)) (theta : ℚ) (logPos : Bool) : Bool :=
  match x2 with
  | none => false
  | some y => decide (max (max 0 (act c.co y - c.ub)) (c.lb - act c.co y) < theta) && logPos

/-- Objective cut step (BonOsiTMINLPInterface.cpp:2066-2077); the tiny threshold for silent removal is `vt` (1e-15). -/
def objStep (T : Tol) (vt : ℚ) (cl cu x : Nat → ℚ) (c : Cut) (e : Nat × ℚ) : Cut :=
  let k := cleanO T.infM T.tiny vt e.2 (cl e.1) (cu e.1) (-T.inf) 0 (x e.1) c.lb c.ub
  if k.keep then ⟨c.co ++ [(e.1, k.val)], k.lb + k.val * x e.1, k.ub + k.val * x e.1⟩
  else ⟨c.co, k.lb, k.ub⟩

/-- Objective cut (BonOsiTMINLPInterface.cpp:2056-2105): `∇f·y - α ≤ ub`; `n` is the index of `α`; the lower side is set
to `-COIN_DBL_MAX`. -/
def objOa (T : Tol) (vt : ℚ) (cl cu x : Nat → ℚ) (n : Nat) (f : ℚ) (grad : List (Nat × ℚ)) : Cut :=
  let c := grad.foldl (objStep T vt cl cu x) ⟨[], -f, -f⟩
  ⟨c.co ++ [(n, -1)], -T.inf, c.ub⟩

/-- `getOuterApproximation` (BonOsiTMINLPInterface.cpp:1923-2107) without linearizer and without cut strengthener:
row cuts, then (if `objCut` is given: `getObj` and nonlinear objective, or `getObj == 2`) the objective cut, which is
subject to its own violation test (2079-2084). -/
def getOa (T : Tol) (cl cu x : Nat → ℚ) (rows : List RowData) (jac : List (Nat × Nat × ℚ))
    (x2 : Option (Nat → ℚ)) (theta : ℚ) (logPos : Bool) (obj : Option (Nat × ℚ × List (Nat × ℚ) × ℚ)) :
    Option (List Cut) := do
  let (r2c, cuts0) := numberRows T rows 0
  let cuts ← jacLoop T cl cu x rows r2c jac cuts0
  let out := (cuts.filter (fun c => !skipCut c x2 theta logPos)).map (relaxRhs T)
  match obj with
  | none => pure out
  | some (n, f, grad, vt) =>
    let c := objOa T vt cl cu x n f grad
    match x2 with
    | none => pure (out ++ [c])
    | some y => if max 0 (act c.co y - c.ub) < theta then pure out else pure (out ++ [c])

/-! ### Benders cut (BonOsiTMINLPInterface.cpp:2110-2202) -/

/-- First loop (2138-2155): which rows are kept and the accumulated right-hand side; `none` = failed assertion. -/
def bendersRows : List RowData → Option (List Bool × ℚ)
  | [] => some ([], 0)
  | r :: rs => do
    let (ks, u) ← bendersRows rs
    if r.nonlin ∧ |r.dual| > 1 / 1000000 then
      if r.dual < 0 then
        if r.rl > -10000000000 then pure (true :: ks, u + r.dual * (r.rl - r.g)) else none
      else
        if r.ru < 10000000000 then pure (true :: ks, u + r.dual * (r.ru - r.g)) else none
    else pure (false :: ks, u)

/-- State of the accumulation: dense coefficients and the two right-hand sides (the lower one is never used). -/
structure BState where
  cut : Nat → ℚ
  lb : ℚ
  ub : ℚ

/-- One accumulation (2165-2170). -/
def bStep (T : Tol) (vt : ℚ) (cl cu x : Nat → ℚ) (rl ru : ℚ) (s : BState) (j : Nat) (co : ℚ) : BState :=
  let k := cleanO T.infM T.tiny vt co (cl j) (cu j) rl ru (x j) s.lb s.ub
  if k.keep then ⟨fun i => if i = j then s.cut i + k.val else s.cut i, k.lb, k.ub + k.val * x j⟩
  else ⟨s.cut, k.lb, k.ub⟩

/-- Second loop over the Jacobian (2158-2171). -/
def bendersJac (T : Tol) (cl cu x : Nat → ℚ) (rows : List RowData) (ks : List Bool) :
    List (Nat × Nat × ℚ) → BState → Option BState
  | [], s => some s
  | (i, j, v) :: es, s =>
    match ks[i]?, rows[i]? with
    | some true, some r => bendersJac T cl cu x rows ks es (bStep T T.vt cl cu x r.rl r.ru s j (r.dual * v))
    | some false, some _ => bendersJac T cl cu x rows ks es s
    | _, _ => none

/-- Objective part (2175-2189): the right-hand side is OVERWRITTEN with `-f`. -/
def bendersObj (T : Tol) (vt : ℚ) (cl cu x : Nat → ℚ) (f : ℚ) (grad : List (Nat × ℚ)) (s : BState) : BState :=
  grad.foldl (fun s e => bStep T vt cl cu x (-T.inf) 0 s e.1 e.2) { s with ub := -f }

/-- The cut `Σ_{i<n} cut_i y_i [- α] ≤ ub`; entries of absolute value at most 1e-20 are dropped (2190-2194).
`obj` is present when the objective is nonlinear and the NLP was solved to optimality. -/
def benders (T : Tol) (cl cu x : Nat → ℚ) (n : Nat) (rows : List RowData) (jac : List (Nat × Nat × ℚ))
    (obj : Option (ℚ × List (Nat × ℚ) × ℚ)) : Option Cut := do
  let (ks, u) ← bendersRows rows
  let s ← bendersJac T cl cu x rows ks jac ⟨fun _ => 0, 0, u⟩
  let pack (c : Nat → ℚ) := ((List.range n).filter (fun i => |c i| > 1 / 10 ^ 20)).map (fun i => (i, c i))
  match obj with
  | none => pure ⟨pack s.cut, -T.inf, s.ub⟩
  | some (f, grad, vt) =>
    let s' := bendersObj T vt cl cu x f grad s
    pure ⟨(n, -1) :: pack s'.cut, -T.inf, s'.ub⟩

end Verif.Oa

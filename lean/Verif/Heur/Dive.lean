import Mathlib.Data.Rat.Floor
import Mathlib.Algebra.Order.Floor.Ring
import Mathlib.Algebra.Order.Field.Rat
/-!
# Model of the dive heuristics (src/CbcBonmin/Heuristics/BonHeuristicDive.cpp, BonHeuristicDiveFractional.cpp, BonHeuristicDiveVectorLength.cpp)

Points and bounds are functions of the column index (only indices below `n` are read or written).  The NLP solver is an oracle: call number `k` on the
bounds in force answers with a point (`Ipopt::SUCCESS`) or not.  Not modelled: the gate on node count and pass number at the top of `solution` (70-71), memory
handling, exceptions thrown by `initialSolve` (they leave the function without an answer).
-/
namespace Verif.Heur

/-- What `TMINLP2TNLP` reports: sizes, integrality, row bounds, `eval_f`, `eval_g`. -/
structure Prob where
  n : Nat
  m : Nat
  isInt : Nat → Bool
  gl : Nat → ℚ
  gu : Nat → ℚ
  f : (Nat → ℚ) → ℚ
  g : (Nat → ℚ) → Nat → ℚ

/-- The arrays `x_l`, `x_u` of the cloned problem. -/
@[ext] structure Bnds where
  lo : Nat → ℚ
  up : Nat → ℚ

/-- `SetVariableLowerBound`, `SetVariableUpperBound` (src/Interfaces/BonTMINLP2TNLP.cpp:268-278). -/
def Bnds.setLo (b : Bnds) (i : Nat) (v : ℚ) : Bnds := ⟨fun j => if j = i then v else b.lo j, b.up⟩
def Bnds.setUp (b : Bnds) (i : Nat) (v : ℚ) : Bnds := ⟨b.lo, fun j => if j = i then v else b.up j⟩

/-- `fabs(floor(value+0.5)-value) > integerTolerance`. -/
def isFrac (tol v : ℚ) : Bool := tol < |(⌊v + 1 / 2⌋ : ℚ) - v|

/-- `integerColumns` (114-124). -/
def intCols (p : Prob) : List Nat := (List.range p.n).filter p.isInt

/-- `adjustPrimalTolerance` (340-362). -/
def adjust (p : Prob) (gs : Nat → ℚ) (t : ℚ) : ℚ :=
  (List.range p.m).foldl (fun t i => if gs i < p.gl i - t then p.gl i - gs i else if p.gu i + t < gs i then gs i - p.gu i else t) t

/-- Column test of `isNlpFeasible` (324-329). -/
def boxOk (p : Prob) (b : Bnds) (x : Nat → ℚ) : Bool := (List.range p.n).all fun i => !(x i < b.lo i || b.up i < x i)

/-- Row test (260-278, 330-335). -/
def rowsOk (p : Prob) (t : ℚ) (gs : Nat → ℚ) : Bool := (List.range p.m).all fun i => !(gs i < p.gl i - t || p.gu i + t < gs i)

/-- `isNlpFeasible` (305-338). -/
def nlpFeasible (p : Prob) (b : Bnds) (t : ℚ) (x gs : Nat → ℚ) : Bool := boxOk p b x && rowsOk p t gs

/-- A fixing at a bound: `columnFixed`, `originalBound`, `fixedAtLowerBound`. -/
structure Fix where
  col : Nat
  orig : ℚ
  atLower : Bool

/-- One column of the loop that fixes columns at their bounds (154-169). -/
def fixOne (tol : ℚ) (x : Nat → ℚ) (i : Nat) (b : Bnds) (fs : List Fix) : Bnds × List Fix :=
  if |b.lo i - x i| ≤ tol ∧ b.lo i ≠ b.up i then (b.setUp i (b.lo i), fs ++ [⟨i, b.up i, true⟩])
  else if |b.up i - x i| ≤ tol ∧ b.lo i ≠ b.up i then (b.setLo i (b.up i), fs ++ [⟨i, b.lo i, false⟩])
  else (b, fs)

/-- The loop (148-173). -/
def fixLoop (tol : ℚ) (maxFix : Nat) (x : Nat → ℚ) : List Nat → Bnds → List Fix → Bnds × List Fix
  | [], b, fs => (b, fs)
  | i :: is, b, fs =>
    if !isFrac tol (x i) && decide (fs.length < maxFix) then
      if (fixOne tol x i b fs).2.length = maxFix then fixOne tol x i b fs
      else fixLoop tol maxFix x is (fixOne tol x i b fs).1 (fixOne tol x i b fs).2
    else fixLoop tol maxFix x is b fs

/-- Taking the fixings back (196-202). -/
def unfix (fs : List Fix) (b : Bnds) : Bnds :=
  fs.foldl (fun b f => if f.atLower then b.setUp f.col f.orig else b.setLo f.col f.orig) b

/-- Bounding the chosen column (177-184); `up` is `bestRound >= 0`. -/
def bound (x : Nat → ℚ) (j : Nat) (up : Bool) (b : Bnds) : Bnds :=
  if up then b.setLo j (⌈x j⌉ : ℚ) else b.setUp j (⌊x j⌋ : ℚ)

/-- Trying the other side (206-214): `ob` is `originalBoundBestColumn`. -/
def flip (x : Nat → ℚ) (j : Nat) (up : Bool) (ob : ℚ) (b : Bnds) : Bnds :=
  if up then (b.setLo j ob).setUp j (⌊x j⌋ : ℚ) else (b.setLo j (⌈x j⌉ : ℚ)).setUp j ob

/-- The NLP solver: number of the call and bounds. -/
abbrev Oracle := Nat → Bnds → Option (Nat → ℚ)

/-- The loop `while (1)` (189-221), unrolled: it runs at most three times.  Result: number of calls, bounds and answer. -/
def tryLast (o : Oracle) (k : Nat) (b : Bnds) : Nat × Bnds × Option (Nat → ℚ) := (k + 1, b, o k b)

def tryFlip (o : Oracle) (fl : Bnds → Bnds) (k : Nat) (b : Bnds) : Nat × Bnds × Option (Nat → ℚ) :=
  match o k b with
  | some x => (k + 1, b, some x)
  | none => tryLast o (k + 1) (fl b)

def tryAll (o : Oracle) (fl : Bnds → Bnds) (fs : List Fix) (k : Nat) (b : Bnds) : Nat × Bnds × Option (Nat → ℚ) :=
  match fs with
  | [] => tryFlip o fl k b
  | _ :: _ =>
    match o k b with
    | some x => (k + 1, b, some x)
    | none => tryFlip o fl (k + 1) (unfix fs b)

/-- Parameters of a dive: integer tolerance, `maxNumberAtBoundToFix`, incumbent value, solver, and the rule `selectVariableToBranch`, which may use random
numbers (hence the call number). -/
structure Dive where
  tol : ℚ
  maxFix : Nat
  inc : ℚ
  solve : Oracle
  sel : Nat → Bnds → (Nat → ℚ) → Option (Nat × Bool)

/-- The bounds with which the solves of one iteration start, and the fixings. -/
def start (p : Prob) (d : Dive) (x : Nat → ℚ) (b : Bnds) : Bnds × List Fix := fixLoop d.tol d.maxFix x (intCols p) b []

/-- The solves of one iteration. -/
def iterate (p : Prob) (d : Dive) (x : Nat → ℚ) (b : Bnds) (k j : Nat) (up : Bool) : Nat × Bnds × Option (Nat → ℚ) :=
  tryAll d.solve (flip x j up (if up then (start p d x b).1.lo j else (start p d x b).1.up j)) (start p d x b).2 k (bound x j up (start p d x b).1)

/-- The loop `while (numberFractionalVariables)` (137-242); `none` = still running after `fuel` iterations.  Result: calls made, bounds in force, point. -/
def loop (p : Prob) (d : Dive) : Nat → Nat → Bnds → (Nat → ℚ) → Option (Nat × Bnds × (Nat → ℚ))
  | 0, k, b, x => if (intCols p).any fun i => isFrac d.tol (x i) then none else some (k, b, x)
  | fuel + 1, k, b, x =>
    if (intCols p).any fun i => isFrac d.tol (x i) then
      match d.sel k b x with
      | none => some (k, (start p d x b).1, x)
      | some (j, up) =>
        match iterate p d x b k j up with
        | (k', b', none) => some (k', b', x)
        | (k', b', some x') => if d.inc ≤ p.f x' then some (k', b', x') else loop p d fuel k' b' x'
    else some (k, b, x)

/-- The final check (244-278). -/
def accept (p : Prob) (d : Dive) (t : ℚ) (b : Bnds) (x : Nat → ℚ) : Bool :=
  ((List.range p.n).all fun i => !(x i < b.lo i || b.up i < x i) && !(p.isInt i && isFrac d.tol (x i))) && rowsOk p t (p.g x)

/-- How a call of `solution` ends. -/
inductive Verdict
  | abort                              -- `assert(isNlpFeasible(...))` (105) fails
  | running                            -- the loop has not ended yet
  | nothing (calls : Nat)              -- return value 0
  | found (calls : Nat) (x : Nat → ℚ) (v : ℚ)   -- return value 1, `betterSolution`, `solutionValue`

/-- `HeuristicDive::solution` (66-302) on a node whose relaxation has solution `x0` with rows `g0`; `dbg`: assertions compiled in. -/
def dive (dbg : Bool) (p : Prob) (d : Dive) (fuel : Nat) (b0 : Bnds) (x0 g0 : Nat → ℚ) : Verdict :=
  if dbg && !nlpFeasible p b0 (adjust p g0 (1 / 10 ^ 6)) x0 g0 then .abort
  else match loop p d fuel 0 b0 x0 with
    | none => .running
    | some (k, b, x) =>
      if accept p d (adjust p g0 (1 / 10 ^ 6)) b x && decide (p.f x < d.inc) then .found k x (p.f x) else .nothing k

/-! ### Selection rules -/

/-- Distances to the two neighbours, `COIN_DBL_MAX` when out of bounds (BonHeuristicDiveFractional.cpp:74-81, BonHeuristicDiveVectorLength.cpp:123-132). -/
def downFrac (dmax : ℚ) (b : Bnds) (x : Nat → ℚ) (i : Nat) : ℚ := if b.lo i ≤ (⌊x i⌋ : ℚ) then x i - ⌊x i⌋ else dmax
def upFrac (dmax : ℚ) (b : Bnds) (x : Nat → ℚ) (i : Nat) : ℚ := if (⌈x i⌉ : ℚ) ≤ b.up i then ⌈x i⌉ - x i else dmax

/-- Best candidate so far: score, column, direction. -/
structure Cur where
  score : ℚ
  pick : Option (Nat × Bool)

/-- Direction and score in `HeuristicDiveFractional::selectVariableToBranch` (82-99); `coin i` is the toss for column `i` on a tie (true: down). -/
def fracPick (dmax : ℚ) (coin : Nat → Bool) (b : Bnds) (x : Nat → ℚ) (i : Nat) : ℚ × Bool :=
  if downFrac dmax b x i < upFrac dmax b x i then (downFrac dmax b x i, false)
  else if upFrac dmax b x i < downFrac dmax b x i then (upFrac dmax b x i, true)
  else if coin i then (downFrac dmax b x i, false) else (upFrac dmax b x i, true)

/-- Keeping the smaller score (100-104, and 149-153 of the other file). -/
def Cur.offer (c : Cur) (s : ℚ) (i : Nat) (up : Bool) : Cur := if s < c.score then ⟨s, some (i, up)⟩ else c

/-- `HeuristicDiveFractional::selectVariableToBranch` (54-108). -/
def selFractional (dmax tol : ℚ) (coin : Nat → Bool) (cols : List Nat) (b : Bnds) (x : Nat → ℚ) : Option (Nat × Bool) :=
  (cols.foldl (fun (c : Cur) i => if isFrac tol (x i) then c.offer (fracPick dmax coin b x i).1 i (fracPick dmax coin b x i).2 else c) (⟨dmax, none⟩ : Cur)).pick

/-- `setInternalVariables` (BonHeuristicDiveVectorLength.cpp:55-91): `columnLength_` from the column indices of the Jacobian, in order; `ini` is `iniCol`.
`none` = not initialised. -/
def colLengths : List Nat → Option Nat → (Nat → Option Nat) → (Nat → Option Nat)
  | [], _, len => len
  | c :: cs, ini, len =>
    if ini = some c then colLengths cs ini (fun j => if j = c then (len c).map (· + 1) else len j)
    else colLengths cs (some c) (fun j => if j = c then some 1 else len j)

/-- Direction and objective change (BonHeuristicDiveVectorLength.cpp:133-147). -/
def vlPick (dmax : ℚ) (gr : Nat → ℚ) (b : Bnds) (x : Nat → ℚ) (i : Nat) : ℚ × Bool :=
  if 0 ≤ gr i ∧ upFrac dmax b x i < dmax then (gr i * upFrac dmax b x i, true)
  else if gr i < 0 ∧ downFrac dmax b x i < dmax then (gr i * downFrac dmax b x i, false)
  else if upFrac dmax b x i < dmax then (gr i * upFrac dmax b x i, true)
  else (gr i * downFrac dmax b x i, false)

/-- The score (148). -/
def vlScore (dmax : ℚ) (gr : Nat → ℚ) (len : Nat) (b : Bnds) (x : Nat → ℚ) (i : Nat) : ℚ :=
  ((vlPick dmax gr b x i).1 + 1 / 10 ^ 6) / ((len : ℚ) + 1)

/-- `HeuristicDiveVectorLength::selectVariableToBranch` (93-159); outer `none` = an uninitialised column length is read. -/
def selVectorLength (dmax tol : ℚ) (gr : Nat → ℚ) (len : Nat → Option Nat) (b : Bnds) (x : Nat → ℚ) : List Nat → Cur → Option (Option (Nat × Bool))
  | [], c => some c.pick
  | i :: is, c =>
    if isFrac tol (x i) then (len i).bind fun l => selVectorLength dmax tol gr len b x is (c.offer (vlScore dmax gr l b x i) i (vlPick dmax gr b x i).2)
    else selVectorLength dmax tol gr len b x is c

end Verif.Heur

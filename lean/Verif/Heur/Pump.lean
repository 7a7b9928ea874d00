import Verif.Heur.Dive
/-!
# Model of the feasibility pump heuristic (src/CbcBonmin/Heuristics/BonHeuristicFPump.cpp)

Points are functions of the column index.  Not modelled: the gates on node count, pass number and existing solutions (84-93), the test of the optimisation status of the
node (152-155), memory handling, exceptions of the solver.  The two kinds of NLP solves are oracles: `feas` for `solveFeasibilityProblem` (point and value; its status
is not looked at by the code) and `solve` for the last `initialSolve`.
-/
namespace Verif.Heur

/-- `static_cast<int>` of a double (478), for values in the range of `int`. -/
def trunc (q : ℚ) : ℤ := if 0 ≤ q then ⌊q⌋ else ⌈q⌉

/-- A row: its bounds and the entries of the Jacobian (column, value at the starting point), in the order of `col_and_jac_g_` (464-480). -/
structure SRow where
  gl : ℚ
  gu : ℚ
  ent : List (Nat × ℚ)

/-- The test of the entries of a row (506-518). -/
def sosOk (tol : ℚ) (isInt : Nat → Bool) (x : Nat → ℚ) (r : SRow) : Bool :=
  r.ent.all fun e => !(decide (1 - tol ≤ x e.1) || decide (trunc e.2 ≠ 1) || !isInt e.1)

/-- `weightedSum` (503, 515-516), starting with `counter`. -/
def wsum (x : Nat → ℚ) : Nat → List (Nat × ℚ) → ℚ
  | _, [] => 0
  | k, e :: es => k * x e.1 + wsum x (k + 1) es

/-- The loop that writes 1 at the selected position and 0 elsewhere (533-539); `j` is the position reached. -/
def assign (sel : ℤ) : Nat → List (Nat × ℚ) → (Nat → ℚ) → (Nat → ℚ)
  | _, [], x => x
  | j, e :: es, x => assign sel (j + 1) es fun c => if c = e.1 then (if (j : ℤ) = sel then 1 else 0) else x c

/-- `indexColumnSelected` (527-528). -/
def selPos (x : Nat → ℚ) (r : SRow) : ℤ := ⌊wsum x 1 r.ent + 1 / 2⌋ - 1

/-- One row (501-541); `none` = the assertion (532) fails. -/
def roundRow (dbg : Bool) (tol : ℚ) (isInt : Nat → Bool) (r : SRow) (x : Nat → ℚ) : Option (Nat → ℚ) :=
  if (decide (r.gl = 1) && decide (r.gu = 1)) && sosOk tol isInt x r then
    if selPos x r < 0 then some x
    else if dbg && decide ((r.ent.length : ℤ) ≤ selPos x r) then none
    else some (assign (selPos x r) 0 r.ent x)
  else some x

/-- The loop over the rows (500-542). -/
def roundRows (dbg : Bool) (tol : ℚ) (isInt : Nat → Bool) : List SRow → (Nat → ℚ) → Option (Nat → ℚ)
  | [], x => some x
  | r :: rs, x => (roundRow dbg tol isInt r x).bind (roundRows dbg tol isInt rs)

/-- One column (546-555). -/
def roundCol (tol pt lo up v : ℚ) : ℚ :=
  if isFrac tol v then
    if (⌊v + 1 / 2⌋ : ℚ) < lo - pt then ⌊v + 1 / 2⌋ + 1
    else if up + pt < (⌊v + 1 / 2⌋ : ℚ) then ⌊v + 1 / 2⌋ - 1
    else ⌊v + 1 / 2⌋
  else v

/-- `RoundingFPump::round` (488-558). -/
def roundPt (dbg : Bool) (tol pt : ℚ) (isInt : Nat → Bool) (b : Bnds) (rows : List SRow) (x : Nat → ℚ) : Option (Nat → ℚ) :=
  (roundRows dbg tol isInt rows x).map fun y c => if isInt c then roundCol tol pt (b.lo c) (b.up c) (y c) else y c

/-! ### the pump -/

/-- Moving a value away from the old one, towards the solution of the NLP (245-254, 288, 292-300). -/
def moveVal (pt lo up old v : ℚ) : ℚ :=
  if (if 0 < v - old then old + 1 else old - 1) < lo - pt then (if 0 < v - old then old + 1 else old - 1) + 1
  else if up + pt < (if 0 < v - old then old + 1 else old - 1) then (if 0 < v - old then old + 1 else old - 1) - 1
  else (if 0 < v - old then old + 1 else old - 1)

/-- Comparison of a target with a stored one (200-219 for slot 0, 269-276 for the others); `none` is the initial content `-COIN_DBL_MAX`. -/
def same (tol : ℚ) (cols : List Nat) (y : Nat → ℚ) : Option (Nat → ℚ) → Bool
  | none => cols.isEmpty
  | some o => cols.all fun c => !(decide (tol < |y c - o c|))

/-- Data of a pump.  `sort s l` is the result of `std::sort` with `score_sorter` (236-237); `rnd k c` is the random number of iteration `k` for column `c`. -/
structure Pump where
  tol : ℚ
  pt : ℚ
  inc : ℚ
  rows : List SRow
  sort : (Nat → ℚ) → List Nat → List Nat
  rnd : Nat → Nat → ℚ
  feas : Nat → (Nat → ℚ) → (Nat → ℚ) × ℚ
  solve : Bnds → Option (Nat → ℚ)

/-- The flip of the column with the largest score (228-262, `maxNumberToMove = 1`); `none` = the assertion (255) fails. -/
def flipOne (dbg : Bool) (d : Pump) (b : Bnds) (x old y : Nat → ℚ) : List Nat → Option (Nat → ℚ)
  | [] => some y
  | c :: _ =>
    if 0 < |x c - old c| then
      if dbg && isFrac d.tol (moveVal d.pt (b.lo c) (b.up c) (old c) (x c)) then none
      else some fun i => if i = c then moveVal d.pt (b.lo c) (b.up c) (old c) (x c) else y i
    else some y

/-- Value of a perturbed column (287-306). -/
def perturbVal (d : Pump) (b : Bnds) (x old : Nat → ℚ) (k c : Nat) : ℚ :=
  if 1 / 2 < |x c - old c| + max 0 (d.rnd k c - 3 / 10) then moveVal d.pt (b.lo c) (b.up c) (old c) (x c) else old c

/-- The perturbation (284-308); `none` = the assertion (301) fails. -/
def perturb (dbg : Bool) (d : Pump) (b : Bnds) (cols : List Nat) (x old : Nat → ℚ) (k : Nat) : Option (Nat → ℚ) :=
  if dbg && cols.any (fun c => decide (1 / 2 < |x c - old c| + max 0 (d.rnd k c - 3 / 10)) && isFrac d.tol (moveVal d.pt (b.lo c) (b.up c) (old c) (x c))) then none
  else some fun c => perturbVal d b x old k c

/-- The flip branch (227-309). -/
def flipAll (dbg : Bool) (d : Pump) (b : Bnds) (cols : List Nat) (x y : Nat → ℚ) (olds : List (Option (Nat → ℚ))) (old : Nat → ℚ) (k : Nat) : Option (Nat → ℚ) :=
  (flipOne dbg d b x old y (d.sort (fun c => |x c - old c|) cols)).bind fun z =>
    if olds.any (same d.tol cols z) then perturb dbg d b cols x old k else some z

/-- The target of an iteration (197-309); `old0` is `oldSolution[0]`, `olds` the three older ones. -/
def target (dbg : Bool) (p : Prob) (d : Pump) (b : Bnds) (k : Nat) (x : Nat → ℚ) (old0 : Option (Nat → ℚ)) (olds : List (Option (Nat → ℚ))) : Option (Nat → ℚ) :=
  (roundPt dbg d.tol d.pt p.isInt b d.rows x).bind fun y =>
    match old0 with
    | none => some y
    | some old => if same d.tol (intCols p) y (some old) then flipAll dbg d b (intCols p) x y olds old k else some y

/-- The loop (192-352), with the iterations that remain of the 200 allowed; the log of targets is kept for the statements.  `none` = an assertion fails. -/
def pumpLoop (dbg : Bool) (p : Prob) (d : Pump) (b : Bnds) : Nat → (Nat → ℚ) → Option (Nat → ℚ) → List (Option (Nat → ℚ)) → List (Nat → ℚ) →
    Option ((Nat → ℚ) × List (Nat → ℚ))
  | 0, x, _, _, log => some (x, log)
  | rem + 1, x, old0, olds, log =>
    if (intCols p).any fun i => isFrac d.tol (x i) then
      (target dbg p d b log.length x old0 olds).bind fun y =>
        if (d.feas log.length y).2 < 1 / 10 ^ 5 then some ((d.feas log.length y).1, log ++ [y])
        else pumpLoop dbg p d b rem (d.feas log.length y).1 (some y) (old0 :: olds.take 2) (log ++ [y])
    else some (x, log)

/-- Fixing the integer columns (362-367). -/
def fixAll (p : Prob) (x : Nat → ℚ) (b : Bnds) : Bnds :=
  ⟨fun c => if c < p.n ∧ p.isInt c then (⌊x c + 1 / 2⌋ : ℚ) else b.lo c, fun c => if c < p.n ∧ p.isInt c then (⌊x c + 1 / 2⌋ : ℚ) else b.up c⟩

/-- How a call ends: assertion failure, nothing (0), or a point and value (1). -/
inductive PVerdict
  | abort
  | nothing
  | found (x : Nat → ℚ) (v : ℚ)

/-- The end of `solution` (361-385). -/
def finish (p : Prob) (d : Pump) (b : Bnds) (x : Nat → ℚ) : PVerdict :=
  match d.solve (fixAll p x b) with
  | none => .nothing
  | some y => if p.f y < d.inc then .found y (p.f y) else .nothing

/-- `HeuristicFPump::solution` (81-404). -/
def pump (dbg : Bool) (p : Prob) (d : Pump) (b : Bnds) (x0 : Nat → ℚ) : PVerdict :=
  match pumpLoop dbg p d b 200 x0 none [none, none, none] [] with
  | none => .abort
  | some (x, _) => finish p d b x

end Verif.Heur

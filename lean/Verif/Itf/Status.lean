import Mathlib.Data.Rat.Lemmas
import Mathlib.Algebra.Order.Field.Rat
import Mathlib.Tactic.Linarith
import Mathlib.Tactic.NormNum
/-! # Model of the solve functions and status queries of `OsiTMINLPInterface`

src/Interfaces/BonOsiTMINLPInterface.cpp: `resolveForCost` 835-986, `resolveForRobustness` 988-1093, `solveAndCheckErrors` 2607-2766,
`initialSolve` 2779-2836, `resolve` 2845-2900, status queries 2907-2955; src/Interfaces/BonTNLPSolver.hpp:29-44, BonTNLPSolver.cpp:252-255;
src/Interfaces/Ipopt/BonIpoptSolver.cpp:135-220, 304-343.

Simplifications: `BonminAbortAll` false except where stated; no debug solvers (`debug_apps_` empty, `testOthers_` false), no row cut debugger, no second
(upper bounding) objective; statistics are available; logging and timing dropped.  The NLP solver is an oracle: call number `k` has outcome `o k`. -/
namespace Verif.Itf

/-- `TNLPSolver::ReturnStatus` (BonTNLPSolver.hpp:29-44). -/
inductive Status
  | iterationLimit | timeLimit | doesNotConverge | computationError | notEnoughFreedom | illDefinedProblem | illegalOption
  | externalException | exception | solvedOptimal | solvedOptimalTol | provenInfeasible | unbounded
  deriving DecidableEq, Repr

/-- The integer values of the enumeration. -/
def Status.code : Status → Int
  | .iterationLimit => -3 | .timeLimit => 5 | .doesNotConverge => -8 | .computationError => -2 | .notEnoughFreedom => -1
  | .illDefinedProblem => -4 | .illegalOption => -5 | .externalException => -6 | .exception => -7
  | .solvedOptimal => 1 | .solvedOptimalTol => 2 | .provenInfeasible => 3 | .unbounded => 4

/-- `TNLPSolver::isRecoverable` (BonTNLPSolver.cpp:252-255). -/
def isRecoverable (r : Status) : Bool :=
  0 ≤ r.code || (r ≠ .illDefinedProblem && r ≠ .notEnoughFreedom && r ≠ .illegalOption && r ≠ .computationError && r ≠ .timeLimit)

/-- What one NLP solve leaves in `problem_` (`x_sol_`, `duals_sol_`, `g_sol_`, `obj_value_`) and returns. -/
structure Outcome where
  st : Status
  obj : ℚ
  x : List ℚ
  duals : List ℚ
  g : List ℚ

/-- Interface state relevant to solving. -/
structure S where
  st : Status                 -- optimizationStatus_
  obj : ℚ                     -- problem_->obj_value()
  x : List ℚ                  -- problem_->x_sol()
  duals : List ℚ              -- problem_->duals_sol()
  g : List ℚ                  -- problem_->g_sol()
  sticky : Bool               -- pretendSucceededNext_
  hasContinued : Bool         -- hasContinuedAfterNlpFailure_
  first : Bool                -- firstSolve_
  retryInitial : Nat          -- numRetryInitial_
  warm : Bool                 -- warmstart_ present and valid for the solver
  calls : Nat                 -- nCallOptimizeTNLP_

/-- Options (set once by `extractInterfaceParams`). -/
structure Cfg where
  pretendFail : Nat           -- pretendFailIsInfeasible_ (0 stop, 1 fathom; 2 after ignoreFailures)
  retryUnsolved : Nat         -- numRetryUnsolved_
  retryResolve : Nat          -- numRetryResolve_
  retryInfeasible : Nat       -- numRetryInfeasibles_
  infeasEps : ℚ               -- infeasibility_epsilon_
  dmax : ℚ                    -- DBL_MAX
  exposeWarm : Bool           -- warmStartMode_ >= Optimum

/-- Result of an operation: normal return, or an exception leaving a state behind. -/
inductive Res
  | ok (s : S)
  | thrown (s : S)

def Res.bind (r : Res) (f : S → Res) : Res := match r with | .ok s => f s | .thrown s => .thrown s

/-- `isAbandoned` (cpp:2907-2920). -/
def isAbandoned (s : S) : Bool :=
  if s.sticky then false
  else s.st = .iterationLimit || s.st = .computationError || s.st = .illDefinedProblem || s.st = .illegalOption ||
    s.st = .externalException || s.st = .exception

/-- `isProvenOptimal` (cpp:2923-2927), `isProvenPrimalInfeasible` (cpp:2929-2932), `isProvenDualInfeasible` (cpp:2934-2937),
`isIterationLimitReached` (cpp:2952-2955). -/
def isOptSt (t : Status) : Bool := t = .solvedOptimal || t = .solvedOptimalTol
def isProvenOptimal (s : S) : Bool := isOptSt s.st
def isProvenPrimalInfeasible (s : S) : Bool := s.st = .provenInfeasible
def isProvenDualInfeasible (s : S) : Bool := s.st = .unbounded
def isIterationLimitReached (s : S) : Bool := s.st = .iterationLimit

/-- `solveAndCheckErrors` (cpp:2607-2766). -/
def solve (o : Nat → Outcome) (s : S) : Res :=
  let r := o s.calls
  let s' := { s with st := r.st, obj := r.obj, x := r.x, duals := r.duals, g := r.g, calls := s.calls + 1 }
  if isRecoverable r.st then .ok s' else .thrown s'

/-- The kept best (cpp:858-864). -/
structure Best where
  st : Status
  obj : ℚ
  x : List ℚ
  duals : List ℚ

/-- Loop of `resolveForCost` (cpp:883-943). -/
def costLoop (o : Nat → Outcome) : Nat → S → Best → S ⊕ S × Best
  | 0, s, b => .inr (s, b)
  | k + 1, s, b =>
    match solve o s with
    | .thrown s' => .inl s'
    | .ok s' =>
      costLoop o k s' (if isProvenOptimal s' ∧ s'.obj < b.obj then ⟨s'.st, s'.obj, s'.x, s'.duals⟩ else b)

/-- `resolveForCost` (cpp:835-986). -/
def resolveForCost (c : Cfg) (o : Nat → Outcome) (k : Nat) (s : S) : Res :=
  let s := { s with warm := false }
  match costLoop o k s ⟨s.st, if isProvenOptimal s then s.obj else c.dmax, s.x, s.duals⟩ with
  | .inl s' => .thrown s'
  | .inr (s', b) => .ok { s' with st := b.st, obj := b.obj, x := b.x, duals := b.duals }

/-- Random restarts of `resolveForRobustness` (cpp:1036-1070): stops at the first solve not abandoned. -/
def robustLoop (o : Nat → Outcome) : Nat → S → S ⊕ S × Bool
  | 0, s => .inr (s, false)
  | k + 1, s =>
    match solve o s with
    | .thrown s' => .inl s'
    | .ok s' => if isAbandoned s' then robustLoop o k s' else .inr (s', true)

/-- `resolveForRobustness` (cpp:988-1093). -/
def resolveForRobustness (c : Cfg) (o : Nat → Outcome) (k : Nat) (s : S) : Res :=
  match robustLoop o (k + 1) { s with warm := false } with
  | .inl s' => .thrown s'
  | .inr (s', true) => .ok s'
  | .inr (s', false) =>
    if c.pretendFail ≠ 0 then .ok { s' with sticky := true, hasContinued := s'.hasContinued || c.pretendFail = 1 }
    else .thrown s'

/-- Acquisition of the warm start at the end of a solve (cpp:2829-2834, 2893-2898). -/
def finish (c : Cfg) (s : S) : S := if ¬ s.warm ∧ ¬ isAbandoned s then { s with warm := c.exposeWarm } else s

/-- `numRetry` (cpp:2815). -/
def numRetry (c : Cfg) (s : S) : Nat := if s.first then s.retryInitial else c.retryResolve

/-- `initialSolve` (cpp:2779-2836). -/
def initialSolve (c : Cfg) (o : Nat → Outcome) (s : S) : Res :=
  ((solve o { s with warm := false }).bind fun s =>
    (if isAbandoned s ∨ (isProvenPrimalInfeasible s ∧ s.obj < c.infeasEps) then resolveForRobustness c o c.retryUnsolved s
     else if numRetry c s ≠ 0 then (resolveForCost c o (numRetry c s) s).bind fun s => .ok { s with retryInitial := 0 }
     else .ok s)).bind fun s => .ok (finish c { s with first := false })

/-- `resolve` (cpp:2845-2900). -/
def resolve (c : Cfg) (o : Nat → Outcome) (s : S) : Res :=
  if ¬ s.warm then initialSolve c o s
  else
    ((solve o { s with warm := false }).bind fun s =>
      if isAbandoned s ∨ (s.obj < 1 / 10 ^ 6 ∧ isProvenPrimalInfeasible s) then resolveForRobustness c o c.retryUnsolved s
      else if c.retryResolve ≠ 0 ∨ (c.retryInfeasible ≠ 0 ∧ isProvenPrimalInfeasible s) then
        resolveForCost c o (max c.retryResolve c.retryInfeasible) s
      else .ok s).bind fun s => .ok (finish c s)

/-! ### Ipopt's return code -/

/-- `Ipopt::ApplicationReturnStatus`; `other` stands for codes the switch does not list (e.g. `Maximum_WallTime_Exceeded`). -/
inductive IpStatus
  | succeeded | acceptable | infeasible | tooSmall | diverging | userStop | feasiblePoint | maxIter | restorationFailed | stepError
  | maxCpu | notEnoughDof | invalidProblem | invalidOption | invalidNumber | unrecoverable | nonIpopt | noMemory | internalError | other
  deriving DecidableEq, Repr

/-- `solverReturnStatus` (BonIpoptSolver.cpp:304-343). -/
def solverReturnStatus : IpStatus → Status
  | .maxIter | .userStop | .restorationFailed => .iterationLimit
  | .stepError | .unrecoverable | .noMemory => .computationError
  | .notEnoughDof => .notEnoughFreedom
  | .invalidProblem => .illDefinedProblem
  | .invalidOption | .invalidNumber => .illegalOption
  | .nonIpopt => .externalException
  | .internalError => .exception
  | .succeeded | .feasiblePoint => .solvedOptimal
  | .tooSmall => .doesNotConverge
  | .acceptable => .solvedOptimalTol
  | .infeasible => .provenInfeasible
  | .diverging => .unbounded
  | .maxCpu => .timeLimit
  | .other => .exception

/-- `OptimizeTNLP`/`ReOptimizeTNLP` (BonIpoptSolver.cpp:135-220): `zd` is the verdict of `zeroDimension` (none = not of dimension zero), `ip` Ipopt's
answer, `abort` is `BonminAbortAll`. -/
def optimizeTNLP (zd : Option Bool) (ip : IpStatus) (abort : Bool) : Status :=
  let st := match zd with | none => ip | some true => .succeeded | some false => .infeasible
  solverReturnStatus (if abort then .infeasible else st)

end Verif.Itf

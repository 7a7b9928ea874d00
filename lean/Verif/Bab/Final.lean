import Mathlib.Data.Rat.Defs
import Mathlib.Algebra.Order.Ring.Rat

/-!
# Final status of a branch-and-bound run
`src/CbcBonmin/BonCbc.cpp`
-/
namespace Verif.Bab

/-- Bab::MipStatuses (BonCbc.hpp:24-29). -/
inductive Mip where
  | feasibleOptimal | provenInfeasible | feasible | unboundedOrInfeasible | noSolutionKnown
deriving DecidableEq

/-- TMINLP::SolverReturn, the values used here. -/
inductive Ret where
  | success | infeasible | continuousUnbounded | limitExceeded | userInterrupt | error
deriving DecidableEq

/-- The members of `Bab` the user can ask for (BonCbc.hpp:100-112).  A solution is any value of `σ`. -/
structure Keeper (σ : Type) where
  best : Option σ
  mip : Mip
  obj : ℚ
  bound : ℚ
deriving DecidableEq

/-- Bab::Bab (BonCbc.cpp:70-82): `mipStatus_()` is the first enumerator, FeasibleOptimal. -/
def Keeper.new (σ : Type) : Keeper σ := ⟨none, .feasibleOptimal, 10 ^ 200, -(10 ^ 200)⟩

/-- What the run gave: the state of Cbc's model and of the solvers at the end of `model_.branchAndBound()`.
`remaining` is false when no time was left to start the search. -/
structure Run (σ : Type) where
  aborted : Bool
  objects : Nat
  contOptimal : Bool
  contInfeasible : Bool
  contDualInfeasible : Bool
  contSol : σ
  contObj : ℚ
  best2 : Option (σ × ℚ)
  modelBest : Option σ
  modelObj : ℚ
  modelBound : ℚ
  remaining : Bool
  status : Int
  contUnbounded : Bool
deriving DecidableEq

/-- The initial value of `status` (BonCbc.cpp:593-595). -/
def Run.ret0 {σ : Type} (r : Run σ) : Ret := if r.aborted then .userInterrupt else .error

/-- No branching objects: the answer is that of the continuous solver (BonCbc.cpp:596-630).  `DBL_MAX` is a parameter. -/
def finishCont {σ : Type} (dblMax : ℚ) (r : Run σ) : Keeper σ × Ret :=
  if !r.contOptimal then
    if r.contInfeasible then (⟨none, .provenInfeasible, dblMax, dblMax⟩, .infeasible)
    else if r.contDualInfeasible then (⟨none, .unboundedOrInfeasible, -dblMax, -dblMax⟩, .continuousUnbounded)
    else (⟨none, .noSolutionKnown, dblMax, -dblMax⟩, r.ret0)
  else (⟨some r.contSol, .feasibleOptimal, r.contObj, r.contObj⟩, .success)

/-- The solution that is kept (BonCbc.cpp:632-648); bestObj_ and bestBound_ were set at 537-538. -/
def keepBest {σ : Type} (b : Keeper σ) (r : Run σ) : Keeper σ :=
  match r.best2 with
  | some (x, v) => ⟨some x, b.mip, v, r.modelBound⟩
  | none =>
    match r.modelBest with
    | some x => ⟨some x, b.mip, r.modelObj, r.modelBound⟩
    | none => ⟨b.best, b.mip, r.modelObj, r.modelBound⟩

/-- The status that is reported (BonCbc.cpp:649-684). -/
def verdict {σ : Type} (b : Keeper σ) (r : Run σ) : Mip × Ret :=
  if !r.remaining then (if b.best.isSome then .feasible else .noSolutionKnown, .limitExceeded)
  else if r.status = 0 then
    if r.contUnbounded then (.unboundedOrInfeasible, .continuousUnbounded)
    else if b.best.isSome then (.feasibleOptimal, .success)
    else (.provenInfeasible, .infeasible)
  else if r.status = 1 ∨ r.status = 5 then
    (if b.best.isSome then .feasible else .noSolutionKnown, if r.status = 1 then .limitExceeded else .userInterrupt)
  else if r.status = 2 then (b.mip, .error)
  else (b.mip, r.ret0)

/-- The end of Bab::branchAndBound (BonCbc.cpp:537-538, 593-689). -/
def finish {σ : Type} (dblMax : ℚ) (b : Keeper σ) (r : Run σ) : Keeper σ × Ret :=
  if r.objects = 0 then finishCont dblMax r
  else ({ keepBest b r with mip := (verdict (keepBest b r) r).1 }, (verdict (keepBest b r) r).2)

/-- Bab::bestBound (BonCbc.cpp:692-698). -/
def Keeper.bestBound {σ : Type} (b : Keeper σ) : ℚ := if b.mip = .provenInfeasible then 10 ^ 200 else b.bound

end Verif.Bab

import Mathlib.Data.List.Basic

/-!
# How the programs end

`main` of src/Apps/BonMin.cpp:28-97 (`bonmin`), experimental/RobotBonmin/Robot-bonmin.cpp:23-87 (the same handlers) and src/Apps/BonNodeSolver.cpp:33-112 (`boundary node solver`).

What the two phases of a run (`initialize`, and the solve) do is a parameter: they return or throw.  Printing a null `char *` is undefined (the argument of `operator<<` must not be
null).  Exceptions thrown out of `main` end the program through `std::terminate`.
-/

namespace Verif.Bab.Programs

/-- What can be thrown: a pointer to an unsolved error (BonOsiTMINLPInterface.cpp:1089, 2627, 2643, BonChooseVariable.cpp:847, 894, BonCbcNlpStrategy.cpp:151), `SimpleError`, other
`CoinError`s, `OPTION_INVALID`, other Ipopt exceptions, and anything else, such as the integers of BonBabSetupBase.cpp:668, 694, 700, BonSubMipSolver.cpp:89 and BonEcpCuts.hpp:75 or the value
of BonCbc.cpp:418. -/
inductive Thrown | unsolved | simple | coin | optionInvalid | ipopt | other
  deriving DecidableEq

/-- The classes named in handlers. -/
inductive Cls | unsolvedPtr | simpleError | coinError | optionInvalid | ipoptException | all
  deriving DecidableEq

/-- Whether a handler for a class takes an exception.  `SimpleError` is derived from `CoinError` (BonOsiTMINLPInterface.hpp:60), `OPTION_INVALID` from `IpoptException`. -/
def Cls.takes : Cls → Thrown → Bool
  | .unsolvedPtr, .unsolved => true
  | .simpleError, .simple => true
  | .coinError, .simple => true
  | .coinError, .coin => true
  | .optionInvalid, .optionInvalid => true
  | .ipoptException, .optionInvalid => true
  | .ipoptException, .ipopt => true
  | .all, _ => true
  | _, _ => false

/-- What a handler does: writes the files of a failed problem and the error, writes the error, or writes the name of the problem and throws again. -/
inductive Act | diffFiles | report | rethrow
  deriving DecidableEq

/-- How a run ends; `exit c`: files of a failed problem written, anything written to the error stream. -/
inductive End
  | exit (code : ℕ) (files : Bool) (err : Bool)
  | terminate
  | undefined
  deriving DecidableEq

/-- What `initialize` and the solve do: `none` if they return. -/
structure Run where
  argc : ℕ
  init : Option Thrown
  solve : Option Thrown

/-- The handlers of `bonmin` and `robot-bonmin` in their order (BonMin.cpp:60-91, Robot-bonmin.cpp:52-82). -/
def handlers : List (Cls × Act) :=
  [(.unsolvedPtr, .diffFiles), (.simpleError, .report), (.coinError, .report), (.optionInvalid, .report), (.ipoptException, .report), (.all, .rethrow)]

/-- The handlers of the node solver (BonNodeSolver.cpp:90-104). -/
def nodeHandlers : List (Cls × Act) := [(.simpleError, .report), (.coinError, .report), (.all, .rethrow)]

/-- The first handler that takes the exception. -/
def handle (hs : List (Cls × Act)) (name : Bool) (t : Thrown) : End :=
  match hs.find? fun h => h.1.takes t with
  | none => .terminate
  | some (_, .diffFiles) => .exit 0 true true
  | some (_, .report) => .exit 0 false true
  | some (_, .rethrow) => if name then .terminate else .undefined

/-- `main` of `bonmin` (BonMin.cpp:28-97): both phases are inside the `try`; the name of the problem is null without arguments (39-42). -/
def bonmin (r : Run) : End :=
  match r.init.or r.solve with
  | none => .exit 0 false false
  | some t => handle handlers (decide (1 < r.argc)) t

/-- `main` of the node solver (BonNodeSolver.cpp:33-112): `argv[1]` is measured before its presence is known (40, 53); `initialize` is outside the `try` (58-59). -/
def nodeSolver (r : Run) : End :=
  if r.argc ≤ 1 then .undefined
  else match r.init with
    | some _ => .terminate
    | none => match r.solve with
      | none => .exit 0 false false
      | some t => handle nodeHandlers true t

/-! ### specification -/

/-- The phases both returned. -/
def Run.Completed (r : Run) : Prop := r.init = none ∧ r.solve = none

/-- The first exception of a run. -/
def Run.throws (r : Run) : Option Thrown := match r.init with | some t => some t | none => r.solve

/-! ### theorems -/

/-- **C240**: `bonmin` ends with status 0 unless the exception is of an unknown kind. -/
theorem bonmin_exit_iff (r : Run) : (∃ c f e, bonmin r = .exit c f e) ↔ r.throws ≠ some .other := by
  obtain ⟨a, i, s⟩ := r
  rcases i with _ | (_ | _ | _ | _ | _ | _) <;> rcases s with _ | (_ | _ | _ | _ | _ | _) <;>
    simp [bonmin, Run.throws, handle, handlers, Cls.takes] <;> split <;> simp

/-- **C240**: whenever `bonmin` exits, the status is 0. -/
theorem bonmin_status (r : Run) (c : ℕ) (f e : Bool) (h : bonmin r = .exit c f e) : c = 0 := by
  obtain ⟨a, i, s⟩ := r
  rcases i with _ | (_ | _ | _ | _ | _ | _) <;> rcases s with _ | (_ | _ | _ | _ | _ | _) <;>
    simp [bonmin, handle, handlers, Cls.takes] at h <;> first | exact h.1.symm | (split at h <;> cases h)

/-- **C240 (refuted).** Status 0 does not mean that the run completed: a failed NLP, a wrong option and an error of the interface all end with status 0. -/
theorem status_zero_after_failure : bonmin ⟨2, none, some .unsolved⟩ = .exit 0 true true ∧ bonmin ⟨2, some .optionInvalid, none⟩ = .exit 0 false true ∧
    bonmin ⟨2, none, some .simple⟩ = .exit 0 false true ∧ ¬ (Run.mk 2 none (some .unsolved)).Completed ∧ ¬ (Run.mk 2 (some .optionInvalid) none).Completed ∧
    nodeSolver ⟨2, none, some .coin⟩ = .exit 0 false true ∧ ¬ (Run.mk 2 none (some .coin)).Completed := by
  refine ⟨by decide, by decide, by decide, ?_, ?_, by decide, ?_⟩ <;> simp [Run.Completed]

/-- **C240**: status 0 with an empty error stream means that the run completed, and conversely. -/
theorem bonmin_completed_partial (r : Run) : (∃ f, bonmin r = .exit 0 f false) ↔ r.Completed := by
  obtain ⟨a, i, s⟩ := r
  rcases i with _ | (_ | _ | _ | _ | _ | _) <;> rcases s with _ | (_ | _ | _ | _ | _ | _) <;>
    simp [bonmin, Run.Completed, handle, handlers, Cls.takes] <;> split <;> simp

/-- **C240**: the same for the node solver, when it has an argument. -/
theorem node_completed_partial (r : Run) : (∃ f, nodeSolver r = .exit 0 f false) ↔ 1 < r.argc ∧ r.Completed := by
  obtain ⟨a, i, s⟩ := r
  by_cases ha : a ≤ 1
  · have : ¬ 1 < a := by omega
    simp [nodeSolver, ha, this]
  · have : 1 < a := by omega
    rcases i with _ | (_ | _ | _ | _ | _ | _) <;> rcases s with _ | (_ | _ | _ | _ | _ | _) <;>
      simp [nodeSolver, ha, this, Run.Completed, handle, nodeHandlers, Cls.takes]

/-- **C241**: the files that describe a failed problem are written exactly when an NLP failed. -/
theorem bonmin_files_iff (r : Run) : (∃ c e, bonmin r = .exit c true e) ↔ r.throws = some .unsolved := by
  obtain ⟨a, i, s⟩ := r
  rcases i with _ | (_ | _ | _ | _ | _ | _) <;> rcases s with _ | (_ | _ | _ | _ | _ | _) <;>
    simp [bonmin, Run.throws, handle, handlers, Cls.takes] <;> split <;> simp

/-- **C241**: `bonmin` behaves undefined exactly when it was started without arguments and something unknown is thrown. -/
theorem bonmin_undefined_iff (r : Run) : bonmin r = .undefined ↔ r.argc ≤ 1 ∧ r.throws = some .other := by
  obtain ⟨a, i, s⟩ := r
  rcases i with _ | (_ | _ | _ | _ | _ | _) <;> rcases s with _ | (_ | _ | _ | _ | _ | _) <;>
    simp [bonmin, Run.throws, handle, handlers, Cls.takes]

/-- **C241**: the node solver behaves undefined exactly when it was started without arguments. -/
theorem node_undefined_iff (r : Run) : nodeSolver r = .undefined ↔ r.argc ≤ 1 := by
  obtain ⟨a, i, s⟩ := r
  by_cases ha : a ≤ 1
  · simp [nodeSolver, ha]
  · rcases i with _ | (_ | _ | _ | _ | _ | _) <;> rcases s with _ | (_ | _ | _ | _ | _ | _) <;>
      simp [nodeSolver, ha, handle, nodeHandlers, Cls.takes]

/-- **C241**: the node solver reports an error by its message only if it is a `CoinError` of the solve; a failed NLP, for which it is meant, ends it through `terminate` without the files. -/
theorem node_report_iff (r : Run) (ha : 1 < r.argc) : nodeSolver r = .terminate ↔
    r.init ≠ none ∨ r.solve = some .unsolved ∨ r.solve = some .optionInvalid ∨ r.solve = some .ipopt ∨ r.solve = some .other := by
  obtain ⟨a, i, s⟩ := r
  have ha' : ¬ a ≤ 1 := by simp at ha; omega
  rcases i with _ | (_ | _ | _ | _ | _ | _) <;> rcases s with _ | (_ | _ | _ | _ | _ | _) <;>
    simp [nodeSolver, ha', handle, nodeHandlers, Cls.takes]

/-- **C241 (refuted).** The same failure of an NLP that makes `bonmin` write its files and exit ends the node solver through `terminate`; and both programs are undefined in some run. -/
theorem node_solver_terminates : nodeSolver ⟨2, none, some .unsolved⟩ = .terminate ∧ bonmin ⟨2, none, some .unsolved⟩ = .exit 0 true true ∧
    nodeSolver ⟨1, none, none⟩ = .undefined ∧ bonmin ⟨1, some .other, none⟩ = .undefined := by decide

example : (Run.mk 2 none none).Completed ∧ bonmin ⟨2, none, none⟩ = .exit 0 false false ∧ nodeSolver ⟨2, none, none⟩ = .exit 0 false false :=
  ⟨⟨rfl, rfl⟩, by decide, by decide⟩

/-- The classes an exception belongs to. -/
def classes : Thrown → List Cls
  | .unsolved => [.unsolvedPtr]
  | .simple => [.simpleError, .coinError]
  | .coin => [.coinError]
  | .optionInvalid => [.optionInvalid, .ipoptException]
  | .ipopt => [.ipoptException]
  | .other => []

/-- **C241**: a handler takes exactly the exceptions of its class, and `catch (...)` all. -/
theorem takes_iff (c : Cls) (t : Thrown) : c.takes t = true ↔ c = .all ∨ c ∈ classes t := by
  cases c <;> cases t <;> simp [Cls.takes, classes]

/-- A run of the node solver that completes ends with status 0, reports nothing and writes no files. -/
theorem node_completed_exit (r : Run) (ha : 1 < r.argc) (hc : r.Completed) : nodeSolver r = .exit 0 false false := by
  have ha' : ¬ r.argc ≤ 1 := by omega
  simp [nodeSolver, ha', hc.1, hc.2]

end Verif.Bab.Programs

import Verif.Bab.Final
import Mathlib.Tactic.NormNum

/-!
# C26: the final status is consistent with what was found
-/
namespace Verif.Bab

/-- The solution this run produced, if any. -/
def Run.found {σ : Type} (r : Run σ) : Option σ :=
  if r.objects = 0 then (if r.contOptimal then some r.contSol else none)
  else match r.best2 with
    | some p => some p.1
    | none => r.modelBest

/-- The search was completed: the continuous problem was all there was to solve, or Cbc ended with status 0 on a bounded
problem. -/
def Run.completed {σ : Type} (r : Run σ) : Prop :=
  r.objects = 0 ∨ (r.remaining = true ∧ r.status = 0 ∧ r.contUnbounded = false)

/-- The search was interrupted by a limit or by the user. -/
def Run.interrupted {σ : Type} (r : Run σ) : Prop :=
  r.objects ≠ 0 ∧ (r.remaining = false ∨ r.status = 1 ∨ r.status = 5)

/-- Cbc reports no internal difficulty: documented statuses of a run that started and is not abandoned. -/
def Run.regular {σ : Type} (r : Run σ) : Prop := r.objects = 0 ∨ r.remaining = false ∨ r.status = 0 ∨ r.status = 1 ∨ r.status = 5

variable {σ : Type}

theorem keepBest_best (b : Keeper σ) (r : Run σ) (h0 : r.objects ≠ 0) :
    (keepBest b r).best = (match r.found with | some x => some x | none => b.best) := by
  unfold keepBest Run.found
  rw [if_neg h0]
  cases r.best2 with
  | some p => rfl
  | none => cases r.modelBest <;> rfl

/-- C26: the solution available after a run is the one found, and otherwise (with integer variables) the one left by an earlier
run. -/
theorem final_solution (dm : ℚ) (b : Keeper σ) (r : Run σ) :
    (finish dm b r).1.best = (match r.found with | some x => some x | none => if r.objects = 0 then none else b.best) := by
  unfold finish
  by_cases h0 : r.objects = 0
  · rw [if_pos h0]
    unfold finishCont Run.found
    simp only [h0, if_true]
    cases r.contOptimal
    · cases r.contInfeasible <;> cases r.contDualInfeasible <;> simp
    · simp
  · rw [if_neg h0]
    simp only [h0, if_false]
    exact keepBest_best b r h0

/-- C26 (partial): on an object used for the first time (or whose previous run left no solution), for a run in which Cbc reports
no internal difficulty: FeasibleOptimal is reported exactly for a completed search with a solution from this run, ProvenInfeasible
only for a completed search without solution, and an interrupted run reports Feasible or NoSolutionKnown according to whether it has
a solution.  Missing: runs that end with Cbc status 2 (`final_status_error`), and objects that keep a solution of an earlier run
(`final_status_second_run`). -/
theorem final_status_partial (dm : ℚ) (b : Keeper σ) (r : Run σ) (hb : b.best = none) (hreg : r.regular) :
    ((finish dm b r).1.mip = .feasibleOptimal ↔ r.completed ∧ r.found.isSome = true) ∧
    ((finish dm b r).1.mip = .provenInfeasible → r.completed ∧ r.found = none) ∧
    (r.interrupted → (finish dm b r).1.mip = if r.found.isSome then .feasible else .noSolutionKnown) ∧
    ((finish dm b r).1.best = r.found) := by
  have hsol : (finish dm b r).1.best = r.found := by
    rw [final_solution]
    cases r.found with
    | some x => rfl
    | none => simp [hb]
  refine ⟨?_, ?_, ?_, hsol⟩
  all_goals
    clear hsol
    by_cases h0 : r.objects = 0
    · simp only [finish, finishCont, Run.found, Run.completed, Run.interrupted, h0, if_true, true_or, true_and, ne_eq,
        not_true_eq_false, false_and, IsEmpty.forall_iff]
      try (cases r.contOptimal <;> cases r.contInfeasible <;> cases r.contDualInfeasible <;> simp)
    · have hreg' : r.remaining = false ∨ r.status = 0 ∨ r.status = 1 ∨ r.status = 5 := by
        rcases hreg with h | h
        · exact absurd h h0
        · exact h
      have hk : (keepBest b r).best = r.found := by
        rw [keepBest_best b r h0]
        cases r.found <;> simp [hb]
      simp only [finish, h0, if_false, Run.completed, Run.interrupted, false_or, verdict, hk, ne_eq, not_false_eq_true,
        true_and]
      cases hrem : r.remaining
      · cases r.found <;> simp
      · rcases hreg' with h | h | h | h
        · rw [hrem] at h; exact absurd h (by simp)
        · cases r.contUnbounded <;> cases r.found <;> simp [h]
        · cases r.found <;> simp [h]
        · cases r.found <;> simp [h]

/-- C26: the return code passed to the user's `finalize_solution` agrees with the status kept in the object, except after an
internal error. -/
theorem final_return_agrees (dm : ℚ) (b : Keeper σ) (r : Run σ) (hreg : r.regular) :
    ((finish dm b r).2 = .success ↔ (finish dm b r).1.mip = .feasibleOptimal) ∧
    ((finish dm b r).2 = .infeasible ↔ (finish dm b r).1.mip = .provenInfeasible) ∧
    ((finish dm b r).2 = .continuousUnbounded ↔ (finish dm b r).1.mip = .unboundedOrInfeasible) := by
  unfold finish
  by_cases h0 : r.objects = 0
  · rw [if_pos h0]
    unfold finishCont Run.ret0
    cases r.contOptimal <;> cases r.contInfeasible <;> cases r.contDualInfeasible <;> cases r.aborted <;> simp
  · have hreg' : r.remaining = false ∨ r.status = 0 ∨ r.status = 1 ∨ r.status = 5 := by
      rcases hreg with h | h
      · exact absurd h h0
      · exact h
    rw [if_neg h0]
    dsimp only [verdict]
    cases hrem : r.remaining
    · cases (keepBest b r).best <;> simp
    · rcases hreg' with h | h | h | h
      · rw [hrem] at h; exact absurd h (by simp)
      · cases r.contUnbounded <;> cases (keepBest b r).best <;> simp [h]
      · cases (keepBest b r).best <;> simp [h]
      · cases (keepBest b r).best <;> simp [h]

/-- C26: the reported objective value belongs to the reported solution when the solution is of this run. -/
theorem final_objective (dm : ℚ) (b : Keeper σ) (r : Run σ) (hfound : r.found.isSome = true) :
    (finish dm b r).1.obj =
      if r.objects = 0 then r.contObj else (match r.best2 with | some p => p.2 | none => r.modelObj) := by
  unfold finish
  by_cases h0 : r.objects = 0
  · unfold Run.found at hfound
    simp only [h0, if_true] at hfound ⊢
    unfold finishCont
    cases hc : r.contOptimal
    · rw [hc] at hfound; simp at hfound
    · simp
  · simp only [h0, if_false]
    unfold keepBest
    cases r.best2 with
    | some p => rfl
    | none => cases r.modelBest <;> rfl

/-- C26: the reported lower bound is the one of the search. -/
theorem final_bound (dm : ℚ) (b : Keeper σ) (r : Run σ) :
    (finish dm b r).1.bound =
      if r.objects = 0 then
        (if r.contOptimal then r.contObj else if r.contInfeasible then dm else -dm)
      else r.modelBound := by
  unfold finish
  by_cases h0 : r.objects = 0
  · simp only [h0, if_true]
    unfold finishCont
    cases r.contOptimal <;> cases r.contInfeasible <;> cases r.contDualInfeasible <;> simp
  · simp only [h0, if_false]
    unfold keepBest
    cases r.best2 with
    | some p => rfl
    | none => cases r.modelBest <;> rfl

/-- C26: without a solution from this run the reported value is plus infinity when the continuous problem is infeasible or its status is
unknown, minus infinity when it is unbounded, and with integer variables the value Cbc reports. -/
theorem final_objective_none (dm : ℚ) (b : Keeper σ) (r : Run σ) (hfound : r.found = none) :
    (finish dm b r).1.obj =
      if r.objects = 0 then (if r.contInfeasible = false ∧ r.contDualInfeasible = true then -dm else dm) else r.modelObj := by
  unfold finish
  by_cases h0 : r.objects = 0
  · unfold Run.found at hfound
    simp only [h0, if_true] at hfound ⊢
    unfold finishCont
    cases hc : r.contOptimal
    · cases r.contInfeasible <;> cases r.contDualInfeasible <;> simp
    · rw [hc] at hfound; simp at hfound
  · unfold Run.found at hfound
    simp only [h0, if_false] at hfound ⊢
    unfold keepBest
    cases hb : r.best2 with
    | some p => rw [hb] at hfound; simp at hfound
    | none =>
      rw [hb] at hfound
      simp only at hfound
      simp [hfound]

/-- C26: before any run there is no solution, its value is 1e200 and the lower bound -1e200; the status kept says optimal. -/
theorem final_new : (Keeper.new σ).best = none ∧ (Keeper.new σ).obj = 10 ^ 200 ∧ (Keeper.new σ).bestBound = -(10 ^ 200) ∧
    (Keeper.new σ).mip = .feasibleOptimal := by
  refine ⟨rfl, rfl, ?_, rfl⟩
  simp [Keeper.bestBound, Keeper.new]

def exRun : Run Nat :=
  { aborted := false, objects := 3, contOptimal := true, contInfeasible := false, contDualInfeasible := false,
    contSol := 0, contObj := 0, best2 := none, modelBest := none, modelObj := 10 ^ 50, modelBound := 10 ^ 50,
    remaining := true, status := 0, contUnbounded := false }

/-- The hypotheses of `final_status_partial` are met by complete and interrupted runs. -/
example : exRun.regular ∧ (finish 1 (Keeper.new Nat) exRun).1.mip = .provenInfeasible ∧
    (finish 1 (Keeper.new Nat) { exRun with modelBest := some 7 }).1.mip = .feasibleOptimal ∧
    (finish 1 (Keeper.new Nat) { exRun with modelBest := some 7, status := 1 }).1.mip = .feasible :=
  ⟨Or.inr (Or.inr (Or.inl rfl)), by decide +kernel, by decide +kernel, by decide +kernel⟩

/-- C26, refutation: a search abandoned by Cbc (status 2) on a new object is reported as FeasibleOptimal, without any solution. -/
theorem final_status_error :
    ∃ r : Run Nat, r.status = 2 ∧ r.found = none ∧ ¬ r.completed ∧
      (finish 1 (Keeper.new Nat) r).1.mip = .feasibleOptimal ∧ (finish 1 (Keeper.new Nat) r).1.best = none ∧
      (finish 1 (Keeper.new Nat) r).2 = .error :=
  ⟨{ exRun with status := 2 }, rfl, rfl, by unfold Run.completed exRun; simp, by decide +kernel, by decide +kernel,
    by decide +kernel⟩

/-- C26, refutation: an object that is used again keeps the solution of its earlier run: an infeasible problem is then reported
FeasibleOptimal, with the old solution and the new objective value. -/
theorem final_status_second_run :
    ∃ r1 r2 : Run Nat, r2.found = none ∧ r2.completed ∧
      let b1 := (finish 1 (Keeper.new Nat) r1).1
      (finish 1 b1 r2).1.mip = .feasibleOptimal ∧ (finish 1 b1 r2).2 = .success ∧
      (finish 1 b1 r2).1.best = r1.found ∧ (finish 1 b1 r2).1.obj = 10 ^ 50 :=
  ⟨{ exRun with modelBest := some 7 }, exRun, rfl, Or.inr ⟨rfl, rfl, rfl⟩, by decide +kernel, by decide +kernel,
    by decide +kernel, by decide +kernel⟩

/-- C26: `bestBound` is 1e200 for infeasible problems and the bound of the search otherwise. -/
theorem bestBound_exact (b : Keeper σ) :
    (b.mip = .provenInfeasible → b.bestBound = 10 ^ 200) ∧ (b.mip ≠ .provenInfeasible → b.bestBound = b.bound) := by
  unfold Keeper.bestBound
  constructor <;> intro h <;> simp [h]

/-- The value returned when neither a solution nor infeasibility nor unboundedness is reported: a limit exactly if no time was left or Cbc says so, an interruption exactly if Cbc says so or gives no status it is known to
have and the user interrupted, an error exactly if Cbc says so or nothing is known. -/
theorem return_exact (dm : ℚ) (b : Keeper σ) (r : Run σ) :
    ((finish dm b r).2 = .limitExceeded ↔ r.objects ≠ 0 ∧ (r.remaining = false ∨ r.status = 1)) ∧
    ((finish dm b r).2 = .userInterrupt ↔ (r.objects = 0 ∧ r.contOptimal = false ∧ r.contInfeasible = false ∧ r.contDualInfeasible = false ∧ r.aborted = true) ∨
      (r.objects ≠ 0 ∧ r.remaining = true ∧ (r.status = 5 ∨ r.status ∉ [0, 1, 2, 5] ∧ r.aborted = true))) ∧
    ((finish dm b r).2 = .error ↔ (r.objects = 0 ∧ r.contOptimal = false ∧ r.contInfeasible = false ∧ r.contDualInfeasible = false ∧ r.aborted = false) ∨
      (r.objects ≠ 0 ∧ r.remaining = true ∧ (r.status = 2 ∨ r.status ∉ [0, 1, 2, 5] ∧ r.aborted = false))) := by
  unfold finish
  by_cases ho : r.objects = 0
  · simp only [ho, if_true, finishCont, Run.ret0]
    cases r.contOptimal <;> cases r.contInfeasible <;> cases r.contDualInfeasible <;> cases r.aborted <;> simp
  · simp only [ho, if_false, verdict, Run.ret0]
    cases hr : r.remaining
    · simp [ho]
    · by_cases h0 : r.status = 0
      · simp only [h0]
        cases r.contUnbounded <;> cases (keepBest b r).best.isSome <;> simp
      · by_cases h1 : r.status = 1
        · simp [h1, ho]
        · by_cases h5 : r.status = 5
          · simp [h5, ho]
          · by_cases h2 : r.status = 2
            · simp [h2, ho]
            · cases r.aborted <;> simp [h0, h1, h2, h5, ho]

end Verif.Bab

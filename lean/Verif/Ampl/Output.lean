import Mathlib.Data.List.Basic
import Mathlib.Data.Int.Notation
import Mathlib.Algebra.Order.Ring.Rat
import Mathlib.Tactic.Linarith
import Mathlib.Tactic.NormNum
import Mathlib.Tactic.Ring
import Verif.Ampl.Suffix
import Verif.Bab.Final

/-!
# AMPL models: reporting the result (`src/Interfaces/Ampl/BonAmplTMINLP.cpp`)
-/
namespace Verif.Ampl

/-- What AMPL or the user gets: `solve_result_num` and either the vector passed to `write_sol` (`none` for NULL) or the lines of the file `<app>.sol`. -/
structure Report where
  num : ℕ
  toAmpl : Bool
  x : Option (List ℚ)
  lines : List (ℕ × ℚ)
deriving DecidableEq, Repr

/-- The chain of `if`s of `AmplTMINLP::finalize_solution` (BonAmplTMINLP.cpp:718-753). -/
def resultNum (s : Bab.Ret) (hasX : Bool) : ℕ :=
  if s = .success then 3
  else if s = .infeasible then 220
  else if s = .continuousUnbounded then 300
  else if s = .limitExceeded then (if hasX then 421 else 410)
  else if s = .userInterrupt then (if hasX then 422 else 411)
  else 500

/-- `AmplTMINLP::finalize_solution` and `write_solution` (BonAmplTMINLP.cpp:712-794).  `file` is the option `file_solution`: its first value is `yes`, so `writeAmplSolFile_` is 0
for `yes` (BonOsiTMINLPInterface.cpp:84-88).  `nVar` is AMPL's number of variables, `n` the argument; reading a NULL vector or behind its end is undefined. -/
def finalize (file : Bool) (nVar : ℕ) (s : Bab.Ret) (n : ℕ) (x : Option (List ℚ)) : Out Report :=
  if !file then
    match x with
    | none => .done ⟨resultNum s false, true, none, []⟩
    | some v => if v.length < nVar then .undefined else .done ⟨resultNum s true, true, some (v.take nVar), []⟩
  else
    match x with
    | none => if n = 0 then .done ⟨resultNum s false, false, none, []⟩ else .undefined
    | some v => if v.length < n then .undefined else .done ⟨resultNum s true, false, none, (List.range n).zip v⟩

/-- The end of a run on an AMPL model: `Bab::branchAndBound` (BonCbc.cpp:565-689) followed by `finalize_solution`. -/
def finishAmpl (file : Bool) (nVar : ℕ) (dblMax : ℚ) (b : Bab.Keeper (List ℚ)) (r : Bab.Run (List ℚ)) : Out Report :=
  finalize file nVar (Bab.finish dblMax b r).2 nVar (Bab.finish dblMax b r).1.best

/-- An `UnsolvedError` during the search (BonCbc.cpp:528-532). -/
def unsolvedAmpl (file : Bool) (nVar : ℕ) : Out Report := finalize file nVar .error 0 none

/-! ## Results -/

/-- C79: the code is the one of the status. -/
theorem result_code (s : Bab.Ret) (b : Bool) : resultNum s b = match s, b with
    | .success, _ => 3
    | .infeasible, _ => 220
    | .continuousUnbounded, _ => 300
    | .limitExceeded, true => 421
    | .limitExceeded, false => 410
    | .userInterrupt, true => 422
    | .userInterrupt, false => 411
    | .error, _ => 500 := by
  cases s <;> cases b <;> rfl

/-- C79: the code tells the status, and for interrupted runs whether there is a solution. -/
theorem code_injective (s s' : Bab.Ret) (b b' : Bool) :
    resultNum s b = resultNum s' b' ↔ s = s' ∧ (s = .limitExceeded ∨ s = .userInterrupt → b = b') := by
  cases s <;> cases s' <;> cases b <;> cases b' <;> simp [resultNum]

/-- C79: AMPL's classes of codes: solved, infeasible, unbounded, limit, failure. -/
theorem code_class (s : Bab.Ret) (b : Bool) :
    (resultNum s b < 100 ↔ s = .success) ∧ (200 ≤ resultNum s b ∧ resultNum s b < 300 ↔ s = .infeasible) ∧ (300 ≤ resultNum s b ∧ resultNum s b < 400 ↔ s = .continuousUnbounded) ∧
    (400 ≤ resultNum s b ∧ resultNum s b < 500 ↔ s = .limitExceeded ∨ s = .userInterrupt) ∧ (500 ≤ resultNum s b ↔ s = .error) := by
  cases s <;> cases b <;> simp [resultNum]

/-- C79: what is reported. -/
theorem finalize_exact (file : Bool) (nVar : ℕ) (s : Bab.Ret) (n : ℕ) (x : Option (List ℚ)) (r : Report) :
    finalize file nVar s n x = .done r ↔ r.num = resultNum s x.isSome ∧ r.toAmpl = !file ∧
      (file = false → r.lines = [] ∧ r.x = x.map (fun v => v.take nVar) ∧ ∀ v, x = some v → nVar ≤ v.length) ∧
      (file = true → r.x = none ∧ r.lines.length = n ∧ (x = none → n = 0) ∧
        ∀ v, x = some v → n ≤ v.length ∧ ∀ i < n, r.lines[i]? = (v[i]?).map fun y => (i, y)) := by
  obtain ⟨r1, r2, r3, r4⟩ := r
  unfold finalize
  cases file
  · simp only [Bool.not_false, if_true, reduceCtorEq, false_implies, and_true, true_implies]
    cases x with
    | none =>
      simp only [Out.done.injEq, Report.mk.injEq, Option.isSome_none, Option.map_none, reduceCtorEq, false_implies, implies_true, and_true]
      constructor
      · rintro ⟨rfl, rfl, rfl, rfl⟩; simp
      · rintro ⟨rfl, rfl, rfl, rfl⟩; simp
    | some v =>
      simp only [Option.isSome_some, Option.map_some, Option.some.injEq, forall_eq']
      split
      · simp only [reduceCtorEq, false_iff]; omega
      · simp only [Out.done.injEq, Report.mk.injEq]
        constructor
        · rintro ⟨rfl, rfl, rfl, rfl⟩; exact ⟨rfl, rfl, rfl, rfl, by omega⟩
        · rintro ⟨rfl, rfl, rfl, rfl, -⟩; exact ⟨rfl, rfl, rfl, rfl⟩
  · simp only [Bool.not_true, Bool.false_eq_true, if_false, reduceCtorEq, false_implies, true_and, true_implies]
    cases x with
    | none =>
      simp only [Option.isSome_none, reduceCtorEq, false_implies, implies_true, and_true, true_implies]
      split
      · rename_i h
        subst h
        simp only [Out.done.injEq, Report.mk.injEq, List.length_eq_zero_iff]
        constructor
        · rintro ⟨rfl, rfl, rfl, rfl⟩; simp
        · rintro ⟨rfl, rfl, rfl, rfl, -⟩; simp
      · rename_i h
        simp only [reduceCtorEq, false_iff]
        rintro ⟨-, -, -, -, h'⟩
        exact h h'
    | some v =>
      simp only [Option.isSome_some, reduceCtorEq, false_implies, Option.some.injEq, forall_eq', true_and]
      split
      · simp only [reduceCtorEq, false_iff]
        rintro ⟨-, -, -, -, h, -⟩
        omega
      · rename_i h
        simp only [Out.done.injEq, Report.mk.injEq]
        have hz : ∀ i < n, ((List.range n).zip v)[i]? = (v[i]?).map fun y => (i, y) := by
          intro i hi
          have hv : i < v.length := by omega
          rw [List.getElem?_eq_getElem (by rw [List.length_zip, List.length_range]; omega), List.getElem?_eq_getElem hv]
          simp
        have hlen : ((List.range n).zip v).length = n := by rw [List.length_zip, List.length_range]; omega
        constructor
        · rintro ⟨rfl, rfl, rfl, rfl⟩; exact ⟨rfl, rfl, rfl, hlen, by omega, hz⟩
        · rintro ⟨rfl, rfl, rfl, h1, -, h2⟩
          refine ⟨rfl, rfl, rfl, ?_⟩
          apply List.ext_getElem?
          intro i
          by_cases hi : i < n
          · rw [hz i hi, h2 i hi]
          · rw [List.getElem?_eq_none (by omega), List.getElem?_eq_none (by omega)]

example : finalize false 2 .limitExceeded 2 (some [1, 3]) = .done ⟨421, true, some [1, 3], []⟩ ∧
    finalize true 2 .success 2 (some [1, 3]) = .done ⟨3, false, none, [(0, 1), (1, 3)]⟩ := by decide +kernel

/-- C79, without the option `file_solution`: at the end of every run AMPL gets the code of the status and the best solution, if there is one. -/
theorem finish_ampl_partial (nVar : ℕ) (dblMax : ℚ) (b : Bab.Keeper (List ℚ)) (r : Bab.Run (List ℚ)) (hlen : ∀ v, (Bab.finish dblMax b r).1.best = some v → v.length = nVar) :
    finishAmpl false nVar dblMax b r =
      .done ⟨resultNum (Bab.finish dblMax b r).2 (Bab.finish dblMax b r).1.best.isSome, true, (Bab.finish dblMax b r).1.best, []⟩ := by
  unfold finishAmpl
  rw [finalize_exact]
  refine ⟨rfl, rfl, fun _ => ⟨rfl, ?_, fun v hv => by rw [hlen v hv]⟩, fun h => by simp at h⟩
  cases h : (Bab.finish dblMax b r).1.best with
  | none => rfl
  | some v => simp [← hlen v h]

/-- C79: a code of the class `solved` comes with a solution, `infeasible` without one, interrupted runs say which. -/
theorem ampl_code_solution (nVar : ℕ) (dblMax : ℚ) (b : Bab.Keeper (List ℚ)) (r : Bab.Run (List ℚ)) (rep : Report) (h : finishAmpl false nVar dblMax b r = .done rep) :
    (rep.num = 3 → rep.x.isSome) ∧ (rep.num = 220 → rep.x = none) ∧ (rep.num = 421 ∨ rep.num = 422 → rep.x.isSome) ∧ (rep.num = 410 ∨ rep.num = 411 → rep.x = none) := by
  unfold finishAmpl at h
  obtain ⟨h1, -, h2, -⟩ := (finalize_exact ..).1 h
  obtain ⟨-, hx, -⟩ := h2 rfl
  have hs : rep.x.isSome = (Bab.finish dblMax b r).1.best.isSome := by rw [hx]; simp
  have hn : rep.x = none ↔ (Bab.finish dblMax b r).1.best.isSome = false := by rw [← hs]; cases rep.x <;> simp
  rw [hs, hn, h1, result_code]
  have k : ((Bab.finish dblMax b r).2 = .success → (Bab.finish dblMax b r).1.best.isSome = true) ∧
      ((Bab.finish dblMax b r).2 = .infeasible → (Bab.finish dblMax b r).1.best.isSome = false) := by
    unfold Bab.finish
    by_cases h0 : r.objects = 0
    · rw [if_pos h0]
      unfold Bab.finishCont Bab.Run.ret0
      cases r.contOptimal <;> cases r.contInfeasible <;> cases r.contDualInfeasible <;> cases r.aborted <;> simp
    · rw [if_neg h0]
      dsimp only
      generalize Bab.keepBest b r = q
      unfold Bab.verdict Bab.Run.ret0
      by_cases a0 : r.status = 0
      · cases q.best.isSome <;> cases r.remaining <;> cases r.contUnbounded <;> simp [a0]
      · by_cases a1 : r.status = 1
        · cases q.best.isSome <;> cases r.remaining <;> simp [a1]
        · by_cases a5 : r.status = 5
          · cases q.best.isSome <;> cases r.remaining <;> simp [a5]
          · by_cases a2 : r.status = 2
            · cases q.best.isSome <;> cases r.remaining <;> simp [a2]
            · cases q.best.isSome <;> cases r.remaining <;> cases r.aborted <;> simp [a0, a1, a5, a2]
  clear h h1 h2 hx hs hn
  revert k
  generalize (Bab.finish dblMax b r).2 = s
  generalize (Bab.finish dblMax b r).1.best.isSome = c
  cases s <;> cases c <;> simp

/-- C79: the program is always defined without `file_solution`, with it exactly when there is a solution. -/
theorem finish_ampl_undefined_iff (file : Bool) (nVar : ℕ) (dblMax : ℚ) (b : Bab.Keeper (List ℚ)) (r : Bab.Run (List ℚ))
    (hlen : ∀ v, (Bab.finish dblMax b r).1.best = some v → v.length = nVar) :
    finishAmpl file nVar dblMax b r = .undefined ↔ file = true ∧ 0 < nVar ∧ (Bab.finish dblMax b r).1.best = none := by
  unfold finishAmpl finalize
  cases h : (Bab.finish dblMax b r).1.best with
  | none =>
    cases file
    · simp
    · by_cases h0 : nVar = 0
      · simp [h0]
      · simp [h0]; omega
  | some v =>
    have := hlen v h
    cases file <;> simp [this]

/-- A run on a problem without feasible points. -/
def infeasibleRun : Bab.Run (List ℚ) := ⟨false, 1, false, false, false, [], 0, none, none, 0, 0, true, 0, false⟩

/-- C79 refuted: with the option `file_solution` an infeasible problem makes the program read a NULL pointer. -/
theorem file_solution_null : (Bab.finish 1 (Bab.Keeper.new _) infeasibleRun).2 = .infeasible ∧ finishAmpl true 2 1 (Bab.Keeper.new _) infeasibleRun = .undefined ∧
    finishAmpl false 2 1 (Bab.Keeper.new _) infeasibleRun = .done ⟨220, true, none, []⟩ := by decide +kernel

example : ∀ v, (Bab.finish 1 (Bab.Keeper.new _) infeasibleRun).1.best = some v → v.length = 2 := by decide +kernel

/-- The codes listed in the documentation (BonAmplTMINLP.hpp:172-180). -/
def documented : List ℕ := [3, 220, 421, 410, 500]

/-- C79 refuted: the documentation gives 421 and 410 for runs interrupted by the user too; the codes are 422 and 411.  It does not list 300 either. -/
theorem interrupt_code_undocumented (b : Bool) : resultNum .userInterrupt b ∉ documented ∧ resultNum .continuousUnbounded b ∉ documented ∧
    ∀ s, s ≠ .userInterrupt → s ≠ .continuousUnbounded → resultNum s b ∈ documented := by
  refine ⟨by cases b <;> decide, by cases b <;> decide, fun s h1 h2 => ?_⟩
  cases s <;> cases b <;> simp_all [resultNum, documented]

/-- C79: an NLP that stays unsolved ends in code 500 without a solution, also with `file_solution`. -/
theorem unsolved_reported (file : Bool) (nVar : ℕ) : unsolvedAmpl file nVar = .done ⟨500, !file, none, []⟩ := by
  cases file <;> rfl

end Verif.Ampl

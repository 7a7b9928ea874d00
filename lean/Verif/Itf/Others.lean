import Verif.Itf.Status
import Mathlib.Data.List.Basic
import Mathlib.Tactic.Ring
/-!
# Model of the use of further NLP solvers by `solveAndCheckErrors` and of the counters of solves
(src/Interfaces/BonOsiTMINLPInterface.cpp:447-496, 2278-2362, 2607-2695, 2747-2766; src/Interfaces/BonTNLPSolver.hpp:193-204)

A solver is known by its outcome (`Outcome` of `Itf/Status`) on the problem (`Prob.orig`) and on the feasibility problem (`Prob.feas`); both leave
their result in `problem_`, as the feasibility problem hands on its solution.  `BonminAbortAll` is not set, no row cut debugger.
-/
namespace Verif.Itf.Others

/-- The problem handed to a solver: `problem_` or `feasibilityProblem_` (BonOsiTMINLPInterface.cpp:505-512). -/
inductive Prob where | orig | feas
  deriving DecidableEq

/-- A solver: what it makes of either problem, and the iterations it takes. -/
structure Slv where
  out : Prob → Outcome
  iters : Prob → ℕ

/-- `TNLPSolver::isError` (BonTNLPSolver.hpp:202-204). -/
def isError (r : Status) : Bool := r.code < 0

/-- What is left by the solve: `optimizationStatus_`, the contents of `problem_`, the problem these belong to, `otherDisagree`, and the number of
further solvers called. -/
structure Rep where
  st : Status
  left : Outcome
  prob : Prob
  disagree : Bool
  tried : ℕ

/-- Loop over the further solvers after an error (2673-2682): the status is tested before each; they are given `problem_`. -/
def fallback : List Slv → Rep → Rep
  | [], r => r
  | s :: l, r =>
    if isError r.st then fallback l { r with st := (s.out .orig).st, left := s.out .orig, prob := .orig, tried := r.tried + 1 } else r

/-- `CoinRelFltEq eq(1e-05)` (2656; CoinFloatEqual.hpp). -/
def relEq (a b : ℚ) : Bool := |a - b| ≤ (1 / 100000) * (1 + max |a| |b|)

/-- One comparison with a further solver that was given a copy of `problem_` (2655-2670). -/
def differs (main : Outcome) (o : Outcome) : Bool :=
  !isError o.st && (if o.st ≠ main.st then true else isOptSt main.st && !relEq main.obj o.obj)

/-- Loop over the further solvers for comparison (2645-2672). -/
def compare (main : Outcome) : List Slv → Rep → Rep
  | [], r => r
  | s :: l, r => compare main l { r with disagree := r.disagree || differs main (s.out .orig), tried := r.tried + 1 }

/-- `solveAndCheckErrors` up to 2682 on `target` = `problem_to_optimize_`; `none` = `UnsolvedError` thrown. -/
def solveCheck (test : Bool) (target : Prob) (app : Slv) (others : List Slv) : Option Rep :=
  let o := app.out target
  let r : Rep := ⟨o.st, o, target, false, 0⟩
  if !isRecoverable o.st then none
  else if test && !isError o.st then some (compare o others r)
  else if isError o.st && !others.isEmpty then some (fallback others r)
  else some r

/-- `isAbandoned` without pretence (2912-2919). -/
def abandonedSt (t : Status) : Bool :=
  t = .iterationLimit || t = .computationError || t = .illDefinedProblem || t = .illegalOption || t = .externalException || t = .exception

/-- Are the files of a suspect problem written (2754-2764)?  `n` = `numIterationSuspect_`. -/
def suspect (n : Int) (iters : ℕ) (abandoned : Bool) (disagree : Bool) : Bool :=
  (0 ≤ n && (n < iters || abandoned)) || disagree

/-! ### further solvers after an error -/

theorem fallback_stop (l : List Slv) (r : Rep) (h : isError r.st = false) : fallback l r = r := by
  cases l with
  | nil => rfl
  | cons s l => simp [fallback, h]

theorem fallback_skip : ∀ (pre : List Slv) (s : Slv) (post : List Slv) (r : Rep), isError r.st = true →
    (∀ q ∈ pre, isError (q.out .orig).st = true) →
    fallback (pre ++ s :: post) r =
      fallback post { r with st := (s.out .orig).st, left := s.out .orig, prob := .orig, tried := r.tried + (pre.length + 1) }
  | [], s, post, r, hr, _ => by simp [fallback, hr]
  | q :: pre, s, post, r, hr, h => by
    rw [List.cons_append, fallback, if_pos hr, fallback_skip pre s post _ (h q (by simp)) (fun q' hq => h q' (by simp [hq]))]
    simp only [List.length_cons]
    congr 2
    omega

/-- **C231 (partial).** After a recoverable error the further solvers are tried in their order, up to the first that reports no error: status and
solution are those of this solver, and no later one is called.  (Missing: the feasibility problem, and errors of the further solvers.) -/
theorem first_success_partial (test : Bool) (app s : Slv) (pre post : List Slv) (hr : isRecoverable (app.out .orig).st = true)
    (he : isError (app.out .orig).st = true) (hpre : ∀ q ∈ pre, isError (q.out .orig).st = true) (hs : isError (s.out .orig).st = false) :
    solveCheck test .orig app (pre ++ s :: post) = some ⟨(s.out .orig).st, s.out .orig, .orig, false, pre.length + 1⟩ := by
  simp only [solveCheck, hr, he, Bool.not_true, Bool.false_eq_true, if_false, Bool.and_false, Bool.true_and]
  have : (pre ++ s :: post).isEmpty = false := by cases pre <;> rfl
  rw [this, Bool.not_false, if_pos rfl, fallback_skip pre s post _ he hpre, fallback_stop _ _ hs]
  simp

/-- **C231 (part).** If all solvers but the last of the further ones report errors, all were tried and what the last one reports is reported. -/
theorem last_reported (test : Bool) (target : Prob) (app s : Slv) (pre : List Slv) (hr : isRecoverable (app.out target).st = true)
    (he : isError (app.out target).st = true) (hpre : ∀ q ∈ pre, isError (q.out .orig).st = true) :
    solveCheck test target app (pre ++ [s]) = some ⟨(s.out .orig).st, s.out .orig, .orig, false, pre.length + 1⟩ := by
  simp only [solveCheck, hr, he, Bool.not_true, Bool.false_eq_true, if_false, Bool.and_false, Bool.true_and]
  have : (pre ++ [s]).isEmpty = false := by cases pre <;> rfl
  rw [this, Bool.not_false, if_pos rfl, fallback_skip pre s [] _ he hpre, fallback]
  simp

/-- **C231 (part).** No further solver is called, and the result is that of the first solver, exactly if it reports no error and no comparison is
asked for, or there are no others; an exception is thrown exactly for the errors that cannot be recovered from, whatever the other solvers would do. -/
theorem first_solver_alone (test : Bool) (target : Prob) (app : Slv) (others : List Slv) :
    (solveCheck test target app others = none ↔ isRecoverable (app.out target).st = false) ∧
    (∀ r, solveCheck test target app others = some r → (r.tried = 0 ↔ others = [] ∨ (test = false ∧ isError (app.out target).st = false))) ∧
    (isRecoverable (app.out target).st = true → (others = [] ∨ (test = false ∧ isError (app.out target).st = false)) →
      solveCheck test target app others = some ⟨(app.out target).st, app.out target, target, false, 0⟩) := by
  have hc : ∀ (l : List Slv) (r : Rep) (o : Outcome), (compare o l r).tried = r.tried + l.length := by
    intro l
    induction l with
    | nil => intro r o; rfl
    | cons s l ih => intro r o; rw [compare, ih]; simp only [List.length_cons]; omega
  have hf : ∀ (l : List Slv) (r : Rep), r.tried ≤ (fallback l r).tried := by
    intro l
    induction l with
    | nil => intro r; exact le_rfl
    | cons s l ih =>
      intro r
      rw [fallback]
      split_ifs
      · have := ih { r with st := (s.out .orig).st, left := s.out .orig, prob := .orig, tried := r.tried + 1 }
        exact le_trans (Nat.le_succ r.tried) this
      · exact le_rfl
  unfold solveCheck
  cases hr : isRecoverable (app.out target).st
  · simp [hr]
  · cases he : isError (app.out target).st <;> cases test <;> cases others with
    | nil => simp [compare, hr, he]
    | cons s l =>
      simp [hc, compare, fallback, he, hr]
      try exact fun h => absurd h (Nat.ne_of_gt (hf l ⟨(s.out .orig).st, s.out .orig, .orig, false, 1⟩))

/-- A solver with the same result for both problems. -/
def konst (o : Outcome) : Slv := ⟨fun _ => o, fun _ => 0⟩

/-- **C231 (refuted).** In feasibility mode the further solver is given the problem itself: its solution is reported for the feasibility problem. -/
theorem feasibility_fallback (app s : Slv) (hr : isRecoverable (app.out .feas).st = true) (he : isError (app.out .feas).st = true)
    (test : Bool) : ∃ r, solveCheck test .feas app [s] = some r ∧ r.left = s.out .orig ∧ r.prob = .orig := by
  refine ⟨⟨(s.out .orig).st, s.out .orig, .orig, false, 1⟩, ?_, rfl, rfl⟩
  simp [solveCheck, hr, he, fallback]

/-- **C231 (refuted).** An error of the further solver that cannot be recovered from is not thrown; with "not enough degrees of freedom" the problem
does not even count as abandoned. -/
theorem other_unrecoverable : ∃ (app s : Slv) (r : Rep), solveCheck false .orig app [s] = some r ∧ isRecoverable r.st = false ∧
    abandonedSt r.st = false ∧ isOptSt r.st = false ∧ r.st ≠ .provenInfeasible := by
  refine ⟨konst ⟨.iterationLimit, 0, [], [], []⟩, konst ⟨.notEnoughFreedom, 0, [], [], []⟩, ⟨.notEnoughFreedom, ⟨.notEnoughFreedom, 0, [], [], []⟩, .orig, false, 1⟩, rfl, ?_⟩
  decide +kernel

/-! ### comparison of solvers -/

theorem compare_exact (o : Outcome) : ∀ (l : List Slv) (r : Rep),
    compare o l r = { r with disagree := r.disagree || l.any (fun s => differs o (s.out .orig)), tried := r.tried + l.length }
  | [], r => by simp [compare]
  | s :: l, r => by
    rw [compare, compare_exact o l]
    simp only [List.any_cons, List.length_cons, Bool.or_assoc]
    congr 1
    omega

/-- **C232 (part).** Comparing solvers changes nothing of the result: status and solution are those of the first solver, and all others are called. -/
theorem compare_transparent (target : Prob) (app : Slv) (others : List Slv) (hr : isRecoverable (app.out target).st = true)
    (he : isError (app.out target).st = false) :
    ∃ d, solveCheck true target app others = some ⟨(app.out target).st, app.out target, target, d, others.length⟩ := by
  refine ⟨others.any fun s => differs (app.out target) (s.out .orig), ?_⟩
  simp [solveCheck, hr, he, compare_exact]

/-- **C232 (partial).** For the problem itself a disagreement is noted exactly if one of the other solvers, without error, has another status, or
an optimal value that differs by more than 1e-5 relative to one plus the larger absolute value.  (Missing: the feasibility problem.) -/
theorem disagree_partial (app : Slv) (others : List Slv) (hr : isRecoverable (app.out .orig).st = true) (he : isError (app.out .orig).st = false)
    (r : Rep) (h : solveCheck true .orig app others = some r) :
    r.disagree = true ↔ ∃ s ∈ others, 0 ≤ (s.out .orig).st.code ∧ ((s.out .orig).st ≠ (app.out .orig).st ∨
      (isOptSt (app.out .orig).st = true ∧
        (1 / 100000) * (1 + max |(app.out .orig).obj| |(s.out .orig).obj|) < |(app.out .orig).obj - (s.out .orig).obj|)) := by
  simp only [solveCheck, hr, he, Bool.not_true, Bool.false_eq_true, if_false, Bool.not_false, Bool.and_self, if_true, compare_exact,
    Bool.false_or, Option.some.injEq] at h
  subst h
  simp only [List.any_eq_true]
  refine exists_congr fun s => and_congr_right fun _ => ?_
  unfold differs isError relEq
  rw [Bool.and_eq_true]
  refine and_congr (by simp) ?_
  by_cases hs : (s.out .orig).st = (app.out .orig).st
  · simp [hs]
  · simp [hs]

/-- **C232 (refuted).** In feasibility mode solvers that agree on both problems are said to disagree. -/
theorem feasibility_disagree : ∃ (s : Slv) (r : Rep), solveCheck true .feas s [s] = some r ∧ r.disagree = true := by
  refine ⟨⟨fun p => ⟨.solvedOptimal, (match p with | .orig => 5 | .feas => 0), [], [], []⟩, fun _ => 0⟩, _, rfl, ?_⟩
  norm_num [compare, differs, isError, Status.code, isOptSt, relEq]

/-- **C232 (refuted).** Two solvers with the same solution disagree if one of them meets only the looser tolerance. -/
theorem tolerance_disagree (v : ℚ) (x d g : List ℚ) :
    ∃ r, solveCheck true .orig (konst ⟨.solvedOptimal, v, x, d, g⟩) [konst ⟨.solvedOptimalTol, v, x, d, g⟩] = some r ∧ r.disagree = true :=
  ⟨_, rfl, rfl⟩

/-- **C232 (part).** The data of a problem are written exactly if solvers disagree, or a limit was set and it was passed or the problem abandoned. -/
theorem suspect_iff (n : Int) (iters : ℕ) (ab dis : Bool) :
    suspect n iters ab dis = true ↔ dis = true ∨ (0 ≤ n ∧ (n < iters ∨ ab = true)) := by
  simp [suspect, or_comm]

/-! ### counters -/

/-- `nCallOptimizeTNLP_`, `totalNlpSolveTime_`, `totalIterations_`. -/
structure Cnt where
  calls : ℕ
  time : ℚ
  iters : ℕ
  deriving DecidableEq

/-- A call of a solver.  `solve`: `solveAndCheckErrors` started and ended at the given times, recoverable or not, with this many iterations of the
first solver and these of the further ones; `feas`: `solveFeasibilityProblem`; the others: an exception leaves the solver. -/
inductive Ev where
  | solve (t0 t1 : ℚ) (rc : Bool) (iters others : ℕ)
  | solveThrow (t0 : ℚ)
  | feas (t0 t1 : ℚ) (iters : ℕ)
  | feasThrow (t0 : ℚ)

/-- Effect on the counters (BonOsiTMINLPInterface.cpp:2612-2618, 2639-2644, 2684; 2329-2334, 2354-2359). -/
def count (c : Cnt) : Ev → Cnt
  | .solve t0 t1 rc it _ => ⟨c.calls + 1, c.time - t0 + t1, if rc then c.iters + it else c.iters⟩
  | .solveThrow t0 => { c with time := c.time - t0 }
  | .feas t0 t1 _ => { c with calls := c.calls + 1, time := c.time - t0 + t1 }
  | .feasThrow t0 => { c with calls := c.calls + 1, time := c.time - t0 }

/-- Specification: what a call contributes to the number of runs, the time and the iterations. -/
def Ev.dur : Ev → ℚ
  | .solve t0 t1 _ _ _ => t1 - t0
  | .feas t0 t1 _ => t1 - t0
  | _ => 0

/-- Iterations made in a call by the solver first asked. -/
def Ev.its : Ev → ℕ
  | .solve _ _ _ it _ => it
  | .feas _ _ it => it
  | _ => 0

/-- The solver returned. -/
def Ev.returned : Ev → Prop
  | .solve .. => True
  | .feas .. => True
  | _ => False

/-- A regular solve of the problem to optimise without irrecoverable error. -/
def Ev.regular : Ev → Prop
  | .solve _ _ rc _ _ => rc = true
  | _ => False

/-- **C233 (partial).** As long as the solvers return, the number of calls and the time are those of all solves, feasibility problems and failed
solves included, after any sequence. -/
theorem calls_time_partial (l : List Ev) (h : ∀ e ∈ l, e.returned) (c : Cnt) :
    (l.foldl count c).calls = c.calls + l.length ∧ (l.foldl count c).time = c.time + (l.map Ev.dur).sum := by
  induction l generalizing c with
  | nil => simp
  | cons e l ih =>
    have he := h e (List.mem_cons_self ..)
    obtain ⟨h1, h2⟩ := ih (fun e' he' => h e' (List.mem_cons_of_mem _ he')) (count c e)
    rw [List.foldl_cons, h1, h2]
    cases e with
    | solve t0 t1 rc it ot => simp only [count, List.length_cons, List.map_cons, List.sum_cons, Ev.dur]; exact ⟨by omega, by ring⟩
    | feas t0 t1 it => simp only [count, List.length_cons, List.map_cons, List.sum_cons, Ev.dur]; exact ⟨by omega, by ring⟩
    | solveThrow t0 => exact he.elim
    | feasThrow t0 => exact he.elim

/-- Iterations of the first solver in a regular solve. -/
def Ev.counted : Ev → ℕ
  | .solve _ _ true it _ => it
  | _ => 0

/-- **C233 (partial).** The iterations counted are those of the first solver over all regular solves; all others count nothing. -/
theorem iterations_exact (l : List Ev) (c : Cnt) :
    (l.foldl count c).iters = c.iters + (l.map Ev.counted).sum := by
  induction l generalizing c with
  | nil => simp
  | cons e l ih =>
    rw [List.foldl_cons, ih, List.map_cons, List.sum_cons]
    cases e with
    | solve t0 t1 rc it ot => cases rc <;> simp [count, Ev.counted]; omega
    | feas t0 t1 it => simp [count, Ev.counted]
    | solveThrow t0 => simp [count, Ev.counted]
    | feasThrow t0 => simp [count, Ev.counted]

/-- **C233 (partial).** With regular solves only, the iterations counted are all those of the first solver. -/
theorem iterations_partial (l : List Ev) (h : ∀ e ∈ l, e.regular) (c : Cnt) :
    (l.foldl count c).iters = c.iters + (l.map Ev.its).sum := by
  rw [iterations_exact]
  congr 2
  refine List.map_congr_left fun e he => ?_
  have := h e he
  cases e with
  | solve t0 t1 rc it ot => cases rc <;> simp_all [Ev.regular, Ev.its, Ev.counted]
  | feas t0 t1 it => exact this.elim
  | solveThrow t0 => exact this.elim
  | feasThrow t0 => exact this.elim

/-- **C233 (refuted).** A solver that throws leaves the time of day subtracted: the total becomes negative. -/
theorem throw_negative (t0 : ℚ) (h : 0 < t0) : (count ⟨0, 0, 0⟩ (.solveThrow t0)).time < 0 ∧ (count ⟨0, 0, 0⟩ (.feasThrow t0)).time < 0 := by
  constructor <;> · show (0 : ℚ) - t0 < 0; linarith

/-- **C233 (refuted).** Iterations of feasibility problems, of solves that fail for good and of the further solvers are not counted. -/
theorem iterations_lost (c : Cnt) (t0 t1 : ℚ) (n k : ℕ) :
    (count c (.feas t0 t1 n)).iters = c.iters ∧ (count c (.solve t0 t1 false n k)).iters = c.iters ∧
    (count c (.solve t0 t1 true n k)).iters = c.iters + n := ⟨rfl, rfl, rfl⟩

/-! ### examples -/

/-- Solver that reaches its iteration limit. -/
def failing : Slv := konst ⟨.iterationLimit, 0, [], [], []⟩

/-- Solver that finds the optimum 5. -/
def good : Slv := konst ⟨.solvedOptimal, 5, [1], [], []⟩

example : (solveCheck false .orig failing [failing, good, failing]).map (fun r => (r.st, r.left.obj, r.tried)) = some (.solvedOptimal, 5, 2) := by decide +kernel
example : isRecoverable (failing.out .orig).st = true ∧ isError (failing.out .orig).st = true ∧ isError (good.out .orig).st = false := by decide +kernel
example : (solveCheck true .orig good [good, failing]).map (fun r => (r.disagree, r.tried)) = some (false, 2) := by
  norm_num [solveCheck, good, failing, konst, compare, differs, isError, isRecoverable, Status.code, isOptSt, relEq]
example : (solveCheck true .orig good [konst ⟨.solvedOptimal, 6, [], [], []⟩]).map Rep.disagree = some true := by
  norm_num [solveCheck, good, konst, compare, differs, isError, isRecoverable, Status.code, isOptSt, relEq]
example : [Ev.solve 1 3 true 7 0, .feas 3 4 2, .solve 4 5 false 1 0].foldl count ⟨0, 0, 0⟩ = ⟨3, 4, 7⟩ := by
  norm_num [count]
example : suspect 100 101 false false = true ∧ suspect (-1) 101 true false = false := by decide +kernel

/-- A run counts as abandoned exactly if the solver neither gave an answer about the problem (optimal, infeasible, unbounded) nor stopped for lack of time, of convergence or of degrees of freedom. -/
theorem abandoned_exact (t : Status) : abandonedSt t = false ↔ t ∈ [Status.solvedOptimal, .solvedOptimalTol, .provenInfeasible, .unbounded, .timeLimit, .doesNotConverge, .notEnoughFreedom] := by
  cases t <;> decide

/-- The call is counted: all but ordinary solves the solver leaves with an exception. -/
def Ev.seen : Ev → Bool
  | .solveThrow _ => false
  | _ => true

/-- Time of day left subtracted by a call the solver leaves with an exception. -/
def Ev.left : Ev → ℚ
  | .solveThrow t0 => t0
  | .feasThrow t0 => t0
  | _ => 0

/-- **C233.** The number of runs, for any calls: those that ended and the feasibility problems left with an exception. -/
theorem calls_exact (l : List Ev) (c : Cnt) : (l.foldl count c).calls = c.calls + l.countP Ev.seen := by
  induction l generalizing c with
  | nil => simp
  | cons e l ih =>
    rw [List.foldl_cons, ih, List.countP_cons]
    cases e <;> simp [count, Ev.seen] <;> omega

/-- **C233.** The time, for any calls: the durations of those that ended, less the time of day at which the others began. -/
theorem time_exact (l : List Ev) (c : Cnt) : (l.foldl count c).time = c.time + (l.map Ev.dur).sum - (l.map Ev.left).sum := by
  induction l generalizing c with
  | nil => simp
  | cons e l ih =>
    rw [List.foldl_cons, ih, List.map_cons, List.map_cons, List.sum_cons, List.sum_cons]
    cases e <;> simp [count, Ev.dur, Ev.left] <;> ring

example : [Ev.feas 3 4 2, .feasThrow 5, .solveThrow 6].foldl count ⟨4, 0, 9⟩ = ⟨6, -10, 9⟩ := by
  norm_num [count]

end Verif.Itf.Others

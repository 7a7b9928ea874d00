import Verif.Itf.Status
import Verif.Itf.TnCopies
/-! # Model of constructing, copying and assigning `OsiTMINLPInterface`

src/Interfaces/BonOsiTMINLPInterface.cpp: default constructor 369-429, `setModel` 499-513, copy constructor 536-626, `clone` 628-634, `operator=` 637-752,
`getColSolution` 1263-1270, bounds 1314-1330, `set_linearizer` 1734-1740, `initializeJacobianArrays` 1800-1835, sizes in `getOuterApproximation` 1924-2107,
`switchToFeasibilityProblem` 2294-2307, `switchToOriginalProblem` 2310-2313, retries of `initialSolve` 2816-2827.

Simplifications: the base class `OsiSolverInterface`, message handlers, cached row data and the memory lost by `operator=` are dropped; solver objects, warm starts,
linearizers and models are numbers (a clone has the number of its original); a problem has no cuts here.  `status = none`: `optimizationStatus_` was never
written.  Self-assignment does nothing and is left out. -/
namespace Verif.Itf.Copies
open Verif.Itf

/-- Why a copy fails: an exception (611-614), an exception (691-695), undefined behaviour. -/
inductive Err
  | empty | jacobian | undefined
  deriving DecidableEq

/-- Members that both the copy constructor and `operator=` transfer. -/
structure Opts where
  dualLimit : ℚ
  varNames : Bool
  maxRadius : ℚ
  push : ℚ
  retryInitial : ℤ
  retryResolve : ℤ
  retryInfeasible : ℤ
  retryUnsolved : ℤ
  infeasEps : ℚ
  dynCutoff : Bool
  threshold : ℚ
  perc1 : ℚ
  perc2 : ℚ
  failInfeasible : ℕ
  succeedNext : Bool
  suspect : ℤ
  strengthener : Option ℕ
  strong : Option ℕ
  deriving DecidableEq

/-- Members that `operator=` transfers only from an interface with a model (696-701). -/
structure Tols where
  tiny : ℚ
  veryTiny : ℚ
  rhsRelax : ℚ
  infty : ℚ
  warmMode : ℕ
  cutoffDecr : Option ℚ      -- newCutoffDecr, none = COIN_DBL_MAX
  deriving DecidableEq

/-- Members that `operator=` does not transfer although the copy constructor does. -/
structure Rand where
  type : ℕ                   -- randomGenerationType_
  perturbation : Option ℚ    -- max_perturbation_, none = COIN_DBL_MAX
  continued : Bool           -- hasContinuedAfterNlpFailure_
  debugApps : List ℕ
  testOthers : Bool
  deriving DecidableEq

/-- Settings of the feasibility problem (BonTNLP2FPNLP.cpp:17-47), a number for each setting in use; 0 = as constructed. -/
abbrev Fp := ℕ

/-- What `problem_to_optimize_` points to: nothing, `problem_`, `feasibilityProblem_`, a problem the interface no longer has. -/
inductive Target
  | null | problem | feasibility | stale
  deriving DecidableEq

structure I where
  model : Option ℕ           -- tminlp_
  prob : Option Tn.P         -- problem_
  fp : Option Fp             -- feasibilityProblem_
  target : Target
  feas : Bool                -- feasibility_mode_
  app : Option ℕ
  warm : Option ℕ            -- warmstart_
  calls : ℕ
  time : ℚ
  iters : ℕ
  o : Opts
  tol : Tols
  rnd : Rand
  optimized : Bool           -- hasBeenOptimized_
  status : Option Status     -- optimizationStatus_
  first : Bool               -- firstSolve_
  obj : Option (List ℚ)      -- obj_
  jac : Option (List (ℕ × ℕ))  -- jRow_, jCol_, jValues_
  nnz : ℕ                    -- nnz_jac
  ctypes : Option (List Bool)  -- constTypes_, true = nonlinear
  nonlin : ℕ                 -- nNonLinear_
  linearizer : Option ℕ
  deriving DecidableEq

/-- Default constructor (369-429). -/
def new : I where
  model := none
  prob := none
  fp := none
  target := .null
  feas := false
  app := none
  warm := none
  calls := 0
  time := 0
  iters := 0
  o := ⟨10 ^ 200, true, 10 ^ 8, 1 / 100, -1, -1, -1, 1, 0, false, 1 / 10, -2 / 100, -5 / 100, 0, false, -1, none, none⟩
  tol := ⟨1 / 10 ^ 8, 1 / 10 ^ 20, 1 / 10 ^ 8, 10 ^ 100, 0, none⟩
  rnd := ⟨0, none, false, [], false⟩
  optimized := false
  status := none
  first := true
  obj := none
  jac := none
  nnz := 0
  ctypes := none
  nonlin := 0
  linearizer := none

/-- What the models give: the problem as constructed, the structure of the Jacobian and which rows are nonlinear. -/
structure World where
  fresh : ℕ → Tn.P
  jac : ℕ → List (ℕ × ℕ)
  nonlin : ℕ → List Bool

/-- `setModel` (499-513). -/
def setModel (w : World) (s : I) (k : ℕ) : I :=
  { s with model := some k, prob := some (w.fresh k), fp := some 0, target := if s.feas then .feasibility else .problem }

/-- Copy constructor (536-626).  With a model but without problem, feasibility problem or solver a null pointer is used. -/
def copy (dbg : Bool) (s : I) : Except Err I :=
  match s.model with
  | none => .error .empty
  | some k =>
    match s.prob, s.fp, s.app with
    | some p, some f, some a =>
      match Tn.copy dbg p with
      | none => .error .undefined
      | some q => .ok
        { model := some k, prob := some q, fp := some f, target := if s.feas then .feasibility else .problem, feas := s.feas, app := some a, warm := s.warm,
          calls := 0, time := 0, iters := 0, o := s.o, tol := s.tol, rnd := s.rnd, optimized := s.optimized, status := none, first := true,
          obj := s.obj, jac := none, nnz := s.nnz, ctypes := none, nonlin := 0, linearizer := none }
    | _, _, _ => .error .undefined

/-- `clone` (628-634). -/
def clone (dbg : Bool) (copyData : Bool) (s : I) : Except Err I := if copyData then copy dbg s else .ok new

/-- The arrays of the Jacobian after `operator=` (683-695); `none` = exception. -/
def assignJac (t r : I) : Option (Option (List (ℕ × ℕ))) :=
  match r.jac with
  | some j => if 0 < r.nnz then some (some j) else some t.jac
  | none => if 0 < r.nnz then none else some t.jac

/-- What is assigned whether or not the source has a model (641-647, 712-747). -/
def assignRest (t r : I) : I := { t with obj := r.obj, calls := r.calls, time := r.time, iters := r.iters, o := r.o, optimized := r.optimized }

/-- What is assigned from a source with a model (654-701). -/
def assignModel (w : World) (t r : I) (k a : ℕ) (ct : Option (List Bool)) (j : Option (List (ℕ × ℕ))) : I :=
  { t with model := some k, prob := some (w.fresh k), fp := some 0, target := .problem, app := some a, warm := r.warm, nnz := r.nnz, ctypes := ct, jac := j, tol := r.tol }

/-- What is cleared for a source without a model (649-650, 705-708); `problem_to_optimize_` is not touched. -/
def assignNone (t : I) : I := { t with warm := none, model := none, prob := none, app := none, fp := none, target := if t.target = .null then .null else .stale }

/-- `operator=` (637-752). -/
def assign (w : World) (t r : I) : Except Err I :=
  match r.model with
  | none => .ok (assignRest (assignNone t) r)
  | some k =>
    match r.app with
    | none => .error .undefined
    | some a =>
      let m := (w.fresh k).gl.length
      if r.ctypes.all (fun c => decide (m ≤ c.length)) = true then
        match assignJac t r with
        | none => .error .jacobian
        | some j => .ok (assignRest (assignModel w t r k a (r.ctypes.map (·.take m)) j) r)
      else .error .undefined

/-- `initializeJacobianArrays` (1800-1835) for `problem_`. -/
def initJac (w : World) (s : I) : Option I :=
  match s.model with
  | none => none
  | some k => some { s with nnz := (w.jac k).length, jac := some (w.jac k), ctypes := some (w.nonlin k), nonlin := s.nonlin + ((w.nonlin k).filter id).length }

/-- The outer approximation cuts for the constraints (1932-1999): their number, `none` = an array is used beyond its end. -/
def outer (w : World) (s : I) : Option ℕ :=
  (match s.jac with | some _ => some s | none => initJac w s).bind fun s =>
  match s.model, s.prob, s.jac, s.ctypes with
  | some k, some p, some j, some c =>
    let m := p.gl.length
    let cuts := ((c.take m).filter id).length
    if (w.jac k).length ≤ j.length ∧ m ≤ c.length ∧ cuts ≤ s.nonlin + 1 then some cuts else none
  | _, _, _, _ => none

/-- Operations of a history. -/
inductive Op
  | setModel (k : ℕ) | setSolver (a : ℕ) | bound (i : ℕ) (l u : ℚ) | solved (st : Status) (ret : ℤ) (obj : ℚ) (x g zl zu lam : List ℚ)
  | toFeasibility (f : Fp) | toOriginal | jacobian | linearizer (k : ℕ) | becomeCopy

/-- One operation; `none` = exception or undefined behaviour.  `becomeCopy`: the history goes on with a copy. -/
def step (dbg : Bool) (w : World) (s : I) : Op → Option I
  | .setModel k => some (setModel w s k)
  | .setSolver a => some { s with app := some a }
  | .bound i l u => s.prob.bind fun p => (Tn.step p (.bound i l u)).map fun p => { s with prob := some p, optimized := false }
  | .solved st ret obj x g zl zu lam => s.app.bind fun _ => s.prob.bind fun p => (Tn.step p (.finish ret obj x g zl zu lam)).map fun p =>
      { s with prob := some p, status := some st, optimized := true, first := false, calls := s.calls + 1 }
  | .toFeasibility f => s.fp.map fun _ => { s with fp := some f, target := .feasibility, feas := true }
  | .toOriginal => some { s with target := if s.prob.isSome then .problem else .null, feas := false }
  | .jacobian => initJac w s
  | .linearizer k => s.prob.map fun _ => { s with linearizer := some k }
  | .becomeCopy => match copy dbg s with | .ok c => some c | .error _ => none

def run (dbg : Bool) (w : World) (s : I) : List Op → Option I
  | [] => some s
  | o :: os => (step dbg w s o).bind fun s => run dbg w s os

/-! ## Specification -/

/-- What can be asked of an interface. -/
structure View where
  bounds : Option (List ℚ × List ℚ × List ℚ × List ℚ)
  solution : Option (List ℚ)
  objective : Option ℚ
  target : Target
  fp : Option Fp
  app : Option ℕ
  warm : Option ℕ
  o : Opts
  tol : Tols
  rnd : Rand
  deriving DecidableEq

/-- The queries; the solution is that of the last solve if nothing changed since, else the starting point (1263-1270). -/
def view (s : I) : View :=
  ⟨s.prob.map fun p => (p.xl, p.xu, p.gl, p.gu), s.prob.map fun p => if s.optimized then p.xsol else p.xinit, s.prob.map fun p => p.s.obj,
   s.target, s.fp, s.app, s.warm, s.o, s.tol, s.rnd⟩

/-- `isProvenOptimal` (2923-2927); `none` = depends on memory never written. -/
def provenOptimal (s : I) : Option Bool := s.status.map fun t => t = .solvedOptimal ∨ t = .solvedOptimalTol

/-- The number of extra solves the next `initialSolve` tries if it succeeds (2816). -/
def retries (s : I) : ℤ := if s.first then s.o.retryInitial else s.o.retryResolve

/-- The problem solved is the one the mode asks for, and belongs to the interface. -/
def Coherent (s : I) : Prop :=
  (s.model.isSome = s.prob.isSome) ∧ (s.model.isSome = s.fp.isSome) ∧
  (s.target = if s.model.isSome then (if s.feas then .feasibility else .problem) else .null)

/-! ## Copies -/

/-- C89: a copy answers every query like its original, apart from the status. -/
theorem copy_view (dbg : Bool) (n : ℕ) (s c : I) (p : Tn.P) (hp : s.prob = some p) (hok : Tn.Ok n p) (hn : 0 < n) (hco : Coherent s) (h : copy dbg s = .ok c) : view c = view s ∧ Coherent c := by
  unfold copy at h
  cases hm : s.model with
  | none => rw [hm] at h; simp at h
  | some k =>
    rw [hm, hp] at h
    cases hf : s.fp with
    | none => rw [hf] at h; simp at h
    | some f =>
      cases ha : s.app with
      | none => rw [hf, ha] at h; simp at h
      | some a =>
        rw [hf, ha] at h
        dsimp only at h
        cases hq : Tn.copy dbg p with
        | none => rw [hq] at h; simp at h
        | some q =>
          rw [hq] at h
          simp only [Except.ok.injEq] at h
          obtain ⟨hv, hs, -, -, -, -, -⟩ := Tn.copy_view dbg n p q hok hn hq
          simp only [Tn.view, Tn.View.mk.injEq] at hv
          obtain ⟨h1, h2, h3, h4, h5, h6, h7, h8, h9, h10, h11⟩ := hv
          have hxi : q.xinit = p.xinit := by
            unfold Tn.copy Tn.gutsOfCopy at hq
            split at hq
            · simp at hq
            · simp only [Option.bind_eq_some_iff] at hq
              obtain ⟨t1, -, t2, -, h3⟩ := hq
              unfold Tn.copyDuals at h3
              dsimp only at h3
              split at h3
              · simp at h3
              · rw [Option.bind_eq_some_iff] at h3
                obtain ⟨d, -, h3⟩ := h3
                simp only [Option.some.injEq] at h3
                rw [← h3]
          obtain ⟨hc1, hc2, hc3⟩ := hco
          subst h
          rw [hm] at hc3
          refine ⟨?_, by simp, by simp, by simp⟩
          simp only [view, hp, Option.map_some, h1, h2, h3, h4, h7, h10, hxi, hf, ha]
          rw [hc3]; simp

/-- C89: when a copy is made, and what happens otherwise. -/
theorem copy_defined (dbg : Bool) (s : I) : (copy dbg s = .error .empty ↔ s.model = none) ∧
    ((∃ c, copy dbg s = .ok c) ↔ s.model.isSome = true ∧ s.fp.isSome = true ∧ s.app.isSome = true ∧ ∃ p, s.prob = some p ∧ (Tn.copy dbg p).isSome = true) := by
  unfold copy
  cases hm : s.model with
  | none => simp
  | some k =>
    cases hp : s.prob with
    | none => simp
    | some p =>
      cases hf : s.fp with
      | none => simp
      | some f =>
        cases ha : s.app with
        | none => simp
        | some a => cases hq : Tn.copy dbg p <;> simp [hq]

/-- C89, refuted: the status of a copy is memory never written, although the copy claims to have been solved and shows the solution. -/
theorem copy_status_lost (dbg : Bool) (s c : I) (h : copy dbg s = .ok c) : provenOptimal c = none ∧ c.optimized = s.optimized := by
  unfold copy at h
  repeat' split at h
  all_goals first | (simp at h; done) | (simp only [Except.ok.injEq] at h; subst h; simp [provenOptimal])

/-- C89: it is written by the first solve. -/
theorem status_after_solve (dbg : Bool) (w : World) (s s' : I) (st : Status) (ret : ℤ) (obj : ℚ) (x g zl zu lam : List ℚ)
    (h : step dbg w s (.solved st ret obj x g zl zu lam) = some s') : s'.status = some st ∧ (view s').solution = some x ∧ (view s').objective = some obj := by
  simp only [step, Option.bind_eq_some_iff, Option.map_eq_some_iff] at h
  obtain ⟨a, ha, p, hp, q, hq, rfl⟩ := h
  simp only [Tn.step] at hq
  split at hq <;> simp at hq
  subst hq
  simp [view]

/-- C89, refuted: the extra solves meant for the root are due again in every copy; the original no longer does them. -/
theorem copy_retries_again (dbg : Bool) (s c : I) (hf : s.first = false) (h : copy dbg s = .ok c) : retries c = s.o.retryInitial ∧ retries s = s.o.retryResolve := by
  unfold copy at h
  repeat' split at h
  all_goals first | (simp at h; done) | (simp only [Except.ok.injEq] at h; subst h; simp [retries, hf])

/-- C89, refuted: a copy has no linearizer. -/
theorem copy_linearizer_lost (dbg : Bool) (s c : I) (h : copy dbg s = .ok c) : c.linearizer = none := by
  unfold copy at h
  repeat' split at h
  all_goals first | (simp at h; done) | (simp only [Except.ok.injEq] at h; subst h; rfl)

/-- C89: counters start anew; the arrays of the Jacobian are made again on demand. -/
theorem copy_counters (dbg : Bool) (s c : I) (h : copy dbg s = .ok c) : c.calls = 0 ∧ c.time = 0 ∧ c.iters = 0 ∧ c.jac = none ∧ c.ctypes = none ∧ c.nonlin = 0 ∧ c.nnz = s.nnz ∧ c.model = s.model ∧ c.obj = s.obj := by
  unfold copy at h
  repeat' split at h
  all_goals first | (simp at h; done) | (simp only [Except.ok.injEq] at h; subst h; simp_all)

/-- C89: an empty clone is a new interface. -/
theorem clone_empty (dbg : Bool) (s : I) : clone dbg false s = .ok new ∧ clone dbg true s = copy dbg s := ⟨rfl, rfl⟩

/-! ## Coherence over histories -/

theorem coherent_step (dbg : Bool) (w : World) (s s' : I) (o : Op) (h : Coherent s) (hs : step dbg w s o = some s') : Coherent s' := by
  obtain ⟨h1, h2, h3⟩ := h
  cases o with
  | setModel k => simp only [step, Option.some.injEq] at hs; subst hs; cases hh : s.feas <;> simp [Coherent, setModel, hh]
  | setSolver a => simp only [step, Option.some.injEq] at hs; subst hs; exact ⟨h1, h2, h3⟩
  | bound i l u =>
    simp only [step, Option.bind_eq_some_iff, Option.map_eq_some_iff] at hs
    obtain ⟨p, hp, q, hq, rfl⟩ := hs
    exact ⟨by simpa [hp] using h1, h2, h3⟩
  | solved st ret obj x g zl zu lam =>
    simp only [step, Option.bind_eq_some_iff, Option.map_eq_some_iff] at hs
    obtain ⟨a, ha, p, hp, q, hq, rfl⟩ := hs
    exact ⟨by simpa [hp] using h1, h2, h3⟩
  | toFeasibility f =>
    simp only [step, Option.map_eq_some_iff] at hs
    obtain ⟨f0, hf, rfl⟩ := hs
    have : s.model.isSome = true := by rw [h2, hf]; rfl
    exact ⟨h1, by simp [this], by simp [this]⟩
  | toOriginal =>
    simp only [step, Option.some.injEq] at hs; subst hs
    exact ⟨h1, h2, by simp [h1]⟩
  | jacobian =>
    simp only [step, initJac] at hs
    split at hs <;> simp at hs
    subst hs; exact ⟨h1, h2, h3⟩
  | linearizer k =>
    simp only [step, Option.map_eq_some_iff] at hs
    obtain ⟨p, hp, rfl⟩ := hs
    exact ⟨h1, h2, h3⟩
  | becomeCopy =>
    simp only [step] at hs
    split at hs
    · rename_i c hc
      simp only [Option.some.injEq] at hs; subst hs
      unfold copy at hc
      repeat' split at hc
      all_goals first | (simp at hc; done) | (simp only [Except.ok.injEq] at hc; subst hc; simp_all [Coherent])
    · simp at hs

/-- C89: over every history with models, switches and copies, a solve works on the problem the mode asks for. -/
theorem target_coherent (dbg : Bool) (w : World) (os : List Op) : ∀ s s', Coherent s → run dbg w s os = some s' → Coherent s' := by
  induction os with
  | nil => intro s s' h hr; simp only [run, Option.some.injEq] at hr; exact hr ▸ h
  | cons o os ih =>
    intro s s' h hr
    simp only [run] at hr
    cases hs : step dbg w s o with
    | none => simp [hs] at hr
    | some s1 => rw [hs] at hr; exact ih s1 s' (coherent_step dbg w s s1 o h hs) hr
theorem new_coherent : Coherent new := by simp [Coherent, new]

/-! ## Assignment -/

theorem assign_cases (w : World) (t r c : I) (k : ℕ) (hk : r.model = some k) (h : assign w t r = .ok c) :
    ∃ a j, r.app = some a ∧ assignJac t r = some j ∧ (r.ctypes.all fun c => decide ((w.fresh k).gl.length ≤ c.length)) = true ∧
    c = assignRest (assignModel w t r k a (r.ctypes.map (·.take (w.fresh k).gl.length)) j) r := by
  unfold assign at h
  rw [hk] at h
  cases ha : r.app with
  | none => rw [ha] at h; simp at h
  | some a =>
    rw [ha] at h
    dsimp only at h
    split at h
    · rename_i hlen
      cases hj : assignJac t r with
      | none => rw [hj] at h; simp at h
      | some j => rw [hj] at h; simp only [Except.ok.injEq] at h; exact ⟨a, j, rfl, rfl, hlen, h.symm⟩
    · simp at h

/-- C89, refuted: assignment gives the problem as constructed: changed bounds, starting point and solution of the source are lost. -/
theorem assign_problem (w : World) (t r c : I) (k : ℕ) (hk : r.model = some k) (h : assign w t r = .ok c) :
    c.model = some k ∧ c.prob = some (w.fresh k) ∧ c.fp = some 0 ∧ c.target = .problem ∧ c.optimized = r.optimized := by
  obtain ⟨a, j, -, -, -, rfl⟩ := assign_cases w t r c k hk h
  exact ⟨rfl, rfl, rfl, rfl, rfl⟩

/-- C89, refuted: after assigning a solved interface the solution shown is an empty array. -/
theorem assign_solution_lost (w : World) (t r c : I) (k : ℕ) (hk : r.model = some k) (hx : (w.fresh k).xsol = []) (ho : r.optimized = true) (h : assign w t r = .ok c) :
    (view c).solution = some [] ∧ c.status = t.status := by
  obtain ⟨a, j, -, -, -, rfl⟩ := assign_cases w t r c k hk h
  simp [view, assignRest, assignModel, ho, hx]

/-- C89: what assignment does transfer. -/
theorem assign_transfers (w : World) (t r c : I) (h : assign w t r = .ok c) :
    c.o = r.o ∧ c.calls = r.calls ∧ c.time = r.time ∧ c.iters = r.iters ∧ c.obj = r.obj ∧ c.optimized = r.optimized ∧ c.model = r.model ∧
    (r.model.isSome = true → c.tol = r.tol ∧ c.warm = r.warm ∧ c.app = r.app ∧ c.nnz = r.nnz) ∧
    (r.model = none → c.tol = t.tol ∧ c.warm = none ∧ c.app = none ∧ c.prob = none ∧ c.fp = none) ∧
    c.rnd = t.rnd ∧ c.first = t.first ∧ c.feas = t.feas ∧ c.status = t.status ∧ c.nonlin = t.nonlin ∧ c.linearizer = t.linearizer := by
  cases hk : r.model with
  | none =>
    unfold assign at h
    rw [hk] at h
    simp only [Except.ok.injEq] at h; subst h; simp [assignRest, assignNone]
  | some k =>
    obtain ⟨a, j, ha, -, -, rfl⟩ := assign_cases w t r c k hk h
    simp [assignRest, assignModel, ha]

/-- C89, refuted: assignment makes a solve work on the original problem although the mode is still "feasibility"; a copy of the result works on the other problem. -/
theorem assign_incoherent (dbg : Bool) (w : World) (t r c d : I) (k : ℕ) (hk : r.model = some k) (hf : t.feas = true) (h : assign w t r = .ok c) (hd : copy dbg c = .ok d) :
    c.target = .problem ∧ c.feas = true ∧ ¬ Coherent c ∧ d.target = .feasibility := by
  obtain ⟨a, j, -, -, -, rfl⟩ := assign_cases w t r c k hk h
  refine ⟨rfl, hf, by simp [Coherent, assignRest, assignModel, hf], ?_⟩
  unfold copy at hd
  repeat' split at hd
  all_goals first | (simp at hd; done) | (simp only [Except.ok.injEq] at hd; subst hd; simp_all [assignRest, assignModel])

/-- C89: otherwise coherence is kept. -/
theorem assign_coherent_partial (w : World) (t r c : I) (hf : t.feas = false) (ht : t.target = .null ∨ r.model.isSome = true) (h : assign w t r = .ok c) : Coherent c := by
  cases hk : r.model with
  | none =>
    unfold assign at h
    rw [hk] at h
    simp only [Except.ok.injEq] at h; subst h
    simp [Coherent, assignRest, assignNone]
    rcases ht with ht | ht
    · exact ht
    · simp [hk] at ht
  | some k =>
    obtain ⟨a, j, -, -, -, rfl⟩ := assign_cases w t r c k hk h
    simp [Coherent, assignRest, assignModel, hf]

/-- C89, refuted: assigning an empty interface leaves the old problem to be solved. -/
theorem assign_empty_stale (w : World) (t r : I) (hr : r.model = none) (ht : t.target ≠ .null) : ∃ c, assign w t r = .ok c ∧ c.target = .stale ∧ c.prob = none ∧ ¬ Coherent c := by
  refine ⟨_, by unfold assign; rw [hr], ?_⟩
  simp [assignRest, assignNone, ht, Coherent]

/-- C89, refuted: once the Jacobian of an interface was set up, no copy of it can be assigned: an exception is thrown. -/
theorem assign_copy_throws (dbg : Bool) (w : World) (s c t : I) (hs : copy dbg s = .ok c) (hn : 0 < s.nnz) : assign w t c = .error .jacobian := by
  obtain ⟨-, -, -, hj, hct, -, hnz, hm, -⟩ := copy_counters dbg s c hs
  have hmod : ∃ k, c.model = some k ∧ ∃ a, c.app = some a := by
    unfold copy at hs
    repeat' split at hs
    all_goals first | (simp at hs; done) | (simp only [Except.ok.injEq] at hs; subst hs; simp)
  obtain ⟨k, hk, a, ha⟩ := hmod
  have : assignJac t c = none := by simp [assignJac, hj, hnz, hn]
  unfold assign
  rw [hk, ha]
  simp [hct, this]

/-! ## Outer approximation after copies and assignments -/

/-- Rows of the model as seen by the problem. -/
def Fits (w : World) : Prop := ∀ k, (w.nonlin k).length = (w.fresh k).gl.length

/-- The nonlinear rows of the model. -/
def numNonlin (w : World) (k : ℕ) : ℕ := ((w.nonlin k).filter id).length

/-- C89: a copy generates a cut for every nonlinear row. -/
theorem copy_outer (dbg : Bool) (w : World) (hw : Fits w) (n : ℕ) (s c : I) (k : ℕ) (p : Tn.P) (hk : s.model = some k) (hp : s.prob = some p) (hgl : p.gl.length = (w.fresh k).gl.length)
    (hok : Tn.Ok n p) (hn : 0 < n) (h : copy dbg s = .ok c) : outer w c = some (numNonlin w k) := by
  unfold copy at h
  rw [hk, hp] at h
  dsimp only at h
  split at h
  · rename_i p' f a hp' hf ha
    simp only [Option.some.injEq] at hp'; subst hp'
    cases hq : Tn.copy dbg p with
    | none => rw [hq] at h; simp at h
    | some q =>
      rw [hq] at h
      simp only [Except.ok.injEq] at h; subst h
      have hgl' : q.gl = p.gl := by
        have hv := (Tn.copy_view dbg n p q hok hn hq).1
        simp only [Tn.view, Tn.View.mk.injEq] at hv
        exact hv.2.2.1
      have : (w.nonlin k).take (w.fresh k).gl.length = w.nonlin k := List.take_of_length_le (by rw [hw k])
      simp [outer, initJac, hgl', this, numNonlin, hw k, hgl]
  · simp at h

/-- C89, refuted: after assigning to a new interface an interface whose Jacobian was set up, the arrays for the cuts are too short as soon as the model has two nonlinear rows. -/
theorem assign_outer_overflow (w : World) (hw : Fits w) (r r' c : I) (k : ℕ) (hk : r.model = some k) (hr : initJac w r = some r') (hj : 0 < (w.jac k).length) (hn : 2 ≤ numNonlin w k)
    (h : assign w new r' = .ok c) : outer w c = none := by
  simp only [initJac, hk, Option.some.injEq] at hr; subst hr
  obtain ⟨a, j, -, hjj, hct, rfl⟩ := assign_cases w new _ c k rfl h
  simp only [assignJac, hj, if_true, Option.some.injEq] at hjj
  subst hjj
  have : (w.nonlin k).take (w.fresh k).gl.length = w.nonlin k := List.take_of_length_le (by rw [hw k])
  unfold numNonlin at hn
  simp [outer, assignRest, assignModel, this, new]
  intro _; omega

/-- C89: setting up the arrays twice counts the nonlinear rows twice; cuts are still generated for each of them. -/
theorem outer_reinit (w : World) (hw : Fits w) (s s' : I) (k : ℕ) (p : Tn.P) (hk : s.model = some k) (hp : s.prob = some p) (hgl : p.gl.length = (w.fresh k).gl.length) (h : initJac w s = some s') :
    outer w s' = some (numNonlin w k) ∧ s'.nonlin = s.nonlin + numNonlin w k := by
  simp only [initJac, hk, Option.some.injEq] at h; subst h
  have : (w.nonlin k).take (w.fresh k).gl.length = w.nonlin k := List.take_of_length_le (by rw [hw k])
  simp [outer, hp, this, numNonlin, hw k, hgl]
  omega

/-! ## Concrete cases -/

/-- One model: two variables, two nonlinear rows. -/
def exW : World := ⟨fun _ => Tn.init Tn.exS [0, 1] [0, 0] [1, 5] [-1, -1] [1, 1] [1 / 2, 3], fun _ => [(0, 0), (1, 1)], fun _ => [true, true]⟩
def exHist : List Op := [.setModel 0, .setSolver 3, .bound 1 2 3, .solved .solvedOptimal 0 9 [1, 3] [0, 0] [0, 1] [0, 0] [4, 5]]
example : Fits exW := fun _ => rfl
/-- Bounds, solution and mode of the copy, its status and retries. -/
example : ((run true exW new exHist).bind fun s => match copy true s with
    | .ok c => some (decide (view c = view s ∧ (view c).solution = some [1, 3]), provenOptimal s, provenOptimal c)
    | .error _ => none) = some (true, some true, none) := by decide +kernel
/-- Assigned to a new interface the bounds are the original ones and the solution is empty. -/
example : ((run true exW new exHist).bind fun s => match assign exW new s with
    | .ok c => some ((c.prob.map fun p => p.xu), (view c).solution, c.optimized)
    | .error _ => none) = some (some [1, 5], some [], true) := by decide +kernel
/-- The arrays of the Jacobian: a copy cannot be assigned; the assigned original writes past the arrays. -/
example : ((run true exW new (exHist ++ [.jacobian])).bind fun s => match assign exW new s with
    | .ok c => some (outer exW s, outer exW c, match copy true s with | .ok d => some (outer exW d, decide (assign exW new d = .error .jacobian)) | .error _ => none)
    | .error _ => none) = some (some 2, none, some (some 2, true)) := by decide +kernel
/-- Feasibility mode. -/
example : ((run true exW new (exHist ++ [.toFeasibility 5])).bind fun t => (run true exW new exHist).bind fun r => match assign exW t r with
    | .ok c => some (c.target, c.feas, match copy true c with | .ok d => some d.target | .error _ => none)
    | .error _ => none) = some (.problem, true, some .feasibility) := by decide +kernel
example : copy true new = .error .empty ∧ copy true (setModel exW new 0) = .error .undefined := by decide +kernel

/-- **C89**: an empty clone has no problem, solver or results, counts nothing and has the tolerances of the constructor, not those of the original. -/
theorem clone_empty_settings (dbg : Bool) (s c : I) (h : clone dbg false s = .ok c) :
    c.model = none ∧ c.prob = none ∧ c.fp = none ∧ c.app = none ∧ c.warm = none ∧ c.linearizer = none ∧ c.jac = none ∧ c.ctypes = none ∧ c.obj = none ∧ c.status = none ∧
    c.calls = 0 ∧ c.time = 0 ∧ c.iters = 0 ∧ c.nnz = 0 ∧ c.nonlin = 0 ∧ c.feas = false ∧ c.optimized = false ∧ c.first = true ∧ c.target = .null ∧
    c.tol = ⟨1 / 10 ^ 8, 1 / 10 ^ 20, 1 / 10 ^ 8, 10 ^ 100, 0, none⟩ ∧ c.rnd = ⟨0, none, false, [], false⟩ ∧
    c.o = ⟨10 ^ 200, true, 10 ^ 8, 1 / 100, -1, -1, -1, 1, 0, false, 1 / 10, -2 / 100, -5 / 100, 0, false, -1, none, none⟩ := by
  obtain rfl : new = c := by simpa [clone] using h
  exact ⟨rfl, rfl, rfl, rfl, rfl, rfl, rfl, rfl, rfl, rfl, rfl, rfl, rfl, rfl, rfl, rfl, rfl, rfl, rfl, rfl, rfl, rfl⟩

/-- **C89**: a new model brings its own problem and a feasibility problem with the settings it is constructed with; everything else stays. -/
theorem set_model_resets (w : World) (s : I) (k : ℕ) : (setModel w s k).fp = some 0 ∧ (setModel w s k).prob = some (w.fresh k) ∧ (setModel w s k).model = some k ∧
    (setModel w s k).target = (if s.feas then .feasibility else .problem) ∧ (setModel w s k).app = s.app ∧ (setModel w s k).tol = s.tol ∧ (setModel w s k).jac = s.jac ∧ (setModel w s k).optimized = s.optimized :=
  ⟨rfl, rfl, rfl, rfl, rfl, rfl, rfl, rfl⟩

/-- C89: a solve is counted once. -/
theorem solve_counts (dbg : Bool) (w : World) (s t : I) (st : Status) (ret : ℤ) (obj : ℚ) (x g zl zu lam : List ℚ) (h : step dbg w s (.solved st ret obj x g zl zu lam) = some t) :
    t.calls = s.calls + 1 ∧ t.status = some st ∧ t.optimized = true ∧ t.first = false ∧ t.app = s.app ∧ t.model = s.model := by
  simp only [step] at h
  cases ha : s.app with
  | none => simp [ha] at h
  | some a =>
    cases hp : s.prob with
    | none => simp [ha, hp] at h
    | some p =>
      rw [ha, hp] at h
      simp only [Option.bind_some, Option.map_eq_some_iff] at h
      obtain ⟨q, _, rfl⟩ := h
      exact ⟨rfl, rfl, rfl, rfl, rfl, rfl⟩

/-- Assignment throws for the Jacobian exactly if the source counts entries but has no arrays; else the arrays are the source's if it counts entries and stay as they are if not. -/
theorem assignJac_exact (t r : I) : (assignJac t r = none ↔ r.jac = none ∧ 0 < r.nnz) ∧ (∀ j, assignJac t r = some j → j = if 0 < r.nnz then r.jac else t.jac) := by
  unfold assignJac
  cases hj : r.jac <;> by_cases hn : 0 < r.nnz <;> simp [hn]

end Verif.Itf.Copies

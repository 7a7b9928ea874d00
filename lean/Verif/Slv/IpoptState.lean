import Mathlib.Data.List.Basic
import Mathlib.Tactic.Linarith
/-!
# Model of the state kept by `IpoptSolver` between calls
(src/Interfaces/Ipopt/BonIpoptSolver.cpp:27-103, 106-132, 135-220, 264-297, 418-444; src/Interfaces/BonOsiTMINLPInterface.cpp:2278-2313,
2608-2616, 2779-2804, 2846-2874)

Problems (`TNLP` objects) are numbers.  Of Ipopt only this is used: `ReOptimizeTNLP` throws (`INVALID_WARMSTART`) unless the application has
been given the same `TNLP` object by `OptimizeTNLP` before.  The global flag `BonminAbortAll` is not set.  Options: a value is found exactly if
it has been set under its name.
-/
namespace Verif.Slv.IpoptState

/-- The solver object (BonIpoptSolver.hpp:158-182): `app` = problem of the last `OptimizeTNLP` of the application, `enable_warm_start_`,
`optimized_before_`, `problemHadZeroDimension_`. -/
structure Ip where
  app : Option ℕ
  enable : Bool
  before : Bool
  zero : Bool
  deriving DecidableEq

/-- Constructors (BonIpoptSolver.cpp:27-77). -/
def Ip.new : Ip := ⟨none, false, false, false⟩

/-- Copy constructor and `clone` (BonIpoptSolver.cpp:82-103): a new application. -/
def Ip.clone (s : Ip) : Ip := ⟨none, false, false, s.zero⟩

/-- `Initialize` when Ipopt accepts the options (BonIpoptSolver.cpp:106-132). -/
def Ip.init (s : Ip) (ok : Bool) : Ip := if ok then { s with before := false } else s

/-- What is called in Ipopt. -/
inductive Called where | nothing | opt | reopt
  deriving DecidableEq

/-- `OptimizeTNLP` (BonIpoptSolver.cpp:135-176); `zd` = the problem has dimension zero; `none` = exception of Ipopt. -/
def Ip.optimize (s : Ip) (t : ℕ) (zd : Bool) : Option (Ip × Called) :=
  if zd then some ({ s with zero := true }, .nothing)
  else if s.enable && s.before then
    if s.app = some t then some ({ s with before := true, zero := false }, .reopt) else none
  else some ({ s with app := some t, before := true, zero := false }, .opt)

/-- `ReOptimizeTNLP` (BonIpoptSolver.cpp:179-220). -/
def Ip.reoptimize (s : Ip) (t : ℕ) (zd : Bool) : Option (Ip × Called) :=
  if zd then some ({ s with zero := true }, .nothing)
  else if s.before then
    if s.app = some t then some ({ s with before := true, zero := false }, .reopt) else none
  else some ({ s with app := some t, before := true, zero := false }, .opt)

/-- `IterationCount` and `CPUTime` (BonIpoptSolver.cpp:223-261): Ipopt's statistics, if any. -/
def Ip.stat (s : Ip) (stats : Option ℕ) : ℕ := if s.zero then 0 else stats.getD 0

/-- Calls from outside.  `solve re t zd`: `ReOptimizeTNLP` if `re`, otherwise `OptimizeTNLP`. -/
inductive Op where
  | init (ok : Bool)
  | warm (on : Bool)
  | solve (re : Bool) (t : ℕ) (zd : Bool)

/-- One call (`enableWarmStart`, `disableWarmStart`: BonIpoptSolver.cpp:418-430). -/
def step (s : Ip) : Op → Option (Ip × Called)
  | .init ok => some (s.init ok, .nothing)
  | .warm on => some ({ s with enable := on }, .nothing)
  | .solve re t zd => if re then s.reoptimize t zd else s.optimize t zd

/-- A sequence of calls; `none` = one of them threw. -/
def run (s : Ip) : List Op → Option Ip
  | [] => some s
  | o :: os => (step s o).bind fun r => run r.1 os

/-! ### specification: what the history says -/

/-- The problem solved last (not of dimension zero). -/
def lastSolved : List Op → Option ℕ
  | [] => none
  | .solve _ t false :: os => some ((lastSolved os).getD t)
  | .solve _ _ true :: os => lastSolved os
  | .init _ :: os => lastSolved os
  | .warm _ :: os => lastSolved os

/-- A problem, not of dimension zero, was solved since the last successful initialisation. -/
def solvedSince (b : Bool) : List Op → Bool
  | [] => b
  | .solve _ _ false :: os => solvedSince true os
  | .solve _ _ true :: os => solvedSince b os
  | .init ok :: os => solvedSince (if ok then false else b) os
  | .warm _ :: os => solvedSince b os

/-- The last setting of the warm start. -/
def warmOf (b : Bool) : List Op → Bool
  | [] => b
  | .solve _ _ _ :: os => warmOf b os
  | .init _ :: os => warmOf b os
  | .warm on :: os => warmOf on os

theorem run_state : ∀ (os : List Op) (s u : Ip), run s os = some u →
    (s.before = true → s.app ≠ none) →
    u.before = solvedSince s.before os ∧ u.enable = warmOf s.enable os ∧
    u.app = (lastSolved os).or s.app ∧ (u.before = true → u.app ≠ none)
  | [], s, u, h, hs => by
    cases h
    exact ⟨rfl, rfl, by simp [lastSolved], hs⟩
  | o :: os, s, u, h, hs => by
    simp only [run, Option.bind_eq_some_iff] at h
    obtain ⟨r, hr, h⟩ := h
    cases o with
    | init ok =>
      simp only [step, Option.some.injEq] at hr
      subst hr
      have hb : (s.init ok).before = (if ok then false else s.before) := by unfold Ip.init; split_ifs <;> rfl
      have he : (s.init ok).enable = s.enable := by unfold Ip.init; split_ifs <;> rfl
      have ha : (s.init ok).app = s.app := by unfold Ip.init; split_ifs <;> rfl
      have := run_state os _ u h (by
        rw [hb, ha]
        intro hx
        split_ifs at hx
        exact hs hx)
      rw [hb, he, ha] at this
      exact this
    | warm on =>
      simp only [step, Option.some.injEq] at hr
      subst hr
      exact run_state os _ u h hs
    | solve re t zd =>
      cases zd with
      | true =>
        have : r.1 = { s with zero := true } := by
          simp only [step, Ip.reoptimize, Ip.optimize, if_true] at hr
          split_ifs at hr <;> (cases hr; rfl)
        rw [this] at h
        exact run_state os { s with zero := true } u h hs
      | false =>
        have key : r.1.before = true ∧ r.1.enable = s.enable ∧ r.1.app = some t := by
          simp only [step, Ip.reoptimize, Ip.optimize, Bool.false_eq_true, if_false] at hr
          split_ifs at hr <;> first | (cases hr; refine ⟨rfl, rfl, ?_⟩; first | rfl | assumption)
        have := run_state os r.1 u h (by rw [key.2.2]; simp)
        rw [key.1, key.2.1, key.2.2] at this
        refine ⟨this.1, this.2.1, ?_, this.2.2.2⟩
        rw [this.2.2.1, lastSolved]
        cases lastSolved os <;> rfl

/-- **C228 (partial).** After any sequence of calls that has not failed, the next solve of a problem fails exactly if Ipopt is asked to
re-optimise (a problem has been solved since the last initialisation, and the call is `ReOptimizeTNLP` or the warm start is on), the problem is not
of dimension zero, and it is not the one solved last. -/
theorem solve_fails_iff (os : List Op) (u : Ip) (h : run Ip.new os = some u) (re : Bool) (t : ℕ) (zd : Bool) :
    step u (.solve re t zd) = none ↔
      zd = false ∧ solvedSince false os = true ∧ (re = true ∨ warmOf false os = true) ∧ lastSolved os ≠ some t := by
  obtain ⟨h1, h2, h3, _⟩ := run_state os Ip.new u h (by simp [Ip.new])
  simp only [Ip.new, Option.or_none] at h1 h2 h3
  cases zd with
  | true => cases re <;> simp [step, Ip.reoptimize, Ip.optimize]
  | false =>
    rw [← h1, ← h2, ← h3]
    cases re <;> cases hb : u.before <;> cases he : u.enable <;>
      simp [step, Ip.reoptimize, Ip.optimize, hb, he]

/-- **C228 (partial).** As long as a single problem is solved nothing ever fails, in whatever order the calls come. -/
theorem single_problem_partial (t : ℕ) (os : List Op) (h : ∀ re t' zd, Op.solve re t' zd ∈ os → t' = t) :
    (run Ip.new os).isSome = true := by
  have gen : ∀ (os : List Op) (s : Ip), (∀ re t' zd, Op.solve re t' zd ∈ os → t' = t) →
      (s.before = true → s.app = some t) → (run s os).isSome = true := by
    intro os
    induction os with
    | nil => intro s _ _; rfl
    | cons o os ih =>
      intro s h hs
      have h' : ∀ re t' zd, Op.solve re t' zd ∈ os → t' = t := fun a b c hm => h a b c (List.mem_cons_of_mem _ hm)
      cases o with
      | init ok =>
        show (run (s.init ok) os).isSome = true
        refine ih _ h' ?_
        unfold Ip.init
        split_ifs
        · intro hx; cases hx
        · exact hs
      | warm on => exact ih { s with enable := on } h' hs
      | solve re t' zd =>
        have ht : t' = t := h re t' zd (List.mem_cons_self ..)
        subst ht
        have : ∃ r, step s (.solve re t' zd) = some r ∧ (r.1.before = true → r.1.app = some t') := by
          simp only [step, Ip.reoptimize, Ip.optimize]
          cases re <;> cases zd <;> cases hb : s.before <;> cases he : s.enable <;> simp [hs, hb]
        obtain ⟨r, hr, hr'⟩ := this
        show ((step s _).bind fun r => run r.1 os).isSome = true
        rw [hr]
        exact ih r.1 h' hr'
  exact gen os Ip.new h (by simp [Ip.new])

/-- **C228 (partial).** A copy never fails on its first solve, whatever the original has done, and starts with the warm start off. -/
theorem clone_fresh (s : Ip) (re : Bool) (t : ℕ) (zd : Bool) :
    (step s.clone (.solve re t zd)).isSome = true ∧ s.clone.enable = false := by
  cases re <;> cases zd <;> simp [step, Ip.reoptimize, Ip.optimize, Ip.clone]

/-- **C228 (partial).** The count of iterations is 0 exactly for problems of dimension zero or without statistics (or iterations): it is that of
the solve just done. -/
theorem stat_exact (s : Ip) (re : Bool) (t : ℕ) (zd : Bool) (r : Ip × Called) (h : step s (.solve re t zd) = some r) (stats : Option ℕ) :
    r.1.stat stats = (if zd then 0 else stats.getD 0) ∧ (r.2 = Called.nothing ↔ zd = true) := by
  cases zd <;> simp only [step, Ip.reoptimize, Ip.optimize, Bool.false_eq_true, if_false, if_true] at h <;>
    split_ifs at h <;> (cases h; simp [Ip.stat])

/-! ### the interface: solving the problem or the feasibility problem -/

/-- The interface as far as used: the solver and the problem to optimise (0 = the problem, 1 = the feasibility problem,
BonOsiTMINLPInterface.cpp:2278-2313). -/
structure Itf where
  ip : Ip
  target : ℕ
  deriving DecidableEq

/-- `initialSolve` (BonOsiTMINLPInterface.cpp:2795-2797); `mode` = `warmStartMode_ >= Optimum`. -/
def Itf.initialSolve (i : Itf) (mode zd : Bool) : Option Itf :=
  ((if mode then { i.ip with enable := false } else i.ip).optimize i.target zd).map fun r => ⟨r.1, i.target⟩

/-- `resolve` with a valid warm start (BonOsiTMINLPInterface.cpp:2860-2874); `duals` = `problem_->duals_init() != NULL`. -/
def Itf.resolve (i : Itf) (duals zd : Bool) : Option Itf :=
  (Ip.reoptimize { i.ip with enable := duals } i.target zd).map fun r => ⟨r.1, i.target⟩

/-- **C228 (partial).** With warm starts from optimal solutions (or any later mode) `initialSolve` never fails, whatever was solved before and
whichever problem is to be solved. -/
theorem initial_solve_partial (i : Itf) (zd : Bool) : (i.initialSolve true zd).isSome = true := by
  cases zd <;> simp [Itf.initialSolve, Ip.optimize]

/-- **C228 (refuted).** Solve the problem, switch to the feasibility problem, resolve: Ipopt is asked to re-optimise another problem. -/
theorem switch_then_resolve (duals : Bool) :
    ∃ i, Itf.initialSolve ⟨Ip.new, 0⟩ true false = some i ∧ Itf.resolve { i with target := 1 } duals false = none := by
  cases duals <;> exact ⟨_, rfl, by decide +kernel⟩

/-! ### options -/

/-- Value of an option. -/
inductive Val where
  | num (mantissa : Int) (exp : Int)
  | int (v : Int)
  | str (v : String)
  deriving DecidableEq

/-- Options that were set. -/
abbrev Opts := String → Option Val

/-- `SetNumericValue` etc. with `allow_clobber`. -/
def setOpt (o : Opts) (k : String) (v : Val) : Opts := fun k' => if k' = k then some v else o k'

/-- One option of `setMinlpDefaults` (BonIpoptSolver.cpp:271-273 etc.): set if not found. -/
def ifUnset (o : Opts) (k : String) (v : Val) : Opts := if (o k).isSome then o else setOpt o k v

/-- The options of the solver object and `default_log_level_` (`none` = not initialised; BonTNLPSolver.hpp:233). -/
structure OSt where
  opts : Opts
  level : Option Int

/-- `setMinlpDefaults` (BonIpoptSolver.cpp:264-297). -/
def setMinlpDefaults (s : OSt) : OSt :=
  let o := ifUnset s.opts "gamma_phi" (.num 1 (-8))
  let o := ifUnset o "gamma_theta" (.num 1 (-4))
  let o := ifUnset o "required_infeasibility_reduction" (.num 1 (-1))
  let o := ifUnset o "expect_infeasible_problem" (.str "yes")
  let o := ifUnset o "mu_strategy" (.str "adaptive")
  let o := ifUnset o "mu_oracle" (.str "probing")
  let o := ifUnset o "honor_original_bounds" (.str "yes")
  match o "print_level" with
  | some (.int v) => ⟨o, some v⟩
  | _ => ⟨setOpt o "print_level" (.int 1), some 1⟩

/-- `setOutputToDefault` (BonIpoptSolver.cpp:433-437); `none` = reads a variable never set. -/
def toDefault (s : OSt) : Option OSt := s.level.map fun v => { s with opts := setOpt s.opts "print_level" (.int v) }

/-- `forceSolverOutput` (BonIpoptSolver.cpp:440-444), and the level 0 set after the first solve (BonOsiTMINLPInterface.cpp:2800-2804). -/
def force (s : OSt) (v : Int) : OSt := { s with opts := setOpt s.opts "print_level" (.int v) }

/-- `enableWarmStart`, `disableWarmStart` (BonIpoptSolver.cpp:418-430). -/
def warmOpt (s : OSt) (on : Bool) : OSt :=
  { s with opts := setOpt s.opts "warm_start_init_point" (.str (if on then "yes" else "no")) }

/-- Specification: the defaults for mixed-integer problems. -/
def minlpDefault (k : String) : Option Val :=
  (([("gamma_phi", .num 1 (-8)), ("gamma_theta", .num 1 (-4)), ("required_infeasibility_reduction", .num 1 (-1)),
     ("expect_infeasible_problem", .str "yes"), ("mu_strategy", .str "adaptive"), ("mu_oracle", .str "probing"),
     ("honor_original_bounds", .str "yes"), ("print_level", .int 1)] : List (String × Val)).find? (fun p => p.1 = k)).map Prod.snd

/-- The print level, if set, is an integer (Ipopt refuses other values for this option). -/
def LevelInt (o : Opts) : Prop := o "print_level" = none ∨ ∃ v, o "print_level" = some (.int v)

theorem ifUnset_apply (o : Opts) (k : String) (v : Val) (k' : String) :
    ifUnset o k v k' = (o k').or (if k' = k then some v else none) := by
  unfold ifUnset setOpt
  by_cases h : k' = k
  · subst h
    cases ho : o k' <;> simp [ho]
  · cases ho : o k <;> cases hk : o k' <;> simp [h, hk]

/-- **C229 (partial).** After `Initialize` every option has the value the user gave it; those not given have the default for mixed-integer
problems, if there is one; and the default print level is the user's, or 1. -/
theorem defaults_partial (s : OSt) (hl : LevelInt s.opts) (k : String) :
    (setMinlpDefaults s).opts k = (s.opts k).or (minlpDefault k) ∧
    ((setMinlpDefaults s).opts "print_level" = some (.int ((setMinlpDefaults s).level.getD 0)) ∧
     (setMinlpDefaults s).level ≠ none) := by
  have hp : ∀ o : Opts, o = ifUnset (ifUnset (ifUnset (ifUnset (ifUnset (ifUnset (ifUnset s.opts "gamma_phi" (.num 1 (-8)))
      "gamma_theta" (.num 1 (-4))) "required_infeasibility_reduction" (.num 1 (-1))) "expect_infeasible_problem" (.str "yes"))
      "mu_strategy" (.str "adaptive")) "mu_oracle" (.str "probing")) "honor_original_bounds" (.str "yes") →
      o "print_level" = s.opts "print_level" := by
    rintro o rfl
    simp [ifUnset_apply]
  have hk : ∀ o : Opts, o = ifUnset (ifUnset (ifUnset (ifUnset (ifUnset (ifUnset (ifUnset s.opts "gamma_phi" (.num 1 (-8)))
      "gamma_theta" (.num 1 (-4))) "required_infeasibility_reduction" (.num 1 (-1))) "expect_infeasible_problem" (.str "yes"))
      "mu_strategy" (.str "adaptive")) "mu_oracle" (.str "probing")) "honor_original_bounds" (.str "yes") → k ≠ "print_level" →
      o k = (s.opts k).or (minlpDefault k) := by
    rintro o rfl hne
    simp only [ifUnset_apply, minlpDefault]
    cases s.opts k with
    | some v => simp
    | none =>
      simp only [Option.none_or, List.find?_cons]
      by_cases h1 : k = "gamma_phi"
      · subst h1; simp
      by_cases h2 : k = "gamma_theta"
      · subst h2; simp
      by_cases h3 : k = "required_infeasibility_reduction"
      · subst h3; simp
      by_cases h4 : k = "expect_infeasible_problem"
      · subst h4; simp
      by_cases h5 : k = "mu_strategy"
      · subst h5; simp
      by_cases h6 : k = "mu_oracle"
      · subst h6; simp
      by_cases h7 : k = "honor_original_bounds"
      · subst h7; simp
      simp [h1, h2, h3, h4, h5, h6, h7, Ne.symm hne, Ne.symm h1, Ne.symm h2, Ne.symm h3, Ne.symm h4, Ne.symm h5, Ne.symm h6, Ne.symm h7]
  have hp' := hp _ rfl
  have hk' := hk _ rfl
  unfold setMinlpDefaults
  rcases hl with hl | ⟨v, hl⟩
  · simp only [hp', hl]
    refine ⟨?_, by simp [setOpt], by simp⟩
    by_cases hkp : k = "print_level"
    · subst hkp; simp [setOpt, hl, minlpDefault]
    · simp only [setOpt, if_neg hkp]
      exact hk' hkp
  · simp only [hp', hl]
    refine ⟨?_, rfl, by simp⟩
    by_cases hkp : k = "print_level"
    · subst hkp; rw [hp', hl]; rfl
    · exact hk' hkp

/-- Changes of the output and of the warm start between two initialisations. -/
inductive OOp where
  | toDefault
  | force (v : Int)
  | warm (on : Bool)

/-- Effect of a change. -/
def ostep (s : OSt) : OOp → Option OSt
  | .toDefault => toDefault s
  | .force v => some (force s v)
  | .warm on => some (warmOpt s on)

/-- A sequence of changes. -/
def orun (s : OSt) : List OOp → Option OSt
  | [] => some s
  | o :: os => (ostep s o).bind fun r => orun r os

/-- **C230.** After `Initialize` any sequence of changes of the output and of the warm start is defined, leaves all options but the
two concerned as they are, and `setOutputToDefault` then gives the print level of the initialisation. -/
theorem output_restored (s : OSt) (hl : LevelInt s.opts) (os : List OOp) :
    ∃ u, orun (setMinlpDefaults s) os = some u ∧
      (∀ k, k ≠ "print_level" → k ≠ "warm_start_init_point" → u.opts k = (s.opts k).or (minlpDefault k)) ∧
      ∃ w, toDefault u = some w ∧ w.opts "print_level" = (s.opts "print_level").or (some (.int 1)) := by
  obtain ⟨_, h2, h3⟩ := defaults_partial s hl "print_level"
  obtain ⟨v, hv⟩ := Option.ne_none_iff_exists'.1 h3
  have gen : ∀ (os : List OOp) (r : OSt), r.level = some v → ∃ u, orun r os = some u ∧ u.level = some v ∧
      ∀ k, k ≠ "print_level" → k ≠ "warm_start_init_point" → u.opts k = r.opts k := by
    intro os
    induction os with
    | nil => intro r hr; exact ⟨r, rfl, hr, fun _ _ _ => rfl⟩
    | cons o os ih =>
      intro r hr
      have : ∃ r', ostep r o = some r' ∧ r'.level = some v ∧
          ∀ k, k ≠ "print_level" → k ≠ "warm_start_init_point" → r'.opts k = r.opts k := by
        cases o with
        | toDefault => exact ⟨⟨setOpt r.opts "print_level" (.int v), some v⟩, by simp [ostep, toDefault, hr], rfl, fun k h1 _ => by simp [setOpt, h1]⟩
        | force x => exact ⟨_, rfl, hr, fun k h1 _ => by simp [force, setOpt, h1]⟩
        | warm on => exact ⟨_, rfl, hr, fun k _ h1 => by simp [warmOpt, setOpt, h1]⟩
      obtain ⟨r', h1, h2, h3⟩ := this
      obtain ⟨u, h4, h5, h6⟩ := ih r' h2
      exact ⟨u, by simp only [orun, h1, Option.bind_some, h4], h5, fun k a b => (h6 k a b).trans (h3 k a b)⟩
  obtain ⟨u, h4, h5, h6⟩ := gen os _ hv
  refine ⟨u, h4, fun k a b => (h6 k a b).trans (defaults_partial s hl k).1,
    ⟨setOpt u.opts "print_level" (.int v), some v⟩, by simp [toDefault, h5], ?_⟩
  have h7 := (defaults_partial s hl "print_level").1
  rw [h2, hv, Option.getD_some] at h7
  simp only [setOpt, if_true]
  rw [h7]
  simp [minlpDefault]

/-- **C229 (refuted).** The print level 0 that the interface sets after the first solve is taken for the user's at the next initialisation. -/
theorem level_taken_over :
    (setMinlpDefaults (force (setMinlpDefaults ⟨fun _ => none, none⟩) 0)).level = some 0 ∧
    (setMinlpDefaults ⟨fun _ => none, none⟩).level = some 1 := by
  constructor <;> simp [setMinlpDefaults, force, setOpt, ifUnset]

/-- **C229 (refuted).** Before the first initialisation `setOutputToDefault` reads a variable that was never set. -/
theorem default_before_init (o : Opts) : toDefault ⟨o, none⟩ = none := rfl

/-! ### examples -/

example : run Ip.new [.init true, .solve false 0 false, .warm true, .solve true 0 false] = some ⟨some 0, true, true, false⟩ := by decide +kernel
example : (run Ip.new [.init true, .solve false 0 false, .warm true, .solve false 1 false]).isSome = false := by decide +kernel
example : (run Ip.new [.solve false 0 false, .init true, .warm true, .solve true 1 false]) = some ⟨some 1, true, true, false⟩ := by decide +kernel
example : ∀ re t' zd, Op.solve re t' zd ∈ [Op.init true, .solve false 3 true, .solve true 3 false] → t' = 3 := by
  intro re t' zd h
  simp only [List.mem_cons, Op.solve.injEq, List.not_mem_nil, or_false, reduceCtorEq, false_or] at h
  rcases h with ⟨_, h, _⟩ | ⟨_, h, _⟩ <;> exact h
example : LevelInt (fun k => if k = "print_level" then some (.int 5) else none) := .inr ⟨5, rfl⟩
example : (setMinlpDefaults ⟨fun k => if k = "mu_oracle" then some (.str "loqo") else none, none⟩).opts "mu_oracle" = some (.str "loqo") := by
  decide +kernel

/-- Specification: the last solve was of a problem of dimension zero. -/
def lastEmpty (b : Bool) : List Op → Bool
  | [] => b
  | .solve _ _ zd :: os => lastEmpty zd os
  | .init _ :: os => lastEmpty b os
  | .warm _ :: os => lastEmpty b os

/-- **C228.** After any calls the count of iterations is 0 if the last solve was of a problem of dimension zero, and that of Ipopt otherwise, also before the first solve; a copy carries on with what the original says. -/
theorem stat_run (os os' : List Op) (u v : Ip) (h : run Ip.new os = some u) (hv : run u.clone os' = some v) (stats : Option ℕ) :
    u.stat stats = (if lastEmpty false os then 0 else stats.getD 0) ∧ v.stat stats = (if lastEmpty false (os ++ os') then 0 else stats.getD 0) := by
  have step_zero : ∀ (o : Op) (s : Ip) (r : Ip × Called), step s o = some r → r.1.zero = lastEmpty s.zero [o] := by
    intro o s r h
    cases o with
    | init ok => simp only [step, Option.some.injEq] at h; subst h; simp only [Ip.init, lastEmpty]; split_ifs <;> rfl
    | warm on => simp only [step, Option.some.injEq] at h; subst h; rfl
    | solve re t zd =>
      cases re <;> cases zd <;> simp only [step, Ip.reoptimize, Ip.optimize, Bool.false_eq_true, if_false, if_true] at h <;> (try split_ifs at h) <;> (cases h; rfl)
  have key : ∀ (os : List Op) (s u : Ip), run s os = some u → u.zero = lastEmpty s.zero os := by
    intro os
    induction os with
    | nil => intro s u h; simp only [run, Option.some.injEq] at h; subst h; rfl
    | cons o os ih =>
      intro s u h
      simp only [run, Option.bind_eq_some_iff] at h
      obtain ⟨r, hr, h⟩ := h
      rw [ih r.1 u h, step_zero o s r hr]
      cases o <;> rfl
  have app : ∀ (a b : List Op) (z : Bool), lastEmpty z (a ++ b) = lastEmpty (lastEmpty z a) b := by
    intro a b
    induction a with
    | nil => intro z; rfl
    | cons o a ih => intro z; cases o <;> simp [lastEmpty, ih]
  have h1 := key os Ip.new u h
  have h2 := key os' u.clone v hv
  have h3 : u.clone.zero = u.zero := rfl
  rw [h3, h1] at h2
  refine ⟨?_, ?_⟩
  · unfold Ip.stat; rw [h1]; rfl
  · unfold Ip.stat; rw [h2, app]; rfl

example : run Ip.new [.solve false 1 false, .solve true 1 true] = some ⟨some 1, false, true, true⟩ ∧ lastEmpty false [.solve false 1 false, .solve true 1 true] = true := ⟨rfl, rfl⟩

/-- **C228.** `resolve` with a valid warm start: it fails exactly if something was solved since the initialisation, the problem is not of dimension zero and it is not the one solved last; otherwise the warm start is on
afterwards exactly if there are multipliers to start from, the problem to optimise is kept, and the problem solved last is this one (unless of dimension zero). -/
theorem resolve_exact (i : Itf) (duals zd : Bool) :
    (i.resolve duals zd = none ↔ zd = false ∧ i.ip.before = true ∧ i.ip.app ≠ some i.target) ∧
    ∀ j, i.resolve duals zd = some j → j.target = i.target ∧ j.ip.enable = duals ∧ j.ip.zero = zd ∧
      (zd = false → j.ip.before = true ∧ j.ip.app = some i.target) ∧ (zd = true → j.ip.before = i.ip.before ∧ j.ip.app = i.ip.app) := by
  obtain ⟨⟨app, en, be, ze⟩, t⟩ := i
  cases zd <;> cases be <;> simp [Itf.resolve, Ip.reoptimize]
example : (Itf.resolve ⟨⟨some 3, false, true, false⟩, 3⟩ true false) = some ⟨⟨some 3, true, true, false⟩, 3⟩ := by decide +kernel

/-- **C230.** `enableWarmStart` and `disableWarmStart` set `warm_start_init_point` to yes and no, and nothing else. -/
theorem warm_exact (s : OSt) (on : Bool) (u : OSt) (h : ostep s (.warm on) = some u) :
    (u.opts "warm_start_init_point" = some (.str "yes") ↔ on = true) ∧ (u.opts "warm_start_init_point" = some (.str "no") ↔ on = false) ∧ u.level = s.level ∧
      ∀ k, k ≠ "warm_start_init_point" → u.opts k = s.opts k := by
  cases h
  cases on <;> simp +contextual [warmOpt, setOpt]
example : (ostep ⟨fun _ => none, some 3⟩ (.warm true)).isSome = true := rfl

/-- **C228.** What reaches Ipopt: nothing at an initialisation or a change of the warm start, nor for a problem of dimension zero; otherwise it re-optimises exactly if a problem has been solved since the initialisation and the call was
`ReOptimizeTNLP` or the warm start is on. -/
theorem calls_exact (s : Ip) (o : Op) (r : Ip × Called) (h : step s o = some r) :
    (r.2 = .nothing ↔ ∀ re t, o ≠ .solve re t false) ∧ (r.2 = .reopt ↔ s.before = true ∧ ∃ re t, o = .solve re t false ∧ (re = true ∨ s.enable = true)) := by
  obtain ⟨app, en, be, ze⟩ := s
  cases o with
  | init ok => cases h; simp
  | warm on => cases h; simp
  | solve re t zd =>
    cases zd <;> cases re <;> cases en <;> cases be <;> simp [step, Ip.reoptimize, Ip.optimize] at h <;> first | (subst h; simp) | (obtain ⟨_, rfl⟩ := h; simp)
example : ∃ r, step ⟨some 2, true, true, false⟩ (.solve false 2 false) = some r ∧ r.2 = .reopt := ⟨_, rfl, rfl⟩

end Verif.Slv.IpoptState

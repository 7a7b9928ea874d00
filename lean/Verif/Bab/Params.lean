import Verif.Bab.Options
import Verif.Bab.Launch
import Mathlib.Algebra.Order.Ring.Rat
import Mathlib.Tactic.NormNum
import Mathlib.Tactic.Linarith
/-! # C116: every parameter of the search comes from its option

src/Algorithms/BonBabSetupBase.cpp: defaults 27-53, `gatherParametersValues` 349-401, registration 415-599 (and BonCbcNode.cpp:76-92); src/Algorithms/BonBabSetupBase.hpp: parameters
105-135, node comparison and tree traversal 69-85; src/Algorithms/BonBonminSetup.cpp: what `initializeBBB` (405-415) and `initializeBHyb` (621, 646-698, 902-903) do to them;
src/CbcBonmin/BonCbc.cpp:134-178, 309-391 (`Verif.Bab.Launch.configure`).

Options lists are those of `Verif.Bab.Options` (integers, and enumerations by index) together with a list of numeric values looked up by the same rule. -/
namespace Verif.Bab.Params

open Verif.Bab.Options (Opts Entry find Given)

/-- `IntParameter` (BonBabSetupBase.hpp:105-123). -/
inductive IntP
  | logLevel | logInterval | maxFailures | failBehavior | maxInfeasible | strong | trust | maxNodes | maxSols | maxIter | special | noSos | cutPasses | cutPassesRoot | rootLog
  deriving DecidableEq, Repr

/-- `DoubleParameter` (BonBabSetupBase.hpp:127-135). -/
inductive DblP
  | cutoffDecr | cutoff | gap | fracGap | intTol | maxTime
  deriving DecidableEq, Repr

/-- `defaultIntParam_` (BonBabSetupBase.cpp:27-43); `COIN_INT_MAX` is 2147483647. -/
def startInt : IntP → ℤ
  | .logLevel => 1 | .logInterval => 100 | .maxFailures => 2 | .failBehavior => 0 | .maxInfeasible => 0 | .strong => 5 | .trust => 2 | .maxNodes => 2147483647
  | .maxSols => 2147483647 | .maxIter => 2147483647 | .special => 0 | .noSos => 0 | .cutPasses => 1 | .cutPassesRoot => 20 | .rootLog => 0

/-- `defaultDoubleParam_` (BonBabSetupBase.cpp:46-53); `big` is `COIN_DBL_MAX`. -/
def startDbl (big : ℚ) : DblP → ℚ
  | .cutoffDecr => 0 | .cutoff => big | .gap => 0 | .fracGap => 0 | .intTol => 1 / 10 ^ 9 | .maxTime => big

/-- An options list: integers and enumerations, and numbers. -/
structure Store where
  ints : Opts
  nums : List ((String × String) × ℚ)

/-- Registered defaults. -/
structure Reg where
  int : String → ℤ
  num : String → ℚ

/-- Lookup of a number: full name, bare name, registered default. -/
def getNum (r : Reg) (o : Store) (pfx tag : String) : ℚ :=
  match o.nums.lookup (pfx, tag) with
  | some v => v
  | none => (o.nums.lookup ("", tag)).getD (r.num tag)

/-- What is done to the random generator. -/
inductive Seed
  | fixed (s : ℤ) | clock
  deriving DecidableEq, Repr

/-- The setup: parameters, methods, its own options list (`options_`; `none` is NULL), and what was done to the generator. -/
structure Setup where
  int : IntP → ℤ
  dbl : DblP → ℚ
  cmp : ℤ
  trav : ℤ
  own : Option Opts
  seeds : List Seed

/-- Which option is read into which integer parameter (BonBabSetupBase.cpp:353-366). -/
def intTable : List (String × IntP) :=
  [("bb_log_level", .logLevel), ("bb_log_interval", .logInterval), ("max_consecutive_failures", .maxFailures), ("nlp_failure_behavior", .failBehavior),
   ("max_consecutive_infeasible", .maxInfeasible), ("number_strong_branch", .strong), ("number_before_trust", .trust), ("node_limit", .maxNodes), ("solution_limit", .maxSols),
   ("iteration_limit", .maxIter), ("sos_constraints", .noSos), ("num_cut_passes", .cutPasses), ("num_cut_passes_at_root", .cutPassesRoot), ("nlp_log_at_root", .rootLog)]

/-- Which option is read into which number (BonBabSetupBase.cpp:368-373). -/
def dblTable : List (String × DblP) :=
  [("cutoff_decr", .cutoffDecr), ("cutoff", .cutoff), ("allowable_gap", .gap), ("allowable_fraction_gap", .fracGap), ("integer_tolerance", .intTol), ("time_limit", .maxTime)]

/-- The seed (BonBabSetupBase.cpp:375-380): the clock for -1, nothing if the option is not set. -/
def seedOf (r : Reg) (o : Store) (pfx : String) : List Seed :=
  let g := Options.get r.int o.ints pfx "random_generator_seed"
  if g.2 = -1 then [.clock] else if g.1 then [.fixed g.2] else []

/-- `gatherParametersValues(options)` (BonBabSetupBase.cpp:349-401): options are read from the list passed, but the two presets are written to the setup's own list; `none`: that list is NULL. -/
def gather (r : Reg) (o : Store) (pfx : String) (s : Setup) : Option Setup :=
  let int := intTable.foldl (fun P e => Function.update P e.2 (Options.get r.int o.ints pfx e.1).2) s.int
  let dbl := dblTable.foldl (fun P e => Function.update P e.2 (getNum r o pfx e.1)) s.dbl
  let s : Setup := { s with int := int, dbl := dbl, seeds := s.seeds ++ seedOf r o pfx, cmp := (Options.get r.int o.ints pfx "node_comparison").2, trav := (Options.get r.int o.ints pfx "tree_search_strategy").2 }
  let vs := (Options.get r.int o.ints pfx "variable_selection").2
  if vs = Options.mostFractional then
    s.own.map fun w => { s with int := Function.update (Function.update s.int .strong 0) .trust 0,
                                own := some (Options.set (Options.set w ("bonmin.", "number_strong_branch") 0 true) ("bonmin.", "number_before_trust") 0 true) }
  else if vs = Options.reliability then
    s.own.map fun w => { s with int := Function.update s.int .trust 10, own := some (Options.set w ("bonmin.", "number_before_trust") 10 true) }
  else some s

/-- A setup before its options are read (BonBabSetupBase.cpp:71-73, 200-202). -/
def start (big : ℚ) (own : Opts) : Setup := ⟨startInt, startDbl big, 0, 0, some own, []⟩

/-! ## Specification -/

/-- The option a user has to set for an integer parameter; the special options have none. -/
def optOf : IntP → Option String
  | .logLevel => some "bb_log_level"
  | .logInterval => some "bb_log_interval"
  | .maxFailures => some "max_consecutive_failures"
  | .failBehavior => some "nlp_failure_behavior"
  | .maxInfeasible => some "max_consecutive_infeasible"
  | .strong => some "number_strong_branch"
  | .trust => some "number_before_trust"
  | .maxNodes => some "node_limit"
  | .maxSols => some "solution_limit"
  | .maxIter => some "iteration_limit"
  | .special => none
  | .noSos => some "sos_constraints"
  | .cutPasses => some "num_cut_passes"
  | .cutPassesRoot => some "num_cut_passes_at_root"
  | .rootLog => some "nlp_log_at_root"

/-- The option for a number. -/
def numOptOf : DblP → String
  | .cutoffDecr => "cutoff_decr"
  | .cutoff => "cutoff"
  | .gap => "allowable_gap"
  | .fracGap => "allowable_fraction_gap"
  | .intTol => "integer_tolerance"
  | .maxTime => "time_limit"

/-- The number a user has given. -/
def GivenNum (o : Store) (pfx tag : String) : Option ℚ := (o.nums.lookup (pfx, tag)).or (o.nums.lookup ("", tag))

/-- Value of an option: what was given, else the registered default. -/
def val (r : Reg) (o : Store) (pfx tag : String) : ℤ := (Given o.ints pfx tag).getD (r.int tag)

theorem getNum_val (r : Reg) (o : Store) (pfx tag : String) : getNum r o pfx tag = (GivenNum o pfx tag).getD (r.num tag) := by
  unfold getNum GivenNum
  cases o.nums.lookup (pfx, tag) <;> rfl

/-- The integer parameters just read, before the variable selection is looked at. -/
theorem ints_read (r : Reg) (o : Store) (pfx : String) (P : IntP → ℤ) (p : IntP) :
    intTable.foldl (fun P e => Function.update P e.2 (Options.get r.int o.ints pfx e.1).2) P p = match optOf p with | some t => val r o pfx t | none => P p := by
  cases p <;> simp [intTable, Function.update, optOf, val, Options.get_val]

theorem dbls_read (r : Reg) (o : Store) (pfx : String) (P : DblP → ℚ) (p : DblP) :
    dblTable.foldl (fun P e => Function.update P e.2 (getNum r o pfx e.1)) P p = (GivenNum o pfx (numOptOf p)).getD (r.num (numOptOf p)) := by
  cases p <;> simp [dblTable, Function.update, numOptOf, getNum_val]

/-- **C116**: every number, the node comparison, the tree traversal and every integer parameter except the two of strong branching have the value given for their option, under the prefix, else
without prefix, else the registered default; the two of strong branching too unless the variable selection is the most fractional one (0 and 0) or reliability branching (trust 10).  It does
not matter what the parameters were before. -/
theorem gather_exact (r : Reg) (o : Store) (pfx : String) (s s' : Setup) (h : gather r o pfx s = some s') :
    (∀ p t, optOf p = some t → p ≠ .strong → p ≠ .trust → s'.int p = val r o pfx t) ∧ s'.int .special = s.int .special ∧
    s'.int .strong = (if val r o pfx "variable_selection" = 0 then 0 else val r o pfx "number_strong_branch") ∧
    s'.int .trust = (if val r o pfx "variable_selection" = 0 then 0 else if val r o pfx "variable_selection" = 2 then 10 else val r o pfx "number_before_trust") ∧
    (∀ p, s'.dbl p = (GivenNum o pfx (numOptOf p)).getD (r.num (numOptOf p))) ∧
    s'.cmp = val r o pfx "node_comparison" ∧ s'.trav = val r o pfx "tree_search_strategy" := by
  unfold gather at h
  simp only [Options.get_val, Options.mostFractional, Options.reliability] at h
  have hi := ints_read r o pfx s.int
  have hd := dbls_read r o pfx s.dbl
  simp only [Options.get_val] at hi
  by_cases h0 : (Given o.ints pfx "variable_selection").getD (r.int "variable_selection") = 0
  · rw [if_pos h0, Option.map_eq_some_iff] at h
    obtain ⟨w, -, rfl⟩ := h
    refine ⟨?_, ?_, ?_, ?_, hd, rfl, rfl⟩
    · intro p t hp h1 h2
      simp only [Function.update, h1, h2]
      have := hi p
      rw [hp] at this
      simpa using this
    · have := hi .special
      simpa [Function.update, optOf] using this
    · simp [Function.update, val, h0]
    · simp [Function.update, val, h0]
  · rw [if_neg h0] at h
    by_cases h2 : (Given o.ints pfx "variable_selection").getD (r.int "variable_selection") = 2
    · rw [if_pos h2, Option.map_eq_some_iff] at h
      obtain ⟨w, -, rfl⟩ := h
      refine ⟨?_, ?_, ?_, ?_, hd, rfl, rfl⟩
      · intro p t hp h1 h3
        simp only [Function.update, h3]
        have := hi p
        rw [hp] at this
        simpa using this
      · have := hi .special
        simpa [Function.update, optOf] using this
      · have := hi .strong
        simpa [Function.update, optOf, val, h0] using this
      · simp [Function.update, val, h2]
    · rw [if_neg h2, Option.some.injEq] at h
      subst h
      refine ⟨?_, ?_, ?_, ?_, hd, rfl, rfl⟩
      · intro p t hp h1 h3
        have := hi p
        rw [hp] at this
        exact this
      · exact hi .special
      · rw [if_neg (by exact h0)]; exact hi .strong
      · rw [if_neg (by exact h0), if_neg (by exact h2)]; exact hi .trust

/-- **C116**: reading the options is defined exactly if the setup has a list of its own or neither preset applies; the list passed is only read. -/
theorem gather_defined (r : Reg) (o : Store) (pfx : String) (s : Setup) :
    (gather r o pfx s).isSome ↔ s.own.isSome ∨ (val r o pfx "variable_selection" ≠ 0 ∧ val r o pfx "variable_selection" ≠ 2) := by
  unfold gather
  simp only [Options.get_val, Options.mostFractional, Options.reliability]
  unfold val
  split_ifs with h0 h2
  · simp [h0]
  · simp [h2]
  · simp [h0, h2]

/-- **C116**: the parameters for branching and the options afterwards are those used in C71, when the list passed is the setup's own. -/
theorem gather_branching (r : Reg) (o : Store) (pfx : String) (s s' : Setup) (hs : s.own = some o.ints) (h : gather r o pfx s = some s') :
    (⟨s'.int .strong, s'.int .trust⟩ : Options.Params) = (Options.gather r.int o.ints pfx).1 ∧ s'.own = some (Options.gather r.int o.ints pfx).2 := by
  obtain ⟨-, -, h1, h2, -⟩ := gather_exact r o pfx s s' h
  rw [h1, h2]
  unfold gather at h
  unfold Options.gather
  unfold val
  simp only [Options.get_val, Options.mostFractional, Options.reliability, hs, Option.map_some] at h ⊢
  split_ifs at h ⊢ with h0 h3 <;> (rw [Option.some.injEq] at h; subst h; first | exact ⟨rfl, rfl⟩ | exact ⟨rfl, hs⟩)

/-- **C116**: the generator is seeded exactly when the seed is set (or its default is -1): with the clock for -1, else with the value. -/
theorem seed_exact (r : Reg) (o : Store) (pfx : String) (s s' : Setup) (h : gather r o pfx s = some s') (hr : r.int "random_generator_seed" ≠ -1) :
    s'.seeds = s.seeds ++ match Given o.ints pfx "random_generator_seed" with | none => [] | some v => if v = -1 then [.clock] else [.fixed v] := by
  have e : s'.seeds = s.seeds ++ seedOf r o pfx := by
    unfold gather at h
    simp only at h
    split_ifs at h
    · rw [Option.map_eq_some_iff] at h; obtain ⟨w, -, rfl⟩ := h; rfl
    · rw [Option.map_eq_some_iff] at h; obtain ⟨w, -, rfl⟩ := h; rfl
    · rw [Option.some.injEq] at h; subst h; rfl
  rw [e]
  congr 1
  unfold seedOf
  simp only [Options.get_val, Options.get_set]
  cases hg : Given o.ints pfx "random_generator_seed" with
  | none => simp [hr]
  | some v => simp

/-! ## Names of the methods -/

/-- Settings of `node_comparison` in the order registered (BonBabSetupBase.cpp:516-525); Ipopt returns the position. -/
def cmpNames : List String := ["best-bound", "depth-first", "breadth-first", "dynamic", "best-guess"]
/-- `NodeComparison(ival)` (BonBabSetupBase.cpp:383, BonBabSetupBase.hpp:69-76). -/
def cmpOf (i : ℤ) : Option Launch.Cmp := if i < 0 then none else [Launch.Cmp.bestBound, .dfs, .bfs, .dynamic, .bestGuess][i.toNat]?
/-- Settings of `tree_search_strategy` (BonBabSetupBase.cpp:528-544). -/
def travNames : List String := ["top-node", "dive", "probed-dive", "dfs-dive", "dfs-dive-dynamic"]
/-- `TreeTraversal(ival)` (BonBabSetupBase.cpp:386, BonBabSetupBase.hpp:79-85). -/
def travOf (i : ℤ) : Option Launch.Trav := if i < 0 then none else [Launch.Trav.heapOnly, .dive, .probed, .dfsDive, .dfsDynamic][i.toNat]?
/-- Settings of `variable_selection` (BonBabSetupBase.cpp:581-599), without (or with) curvature branching. -/
def selNames (curv : Bool) : List String :=
  ["most-fractional", "strong-branching", "reliability-branching"] ++ (if curv then ["curvature-estimator"] else []) ++
  ["qp-strong-branching", "lp-strong-branching", "nlp-strong-branching", "osi-simple", "osi-strong", "random"]
/-- `VarSelectStra_Enum` (BonBabSetupBase.hpp:89-102). -/
def selEnum (curv : Bool) : List String :=
  ["MOST_FRACTIONAL", "STRONG_BRANCHING", "RELIABILITY_BRANCHING"] ++ (if curv then ["CURVATURE_ESTIMATOR"] else []) ++
  ["QP_STRONG_BRANCHING", "LP_STRONG_BRANCHING", "NLP_STRONG_BRANCHING", "OSI_SIMPLE", "OSI_STRONG", "RANDOM"]

/-- What the names say. -/
def cmpMeaning : String → Option Launch.Cmp
  | "best-bound" => some .bestBound
  | "depth-first" => some .dfs
  | "breadth-first" => some .bfs
  | "dynamic" => some .dynamic
  | "best-guess" => some .bestGuess
  | _ => none
def travMeaning : String → Option Launch.Trav
  | "top-node" => some .heapOnly
  | "dive" => some .dive
  | "probed-dive" => some .probed
  | "dfs-dive" => some .dfsDive
  | "dfs-dive-dynamic" => some .dfsDynamic
  | _ => none

/-- **C116**: the position of a name in the registration is the value of the method it names. -/
theorem names_mean (i : ℕ) (n : String) :
    (cmpNames[i]? = some n → cmpOf i = cmpMeaning n ∧ (cmpMeaning n).isSome) ∧ (travNames[i]? = some n → travOf i = travMeaning n ∧ (travMeaning n).isSome) := by
  constructor
  · intro h
    match i, h with
    | 0, h | 1, h | 2, h | 3, h | 4, h => (simp [cmpNames] at h; subst h; exact ⟨by decide, by decide⟩)
  · intro h
    match i, h with
    | 0, h | 1, h | 2, h | 3, h | 4, h => (simp [travNames] at h; subst h; exact ⟨by decide, by decide⟩)

/-- **C116**: the same for the variable selection: names and enumeration agree, with and without curvature branching, and the numbers used for the presets are those of their names. -/
theorem selection_names (curv : Bool) : (selNames curv).length = (selEnum curv).length ∧ (selNames curv).idxOf "most-fractional" = 0 ∧ (selEnum curv).idxOf "MOST_FRACTIONAL" = 0 ∧
    (selNames curv).idxOf "reliability-branching" = 2 ∧ (selEnum curv).idxOf "RELIABILITY_BRANCHING" = 2 ∧
    (selNames curv).idxOf "nlp-strong-branching" = (selEnum curv).idxOf "NLP_STRONG_BRANCHING" ∧ (selNames curv).idxOf "osi-strong" = (selEnum curv).idxOf "OSI_STRONG" := by
  cases curv <;> decide

/-! ## The whole way to Cbc -/

/-- `Algorithm` (BonBonminSetup.hpp:15-23). -/
inductive Alg
  | bb | oa | qg | hyb | ecp | ifp
  deriving DecidableEq, Repr

/-- What the initialisation does to the parameters after they are read: branch-and-bound (BonBonminSetup.cpp:405-415) sets the special options and reads the two of strong branching again;
outer approximation (621, 680, 902-903) subtracts its time and, for the feasibility pump, sets the log level.  (The option `bb_log_level` which is set for B-OA, 664-665, is not read again.) -/
def initialise (r : Reg) (o : Store) (pfx : String) (hasGen : Bool) (a : Alg) (spent : ℚ) (s : Setup) : Option Setup :=
  (gather r o pfx s).map fun s =>
    if a = .bb then
      let q := (Options.bbb r.int (s.own.getD []) pfx hasGen).params
      { s with int := Function.update (Function.update (Function.update s.int .special 16) .trust q.minRel) .strong q.numStrong }
    else
      let s := if a = .ifp then { s with int := Function.update s.int .logLevel 0 } else s
      { s with dbl := Function.update s.dbl .maxTime (s.dbl .maxTime - spent) }

/-- The part of the setup given to Cbc; `none`: a method out of range. -/
def toLaunch (s : Setup) (gens : List Launch.Gen) (heurs : List String) : Option Launch.Setup :=
  (cmpOf s.cmp).bind fun c => (travOf s.trav).map fun t =>
    { gens := gens, heurs := heurs, specOpt := (s.int .special).toNat, maxFailures := s.int .maxFailures, maxInfeasible := s.int .maxInfeasible, failBehavior := s.int .failBehavior,
      cutPasses := s.int .cutPasses, cutPassesRoot := s.int .cutPassesRoot, cutoffDecr := s.dbl .cutoffDecr, cutoff := s.dbl .cutoff, gap := s.dbl .gap, fracGap := s.dbl .fracGap,
      cmp := c, trav := t, strong := s.int .strong, trust := s.int .trust, maxTime := s.dbl .maxTime, maxNodes := s.int .maxNodes, maxIter := s.int .maxIter, maxSols := s.int .maxSols,
      intTol := s.dbl .intTol }

/-- **C116**: what the user sets is what Cbc gets, for every algorithm: limits on nodes, iterations and solutions, gaps, cutoff (raised by 1e-6), cutoff decrement, integer tolerance, cut passes
and the two methods; the time limit too, less the time spent on setting up if an outer approximation is built. -/
theorem options_reach_search (r : Reg) (o : Store) (pfx : String) (hasGen : Bool) (a : Alg) (spent : ℚ) (s s' : Setup) (gens : List Launch.Gen) (heurs : List String) (L : Launch.Setup) (m : Launch.Model)
    (h : initialise r o pfx hasGen a spent s = some s') (hl : toLaunch s' gens heurs = some L) :
    (Launch.configure L m).nodes = val r o pfx "node_limit" ∧ (Launch.configure L m).iters = val r o pfx "iteration_limit" ∧ (Launch.configure L m).sols = val r o pfx "solution_limit" ∧
    (Launch.configure L m).gap = (GivenNum o pfx "allowable_gap").getD (r.num "allowable_gap") ∧
    (Launch.configure L m).fracGap = (GivenNum o pfx "allowable_fraction_gap").getD (r.num "allowable_fraction_gap") ∧
    (Launch.configure L m).cutoff = (GivenNum o pfx "cutoff").getD (r.num "cutoff") + 1 / 10 ^ 6 ∧
    (Launch.configure L m).incr = (GivenNum o pfx "cutoff_decr").getD (r.num "cutoff_decr") ∧
    (Launch.configure L m).intTol = (GivenNum o pfx "integer_tolerance").getD (r.num "integer_tolerance") ∧
    (Launch.configure L m).cutPasses = val r o pfx "num_cut_passes" ∧ (Launch.configure L m).cutPassesRoot = val r o pfx "num_cut_passes_at_root" ∧
    (Launch.configure L m).seconds = (GivenNum o pfx "time_limit").getD (r.num "time_limit") - (if a = .bb then 0 else spent) ∧
    cmpOf (val r o pfx "node_comparison") = some L.cmp ∧ travOf (val r o pfx "tree_search_strategy") = some L.trav := by
  unfold initialise at h
  rw [Option.map_eq_some_iff] at h
  obtain ⟨s1, hg, h⟩ := h
  obtain ⟨h1, -, -, -, h5, h6, h7⟩ := gather_exact r o pfx s s1 hg
  have hn : s'.int .maxNodes = s1.int .maxNodes ∧ s'.int .maxIter = s1.int .maxIter ∧ s'.int .maxSols = s1.int .maxSols ∧ s'.int .cutPasses = s1.int .cutPasses ∧
      s'.int .cutPassesRoot = s1.int .cutPassesRoot ∧ s'.cmp = s1.cmp ∧ s'.trav = s1.trav ∧ (∀ p, p ≠ .maxTime → s'.dbl p = s1.dbl p) ∧
      s'.dbl .maxTime = s1.dbl .maxTime - (if a = .bb then 0 else spent) := by
    by_cases ha : a = .bb
    · rw [if_pos ha] at h; subst h
      simp [Function.update, ha]
    · rw [if_neg ha] at h; subst h
      by_cases hi : a = .ifp
      · refine ⟨?_, ?_, ?_, ?_, ?_, ?_, ?_, ?_, ?_⟩ <;> simp +contextual [Function.update, ha, hi]
      · refine ⟨?_, ?_, ?_, ?_, ?_, ?_, ?_, ?_, ?_⟩ <;> simp +contextual [Function.update, ha, hi]
  obtain ⟨n1, n2, n3, n4, n5, n6, n7, n8, n9⟩ := hn
  unfold toLaunch at hl
  simp only [Option.bind_eq_some_iff, Option.map_eq_some_iff] at hl
  obtain ⟨c, hc, t, ht, rfl⟩ := hl
  have hm : ∀ (L : Launch.Setup), (Launch.configure L m).nodes = L.maxNodes ∧ (Launch.configure L m).iters = L.maxIter ∧ (Launch.configure L m).sols = L.maxSols ∧
      (Launch.configure L m).gap = L.gap ∧ (Launch.configure L m).fracGap = L.fracGap ∧ (Launch.configure L m).cutoff = L.cutoff + 1 / 10 ^ 6 ∧
      (Launch.configure L m).incr = L.cutoffDecr ∧ (Launch.configure L m).intTol = L.intTol ∧ (Launch.configure L m).cutPasses = L.cutPasses ∧
      (Launch.configure L m).cutPassesRoot = L.cutPassesRoot ∧ (Launch.configure L m).seconds = L.maxTime := by
    intro L
    by_cases k1 : L.specOpt = 0 <;> by_cases k2 : L.specOpt = 16 <;> by_cases k3 : L.cmp = .bestGuess <;> cases k4 : L.trav <;> simp [Launch.configure, k1, k2, k3, k4]
  obtain ⟨m1, m2, m3, m4, m5, m6, m7, m8, m9, m10, m11⟩ := hm (_ : Launch.Setup)
  rw [m1, m2, m3, m4, m5, m6, m7, m8, m9, m10, m11]
  refine ⟨?_, ?_, ?_, ?_, ?_, ?_, ?_, ?_, ?_, ?_, ?_, ?_, ?_⟩
  · show s'.int .maxNodes = _; rw [n1]; exact h1 _ _ rfl (by decide) (by decide)
  · show s'.int .maxIter = _; rw [n2]; exact h1 _ _ rfl (by decide) (by decide)
  · show s'.int .maxSols = _; rw [n3]; exact h1 _ _ rfl (by decide) (by decide)
  · show s'.dbl .gap = _; rw [n8 _ (by decide)]; exact h5 .gap
  · show s'.dbl .fracGap = _; rw [n8 _ (by decide)]; exact h5 .fracGap
  · show s'.dbl .cutoff + _ = _; rw [n8 _ (by decide)]; rw [h5 .cutoff]; rfl
  · show s'.dbl .cutoffDecr = _; rw [n8 _ (by decide)]; exact h5 .cutoffDecr
  · show s'.dbl .intTol = _; rw [n8 _ (by decide)]; exact h5 .intTol
  · show s'.int .cutPasses = _; rw [n4]; exact h1 _ _ rfl (by decide) (by decide)
  · show s'.int .cutPassesRoot = _; rw [n5]; exact h1 _ _ rfl (by decide) (by decide)
  · show s'.dbl .maxTime = _; rw [n9, h5 .maxTime]; rfl
  · show _ = some c; rw [← hc, n6, h6]
  · show _ = some t; rw [← ht, n7, h7]

/-- **C116**: log levels and the strategy for failures, for every algorithm: those of the options, except that the iterated feasibility pump is silent; special options are 16 exactly for
branch-and-bound if they were 0. -/
theorem other_parameters (r : Reg) (o : Store) (pfx : String) (hasGen : Bool) (a : Alg) (spent : ℚ) (s s' : Setup) (h : initialise r o pfx hasGen a spent s = some s') :
    s'.int .logLevel = (if a = .ifp then 0 else val r o pfx "bb_log_level") ∧ s'.int .logInterval = val r o pfx "bb_log_interval" ∧
    s'.int .maxFailures = val r o pfx "max_consecutive_failures" ∧ s'.int .maxInfeasible = val r o pfx "max_consecutive_infeasible" ∧
    s'.int .failBehavior = val r o pfx "nlp_failure_behavior" ∧ s'.int .noSos = val r o pfx "sos_constraints" ∧ s'.int .rootLog = val r o pfx "nlp_log_at_root" ∧
    s'.int .special = (if a = .bb then 16 else s.int .special) := by
  unfold initialise at h
  rw [Option.map_eq_some_iff] at h
  obtain ⟨s1, hg, h⟩ := h
  obtain ⟨h1, h2, -⟩ := gather_exact r o pfx s s1 hg
  have e1 := h1 .logLevel _ rfl (by decide) (by decide)
  have e2 := h1 .logInterval _ rfl (by decide) (by decide)
  have e3 := h1 .maxFailures _ rfl (by decide) (by decide)
  have e4 := h1 .maxInfeasible _ rfl (by decide) (by decide)
  have e5 := h1 .failBehavior _ rfl (by decide) (by decide)
  have e6 := h1 .noSos _ rfl (by decide) (by decide)
  have e7 := h1 .rootLog _ rfl (by decide) (by decide)
  by_cases ha : a = .bb
  · rw [if_pos ha] at h; subst h
    simp [Function.update, ha, e1, e2, e3, e4, e5, e6, e7]
  · rw [if_neg ha] at h; subst h
    by_cases hi : a = .ifp
    · simp [Function.update, hi, e2, e3, e4, e5, e6, e7, h2]
    · simp [ha, hi, e1, e2, e3, e4, e5, e6, e7, h2]

/-! ## Defaults -/

/-- Defaults registered for these options (BonBabSetupBase.cpp:415-599, BonCbcNode.cpp:76-92). -/
def reg : Reg :=
  { int := fun t => match t with
      | "bb_log_level" => 1 | "bb_log_interval" => 100 | "nlp_log_at_root" => 0 | "random_generator_seed" => 0 | "node_limit" => 2147483647 | "iteration_limit" => 2147483647
      | "solution_limit" => 2147483647 | "node_comparison" => 0 | "tree_search_strategy" => 2 | "number_strong_branch" => 20 | "number_before_trust" => 8 | "nlp_failure_behavior" => 0
      | "sos_constraints" => 0 | "variable_selection" => 1 | "num_cut_passes" => 1 | "num_cut_passes_at_root" => 20 | "max_consecutive_infeasible" => 0 | "max_consecutive_failures" => 10
      | _ => 0
    num := fun t => match t with
      | "time_limit" => 10 ^ 10 | "integer_tolerance" => 1 / 10 ^ 6 | "allowable_gap" => 0 | "allowable_fraction_gap" => 0 | "cutoff" => 10 ^ 100 | "cutoff_decr" => 1 / 10 ^ 5
      | _ => 0 }

/-- **C116**: with nothing set: the parameters of branch-and-bound and of the other algorithms.  None of the initial values of the arrays that differ from the registered defaults survives. -/
theorem defaults (big : ℚ) (pfx : String) (hasGen : Bool) (a : Alg) :
    ∃ s, initialise reg ⟨[], []⟩ pfx hasGen a 0 (start big []) = some s ∧
      s.int .logLevel = (if a = .ifp then 0 else 1) ∧ s.int .logInterval = 100 ∧ s.int .maxFailures = 10 ∧ s.int .failBehavior = 0 ∧ s.int .maxInfeasible = 0 ∧
      s.int .strong = (if a = .bb then 1000 else 20) ∧ s.int .trust = (if a = .bb then 1 else 8) ∧ s.int .maxNodes = 2147483647 ∧ s.int .maxSols = 2147483647 ∧
      s.int .maxIter = 2147483647 ∧ s.int .special = (if a = .bb then 16 else 0) ∧ s.int .noSos = 0 ∧ s.int .cutPasses = 1 ∧ s.int .cutPassesRoot = 20 ∧ s.int .rootLog = 0 ∧
      s.dbl .cutoffDecr = 1 / 10 ^ 5 ∧ s.dbl .cutoff = 10 ^ 100 ∧ s.dbl .gap = 0 ∧ s.dbl .fracGap = 0 ∧ s.dbl .intTol = 1 / 10 ^ 6 ∧ s.dbl .maxTime = 10 ^ 10 ∧
      cmpOf s.cmp = some .bestBound ∧ travOf s.trav = some .probed ∧ s.seeds = [] := by
  have hv : ∀ t, Options.get reg.int [] pfx t = (false, reg.int t) := by intro t; simp [Options.get, Options.find]
  have hn : ∀ t, getNum reg ⟨[], []⟩ pfx t = reg.num t := by intro t; simp [getNum]
  have hb : (Options.bbb reg.int [] pfx hasGen).params = ⟨1000, 1⟩ := by
    unfold Options.bbb
    simp only
    rw [Options.getOrSet_val, Options.getOrSet_val, Options.getOrSet_given _ _ _ _ _ _ _ (by decide)]
    simp [Options.Given, Options.find]
  have hg : gather reg ⟨[], []⟩ pfx (start big []) = some
      { int := intTable.foldl (fun P e => Function.update P e.2 (reg.int e.1)) startInt, dbl := dblTable.foldl (fun P e => Function.update P e.2 (reg.num e.1)) (startDbl big),
        cmp := 0, trav := 2, own := some [], seeds := [] } := by
    unfold gather
    simp only [hv, hn, start, seedOf]
    simp [reg, Options.mostFractional, Options.reliability]
  unfold initialise
  rw [hg]
  simp only [Option.map_some, Option.some.injEq, exists_eq_left']
  simp only [Option.getD_some, hb]
  cases a <;> simp [Function.update, intTable, dblTable, reg, cmpOf, travOf, startInt]

/-- **C116**: a setup whose options have not been read has the registered defaults except for consecutive failures, the two parameters of strong branching, the cutoff decrement and the
integer tolerance (and the two limits that are infinite); its nodes are compared by bound and its tree is a heap. -/
theorem before_reading (big : ℚ) (h1 : 10 ^ 100 < big) (own : Opts) :
    (∀ p t, optOf p = some t → ((start big own).int p = reg.int t ↔ p ≠ .maxFailures ∧ p ≠ .strong ∧ p ≠ .trust)) ∧
    (start big own).int .maxFailures = 2 ∧ (start big own).int .strong = 5 ∧ (start big own).int .trust = 2 ∧ (start big own).int .special = 0 ∧
    (∀ p, (start big own).dbl p = reg.num (numOptOf p) ↔ p = .gap ∨ p = .fracGap) ∧
    (start big own).dbl .cutoffDecr = 0 ∧ (start big own).dbl .intTol = 1 / 10 ^ 9 ∧ (start big own).dbl .cutoff = big ∧ (start big own).dbl .maxTime = big ∧
    cmpOf (start big own).cmp = some .bestBound ∧ travOf (start big own).trav = some .heapOnly ∧ (start big own).own = some own ∧ (start big own).seeds = [] := by
  refine ⟨?_, rfl, rfl, rfl, rfl, ?_, rfl, rfl, rfl, rfl, rfl, rfl, rfl, rfl⟩
  · intro p t h
    cases p <;> simp [optOf] at h <;> subst h <;> simp [start, startInt, reg]
  · intro p
    have h2 : (10 : ℚ) ^ 10 < big := lt_trans (by norm_num) h1
    have e1 := ne_of_gt h1
    have e2 := ne_of_gt h2
    cases p <;> simp only [start, startDbl, reg, numOptOf, reduceCtorEq, or_false, false_or, iff_false, true_or, or_true] <;>
      first | exact e1 | exact e2 | norm_num

/-! ## Where the documentation and the code differ -/

/-- **C116** refuted for B-OA: this algorithm sets the option `bb_log_level` to 0 (BonBonminSetup.cpp:664-665), but the parameters were read before: the search prints as if it had not. -/
theorem oa_log_level_not_used (r : Reg) (o : Store) (pfx : String) (hasGen : Bool) (spent : ℚ) (s s' : Setup) (h : initialise r o pfx hasGen .oa spent s = some s') :
    s'.int .logLevel = val r o pfx "bb_log_level" := by
  have := (other_parameters r o pfx hasGen .oa spent s s' h).1
  simpa using this

/-- **C116** refuted: "value 0 deactivates option" is said of `iteration_limit` and `solution_limit` (BonBabSetupBase.cpp:466-476), but a 0 is given to Cbc as a limit of 0, not as the value
2147483647 that stands for no limit. -/
theorem zero_is_a_limit (r : Reg) (o : Store) (pfx : String) (hasGen : Bool) (a : Alg) (spent : ℚ) (s s' : Setup) (gens : List Launch.Gen) (heurs : List String) (L : Launch.Setup) (m : Launch.Model)
    (h : initialise r o pfx hasGen a spent s = some s') (hl : toLaunch s' gens heurs = some L) (h0 : Given o.ints pfx "iteration_limit" = some 0) (h1 : Given o.ints pfx "solution_limit" = some 0) :
    (Launch.configure L m).iters = 0 ∧ (Launch.configure L m).sols = 0 := by
  obtain ⟨-, e1, e2, -⟩ := options_reach_search r o pfx hasGen a spent s s' gens heurs L m h hl
  rw [e1, e2]
  simp [val, h0, h1]

/-- **C116** refuted for a list that is not the setup's own: the presets for the variable selection are not written to the list passed, and without a list of its own the setup crashes. -/
theorem passed_list_not_written : (gather reg ⟨[⟨("bonmin.", "variable_selection"), 0, true⟩], []⟩ "bonmin." { start 1 [] with own := none }).isNone = true ∧
    ((gather reg ⟨[⟨("bonmin.", "variable_selection"), 0, true⟩], []⟩ "bonmin." (start 1 [])).bind Setup.own).map (List.map Entry.key) =
      some [("bonmin.", "number_before_trust"), ("bonmin.", "number_strong_branch")] := by
  constructor <;> decide +kernel

/-- Options set with and without prefix: the first wins. -/
def exStore : Store := ⟨[⟨("bonmin.", "node_limit"), 500, true⟩, ⟨("", "node_limit"), 7, true⟩, ⟨("", "node_comparison"), 1, true⟩, ⟨("", "solution_limit"), 0, true⟩,
  ⟨("bonmin.", "random_generator_seed"), -1, true⟩], [(("", "cutoff"), 12), (("bonmin.", "time_limit"), 60)]⟩
example : ((initialise reg exStore "bonmin." false .hyb 2 (start 0 [])).map fun s => (s.int .maxNodes, s.int .maxSols, s.dbl .cutoff, s.dbl .maxTime)) = some (500, 0, 12, 58) := by
  decide +kernel
example : ((initialise reg exStore "bonmin." false .hyb 2 (start 0 [])).map fun s => (cmpOf s.cmp, s.seeds)) = some (some .dfs, [.clock]) := by decide +kernel

end Verif.Bab.Params

import Verif.Bab.Final
import Mathlib.Algebra.Order.Field.Rat
import Mathlib.Tactic.NormNum
/-! # C107: what the search is given; C108: interruptions, errors and the time limit; C109: branching objects for outer approximation

src/CbcBonmin/BonCbc.cpp: signal handler 33-64, constructor and destructor 69-94, `branchAndBound` 105-182 (without the auxiliary information, see C95), 309-391, 393-433,
441-458, 491, 522-538, 593-595; the end of the function is `Verif.Bab.finish`; src/Algorithms/BonBabSetupBase.hpp: `CuttingMethod` 29-51, `NodeComparison` 69-76,
`TreeTraversal` 79-85.

Simplifications: Cbc is an oracle; times are exact; log levels and printing are left out; `enable_dynamic_nlp` is off (460-489); a signal comes at most once in a phase. -/
namespace Verif.Bab.Launch

/-- `BabSetupBase::NodeComparison` (BonBabSetupBase.hpp:69-76). -/
inductive Cmp
  | bestBound | dfs | bfs | dynamic | bestGuess
  deriving DecidableEq, Repr

/-- `BabSetupBase::TreeTraversal` (BonBabSetupBase.hpp:79-85). -/
inductive Trav
  | heapOnly | dive | probed | dfsDive | dfsDynamic
  deriving DecidableEq, Repr

/-- Node comparisons of Cbc; `diver` is `DiverCompare` with its comparison when diving, the one for the bound being `CbcCompareObjective`. -/
inductive Comp
  | objective | depth | default (w : Option ℚ) | estimate | diver (c : Comp)
  deriving DecidableEq, Repr

/-- Trees of Cbc. -/
inductive Tree
  | plain | diver | probed | dfs
  deriving DecidableEq, Repr

/-- `CuttingMethod` (BonBabSetupBase.hpp:29-51). -/
structure Gen where
  id : String
  frequency : ℤ
  normal : Bool
  atSolution : Bool
  always : Bool
  deriving DecidableEq, Repr

/-- The setup: parameters read by `branchAndBound`. -/
structure Setup where
  gens : List Gen
  heurs : List String
  specOpt : ℕ
  maxFailures : ℤ
  maxInfeasible : ℤ
  failBehavior : ℤ
  cutPasses : ℤ
  cutPassesRoot : ℤ
  cutoffDecr : ℚ
  cutoff : ℚ
  gap : ℚ
  fracGap : ℚ
  cmp : Cmp
  trav : Trav
  strong : ℤ
  trust : ℤ
  maxTime : ℚ
  maxNodes : ℤ
  maxIter : ℤ
  maxSols : ℤ
  intTol : ℚ
  deriving DecidableEq, Repr

/-- The settings of the `CbcModel`. -/
structure Model where
  gens : List Gen
  heurs : List String
  special : ℕ
  strategy : Option (ℤ × ℤ × ℤ)
  cutPasses : ℤ
  cutPassesRoot : ℤ
  incr : ℚ
  cutoff : ℚ
  gap : ℚ
  fracGap : ℚ
  comp : Comp
  tree : Tree
  strong : ℤ
  trust : ℤ
  penalties : ℤ
  seconds : ℚ
  nodes : ℤ
  iters : ℤ
  sols : ℤ
  intTol : ℚ
  deriving DecidableEq, Repr

/-- Node comparison (BonCbc.cpp:318-343). -/
def baseComp : Cmp → Comp
  | .bestBound => .objective
  | .dfs => .depth
  | .bfs => .default (some 0)
  | .dynamic => .default none
  | .bestGuess => .estimate

/-- Lines 134-178 and 309-391 of BonCbc.cpp. -/
def configure (s : Setup) (m : Model) : Model :=
  let m := if s.specOpt ≠ 0 then { m with special := s.specOpt } else m
  let m := if s.specOpt = 16 then { m with strategy := some (s.maxFailures, s.maxInfeasible, s.failBehavior) } else m
  let m := { m with cutPasses := s.cutPasses, cutPassesRoot := s.cutPassesRoot }
  let m := { m with gens := m.gens ++ s.gens, heurs := m.heurs ++ s.heurs }
  let m := { m with incr := s.cutoffDecr, cutoff := s.cutoff + 1 / 10 ^ 6, gap := s.gap, fracGap := s.fracGap, comp := baseComp s.cmp }
  let m := if s.cmp = .bestGuess then { m with heurs := m.heurs ++ ["guess"] } else m
  let m := match s.trav with
    | .heapOnly => m
    | .dive => { m with tree := .diver }
    | .probed => { m with tree := .probed }
    | .dfsDive => { m with tree := .dfs }
    | .dfsDynamic => { m with tree := .dfs, comp := .diver m.comp }
  { m with strong := s.strong, trust := s.trust, penalties := 8, seconds := s.maxTime, nodes := s.maxNodes, iters := s.maxIter, sols := s.maxSols, intTol := s.intTol }

/-! ## Specification of the settings -/

/-- Tree and comparison a traversal asks for. -/
def treeOf : Trav → Tree
  | .heapOnly => .plain
  | .dive => .diver
  | .probed => .probed
  | .dfsDive | .dfsDynamic => .dfs

/-- The generators, heuristics, limits and tolerances of a model are those of a setup. -/
structure Matches (s : Setup) (m : Model) : Prop where
  gens : m.gens = s.gens
  heurs : m.heurs = s.heurs ++ (if s.cmp = .bestGuess then ["guess"] else [])
  special : m.special = s.specOpt
  strategy : m.strategy = if s.specOpt = 16 then some (s.maxFailures, s.maxInfeasible, s.failBehavior) else none
  passes : m.cutPasses = s.cutPasses ∧ m.cutPassesRoot = s.cutPassesRoot
  cutoff : s.cutoff < m.cutoff ∧ m.cutoff = s.cutoff + 1 / 10 ^ 6 ∧ m.incr = s.cutoffDecr
  gaps : m.gap = s.gap ∧ m.fracGap = s.fracGap
  tree : m.tree = treeOf s.trav
  comp : m.comp = (if s.trav = .dfsDynamic then .diver (baseComp s.cmp) else baseComp s.cmp)
  limits : m.seconds = s.maxTime ∧ m.nodes = s.maxNodes ∧ m.iters = s.maxIter ∧ m.sols = s.maxSols
  branching : m.strong = s.strong ∧ m.trust = s.trust ∧ m.penalties = 8 ∧ m.intTol = s.intTol

/-- A model nothing has been added to. -/
structure IsNew (m : Model) : Prop where
  gens : m.gens = []
  heurs : m.heurs = []
  special : m.special = 0
  strategy : m.strategy = none
  tree : m.tree = .plain

/-- The settings a model gets, for any model. -/
theorem configure_exact (s : Setup) (m : Model) :
    (configure s m).gens = m.gens ++ s.gens ∧ (configure s m).heurs = m.heurs ++ s.heurs ++ (if s.cmp = .bestGuess then ["guess"] else []) ∧
    (configure s m).special = (if s.specOpt = 0 then m.special else s.specOpt) ∧
    (configure s m).strategy = (if s.specOpt = 16 then some (s.maxFailures, s.maxInfeasible, s.failBehavior) else m.strategy) ∧
    (configure s m).tree = (if s.trav = .heapOnly then m.tree else treeOf s.trav) := by
  by_cases h1 : s.specOpt = 0 <;> by_cases h2 : s.specOpt = 16 <;> by_cases h3 : s.cmp = .bestGuess <;> cases h4 : s.trav <;>
    simp [configure, h1, h2, h3, h4, treeOf]

/-- A new model gets exactly what the setup says. -/
theorem new_matches_partial (s : Setup) (m : Model) (hm : IsNew m) : Matches s (configure s m) := by
  obtain ⟨a, b, c, d, e⟩ := configure_exact s m
  obtain ⟨m1, m2, m3, m4, m5⟩ := hm
  refine ⟨by rw [a, m1]; simp, by rw [b, m2]; simp, by rw [c, m3]; split <;> simp_all, by rw [d, m4], ?_, ?_, ?_, ?_, ?_, ?_, ?_⟩
  · by_cases h1 : s.specOpt = 0 <;> by_cases h2 : s.specOpt = 16 <;> by_cases h3 : s.cmp = .bestGuess <;> cases h4 : s.trav <;> simp [configure, h1, h2, h3, h4]
  · have : (configure s m).cutoff = s.cutoff + 1 / 10 ^ 6 ∧ (configure s m).incr = s.cutoffDecr := by
      by_cases h1 : s.specOpt = 0 <;> by_cases h2 : s.specOpt = 16 <;> by_cases h3 : s.cmp = .bestGuess <;> cases h4 : s.trav <;> simp [configure, h1, h2, h3, h4]
    refine ⟨?_, this⟩
    rw [this.1]
    exact lt_add_of_pos_right _ (by norm_num)
  · by_cases h1 : s.specOpt = 0 <;> by_cases h2 : s.specOpt = 16 <;> by_cases h3 : s.cmp = .bestGuess <;> cases h4 : s.trav <;> simp [configure, h1, h2, h3, h4]
  · rw [e, m5]; split <;> simp_all [treeOf]
  · by_cases h1 : s.specOpt = 0 <;> by_cases h2 : s.specOpt = 16 <;> by_cases h3 : s.cmp = .bestGuess <;> cases h4 : s.trav <;> simp [configure, h1, h2, h3, h4]
  · by_cases h1 : s.specOpt = 0 <;> by_cases h2 : s.specOpt = 16 <;> by_cases h3 : s.cmp = .bestGuess <;> cases h4 : s.trav <;> simp [configure, h1, h2, h3, h4]
  · by_cases h1 : s.specOpt = 0 <;> by_cases h2 : s.specOpt = 16 <;> by_cases h3 : s.cmp = .bestGuess <;> cases h4 : s.trav <;> simp [configure, h1, h2, h3, h4]

/-- A model used again matches exactly if nothing of the run before shows: no generators or heuristics then, and special options, strategy and tree are set again or
were not set. -/
theorem reused_matches_iff (s : Setup) (m : Model) : Matches s (configure s m) ↔ m.gens = [] ∧ m.heurs = [] ∧ (s.specOpt = 0 → m.special = 0) ∧
    (s.specOpt ≠ 16 → m.strategy = none) ∧ (s.trav = .heapOnly → m.tree = .plain) := by
  obtain ⟨a, b, c, d, e⟩ := configure_exact s m
  constructor
  · intro h
    have h1 := h.gens
    have h2 := h.heurs
    have h3 := h.special
    have h4 := h.strategy
    have h5 := h.tree
    rw [a] at h1
    rw [b] at h2
    rw [c] at h3
    rw [d] at h4
    rw [e] at h5
    refine ⟨by simpa using h1, by simpa using h2, fun hs => by simpa [hs] using h3, fun hs => by simpa [hs] using h4, fun hs => by simpa [hs, treeOf] using h5⟩
  · intro ⟨h1, h2, h3, h4, h5⟩
    have key : configure s m = configure s { m with special := 0, strategy := none, tree := .plain } := by
      by_cases k1 : s.specOpt = 0 <;> by_cases k2 : s.specOpt = 16 <;> by_cases k4 : s.trav = .heapOnly
      all_goals
        first
        | (exfalso; rw [k1] at k2; exact absurd k2 (by decide))
        | (rcases m with ⟨x1, x2, x3, x4, x5, x6, x7, x8, x9, x10, x11, x12, x13, x14, x15, x16, x17, x18, x19, x20⟩
           simp only at h3 h4 h5
           try have := h3 k1
           try have := h4 k2
           try have := h5 k4
           subst_vars
           by_cases k3 : s.cmp = .bestGuess <;> cases k5 : s.trav <;> simp_all [configure])
    rw [key]
    exact new_matches_partial s _ ⟨h1, h2, rfl, rfl, rfl⟩

/-- A second run with the same `Bab` has the generators of both runs. -/
theorem generators_twice (s : Setup) (m : Model) : (configure s (configure s m)).gens = m.gens ++ s.gens ++ s.gens := by
  rw [(configure_exact s (configure s m)).1, (configure_exact s m).1]

/-- A run with `top-node` after one with diving still dives. -/
theorem still_dives (s s' : Setup) (m : Model) (h : s.trav = .dive) (h' : s'.trav = .heapOnly) : (configure s' (configure s m)).tree = .diver := by
  rw [(configure_exact s' _).2.2.2.2, h', if_pos rfl, (configure_exact s m).2.2.2.2, h]
  rfl

def exSetup : Setup := ⟨[⟨"OA", 1, true, false, true⟩], ["dive"], 16, 1, 2, 0, 3, 4, 0, 100, 1, 2, .bestGuess, .dfsDynamic, 20, 8, 60, 1000, 2000, 5, 1 / 10⟩
def exModel : Model := ⟨[], [], 0, none, 0, 0, 0, 0, 0, 0, .default none, .plain, 0, 0, 0, 0, 0, 0, 0, 0⟩
example : IsNew exModel := ⟨rfl, rfl, rfl, rfl, rfl⟩
example : (configure exSetup exModel).comp = .diver .estimate ∧ (configure exSetup exModel).heurs = ["dive", "guess"] := by decide +kernel
example : ¬ Matches exSetup (configure exSetup (configure exSetup exModel)) := fun h => absurd h.gens (by decide +kernel)

/-! ## Interruptions, errors, time limit -/

/-- `BonminInteruptedOnce`, `BonminAbortAll` (BonCbc.cpp:37, 46) and whether `currentBranchModel` points to a model that is still there. -/
structure Glob where
  once : Bool
  abort : Bool
  current : Option Bool
  deriving DecidableEq, Repr

/-- Result of a signal (BonCbc.cpp:47-62): `none` = the handler uses a model that is gone; `some none` = `exit(0)`. -/
def signal (g : Glob) : Option (Option Glob) :=
  if g.once then some none
  else match g.current with
    | some false => none
    | _ => some (some { g with once := true, abort := true })

/-- How the solves go: time at the start and before the search, signal in the first solve, `UnsolvedError` thrown there, its value, result of the search, signal
or error there, and what the model answers if there is no search. -/
structure Script (σ : Type) where
  t0 : ℚ
  t1 : ℚ
  sig0 : Bool
  err0 : Bool
  relax : ℚ
  search : Run σ
  sig1 : Bool
  err1 : Bool
  idle : Run σ

/-- End of a run: normal with status for the user, exception (the user is told `MINLP_ERROR`), process ended, or undefined. -/
inductive End (σ : Type)
  | ok (k : Keeper σ) (r : Ret)
  | thrown (k : Keeper σ)
  | exited
  | undef

/-- A signal if `b`. -/
def sigIf (b : Bool) (g : Glob) : Option (Option Glob) := if b then signal g else some (some g)

/-- `branchAndBound` from line 441 (BonCbc.cpp:441-458, 491, 522-538, 593-689): global state after it, end, and the time given to the search if there was one. -/
def launch {σ : Type} (dm : ℚ) (maxTime : ℚ) (p : Script σ) (g : Glob) (k : Keeper σ) : Glob × End σ × Option ℚ :=
  let g := { g with current := some true }
  match sigIf p.sig0 g with
  | none => (g, .undef, none)
  | some none => (g, .exited, none)
  | some (some g) =>
    if p.err0 then (g, .thrown k, none)
    else if g.once then
      -- `remaining_time` is still the sum of line 108
      let e := finish dm k { p.idle with aborted := g.abort, remaining := decide (0 < maxTime + p.t0) }
      (g, .ok e.1 e.2, none)
    else
      let rem := maxTime + p.t0 - p.t1
      if 0 < rem then
        match sigIf p.sig1 g with
        | none => (g, .undef, some rem)
        | some none => (g, .exited, some rem)
        | some (some g) =>
          if p.err1 then (g, .thrown k, some rem)
          else
            let e := finish dm k { p.search with aborted := g.abort, remaining := true }
            (g, .ok e.1 e.2, some rem)
      else
        let e := finish dm k { p.idle with aborted := g.abort, remaining := false }
        (g, .ok e.1 e.2, none)

/-- No signal has come in this process. -/
def Glob.calm (g : Glob) : Prop := g.once = false ∧ g.abort = false

/-- In a process without signals and errors, the search gets exactly the time that is left, and is made exactly if some is left; then its result is reported,
otherwise the limit. -/
theorem time_partial {σ : Type} (dm T : ℚ) (p : Script σ) (g : Glob) (k : Keeper σ) (hg : g.calm) (h0 : p.sig0 = false) (h1 : p.sig1 = false) (e0 : p.err0 = false)
    (e1 : p.err1 = false) :
    (launch dm T p g k).2.2 = (if p.t1 - p.t0 < T then some (T - (p.t1 - p.t0)) else none) ∧
    (p.t1 - p.t0 < T → (launch dm T p g k).2.1 = .ok (finish dm k { p.search with aborted := false, remaining := true }).1
      (finish dm k { p.search with aborted := false, remaining := true }).2) ∧
    (T ≤ p.t1 - p.t0 → ∃ k' r, (launch dm T p g k).2.1 = .ok k' r ∧ (p.idle.objects ≠ 0 → r = .limitExceeded)) := by
  have hc : (p.t1 - p.t0 < T) ↔ 0 < T + p.t0 - p.t1 := by
    rw [sub_pos, sub_lt_iff_lt_add]
  have hv : T - (p.t1 - p.t0) = T + p.t0 - p.t1 := by rw [sub_sub_eq_add_sub]
  have hl : launch dm T p g k = if 0 < T + p.t0 - p.t1 then
      ({ g with current := some true }, .ok (finish dm k { p.search with aborted := false, remaining := true }).1
        (finish dm k { p.search with aborted := false, remaining := true }).2, some (T + p.t0 - p.t1))
      else ({ g with current := some true }, .ok (finish dm k { p.idle with aborted := false, remaining := false }).1
        (finish dm k { p.idle with aborted := false, remaining := false }).2, none) := by
    simp [launch, sigIf, h0, h1, e0, e1, hg.1, hg.2]
  rw [hl]
  by_cases h : p.t1 - p.t0 < T
  · have h' := hc.mp h
    simp only [h, if_true, h', hv]
    refine ⟨trivial, fun _ => trivial, fun hn => absurd h (not_lt.mpr hn)⟩
  · have h' : ¬ 0 < T + p.t0 - p.t1 := fun hx => h (hc.mpr hx)
    simp only [h, if_false, h']
    refine ⟨trivial, fun hn => hn.elim, fun _ => ⟨_, _, rfl, fun ho => ?_⟩⟩
    simp [finish, ho, verdict]

/-- The answer is normal exactly if there is no error where it counts and no second signal. -/
theorem ends_ok_iff {σ : Type} (dm T : ℚ) (p : Script σ) (g : Glob) (k : Keeper σ) :
    (∃ k' r, (launch dm T p g k).2.1 = .ok k' r) ↔ ¬ (p.sig0 = true ∧ g.once = true) ∧ p.err0 = false ∧
      ((g.once = true ∨ p.sig0 = true) ∨ ¬ 0 < T + p.t0 - p.t1 ∨ p.err1 = false) := by
  rcases g with ⟨o, a, c⟩
  rcases p with ⟨t0, t1, s0, f0, rl, se, s1, f1, id⟩
  by_cases ht : 0 < T + t0 - t1 <;> cases o <;> cases s0 <;> cases f0 <;> cases s1 <;> cases f1 <;> simp [launch, sigIf, signal, ht]

/-- After a signal every later run of the process ends without a search: a new `Bab` reports an interruption, and `FeasibleOptimal` without any solution. -/
theorem later_runs_lost {σ : Type} (dm T : ℚ) (p : Script σ) (g : Glob) (hg : g.once = true ∧ g.abort = true) (h0 : p.sig0 = false) (e0 : p.err0 = false)
    (hT : 0 < T + p.t0) (hi : p.idle.status = -1 ∧ p.idle.objects ≠ 0 ∧ p.idle.best2 = none ∧ p.idle.modelBest = none) :
    ∃ k', (launch dm T p g (Keeper.new σ)).2.1 = .ok k' .userInterrupt ∧ k'.best = none ∧ k'.mip = .feasibleOptimal ∧ (launch dm T p g (Keeper.new σ)).2.2 = none ∧
      (launch dm T p g (Keeper.new σ)).1.once = true := by
  obtain ⟨i1, i2, i3, i4⟩ := hi
  refine ⟨(finish dm (Keeper.new σ) { p.idle with aborted := true, remaining := true }).1, ?_, ?_, ?_, ?_, ?_⟩
  · simp [launch, sigIf, h0, e0, hg.1, hg.2, hT, finish, i2, verdict, i1, Run.ret0]
  · simp [finish, i2, keepBest, i3, i4, Keeper.new]
  · simp [finish, i2, keepBest, i3, i4, Keeper.new, verdict, i1]
  · simp [launch, sigIf, h0, e0, hg.1]
  · simp [launch, sigIf, h0, e0, hg.1]

/-- An error leaves status and solution of the `Bab` as they were: of a new one, `FeasibleOptimal`. -/
theorem error_leaves_optimal {σ : Type} (dm T : ℚ) (p : Script σ) (g : Glob) (h0 : p.sig0 = false) (e0 : p.err0 = true) :
    (launch dm T p g (Keeper.new σ)).2.1 = .thrown (Keeper.new σ) ∧ (Keeper.new σ).mip = .feasibleOptimal ∧ (Keeper.new σ).best = none := by
  simp [launch, sigIf, h0, e0, Keeper.new]

/-- The pointer to the model stays after the end of the run, so once the `Bab` is gone the first signal uses a model that does not exist. -/
theorem signal_after_end (g : Glob) (h : g.once = false) : signal { g with current := some false } = none := by simp [signal, h]

/-- A signal is handled exactly if it is the first and there is no model that is gone; the second one ends the process. -/
theorem signal_iff (g : Glob) : (signal g = none ↔ g.once = false ∧ g.current = some false) ∧ (signal g = some none ↔ g.once = true) := by
  rcases g with ⟨o, a, c⟩
  cases o <;> rcases c with _ | c <;> (try cases c) <;> simp [signal]

def exRun : Run (List ℚ) := ⟨false, 1, false, false, false, [], 0, none, some [1], 5, 5, true, 0, false⟩
def exIdle : Run (List ℚ) := ⟨false, 1, false, false, false, [], 0, none, none, 10 ^ 50, -(10 ^ 50), true, -1, false⟩
example : (launch 1000 60 ⟨5, 15, false, false, 3, exRun, false, false, exIdle⟩ ⟨false, false, none⟩ (Keeper.new (List ℚ))).2.2 = some 50 := by
  norm_num [launch, sigIf]
example : (launch 1000 60 ⟨5, 70, false, false, 3, exRun, false, false, exIdle⟩ ⟨false, false, none⟩ (Keeper.new (List ℚ))).2.2 = none := by
  norm_num [launch, sigIf]
example : Glob.calm ⟨false, false, none⟩ := ⟨rfl, rfl⟩
example : exIdle.status = -1 ∧ exIdle.objects ≠ 0 ∧ exIdle.best2 = none ∧ exIdle.modelBest = none := by decide

/-! ## Objects for outer approximation -/

/-- Kinds of branching objects: `CbcSimpleInteger`, `CbcSOS`, another `CbcObject`, or an `OsiObject`. -/
inductive Kind
  | simple | sos | cbc | osi
  deriving DecidableEq, Repr

/-- Entry of `objects_`: an object made from the one with this number, or not set. -/
inductive Slot
  | made (i : ℕ)
  | unset
  deriving DecidableEq, Repr

/-- Loop of BonCbc.cpp:405-425: entries so far and whether it throws. -/
def convert : ℕ → List Kind → List Slot × Bool
  | _, [] => ([], false)
  | _, .cbc :: ks => (List.replicate (ks.length + 1) .unset, true)
  | i, _ :: ks => (.made i :: (convert (i + 1) ks).1, (convert (i + 1) ks).2)

/-- `delete` of all entries (BonCbc.cpp:89-92, 398-402): `none` = one is not set. -/
def deleteAll (l : List Slot) : Option Unit := if l.any (· = .unset) then none else some ()

/-- BonCbc.cpp:393-433: `objects_` after it and whether it throws; `none` = undefined when the old ones are deleted. -/
def passObjects (specOpt : ℕ) (ks : List Kind) (old : List Slot) : Option (List Slot × Bool) :=
  if specOpt ≠ 16 ∧ ks ≠ [] then (deleteAll old).map fun _ => convert 0 ks else some (old, false)

theorem convert_spec (ks : List Kind) : ∀ i, (convert i ks).1.length = ks.length ∧ ((convert i ks).2 = true ↔ .cbc ∈ ks) ∧
    (.cbc ∉ ks → (convert i ks).1 = (List.range' i ks.length).map .made) := by
  induction ks with
  | nil => intro i; simp [convert]
  | cons k ks ih =>
    intro i
    obtain ⟨a, b, c⟩ := ih (i + 1)
    cases k
    case cbc => simp [convert]
    all_goals
      refine ⟨by simp [convert, a], by simp [convert, b], fun h => ?_⟩
      simp [convert, c (fun hm => h (List.mem_cons_of_mem _ hm)), List.range'_succ]

/-- Without unsupported objects, outer approximation gets one object for each of the model, in their order, and they can be deleted. -/
theorem objects_partial (sp : ℕ) (ks : List Kind) (old : List Slot) (ho : Slot.unset ∉ old) (hk : Kind.cbc ∉ ks) (hn : ks ≠ []) (hs : sp ≠ 16) :
    passObjects sp ks old = some ((List.range ks.length).map .made, false) ∧ deleteAll ((List.range ks.length).map .made) = some () := by
  have hd : deleteAll old = some () := by
    simp only [deleteAll]
    rw [if_neg]
    simpa using ho
  obtain ⟨_, b, c⟩ := convert_spec ks 0
  refine ⟨?_, ?_⟩
  · simp only [passObjects]
    rw [if_pos ⟨hs, hn⟩, hd, Option.map_some, List.range_eq_range', ← c hk]
    have : (convert 0 ks).2 = false := by
      cases h : (convert 0 ks).2
      · rfl
      · exact absurd (b.mp h) hk
    rw [← this]
  · simp [deleteAll]

/-- It throws exactly if there is an unsupported object. -/
theorem objects_throw_iff (sp : ℕ) (ks : List Kind) (old : List Slot) (ho : Slot.unset ∉ old) (hs : sp ≠ 16) :
    (∃ l, passObjects sp ks old = some (l, true)) ↔ Kind.cbc ∈ ks := by
  have hd : deleteAll old = some () := by
    simp only [deleteAll]
    rw [if_neg]
    simpa using ho
  by_cases hn : ks = []
  · simp [passObjects, hn]
  · simp only [passObjects]
    rw [if_pos ⟨hs, hn⟩, hd, Option.map_some, ← (convert_spec ks 0).2.1]
    constructor
    · rintro ⟨l, h⟩
      simp only [Option.some.injEq] at h
      rw [h]
    · intro h
      exact ⟨(convert 0 ks).1, by rw [← h]⟩

/-- After the exception the array has entries never set, so destruction of the `Bab` (or another run) is undefined. -/
theorem exception_then_undefined (ks : List Kind) (h : Kind.cbc ∈ ks) : ∀ i, deleteAll (convert i ks).1 = none := by
  have : ∀ i, Slot.unset ∈ (convert i ks).1 := by
    induction ks with
    | nil => simp at h
    | cons k ks ih =>
      intro i
      cases k
      case cbc => simp [convert, List.replicate_succ]
      all_goals
        simp only [convert, List.mem_cons, reduceCtorEq, false_or]
        exact ih (by simpa using h) (i + 1)
  intro i
  simp only [deleteAll]
  rw [if_pos]
  simp only [List.any_eq_true, decide_eq_true_eq]
  exact ⟨_, this i, rfl⟩

example : passObjects 1 [.simple, .sos, .osi] [] = some ([.made 0, .made 1, .made 2], false) := by decide
example : passObjects 1 [.simple, .cbc, .osi] [] = some ([.made 0, .unset, .unset], true) := by decide

/-- C107: the node comparison of a model launched, by the option. -/
theorem comparison_exact (s : Setup) (m : Model) (hd : s.trav ≠ .dfsDynamic) :
    (s.cmp = .bestBound → (configure s m).comp = .objective) ∧ (s.cmp = .dfs → (configure s m).comp = .depth) ∧ (s.cmp = .bfs → (configure s m).comp = .default (some 0)) ∧
    (s.cmp = .dynamic → (configure s m).comp = .default none) ∧ (s.cmp = .bestGuess → (configure s m).comp = .estimate) := by
  refine ⟨?_, ?_, ?_, ?_, ?_⟩ <;> intro h <;> cases ht : s.trav <;> first | exact absurd ht hd | (simp [configure, h, ht, baseComp])

/-- A signal in the search (the first one of the process) makes exactly this difference: the run is reported as aborted and later signals end the process. -/
theorem search_signal {σ : Type} (dm T : ℚ) (p : Script σ) (g : Glob) (k : Keeper σ) (ho : g.once = false) (h0 : p.sig0 = false) (e0 : p.err0 = false)
    (ht : p.t1 - p.t0 < T) :
    launch dm T p g k = (⟨p.sig1, g.abort || p.sig1, some true⟩,
      if p.err1 then .thrown k else
        .ok (finish dm k { p.search with aborted := g.abort || p.sig1, remaining := true }).1
          (finish dm k { p.search with aborted := g.abort || p.sig1, remaining := true }).2, some (T - (p.t1 - p.t0))) := by
  have hc : 0 < T + p.t0 - p.t1 := by rw [sub_pos]; exact sub_lt_iff_lt_add.mp ht
  have hv : T - (p.t1 - p.t0) = T + p.t0 - p.t1 := by rw [sub_sub_eq_add_sub]
  rcases g with ⟨o, a, c⟩
  simp only at ho
  subst ho
  cases h1 : p.sig1 <;> cases e1 : p.err1 <;> simp [launch, sigIf, signal, h0, e0, h1, e1, hc, hv]
example : (launch 1000 60 ⟨5, 15, false, false, 3, exRun, true, false, exIdle⟩ ⟨false, false, none⟩ (Keeper.new (List ℚ))).1 = ⟨true, true, some true⟩ := by
  norm_num [launch, sigIf, signal]

end Verif.Bab.Launch

import Verif.Bab.Options
import Verif.Fp.Model
/-! # C113/C114: options of the local searches of heuristics, and the heuristics that start from the root

src/CbcBonmin/Heuristics/BonLocalSolverBasedHeuristic.cpp, BonPumpForMinlp.cpp, BonDummyPump.cpp; reading of limits: src/Algorithms/BonBabSetupBase.cpp:349-373
with the prefix of the local search (180-214).
Options list of Ipopt as in `Verif.Bab.Options`. Simplification: all values are integers. -/
namespace Verif.Heur.LocalSearch
open Verif.Bab.Options

/-! ## Model -/

/-- `changeIfNotSet` (BonLocalSolverBasedHeuristic.cpp:49-78); the value entered may be overwritten later. -/
def changeIfNotSet (d : String → ℤ) (o : Opts) (pfx tag : String) (v : ℤ) : Opts :=
  if (get d o pfx tag).1 then o else set o (pfx, tag) v true

/-- Indices of values of the options `algorithm` (BonBonminSetup.hpp:15-23). -/
def algBB : ℤ := 0
def algQG : ℤ := 2
def algIFP : ℤ := 5

/-- `LocalSolverBasedHeuristic::setupDefaults` (81-88). -/
def localDefaults (d : String → ℤ) (o : Opts) : Opts :=
  let o := changeIfNotSet d o "local_solver." "algorithm" algQG
  let o := changeIfNotSet d o "local_solver." "variable_selection" mostFractional
  let o := changeIfNotSet d o "local_solver." "time_limit" 60
  let o := changeIfNotSet d o "local_solver." "node_limit" 1000
  changeIfNotSet d o "local_solver." "solution_limit" 5

/-- `PumpForMinlp::setupDefaults` (BonPumpForMinlp.cpp:53-58). -/
def pumpDefaults (d : String → ℤ) (o : Opts) : Opts :=
  let o := changeIfNotSet d o "pump_for_minlp." "algorithm" algIFP
  changeIfNotSet d o "pump_for_minlp." "time_limit" 30

/-- Ways to get such a heuristic: constructor with setup of RINS and the like, of the pump (BonPumpForMinlp.cpp:20-23: the constructor of the base class uses the defaults of the
base class, virtual or not), or a default constructed pump with `setSetup` (BonLocalSolverBasedHeuristic.hpp:45-48: the virtual function is that of the pump). -/
inductive Make
  | plain | pump | pumpLate
  deriving DecidableEq

/-- Options of the setup after construction. -/
def make (d : String → ℤ) (o : Opts) : Make → Opts
  | .plain => localDefaults d o
  | .pump => pumpDefaults d (localDefaults d o)
  | .pumpLate => pumpDefaults d o

/-- Limits and algorithm with which a local search with a prefix runs (BonBabSetupBase.cpp:360-361, 373; `getAlgorithm`). -/
structure Limits where
  alg : ℤ
  time : ℤ
  nodes : ℤ
  sols : ℤ
  deriving DecidableEq

def limits (d : String → ℤ) (o : Opts) (pfx : String) : Limits :=
  ⟨(get d o pfx "algorithm").2, (get d o pfx "time_limit").2, (get d o pfx "node_limit").2, (get d o pfx "solution_limit").2⟩

/-! ## Options: specification -/

/-- What a user has said about an option of a local search: under the prefix, else without prefix. -/
def Said (o : Opts) (pfx tag : String) : Option ℤ := ((find o (pfx, tag)).map Entry.val).or ((find o ("", tag)).map Entry.val)

/-- Defaults by prefix and tag. -/
def dflt : Make → String → String → Option ℤ
  | m, "local_solver.", t => if m = .pumpLate then none else match t with
    | "algorithm" => some 2
    | "variable_selection" => some 0
    | "time_limit" => some 60
    | "node_limit" => some 1000
    | "solution_limit" => some 5
    | _ => none
  | m, "pump_for_minlp.", t => if m = .plain then none else match t with
    | "algorithm" => some 5
    | "time_limit" => some 30
    | _ => none
  | _, _, _ => none

theorem said_of_get (d : String → ℤ) (o : Opts) (pfx tag : String) : get d o pfx tag = ((Said o pfx tag).isSome, (Said o pfx tag).getD (d tag)) := by
  unfold Bab.Options.get Said
  cases find o (pfx, tag) <;> cases find o ("", tag) <;> simp

/-- One step: the option gets the value exactly if nothing was said; all else, under any prefix, is unchanged. -/
theorem change_said (d : String → ℤ) (o : Opts) (pfx tag : String) (v : ℤ) (hp : pfx ≠ "") (q t : String) :
    Said (changeIfNotSet d o pfx tag v) q t = if q = pfx ∧ t = tag then some ((Said o pfx tag).getD v) else Said o q t := by
  unfold changeIfNotSet
  rw [said_of_get]
  by_cases hs : (Said o pfx tag).isSome
  · rw [if_pos hs]
    obtain ⟨w, hw⟩ := Option.isSome_iff_exists.mp hs
    by_cases hq : q = pfx ∧ t = tag
    · rw [if_pos hq, hq.1, hq.2, hw]; rfl
    · rw [if_neg hq]
  · rw [if_neg hs]
    have hn : Said o pfx tag = none := by simpa using hs
    have hf : find o (pfx, tag) = none := by
      unfold Said at hn
      cases h : find o (pfx, tag) with
      | none => rfl
      | some e => simp [h] at hn
    have hset : set o (pfx, tag) v true = ⟨(pfx, tag), v, true⟩ :: o := by unfold Bab.Options.set; rw [hf]
    rw [hset]
    have hbare : find (⟨(pfx, tag), v, true⟩ :: o) ("", t) = find o ("", t) := by
      rw [find_cons]; rw [if_neg]; intro h; exact hp (by simpa using congrArg Prod.fst h)
    by_cases hq : q = pfx ∧ t = tag
    · obtain ⟨rfl, rfl⟩ := hq
      rw [if_pos ⟨rfl, rfl⟩, hn]
      simp [Said, find_cons]
    · have : find (⟨(pfx, tag), v, true⟩ :: o) (q, t) = find o (q, t) := by
        rw [find_cons, if_neg]
        intro h
        have h1 := congrArg Prod.fst h
        have h2 := congrArg Prod.snd h
        exact hq ⟨h1.symm, h2.symm⟩
      rw [if_neg hq]
      simp only [Said, this, hbare]

/-- The options after construction: what the user said, else the default of the heuristic, for every prefix and option. -/
theorem made_exact (d : String → ℤ) (o : Opts) (m : Make) (q t : String) : Said (make d o m) q t = (Said o q t).or (dflt m q t) := by
  have key : ∀ a b : String, ∀ w : ℤ, (q = a ∧ t = b) → some ((Said o a b).getD w) = (Said o q t).or (some w) := by
    rintro a b w ⟨rfl, rfl⟩
    cases Said o q t <;> rfl
  have base : Said (localDefaults d o) q t = (Said o q t).or (dflt .plain q t) := by
    unfold localDefaults
    simp only [change_said _ _ _ _ _ (show "local_solver." ≠ "" by decide)]
    by_cases hq : q = "local_solver."
    · subst hq
      by_cases h1 : t = "algorithm"
      · subst h1; cases h : Said o "local_solver." "algorithm" <;> simp [dflt, algQG]
      · by_cases h2 : t = "variable_selection"
        · subst h2; cases h : Said o "local_solver." "variable_selection" <;> simp [dflt, mostFractional]
        · by_cases h3 : t = "time_limit"
          · subst h3; cases h : Said o "local_solver." "time_limit" <;> simp [dflt]
          · by_cases h4 : t = "node_limit"
            · subst h4; cases h : Said o "local_solver." "node_limit" <;> simp [dflt]
            · by_cases h5 : t = "solution_limit"
              · subst h5; cases h : Said o "local_solver." "solution_limit" <;> simp [dflt]
              · simp [dflt, h1, h2, h3, h4, h5]
    · have : dflt .plain q t = none := by
        unfold dflt
        split <;> simp_all
      simp [hq, this]
  have pump : ∀ o' : Opts, Said (pumpDefaults d o') q t = (Said o' q t).or (dflt .pumpLate q t) := by
    intro o'
    unfold pumpDefaults
    simp only [change_said _ _ _ _ _ (show "pump_for_minlp." ≠ "" by decide)]
    by_cases hq : q = "pump_for_minlp."
    · subst hq
      by_cases h1 : t = "algorithm"
      · subst h1; cases h : Said o' "pump_for_minlp." "algorithm" <;> simp [dflt, algIFP]
      · by_cases h2 : t = "time_limit"
        · subst h2; cases h : Said o' "pump_for_minlp." "time_limit" <;> simp [dflt]
        · simp [dflt, h1, h2]
    · have : dflt .pumpLate q t = none := by
        unfold dflt
        split <;> simp_all
      simp [hq, this]
  cases m with
  | plain => exact base
  | pumpLate => exact pump o
  | pump =>
    show Said (pumpDefaults d (localDefaults d o)) q t = _
    rw [pump, base, Option.or_assoc]
    congr 1
    unfold dflt
    split <;> simp_all

/-- Nothing changes for searches with other prefixes, in particular the main one. -/
theorem others_unchanged (d : String → ℤ) (o : Opts) (m : Make) (q t : String) (h1 : q ≠ "local_solver.") (h2 : q ≠ "pump_for_minlp.") :
    get d (make d o m) q t = get d o q t := by
  rw [said_of_get, said_of_get, made_exact]
  have : dflt m q t = none := by
    unfold dflt
    split <;> simp_all
  rw [this, Option.or_none]

/-- Values the user gave for a local search, with its prefix or without, are used. -/
theorem user_prevails (d : String → ℤ) (o : Opts) (m : Make) (q t : String) (v : ℤ) (h : Said o q t = some v) : get d (make d o m) q t = (true, v) := by
  rw [said_of_get, made_exact, h]; rfl

/-- A second heuristic of the same setup changes nothing more than the first leaves open; the same kind again changes nothing. -/
theorem twice (d : String → ℤ) (o : Opts) (m : Make) (q t : String) : Said (make d (make d o m) m) q t = Said (make d o m) q t := by
  rw [made_exact, made_exact, Option.or_assoc]
  congr 1
  cases dflt m q t <;> rfl

/-- With nothing said: Quesada-Grossmann for at most 60 seconds, 1000 nodes and 5 solutions; the pump for at most 30 seconds. -/
theorem default_limits (d : String → ℤ) : limits d (make d [] .plain) "local_solver." = ⟨2, 60, 1000, 5⟩ ∧
    limits d (make d [] .pump) "pump_for_minlp." = ⟨5, 30, d "node_limit", d "solution_limit"⟩ := by
  have h : ∀ q t, Said [] q t = none := fun _ _ => rfl
  constructor <;> simp [limits, said_of_get, made_exact, h, dflt]

/-- RINS searches with the prefix `rins.` (BonHeuristicRINS.cpp:103), for which there are no defaults: the limits are those registered, i.e. none. -/
theorem rins_without_limits (d : String → ℤ) : limits d (make d [] .plain) "rins." = ⟨d "algorithm", d "time_limit", d "node_limit", d "solution_limit"⟩ := by
  have h : ∀ q t, Said [] q t = none := fun _ _ => rfl
  simp [limits, said_of_get, made_exact, h, dflt]

/-- Limits given for the main search with its prefix do not hold for local searches: with `bonmin.time_limit` 5 each may take 60 seconds. -/
theorem main_limit_ignored (d : String → ℤ) : limits d (make d [⟨("bonmin.", "time_limit"), 5, false⟩] .plain) "local_solver." = ⟨2, 60, 1000, 5⟩ ∧
    (get d (make d [⟨("bonmin.", "time_limit"), 5, false⟩] .plain) "bonmin." "time_limit") = (true, 5) := by
  constructor
  · simp only [limits, said_of_get, made_exact]; simp [Said, find, dflt]
  · simp only [said_of_get, made_exact]; simp [Said, find, dflt]

/-- With `algorithm B-BB` given without prefix, the pump is a branch-and-bound: the search it is meant to precede. -/
theorem pump_runs_bb (d : String → ℤ) : (limits d (make d [⟨("", "algorithm"), algBB, false⟩] .pump) "pump_for_minlp.").alg = algBB := by
  simp only [limits, said_of_get, made_exact]; simp [Said, find]

/-! ## Pumps -/

/-- State of the search when the heuristic is called: nodes, cut passes, solutions, cutoff. -/
structure At where
  nodes : ℕ
  pass : ℕ
  sols : ℕ
  cutoff : ℚ

/-- A local search as oracle: prefix of its options, objective and cutoff to the best point found. -/
abbrev Search := String → (List ℚ → ℚ) → ℚ → Option (List ℚ)

/-- `doLocalSearch` (BonLocalSolverBasedHeuristic.cpp:90-108): point and its value in the problem that was searched. -/
def doLocal (s : Search) (pfx : String) (f : List ℚ → ℚ) (cutoff : ℚ) : Option (List ℚ × ℚ) := (s pfx f cutoff).map fun x => (x, f x)

/-- `PumpForMinlp::solution` (BonPumpForMinlp.cpp:35-50); the copies of the nonlinear solver are treated below. -/
def pump (s : Search) (a : At) (f : List ℚ → ℚ) : Option (List ℚ × ℚ) :=
  if a.nodes ≠ 0 ∨ 1 < a.pass then none
  else if a.sols ≠ 0 then none
  else doLocal s "pump_for_minlp." f a.cutoff

/-- `DummyPump::solution` (BonDummyPump.cpp:34-61); `cur` is the solution of the relaxation. -/
def dummy (s : Search) (a : At) (q : Fp.Par) (p : Nlp) (isInt : ℕ → Bool) (cur : List ℚ) : Option (List ℚ × ℚ) :=
  if a.nodes ≠ 0 ∨ 1 < a.pass then none
  else
    let inds := (List.range p.n).filter isInt
    let vals := inds.map (Fp.at' cur)
    doLocal s "local_solver." (Fp.evalF (q.toFp vals inds 1 0 1) p) a.cutoff

/-- The pump searches exactly at the root, in the first pass, without a solution; then it returns what the search finds below the cutoff, with its objective value. -/
theorem pump_found_iff (s : Search) (a : At) (f : List ℚ → ℚ) (y : List ℚ × ℚ) :
    pump s a f = some y ↔ (a.nodes = 0 ∧ a.pass ≤ 1 ∧ a.sols = 0) ∧ s "pump_for_minlp." f a.cutoff = some y.1 ∧ y.2 = f y.1 := by
  obtain ⟨x, v⟩ := y
  unfold pump
  by_cases h1 : a.nodes ≠ 0 ∨ 1 < a.pass
  · rw [if_pos h1]
    simp only [reduceCtorEq, false_iff]
    rintro ⟨⟨k1, k2, _⟩, _⟩
    omega
  · rw [if_neg h1]
    by_cases h2 : a.sols ≠ 0
    · rw [if_pos h2]; simp [h2]
    · rw [if_neg h2]
      have h3 : a.nodes = 0 ∧ a.pass ≤ 1 ∧ a.sols = 0 := by omega
      simp only [doLocal, Option.map_eq_some_iff, Prod.mk.injEq, h3, true_and]
      constructor
      · rintro ⟨w, hw, rfl, rfl⟩; exact ⟨hw, rfl⟩
      · rintro ⟨hw, rfl⟩; exact ⟨x, hw, rfl, rfl⟩

/-- With an honest search (what it finds is feasible and within its cutoff) the pump gives feasible points within the cutoff of the model. -/
theorem pump_sound (s : Search) (a : At) (f : List ℚ → ℚ) (Feas : List ℚ → Prop) (y : List ℚ × ℚ)
    (hs : ∀ pfx g c x, s pfx g c = some x → Feas x ∧ g x ≤ c) (h : pump s a f = some y) : Feas y.1 ∧ y.2 = f y.1 ∧ y.2 ≤ a.cutoff := by
  obtain ⟨_, h1, h2⟩ := (pump_found_iff s a f y).mp h
  obtain ⟨k1, k2⟩ := hs _ _ _ _ h1
  exact ⟨k1, h2, h2 ▸ k2⟩

/-- The dummy pump searches exactly at the root in the first pass, for the nearest point in the 1-norm (with respect to 0/1 variables); it returns the point and this distance. -/
theorem dummy_found_iff (s : Search) (a : At) (q : Fp.Par) (p : Nlp) (isInt : ℕ → Bool) (cur : List ℚ) (y : List ℚ × ℚ) :
    dummy s a q p isInt cur = some y ↔ (a.nodes = 0 ∧ a.pass ≤ 1) ∧
      (∃ g : List ℚ → ℚ, (∀ x, g x = q.scale * (((List.range p.n).filter isInt).map fun i => if Fp.at' cur i ≤ 1 / 10 then Fp.at' x i else 1 - Fp.at' x i).sum) ∧
        s "local_solver." g a.cutoff = some y.1 ∧ y.2 = g y.1) := by
  have hl : ∀ (is : List ℕ) (x : List ℚ), Fp.l1 is (is.map (Fp.at' cur)) x = (is.map fun i => if Fp.at' cur i ≤ 1 / 10 then Fp.at' x i else 1 - Fp.at' x i).sum := by
    intro is x
    induction is with
    | nil => simp [Fp.l1]
    | cons i is ih => simp [Fp.l1, ih]
  have hg : Fp.evalF (q.toFp (((List.range p.n).filter isInt).map (Fp.at' cur)) ((List.range p.n).filter isInt) 1 0 1) p =
      fun x => q.scale * (((List.range p.n).filter isInt).map fun i => if Fp.at' cur i ≤ 1 / 10 then Fp.at' x i else 1 - Fp.at' x i).sum := by
    funext x
    simp [Fp.evalF, Fp.Par.toFp, Fp.dist, hl]
  obtain ⟨x, v⟩ := y
  unfold dummy
  by_cases h1 : a.nodes ≠ 0 ∨ 1 < a.pass
  · rw [if_pos h1]
    simp only [reduceCtorEq, false_iff]
    rintro ⟨⟨k1, k2⟩, _⟩
    omega
  · rw [if_neg h1]
    have h3 : a.nodes = 0 ∧ a.pass ≤ 1 := by omega
    simp only [hg, doLocal, Option.map_eq_some_iff, Prod.mk.injEq, h3, true_and]
    constructor
    · rintro ⟨w, hw, rfl, rfl⟩; exact ⟨_, fun _ => rfl, hw, rfl⟩
    · rintro ⟨g, hgx, hw, rfl⟩
      obtain rfl : g = _ := funext hgx
      exact ⟨x, hw, rfl, rfl⟩

/-- The search that tries the points of a list and takes the first within the cutoff. -/
def tryAll (xs : List (List ℚ)) : Search := fun _ f c => xs.find? fun x => decide (f x ≤ c)

/-- A problem with one binary variable and objective `c x₀`. -/
def oneVar (c : ℚ) : Nlp :=
  { n := 1, m := 0, nnzJac := 0, nnzH := 0, isInt := [true], isLin := [], start := [0], evalGi := fun _ _ => 0, gradGi := fun _ _ => [], xl := [0], xu := [1], gl := [], gu := [], off := 0, evalF := fun x => c * Fp.at' x 0, gradF := fun _ => [c], evalG := fun _ => [], jacS := [], jacV := fun _ => [],
    hS := [], hV := fun _ _ _ => [] }

/-- The value the dummy pump returns is not the objective: the only feasible point 1 of an objective 7 x is returned with value 0. -/
theorem dummy_wrong_value : (dummy (tryAll [[1]]) ⟨0, 1, 0, 100⟩ (Fp.Par.new (10 ^ 20) 1) (oneVar 7) (fun _ => true) [1]) = some ([1], 0) ∧ (oneVar 7).evalF [1] = 7 := by
  decide +kernel

/-- The cutoff of the model is applied to the distance: with a negative cutoff nothing is found, though the point has objective -7. -/
theorem dummy_wrong_cutoff : (dummy (tryAll [[1]]) ⟨0, 1, 0, -1⟩ (Fp.Par.new (10 ^ 20) 1) (oneVar (-7)) (fun _ => true) [1]) = none ∧ (oneVar (-7)).evalF [1] = -7 := by
  decide +kernel

example : (pump (tryAll [[1]]) ⟨0, 1, 0, 100⟩ (oneVar 7).evalF) = some ([1], 7) := by decide +kernel
example : ∀ pfx g c x, tryAll [[1]] pfx g c = some x → x = [1] ∧ g x ≤ c := by
  intro pfx g c x h
  have h1 := List.find?_some h
  have h2 := List.mem_of_find?_eq_some h
  exact ⟨by simpa using h2, by simpa using h1⟩
example : Said [⟨("", "algorithm"), algBB, false⟩] "local_solver." "algorithm" = some 0 := by decide
/-! ## Ownership of the copy of the nonlinear solver and of the objects of the setup -/

/-- Objects in existence and the next address. -/
structure Heap where
  live : List ℕ
  next : ℕ

/-- `new` / `clone()`. -/
def Heap.alloc (h : Heap) : ℕ × Heap := (h.next, ⟨h.next :: h.live, h.next + 1⟩)

/-- `delete`; `none` = the object does not exist (any more). -/
def Heap.delete (h : Heap) (a : ℕ) : Option Heap := if a ∈ h.live then some { h with live := h.live.filter fun b => decide (b ≠ a) } else none

/-- `delete` of several objects in turn. -/
def Heap.deleteAll (h : Heap) : List ℕ → Option Heap
  | [] => some h
  | a :: as => (h.delete a).bind fun h => h.deleteAll as

/-- `doLocalSearch` (BonLocalSolverBasedHeuristic.cpp:90-108): the setup of the search takes over the solver (BonBabSetupBase.cpp:199), creates a linear solver unless the algorithm
is B-BB (BonBonminSetup.cpp:98-102), has the same pointers to objects as the setup of the heuristic (BonBabSetupBase.cpp:191, the clones of 211-213 are lost), and deletes
all at its end (324-346); `objs` are the objects of the setup. -/
def searchHeap (bb : Bool) (objs : List ℕ) (h : Heap) (nlp : ℕ) : Option Heap :=
  let h := objs.foldl (fun h _ => h.alloc.2) h
  if bb then (h.delete nlp).bind fun h => h.deleteAll objs
  else (h.alloc.2.delete nlp).bind fun h' => (h'.delete h.alloc.1).bind fun h' => h'.deleteAll objs

/-- The heuristics with local searches. -/
inductive Kind
  | rins | localBranching | fixAndSolve | pumpMinlp | dummyPump
  deriving DecidableEq

/-- `delete nlp` after the search (BonFixAndSolveHeuristic.cpp:70, BonDummyPump.cpp:59). -/
def Kind.deletes : Kind → Bool
  | .fixAndSolve | .dummyPump => true
  | _ => false

/-- A call that gets as far as copying the solver; `enough` = the variables fixed suffice for a search (BonHeuristicRINS.cpp:99, BonFixAndSolveHeuristic.cpp:67; the others
always search). -/
def call (k : Kind) (enough bb : Bool) (objs : List ℕ) (h : Heap) : Option Heap :=
  let r := h.alloc
  if (k = .rins ∨ k = .fixAndSolve) ∧ enough = false then some r.2
  else (searchHeap bb objs r.2 r.1).bind fun h => if k.deletes then h.delete r.1 else some h

/-- No object from `next` on exists yet. -/
def Heap.Ok (h : Heap) : Prop := ∀ a ∈ h.live, a < h.next

theorem delete_live {h h' : Heap} {a : ℕ} (e : h.delete a = some h') : h'.next = h.next ∧ ∀ b, b ∈ h'.live ↔ b ∈ h.live ∧ b ≠ a := by
  unfold Heap.delete at e
  split at e
  · cases e; simp
  · cases e

/-- Without objects in the setup a search deletes the solver it was given and nothing else. -/
theorem search_live (bb : Bool) (h : Heap) (ok : h.Ok) (nlp : ℕ) (hn : nlp ∈ h.live) :
    ∃ h', searchHeap bb [] h nlp = some h' ∧ ∀ b, b ∈ h'.live ↔ b ∈ h.live ∧ b ≠ nlp := by
  unfold searchHeap
  cases bb with
  | true => exact ⟨_, by simp [Heap.delete, hn, Heap.deleteAll]; rfl, by simp⟩
  | false =>
    have hne : h.next ≠ nlp := fun e => Nat.lt_irrefl _ (e ▸ ok nlp hn)
    refine ⟨⟨((h.next :: h.live).filter fun b => decide (b ≠ nlp)).filter fun b => decide (b ≠ h.next), h.next + 1⟩, ?_, ?_⟩
    · simp [Heap.delete, Heap.alloc, hn, Heap.deleteAll, hne]
      congr 1
      funext a
      by_cases h1 : a = h.next <;> simp [h1]
    · intro b
      simp only [List.mem_filter, List.mem_cons, decide_eq_true_eq]
      constructor
      · rintro ⟨⟨h1 | h1, h2⟩, h3⟩
        · exact absurd h1 h3
        · exact ⟨h1, h2⟩
      · rintro ⟨h1, h2⟩
        exact ⟨⟨.inr h1, h2⟩, fun e => Nat.lt_irrefl _ (e ▸ ok b h1)⟩

/-- RINS when it searches, local branching and the pump leave exactly what existed before, if the setup has no objects. -/
theorem balanced_partial (k : Kind) (enough bb : Bool) (h : Heap) (ok : h.Ok) (hk : k.deletes = false) (he : k = .rins → enough = true) :
    ∃ h', call k enough bb [] h = some h' ∧ ∀ b, b ∈ h'.live ↔ b ∈ h.live := by
  have ok' : h.alloc.2.Ok := by
    intro a ha
    simp only [Heap.alloc, List.mem_cons] at ha ⊢
    rcases ha with rfl | ha
    · exact Nat.lt_succ_self _
    · exact Nat.lt_succ_of_lt (ok a ha)
  obtain ⟨h', e, hl⟩ := search_live bb h.alloc.2 ok' h.alloc.1 (by simp [Heap.alloc])
  refine ⟨h', ?_, ?_⟩
  · unfold call
    have hc : ¬ ((k = .rins ∨ k = .fixAndSolve) ∧ enough = false) := by
      rintro ⟨rfl | rfl, h2⟩
      · rw [he rfl] at h2; cases h2
      · cases hk
    simp only [if_neg hc, e, Option.bind_some, hk, Bool.false_eq_true, if_false]
  · intro b
    rw [hl]
    simp only [Heap.alloc, List.mem_cons]
    constructor
    · rintro ⟨h1 | h1, h2⟩
      · exact absurd h1 h2
      · exact h1
    · intro h1
      exact ⟨.inr h1, fun e => Nat.lt_irrefl _ (e ▸ ok b h1)⟩

/-- Fix-and-solve and the dummy pump delete the copy of the solver a second time whenever they search. -/
theorem deletes_twice (k : Kind) (enough bb : Bool) (h : Heap) (ok : h.Ok) (hk : k.deletes = true) (he : k = .fixAndSolve → enough = true) :
    call k enough bb [] h = none := by
  have ok' : h.alloc.2.Ok := by
    intro a ha
    simp only [Heap.alloc, List.mem_cons] at ha ⊢
    rcases ha with rfl | ha
    · exact Nat.lt_succ_self _
    · exact Nat.lt_succ_of_lt (ok a ha)
  obtain ⟨h', e, hl⟩ := search_live bb h.alloc.2 ok' h.alloc.1 (by simp [Heap.alloc])
  unfold call
  have hc : ¬ ((k = .rins ∨ k = .fixAndSolve) ∧ enough = false) := by
    rintro ⟨rfl | rfl, h2⟩
    · cases hk
    · rw [he rfl] at h2; cases h2
  have hd : h'.delete h.alloc.1 = none := by
    unfold Heap.delete
    rw [if_neg]
    intro hm
    exact ((hl _).mp hm).2 rfl
  simp only [if_neg hc, e, Option.bind_some, hk, if_true, hd]

/-- RINS and fix-and-solve leave the copy behind whenever too few variables are fixed. -/
theorem leaks_without_search (k : Kind) (bb : Bool) (objs : List ℕ) (h : Heap) (hk : k = .rins ∨ k = .fixAndSolve) :
    call k false bb objs h = some ⟨h.next :: h.live, h.next + 1⟩ := by simp [call, hk, Heap.alloc]

/-- A call is fine exactly if it is one of those above: with no objects in the setup, what exists afterwards is what existed before exactly for RINS with enough variables fixed,
local branching and the pump. -/
theorem balanced_iff (k : Kind) (enough bb : Bool) (h : Heap) (ok : h.Ok) :
    (∃ h', call k enough bb [] h = some h' ∧ ∀ b, b ∈ h'.live ↔ b ∈ h.live) ↔ (k = .rins ∧ enough = true) ∨ k = .localBranching ∨ k = .pumpMinlp := by
  have hleak : ∀ k, k = .rins ∨ k = .fixAndSolve → ¬ ∃ h', call k false bb [] h = some h' ∧ ∀ b, b ∈ h'.live ↔ b ∈ h.live := by
    rintro k hk ⟨h', e, hl⟩
    rw [leaks_without_search k bb [] h hk] at e
    cases e
    exact Nat.lt_irrefl _ (ok _ ((hl h.next).mp (by simp)))
  cases k with
  | rins =>
    cases enough with
    | true => exact ⟨fun _ => .inl ⟨rfl, rfl⟩, fun _ => balanced_partial .rins true bb h ok rfl fun _ => rfl⟩
    | false => exact ⟨fun H => absurd H (hleak .rins (.inl rfl)), fun H => by simp at H⟩
  | localBranching => exact ⟨fun _ => .inr (.inl rfl), fun _ => balanced_partial .localBranching enough bb h ok rfl (by simp)⟩
  | pumpMinlp => exact ⟨fun _ => .inr (.inr rfl), fun _ => balanced_partial .pumpMinlp enough bb h ok rfl (by simp)⟩
  | fixAndSolve =>
    cases enough with
    | true =>
      constructor
      · rintro ⟨h', e, _⟩; rw [deletes_twice .fixAndSolve true bb h ok rfl fun _ => rfl] at e; cases e
      · intro H; simp at H
    | false => exact ⟨fun H => absurd H (hleak .fixAndSolve (.inr rfl)), fun H => by simp at H⟩
  | dummyPump =>
    constructor
    · rintro ⟨h', e, _⟩; rw [deletes_twice .dummyPump enough bb h ok rfl (by simp)] at e; cases e
    · intro H; simp at H

/-- A search deletes the objects of the setup it was started from: the object 0 of the setup is gone after one call (a copy, 2, is left behind), and the next
search deletes it again. -/
theorem objects_gone : (call .localBranching true false [0] ⟨[0], 1⟩).map Heap.live = some [2] ∧
    (call .localBranching true false [0] ⟨[0], 1⟩).bind (call .localBranching true false [0]) = none := by decide

example : (call .rins true false [] ⟨[4, 2], 5⟩).map Heap.live = some [4, 2] := by decide
example : Heap.Ok ⟨[4, 2], 5⟩ := by simp [Heap.Ok]

/-- The pump for MINLPs runs with the value 0 of `algorithm`, which is B-BB, if the user says so for all. -/
theorem pump_index (d : String → ℤ) : (limits d (make d [⟨("", "algorithm"), 0, false⟩] .pump) "pump_for_minlp.").alg = 0 := pump_runs_bb d

end Verif.Heur.LocalSearch

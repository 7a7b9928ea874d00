import Verif.Bab.Options
import Mathlib.Data.List.Basic
import Mathlib.Data.Int.Notation

/-!
# Choice of the MILP solver and of its cut generators
The constructor of `SubMipSolver` (`src/Algorithms/BonSubMipSolver.cpp:44-104`) and `CbcStrategyChooseCuts`
(`src/Algorithms/BonCbcLpStrategy.cpp`).

Options are the list of Bab/Options (stored under lower case names, as Ipopt's `OptionsList` does).  `Reg` gives the
registered default of an option, `none` = not registered: `GetIntegerValue` then throws `OPTION_INVALID`.
-/
namespace Verif.Dec.MilpChoice
open Verif.Bab.Options (Opts Entry find)

/-- Registered options with their defaults. -/
abbrev Reg := String → Option ℤ

/-- `GetIntegerValue(tag, value, prefix)`: whether it is set, and the value; `none` = the option is not registered. -/
def read (reg : Reg) (o : Opts) (pfx tag : String) : Option (Bool × ℤ) :=
  (reg tag).map fun d => Bab.Options.get (fun _ => d) o pfx tag

/-- The six families of cuts, in the order of the code (BonCbcLpStrategy.cpp:63-85, 133-160). -/
inductive Fam where
  | probing | gomory | cover | clique | flow | mir
deriving DecidableEq, Repr

/-- The option of a family (BonCbcLpStrategy.cpp:63, 67, 71, 75, 79, 83), lower case. -/
def Fam.tag : Fam → String
  | .probing => "probing_cuts"
  | .gomory => "gomory_cuts"
  | .cover => "cover_cuts"
  | .clique => "clique_cuts"
  | .flow => "flow_cover_cuts"
  | .mir => "mir_cuts"

/-- The order in which `gen_freqs_` is filled (63-85). -/
def order : List Fam := [.probing, .gomory, .cover, .clique, .flow, .mir]

/-- The data of a `CbcStrategyChooseCuts`. -/
structure Strat where
  strong : ℤ
  trust : ℤ
  freqs : List ℤ
deriving DecidableEq

/-- One frequency (63-65 and so on). -/
def freqOf (reg : Reg) (o : Opts) (pfx tag : String) : Option ℤ :=
  (read reg o pfx tag).map fun r => if r.1 then r.2 else -99

/-- The frequencies of a list of families. -/
def freqsOf (reg : Reg) (o : Opts) (pfx : String) : List Fam → Option (List ℤ)
  | [] => some []
  | f :: fs =>
    match freqOf reg o pfx f.tag with
    | none => none
    | some q => (freqsOf reg o pfx fs).map (q :: ·)

/-- `setup` (BonCbcLpStrategy.cpp:56-87); `none` = an exception. -/
def setup (reg : Reg) (o : Opts) (pfx : String) : Option Strat :=
  match read reg o pfx "number_strong_branch", read reg o pfx "number_before_trust" with
  | some a, some b => (freqsOf reg o pfx order).map fun q => ⟨a.2, b.2, q⟩
  | _, _ => none

/-- A cut generator of a `CbcModel`; `none` = of another class. -/
structure Gen where
  fam : Option Fam
  freq : ℤ
deriving DecidableEq

/-- `has_cg` (89-100). -/
def has (m : List Gen) (f : Fam) : Bool := m.any fun g => decide (g.fam = some f)

/-- One block `if(gen_freqs_[k]!=0 && !has_cg(model, gen)) ADD_CG(…)` (133-135 and so on). -/
def addOne (m : List Gen) (f : Fam) (q : ℤ) : List Gen := if q ≠ 0 ∧ has m f = false then m ++ [⟨some f, q⟩] else m

/-- The blocks one after the other. -/
def addAll (m : List Gen) : List (Fam × ℤ) → List Gen
  | [] => m
  | x :: xs => addAll (addOne m x.1 x.2) xs

/-- `setupCutGenerators` (104-161). -/
def setupGens (s : Strat) (m : List Gen) : List Gen := addAll m (order.zip s.freqs)

/-- What the constructor of `SubMipSolver` makes. -/
inductive Made where
  | cbcDefault (good : Bool)
  | cbcChosen (s : Strat) (good : Bool)
  | cplex (good : Bool)
  | neither (good : Bool)
  | invalidOption
  | noCplex
deriving DecidableEq

/-- The strategy `milp_strategy` (BonSubMipSolver.cpp:93-99): value 0 is `find_good_sol`. -/
def withGood (reg : Reg) (o : Opts) (pfx : String) (k : Bool → Made) : Made :=
  match read reg o pfx "milp_strategy" with
  | none => .invalidOption
  | some r => k (decide (r.2 = 0))

/-- The constructor (BonSubMipSolver.cpp:44-104); `cpx` = compiled with CPLEX.  Of the options of CPLEX only that they are
registered is modelled, the gap is left out. -/
def construct (cpx : Bool) (reg : Reg) (o : Opts) (pfx : String) : Made :=
  match read reg o pfx "milp_log_level", read reg o pfx "milp_solver" with
  | some _, some v =>
    if v.2 ≤ 0 then withGood reg o pfx .cbcDefault
    else if v.2 = 1 then
      match setup reg o pfx with
      | none => .invalidOption
      | some s => withGood reg o pfx (.cbcChosen s)
    else if v.2 = 2 then
      if cpx then
        match read reg o pfx "number_cpx_threads", read reg o pfx "cpx_parallel_strategy" with
        | some _, some _ => withGood reg o pfx .cplex
        | _, _ => .invalidOption
      else .noCplex
    else withGood reg o pfx .neither
  | _, _ => .invalidOption

/-- What Bonmin registers of the options read here (BonBonminSetup.cpp:189-264, where `probing_cuts` is within `#if 0`;
BonBabSetupBase.cpp:547-560; BonSubMipSolver.cpp:556-604). -/
def bonminReg : Reg := fun t =>
  if t = "gomory_cuts" then some (-5)
  else if t = "cover_cuts" then some 0
  else if t = "clique_cuts" then some (-5)
  else if t = "flow_cover_cuts" then some (-5)
  else if t = "mir_cuts" then some (-5)
  else if t = "2mir_cuts" then some 0
  else if t = "lift_and_project_cuts" then some 0
  else if t = "reduce_and_split_cuts" then some 0
  else if t = "number_strong_branch" then some 20
  else if t = "number_before_trust" then some 8
  else if t = "milp_solver" then some 0
  else if t = "milp_strategy" then some 1
  else if t = "milp_log_level" then some 0
  else if t = "number_cpx_threads" then some 0
  else if t = "cpx_parallel_strategy" then some 0
  else none

/-! ## Specification -/

/-- The value the user has given for an option: under the name with the prefix, else under the name. -/
def Given (o : Opts) (pfx tag : String) : Option ℤ := ((find o (pfx, tag)).or (find o ("", tag))).map (·.val)

/-- Number of generators of a family. -/
def count (m : List Gen) (f : Fam) : ℕ := (m.filter fun g => decide (g.fam = some f)).length

/-- All options of the strategy are registered. -/
def AllRegistered (reg : Reg) : Prop :=
  (∀ f : Fam, (reg f.tag).isSome) ∧ (reg "number_strong_branch").isSome ∧ (reg "number_before_trust").isSome

/-! ## Lemmas -/

theorem read_some (reg : Reg) (o : Opts) (pfx tag : String) (d : ℤ) (h : reg tag = some d) :
    read reg o pfx tag = some ((Given o pfx tag).isSome, (Given o pfx tag).getD d) := by
  simp only [read, h, Option.map_some, Bab.Options.get, Given]
  cases find o (pfx, tag) with
  | some e => simp
  | none => cases find o ("", tag) <;> simp

theorem read_none (reg : Reg) (o : Opts) (pfx tag : String) : read reg o pfx tag = none ↔ reg tag = none := by
  simp [read]

theorem freqOf_some (reg : Reg) (o : Opts) (pfx tag : String) (h : (reg tag).isSome) :
    freqOf reg o pfx tag = some ((Given o pfx tag).getD (-99)) := by
  obtain ⟨d, hd⟩ := Option.isSome_iff_exists.1 h
  rw [freqOf, read_some _ _ _ _ _ hd]
  cases Given o pfx tag <;> simp

theorem freqsOf_some (reg : Reg) (o : Opts) (pfx : String) (l : List Fam) (h : ∀ f ∈ l, (reg f.tag).isSome) :
    freqsOf reg o pfx l = some (l.map fun f => (Given o pfx f.tag).getD (-99)) := by
  induction l with
  | nil => rfl
  | cons f fs ih =>
    rw [freqsOf, freqOf_some _ _ _ _ (h f (by simp)), ih (fun g hg => h g (by simp [hg]))]
    rfl

theorem has_append (m n : List Gen) (f : Fam) : has (m ++ n) f = (has m f || has n f) := by simp [has]

theorem has_addOne (m : List Gen) (f g : Fam) (q : ℤ) (h : f ≠ g) : has (addOne m f q) g = has m g := by
  simp only [addOne]
  split
  · simp [has, h]
  · rfl

theorem addAll_eq (m : List Gen) (l : List (Fam × ℤ)) (h : (l.map (·.1)).Nodup) :
    addAll m l = m ++ (l.filter fun x => decide (x.2 ≠ 0) && !has m x.1).map fun x => ⟨some x.1, x.2⟩ := by
  induction l generalizing m with
  | nil => simp [addAll]
  | cons x xs ih =>
    simp only [List.map_cons, List.nodup_cons] at h
    have hx : ∀ y ∈ xs, has (addOne m x.1 x.2) y.1 = has m y.1 := fun y hy =>
      has_addOne _ _ _ _ (fun e => h.1 (e ▸ List.mem_map_of_mem (f := (·.1)) hy))
    have hf : (xs.filter fun y => decide (y.2 ≠ 0) && !has (addOne m x.1 x.2) y.1) = xs.filter fun y => decide (y.2 ≠ 0) && !has m y.1 :=
      List.filter_congr fun y hy => by rw [hx y hy]
    rw [addAll, ih _ h.2, hf, List.filter_cons]
    simp only [addOne]
    by_cases hq : x.2 ≠ 0 ∧ has m x.1 = false
    · rw [if_pos hq, if_pos (by simp [hq.1, hq.2])]; simp
    · rw [if_neg hq, if_neg (by simpa using hq)]

theorem order_nodup : order.Nodup := by decide

/-! ## Theorems -/

/-- **The frequencies.**  If all options are registered, `setup` takes every frequency the user has given, -99 (only at the root)
for those not given, and the two parameters of strong branching with their defaults. -/
theorem setup_partial (reg : Reg) (o : Opts) (pfx : String) (a b : ℤ) (h : ∀ f : Fam, (reg f.tag).isSome) (ha : reg "number_strong_branch" = some a)
    (hb : reg "number_before_trust" = some b) :
    setup reg o pfx = some ⟨(Given o pfx "number_strong_branch").getD a, (Given o pfx "number_before_trust").getD b,
      [.probing, .gomory, .cover, .clique, .flow, .mir].map fun f : Fam => (Given o pfx f.tag).getD (-99)⟩ := by
  rw [setup, read_some _ _ _ _ _ ha, read_some _ _ _ _ _ hb]
  simp only [freqsOf_some reg o pfx order (fun f _ => h f), Option.map_some]
  rfl

example : setup (fun _ => some 3) [⟨("b.", "mir_cuts"), 7, true⟩, ⟨("", "cover_cuts"), 0, true⟩] "b." = some ⟨3, 3, [-99, -99, 0, -99, -99, 7]⟩ := by
  decide +kernel

/-- `setup` ends with an exception exactly if one of the eight options is not registered. -/
theorem setup_throws_iff (reg : Reg) (o : Opts) (pfx : String) : setup reg o pfx = none ↔ ¬ AllRegistered reg := by
  constructor
  · rintro h ⟨h1, h2, h3⟩
    obtain ⟨a, ha⟩ := Option.isSome_iff_exists.1 h2
    obtain ⟨b, hb⟩ := Option.isSome_iff_exists.1 h3
    rw [setup_partial reg o pfx a b h1 ha hb] at h
    exact absurd h (by simp)
  · intro h
    by_contra hn
    apply h
    obtain ⟨s, hs⟩ := Option.ne_none_iff_exists'.1 hn
    rw [setup] at hs
    split at hs
    · rename_i x y hx hy
      refine ⟨?_, ?_, ?_⟩
      · have key : ∀ l : List Fam, (freqsOf reg o pfx l).isSome → ∀ f ∈ l, (reg f.tag).isSome := by
          intro l
          induction l with
          | nil => simp
          | cons g gs ih =>
            intro hl f hf
            rw [freqsOf] at hl
            cases hg : freqOf reg o pfx g.tag with
            | none => simp [hg] at hl
            | some q =>
              rw [hg] at hl
              have hgs : (reg g.tag).isSome := by
                cases hr : reg g.tag with
                | none => simp [freqOf, read, hr] at hg
                | some _ => rfl
              rcases List.mem_cons.1 hf with rfl | hf
              · exact hgs
              · exact ih (by simpa using hl) f hf
        have ho : (freqsOf reg o pfx order).isSome := by
          cases hq : freqsOf reg o pfx order with
          | none => simp [hq] at hs
          | some _ => rfl
        intro f
        exact key order ho f (by cases f <;> decide)
      · cases hr : reg "number_strong_branch" with
        | none => simp [read, hr] at hx
        | some _ => rfl
      · cases hr : reg "number_before_trust" with
        | none => simp [read, hr] at hy
        | some _ => rfl
    · exact absurd hs (by simp)

example : setup bonminReg [] "bonmin." = none := by decide +kernel

/-- **The generators.**  To the generators already there those families are added, in the order of the options, whose frequency
is not 0 and of which there is none. -/
theorem gens_exact (m : List Gen) (a b q1 q2 q3 q4 q5 q6 : ℤ) :
    setupGens ⟨a, b, [q1, q2, q3, q4, q5, q6]⟩ m =
      m ++ (([(.probing, q1), (.gomory, q2), (.cover, q3), (.clique, q4), (.flow, q5), (.mir, q6)] : List (Fam × ℤ)).filter
        fun x => decide (x.2 ≠ 0 ∧ ∀ g ∈ m, g.fam ≠ some x.1)).map fun x => ⟨some x.1, x.2⟩ := by
  rw [setupGens, addAll_eq _ _ (by show [Fam.probing, Fam.gomory, Fam.cover, Fam.clique, Fam.flow, Fam.mir].Nodup; decide)]
  congr 1
  show List.map _ (List.filter _ [(Fam.probing, q1), (Fam.gomory, q2), (Fam.cover, q3), (Fam.clique, q4), (Fam.flow, q5), (Fam.mir, q6)]) = _
  congr 1
  apply List.filter_congr
  intro x _
  rw [Bool.eq_iff_iff]
  simp [has]

example : setupGens ⟨20, 8, [-99, 3, 0, -99, 5, 1]⟩ [⟨none, 1⟩, ⟨some .flow, 2⟩] =
    [⟨none, 1⟩, ⟨some .flow, 2⟩, ⟨some .probing, -99⟩, ⟨some .gomory, 3⟩, ⟨some .clique, -99⟩, ⟨some .mir, 1⟩] := by decide +kernel

/-- **No duplicates.**  A family that is used at most once is used at most once afterwards. -/
theorem gens_once (s : Strat) (m : List Gen) (f : Fam) (h : count m f ≤ 1) : count (setupGens s m) f ≤ 1 := by
  have key : ∀ (l : List (Fam × ℤ)) (m : List Gen), count m f ≤ 1 → count (addAll m l) f ≤ 1 := by
    intro l
    induction l with
    | nil => exact fun m h => h
    | cons x xs ih =>
      intro m h
      refine ih _ ?_
      simp only [addOne]
      split
      · rename_i hq
        simp only [count, List.filter_append, List.length_append]
        by_cases hx : x.1 = f
        · have h0 : (m.filter fun g => decide (g.fam = some f)) = [] := by
            rw [List.filter_eq_nil_iff]
            have := hq.2
            rw [hx] at this
            simpa [has] using this
          simp [h0, hx]
        · simpa [hx, count] using h
      · exact h
  exact key _ m h

/-- **Twice is once.**  A second call, for instance on a copy of the model, adds nothing. -/
theorem gens_idem (s : Strat) (m : List Gen) : setupGens s (setupGens s m) = setupGens s m := by
  have mono : ∀ (l : List (Fam × ℤ)) (m : List Gen) (f : Fam), has m f = true → has (addAll m l) f = true := by
    intro l
    induction l with
    | nil => exact fun m f h => h
    | cons x xs ih =>
      intro m f h
      refine ih _ f ?_
      simp only [addOne]
      split
      · rw [has_append, h]; rfl
      · exact h
  have there : ∀ (l : List (Fam × ℤ)) (m : List Gen), ∀ x ∈ l, x.2 ≠ 0 → has (addAll m l) x.1 = true := by
    intro l
    induction l with
    | nil => simp
    | cons x xs ih =>
      intro m y hy hq
      rcases List.mem_cons.1 hy with rfl | hy
      · refine mono xs _ _ ?_
        simp only [addOne]
        split
        · simp [has]
        · rename_i hn
          by_contra h
          exact hn ⟨hq, by simpa using h⟩
      · exact ih _ y hy hq
  have fix : ∀ (l : List (Fam × ℤ)) (m : List Gen), (∀ x ∈ l, x.2 ≠ 0 → has m x.1 = true) → addAll m l = m := by
    intro l
    induction l with
    | nil => exact fun m _ => rfl
    | cons x xs ih =>
      intro m h
      have : addOne m x.1 x.2 = m := by
        rw [addOne, if_neg]
        rintro ⟨h1, h2⟩
        rw [h x (by simp) h1] at h2
        exact absurd h2 (by simp)
      rw [addAll, this]
      exact ih m fun y hy => h y (by simp [hy])
  exact fix _ _ (there _ m)

/-- **Cbc_D.**  By default the MILP solver is Cbc with its own strategy, whatever the options of cuts are; with `milp_strategy`
not given it solves to optimality. -/
theorem default_solver (cpx : Bool) (o : Opts) (pfx : String) (h : (Given o pfx "milp_solver").getD 0 ≤ 0) :
    construct cpx bonminReg o pfx = .cbcDefault (decide (Given o pfx "milp_strategy" = some 0)) := by
  have h1 := read_some bonminReg o pfx "milp_log_level" 0 (by decide +kernel)
  have h2 := read_some bonminReg o pfx "milp_solver" 0 (by decide +kernel)
  have h3 := read_some bonminReg o pfx "milp_strategy" 1 (by decide +kernel)
  rw [construct, h1, h2]
  simp only [h, if_true, withGood, h3]
  congr 1
  cases Given o pfx "milp_strategy" <;> simp

example : construct false bonminReg [⟨("", "milp_strategy"), 0, true⟩, ⟨("", "gomory_cuts"), 4, true⟩] "bonmin." = .cbcDefault true := by decide +kernel

/-- **Cplex.**  With CPLEX chosen the constructor gives the CPLEX solver if Bonmin was compiled with it, and an exception if not. -/
theorem cplex_solver (cpx : Bool) (o : Opts) (pfx : String) (h : Given o pfx "milp_solver" = some 2) :
    construct cpx bonminReg o pfx = if cpx then .cplex (decide (Given o pfx "milp_strategy" = some 0)) else .noCplex := by
  have h1 := read_some bonminReg o pfx "milp_log_level" 0 (by decide +kernel)
  have h2 := read_some bonminReg o pfx "milp_solver" 0 (by decide +kernel)
  have h3 := read_some bonminReg o pfx "milp_strategy" 1 (by decide +kernel)
  have h4 := read_some bonminReg o pfx "number_cpx_threads" 0 (by decide +kernel)
  have h5 := read_some bonminReg o pfx "cpx_parallel_strategy" 0 (by decide +kernel)
  rw [construct, h1, h2, h]
  cases cpx
  · simp
  · simp only [Option.getD_some, withGood, h3, h4, h5]
    rw [if_neg (by decide), if_neg (by decide), if_pos trivial, if_pos trivial, if_pos trivial]
    congr 1
    cases Given o pfx "milp_strategy" <;> simp

example : construct true bonminReg [⟨("bonmin.", "milp_solver"), 2, true⟩] "bonmin." = .cplex false := by decide +kernel

/-- With all options registered, Cbc_Par is Cbc with the frequencies given. -/
theorem par_solver_partial (cpx : Bool) (reg : Reg) (o : Opts) (pfx : String) (h : ∀ t, (reg t).isSome) (hs : Given o pfx "milp_solver" = some 1) :
    ∃ a b g, construct cpx reg o pfx = .cbcChosen ⟨a, b, [.probing, .gomory, .cover, .clique, .flow, .mir].map fun f : Fam => (Given o pfx f.tag).getD (-99)⟩ g := by
  obtain ⟨a, ha⟩ := Option.isSome_iff_exists.1 (h "number_strong_branch")
  obtain ⟨b, hb⟩ := Option.isSome_iff_exists.1 (h "number_before_trust")
  obtain ⟨c, hc⟩ := Option.isSome_iff_exists.1 (h "milp_log_level")
  obtain ⟨d, hd⟩ := Option.isSome_iff_exists.1 (h "milp_solver")
  obtain ⟨e, he⟩ := Option.isSome_iff_exists.1 (h "milp_strategy")
  rw [construct, read_some _ _ _ _ _ hc, read_some _ _ _ _ _ hd, hs]
  simp only [Option.getD_some]
  rw [if_neg (by decide), if_pos trivial, setup_partial reg o pfx a b (fun f => h f.tag) ha hb]
  simp only [withGood, read_some _ _ _ _ _ he]
  exact ⟨_, _, _, rfl⟩

/-! ## Where the code differs from what is claimed -/

/-- Choosing Cbc_Par always ends with an exception: the strategy reads `probing_cuts`, which is not registered. -/
theorem cbc_par_throws (cpx : Bool) (o : Opts) (pfx : String) (h : Given o pfx "milp_solver" = some 1) : construct cpx bonminReg o pfx = .invalidOption := by
  have h1 := read_some bonminReg o pfx "milp_log_level" 0 (by decide +kernel)
  have h2 := read_some bonminReg o pfx "milp_solver" 0 (by decide +kernel)
  have h3 : setup bonminReg o pfx = none := by
    rw [setup_throws_iff]
    exact fun hh => absurd (hh.1 .probing) (by decide +kernel)
  rw [construct, h1, h2, h, h3]
  rfl

/-- Were it registered (here with default 0), the options not given would count as -99 and not as their defaults: Gomory cuts
only at the root in place of every 5 nodes, and cover cuts although they are off. -/
theorem defaults_ignored : ∃ reg : Reg, (∀ t, t ≠ "probing_cuts" → reg t = bonminReg t) ∧ reg "probing_cuts" = some 0 ∧
    (setup reg [] "bonmin.").map (·.freqs) = some [-99, -99, -99, -99, -99, -99] := by
  refine ⟨fun t => if t = "probing_cuts" then some 0 else bonminReg t, ?_, ?_, by decide +kernel⟩
  · intro t ht; simp [ht]
  · simp

/-- The options `2mir_cuts`, `lift_and_project_cuts` and `reduce_and_split_cuts`, declared valid for Cbc_Par, have no influence. -/
theorem others_ignored (reg : Reg) (o : Opts) (pfx : String) (t : String) (ht : t = "2mir_cuts" ∨ t = "lift_and_project_cuts" ∨ t = "reduce_and_split_cuts") (v : ℤ) (p : String) :
    setup reg (⟨(p, t), v, true⟩ :: o) pfx = setup reg o pfx := by
  have hf : ∀ (k : String × String), k.2 ≠ t → find (⟨(p, t), v, true⟩ :: o) k = find o k := by
    intro k hk
    simp only [find, List.find?_cons]
    rw [decide_eq_false (fun e => hk (by rw [← e]))]
  have hr : ∀ (s : String), s ≠ t → read reg (⟨(p, t), v, true⟩ :: o) pfx s = read reg o pfx s := by
    intro s hs
    simp only [read, Bab.Options.get]
    rw [hf (pfx, s) hs, hf ("", s) hs]
  have h1 : ∀ (l : List Fam), freqsOf reg (⟨(p, t), v, true⟩ :: o) pfx l = freqsOf reg o pfx l := by
    intro l
    induction l with
    | nil => rfl
    | cons f fs ih =>
      rw [freqsOf, freqsOf, ih, freqOf, freqOf, hr]
      rcases ht with rfl | rfl | rfl <;> cases f <;> decide
  rw [setup, setup, h1, hr, hr]
  · rcases ht with rfl | rfl | rfl <;> decide
  · rcases ht with rfl | rfl | rfl <;> decide

/-- Frequency 100, documented as no cuts at all, installs the generator. -/
theorem hundred_installs : setupGens ⟨20, 8, [0, 100, 0, 0, 0, 0]⟩ [] = [⟨some .gomory, 100⟩] := by decide +kernel

/-- C98: the frequencies of the families of cuts registered; that of probing is not. -/
theorem cut_defaults : bonminReg "gomory_cuts" = some (-5) ∧ bonminReg "cover_cuts" = some 0 ∧ bonminReg "clique_cuts" = some (-5) ∧ bonminReg "flow_cover_cuts" = some (-5) ∧
    bonminReg "mir_cuts" = some (-5) ∧ bonminReg "2mir_cuts" = some 0 ∧ bonminReg "lift_and_project_cuts" = some 0 ∧ bonminReg "reduce_and_split_cuts" = some 0 ∧
    bonminReg "number_strong_branch" = some 20 ∧ bonminReg "number_before_trust" = some 8 ∧ bonminReg "probing_cuts" = none := by decide +kernel

theorem registered_iff (t : String) : (bonminReg t).isSome ↔ t ∈ ["gomory_cuts", "cover_cuts", "clique_cuts", "flow_cover_cuts", "mir_cuts", "2mir_cuts", "lift_and_project_cuts",
    "reduce_and_split_cuts", "number_strong_branch", "number_before_trust", "milp_solver", "milp_strategy", "milp_log_level", "number_cpx_threads", "cpx_parallel_strategy"] := by
  constructor
  · intro h
    by_contra hc
    simp only [List.mem_cons, List.not_mem_nil, or_false, not_or] at hc
    obtain ⟨h1, h2, h3, h4, h5, h6, h7, h8, h9, h10, h11, h12, h13, h14, h15⟩ := hc
    simp only [bonminReg, h1, h2, h3, h4, h5, h6, h7, h8, h9, h10, h11, h12, h13, h14, h15, if_false] at h
    simp at h
  · intro h
    simp only [List.mem_cons, List.not_mem_nil, or_false] at h
    rcases h with rfl | rfl | rfl | rfl | rfl | rfl | rfl | rfl | rfl | rfl | rfl | rfl | rfl | rfl | rfl <;> decide +kernel

end Verif.Dec.MilpChoice

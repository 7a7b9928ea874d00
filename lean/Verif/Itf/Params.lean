import Verif.Itf.StatusProps
import Mathlib.Tactic.Ring
import Mathlib.Tactic.FieldSimp
import Mathlib.Algebra.BigOperators.Group.List.Basic
/-! # C90: the options of the NLP interface

src/Interfaces/BonOsiTMINLPInterface.cpp: options 50-266, `extractInterfaceParams` 2957-3026, statistics of `resolveForCost` 844-975, `createApplication` 447-496,
`resolve` 2886; BonOsiTMINLPInterface.hpp:260-268; src/CbcBonmin/BonCbc.cpp:458-489.

Simplifications: option values are numbers (for string options the index of the value); the option list is a map from full names; the lookup rule of Ipopt's
`OptionsList` (name with prefix, then the plain name, then the registered default; exception if not registered) is an assumption about Ipopt.  Message handlers
are their log levels; `BONMIN_HAS_FILTERSQP` is defined. -/
namespace Verif.Itf.Params

/-- The option list and the registered defaults. -/
abbrev Opts := String → Option ℚ

/-- What the user gave for an option. -/
def given (o : Opts) (pre name : String) : Option ℚ := (o (pre ++ name)).or (o name)

/-- `GetNumericValue`, `GetIntegerValue`, `GetEnumValue`: value and "was given"; the caller knows that the name is registered. -/
def get (reg o : Opts) (pre name : String) : ℚ × Bool := ((given o pre name).getD ((reg name).getD 0), (given o pre name).isSome)

/-- The members set by `extractInterfaceParams` and those about the dynamic decrement, with their values from the constructor (388-419);
`perturb` is COIN_DBL_MAX there, written 0 here (read before use). -/
structure M where
  logLevel : ℚ := 1
  radius : ℚ := 10 ^ 8
  oaLog : ℚ := 0
  warm : ℚ := 0
  retryUnsolved : ℚ := 1
  retryInitial : ℚ := -1
  retryResolve : ℚ := -1
  retryInfeas : ℚ := -1
  suspect : ℚ := -1
  failBehaviour : ℚ := 0
  push : ℚ := 1 / 100
  tiny : ℚ := 1 / 10 ^ 8
  veryTiny : ℚ := 1 / 10 ^ 20
  relax : ℚ := 1 / 10 ^ 8
  perturb : ℚ := 0
  randType : ℚ := 0
  infty : ℚ := 10 ^ 100
  infeasEps : ℚ := 0
  strengthener : Bool := false
  dynamic : Bool := false
  varThreshold : ℚ := 1 / 10
  first : ℚ := -2 / 100
  second : ℚ := -5 / 100
  deriving DecidableEq, Repr

/-- Interface with its option list. -/
structure S where
  m : M := {}
  o : Opts := fun _ => none

/-- The names read, in order. -/
def used : List String := ["nlp_log_level", "max_random_point_radius", "oa_cuts_log_level", "warm_start", "num_retry_unsolved_random_point",
  "num_resolve_at_root", "num_resolve_at_node", "num_resolve_at_infeasibles", "num_iterations_suspect", "nlp_failure_behavior", "warm_start_bound_frac",
  "tiny_element", "very_tiny_element", "oa_rhs_relax", "random_point_perturbation_interval", "random_point_type", "cut_strengthening_type",
  "nlp_lower_bound_inf", "nlp_upper_bound_inf", "resolve_on_small_infeasibility"]

/-- The members after reading (2960-3024). -/
def readM (reg o : Opts) (pre : String) (filter : Bool) (m : M) : M :=
  let v := fun n => (get reg o pre n).1
  let isGiven := fun n => (get reg o pre n).2
  { m with
    logLevel := v "nlp_log_level"
    radius := if filter ∧ ¬ isGiven "max_random_point_radius" then 10 else v "max_random_point_radius"
    oaLog := v "oa_cuts_log_level"
    warm := v "warm_start"
    retryUnsolved := v "num_retry_unsolved_random_point"
    retryInitial := v "num_resolve_at_root"
    retryResolve := v "num_resolve_at_node"
    retryInfeas := v "num_resolve_at_infeasibles"
    suspect := v "num_iterations_suspect"
    failBehaviour := v "nlp_failure_behavior"
    push := v "warm_start_bound_frac"
    tiny := v "tiny_element"
    veryTiny := v "very_tiny_element"
    relax := v "oa_rhs_relax"
    perturb := v "random_point_perturbation_interval"
    randType := v "random_point_type"
    infty := min |v "nlp_lower_bound_inf"| |v "nlp_upper_bound_inf"|
    infeasEps := if filter ∧ ¬ isGiven "resolve_on_small_infeasibility" then 1 / 10 ^ 6 else v "resolve_on_small_infeasibility"
    strengthener := m.strengthener || decide (v "cut_strengthening_type" ≠ 0) }

/-- The option list after reading (3013-3019). -/
def readO (o : Opts) (pre : String) (filter : Bool) : Opts :=
  if filter ∧ ¬ (given o pre "resolve_on_small_infeasibility").isSome then
    fun n => if n = pre ++ "resolve_on_small_infeasibility" then some (1 / 10 ^ 6) else o n
  else o

/-- `extractInterfaceParams` (2957-3026) with a solver object; `none` = exception: a name is not registered. -/
def extract (reg : Opts) (pre : String) (filter : Bool) (s : S) : Option S :=
  if used.all (fun n => (reg n).isSome || (given s.o pre n).isSome) then some { s with m := readM reg s.o pre filter s.m, o := readO s.o pre filter }
  else none

/-! ### The dynamic decrement -/

/-- `newCutoffDecr` computed: a number, or not a number (0/0). -/
inductive Dec
  | nan
  | val (q : ℚ)
  deriving DecidableEq, Repr

/-- `isAbandoned` (2907-2920). -/
def aband (sticky : Bool) (t : Status) : Bool :=
  !sticky && (t = .iterationLimit || t = .computationError || t = .illDefinedProblem || t = .illegalOption || t = .externalException || t = .exception)

/-- `numsolve - num_failed - num_infeas` (906-911, 949). -/
def den (sticky : Bool) : List (Status × ℚ) → ℤ
  | [] => 0
  | r :: l => den sticky l + 1 - (if aband sticky r.1 then 1 else if r.1 = .provenInfeasible then 1 else 0)

/-- `of_current` (930-942). -/
def ofs (rs : List (Status × ℚ)) : List ℚ := rs.map fun r => if isOptSt r.1 then r.2 else 0

/-- `mean` (949). -/
def mean (sticky : Bool) (rs : List (Status × ℚ)) : ℚ := (ofs rs).sum / den sticky rs

/-- The square of `std_dev` (951-959). -/
def var (sticky : Bool) (rs : List (Status × ℚ)) : ℚ :=
  (((ofs rs).filter (· ≠ 0)).map fun f => (f - mean sticky rs) ^ 2).sum / den sticky rs

/-- `var_coeff < 0.1` (962, 966): the root is compared by squares; a division by zero gives infinity or not-a-number, both not less. -/
def small (sticky : Bool) (rs : List (Status × ℚ)) : Bool :=
  if mean sticky rs < 0 then true else decide (0 < mean sticky rs ∧ var sticky rs < mean sticky rs ^ 2 / 100)

/-- The decrement (947-975); `none` = not set.  A denominator of zero gives not-a-number. -/
def newDecr (m : M) (sticky : Bool) (rs : List (Status × ℚ)) : Option Dec :=
  if rs = [] ∨ m.dynamic = false then none
  else if den sticky rs = 0 then some .nan
  else some (.val (mean sticky rs * if small sticky rs then m.first else m.second))

/-- Operations on an interface: reading options (with the solver in use), new option values, extra solves, `setNewCutoffDecr`, root solve done (2816). -/
inductive Op
  | read (filter : Bool)
  | set (name : String) (v : ℚ)
  | cost (sticky : Bool) (rs : List (Status × ℚ))
  | setDecr (d : ℚ)
  | rootDone

/-- An interface with `newCutoffDecr`; `none` = COIN_DBL_MAX. -/
structure H where
  s : S := {}
  d : Option Dec := none

/-- One operation; `none` = exception. -/
def step (reg : Opts) (pre : String) (h : H) : Op → Option H
  | .read f => (extract reg pre f h.s).map fun s => { h with s := s }
  | .set n v => some { h with s := { h.s with o := fun k => if k = n then some v else h.s.o k } }
  | .cost st rs => some { h with d := (newDecr h.s.m st rs).or h.d }
  | .setDecr q => some { h with d := some (.val q) }
  | .rootDone => some { h with s := { h.s with m := { h.s.m with retryInitial := 0 } } }

def run (reg : Opts) (pre : String) : H → List Op → Option H
  | h, [] => some h
  | h, a :: l => (step reg pre h a).bind fun h' => run reg pre h' l

/-! ### Specification -/

/-- The value of an option: given with prefix, else given without, else the default. -/
def IsValue (reg o : Opts) (pre name : String) (v : ℚ) : Prop :=
  (∃ w, o (pre ++ name) = some w ∧ v = w) ∨ (o (pre ++ name) = none ∧ ∃ w, o name = some w ∧ v = w) ∨
    (o (pre ++ name) = none ∧ o name = none ∧ ∃ w, reg name = some w ∧ v = w)

/-- The user gave the option. -/
def IsGiven (o : Opts) (pre name : String) : Prop := o (pre ++ name) ≠ none ∨ o name ≠ none

theorem value_spec (reg o : Opts) (pre name : String) (h : (reg name).isSome || (given o pre name).isSome) : IsValue reg o pre name (get reg o pre name).1 := by
  unfold IsValue get given at *
  rcases h1 : o (pre ++ name) with _ | a <;> rcases h2 : o name with _ | b <;> rcases h3 : reg name with _ | c <;> simp_all

theorem given_spec (reg o : Opts) (pre name : String) : (get reg o pre name).2 = true ↔ IsGiven o pre name := by
  unfold IsGiven get given
  rcases h1 : o (pre ++ name) with _ | a <;> rcases h2 : o name with _ | b <;> simp

/-- C90: reading succeeds exactly if every option read is registered or given. -/
theorem read_defined (reg : Opts) (pre : String) (f : Bool) (s : S) :
    (extract reg pre f s).isSome ↔ ∀ n ∈ used, reg n ≠ none ∨ IsGiven s.o pre n := by
  unfold extract
  have e : ∀ n, ((reg n).isSome || (given s.o pre n).isSome) = true ↔ (reg n ≠ none ∨ IsGiven s.o pre n) := by
    intro n
    rw [Bool.or_eq_true, ← given_spec reg s.o pre n]
    simp [get, Option.isSome_iff_ne_none]
  split
  · rename_i h
    simp only [Option.isSome_some, true_iff]
    intro n hn
    exact (e n).1 (List.all_eq_true.1 h n hn)
  · rename_i h
    simp only [Option.isSome_none, Bool.false_eq_true, false_iff]
    intro q
    exact h (List.all_eq_true.2 fun n hn => (e n).2 (q n hn))

/-- C90: after reading, every member has the value of its option. -/
theorem read_exact (reg : Opts) (pre : String) (f : Bool) (s s' : S) (h : extract reg pre f s = some s') :
    let V := IsValue reg s.o pre
    V "nlp_log_level" s'.m.logLevel ∧ V "oa_cuts_log_level" s'.m.oaLog ∧ V "warm_start" s'.m.warm ∧ V "num_retry_unsolved_random_point" s'.m.retryUnsolved ∧
    V "num_resolve_at_root" s'.m.retryInitial ∧ V "num_resolve_at_node" s'.m.retryResolve ∧ V "num_resolve_at_infeasibles" s'.m.retryInfeas ∧
    V "num_iterations_suspect" s'.m.suspect ∧ V "nlp_failure_behavior" s'.m.failBehaviour ∧ V "warm_start_bound_frac" s'.m.push ∧ V "tiny_element" s'.m.tiny ∧
    V "very_tiny_element" s'.m.veryTiny ∧ V "oa_rhs_relax" s'.m.relax ∧ V "random_point_perturbation_interval" s'.m.perturb ∧
    V "random_point_type" s'.m.randType ∧
    (f = true ∧ ¬ IsGiven s.o pre "max_random_point_radius" → s'.m.radius = 10) ∧
    (f = false ∨ IsGiven s.o pre "max_random_point_radius" → V "max_random_point_radius" s'.m.radius) ∧
    (f = true ∧ ¬ IsGiven s.o pre "resolve_on_small_infeasibility" → s'.m.infeasEps = 1 / 10 ^ 6) ∧
    (f = false ∨ IsGiven s.o pre "resolve_on_small_infeasibility" → V "resolve_on_small_infeasibility" s'.m.infeasEps) ∧
    (∃ a b, V "nlp_lower_bound_inf" a ∧ V "nlp_upper_bound_inf" b ∧ s'.m.infty ≤ |a| ∧ s'.m.infty ≤ |b| ∧ (s'.m.infty = |a| ∨ s'.m.infty = |b|)) ∧
    (s'.m.strengthener = true ↔ s.m.strengthener = true ∨ ∃ v, V "cut_strengthening_type" v ∧ v ≠ 0) := by
  unfold extract at h
  split at h
  · rename_i ha
    injection h with h
    subst h
    have hv : ∀ n ∈ used, IsValue reg s.o pre n (get reg s.o pre n).1 := fun n hn => value_spec reg s.o pre n (List.all_eq_true.1 ha n hn)
    have u : ∀ n a b, IsValue reg s.o pre n a → IsValue reg s.o pre n b → a = b := by
      intro n a b h1 h2
      unfold IsValue at h1 h2
      rcases h3 : s.o (pre ++ n) with _ | x <;> rcases h4 : s.o n with _ | y <;> rcases h5 : reg n with _ | z <;> simp_all
    have hg := fun n => given_spec reg s.o pre n
    dsimp only
    refine ⟨hv _ (by decide), hv _ (by decide), hv _ (by decide), hv _ (by decide), hv _ (by decide), hv _ (by decide), hv _ (by decide), hv _ (by decide),
      hv _ (by decide), hv _ (by decide), hv _ (by decide), hv _ (by decide), hv _ (by decide), hv _ (by decide), hv _ (by decide), ?_, ?_, ?_, ?_, ?_, ?_⟩
    · rintro ⟨h1, h2⟩
      exact if_pos ⟨h1, fun q => h2 ((hg _).1 q)⟩
    · intro h1
      have := hv "max_random_point_radius" (by decide)
      unfold readM
      dsimp only
      rw [if_neg]
      · exact this
      · rintro ⟨h2, h3⟩
        rcases h1 with h1 | h1
        · simp [h1] at h2
        · exact h3 ((hg _).2 h1)
    · rintro ⟨h1, h2⟩
      exact if_pos ⟨h1, fun q => h2 ((hg _).1 q)⟩
    · intro h1
      have := hv "resolve_on_small_infeasibility" (by decide)
      unfold readM
      dsimp only
      rw [if_neg]
      · exact this
      · rintro ⟨h2, h3⟩
        rcases h1 with h1 | h1
        · simp [h1] at h2
        · exact h3 ((hg _).2 h1)
    · refine ⟨_, _, hv "nlp_lower_bound_inf" (by decide), hv "nlp_upper_bound_inf" (by decide), min_le_left _ _, min_le_right _ _, ?_⟩
      exact min_choice _ _
    · have := hv "cut_strengthening_type" (by decide)
      simp only [readM, Bool.or_eq_true, decide_eq_true_eq]
      constructor
      · rintro (h1 | h1)
        · exact .inl h1
        · exact .inr ⟨_, this, h1⟩
      · rintro (h1 | ⟨v, h1, h2⟩)
        · exact .inl h1
        · exact .inr (u _ _ _ h1 this ▸ h2)
  · cases h

/-- C90: reading again with the same solver changes nothing. -/
theorem read_idem (reg : Opts) (pre : String) (f : Bool) (s s' : S) (h : extract reg pre f s = some s') : extract reg pre f s' = some s' := by
  unfold extract at h
  split at h
  · rename_i ha
    injection h with h
    subst h
    have key : ∀ n, n ≠ "resolve_on_small_infeasibility" → n ≠ pre ++ "resolve_on_small_infeasibility" → given (readO s.o pre f) pre n = given s.o pre n := by
      intro n hn hn'
      unfold readO
      split
      · unfold given
        have : pre ++ n ≠ pre ++ "resolve_on_small_infeasibility" := by
          intro q
          apply hn
          have := congrArg String.toList q
          simp only [String.toList_append, List.append_cancel_left_eq] at this
          exact String.toList_injective this
        simp only [this, if_false, hn', if_false]
      · rfl
    have nodup : ∀ n ∈ used, n ≠ "resolve_on_small_infeasibility" → n ≠ pre ++ "resolve_on_small_infeasibility" := by
      intro n hn _ q
      have hs := congrArg String.toList q
      rw [String.toList_append] at hs
      have h30 : ("resolve_on_small_infeasibility".toList).length = 30 := by decide
      have hd : (String.toList n).drop ((String.toList n).length - 30) = "resolve_on_small_infeasibility".toList := by
        rw [hs, List.length_append, h30, Nat.add_sub_cancel, List.drop_left]
      have hall : ∀ k ∈ used, (String.toList k).drop ((String.toList k).length - 30) = "resolve_on_small_infeasibility".toList → k = "resolve_on_small_infeasibility" := by decide
      exact ‹n ≠ _› (hall n hn hd)
    have kg : ∀ n ∈ used, n ≠ "resolve_on_small_infeasibility" → given (readO s.o pre f) pre n = given s.o pre n := fun n hn h1 => key n h1 (nodup n hn h1)
    have kv : ∀ n ∈ used, n ≠ "resolve_on_small_infeasibility" → get reg (readO s.o pre f) pre n = get reg s.o pre n := fun n hn h1 => by
      unfold get; rw [kg n hn h1]
    have ke : given (readO s.o pre f) pre "resolve_on_small_infeasibility" =
        if f = true ∧ ¬ (given s.o pre "resolve_on_small_infeasibility").isSome then some (1 / 10 ^ 6) else given s.o pre "resolve_on_small_infeasibility" := by
      unfold readO
      split
      · simp [given]
      · rfl
    have ko : readO (readO s.o pre f) pre f = readO s.o pre f := by
      rw [readO, ke, if_neg]
      rintro ⟨h1, h2⟩
      split at h2 <;> simp_all
    have km : readM reg (readO s.o pre f) pre f (readM reg s.o pre f s.m) = readM reg s.o pre f s.m := by
      simp only [readM, M.mk.injEq, kv "nlp_log_level" (by decide) (by decide), kv "max_random_point_radius" (by decide) (by decide),
        kv "oa_cuts_log_level" (by decide) (by decide), kv "warm_start" (by decide) (by decide), kv "num_retry_unsolved_random_point" (by decide) (by decide),
        kv "num_resolve_at_root" (by decide) (by decide), kv "num_resolve_at_node" (by decide) (by decide), kv "num_resolve_at_infeasibles" (by decide) (by decide),
        kv "num_iterations_suspect" (by decide) (by decide), kv "nlp_failure_behavior" (by decide) (by decide), kv "warm_start_bound_frac" (by decide) (by decide),
        kv "tiny_element" (by decide) (by decide), kv "very_tiny_element" (by decide) (by decide), kv "oa_rhs_relax" (by decide) (by decide),
        kv "random_point_perturbation_interval" (by decide) (by decide), kv "random_point_type" (by decide) (by decide),
        kv "cut_strengthening_type" (by decide) (by decide), kv "nlp_lower_bound_inf" (by decide) (by decide), kv "nlp_upper_bound_inf" (by decide) (by decide),
        true_and, and_true]
      refine ⟨?_, ?_⟩
      · unfold get
        rw [ke]
        dsimp only
        split
        · simp
        · rename_i hq
          rfl
      · cases s.m.strengthener <;> simp
    unfold extract
    rw [if_pos, ko, km]
    rw [List.all_eq_true]
    intro n hn
    by_cases hne : n = "resolve_on_small_infeasibility"
    · subst hne
      rw [ke]
      split
      · simp
      · exact List.all_eq_true.1 ha _ hn
    · rw [kg n hn hne]
      exact List.all_eq_true.1 ha n hn
  · cases h

/-- The options about the dynamic decrement. -/
def dynNames : List String := ["dynamic_def_cutoff_decr", "coeff_var_threshold", "first_perc_for_cutoff_decr", "second_perc_for_cutoff_decr"]

/-- C90, refuted: the options about the dynamic decrement have no effect: two option lists that differ only in them are read alike. -/
theorem dynamic_ignored (reg : Opts) (pre : String) (f : Bool) (m : M) (o o' : Opts)
    (h : ∀ n, (∀ d ∈ dynNames, n ≠ d ∧ n ≠ pre ++ d) → o n = o' n) (hp : ∀ n ∈ used, ∀ d ∈ dynNames, n ≠ pre ++ d ∧ pre ++ n ≠ d) :
    (extract reg pre f ⟨m, o⟩).map (·.m) = (extract reg pre f ⟨m, o'⟩).map (·.m) := by
  have hu : ∀ n ∈ used, ∀ d ∈ dynNames, n ≠ d := by decide
  have hg : ∀ n ∈ used, given o pre n = given o' pre n := by
    intro n hn
    unfold given
    rw [h n fun d hd => ⟨hu n hn d hd, (hp n hn d hd).1⟩, h (pre ++ n) fun d hd => ⟨(hp n hn d hd).2, fun q => hu n hn d hd ?_⟩]
    have := congrArg String.toList q
    simp only [String.toList_append, List.append_cancel_left_eq] at this
    exact String.toList_injective this
  have hv : ∀ n ∈ used, get reg o pre n = get reg o' pre n := fun n hn => by unfold get; rw [hg n hn]
  have hm : readM reg o pre f m = readM reg o' pre f m := by
    simp only [readM, hv "nlp_log_level" (by decide), hv "max_random_point_radius" (by decide),
        hv "oa_cuts_log_level" (by decide), hv "warm_start" (by decide), hv "num_retry_unsolved_random_point" (by decide),
        hv "num_resolve_at_root" (by decide), hv "num_resolve_at_node" (by decide), hv "num_resolve_at_infeasibles" (by decide),
        hv "num_iterations_suspect" (by decide), hv "nlp_failure_behavior" (by decide), hv "warm_start_bound_frac" (by decide),
        hv "tiny_element" (by decide), hv "very_tiny_element" (by decide), hv "oa_rhs_relax" (by decide),
        hv "random_point_perturbation_interval" (by decide), hv "random_point_type" (by decide),
        hv "cut_strengthening_type" (by decide), hv "nlp_lower_bound_inf" (by decide), hv "nlp_upper_bound_inf" (by decide), hv "resolve_on_small_infeasibility" (by decide)]
  have hl : used.all (fun n => (reg n).isSome || (given o pre n).isSome) = used.all (fun n => (reg n).isSome || (given o' pre n).isSome) := by
    rw [Bool.eq_iff_iff, List.all_eq_true, List.all_eq_true]
    exact ⟨fun q n hn => hg n hn ▸ q n hn, fun q n hn => hg n hn ▸ q n hn⟩
  unfold extract
  dsimp only
  rw [hl]
  split
  · simp [hm]
  · rfl

/-- The value given to `setNewCutoffDecr`. -/
def Op.decr : Op → Option ℚ
  | .setDecr q => some q
  | _ => none

/-- The last value given to `setNewCutoffDecr`. -/
def lastDecr : List Op → Option ℚ
  | [] => none
  | a :: l => (lastDecr l).or a.decr

theorem step_dynamic (reg : Opts) (pre : String) (h h' : H) (a : Op) (hd : h.s.m.dynamic = false) (hs : step reg pre h a = some h') :
    h'.s.m.dynamic = false ∧ h'.d = (a.decr.map Dec.val).or h.d := by
  cases a with
  | read f =>
    simp only [step, extract] at hs
    split at hs
    · simp only [Option.map_some, Option.some.injEq] at hs
      subst hs
      exact ⟨hd, rfl⟩
    · simp at hs
  | set n v => simp only [step, Option.some.injEq] at hs; subst hs; exact ⟨hd, rfl⟩
  | cost st rs => simp only [step, Option.some.injEq] at hs; subst hs; refine ⟨hd, ?_⟩; simp [newDecr, hd, Op.decr]
  | setDecr q => simp only [step, Option.some.injEq] at hs; subst hs; exact ⟨hd, rfl⟩
  | rootDone => simp only [step, Option.some.injEq] at hs; subst hs; exact ⟨hd, rfl⟩

theorem run_decr (reg : Opts) (pre : String) (os : List Op) : ∀ h h' : H, h.s.m.dynamic = false → run reg pre h os = some h' →
    h'.s.m.dynamic = false ∧ h'.d = ((lastDecr os).map Dec.val).or h.d := by
  induction os with
  | nil => intro h h' hd hr; simp only [run, Option.some.injEq] at hr; subst hr; exact ⟨hd, rfl⟩
  | cons a l ih =>
    intro h h' hd hr
    simp only [run, Option.bind_eq_some_iff] at hr
    obtain ⟨h1, hs, hr⟩ := hr
    obtain ⟨q1, q2⟩ := step_dynamic reg pre h h1 a hd hs
    obtain ⟨q3, q4⟩ := ih h1 h' q1 hr
    refine ⟨q3, ?_⟩
    rw [q4, q2, lastDecr]
    cases lastDecr l <;> cases a.decr <;> rfl

/-- C90, refuted: whatever options are set and read and whatever solves are made, the decrement is the one set by a call of `setNewCutoffDecr`, never a computed one. -/
theorem decrement_never_computed (reg : Opts) (pre : String) (os : List Op) (h' : H) (hr : run reg pre {} os = some h') : h'.d = (lastDecr os).map Dec.val := by
  have := (run_decr reg pre os {} h' rfl hr).2
  rw [this]
  cases lastDecr os <;> rfl

/-- Settings kept by operations other than reading and the first root solve. -/
theorem settings_kept (reg : Opts) (pre : String) (h h' : H) (a : Op) (hs : step reg pre h a = some h') (ha : ∀ f, a ≠ .read f) (hr : a ≠ .rootDone) : h'.s.m = h.s.m := by
  cases a with
  | read f => exact absurd rfl (ha f)
  | rootDone => exact absurd rfl hr
  | _ => simp only [step, Option.some.injEq] at hs; subst hs; rfl

theorem strengthener_step (reg : Opts) (pre : String) (h h' : H) (a : Op) (hs : step reg pre h a = some h') (hm : h.s.m.strengthener = true) : h'.s.m.strengthener = true := by
  cases a with
  | read f =>
    simp only [step, extract] at hs
    split at hs
    · simp only [Option.map_some, Option.some.injEq] at hs
      subst hs
      simp [readM, hm]
    · simp at hs
  | _ => simp only [step, Option.some.injEq] at hs; subst hs; exact hm

/-- C90, refuted: once cut strengthening was switched on, setting the option back to "none" and reading it again does not switch it off. -/
theorem strengthener_stays (reg : Opts) (pre : String) (os : List Op) : ∀ h h' : H, run reg pre h os = some h' → h.s.m.strengthener = true → h'.s.m.strengthener = true := by
  induction os with
  | nil => intro h h' hr hm; simp only [run, Option.some.injEq] at hr; exact hr ▸ hm
  | cons a l ih =>
    intro h h' hr hm
    simp only [run, Option.bind_eq_some_iff] at hr
    obtain ⟨h1, hs, hr⟩ := hr
    exact ih h1 h' hr (strengthener_step reg pre h h1 a hs hm)

/-- C90: an interface created anew has the strengthener exactly if the option asks for it. -/
theorem strengthener_partial (reg : Opts) (pre : String) (f : Bool) (s s' : S) (hs : s.m.strengthener = false) (h : extract reg pre f s = some s') :
    s'.m.strengthener = true ↔ ∃ v, IsValue reg s.o pre "cut_strengthening_type" v ∧ v ≠ 0 := by
  have := (read_exact reg pre f s s' h).2.2.2.2.2.2.2.2.2.2.2.2.2.2.2.2.2.2.2.2
  rw [this, hs]
  simp

/-- C90, refuted: the value that filterSQP uses by default is written into the option list; another solver that reads the list later takes it as given by the user. -/
theorem filter_default_leaks (reg : Opts) (pre : String) (s s1 s2 : S) (hg : ¬ IsGiven s.o pre "resolve_on_small_infeasibility")
    (h1 : extract reg pre true s = some s1) (h2 : extract reg pre false s1 = some s2) : s2.m.infeasEps = 1 / 10 ^ 6 := by
  have hn : ¬ (given s.o pre "resolve_on_small_infeasibility").isSome = true := fun q => hg ((given_spec reg s.o pre _).1 q)
  have ho : s1.o = fun n => if n = pre ++ "resolve_on_small_infeasibility" then some (1 / 10 ^ 6) else s.o n := by
    unfold extract at h1
    split at h1
    · injection h1 with h1
      subst h1
      exact if_pos ⟨rfl, hn⟩
    · cases h1
  have := (read_exact reg pre false s1 s2 h2).2.2.2.2.2.2.2.2.2.2.2.2.2.2.2.2.2.2.1 (.inl rfl)
  rcases this with ⟨w, a, b⟩ | ⟨a, _⟩ | ⟨a, _⟩
  · rw [ho] at a; simp at a; rw [b, ← a]; norm_num
  · rw [ho] at a; simp at a
  · rw [ho] at a; simp at a

/-! ### The small infeasibility threshold -/

/-- C90, refuted: `resolve` with a warm start does not use the option `resolve_on_small_infeasibility`. -/
theorem resolve_ignores_eps (c : Cfg) (e : ℚ) (o : ℕ → Outcome) (s : Verif.Itf.S) (hw : s.warm = true) : resolve c o s = resolve { c with infeasEps := e } o s := by
  unfold resolve
  rw [if_neg (by simp [hw]), if_neg (by simp [hw])]
  rfl

/-- Threshold 1/10, one retry for unsolved problems; an infeasible problem with objective 1/100: the first solve is retried, the warm started one is not. -/
def exCfg : Cfg := ⟨0, 1, 0, 0, 1 / 10, 10 ^ 300, true⟩
def exOut : ℕ → Outcome := fun _ => ⟨.provenInfeasible, 1 / 100, [], [], []⟩
def exS (w : Bool) : Verif.Itf.S := ⟨.solvedOptimal, 0, [], [], [], false, false, true, 0, w, 0⟩
def Res.calls : Res → ℕ
  | .ok s => s.calls
  | .thrown s => s.calls
example : Res.calls (resolve exCfg exOut (exS false)) = 2 ∧ Res.calls (resolve exCfg exOut (exS true)) = 1 := by decide +kernel

/-! ### The statistics -/

/-- Numbers of solves. -/
def numOpt (rs : List (Status × ℚ)) : ℕ := (rs.filter fun r => isOptSt r.1).length

/-- Neither optimal nor counted as failed or infeasible. -/
def Uncounted (sticky : Bool) (t : Status) : Prop := isOptSt t = false ∧ aband sticky t = false ∧ t ≠ .provenInfeasible

theorem den_exact (sticky : Bool) (rs : List (Status × ℚ)) [DecidablePred fun r : Status × ℚ => Uncounted sticky r.1] :
    den sticky rs = numOpt rs + (rs.filter fun r => decide (Uncounted sticky r.1)).length := by
  induction rs with
  | nil => rfl
  | cons r l ih =>
    unfold numOpt at *
    rw [den, ih]
    by_cases h1 : isOptSt r.1 = true
    · have h2 : aband sticky r.1 = false ∧ r.1 ≠ .provenInfeasible ∧ ¬ Uncounted sticky r.1 := by
        unfold isOptSt at h1
        rcases r with ⟨t, q⟩
        cases t <;> simp_all [aband, Uncounted, isOptSt]
      simp [h1, h2.1, h2.2.1, h2.2.2]
      ring
    · by_cases h3 : aband sticky r.1 = true
      · have : ¬ Uncounted sticky r.1 := fun q => by simp [q.2.1] at h3
        simp [h1, h3, this]
      · by_cases h4 : r.1 = .provenInfeasible
        · have : ¬ Uncounted sticky r.1 := fun q => q.2.2 h4
          simp [if_neg h3, if_pos h4, h1, this]
        · have : Uncounted sticky r.1 := ⟨by simpa using h1, by simpa using h3, h4⟩
          simp [h1, h3, h4, this]
          ring

theorem ofs_sum (rs : List (Status × ℚ)) : (ofs rs).sum = ((rs.filter fun r => isOptSt r.1).map (·.2)).sum := by
  induction rs with
  | nil => rfl
  | cons r l ih =>
    have e : ofs (r :: l) = (if isOptSt r.1 then r.2 else 0) :: ofs l := rfl
    rw [e, List.sum_cons, ih]
    by_cases h : isOptSt r.1 = true <;> simp [h]

/-- C90: with the switch on, if every solve is optimal, failed or infeasible, the mean is that of the optimal values. -/
theorem mean_partial (sticky : Bool) (rs : List (Status × ℚ)) (h : ∀ r ∈ rs, ¬ Uncounted sticky r.1) :
    mean sticky rs = ((rs.filter fun r => isOptSt r.1).map (·.2)).sum / numOpt rs := by
  classical
  have : rs.filter (fun r => decide (Uncounted sticky r.1)) = [] := by
    rw [List.filter_eq_nil_iff]
    intro r hr
    simpa using h r hr
  rw [mean, ofs_sum, den_exact, this]
  simp

/-- C90: with the switch on, if also no optimal value is 0, the variance is that of the optimal values. -/
theorem var_partial (sticky : Bool) (rs : List (Status × ℚ)) (h : ∀ r ∈ rs, ¬ Uncounted sticky r.1) (h0 : ∀ r ∈ rs, isOptSt r.1 = true → r.2 ≠ 0) :
    var sticky rs = (((rs.filter fun r => isOptSt r.1).map (·.2)).map fun v => (v - ((rs.filter fun r => isOptSt r.1).map (·.2)).sum / numOpt rs) ^ 2).sum / numOpt rs := by
  classical
  have hd : rs.filter (fun r => decide (Uncounted sticky r.1)) = [] := by
    rw [List.filter_eq_nil_iff]
    intro r hr
    simpa using h r hr
  have hf : (ofs rs).filter (· ≠ 0) = (rs.filter fun r => isOptSt r.1).map (·.2) := by
    clear h hd
    induction rs with
    | nil => rfl
    | cons r l ih =>
      have e : ofs (r :: l) = (if isOptSt r.1 then r.2 else 0) :: ofs l := rfl
      have i := ih fun r hr => h0 r (List.mem_cons_of_mem _ hr)
      rw [e, List.filter_cons, List.filter_cons, i]
      by_cases q : isOptSt r.1 = true
      · simp [q, h0 r List.mem_cons_self q]
      · simp [q]
  rw [var, hf, mean_partial sticky rs h, den_exact, hd]
  simp

/-- C90, refuted: a solve that stopped at a time limit counts as the value 0 in the mean. -/
theorem mean_counts_unsolved : mean false [(.solvedOptimal, 10), (.timeLimit, 7)] = 5 ∧ mean false [(.solvedOptimal, 10), (.iterationLimit, 7)] = 10 := by decide +kernel

/-- C90, refuted: optimal values equal to 0 are left out of the variance. -/
theorem variance_skips_zero : var false [(.solvedOptimal, 0), (.solvedOptimal, 4)] = 2 ∧ var false [(.solvedOptimal, 1), (.solvedOptimal, 5)] = 4 := by decide +kernel

/-- C90, refuted: with a negative mean the variation always counts as small, and the sign of the decrement changes. -/
theorem negative_mean (m : M) (sticky : Bool) (rs : List (Status × ℚ)) (hd : m.dynamic = true) (hm : mean sticky rs < 0) (hf : m.first < 0) :
    ∃ q, newDecr m sticky rs = some (.val q) ∧ q = mean sticky rs * m.first ∧ 0 < q := by
  have hr : rs ≠ [] := by rintro rfl; simp [mean, ofs, den] at hm
  have h0 : den sticky rs ≠ 0 := by intro q; simp [mean, q] at hm
  refine ⟨mean sticky rs * m.first, ?_, rfl, mul_pos_of_neg_of_neg hm hf⟩
  rw [newDecr, if_neg (by simp [hr, hd]), if_neg h0]
  simp [small, hm]

/-- C90: with a positive mean the first percentage is used exactly if the standard deviation is below a tenth of the mean. -/
theorem positive_mean_partial (m : M) (sticky : Bool) (rs : List (Status × ℚ)) (hd : m.dynamic = true) (hm : 0 < mean sticky rs) :
    newDecr m sticky rs = some (.val (mean sticky rs * if 100 * var sticky rs < mean sticky rs ^ 2 then m.first else m.second)) := by
  have hr : rs ≠ [] := by rintro rfl; simp [mean, ofs, den] at hm
  have h0 : den sticky rs ≠ 0 := by intro q; simp [mean, q] at hm
  rw [newDecr, if_neg (by simp [hr, hd]), if_neg h0, small, if_neg (not_lt.2 hm.le)]
  have : (0 < mean sticky rs ∧ var sticky rs < mean sticky rs ^ 2 / 100) ↔ 100 * var sticky rs < mean sticky rs ^ 2 := by
    rw [and_iff_right hm, lt_div_iff₀ (by norm_num), mul_comm]
  simp only [this, decide_eq_true_eq]

/-- C90, refuted: the threshold member is not used. -/
theorem threshold_unused (m : M) (t : ℚ) (sticky : Bool) (rs : List (Status × ℚ)) : newDecr { m with varThreshold := t } sticky rs = newDecr m sticky rs := rfl

/-- C90, refuted: if no extra solve gives a value the decrement is not a number. -/
theorem all_failed_nan (m : M) (sticky : Bool) (rs : List (Status × ℚ)) (hd : m.dynamic = true) (hr : rs ≠ []) (h : ∀ r ∈ rs, isOptSt r.1 = false ∧ ¬ Uncounted sticky r.1) :
    newDecr m sticky rs = some .nan := by
  classical
  have h1 : rs.filter (fun r => decide (Uncounted sticky r.1)) = [] := by
    rw [List.filter_eq_nil_iff]
    intro r q
    simpa using (h r q).2
  have h2 : rs.filter (fun r => isOptSt r.1) = [] := by
    rw [List.filter_eq_nil_iff]
    intro r q
    simp [(h r q).1]
  rw [newDecr, if_neg (by simp [hr, hd]), if_pos]
  rw [den_exact, numOpt, h1, h2]
  rfl

/-! ### Concrete cases -/

/-- All options registered; the defaults of 91-266 and of Ipopt. -/
def exReg : Opts := fun n =>
  if n = "nlp_log_level" then some 1 else if n = "max_random_point_radius" then some (10 ^ 5) else if n = "tiny_element" then some (1 / 10 ^ 8)
  else if n = "nlp_lower_bound_inf" then some (-10 ^ 19) else if n = "nlp_upper_bound_inf" then some (10 ^ 19) else some 0

/-- An option given with prefix, one without, one both ways. -/
def exO : Opts := fun n =>
  if n = "bonmin.num_resolve_at_root" then some 5 else if n = "tiny_element" then some (1 / 100) else if n = "nlp_log_level" then some 2
  else if n = "bonmin.nlp_log_level" then some 0 else if n = "nlp_upper_bound_inf" then some 1000 else if n = "cut_strengthening_type" then some 1 else none

example : (extract exReg "bonmin." true ⟨{}, exO⟩).map (fun s => (s.m.retryInitial, s.m.tiny, s.m.logLevel, s.m.infty)) = some (5, 1 / 100, 0, 1000) := by decide +kernel
example : (extract exReg "bonmin." true ⟨{}, exO⟩).map (fun s => (s.m.radius, s.m.infeasEps, s.m.strengthener)) = some (10, 1 / 10 ^ 6, true) := by decide +kernel
example : (extract exReg "bonmin." false ⟨{}, exO⟩).map (fun s => (s.m.radius, s.m.infeasEps, s.m.strengthener)) = some (10 ^ 5, 0, true) := by decide +kernel
example : (extract (fun n => if n = "warm_start" then none else some 0) "bonmin." false ⟨{}, exO⟩).isNone = true := by decide +kernel
/-- Switched on, read, switched off, read; the dynamic options, extra solves. -/
example : (run exReg "bonmin." {} [.set "cut_strengthening_type" 1, .read false, .set "cut_strengthening_type" 0, .read false, .set "bonmin.dynamic_def_cutoff_decr" 1, .read false,
    .cost false [(.solvedOptimal, 10), (.solvedOptimal, 11)]]).map (fun h => (h.s.m.strengthener, h.d)) = some (true, none) := by decide +kernel
example : (run exReg "bonmin." {} [.setDecr 3, .cost false [(.solvedOptimal, 10)], .read true]).map (·.d) = some (some (.val 3)) := by decide +kernel
example : newDecr { dynamic := true } false [(.solvedOptimal, 10), (.solvedOptimalTol, 11), (.provenInfeasible, 3)] = some (.val (-21 / 100)) := by decide +kernel
example : newDecr { dynamic := true } false [(.solvedOptimal, 10), (.solvedOptimal, 20)] = some (.val (-75 / 100)) := by decide +kernel
example : newDecr { dynamic := true } false [(.solvedOptimal, -10), (.solvedOptimal, -20)] = some (.val (3 / 10)) := by decide +kernel
example : newDecr { dynamic := true } false [(.provenInfeasible, -10)] = some .nan := by decide +kernel
/-- The hypothesis about prefixes of `dynamic_ignored` holds for the prefix in use. -/
example : ∀ n ∈ used, ∀ d ∈ dynNames, n ≠ "bonmin." ++ d ∧ "bonmin." ++ n ≠ d := by decide +kernel

/-- C90: failures of a solve are the six statuses of an unsuccessful run; none is called one while failures pass as infeasible. -/
theorem abandoned_iff (sticky : Bool) (t : Status) : aband sticky t = true ↔ sticky = false ∧
    (t = .iterationLimit ∨ t = .computationError ∨ t = .illDefinedProblem ∨ t = .illegalOption ∨ t = .externalException ∨ t = .exception) := by
  cases sticky <;> cases t <;> decide

/-- C90: once the root is done its retries are set to none; nothing else changes. -/
theorem root_done_exact (reg : Opts) (pre : String) (h h' : H) (hs : step reg pre h .rootDone = some h') :
    h'.s.m.retryInitial = 0 ∧ h'.s.o = h.s.o ∧ h'.d = h.d ∧ h'.s.m = { h.s.m with retryInitial := 0 } := by
  cases hs
  exact ⟨rfl, rfl, rfl, rfl⟩

/-- C90: giving an option changes that option only. -/
theorem option_set_exact (reg : Opts) (pre : String) (h h' : H) (n : String) (v : ℚ) (hs : step reg pre h (.set n v) = some h') :
    h'.s.o n = some v ∧ (∀ k, k ≠ n → h'.s.o k = h.s.o k) ∧ h'.s.m = h.s.m ∧ h'.d = h.d := by
  cases hs
  exact ⟨by simp, fun k hk => by simp [hk], rfl, rfl⟩

end Verif.Itf.Params

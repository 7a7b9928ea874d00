import Mathlib.Data.List.Basic
import Mathlib.Data.Finset.Attr
import Mathlib.Tactic.Common
/-! # C251: which NLP solver an interface gets

src/Interfaces/BonOsiTMINLPInterface.cpp: `initialize` 431-440, `setSolver` 442-444, `createApplication` 447-498, `setModel` 500-515; values of `nlp_solver` 54-62 and
src/Interfaces/BonOsiTMINLPInterface.hpp:37-41.

Simplifications: `Initialize("")` of a solver is an arbitrary answer of each call; option lists and problems are numbers; of `extractInterfaceParams` only the option list
that was read is kept; an exception is a verdict, the caller may catch it and go on with the object as it is then. -/
namespace Verif.Itf.Make

inductive Kind
  | ipopt
  | filter
  deriving DecidableEq, Repr

/-- `enum Solver` (BonOsiTMINLPInterface.hpp:37-41); the option has no other values. -/
inductive Choice
  | ipopt
  | filter
  | all
  deriving DecidableEq, Repr

/-- `app_` with whether `Initialize` succeeded on it, `debug_apps_`, `testOthers_`, the option list read by `extractInterfaceParams`, `tminlp_`. -/
structure St where
  app : Option (Kind × Bool)
  others : List Kind
  test : Bool
  params : Option ℕ
  model : Option ℕ
  deriving DecidableEq, Repr

/-- The default constructor (BonOsiTMINLPInterface.cpp:369-429). -/
def fresh : St := ⟨none, [], false, none, none⟩

inductive Verdict
  | fine
  /-- `SimpleError` of a solver that is not there. -/
  | missing
  /-- `CoinError` of a solver that cannot be initialised. -/
  | broken
  deriving DecidableEq, Repr

/-- The end of `createApplication` with solver `k` (BonOsiTMINLPInterface.cpp:487-496): what `Initialize` of the other solvers returns is not looked at. -/
def finish (s : St) (k : Kind) (o : ℕ) (ok : Kind → Bool) : St × Verdict :=
  if ok k then ({ s with app := some (k, true), params := some o }, .fine) else ({ s with app := some (k, false) }, .broken)

/-- `createApplication` (BonOsiTMINLPInterface.cpp:447-498); `f` is `BONMIN_HAS_FILTERSQP`. -/
def create (f : Bool) (s : St) (c : Choice) (o : ℕ) (ok : Kind → Bool) : St × Verdict :=
  match c with
  | .filter =>
    if f then finish { s with test := false, others := s.others ++ [.ipopt] } .filter o ok else ({ s with test := false }, .missing)
  | .ipopt => finish { s with test := false, others := s.others ++ if f then [.filter] else [] } .ipopt o ok
  | .all => if f then finish { s with test := true, others := s.others ++ [.ipopt] } .filter o ok else (s, .missing)

inductive Op
  /-- `initialize` with the value of `nlp_solver`, the option list, the problem and what `Initialize` of the solvers would return. -/
  | init (c : Choice) (o m : ℕ) (ok : Kind → Bool)
  /-- `setSolver` with a solver that is ready or not. -/
  | setSolver (k : Kind) (ready : Bool)

/-- One call. -/
def step (f : Bool) (s : St) : Op → St × Verdict
  | .setSolver k b => ({ s with app := some (k, b) }, .fine)
  | .init c o m ok =>
    match s.app with
    | some _ => ({ s with model := some m }, .fine)
    | none =>
      match create f s c o ok with
      | (t, .fine) => ({ t with model := some m }, .fine)
      | r => r

/-- Several calls; exceptions are caught. -/
def run (f : Bool) : St → List Op → St × List Verdict
  | s, [] => (s, [])
  | s, p :: ps => ((run f (step f s p).1 ps).1, (step f s p).2 :: (run f (step f s p).1 ps).2)

/-! ## Specification -/

/-- The solver a value of `nlp_solver` asks for in the first place. -/
def Choice.first : Choice → Kind
  | .ipopt => .ipopt
  | _ => .filter

/-- Solvers that are part of the program. -/
def Avail (f : Bool) (k : Kind) : Prop := k = .ipopt ∨ f = true

instance (f : Bool) (k : Kind) : Decidable (Avail f k) := inferInstanceAs (Decidable (_ ∨ _))

/-- The solvers of the program other than `k`. -/
def rest (f : Bool) (k : Kind) : List Kind := [Kind.ipopt, Kind.filter].filter fun j => decide (Avail f j ∧ j ≠ k)

/-! ## What holds -/

/-- **C251.** The first call of `initialize` ends normally exactly if the solver asked for is part of the program and can be initialised; otherwise the error tells which of
the two it was. -/
theorem first_verdict (f : Bool) (c : Choice) (o m : ℕ) (ok : Kind → Bool) :
    ((step f fresh (.init c o m ok)).2 = .fine ↔ Avail f c.first ∧ ok c.first = true) ∧
      ((step f fresh (.init c o m ok)).2 = .missing ↔ ¬ Avail f c.first) ∧
      ((step f fresh (.init c o m ok)).2 = .broken ↔ Avail f c.first ∧ ok c.first = false) := by
  cases c <;> cases f <;> cases h1 : ok .ipopt <;> cases h2 : ok .filter <;> simp [step, fresh, create, finish, Avail, Choice.first, h1, h2]

example : (step false fresh (.init .ipopt 3 7 fun _ => true)).2 = .fine := by decide +kernel
example : (step false fresh (.init .filter 3 7 fun _ => true)).2 = .missing := by decide +kernel

/-- **C251.** When it does, the interface has the solver asked for, initialised; the other solvers of the program at hand for comparisons, used for these exactly with `all`;
the parameters of the option list and the problem. -/
theorem first_state (f : Bool) (c : Choice) (o m : ℕ) (ok : Kind → Bool) (s : St) (h : step f fresh (.init c o m ok) = (s, .fine)) :
    s = ⟨some (c.first, true), rest f c.first, decide (c = .all), some o, some m⟩ := by
  cases c <;> cases f <;> cases h1 : ok .ipopt <;> cases h2 : ok .filter <;>
    simp_all [step, fresh, create, finish, Choice.first, rest, Avail, List.filter]

example : step true fresh (.init .all 3 7 fun _ => true) = (⟨some (.filter, true), [.ipopt], true, some 3, some 7⟩, .fine) := by decide +kernel

/-- **C251.** A call that ends with an error leaves problem and parameters alone. -/
theorem error_keeps (f : Bool) (s : St) (c : Choice) (o m : ℕ) (ok : Kind → Bool) (h : (step f s (.init c o m ok)).2 ≠ .fine) :
    (step f s (.init c o m ok)).1.model = s.model ∧ (step f s (.init c o m ok)).1.params = s.params ∧ s.app = none ∧
      ((step f s (.init c o m ok)).1.app = none ↔ (step f s (.init c o m ok)).2 = .missing) := by
  cases ha : s.app with
  | some a => simp [step, ha] at h
  | none =>
    cases c <;> cases f <;> cases h1 : ok .ipopt <;> cases h2 : ok .filter <;> simp_all [step, create, finish]

example : (step true fresh (.init .all 3 7 fun _ => false)).2 = .broken := by decide +kernel

/-- Calls of `initialize` only. -/
def Op.isInit : Op → Prop
  | .init .. => True
  | _ => False

/-- The call asks for a solver that is part of the program. -/
def Op.avail (f : Bool) : Op → Prop
  | .init c .. => Avail f c.first
  | _ => False

/-- Problem of a call. -/
def Op.model : Op → Option ℕ
  | .init _ _ m _ => some m
  | _ => none

theorem run_app (f : Bool) : ∀ (ps : List Op) (s : St) (a : Kind × Bool), s.app = some a → (∀ p ∈ ps, p.isInit) →
    run f s ps = ({ s with model := (ps.getLast?.bind Op.model).or s.model }, ps.map fun _ => .fine)
  | [], s, a, ha, _ => by cases s; simp [run]
  | p :: ps, s, a, ha, hp => by
    cases p with
    | setSolver k b => exact (hp _ List.mem_cons_self).elim
    | init c o m ok =>
      have hs : step f s (.init c o m ok) = ({ s with model := some m }, .fine) := by simp [step, ha]
      rw [run, hs, run_app f ps { s with model := some m } a ha fun p h => hp p (List.mem_cons_of_mem _ h)]
      cases ps with
      | nil => simp [Op.model]
      | cons q qs =>
        obtain ⟨r, hr⟩ : ∃ r, (q :: qs).getLast? = some r := ⟨_, List.getLast?_eq_getLast_of_ne_nil (by simp)⟩
        have hr' : r ∈ q :: qs := List.mem_of_getLast? hr
        have : (Op.init c o m ok :: q :: qs).getLast? = some r := by rw [List.getLast?_cons_cons, hr]
        rw [this, hr]
        cases r with
        | setSolver k b => exact (hp _ (List.mem_cons_of_mem _ hr')).elim
        | init c' o' m' ok' => simp [Op.model]

/-- **C251.** After any sequence of calls of `initialize`, of which the first ones ask for solvers that are not part of the program and the next one does not, solver,
comparisons and parameters are those of that next call, the later ones only change the problem; all of them end normally. -/
theorem history_exact (f : Bool) (pre post : List Op) (c : Choice) (o m : ℕ) (ok : Kind → Bool) (hpre : ∀ p ∈ pre, p.isInit ∧ ¬ p.avail f)
    (hc : Avail f c.first) (hpost : ∀ p ∈ post, p.isInit) :
    run f fresh (pre ++ .init c o m ok :: post) =
      (⟨some (c.first, ok c.first), rest f c.first, decide (c = .all), if ok c.first then some o else none,
          (post.getLast?.bind Op.model).or (if ok c.first then some m else none)⟩,
        pre.map (fun _ => .missing) ++ (if ok c.first then .fine else .broken) :: post.map fun _ => .fine) := by
  induction pre with
  | nil =>
    have key : step f fresh (.init c o m ok) = (⟨some (c.first, ok c.first), rest f c.first, decide (c = .all), if ok c.first then some o else none,
        if ok c.first then some m else none⟩, if ok c.first then .fine else .broken) := by
      cases c <;> cases f <;> cases h1 : ok .ipopt <;> cases h2 : ok .filter <;>
        simp_all [step, fresh, create, finish, Choice.first, rest, Avail, List.filter]
    simp only [List.nil_append, List.map_nil, run, key]
    rw [run_app f post _ (c.first, ok c.first) rfl hpost]
  | cons p ps ih =>
    obtain ⟨h1, h2⟩ := hpre p List.mem_cons_self
    cases p with
    | setSolver k b => exact h1.elim
    | init c' o' m' ok' =>
      have hs : step f fresh (.init c' o' m' ok') = (fresh, .missing) := by
        cases c' <;> cases f <;> simp_all [Op.avail, Avail, Choice.first, step, create, fresh]
      rw [List.cons_append, run, hs, ih fun p h => hpre p (List.mem_cons_of_mem _ h)]
      simp

example : run false fresh ([.init .all 1 1 fun _ => true] ++ .init .ipopt 2 2 (fun _ => true) :: [.init .all 3 3 fun _ => true]) =
    (⟨some (.ipopt, true), [], false, some 2, some 3⟩, [.missing, .fine, .fine]) := by decide +kernel

/-- **C251.** If all calls ask for solvers that are not part of the program, the interface stays as it was made. -/
theorem history_missing (f : Bool) : ∀ ps : List Op, (∀ p ∈ ps, p.isInit ∧ ¬ p.avail f) → run f fresh ps = (fresh, ps.map fun _ => .missing)
  | [], _ => rfl
  | p :: ps, h => by
    obtain ⟨h1, h2⟩ := h p List.mem_cons_self
    cases p with
    | setSolver k b => exact h1.elim
    | init c' o' m' ok' =>
      have hs : step f fresh (.init c' o' m' ok') = (fresh, .missing) := by
        cases c' <;> cases f <;> simp_all [Op.avail, Avail, Choice.first, step, create, fresh]
      rw [run, hs, history_missing f ps fun p hp => h p (List.mem_cons_of_mem _ hp)]
      rfl

/-- **C251.** What is claimed: when `initialize` ends normally, the solver is the one asked for, ready for use, and the options have been read. Here for the first call that
does not throw when no solver was given and none failed to initialise. -/
theorem initialised_partial (f : Bool) (pre : List Op) (c : Choice) (o m : ℕ) (ok : Kind → Bool) (hpre : ∀ p ∈ pre, p.isInit)
    (hv : ∀ v ∈ (run f fresh pre).2, v = .missing) (h : (step f (run f fresh pre).1 (.init c o m ok)).2 = .fine) :
    (step f (run f fresh pre).1 (.init c o m ok)).1.app = some (c.first, true) ∧ (step f (run f fresh pre).1 (.init c o m ok)).1.params = some o ∧
      (step f (run f fresh pre).1 (.init c o m ok)).1.model = some m := by
  have hf : (run f fresh pre).1 = fresh := by
    rw [history_missing f pre]
    intro p hp
    refine ⟨hpre p hp, fun ha => ?_⟩
    obtain ⟨a, b, rfl⟩ := List.append_of_mem hp
    clear hp h
    induction a with
    | nil =>
      cases p with
      | setSolver k b => exact ha.elim
      | init c' o' m' ok' =>
        have := hv _ List.mem_cons_self
        rw [(first_verdict f c' o' m' ok').2.1] at this
        exact this ha
    | cons q qs ih =>
      have hq := hv (step f fresh q).2 List.mem_cons_self
      cases q with
      | setSolver k b => exact (hpre _ List.mem_cons_self).elim
      | init c' o' m' ok' =>
        have hna := (first_verdict f c' o' m' ok').2.1.mp hq
        have hs : step f fresh (.init c' o' m' ok') = (fresh, .missing) := by
          cases c' <;> cases f <;> simp_all [Avail, Choice.first, step, create, fresh]
        refine ih (fun p h => hpre p (List.mem_cons_of_mem _ h)) fun v hv' => hv v ?_
        rw [List.cons_append, run, hs]
        exact List.mem_cons_of_mem _ hv'
  rw [hf] at h ⊢
  have := first_state f c o m ok (step f fresh (.init c o m ok)).1 (by rw [← h])
  rw [this]
  exact ⟨rfl, rfl, rfl⟩

example : (run false fresh [.init .filter 1 1 fun _ => true]).2 = [.missing] ∧
    (step false (run false fresh [.init .filter 1 1 fun _ => true]).1 (.init .ipopt 2 2 fun _ => true)).2 = .fine := by decide +kernel

/-! ## What does not hold -/

/-- **C251 (refuted).** After a solver failed to initialise, the next call of `initialize` ends normally: the solver is used although it is not initialised, and no option has been read. -/
theorem second_try_passes : run false fresh [.init .ipopt 1 1 (fun _ => false), .init .ipopt 1 1 (fun _ => false)] =
    (⟨some (.ipopt, false), [], false, none, some 1⟩, [.broken, .fine]) := by decide +kernel

/-- **C251 (refuted).** The second call of `initialize` ignores its options, the choice of the solver included. -/
theorem second_options_ignored : run true fresh [.init .ipopt 1 1 (fun _ => true), .init .filter 2 2 (fun _ => true)] =
    (⟨some (.ipopt, true), [.filter], false, some 1, some 2⟩, [.fine, .fine]) := by decide +kernel

/-- **C251 (refuted).** With a solver given by the user before, the options are not read. -/
theorem user_solver_unread : run true fresh [.setSolver .ipopt true, .init .ipopt 1 1 (fun _ => true)] =
    (⟨some (.ipopt, true), [], false, none, some 1⟩, [.fine, .fine]) := by decide +kernel

/-- **C251 (refuted).** "run all available solvers": without filterSQP this is an error although Ipopt is available. -/
theorem all_needs_filter : Avail false .ipopt ∧ step false fresh (.init .all 1 1 fun _ => true) = (fresh, .missing) := by decide +kernel

/-- **C251 (refuted).** A solver for comparisons that cannot be initialised is kept and used without an error. -/
theorem broken_other_kept : step true fresh (.init .all 1 1 fun k => k == .filter) = (⟨some (.filter, true), [.ipopt], true, some 1, some 1⟩, .fine) := by decide +kernel

end Verif.Itf.Make

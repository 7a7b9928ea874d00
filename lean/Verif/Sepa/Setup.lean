import Mathlib.Data.List.Basic
import Mathlib.Data.Int.Notation

/-!
# The setup for separable problems
(experimental/Separable/SepaSetup.cpp:21-136, experimental/Separable/SepaSetup.hpp:37-74, src/Algorithms/BonBonminSetup.cpp:63-103, 160-186, src/Algorithms/BonBabSetupBase.cpp:78-300, 680-738)

Of a setup the prefix of its options, the number of points its linearizer has to use and its heuristics are modelled; the heuristics of `BonminSetup`, for the algorithm and the options, are the parameter `base`.  Options are values for every prefix;
they exist once a file or a string of options has been read or an interface has given them, and `none` is a null pointer that is followed.  The copy with another interface treats these members as the plain copy does.
-/
namespace Verif.Sepa.Setup

/-- The options used (SepaSetup.cpp:50-60, 77-79, 115-128): algorithm B-OA or not, `initial_outer_description`, `number_approximations_initial_outer`, `heuristic_inner_approximation`. -/
structure Vals where
  oa : Bool
  outer : Bool
  approx : ℤ
  inner : Bool

/-- The name under which the heuristic is entered (SepaSetup.cpp:132). -/
def innerId : String := "InnerApproximation"

/-- A setup: prefix, options if there are any, `algo_` (B-OA or not) unless it is `Dummy`, `num_approx_` of the linearizer if there is one, names of the heuristics. -/
structure St where
  pre : String
  opts : Option (String → Vals)
  algo : Option Bool
  lin : Option ℤ
  heur : List String

/-- A new setup (SepaSetup.cpp:21-23, BonBabSetupBase.cpp:54-70). -/
def fresh : St := ⟨"bonmin.", none, none, none, []⟩

/-- `getAlgorithm` with options (src/Algorithms/BonBonminSetup.cpp:907-917): the one kept, else that of the option. -/
def algoOf (kept : Option Bool) (v : Vals) : Bool := kept.getD v.oa

/-- `initializeSepa` (110-136), called for B-OA only (39-41, 87-88, 106-107). -/
def sepa (oa : Bool) (v : Vals) : List String := if oa && v.inner then [innerId] else []

/-- Points of a new linearizer (80-83, 100-103; SepaTMINLP2OsiLP.hpp:30): 0 unless they are set. -/
def points (v : Vals) : ℤ := if v.outer then v.approx else 0

/-- What is done with setups, following one of them: options are read (`o`: all that are in force afterwards), `initialize` is called with a problem (`o`: the options in force after the file of options is read again) or with an interface
(`o`: the options of the interface), the setup is copied, or copied with another prefix (and the copy is followed). -/
inductive Op where
  | read (o : String → Vals)
  | init (o : String → Vals)
  | initItf (o : String → Vals)
  | copy
  | sub (pre : String)

/-- One step.  `initialize` (71-89, 92-108) takes the points from the options there are before the base class reads or replaces them (BonBabSetupBase.cpp:245-300); with a problem the algorithm is kept, with an interface it is not
(BonBonminSetup.cpp:160-186).  The plain copy copies its own, empty, list of heuristics (BonBabSetupBase.cpp:110-113, 162-165).  The copy with another prefix (34-42) takes over the linearizer (BonBabSetupBase.cpp:185) and makes new heuristics. -/
def step (base : Bool → Vals → List String) (s : St) : Op → Option St
  | .read o => some { s with opts := some o }
  | .init o => s.opts.map fun q => ⟨s.pre, some o, some (algoOf s.algo (o s.pre)), some (points (q s.pre)),
      s.heur ++ base (algoOf s.algo (o s.pre)) (o s.pre) ++ sepa (algoOf s.algo (o s.pre)) (o s.pre)⟩
  | .initItf o => s.opts.map fun q => ⟨s.pre, some o, s.algo, some (points (q s.pre)),
      s.heur ++ base (algoOf s.algo (o s.pre)) (o s.pre) ++ sepa (algoOf s.algo (o s.pre)) (o s.pre)⟩
  | .copy => some { s with heur := [] }
  | .sub p => s.opts.map fun q => ⟨p, some q, some (q p).oa, s.lin, base (q p).oa (q p) ++ sepa (q p).oa (q p)⟩

/-- A sequence of steps. -/
def run (base : Bool → Vals → List String) (s : St) : List Op → Option St
  | [] => some s
  | op :: ops => (step base s op).bind fun t => run base t ops

theorem run_append (base : Bool → Vals → List String) (l r : List Op) : ∀ s, run base s (l ++ r) = (run base s l).bind fun t => run base t r := by
  induction l with
  | nil => intro s; rfl
  | cons op l ih =>
    intro s
    simp only [List.cons_append, run]
    cases step base s op with
    | none => rfl
    | some t => exact ih t

/-- A call of `initialize`. -/
def Op.isInit : Op → Prop
  | .init _ => True
  | .initItf _ => True
  | _ => False

/-! ## Theorems -/

/-- **C322.** A sequence of calls on a setup without options is defined exactly if options are read before the first `initialize` and the first copy with another prefix. -/
theorem defined_iff (base : Bool → Vals → List String) : ∀ (ops : List Op) (s : St), (run base s ops).isSome ↔
    (s.opts.isSome ∨ ∀ l op r, ops = l ++ op :: r → ((∃ o, op = .init o) ∨ (∃ o, op = .initItf o) ∨ ∃ p, op = .sub p) → ∃ o, Op.read o ∈ l) := by
  intro ops
  induction ops with
  | nil => intro s; simp [run]
  | cons op ops ih =>
    intro s
    cases hs : s.opts with
    | some o =>
      have : ∃ t, step base s op = some t ∧ t.opts.isSome := by
        cases op with
        | read o' => exact ⟨_, rfl, rfl⟩
        | init o' => exact ⟨_, by simp only [step, hs, Option.map_some]; rfl, rfl⟩
        | initItf o' => exact ⟨_, by simp only [step, hs, Option.map_some]; rfl, rfl⟩
        | copy => exact ⟨_, rfl, by simp [hs]⟩
        | sub p => exact ⟨_, by simp only [step, hs, Option.map_some]; rfl, rfl⟩
      obtain ⟨t, h1, h2⟩ := this
      simp only [run, h1, Option.bind_some, (ih t).mpr (Or.inl h2), Option.isSome_some, true_or]
    | none =>
      simp only [Option.isSome_none, Bool.false_eq_true, false_or]
      cases op with
      | read o' =>
        simp only [run, step, Option.bind_some]
        refine iff_of_true ((ih _).mpr (Or.inl rfl)) ?_
        intro l op r e hop
        cases l with
        | nil =>
          injection e with e1 _
          subst e1
          rcases hop with ⟨p, h⟩ | ⟨p, h⟩ | ⟨p, h⟩ <;> cases h
        | cons x l =>
          injection e with e1 _
          subst e1
          exact ⟨o', List.mem_cons_self⟩
      | init o' =>
        have h1 : step base s (.init o') = none := by simp [step, hs]
        simp only [run, h1, Option.bind_none, Option.isSome_none, Bool.false_eq_true, false_iff]
        intro h
        obtain ⟨o, ho⟩ := h [] (.init o') ops rfl (Or.inl ⟨_, rfl⟩)
        cases ho
      | initItf o' =>
        have h1 : step base s (.initItf o') = none := by simp [step, hs]
        simp only [run, h1, Option.bind_none, Option.isSome_none, Bool.false_eq_true, false_iff]
        intro h
        obtain ⟨o, ho⟩ := h [] (.initItf o') ops rfl (Or.inr (Or.inl ⟨_, rfl⟩))
        cases ho
      | sub p =>
        have h1 : step base s (.sub p) = none := by simp [step, hs]
        simp only [run, h1, Option.bind_none, Option.isSome_none, Bool.false_eq_true, false_iff]
        intro h
        obtain ⟨o, ho⟩ := h [] (.sub p) ops rfl (Or.inr (Or.inr ⟨p, rfl⟩))
        cases ho
      | copy =>
        have h1 : step base s .copy = some { s with heur := [] } := rfl
        simp only [run, h1, Option.bind_some]
        rw [ih]
        simp only [hs, Option.isSome_none, Bool.false_eq_true, false_or]
        constructor
        · intro h l op r e hop
          cases l with
          | nil =>
            injection e with e1 _
            subst e1
            rcases hop with ⟨p, h⟩ | ⟨p, h⟩ | ⟨p, h⟩ <;> cases h
          | cons x l =>
            injection e with _ e2
            obtain ⟨o, ho⟩ := h l op r e2 hop
            exact ⟨o, List.mem_cons_of_mem _ ho⟩
        · intro h l op r e hop
          obtain ⟨o, ho⟩ := h (.copy :: l) op r (by rw [e]; rfl) hop
          rcases List.mem_cons.mp ho with h' | h'
          · cases h'
          · exact ⟨o, h'⟩

/-- **C322.** The linearizer uses the number of points given by the options that were in force when `initialize` was last called, for the prefix of the setup it was called on (0 without `initial_outer_description`). -/
theorem points_exact (base : Bool → Vals → List String) (l r : List Op) (op : Op) (s t u : St) (o : String → Vals) (h1 : run base s l = some t) (ho : t.opts = some o) (hop : op.isInit) (hr : ∀ x ∈ r, ¬ x.isInit)
    (h : run base s (l ++ op :: r) = some u) : u.lin = some (if (o t.pre).outer then (o t.pre).approx else 0) := by
  have keep : ∀ (r : List Op) (a b : St), (∀ x ∈ r, ¬ x.isInit) → run base a r = some b → b.lin = a.lin := by
    intro r
    induction r with
    | nil => intro a b _ h; cases h; rfl
    | cons op r ih =>
      intro a b hn h
      have hn' : ∀ x ∈ r, ¬ x.isInit := fun x hm => hn x (List.mem_cons_of_mem _ hm)
      cases op with
      | init o' => exact absurd trivial (hn _ List.mem_cons_self)
      | initItf o' => exact absurd trivial (hn _ List.mem_cons_self)
      | read o' => simp only [run, step, Option.bind_some] at h; rw [ih _ b hn' h]
      | copy => simp only [run, step, Option.bind_some] at h; rw [ih _ b hn' h]
      | sub p =>
        simp only [run, step] at h
        cases ha : a.opts with
        | none => rw [ha] at h; cases h
        | some o' => rw [ha] at h; simp only [Option.map_some, Option.bind_some] at h; rw [ih _ b hn' h]
  rw [run_append, h1] at h
  cases op with
  | init o' =>
    simp only [Option.bind_some, run, step, ho, Option.map_some] at h
    rw [keep r _ u hr h]; rfl
  | initItf o' =>
    simp only [Option.bind_some, run, step, ho, Option.map_some] at h
    rw [keep r _ u hr h]; rfl
  | read _ => exact absurd hop id
  | copy => exact absurd hop id
  | sub _ => exact absurd hop id

/-- **C322 (partial).** If the file of options is read and still says the same when the setup is initialized with a problem, points, algorithm and heuristics are those of the options: the inner approximation is used exactly if the algorithm is
B-OA and the option asks for it.  Missing: `initialize` with an interface, and calls after the first. -/
theorem init_exact_partial (base : Bool → Vals → List String) (o : String → Vals) : run base fresh [.read o, .init o] = some ⟨"bonmin.", some o, some (o "bonmin.").oa, some (if (o "bonmin.").outer then (o "bonmin.").approx else 0),
    base (o "bonmin.").oa (o "bonmin.") ++ if (o "bonmin.").oa = true ∧ (o "bonmin.").inner = true then ["InnerApproximation"] else []⟩ := by
  simp [run, step, fresh, sepa, innerId, algoOf, points]

/-- **C322.** Each further `initialize`, with a problem or an interface, adds to the heuristics those for its options and the algorithm kept from the first problem. -/
theorem init_adds (base : Bool → Vals → List String) (q o : String → Vals) (s : St) (oa : Bool) (hq : s.opts = some q) (ha : s.algo = some oa) (op : Op) (hop : op = .init o ∨ op = .initItf o) :
    (run base s [op]).map (fun t => (t.opts, t.algo, t.heur)) = some (some o, some oa, s.heur ++ base oa (o s.pre) ++ if oa = true ∧ (o s.pre).inner = true then ["InnerApproximation"] else []) := by
  rcases hop with rfl | rfl <;> simp [run, step, hq, ha, sepa, innerId, algoOf]

/-- **C322.** On a new setup `initialize` with an interface makes the heuristics for the options of the interface, and keeps no algorithm. -/
theorem itf_exact (base : Bool → Vals → List String) (q o : String → Vals) (s : St) (hq : s.opts = some q) (ha : s.algo = none) :
    (run base s [.initItf o]).map (fun t => (t.opts, t.algo, t.heur)) =
      some (some o, none, s.heur ++ base (o s.pre).oa (o s.pre) ++ if (o s.pre).oa = true ∧ (o s.pre).inner = true then ["InnerApproximation"] else []) := by
  simp [run, step, hq, ha, sepa, innerId, algoOf]

/-- **C322.** A copy with another prefix has the algorithm and the heuristics the options say for that prefix, whatever the setup copied has. -/
theorem sub_exact (base : Bool → Vals → List String) (o : String → Vals) (s : St) (p : String) (ho : s.opts = some o) :
    run base s [.sub p] = some ⟨p, some o, some (o p).oa, s.lin, base (o p).oa (o p) ++ if (o p).oa = true ∧ (o p).inner = true then ["InnerApproximation"] else []⟩ := by
  simp [run, step, ho, sepa, innerId]

/-- Options: B-OA with 50 points and the heuristic for the prefix `bonmin.`, with 10 points for every other one. -/
def exO : String → Vals := fun p => ⟨true, true, if p = "bonmin." then 50 else 10, true⟩

/-- Options: B-OA with 7 points and without the heuristic. -/
def exI : String → Vals := fun _ => ⟨true, true, 7, false⟩

/-- Options: another algorithm. -/
def exB : String → Vals := fun _ => ⟨false, true, 7, true⟩

example : (run (fun _ _ => ["dive"]) fresh [.read exO, .init exO]).map (fun t => (t.lin, t.heur)) = some (some 50, ["dive", "InnerApproximation"]) := by decide +kernel
example : (run (fun _ _ => []) fresh [.copy, .read exI, .read exO, .initItf exO, .sub "sub.", .init exO]).map (fun t => (t.pre, t.lin, t.heur)) = some ("sub.", some 10, ["InnerApproximation", "InnerApproximation"]) := by decide +kernel

/-- **C322 (refuted).** `initialize` with a problem or an interface, without options read before, follows a null pointer: the options are asked before the base class has them. -/
theorem init_unread (base : Bool → Vals → List String) (o : String → Vals) : run base fresh [.init o] = none ∧ run base fresh [.initItf o] = none := ⟨rfl, rfl⟩

/-- **C322 (refuted).** With an interface the number of points is that of the options of the setup, though the options of the interface, which are used for all else, say another one. -/
theorem itf_points : (run (fun _ _ => []) fresh [.read exO, .initItf exI]).map (fun t => (t.lin, t.heur)) = some (some 50, []) ∧ (exI "bonmin.").approx = 7 := by decide +kernel

/-- **C322 (refuted).** A copy with another prefix keeps the linearizer: it uses the number of points of the first prefix, not of its own. -/
theorem sub_points_kept : (run (fun _ _ => []) fresh [.read exO, .init exO, .sub "sub."]).map (fun t => (t.pre, t.lin)) = some ("sub.", some 50) ∧ (exO "sub.").approx = 10 := by decide +kernel

/-- **C322 (refuted).** A plain copy has no heuristics, whatever the setup copied has. -/
theorem copy_loses (base : Bool → Vals → List String) (s : St) : run base s [.copy] = some { s with heur := [] } := rfl

/-- **C322 (refuted).** `initialize` called twice with a problem enters the heuristics twice, and keeps the first algorithm though the options now say another one. -/
theorem init_twice : (run (fun _ _ => []) fresh [.read exO, .init exO, .init exB]).map (fun t => (t.algo, t.heur)) = some (some true, ["InnerApproximation", "InnerApproximation"]) ∧ (exB "bonmin.").oa = false := by decide +kernel

end Verif.Sepa.Setup

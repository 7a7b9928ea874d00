import Verif.Bab.Options
import Mathlib.Data.List.Basic
import Mathlib.Tactic.Common
/-! # C117: which source of options counts; C118: the algorithm chosen and repeated initialisation

src/Algorithms/BonBabSetupBase.cpp: `initializeOptionsAndJournalist` 647-679, `readOptionsFile` 682-708, `readOptionsString` 711-718, `readOptionsStream` 721-737, `use` 244-266, 290-300,
destructor 324-346; src/Algorithms/BonBabSetupBase.hpp:192-196; src/Algorithms/BonBonminSetup.cpp: `initialize` 162-187, `initializeBBB` 398-495, `initializeBHyb` 619-641, 710-736,
`getAlgorithm` 907-917; src/Algorithms/Ampl/BonAmplSetup.cpp:14-82.

A file (or string) of options is the list of its settings; Ipopt enters them so that they cannot be overwritten (`Verif.Bab.Options.set` with `false`).  Simplifications: settings Ipopt refuses
(which throw) are left out; what an initialisation writes to the options (C71, C72) is an arbitrary function. -/
namespace Verif.Bab.Init

open Verif.Bab.Options (Opts Entry find find_cons find_set_ne find_set_eq set_protected Protected)

/-- Contents of an options file. -/
abbrev Lines := List ((String × String) × ℤ)

/-- `OptionsList::ReadFromStream` as used in `readOptionsStream` (BonBabSetupBase.cpp:726-734). -/
def readLines (o : Opts) (l : Lines) : Opts := l.foldl (fun o e => Options.set o e.1 e.2 false) o

/-- Objects an initialisation makes: interface, linear solver, branching method, generators, heuristics (by number of the initialisation). -/
inductive Obj
  | nlp (k : ℕ) | lp (k : ℕ) | branch (k : ℕ) | gen (k j : ℕ) | heur (k j : ℕ)
  deriving DecidableEq, Repr

/-- The parts of a setup at stake; `algo = none` is `Dummy`; `made` are all objects made so far, `used` the algorithms set up (oldest first). -/
structure St where
  opts : Option Opts
  read : Bool
  algo : Option ℤ
  nl : Option Obj
  co : Option Obj
  br : Option Obj
  gens : List Obj
  heurs : List Obj
  made : List Obj
  used : List ℤ
  n : ℕ

/-- A setup just constructed (BonBabSetupBase.cpp:55-75, BonBonminSetup.cpp:64-65). -/
def new : St := ⟨none, false, none, none, none, none, [], [], [], [], 0⟩

/-- What an initialisation makes, apart from the interface: whether an LP solver is made, whether the variable selection asks for a branching method, how many generators and heuristics. -/
structure Parts where
  create : Bool
  branch : Bool
  gens : ℕ
  heurs : ℕ

/-- Registered defaults, and what an initialisation writes to the options. -/
structure Env where
  d : String → ℤ
  wr : ℤ → Opts → Opts

/-- `readOptionsStream` (BonBabSetupBase.cpp:721-737): a list of options is made if there is none. -/
def readSrc (l : Lines) (s : St) : St := { s with opts := some (readLines (s.opts.getD []) l), read := true }

/-- `getAlgorithm` (BonBonminSetup.cpp:907-917). -/
def getAlgorithm (E : Env) (s : St) : ℤ :=
  match s.algo with
  | some a => a
  | none => match s.opts with
    | some o => (Options.get E.d o "bonmin." "algorithm").2
    | none => 3

/-- `initializeBBB` and `initializeBHyb` as far as objects are concerned (BonBonminSetup.cpp:400, 623-641, 424-492, 710-736). -/
def setUp (E : Env) (a : ℤ) (p : Parts) (s : St) : St :=
  let k := s.n
  let s : St := { s with used := s.used ++ [a], n := k + 1, opts := s.opts.map (E.wr a) }
  let s : St := if a = 0 then { s with co := s.nl } else if p.create then { s with co := some (.lp k), made := s.made ++ [.lp k] } else s
  let s : St := if p.branch then { s with br := some (.branch k), made := s.made ++ [.branch k] } else s
  let g : List Obj := if a = 0 then [] else (List.range p.gens).map (.gen k)
  let h : List Obj := (List.range p.heurs).map (.heur k)
  { s with gens := s.gens ++ g, heurs := s.heurs ++ h, made := s.made ++ g ++ h }

/-- What a user can do. -/
inductive Op
  | fresh
  | str (l : Lines)
  | file (l : Lines)
  | dflt (l : Lines)
  | set (k : String × String) (v : ℤ) (clob : Bool)
  | initT (l : Lines) (p : Parts)
  | initN (o : Opts) (p : Parts)

/-- The functions: `initializeOptionsAndJournalist`, `readOptionsString`, `readOptionsFile` with a name, and without one (BonBabSetupBase.hpp:192-196; `l` is what `bonmin.opt` contains),
setting an option (`none`: there is no list yet), `initialize` from a problem (which reads `bonmin.opt` if nothing was read) and from an interface with options `o`. -/
def step (E : Env) (s : St) : Op → Option St
  | .fresh => some { s with opts := some [] }
  | .str l => some (readSrc l s)
  | .file l => some (readSrc l s)
  | .dflt l => some (if s.read then s else readSrc l s)
  | .set k v c => s.opts.map fun o => { s with opts := some (Options.set o k v c) }
  | .initT l p =>
    let s := if s.read then s else readSrc l s
    s.opts.map fun _ =>
      let s : St := { s with nl := some (.nlp s.n), made := s.made ++ [.nlp s.n] }
      let a := getAlgorithm E s
      setUp E a p { s with algo := some a }
  | .initN o p =>
    let s : St := { s with nl := some (.nlp s.n), made := s.made ++ [.nlp s.n], opts := some o, read := true }
    some (setUp E (getAlgorithm E s) p s)

def run (E : Env) : List Op → St → Option St
  | [], s => some s
  | op :: ops, s => (step E s op).bind (run E ops)

/-- What the destructor deletes (BonBabSetupBase.cpp:326-342). -/
def freed (s : St) : List Obj := (if s.nl ≠ s.co then s.nl.toList else []) ++ s.co.toList ++ s.br.toList ++ s.gens ++ s.heurs

/-! ## C117: sources of options -/

/-- The first setting of a name in a file. -/
def firstIn (l : Lines) (k : String × String) : Option ℤ := (l.find? fun e => decide (e.1 = k)).map Prod.snd

theorem find_readLines (l : Lines) : ∀ (o : Opts) (k : String × String),
    find (readLines o l) k = match find o k with
      | some e => if e.clob then match firstIn l k with | some v => some ⟨k, v, false⟩ | none => some e
                  else some e
      | none => (firstIn l k).map fun v => ⟨k, v, false⟩ := by
  induction l with
  | nil => intro o k; cases h : find o k <;> simp [readLines, firstIn, h]
  | cons e l ih =>
    intro o k
    have hr : readLines o (e :: l) = readLines (Options.set o e.1 e.2 false) l := rfl
    rw [hr, ih]
    by_cases hk : e.1 = k
    · have hf : firstIn (e :: l) k = some e.2 := by simp [firstIn, hk]
      by_cases hp : Protected o e.1
      · rw [set_protected o e.1 e.2 false hp, hf]
        obtain ⟨x, hx, hc⟩ := hp
        rw [hk] at hx
        simp [hx, hc]
      · rw [← hk, find_set_eq o e.1 e.2 false hp, hk, hf]
        cases hx : find o k with
        | none => simp
        | some x =>
          have : x.clob = true := by
            by_contra hc
            exact hp ⟨x, by rw [hk]; exact hx, by simpa using hc⟩
          simp [this]
    · have hf : firstIn (e :: l) k = firstIn l k := by simp [firstIn, hk]
      rw [find_set_ne o e.2 false hk, hf]

/-- **C117**: several sources read one after the other: for each name, what was entered before so that it cannot be overwritten stays; otherwise the first setting in the order of reading counts. -/
theorem first_source_wins (E : Env) (src : List Lines) (s : St) (k : String × String) :
    ∃ t, run E (src.map Op.file) s = some t ∧ (src ≠ [] → t.read = true) ∧
      find (t.opts.getD []) k = match find (s.opts.getD []) k with
        | some e => if e.clob then match firstIn src.flatten k with | some v => some ⟨k, v, false⟩ | none => some e
                    else some e
        | none => (firstIn src.flatten k).map fun v => ⟨k, v, false⟩ := by
  have key : ∀ (src : List Lines) (s : St), ∃ t, run E (src.map Op.file) s = some t ∧ (s.read = true → t.read = true) ∧ (src ≠ [] → t.read = true) ∧
      t.opts.getD [] = readLines (s.opts.getD []) src.flatten := by
    intro src
    induction src with
    | nil => intro s; exact ⟨s, rfl, id, fun h => absurd rfl h, rfl⟩
    | cons l ls ih =>
      intro s
      obtain ⟨t, h1, h2, h3, h4⟩ := ih (readSrc l s)
      refine ⟨t, ?_, fun _ => h2 rfl, fun _ => h2 rfl, ?_⟩
      · simpa [run, step] using h1
      · rw [h4]
        simp [readSrc, readLines, List.foldl_append]
  obtain ⟨t, h1, -, h3, h4⟩ := key src s
  refine ⟨t, h1, h3, ?_⟩
  rw [h4, find_readLines]

/-- **C117**: the file `bonmin.opt` is read, by `readOptionsFile()` or when the setup is initialised from a problem, exactly if nothing was read before; a string counts as well as a file. -/
theorem default_file_read (E : Env) (s : St) (l : Lines) :
    (s.read = true → step E s (.dflt l) = some s) ∧ (s.read = false → step E s (.dflt l) = step E s (.file l)) ∧
    (∀ p, step E s (.initT l p) = (step E s (.dflt l)).bind fun t => step E t (.initT [] p)) ∧ (∀ l', step E s (.str l') = step E s (.file l')) := by
  refine ⟨fun h => by simp [step, h], fun h => by simp [step, h], fun p => ?_, fun _ => rfl⟩
  by_cases h : s.read
  · simp [step, h]
  · simp [step, h, readSrc]

/-- **C117**: an option set by the program before the file is read is overwritten by the file unless it was set so as not to allow this; one set after the file has been read never replaces a
value of the file. -/
theorem program_and_file (E : Env) (s : St) (k : String × String) (v w : ℤ) (c : Bool) (l : Lines) (o : Opts) (ho : s.opts = some o) (hk : find o k = none) (hl : firstIn l k = some w) :
    (∃ t, run E [.set k v c, .file l] s = some t ∧ (find (t.opts.getD []) k).map Entry.val = some (if c then w else v)) ∧
    (∃ t, run E [.file l, .set k v c] s = some t ∧ (find (t.opts.getD []) k).map Entry.val = some w) := by
  constructor
  · refine ⟨readSrc l { s with opts := some (Options.set o k v c) }, by simp [run, step, ho], ?_⟩
    have hp : ¬ Protected o k := by rintro ⟨e, he, -⟩; rw [hk] at he; exact absurd he (by simp)
    simp only [readSrc, Option.getD_some]
    rw [find_readLines, find_set_eq o k v c hp, hl]
    cases c <;> simp
  · have hf : find (readLines o l) k = some ⟨k, w, false⟩ := by rw [find_readLines, hk, hl]; rfl
    refine ⟨{ readSrc l s with opts := some (Options.set (readLines o l) k v c) }, by simp [run, step, readSrc, ho], ?_⟩
    simp only [Option.getD_some]
    rw [set_protected _ _ _ _ ⟨_, hf, rfl⟩, hf]
    rfl

/-- **C117** refuted for a list of options made anew: everything read is forgotten, but `bonmin.opt` counts as read and is not read again. -/
theorem fresh_forgets (E : Env) (s : St) (l l' : Lines) : ∃ t, run E [.file l, .fresh, .dflt l'] s = some t ∧ t.opts = some [] :=
  ⟨{ readSrc l s with opts := some [] }, by simp [run, step, readSrc], rfl⟩

/-- **C117** refuted without a list of options: setting an option before anything was read is a NULL access. -/
theorem set_first_crashes (E : Env) (k : String × String) (v : ℤ) (c : Bool) : step E new (.set k v c) = none := rfl

/-! ## C118: algorithm and repeated initialisation -/

theorem setUp_fields (E : Env) (a : ℤ) (p : Parts) (s : St) : (setUp E a p s).algo = s.algo ∧ (setUp E a p s).used = s.used ++ [a] ∧ (setUp E a p s).n = s.n + 1 ∧
    (setUp E a p s).nl = s.nl ∧ (setUp E a p s).opts = s.opts.map (E.wr a) ∧ (setUp E a p s).read = s.read ∧
    (setUp E a p s).gens = s.gens ++ (if a = 0 then [] else (List.range p.gens).map (.gen s.n)) ∧ (setUp E a p s).heurs = s.heurs ++ (List.range p.heurs).map (.heur s.n) ∧
    (setUp E a p s).co = (if a = 0 then s.nl else if p.create then some (.lp s.n) else s.co) ∧ (setUp E a p s).br = (if p.branch then some (.branch s.n) else s.br) ∧
    (setUp E a p s).made = s.made ++ (if a ≠ 0 ∧ p.create = true then [.lp s.n] else []) ++ (if p.branch then [.branch s.n] else []) ++
      (if a = 0 then [] else (List.range p.gens).map (.gen s.n)) ++ (List.range p.heurs).map (.heur s.n) := by
  by_cases h0 : a = 0 <;> cases h1 : p.create <;> cases h2 : p.branch <;> simp [setUp, h0, h1, h2]

/-- **C118**: the algorithm set up by an initialisation: the one set up by the first initialisation from a problem, if there was one; otherwise the option at that moment.  Reading or setting
options later does not change it. -/
theorem algorithm_used (E : Env) (s t : St) (op : Op) (h : step E s op = some t) :
    (∀ l p, op = .initT l p → t.used = s.used ++ [s.algo.getD (Options.get E.d ((if s.read then s else readSrc l s).opts.getD []) "bonmin." "algorithm").2] ∧
      t.algo = t.used.getLast?) ∧
    (∀ o p, op = .initN o p → t.used = s.used ++ [s.algo.getD (Options.get E.d o "bonmin." "algorithm").2] ∧ t.algo = s.algo) ∧
    ((∀ l p, op ≠ .initT l p) → (∀ o p, op ≠ .initN o p) → t.used = s.used ∧ t.algo = s.algo) := by
  cases op with
  | fresh => simp [step] at h; subst h; simp
  | str l => simp [step, readSrc] at h; subst h; simp
  | file l => simp [step, readSrc] at h; subst h; simp
  | dflt l =>
    simp only [step, Option.some.injEq] at h
    subst h
    by_cases hr : s.read <;> simp [hr, readSrc]
  | set k v c =>
    simp only [step, Option.map_eq_some_iff] at h
    obtain ⟨o, -, rfl⟩ := h
    simp
  | initT l p =>
    simp only [step, Option.map_eq_some_iff] at h
    obtain ⟨o, ho, rfl⟩ := h
    refine ⟨?_, ?_, ?_⟩
    · intro l' p' he
      obtain ⟨rfl, rfl⟩ : l = l' ∧ p = p' := by simpa using he
      obtain ⟨f1, f2, -⟩ := setUp_fields E (getAlgorithm E { (if s.read then s else readSrc l s) with nl := some (.nlp (if s.read then s else readSrc l s).n), made := (if s.read then s else readSrc l s).made ++ [.nlp (if s.read then s else readSrc l s).n] }) p
        { (if s.read then s else readSrc l s) with nl := some (.nlp (if s.read then s else readSrc l s).n), made := (if s.read then s else readSrc l s).made ++ [.nlp (if s.read then s else readSrc l s).n], algo := some (getAlgorithm E { (if s.read then s else readSrc l s) with nl := some (.nlp (if s.read then s else readSrc l s).n), made := (if s.read then s else readSrc l s).made ++ [.nlp (if s.read then s else readSrc l s).n] }) }
      have hal : (if s.read then s else readSrc l s).algo = s.algo := by by_cases hr : s.read <;> simp [hr, readSrc]
      have hus : (if s.read then s else readSrc l s).used = s.used := by by_cases hr : s.read <;> simp [hr, readSrc]
      rw [f1, f2]
      refine ⟨?_, by simp⟩
      rw [hus]
      congr 2
      unfold getAlgorithm
      simp only [hal, ho]
      cases s.algo <;> rfl
    · intro o' p' he; exact absurd he (by simp)
    · intro h1; exact absurd rfl (h1 l p)
  | initN o p =>
    simp only [step, Option.some.injEq] at h
    subst h
    refine ⟨fun l' p' he => absurd he (by simp), ?_, fun _ h2 => absurd rfl (h2 o p)⟩
    intro o' p' he
    obtain ⟨rfl, rfl⟩ : o = o' ∧ p = p' := by simpa using he
    obtain ⟨f1, f2, -⟩ := setUp_fields E (getAlgorithm E { s with nl := some (.nlp s.n), made := s.made ++ [.nlp s.n], opts := some o, read := true }) p
      { s with nl := some (.nlp s.n), made := s.made ++ [.nlp s.n], opts := some o, read := true }
    rw [f1, f2]
    refine ⟨?_, rfl⟩
    congr 2
    unfold getAlgorithm
    cases s.algo <;> rfl

/-- What holds of the objects in every history. -/
structure Inv (s : St) : Prop where
  nl : s.nl = if s.n = 0 then none else some (.nlp (s.n - 1))
  nlp : ∀ j, Obj.nlp j ∈ s.made ↔ j < s.n
  gen : ∀ k j, Obj.gen k j ∈ s.made ↔ Obj.gen k j ∈ s.gens
  heur : ∀ k j, Obj.heur k j ∈ s.made ↔ Obj.heur k j ∈ s.heurs
  gens : ∀ x ∈ s.gens, ∃ k j, x = .gen k j ∧ k < s.n
  heurs : ∀ x ∈ s.heurs, ∃ k j, x = .heur k j ∧ k < s.n
  co : ∀ x, s.co = some x → x ∈ s.made ∧ ((∃ k, x = .nlp k) ∨ ∃ k, x = .lp k)
  br : ∀ x, s.br = some x → x ∈ s.made ∧ ∃ k, x = .branch k
  lp : ∀ k, Obj.lp k ∈ s.made → k < s.n
  branch : ∀ k, Obj.branch k ∈ s.made → k < s.n

theorem inv_new : Inv new := by
  constructor <;> simp [new]

theorem inv_setUp (E : Env) (a : ℤ) (p : Parts) (s : St) (h : Inv s) (b : Option ℤ) (o : Option Opts) (r : Bool) :
    Inv (setUp E a p { s with nl := some (.nlp s.n), made := s.made ++ [.nlp s.n], algo := b, opts := o, read := r }) := by
  obtain ⟨-, -, f3, f4, -, -, f7, f8, f9, f10, f11⟩ := setUp_fields E a p { s with nl := some (.nlp s.n), made := s.made ++ [.nlp s.n], algo := b, opts := o, read := r }
  simp only at f3 f4 f7 f8 f9 f10 f11
  constructor
  · rw [f3, f4]; simp
  · intro j
    rw [f3, f11]
    simp only [List.mem_append, List.mem_singleton, h.nlp, Obj.nlp.injEq]
    have e1 : Obj.nlp j ∈ (if a ≠ 0 ∧ p.create = true then [Obj.lp s.n] else []) ↔ False := by split_ifs <;> simp
    have e2 : Obj.nlp j ∈ (if p.branch then [Obj.branch s.n] else []) ↔ False := by split_ifs <;> simp
    have e3 : Obj.nlp j ∈ (if a = 0 then [] else (List.range p.gens).map (Obj.gen s.n)) ↔ False := by split_ifs <;> simp
    have e4 : Obj.nlp j ∈ (List.range p.heurs).map (Obj.heur s.n) ↔ False := by simp
    rw [e1, e2, e3, e4]
    simp only [or_false]
    show (j < s.n ∨ j = s.n) ↔ j < s.n + 1
    omega
  · intro k j
    rw [f7, f11]
    simp only [List.mem_append, List.mem_singleton, h.gen]
    have e1 : Obj.gen k j ∈ (if a ≠ 0 ∧ p.create = true then [Obj.lp s.n] else []) ↔ False := by split_ifs <;> simp
    have e2 : Obj.gen k j ∈ (if p.branch then [Obj.branch s.n] else []) ↔ False := by split_ifs <;> simp
    have e4 : Obj.gen k j ∈ (List.range p.heurs).map (Obj.heur s.n) ↔ False := by simp
    rw [e1, e2, e4]; simp
  · intro k j
    rw [f8, f11]
    simp only [List.mem_append, List.mem_singleton, h.heur]
    have e1 : Obj.heur k j ∈ (if a ≠ 0 ∧ p.create = true then [Obj.lp s.n] else []) ↔ False := by split_ifs <;> simp
    have e2 : Obj.heur k j ∈ (if p.branch then [Obj.branch s.n] else []) ↔ False := by split_ifs <;> simp
    have e3 : Obj.heur k j ∈ (if a = 0 then [] else (List.range p.gens).map (Obj.gen s.n)) ↔ False := by split_ifs <;> simp
    rw [e1, e2, e3]; simp
  · intro x hx
    rw [f7, List.mem_append] at hx
    rw [f3]
    rcases hx with hx | hx
    · obtain ⟨k, j, e, hk⟩ := h.gens x hx
      exact ⟨k, j, e, by omega⟩
    · split_ifs at hx
      · exact absurd hx (by simp)
      · obtain ⟨j, -, rfl⟩ := List.mem_map.1 hx
        exact ⟨_, _, rfl, by omega⟩
  · intro x hx
    rw [f8, List.mem_append] at hx
    rw [f3]
    rcases hx with hx | hx
    · obtain ⟨k, j, e, hk⟩ := h.heurs x hx
      exact ⟨k, j, e, by omega⟩
    · obtain ⟨j, -, rfl⟩ := List.mem_map.1 hx
      exact ⟨_, _, rfl, by omega⟩
  · intro x hx
    rw [f9] at hx
    rw [f11]
    simp only [List.mem_append, List.mem_singleton]
    by_cases h0 : a = 0
    · rw [if_pos h0, Option.some.injEq] at hx
      subst hx
      exact ⟨by simp, Or.inl ⟨_, rfl⟩⟩
    · rw [if_neg h0] at hx
      by_cases hc : p.create = true
      · rw [if_pos hc, Option.some.injEq] at hx
        subst hx
        exact ⟨by simp [h0, hc], Or.inr ⟨_, rfl⟩⟩
      · rw [if_neg hc] at hx
        obtain ⟨h1, h2⟩ := h.co x hx
        exact ⟨by simp [h1], h2⟩
  · intro x hx
    rw [f10] at hx
    rw [f11]
    simp only [List.mem_append, List.mem_singleton]
    by_cases hb : p.branch = true
    · rw [if_pos hb, Option.some.injEq] at hx
      subst hx
      exact ⟨by simp [hb], _, rfl⟩
    · rw [if_neg hb] at hx
      obtain ⟨h1, h2⟩ := h.br x hx
      exact ⟨by simp [h1], h2⟩
  · intro k hk
    rw [f11] at hk
    rw [f3]
    simp only [List.mem_append, List.mem_singleton, reduceCtorEq, or_false] at hk
    rcases hk with (((hk | hk) | hk) | hk) | hk
    · have := h.lp k hk; omega
    · split_ifs at hk
      · simp at hk; omega
      · simp at hk
    · split_ifs at hk <;> simp at hk
    · split_ifs at hk <;> simp at hk
    · simp at hk
  · intro k hk
    rw [f11] at hk
    rw [f3]
    simp only [List.mem_append, List.mem_singleton, reduceCtorEq, or_false] at hk
    rcases hk with (((hk | hk) | hk) | hk) | hk
    · have := h.branch k hk; omega
    · split_ifs at hk <;> simp at hk
    · split_ifs at hk
      · simp at hk; omega
      · simp at hk
    · split_ifs at hk <;> simp at hk
    · simp at hk

theorem inv_step (E : Env) (s t : St) (op : Op) (h : Inv s) (hs : step E s op = some t) : Inv t := by
  have keep : ∀ (o : Option Opts) (r : Bool), Inv { s with opts := o, read := r } := fun o r => ⟨h.nl, h.nlp, h.gen, h.heur, h.gens, h.heurs, h.co, h.br, h.lp, h.branch⟩
  cases op with
  | fresh => simp only [step, Option.some.injEq] at hs; subst hs; exact keep (some []) s.read
  | str l => simp only [step, Option.some.injEq] at hs; subst hs; exact keep _ _
  | file l => simp only [step, Option.some.injEq] at hs; subst hs; exact keep _ _
  | dflt l =>
    simp only [step, Option.some.injEq] at hs
    subst hs
    split_ifs
    · exact h
    · exact keep _ _
  | set k v c =>
    simp only [step, Option.map_eq_some_iff] at hs
    obtain ⟨o, -, rfl⟩ := hs
    exact keep (some (Options.set o k v c)) s.read
  | initT l p =>
    simp only [step, Option.map_eq_some_iff] at hs
    obtain ⟨o, -, rfl⟩ := hs
    by_cases hr : s.read
    · simp only [show (if s.read = true then s else readSrc l s) = s from if_pos hr]
      exact inv_setUp E _ p s h _ s.opts s.read
    · simp only [show (if s.read = true then s else readSrc l s) = readSrc l s from if_neg hr]
      exact inv_setUp E _ p s h _ (readSrc l s).opts true
  | initN o p =>
    simp only [step, Option.some.injEq] at hs
    subst hs
    exact inv_setUp E _ p s h s.algo (some o) true

theorem inv_run (E : Env) : ∀ (ops : List Op) (s t : St), Inv s → run E ops s = some t → Inv t
  | [], s, t, h, hr => by
    simp only [run, Option.some.injEq] at hr
    exact hr ▸ h
  | op :: ops, s, t, h, hr => by
    simp only [run, Option.bind_eq_some_iff] at hr
    obtain ⟨u, hu, hr⟩ := hr
    exact inv_run E ops u t (inv_step E s u op h hu) hr

/-- **C118**: in every history, the interfaces made that are not deleted with the setup are those of all initialisations but the last, except one that still is the continuous solver;
generators and heuristics are all deleted; only objects made are deleted. -/
theorem leaks_exact (E : Env) (ops : List Op) (t : St) (h : run E ops new = some t) :
    (∀ j, (Obj.nlp j ∈ t.made ∧ Obj.nlp j ∉ freed t) ↔ j + 1 < t.n ∧ t.co ≠ some (.nlp j)) ∧
    (∀ k, (Obj.lp k ∈ t.made ∧ Obj.lp k ∉ freed t) ↔ Obj.lp k ∈ t.made ∧ t.co ≠ some (.lp k)) ∧
    (∀ k, (Obj.branch k ∈ t.made ∧ Obj.branch k ∉ freed t) ↔ Obj.branch k ∈ t.made ∧ t.br ≠ some (.branch k)) ∧
    (∀ k j, Obj.gen k j ∈ t.made → Obj.gen k j ∈ freed t) ∧ (∀ k j, Obj.heur k j ∈ t.made → Obj.heur k j ∈ freed t) ∧ (∀ x ∈ freed t, x ∈ t.made) := by
  have I := inv_run E ops new t inv_new h
  have hg : ∀ x, (∀ k j, x ≠ Obj.gen k j) → x ∉ t.gens := fun x hx hm => by obtain ⟨k, j, e, -⟩ := I.gens x hm; exact hx k j e
  have hh : ∀ x, (∀ k j, x ≠ Obj.heur k j) → x ∉ t.heurs := fun x hx hm => by obtain ⟨k, j, e, -⟩ := I.heurs x hm; exact hx k j e
  have hb : ∀ x, (∀ k, x ≠ Obj.branch k) → t.br ≠ some x := fun x hx hm => by obtain ⟨-, k, e⟩ := I.br x hm; exact hx k e
  have hfr : ∀ x, x ∈ freed t ↔ (t.nl ≠ t.co ∧ t.nl = some x) ∨ t.co = some x ∨ t.br = some x ∨ x ∈ t.gens ∨ x ∈ t.heurs := by
    intro x
    unfold freed
    split_ifs with hc
    · simp [hc]
    · simp [hc]
  refine ⟨?_, ?_, ?_, ?_, ?_, ?_⟩
  · intro j
    rw [hfr, I.nlp]
    have h1 := hg (.nlp j) (by simp)
    have h2 := hh (.nlp j) (by simp)
    have h3 := hb (.nlp j) (by simp)
    have hn := I.nl
    constructor
    · rintro ⟨hj, hf⟩
      have hco : t.co ≠ some (.nlp j) := fun hc => hf (Or.inr (Or.inl hc))
      refine ⟨?_, hco⟩
      by_contra hlt
      have hlast : t.nl = some (.nlp j) := by rw [hn, if_neg (by omega)]; congr 2; omega
      exact hf (Or.inl ⟨by rw [hlast]; exact fun hc => hco hc.symm, hlast⟩)
    · rintro ⟨hj, hco⟩
      refine ⟨by omega, ?_⟩
      rintro (⟨-, hx⟩ | hx | hx | hx | hx)
      · rw [hn, if_neg (by omega)] at hx
        simp at hx; omega
      · exact hco hx
      · exact h3 hx
      · exact h1 hx
      · exact h2 hx
  · intro k
    rw [hfr]
    have h1 := hg (.lp k) (by simp)
    have h2 := hh (.lp k) (by simp)
    have h3 := hb (.lp k) (by simp)
    have h4 : t.nl ≠ some (.lp k) := by rw [I.nl]; split_ifs <;> simp
    constructor
    · rintro ⟨hm, hf⟩
      exact ⟨hm, fun hc => hf (Or.inr (Or.inl hc))⟩
    · rintro ⟨hm, hc⟩
      refine ⟨hm, ?_⟩
      rintro (⟨-, hx⟩ | hx | hx | hx | hx)
      · exact h4 hx
      · exact hc hx
      · exact h3 hx
      · exact h1 hx
      · exact h2 hx
  · intro k
    rw [hfr]
    have h1 := hg (.branch k) (by simp)
    have h2 := hh (.branch k) (by simp)
    have h4 : t.nl ≠ some (.branch k) := by rw [I.nl]; split_ifs <;> simp
    have h5 : t.co ≠ some (.branch k) := fun hc => by obtain ⟨-, ⟨_, e⟩ | ⟨_, e⟩⟩ := I.co _ hc <;> simp at e
    constructor
    · rintro ⟨hm, hf⟩
      exact ⟨hm, fun hc => hf (Or.inr (Or.inr (Or.inl hc)))⟩
    · rintro ⟨hm, hc⟩
      refine ⟨hm, ?_⟩
      rintro (⟨-, hx⟩ | hx | hx | hx | hx)
      · exact h4 hx
      · exact h5 hx
      · exact hc hx
      · exact h1 hx
      · exact h2 hx
  · intro k j hm
    rw [hfr]
    exact Or.inr (Or.inr (Or.inr (Or.inl ((I.gen k j).1 hm))))
  · intro k j hm
    rw [hfr]
    exact Or.inr (Or.inr (Or.inr (Or.inr ((I.heur k j).1 hm))))
  · intro x hx
    rw [hfr] at hx
    rcases hx with ⟨-, hx⟩ | hx | hx | hx | hx
    · have hn := I.nl
      rw [hn] at hx
      split_ifs at hx with h0
      simp at hx
      rw [← hx, I.nlp]; omega
    · exact (I.co x hx).1
    · exact (I.br x hx).1
    · obtain ⟨k, j, rfl, -⟩ := I.gens x hx
      exact (I.gen k j).2 hx
    · obtain ⟨k, j, rfl, -⟩ := I.heurs x hx
      exact (I.heur k j).2 hx

/-- **C118**: every initialisation adds its generators and heuristics after those there are: after a second one, the checks of integer solutions are there twice. -/
theorem parts_accumulate (E : Env) (s t : St) (op : Op) (h : step E s op = some t) :
    (∀ l p, op = .initT l p → t.heurs = s.heurs ++ (List.range p.heurs).map (.heur s.n) ∧ (t.gens = s.gens ++ if t.algo = some 0 then [] else (List.range p.gens).map (.gen s.n)) ∧
      t.nl = some (.nlp s.n) ∧ t.co = (if t.algo = some 0 then some (.nlp s.n) else if p.create then some (.lp s.n) else s.co) ∧ t.br = (if p.branch then some (.branch s.n) else s.br)) := by
  intro l p he
  subst he
  simp only [step, Option.map_eq_some_iff] at h
  obtain ⟨o, -, rfl⟩ := h
  have key : ∀ (u : St) (a : ℤ), u.n = s.n → u.heurs = s.heurs → u.gens = s.gens → u.co = s.co → u.br = s.br →
      (setUp E a p { u with nl := some (.nlp u.n), made := u.made ++ [.nlp u.n], algo := some a }).heurs = s.heurs ++ (List.range p.heurs).map (.heur s.n) ∧
      ((setUp E a p { u with nl := some (.nlp u.n), made := u.made ++ [.nlp u.n], algo := some a }).gens = s.gens ++
        if (setUp E a p { u with nl := some (.nlp u.n), made := u.made ++ [.nlp u.n], algo := some a }).algo = some 0 then [] else (List.range p.gens).map (.gen s.n)) ∧
      (setUp E a p { u with nl := some (.nlp u.n), made := u.made ++ [.nlp u.n], algo := some a }).nl = some (.nlp s.n) ∧
      (setUp E a p { u with nl := some (.nlp u.n), made := u.made ++ [.nlp u.n], algo := some a }).co =
        (if (setUp E a p { u with nl := some (.nlp u.n), made := u.made ++ [.nlp u.n], algo := some a }).algo = some 0 then some (.nlp s.n) else if p.create then some (.lp s.n) else s.co) ∧
      (setUp E a p { u with nl := some (.nlp u.n), made := u.made ++ [.nlp u.n], algo := some a }).br = (if p.branch then some (.branch s.n) else s.br) := by
    intro u a e1 e2 e3 e4 e5
    obtain ⟨f1, -, -, f4, -, -, f7, f8, f9, f10, -⟩ := setUp_fields E a p { u with nl := some (.nlp u.n), made := u.made ++ [.nlp u.n], algo := some a }
    rw [f1, f4, f7, f8, f9, f10]
    simp [e1, e2, e3, e4, e5]
  by_cases hr : s.read
  · simp only [show (if s.read = true then s else readSrc l s) = s from if_pos hr]
    exact key s _ rfl rfl rfl rfl rfl
  · simp only [show (if s.read = true then s else readSrc l s) = readSrc l s from if_neg hr]
    exact key (readSrc l s) _ rfl rfl rfl rfl rfl

/-- **C118**, for one initialisation: the destructor deletes everything that was made, once. -/
theorem once_clean_partial (E : Env) (pre : List Op) (l : Lines) (p : Parts) (s t : St) (hpre : run E pre new = some s) (hn : s.n = 0) (h : step E s (.initT l p) = some t) :
    (∀ x, x ∈ t.made → x ∈ freed t) ∧ (freed t).Nodup := by
  have Is := inv_run E pre new s inv_new hpre
  have hall : run E (pre ++ [.initT l p]) new = some t := by
    have : ∀ (ops : List Op) (u : St), run E (ops ++ [.initT l p]) u = (run E ops u).bind fun v => step E v (.initT l p) := by
      intro ops
      induction ops with
      | nil => intro u; cases hh : step E u (.initT l p) <;> simp [run, hh]
      | cons o os ih => intro u; cases hh : step E u o <;> simp [run, hh, ih]
    rw [this, hpre]; exact h
  obtain ⟨l1, l2, l3, l4, l5, -⟩ := leaks_exact E _ t hall
  obtain ⟨c1, c2, c3, c4, c5⟩ := parts_accumulate E s t _ h l p rfl
  have hs1 : s.gens = [] := by
    cases hg : s.gens with
    | nil => rfl
    | cons x xs => obtain ⟨k, j, -, hk⟩ := Is.gens x (by rw [hg]; simp); omega
  have hs2 : s.heurs = [] := by
    cases hg : s.heurs with
    | nil => rfl
    | cons x xs => obtain ⟨k, j, -, hk⟩ := Is.heurs x (by rw [hg]; simp); omega
  have hs3 : s.co = none := by
    cases hg : s.co with
    | none => rfl
    | some x =>
      obtain ⟨hm, ⟨k, rfl⟩ | ⟨k, rfl⟩⟩ := Is.co x hg
      · have := (Is.nlp k).1 hm; omega
      · have := Is.lp k hm; omega
  have hs4 : s.br = none := by
    cases hg : s.br with
    | none => rfl
    | some x => obtain ⟨hm, k, rfl⟩ := Is.br x hg; have := Is.branch k hm; omega
  have hm : t.made = s.made ++ [.nlp s.n] ++ (if t.algo ≠ some 0 ∧ p.create = true then [.lp s.n] else []) ++ (if p.branch then [.branch s.n] else []) ++
      (if t.algo = some 0 then [] else (List.range p.gens).map (.gen s.n)) ++ (List.range p.heurs).map (.heur s.n) ∧ t.n = s.n + 1 := by
    simp only [step, Option.map_eq_some_iff] at h
    obtain ⟨o, -, rfl⟩ := h
    have key : ∀ (u : St) (a : ℤ), u.n = s.n → u.made = s.made →
        (setUp E a p { u with nl := some (.nlp u.n), made := u.made ++ [.nlp u.n], algo := some a }).made = s.made ++ [.nlp s.n] ++
          (if (setUp E a p { u with nl := some (.nlp u.n), made := u.made ++ [.nlp u.n], algo := some a }).algo ≠ some 0 ∧ p.create = true then [.lp s.n] else []) ++ (if p.branch then [.branch s.n] else []) ++
          (if (setUp E a p { u with nl := some (.nlp u.n), made := u.made ++ [.nlp u.n], algo := some a }).algo = some 0 then [] else (List.range p.gens).map (.gen s.n)) ++ (List.range p.heurs).map (.heur s.n) ∧
        (setUp E a p { u with nl := some (.nlp u.n), made := u.made ++ [.nlp u.n], algo := some a }).n = s.n + 1 := by
      intro u a e1 e2
      obtain ⟨f1, -, f3, -, -, -, -, -, -, -, f11⟩ := setUp_fields E a p { u with nl := some (.nlp u.n), made := u.made ++ [.nlp u.n], algo := some a }
      rw [f1, f3, f11]
      simp [e1, e2]
    by_cases hr : s.read
    · simp only [show (if s.read = true then s else readSrc l s) = s from if_pos hr]
      exact key s _ rfl rfl
    · simp only [show (if s.read = true then s else readSrc l s) = readSrc l s from if_neg hr]
      exact key (readSrc l s) _ rfl rfl
  obtain ⟨hm, htn⟩ := hm
  rw [hs1, List.nil_append] at c2
  rw [hs2, List.nil_append] at c1
  rw [hs3] at c4
  rw [hs4] at c5
  constructor
  · intro x hx
    by_contra hf
    cases x with
    | nlp j => have := (l1 j).1 ⟨hx, hf⟩; omega
    | lp k =>
      have h2 := ((l2 k).1 ⟨hx, hf⟩).2
      have hk : k = s.n ∧ t.algo ≠ some 0 ∧ p.create = true := by
        rw [hm] at hx
        simp only [List.mem_append, List.mem_singleton, reduceCtorEq, or_false] at hx
        rcases hx with (((hx | hx) | hx) | hx) | hx
        · have := Is.lp k hx; omega
        · split_ifs at hx with hc
          · simp at hx; exact ⟨hx, hc⟩
          · simp at hx
        · split_ifs at hx <;> simp at hx
        · split_ifs at hx <;> simp at hx
        · simp at hx
      rw [c4, if_neg hk.2.1, if_pos hk.2.2, hk.1] at h2
      exact h2 rfl
    | branch k =>
      have h2 := ((l3 k).1 ⟨hx, hf⟩).2
      have hk : k = s.n ∧ p.branch = true := by
        rw [hm] at hx
        simp only [List.mem_append, List.mem_singleton, reduceCtorEq, or_false] at hx
        rcases hx with (((hx | hx) | hx) | hx) | hx
        · have := Is.branch k hx; omega
        · split_ifs at hx <;> simp at hx
        · split_ifs at hx with hc
          · simp at hx; exact ⟨hx, hc⟩
          · simp at hx
        · split_ifs at hx <;> simp at hx
        · simp at hx
      rw [c5, if_pos hk.2, hk.1] at h2
      exact h2 rfl
    | gen k j => exact hf (l4 k j hx)
    | heur k j => exact hf (l5 k j hx)
  · unfold freed
    rw [c1, c2, c3, c4, c5]
    have n1 : ((List.range p.heurs).map (Obj.heur s.n)).Nodup := List.Nodup.map (fun a b hab => by simpa using hab) List.nodup_range
    have n2 : ((List.range p.gens).map (Obj.gen s.n)).Nodup := List.Nodup.map (fun a b hab => by simpa using hab) List.nodup_range
    by_cases h0 : t.algo = some 0 <;> cases hc : p.create <;> cases hb : p.branch <;> simp [h0, n1, n2, List.nodup_append]

/-- **C118** refuted: a second initialisation from a problem keeps the first algorithm although the option has been changed, and the first interface is lost. -/
theorem second_initialisation : ∃ t, run ⟨fun _ => 0, fun _ o => o⟩ [.fresh, .initT [] ⟨true, true, 4, 2⟩, .set ("bonmin.", "algorithm") 1 true, .initT [] ⟨true, true, 4, 2⟩] new = some t ∧
    t.used = [0, 0] ∧ (Options.get (fun _ => 0) (t.opts.getD []) "bonmin." "algorithm").2 = 1 ∧ t.made.filter (fun x => !(freed t).contains x) = [.nlp 0, .branch 0] := by
  refine ⟨_, rfl, ?_, ?_, ?_⟩ <;> decide +kernel

/-- The other way round: initialised from an interface, the option counts each time. -/
theorem interface_option_counts : ∃ t, run ⟨fun _ => 0, fun _ o => o⟩ [.initN [] ⟨true, true, 4, 2⟩, .initN [⟨("bonmin.", "algorithm"), 1, true⟩] ⟨true, false, 4, 2⟩] new = some t ∧ t.used = [0, 1] ∧
    t.algo = none ∧ t.made.filter (fun x => !(freed t).contains x) = [.nlp 0] := by
  refine ⟨_, rfl, ?_, ?_, ?_⟩ <;> decide +kernel

/-- A file and a string: the file comes first. -/
example : ∃ t, run ⟨fun _ => 0, fun _ o => o⟩ [.dflt [(("bonmin.", "algorithm"), 3)], .str [(("bonmin.", "algorithm"), 0), (("bonmin.", "node_limit"), 5)], .initT [] ⟨true, false, 5, 1⟩] new = some t ∧
    t.used = [3] ∧ (Options.get (fun _ => 0) (t.opts.getD []) "bonmin." "node_limit").2 = 5 := by
  refine ⟨_, rfl, ?_, ?_⟩ <;> decide +kernel

end Verif.Bab.Init

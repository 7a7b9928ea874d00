import Mathlib.Data.List.Basic
import Mathlib.Data.List.Nodup
import Mathlib.Data.List.Range
import Mathlib.Tactic.Common

/-!
# Copying a setup

`BabSetupBase::BabSetupBase(const BabSetupBase &)`, `BabSetupBase(const BabSetupBase &,
OsiTMINLPInterface &)` and the destructor (`Algorithms/BonBabSetupBase.cpp:78-178, 324-346`), the
`BonminSetup` constructors built on them and `initialize` (`Algorithms/BonBonminSetup.cpp:64-91,
163-187`).

Every owned object is a pair of an address and its content; `clone()` returns the same content at a
fresh address (addresses below `next` are in use).  Reference counted members (linearizer, journalist,
options), the message handler's identity and read-only members are not modelled.
-/

namespace Verif.Bab.Copies

/-- An owned object: address and content. -/
structure Ptr where
  addr : Nat
  what : Nat
  deriving DecidableEq

/-- The algorithms that matter here: `B_BB`, or one of the outer approximation algorithms. -/
inductive Alg | bb | hyb
  deriving DecidableEq

/-- Members of `BabSetupBase` / `BonminSetup`; `algo = none` is `Dummy`
(`BonBabSetupBase.hpp`, `BonBonminSetup.hpp:15-23, 90`). -/
structure Setup where
  nl : Option Ptr
  cont : Option Ptr
  handler : Bool
  cuts : List Ptr
  heurs : List Ptr
  branching : Option Ptr
  objects : List Ptr
  params : List ℕ
  algo : Option Alg
  deriving DecidableEq

/-- `clone()` of an optional member. -/
def cloneOpt (next : Nat) : Option Ptr → Option Ptr × Nat
  | none => (none, next)
  | some p => (some ⟨next, p.what⟩, next + 1)

/-- `clone()` of every element of a list, in order. -/
def cloneAll (next : Nat) : List Ptr → List Ptr × Nat
  | [] => ([], next)
  | p :: l =>
    let r := cloneAll (next + 1) l
    (⟨next, p.what⟩ :: r.1, r.2)

/-- Copy constructor (`BonBabSetupBase.cpp:78-126`, `BonBonminSetup.cpp:67-69`); `none`: line 103 uses
a null continuous solver.  The loop of lines 110-113 runs over the (empty) list under construction;
the clones of lines 123-125 are thrown away (they are leaked: their addresses stay in use). -/
def copy (s : Setup) (next : Nat) : Option (Setup × Nat) :=
  let a := cloneOpt next s.nl
  let b := cloneOpt a.2 s.cont
  if s.handler ∧ b.1 = none then none
  else
    let c := cloneAll b.2 s.cuts
    let d := cloneAll c.2 ([] : List Ptr)
    let e := cloneOpt d.2 s.branching
    let f := cloneAll e.2 s.objects
    some ({ nl := a.1, cont := b.1, handler := s.handler, cuts := c.1, heurs := d.1,
            branching := e.1, objects := s.objects, params := s.params, algo := s.algo }, f.2)

/-- Copy with another interface (`BonBabSetupBase.cpp:129-178`); `none`: line 155 uses a null
continuous solver. -/
def copyBase (s : Setup) (nlp : Ptr) (next : Nat) : Option (Setup × Nat) :=
  let cont := if s.cont ≠ s.nl then none else some nlp
  if s.handler ∧ cont = none then none
  else
    let c := cloneAll next s.cuts
    let d := cloneAll c.2 ([] : List Ptr)
    let e := cloneOpt d.2 s.branching
    let f := cloneAll e.2 s.objects
    some ({ nl := some nlp, cont := cont, handler := s.handler, cuts := c.1, heurs := d.1,
            branching := e.1, objects := s.objects, params := s.params, algo := s.algo }, f.2)

/-- `BonminSetup(other, nlp)` (`BonBonminSetup.cpp:71-91`): a linear relaxation (content `lp`) is built
unless the algorithm is branch-and-bound; `dbg`: assertions are compiled in (line 77). -/
def copyWith (dbg : Bool) (lp : Nat) (s : Setup) (nlp : Ptr) (next : Nat) : Option (Setup × Nat) :=
  match copyBase s nlp next with
  | none => none
  | some (t, n) =>
    if t.algo ≠ some .bb then
      if dbg ∧ t.cont ≠ none then none
      else some ({ t with cont := some ⟨n, lp⟩ }, n + 1)
    else some (t, n)

/-- Addresses deleted by the destructor (`BonBabSetupBase.cpp:324-346`). -/
def deleted (s : Setup) : List Nat :=
  (if s.nl ≠ s.cont then (s.nl.toList.map Ptr.addr) else []) ++ s.cont.toList.map Ptr.addr ++
  s.branching.toList.map Ptr.addr ++ s.cuts.map Ptr.addr ++ s.heurs.map Ptr.addr ++
  s.objects.map Ptr.addr

/-- `initialize(tminlp)` stores the algorithm (`BonBonminSetup.cpp:168`), `initialize(nlpSi)` only keeps
it in a local variable (line 181). -/
def initAlgo (fromInterface : Bool) (a : Alg) (s : Setup) : Setup :=
  if fromInterface then s else { s with algo := some a }

/-! ## Lemmas -/

theorem cloneAll_what (l : List Ptr) : ∀ n, (cloneAll n l).1.map Ptr.what = l.map Ptr.what := by
  induction l with
  | nil => intro n; rfl
  | cons p l ih => intro n; simp [cloneAll, ih]

theorem cloneAll_addr (l : List Ptr) : ∀ n,
    (cloneAll n l).1.map Ptr.addr = List.range' n l.length ∧ (cloneAll n l).2 = n + l.length := by
  induction l with
  | nil => intro n; exact ⟨rfl, rfl⟩
  | cons p l ih =>
    intro n
    obtain ⟨h1, h2⟩ := ih (n + 1)
    refine ⟨?_, ?_⟩
    · simp [cloneAll, h1, List.range'_succ]
    · simp [cloneAll, h2]; omega

theorem cloneOpt_what (o : Option Ptr) (n : Nat) :
    (cloneOpt n o).1.map Ptr.what = o.map Ptr.what := by
  cases o <;> rfl

theorem cloneOpt_addr (o : Option Ptr) (n : Nat) :
    (cloneOpt n o).1.toList.map Ptr.addr = List.range' n o.toList.length ∧
      (cloneOpt n o).2 = n + o.toList.length := by
  cases o <;> exact ⟨rfl, rfl⟩

/-! ## C74 -/

/-- Two setups with the same contents (specification: nothing about addresses). -/
def SameContents (s t : Setup) : Prop :=
  s.nl.map Ptr.what = t.nl.map Ptr.what ∧ s.cont.map Ptr.what = t.cont.map Ptr.what ∧
  s.handler = t.handler ∧ s.cuts.map Ptr.what = t.cuts.map Ptr.what ∧
  s.heurs.map Ptr.what = t.heurs.map Ptr.what ∧
  s.branching.map Ptr.what = t.branching.map Ptr.what ∧
  s.objects.map Ptr.what = t.objects.map Ptr.what ∧ s.params = t.params ∧ s.algo = t.algo

/-- **C74 (copy).**  For a setup without heuristics and without extra objects, whose handler is only set
together with a continuous solver: the copy has the same contents, and its destructor deletes
consecutive fresh addresses, each once. -/
theorem copy_partial (s : Setup) (next : Nat) (hh : s.heurs = []) (ho : s.objects = [])
    (hc : s.handler = true → s.cont.isSome) :
    ∃ t n, copy s next = some (t, n) ∧ SameContents s t ∧ (deleted t).Nodup ∧
      ∀ a ∈ deleted t, next ≤ a ∧ a < n := by
  have hcond : ¬ ((s.handler = true) ∧ (cloneOpt (cloneOpt next s.nl).2 s.cont).1 = none) := by
    rintro ⟨h1, h2⟩
    have := hc h1
    cases hx : s.cont with
    | none => rw [hx] at this; simp at this
    | some p => rw [hx] at h2; simp [cloneOpt] at h2
  have hcopy := copy.eq_1 s next
  dsimp only at hcopy
  rw [if_neg hcond] at hcopy
  refine ⟨_, _, hcopy, ?_, ?_, ?_⟩
  · refine ⟨(cloneOpt_what _ _).symm, (cloneOpt_what _ _).symm, rfl, (cloneAll_what _ _).symm, ?_,
      (cloneOpt_what _ _).symm, rfl, rfl, rfl⟩
    rw [hh]; rfl
  all_goals
    obtain ⟨a1, a2⟩ := cloneOpt_addr s.nl next
    obtain ⟨b1, b2⟩ := cloneOpt_addr s.cont (cloneOpt next s.nl).2
    obtain ⟨c1, c2⟩ := cloneAll_addr s.cuts (cloneOpt (cloneOpt next s.nl).2 s.cont).2
    obtain ⟨e1, e2⟩ := cloneOpt_addr s.branching
      (cloneAll (cloneOpt (cloneOpt next s.nl).2 s.cont).2 s.cuts).2
    simp only [deleted, ho, cloneAll, List.map_nil, List.append_nil]
    rw [b1, c1, e1]
    rw [a2] at b2 c2 e2 ⊢
    rw [b2] at c2 e2 ⊢
    rw [c2] at e2 ⊢
  · have hnl : (if (cloneOpt next s.nl).1 ≠
        (cloneOpt (next + s.nl.toList.length) s.cont).1 then
        (cloneOpt next s.nl).1.toList.map Ptr.addr else []).Sublist
          (List.range' next s.nl.toList.length) := by
      split
      · rw [a1]
      · exact List.nil_sublist _
    refine List.Nodup.sublist (List.Sublist.append (List.Sublist.append (List.Sublist.append hnl
      (List.Sublist.refl _)) (List.Sublist.refl _)) (List.Sublist.refl _)) ?_
    rw [List.range'_append_1]
    rw [List.nodup_append]
    refine ⟨?_, List.nodup_range', ?_⟩
    · rw [List.nodup_append]
      refine ⟨List.nodup_range', List.nodup_range', ?_⟩
      intro x hx y hy
      rw [List.mem_range'_1] at hx hy
      omega
    · intro x hx y hy
      rw [List.mem_append, List.mem_range'_1, List.mem_range'_1] at hx
      rw [List.mem_range'_1] at hy
      omega
  · intro x hx
    rw [e2]
    simp only [List.mem_append] at hx
    rcases hx with ((hx | hx) | hx) | hx
    · split at hx
      · rw [a1, List.mem_range'_1] at hx; omega
      · simp at hx
    · rw [List.mem_range'_1] at hx; omega
    · rw [List.mem_range'_1] at hx; omega
    · rw [List.mem_range'_1] at hx; omega

/-- A branch-and-bound setup as `initialize` leaves it: one interface used for both solvers, two cut
generators, heuristics and a branching method. -/
def demoBb : Setup :=
  ⟨some ⟨0, 10⟩, some ⟨0, 10⟩, true, [⟨1, 11⟩], [⟨2, 12⟩, ⟨3, 13⟩], some ⟨4, 14⟩, [], [7, 8], some .bb⟩

/-- An outer approximation setup: the linear solver is a different object. -/
def demoHyb : Setup :=
  ⟨some ⟨0, 10⟩, some ⟨5, 15⟩, true, [⟨1, 11⟩], [⟨2, 12⟩], none, [⟨6, 16⟩], [7, 8], some .hyb⟩

example : ∃ t, copy { demoHyb with heurs := [], objects := [] } 7 = some (t, 10) ∧
    deleted t = [7, 8, 9] := ⟨_, rfl, by decide⟩

/-- **C74 refuted (heuristics).**  No copy ever has a heuristic: the loops of lines 110 and 162 run over
the wrong list. -/
theorem copies_have_no_heuristics (s t : Setup) (nlp : Ptr) (dbg : Bool) (lp next n : Nat) :
    (copy s next = some (t, n) → t.heurs = []) ∧
    (copyWith dbg lp s nlp next = some (t, n) → t.heurs = []) := by
  constructor
  · intro h
    unfold copy at h
    dsimp only at h
    split at h
    · cases h
    · injection h with h
      injection h with h _
      rw [← h]
      rfl
  · intro h
    have hb : ∀ t n, copyBase s nlp next = some (t, n) → t.heurs = [] := by
      intro t n hb
      unfold copyBase at hb
      dsimp only at hb
      generalize (if s.cont ≠ s.nl then none else some nlp) = co at hb
      split at hb
      · cases hb
      · injection hb with hb
        injection hb with hb _
        rw [← hb]
        rfl
    unfold copyWith at h
    split at h
    · cases h
    · rename_i t' n' hb'
      have := hb _ _ hb'
      split at h
      · split at h
        · cases h
        · injection h with h
          injection h with h _
          rw [← h]
          exact this
      · injection h with h
        injection h with h _
        rw [← h]
        exact this

example : demoBb.heurs.length = 2 ∧ (copy demoBb 5).map (fun r => r.1.heurs.length) = some 0 := by
  decide

/-- **C74 refuted (extra objects).**  Original and copy own the same extra objects: destroying both
deletes every one of them twice. -/
theorem copy_shares_objects (s t : Setup) (next n : Nat) (h : copy s next = some (t, n)) :
    t.objects = s.objects ∧ ∀ p ∈ s.objects, p.addr ∈ deleted s ∧ p.addr ∈ deleted t := by
  have ht : t.objects = s.objects := by
    unfold copy at h
    dsimp only at h
    split at h
    · cases h
    · injection h with h
      injection h with h _
      rw [← h]
  refine ⟨ht, ?_⟩
  intro p hp
  constructor
  · exact List.mem_append_right _ (List.mem_map.2 ⟨p, hp, rfl⟩)
  · exact List.mem_append_right _ (List.mem_map.2 ⟨p, ht ▸ hp, rfl⟩)

example : ∃ t, copy demoHyb 7 = some (t, 11) ∧ 6 ∈ deleted demoHyb ∧ 6 ∈ deleted t :=
  ⟨_, rfl, by decide, by decide⟩

/-- **C74 refuted (copy without a continuous solver).**  Copying a setup that has a message handler but
no continuous solver yet uses a null pointer. -/
theorem copy_uninitialised_crashes (s : Setup) (next : Nat) (hh : s.handler = true)
    (hc : s.cont = none) : copy s next = none := by
  have hcond : (s.handler = true) ∧ (cloneOpt (cloneOpt next s.nl).2 s.cont).1 = none :=
    ⟨hh, by rw [hc]; rfl⟩
  exact if_pos hcond

/-- **C74 (copy with another interface).**  For a branch-and-bound setup whose two solvers are the same
interface and that has no heuristics or extra objects: the copy uses the new interface for both, and
otherwise has the same contents. -/
theorem copyWith_bb_partial (dbg : Bool) (lp : Nat) (s : Setup) (nlp : Ptr) (next : Nat)
    (hs : s.cont = s.nl) (ha : s.algo = some .bb) (hh : s.heurs = []) :
    ∃ t n, copyWith dbg lp s nlp next = some (t, n) ∧ t.nl = some nlp ∧ t.cont = some nlp ∧
      t.handler = s.handler ∧ t.cuts.map Ptr.what = s.cuts.map Ptr.what ∧
      t.heurs.map Ptr.what = s.heurs.map Ptr.what ∧
      t.branching.map Ptr.what = s.branching.map Ptr.what ∧
      t.params = s.params ∧ t.algo = s.algo ∧
      ∀ a, a ∈ t.cuts.map Ptr.addr ++ t.branching.toList.map Ptr.addr → next ≤ a ∧ a < n := by
  have hb := copyBase.eq_1 s nlp next
  dsimp only at hb
  rw [hs] at hb
  simp only [ne_eq, not_true_eq_false, if_false, reduceCtorEq, and_false] at hb
  have hw : copyWith dbg lp s nlp next = copyBase s nlp next := by
    unfold copyWith
    rw [hb]
    simp [ha]
  rw [hw, hb]
  refine ⟨_, _, rfl, rfl, rfl, rfl, cloneAll_what _ _, by rw [hh]; rfl, cloneOpt_what _ _, rfl, rfl,
    ?_⟩
  intro a hm
  obtain ⟨c1, c2⟩ := cloneAll_addr s.cuts next
  obtain ⟨e1, e2⟩ := cloneOpt_addr s.branching (cloneAll next s.cuts).2
  obtain ⟨_, f2⟩ := cloneAll_addr s.objects (cloneOpt (cloneAll next s.cuts).2 s.branching).2
  simp only [cloneAll] at hm ⊢
  rw [f2]
  rw [c1, e1, List.mem_append, List.mem_range'_1, List.mem_range'_1] at hm
  rw [e2]
  rw [c2] at hm ⊢
  rcases hm with hm | hm <;> omega

example : (copyWith true 99 { demoBb with heurs := [] } ⟨20, 30⟩ 21).map
    (fun r => (r.1.cont, r.1.nl, r.1.cuts, r.2)) =
    some (some ⟨20, 30⟩, some ⟨20, 30⟩, [⟨21, 11⟩], 23) := by decide

/-- **C74 refuted (outer approximation setups).**  Copying any outer approximation setup that has a
message handler (every initialised one has) with another interface uses a null pointer at line 155. -/
theorem copyWith_outer_approximation_crashes (dbg : Bool) (lp : Nat) (s : Setup) (nlp : Ptr)
    (next : Nat) (hs : s.cont ≠ s.nl) (hh : s.handler = true) :
    copyWith dbg lp s nlp next = none := by
  have hb : copyBase s nlp next = none := by
    unfold copyBase
    dsimp only
    rw [if_pos hs, if_pos ⟨hh, rfl⟩]
  unfold copyWith
  rw [hb]

example : copyWith false 99 demoHyb ⟨20, 30⟩ 21 = none := by decide

/-- **C74 refuted (copy of a copy).**  A plain copy of a branch-and-bound setup has two different
solvers; so copying that copy with another interface uses a null pointer, while the original can be
copied. -/
theorem copy_of_copy_crashes (dbg : Bool) (lp : Nat) (s t : Setup) (nlp : Ptr) (next n m : Nat)
    (hcont : s.cont.isSome) (hh : s.handler = true) (ht : copy s next = some (t, n)) :
    copyWith dbg lp t nlp m = none := by
  have key : t.cont ≠ t.nl ∧ t.handler = true := by
    unfold copy at ht
    dsimp only at ht
    split at ht
    · cases ht
    · injection ht with ht
      injection ht with ht _
      rw [← ht]
      refine ⟨?_, hh⟩
      cases hx : s.cont with
      | none => rw [hx] at hcont; simp at hcont
      | some p =>
        cases hy : s.nl with
        | none => simp [cloneOpt]
        | some q => simp [cloneOpt]
  exact copyWith_outer_approximation_crashes dbg lp t nlp m key.1 key.2

example : (copyWith true 99 demoBb ⟨20, 30⟩ 21).isSome = true ∧
    ((copy demoBb 5).bind fun r => copyWith true 99 r.1 ⟨20, 30⟩ 21) = none := by decide

/-- **C74 refuted (initialisation from an interface).**  `initialize(nlpSi)` does not record that the
algorithm is branch-and-bound: a copy with another interface then stops at an assertion, or, without
assertions, replaces the continuous solver by a linear relaxation. -/
theorem interface_setup_copies_wrongly :
    ∃ s : Setup, s.cont = s.nl ∧
      (copyWith true 99 (initAlgo false .bb s) ⟨20, 30⟩ 21).map (·.1.cont) = some (some ⟨20, 30⟩) ∧
      copyWith true 99 (initAlgo true .bb s) ⟨20, 30⟩ 21 = none ∧
      (copyWith false 99 (initAlgo true .bb s) ⟨20, 30⟩ 21).map (·.1.cont) = some (some ⟨23, 99⟩) :=
  ⟨{ demoBb with algo := none }, rfl, by decide, by decide, by decide⟩

/-- Cloning a list uses up one address per element. -/
theorem cloneAll_next (l : List Ptr) (next : Nat) : (cloneAll next l).2 = next + l.length := by
  induction l generalizing next with
  | nil => rfl
  | cons p l ih => simp only [cloneAll, ih, List.length_cons]; omega

/-- **C74**: a copy for another interface uses up one address for every cut generator, branching rule and object and, unless the algorithm is branch-and-bound, one more, the last, for the linear relaxation. -/
theorem copyWith_fresh (dbg : Bool) (lp : Nat) (s : Setup) (nlp : Ptr) (next : Nat) (t : Setup) (n : Nat) (h : copyWith dbg lp s nlp next = some (t, n)) :
    n = next + s.cuts.length + s.branching.toList.length + s.objects.length + (if s.algo = some .bb then 0 else 1) ∧
    (s.algo ≠ some .bb → t.cont = some ⟨n - 1, lp⟩) ∧ (s.algo = some .bb → t.cont = if s.cont = s.nl then some nlp else none) ∧ t.nl = some nlp := by
  have hb : ∀ m, (cloneOpt m s.branching).2 = m + s.branching.toList.length := by
    intro m; cases s.branching <;> rfl
  unfold copyWith copyBase at h
  dsimp only at h
  by_cases hh : s.handler = true ∧ (if s.cont ≠ s.nl then none else some nlp) = none
  · rw [if_pos hh] at h; cases h
  · rw [if_neg hh] at h
    dsimp only at h
    by_cases ha : s.algo = some .bb
    · rw [if_neg (by simpa using ha)] at h
      obtain ⟨rfl, rfl⟩ := Prod.mk.inj (Option.some.inj h)
      rw [cloneAll_next, hb, cloneAll_next, cloneAll_next, if_pos ha]
      refine ⟨by simp, fun h => absurd ha h, fun _ => ?_, rfl⟩
      by_cases he : s.cont = s.nl <;> simp [he]
    · rw [if_pos ha] at h
      by_cases hd : dbg = true ∧ (if s.cont ≠ s.nl then none else some nlp) ≠ none
      · rw [if_pos hd] at h; cases h
      · rw [if_neg hd] at h
        obtain ⟨rfl, rfl⟩ := Prod.mk.inj (Option.some.inj h)
        rw [cloneAll_next, hb, cloneAll_next, cloneAll_next, if_neg ha]
        exact ⟨by simp, fun _ => rfl, fun h => absurd h ha, rfl⟩

end Verif.Bab.Copies

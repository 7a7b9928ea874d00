import Mathlib.Data.List.Basic
import Mathlib.Data.List.FinRange
import Mathlib.Data.Rat.Defs
import Mathlib.Algebra.Order.Ring.Unbundled.Rat
import Mathlib.Tactic.Common

/-!
# Branching objects handed to Cbc: user priorities, directions, pseudo-costs and SOS constraints

`CbcBonmin/BonCbc.cpp:183-307`, `BabSetupBase::setPriorities`, `BabSetupBase::addSos`
(`Algorithms/BonBabSetupBase.cpp:776-866`) and the calls in `Algorithms/BonBonminSetup.cpp:424-493,
709-736`.

Simplifications: integer objects are created by Cbc/Osi (outside `/repo`), one per integer column in
column order with priority 1000 and the library's default direction `w0`; `replaceIntegers`
(`BonCbc.cpp:288`) and extra objects of the setup (277-286) are not modelled; `objects()` is the null
pointer exactly when the list is empty.  The per-column arrays have one entry per column.
-/

namespace Verif.Bab.Objects

/-- Abnormal ends: an exception (`CoinError`) or undefined behaviour (null pointer, read outside an
array). -/
inductive Err | throws | ub
  deriving DecidableEq

/-- A branching object: an integer column with priority, preferred direction and pseudo-costs
(up, down), or a special ordered set with its members (column, weight), type and priority. -/
inductive Obj
  | int (col : Nat) (prio way : ℤ) (pc : Option (ℚ × ℚ))
  | sos (members : List (Nat × ℚ)) (type prio : ℤ)
  deriving DecidableEq

/-- `TMINLP::SosInfo` (`Interfaces/BonTMINLP.hpp`): the arrays describing the sets. -/
structure SosInfo where
  num : Nat
  types : List ℤ
  prios : Option (List ℤ)
  starts : List Nat
  indices : List Nat
  weights : List ℚ

/-- What the user's problem says about branching (`getPriorities`, `getBranchingDirections`,
`getUpPsCosts`, `getDownPsCosts`, `sosConstraints`, option `sos_constraints`); `none` is the null
pointer. -/
structure User where
  isInt : List Bool
  prio : Option (Nat → ℤ)
  dir : Option (Nat → ℤ)
  up : Option (Nat → ℚ)
  down : Option (Nat → ℚ)
  sos : Option SosInfo
  disableSos : Bool

/-- `findIntegers` / `findIntegersAndSOS(false)`: the integer columns in order. -/
def intCols (isInt : List Bool) : List Nat :=
  (List.range isInt.length).filter (fun j => isInt[j]? == some true)

/-- Loop with early exit on an abnormal end. -/
def mapE {α β : Type} (f : α → Except Err β) : List α → Except Err (List β)
  | [] => .ok []
  | a :: l =>
    match f a with
    | .error e => .error e
    | .ok b =>
      match mapE f l with
      | .error e => .error e
      | .ok bs => .ok (b :: bs)

/-- The flag `hasPriorities` (`BonCbc.cpp:230-251`, `BonBabSetupBase.cpp:827-848`), `n` = number of
integer objects: the loop reads `varPriorities[i]` for object numbers `i`. -/
def hasPriorities (prio : Option (Nat → ℤ)) (n : Nat) (s : SosInfo) : Bool :=
  (match prio with
   | none => false
   | some p => (List.range n).any (fun i => decide (p i ≠ 0))) ||
  (match s.prios with
   | none => false
   | some p => (p.take s.num).any (fun q => decide (q ≠ 0)))

/-- Priority of the `i`-th set (`BonCbc.cpp:264-268`, `BonBabSetupBase.cpp:856-859`). -/
def sosPrio (has : Bool) (s : SosInfo) (i : Nat) : Except Err ℤ :=
  match has, s.prios with
  | true, some p =>
    match p[i]? with
    | none => .error .ub
    | some q => if q ≠ 0 then .ok q else .ok 10
  | _, _ => .ok 10

/-- The `i`-th set as an object (`BonCbc.cpp:252-269`, `BonBabSetupBase.cpp:849-860`). -/
def sosObj (has : Bool) (s : SosInfo) (i : Nat) : Except Err Obj :=
  match s.starts[i]?, s.starts[i + 1]?, s.types[i]? with
  | some a, some b, some t =>
    if a ≤ b ∧ b ≤ s.indices.length ∧ b ≤ s.weights.length then
      match sosPrio has s i with
      | .error e => .error e
      | .ok p =>
        .ok (.sos (((s.indices.drop a).take (b - a)).zip ((s.weights.drop a).take (b - a))) t p)
    else .error .ub
  | _, _, _ => .error .ub

/-- All sets (`BonCbc.cpp:215-274`, `addSos`, `BonBabSetupBase.cpp:813-866`). -/
def sosObjs (u : User) (n : Nat) : Except Err (List Obj) :=
  match u.sos with
  | none => .ok []
  | some s =>
    if u.disableSos = false ∧ 0 < s.num then
      mapE (sosObj (hasPriorities u.prio n s) s) (List.range' 0 s.num)
    else .ok []

/-- One integer object in the Cbc path (`BonCbc.cpp:195-211`). -/
def cbcInt (w0 : ℤ) (u : User) (j : Nat) : Except Err Obj :=
  let p := match u.prio with | none => 1000 | some p => p j
  let w := match u.dir with | none => w0 | some d => d j
  match u.up with
  | none => .ok (.int j p w none)
  | some up =>
    match u.down with
    | none => .error .ub
    | some dn => .ok (.int j p w (some (up j, dn j)))

/-- Objects when the continuous solver carries none (`BonCbc.cpp:183-289`). -/
def cbcPath (w0 : ℤ) (u : User) : Except Err (List Obj) :=
  match mapE (cbcInt w0 u) (intCols u.isInt) with
  | .error e => .error e
  | .ok l =>
    match sosObjs u l.length with
    | .error e => .error e
    | .ok s => .ok (l ++ s)

/-- One integer object in `setPriorities` (`BonBabSetupBase.cpp:787-810`). -/
def osiInt (w0 : ℤ) (u : User) (j : Nat) : Except Err Obj :=
  let p := match u.prio with | none => 1000 | some p => p j
  let w := match u.dir with | none => w0 | some d => d j
  match u.up with
  | none => .ok (.int j p w none)
  | some _ => .error .throws

/-- `setPriorities` on the integer objects of the nonlinear solver (`BonBabSetupBase.cpp:776-811`);
note the test of line 783. -/
def setPriorities (w0 : ℤ) (u : User) (cols : List Nat) : Except Err (List Obj) :=
  if u.prio.isNone ∧ u.dir.isNone ∧ u.up.isSome then
    .ok (cols.map (fun j => .int j 1000 w0 none))
  else mapE (osiInt w0 u) cols

/-- Objects on the nonlinear solver after `setPriorities` and `addSos`, when it starts with one object
per column of `cols`. -/
def osiPath (w0 : ℤ) (u : User) (cols : List Nat) : Except Err (List Obj) :=
  match setPriorities w0 u cols with
  | .error e => .error e
  | .ok l =>
    match sosObjs u l.length with
    | .error e => .error e
    | .ok s => .ok (l ++ s)

/-- Does this variable selection rule work on Osi objects?  In branch-and-bound the rules
`qp-strong-branching`, `lp-strong-branching`, `nlp-strong-branching`, `osi-simple`, `osi-strong`, `random` (numbers 3 to 8,
`BonBonminSetup.cpp:424-493`), in the outer approximation algorithms `osi-simple` and `osi-strong`
(6 and 7, `BonBonminSetup.cpp:711-731`). -/
def usesOsi (bb : Bool) (varSel : ℤ) : Bool :=
  if bb then decide (3 ≤ varSel ∧ varSel ≤ 8) else decide (varSel = 6 ∨ varSel = 7)

/-- The objects Cbc branches on (`BonCbc.cpp:183-307`).  In branch-and-bound the continuous and the
nonlinear solver are the same; otherwise `findIntegersAndSOS` fills the linear solver while
`setPriorities` and `addSos` work on the nonlinear one, which has no objects. -/
def babObjects (w0 : ℤ) (bb : Bool) (varSel : ℤ) (u : User) : Except Err (List Obj) :=
  if usesOsi bb varSel then
    if bb then
      match osiPath w0 u (intCols u.isInt) with
      | .error e => .error e
      | .ok [] => cbcPath w0 u
      | .ok l => .ok l
    else
      match osiPath w0 u [] with
      | .error e => .error e
      | .ok _ =>
        match (intCols u.isInt).map (fun j => Obj.int j 1000 w0 none) with
        | [] => cbcPath w0 u
        | l => .ok l
  else cbcPath w0 u

/-! ## Specification -/

/-- A special ordered set as the user thinks of it; priority 0 means "none given". -/
structure USet where
  members : List (Nat × ℚ)
  type : ℤ
  prio : ℤ

/-- Offsets of consecutive blocks. -/
def offsets : List USet → Nat → List Nat
  | [], s => [s]
  | a :: l, s => s :: offsets l (s + a.members.length)

/-- The arrays of `SosInfo` describing a list of sets (documentation in `BonTMINLP.hpp`). -/
def encode (withPrio : Bool) (l : List USet) : SosInfo where
  num := l.length
  types := l.map (·.type)
  prios := if withPrio then some (l.map (·.prio)) else none
  starts := offsets l 0
  indices := l.flatMap (fun a => a.members.map (·.1))
  weights := l.flatMap (fun a => a.members.map (·.2))

/-- What the user expects for an integer column. -/
def WantedInt (w0 : ℤ) (u : User) (j : Nat) : Obj :=
  .int j ((u.prio.map (· j)).getD 1000) ((u.dir.map (· j)).getD w0)
    (u.up.bind fun f => u.down.map fun g => (f j, g j))

/-- What the user expects for a set: its priority if given, else 10. -/
def WantedSos (withPrio : Bool) (a : USet) : Obj :=
  .sos a.members a.type (if withPrio ∧ a.prio ≠ 0 then a.prio else 10)

/-! ### Lemmas -/

theorem mapE_ok {α β : Type} (f : α → Except Err β) (g : α → β) :
    ∀ l : List α, (∀ a ∈ l, f a = .ok (g a)) → mapE f l = .ok (l.map g) := by
  intro l
  induction l with
  | nil => intro _; rfl
  | cons a l ih =>
    intro h
    unfold mapE
    rw [h a List.mem_cons_self, ih (fun b hb => h b (List.mem_cons_of_mem _ hb))]
    rfl

theorem mapE_range {α : Type} (f : Nat → Except Err Obj) (g : α → Obj) :
    ∀ (l : List α) (s : Nat), (∀ j (h : j < l.length), f (s + j) = .ok (g l[j])) →
      mapE f (List.range' s l.length) = .ok (l.map g) := by
  intro l
  induction l with
  | nil => intro s _; rfl
  | cons a l ih =>
    intro s h
    rw [List.length_cons, List.range'_succ]
    unfold mapE
    have h0 := h 0 (by simp)
    rw [Nat.add_zero] at h0
    rw [h0, ih (s + 1) (by
      intro j hj
      have := h (j + 1) (by simpa using hj)
      rw [show s + 1 + j = s + (j + 1) by omega]
      simpa using this)]
    rfl

theorem offsets_get : ∀ (l : List USet) (s i : Nat), i ≤ l.length →
    (offsets l s)[i]? = some (s + ((l.take i).map (·.members.length)).sum) := by
  intro l
  induction l with
  | nil => intro s i h; obtain rfl : i = 0 := Nat.le_zero.1 h; simp [offsets]
  | cons a l ih =>
    intro s i h
    cases i with
    | zero => simp [offsets]
    | succ i =>
      rw [show (offsets (a :: l) s)[i + 1]? = (offsets l (s + a.members.length))[i]? from rfl,
        ih _ _ (by simpa using h)]
      simp [Nat.add_assoc]

theorem slice {α : Type} (p : Nat × ℚ → α) : ∀ (l : List USet) (i : Nat) (h : i < l.length),
    ((l.flatMap (fun a => a.members.map p)).drop
      ((l.take i).map (·.members.length)).sum).take l[i].members.length =
      l[i].members.map p := by
  intro l
  induction l with
  | nil => intro i h; simp at h
  | cons a l ih =>
    intro i h
    cases i with
    | zero =>
      simp only [List.take_zero, List.map_nil, List.sum_nil, List.drop_zero,
        List.flatMap_cons, List.getElem_cons_zero]
      have : a.members.length = (a.members.map p).length := by simp
      rw [this, List.take_left]
    | succ i =>
      have hi : i < l.length := by simpa using h
      simp only [List.take_succ_cons, List.map_cons, List.sum_cons, List.flatMap_cons,
        List.getElem_cons_succ]
      rw [← ih i hi, ← List.drop_drop]
      congr 2
      have : a.members.length = (a.members.map p).length := by simp
      rw [this, List.drop_left]

theorem sum_take_le : ∀ (l : List USet) (i : Nat) (_ : i < l.length),
    ((l.take i).map (·.members.length)).sum + l[i].members.length ≤
      (l.map (·.members.length)).sum := by
  intro l
  induction l with
  | nil => intro i h; simp at h
  | cons a l ih =>
    intro i h
    cases i with
    | zero => simp
    | succ i =>
      have := ih i (by simpa using h)
      simp only [List.take_succ_cons, List.map_cons, List.sum_cons, List.getElem_cons_succ]
      omega

theorem flat_length {α : Type} (p : Nat × ℚ → α) (l : List USet) :
    (l.flatMap (fun a => a.members.map p)).length = (l.map (·.members.length)).sum := by
  simp [List.length_flatMap]

theorem sum_take_succ (l : List USet) (i : Nat) (h : i < l.length) :
    ((l.take (i + 1)).map (·.members.length)).sum =
      ((l.take i).map (·.members.length)).sum + l[i].members.length := by
  rw [List.take_succ_eq_append_getElem h, List.map_append, List.sum_append]
  simp

theorem any_prios (l : List USet) (i : Nat) (h : i < l.length) (hp : l[i].prio ≠ 0) :
    ((l.map (·.prio)).take l.length).any (fun q => decide (q ≠ 0)) = true := by
  rw [List.any_eq_true]
  refine ⟨l[i].prio, ?_, by simpa using hp⟩
  rw [show l.length = (l.map (·.prio)).length by simp, List.take_length]
  exact List.mem_map.2 ⟨l[i], List.getElem_mem h, rfl⟩

theorem sosPrio_encode (prio : Option (Nat → ℤ)) (n : Nat) (w : Bool) (l : List USet) (i : Nat)
    (h : i < l.length) :
    sosPrio (hasPriorities prio n (encode w l)) (encode w l) i =
      .ok (if w ∧ l[i].prio ≠ 0 then l[i].prio else 10) := by
  cases w with
  | false =>
    unfold sosPrio
    split
    · rename_i p _ hp
      simp [encode] at hp
    · simp
  | true =>
    have hpr : (encode true l).prios = some (l.map (·.prio)) := rfl
    have hg : (l.map (·.prio))[i]? = some l[i].prio := by simp [h]
    by_cases hz : l[i].prio = 0
    · unfold sosPrio
      rw [hpr]
      cases hasPriorities prio n (encode true l)
      · simp [hz]
      · simp [h, hz]
    · have hh : hasPriorities prio n (encode true l) = true := by
        unfold hasPriorities
        rw [hpr]
        have := any_prios l i h hz
        simp only [encode] at *
        rw [this, Bool.or_true]
      unfold sosPrio
      rw [hh, hpr]
      simp [h, hz]

theorem sosObj_encode (prio : Option (Nat → ℤ)) (n : Nat) (w : Bool) (l : List USet) (i : Nat)
    (h : i < l.length) :
    sosObj (hasPriorities prio n (encode w l)) (encode w l) i = .ok (WantedSos w l[i]) := by
  have h1 : (encode w l).starts[i]? = some ((l.take i).map (·.members.length)).sum := by
    show (offsets l 0)[i]? = _
    rw [offsets_get l 0 i (le_of_lt h), Nat.zero_add]
  have h2 : (encode w l).starts[i + 1]? =
      some (((l.take i).map (·.members.length)).sum + l[i].members.length) := by
    show (offsets l 0)[i + 1]? = _
    rw [offsets_get l 0 (i + 1) h, Nat.zero_add, sum_take_succ l i h]
  have h3 : (encode w l).types[i]? = some l[i].type := by
    show (l.map (·.type))[i]? = _
    simp [h]
  have hle := sum_take_le l i h
  unfold sosObj
  rw [h1, h2, h3]
  dsimp only
  rw [if_pos ⟨by omega, by
      rw [show (encode w l).indices = l.flatMap (fun a => a.members.map (·.1)) from rfl, flat_length]
      exact hle, by
      rw [show (encode w l).weights = l.flatMap (fun a => a.members.map (·.2)) from rfl, flat_length]
      exact hle⟩,
    sosPrio_encode prio n w l i h]
  dsimp only
  rw [Nat.add_sub_cancel_left,
    show (encode w l).indices = l.flatMap (fun a => a.members.map (·.1)) from rfl,
    show (encode w l).weights = l.flatMap (fun a => a.members.map (·.2)) from rfl,
    slice (·.1) l i h, slice (·.2) l i h]
  unfold WantedSos
  congr 2
  rw [List.zip_map']
  simp

theorem sosObjs_encode (u : User) (w : Bool) (l : List USet) (n : Nat)
    (hs : u.sos = some (encode w l)) (hd : u.disableSos = false) :
    sosObjs u n = .ok (l.map (WantedSos w)) := by
  unfold sosObjs
  rw [hs]
  dsimp only
  by_cases h0 : 0 < l.length
  · rw [if_pos ⟨hd, h0⟩]
    exact mapE_range _ _ l 0 (fun j hj => by rw [Nat.zero_add]; exact sosObj_encode _ _ _ _ _ hj)
  · rw [if_neg (fun h => h0 h.2)]
    have : l = [] := by
      cases l with
      | nil => rfl
      | cons => simp at h0
    rw [this]; rfl

/-- A user without sets, or who switched them off. -/
theorem sosObjs_none (u : User) (n : Nat) (h : u.sos = none ∨ u.disableSos = true) :
    sosObjs u n = .ok [] := by
  unfold sosObjs
  rcases h with h | h
  · rw [h]
  · cases u.sos with
    | none => rfl
    | some s => simp [h]

/-- The sets the user expects to be branched on. -/
def WantedSets (u : User) (w : Bool) (l : List USet) : Prop :=
  (u.sos = some (encode w l) ∧ u.disableSos = false) ∨
    ((u.sos = none ∨ u.disableSos = true) ∧ l = [])

theorem sosObjs_wanted (u : User) (w : Bool) (l : List USet) (n : Nat) (h : WantedSets u w l) :
    sosObjs u n = .ok (l.map (WantedSos w)) := by
  rcases h with ⟨h1, h2⟩ | ⟨h1, rfl⟩
  · exact sosObjs_encode u w l n h1 h2
  · exact sosObjs_none u n h1

/-- `intCols` lists exactly the integer columns, increasingly. -/
theorem mem_intCols (isInt : List Bool) (j : Nat) : j ∈ intCols isInt ↔ isInt[j]? = some true := by
  unfold intCols
  rw [List.mem_filter, List.mem_range]
  constructor
  · rintro ⟨_, h⟩; simpa using h
  · intro h
    refine ⟨?_, by simp [h]⟩
    by_contra hc
    rw [List.getElem?_eq_none (not_lt.1 hc)] at h
    simp at h

theorem intCols_sorted (isInt : List Bool) : (intCols isInt).Pairwise (· < ·) :=
  List.Pairwise.filter _ List.pairwise_lt_range

/-! ## C73: what Cbc branches on -/

/-- **C73 (Cbc rules).**  With one of Cbc's own variable selection rules, the objects are exactly: every
integer column in order with the user's priority, direction and pseudo-costs, then every set with its
members, weights, type and the user's priority (10 if none). -/
theorem cbc_objects (w0 : ℤ) (bb : Bool) (vs : ℤ) (u : User) (w : Bool) (l : List USet)
    (hv : usesOsi bb vs = false) (hs : WantedSets u w l) (hpc : u.up.isSome → u.down.isSome) :
    babObjects w0 bb vs u =
      .ok ((intCols u.isInt).map (WantedInt w0 u) ++ l.map (WantedSos w)) := by
  unfold babObjects
  rw [hv]
  unfold cbcPath
  have hi : mapE (cbcInt w0 u) (intCols u.isInt) =
      .ok ((intCols u.isInt).map (WantedInt w0 u)) := by
    apply mapE_ok
    intro j _
    unfold cbcInt WantedInt
    cases hu : u.up with
    | none => cases u.prio <;> cases u.dir <;> rfl
    | some f =>
      have := hpc (by rw [hu]; rfl)
      cases hd : u.down with
      | none => rw [hd] at this; simp at this
      | some g => cases u.prio <;> cases u.dir <;> rfl
  rw [hi]
  simp only [Bool.false_eq_true, if_false]
  rw [sosObjs_wanted u w l _ hs]

/-- **C73 (rules on Osi objects, branch-and-bound).**  Without user pseudo-costs the same holds for
the rules working on Osi objects. -/
theorem bb_osi_objects_partial (w0 : ℤ) (vs : ℤ) (u : User) (w : Bool) (l : List USet)
    (hv : usesOsi true vs = true) (hs : WantedSets u w l) (hpc : u.up = none) :
    babObjects w0 true vs u =
      .ok ((intCols u.isInt).map (WantedInt w0 u) ++ l.map (WantedSos w)) := by
  have hi : setPriorities w0 u (intCols u.isInt) =
      .ok ((intCols u.isInt).map (WantedInt w0 u)) := by
    unfold setPriorities
    rw [if_neg (by rw [hpc]; simp)]
    apply mapE_ok
    intro j _
    unfold osiInt WantedInt
    rw [hpc]
    cases u.prio <;> cases u.dir <;> rfl
  have hc : cbcPath w0 u = .ok ((intCols u.isInt).map (WantedInt w0 u) ++ l.map (WantedSos w)) := by
    have := cbc_objects w0 true 0 u w l (by decide) hs (by rw [hpc]; simp)
    unfold babObjects at this
    rw [show usesOsi true 0 = false by decide] at this
    exact this
  unfold babObjects
  rw [hv]
  unfold osiPath
  rw [hi]
  dsimp only
  rw [sosObjs_wanted u w l _ hs]
  simp only [if_true]
  split
  · rename_i heq; cases heq
  · exact hc
  · rename_i l' hne heq
    rw [heq]

/-- A user with two integer columns out of three, priorities, and one set over columns 0 and 2. -/
def demo : User where
  isInt := [true, false, true]
  prio := some (fun j => if j = 0 then 5 else 7)
  dir := none
  up := none
  down := none
  sos := some (encode true [⟨[(0, 1), (2, 2)], 1, 3⟩, ⟨[(1, 1)], 2, 0⟩])
  disableSos := false

example : babObjects 0 true 5 demo = .ok [.int 0 5 0 none, .int 2 7 0 none,
    .sos [(0, 1), (2, 2)] 1 3, .sos [(1, 1)] 2 10] := by decide +kernel
example : WantedSets demo true [⟨[(0, 1), (2, 2)], 1, 3⟩, ⟨[(1, 1)], 2, 0⟩] := .inl ⟨rfl, rfl⟩

/-- With pseudo-costs and priorities (or directions), the rules on Osi objects end with an exception
as soon as there is an integer column. -/
theorem bb_osi_pseudocosts_throw (w0 : ℤ) (vs : ℤ) (u : User) (hv : usesOsi true vs = true)
    (hup : u.up.isSome) (hp : u.prio.isSome ∨ u.dir.isSome) (hi : intCols u.isInt ≠ []) :
    babObjects w0 true vs u = .error .throws := by
  have h : setPriorities w0 u (intCols u.isInt) = .error .throws := by
    unfold setPriorities
    rw [if_neg (by
      rintro ⟨h1, h2, _⟩
      rcases hp with hp | hp
      · cases hx : u.prio with
        | none => rw [hx] at hp; simp at hp
        | some _ => rw [hx] at h1; simp at h1
      · cases hx : u.dir with
        | none => rw [hx] at hp; simp at hp
        | some _ => rw [hx] at h2; simp at h2)]
    cases hl : intCols u.isInt with
    | nil => exact absurd hl hi
    | cons a l =>
      have ho : osiInt w0 u a = .error .throws := by
        unfold osiInt
        cases hx : u.up with
        | none => rw [hx] at hup; simp at hup
        | some _ => rfl
      unfold mapE
      rw [ho]
  unfold babObjects
  rw [hv]
  unfold osiPath
  rw [h]
  rfl

/-- **C73 refuted (pseudo-costs).**  If pseudo-costs are the only branching information the user gives,
the rules on Osi objects silently ignore them: line 783 returns when there *are* pseudo-costs. -/
theorem pseudocosts_silently_ignored :
    ∃ u : User, u.up.isSome ∧ u.down.isSome ∧
      babObjects 0 true 5 u = .ok [.int 0 1000 0 none] ∧
      babObjects 0 true 1 u = .ok [.int 0 1000 0 (some (3, 4))] ∧
      babObjects 0 true 5 { u with prio := some (fun _ => 1) } = .error .throws := by
  refine ⟨⟨[true], none, none, some (fun _ => 3), some (fun _ => 4), none, false⟩, rfl, rfl, ?_, ?_, ?_⟩
    <;> decide +kernel

/-- In the outer approximation algorithms `osi-simple` and `osi-strong` branch on the plain integer
columns only, whatever the user's information. -/
theorem hyb_osi_objects (w0 : ℤ) (vs : ℤ) (u : User) (w : Bool) (l : List USet)
    (hv : usesOsi false vs = true) (hs : WantedSets u w l) (hi : intCols u.isInt ≠ []) :
    babObjects w0 false vs u = .ok ((intCols u.isInt).map (fun j => .int j 1000 w0 none)) := by
  have h0 : osiPath w0 u [] = .ok (l.map (WantedSos w)) := by
    have : setPriorities w0 u [] = .ok [] := by
      unfold setPriorities
      split <;> rfl
    unfold osiPath
    rw [this]
    dsimp only
    rw [sosObjs_wanted u w l _ hs]
    rfl
  unfold babObjects
  rw [hv, h0]
  simp only [if_true, Bool.false_eq_true, if_false]
  split
  · rename_i h
    exact absurd (List.map_eq_nil_iff.1 h) hi
  · rfl

/-- **C73 refuted (outer approximation with Osi rules).**  `setPriorities` and `addSos` put the user's
priorities and special ordered sets on the nonlinear solver, Cbc takes the objects of the linear one:
the priorities are lost and the sets are never enforced. -/
theorem hyb_loses_priorities_and_sets :
    babObjects 0 false 1 demo = .ok [.int 0 5 0 none, .int 2 7 0 none,
      .sos [(0, 1), (2, 2)] 1 3, .sos [(1, 1)] 2 10] ∧
    babObjects 0 false 6 demo = .ok [.int 0 1000 0 none, .int 2 1000 0 none] := by
  constructor <;> decide +kernel

/-- **C73**: the flag is set exactly when one of the first `n` values of the caller's array of variable priorities, or one of the priorities of the sets, is not 0. -/
theorem hasPriorities_iff (prio : Option (Nat → ℤ)) (n : Nat) (s : SosInfo) :
    hasPriorities prio n s = true ↔ (∃ p i, prio = some p ∧ i < n ∧ p i ≠ 0) ∨ ∃ p i q, s.prios = some p ∧ i < s.num ∧ p[i]? = some q ∧ q ≠ 0 := by
  unfold hasPriorities
  rw [Bool.or_eq_true]
  apply or_congr
  · cases prio with
    | none => simp
    | some p => simp
  · cases s.prios with
    | none => simp
    | some p =>
      simp only [List.any_eq_true, decide_eq_true_eq, Option.some.injEq]
      constructor
      · rintro ⟨q, hq, h0⟩
        obtain ⟨i, hi⟩ := List.mem_iff_getElem?.1 hq
        rw [List.getElem?_take] at hi
        by_cases hn : i < s.num
        · rw [if_pos hn] at hi; exact ⟨p, i, q, rfl, hn, hi, h0⟩
        · rw [if_neg hn] at hi; cases hi
      · rintro ⟨p', i, q, rfl, hi, hq, h0⟩
        exact ⟨q, List.mem_iff_getElem?.2 ⟨i, by rw [List.getElem?_take, if_pos hi, hq]⟩, h0⟩

/-- **C73**: the rules on Osi objects. -/
theorem usesOsi_iff (v : ℤ) : (usesOsi true v = true ↔ v = 3 ∨ v = 4 ∨ v = 5 ∨ v = 6 ∨ v = 7 ∨ v = 8) ∧ (usesOsi false v = true ↔ v = 6 ∨ v = 7) := by
  unfold usesOsi
  simp only [if_true, Bool.false_eq_true, if_false, decide_eq_true_eq]
  constructor
  · constructor <;> intro h <;> omega
  · trivial

end Verif.Bab.Objects

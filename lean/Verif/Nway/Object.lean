import Mathlib.Algebra.Order.Field.Rat
import Mathlib.Data.List.Basic
import Mathlib.Data.List.Nodup
import Mathlib.Logic.Function.Basic
import Mathlib.Tactic.Linarith
import Mathlib.Tactic.NormNum
import Mathlib.Tactic.Ring
/-! # C125–C127: branching on n-way objects

experimental/RobotBonmin/BonNWayObject.cpp: `infeasibility` 136-166, `feasibleRegion` 168-194, `createBranch` 196-257, `branch` 309-349, copying 50-102, `setConsequence` 113-123;
BonNWayObject.hpp: consequences 42-50, `numberBranches` 168-170, `var_branched_on`, `seq_branched_on` 176-186.

An n-way object is a set of binary variables of which exactly one is 1; the consequences of a member are variables that are 0 if the member is 1.  Bounds are functions of
the column; a failed assertion or an access out of range is `none` (assertions are compiled in).  `CoinSort_2` gives some order sorted by the key.  `Info` has the data of
`OsiBranchingInformation`; its bounds are those of the solver. -/
namespace Verif.Nway

/-- Lower and upper bounds of the solver. -/
structure Box where
  lo : ℕ → ℚ
  up : ℕ → ℚ

/-- Data of `OsiBranchingInformation` that are used. -/
structure Info where
  box : Box
  sol : ℕ → ℚ
  tol : ℚ
  cutoff : ℚ
  depth : ℤ

/-- Members of `BonNWayObject` (BonNWayObject.hpp:117-128); `cons = none`: `consequence_` is NULL. -/
structure Obj where
  members : List ℕ
  cons : Option (List (Option (List ℕ)))
  bounds : List ℚ
  quick : Bool
  frac : ℤ

/-- The value used: that of the solution moved into the bounds (BonNWayObject.cpp:151-153). -/
def Info.value (s : Info) (c : ℕ) : ℚ := min (max (s.sol c) (s.box.lo c)) (s.box.up c)

/-- Distance to the next bound (154). -/
def Info.dist (s : Info) (c : ℕ) : ℚ := min (s.value c - s.box.lo c) (s.box.up c - s.value c)

/-- Loop of `infeasibility` (149-159): number of members off their bounds, largest distance. -/
def infeasLoop (s : Info) : List ℕ → ℕ × ℚ → ℕ × ℚ
  | [], a => a
  | c :: cs, a => infeasLoop s cs (if s.tol < s.dist c then (a.1 + 1, max (s.dist c) a.2) else a)

/-- `infeasibility` (136-166). -/
def Obj.infeasibility (N : Obj) (s : Info) : ℚ :=
  let a := infeasLoop s N.members (0, 0)
  if a.1 ≠ 0 then a.2 else 0

/-- Loop of `feasibleRegion` (179-192): bounds and value returned so far. -/
def regionLoop (s : Info) : List ℕ → Box × ℚ → Option (Box × ℚ)
  | [], a => some a
  | c :: cs, (b, r) =>
    let v := min (max (s.sol c) (b.lo c)) (b.up c)
    if b.up c - s.tol ≤ v then regionLoop s cs (⟨Function.update b.lo c (b.up c), b.up⟩, r + (v - b.up c))
    else if v ≤ b.lo c + s.tol then regionLoop s cs (⟨b.lo, Function.update b.up c (b.lo c)⟩, r + (v - b.lo c))
    else none

/-- `feasibleRegion` (168-194). -/
def Obj.feasibleRegion (N : Obj) (s : Info) : Option (Box × ℚ) := regionLoop s N.members (s.box, 0)

/-- What `createBranch` does with member `j` in column `c`. -/
inductive Kind
  | fixed | fathomed | skipped | listed
  deriving DecidableEq

/-- Body of the loop of `createBranch` (213-235); `none` = access beyond `bounds_`. -/
def Obj.kind (N : Obj) (s : Info) (j c : ℕ) : Option Kind :=
  if s.box.lo c < s.box.up c then
    (if N.bounds = [] then some false else (N.bounds[j]?).map fun b => decide (s.cutoff < b)).map fun f =>
      if f then .fathomed
      else if (N.quick ∨ N.frac < s.depth) ∧ |s.sol c - s.box.lo c| < s.tol then (if N.frac < s.depth then .skipped else .listed)
      else .listed
  else some .fixed

/-- Loop of `createBranch` (213-235): listed and skipped members from number `j` on. -/
def createLoop (N : Obj) (s : Info) : List ℕ → ℕ → Option (List ℕ × List ℕ)
  | [], _ => some ([], [])
  | c :: cs, j => (N.kind s j c).bind fun k => (createLoop N s cs (j + 1)).map fun r =>
      match k with
      | .listed => (j :: r.1, r.2)
      | .skipped => (r.1, j :: r.2)
      | _ => r

/-- A single skipped member is put back (237-247). -/
def putBack : List ℕ × List ℕ → List ℕ × List ℕ
  | (l, [k]) => (l ++ [k], [])
  | a => a

/-- The key of the sort (231, 242): distance to the upper bound. -/
def Obj.key (N : Obj) (s : Info) (j : ℕ) : ℚ := (N.members[j]?).elim 0 fun c => s.box.up c - s.value c

/-- A branching object: members in order and skipped ones. -/
structure Branching where
  order : List ℕ
  skipped : List ℕ

/-- `createBranch` (196-257): `b` is a branching object it may make. -/
def Obj.Creates (N : Obj) (s : Info) (b : Branching) : Prop :=
  ∃ r, createLoop N s N.members 0 = some r ∧ b.order.Perm (putBack r).1 ∧ b.order.Pairwise (fun i j => N.key s i ≤ N.key s j) ∧ b.skipped = (putBack r).2

/-- `numberBranches` (268-275; BonNWayObject.hpp:168-170). -/
def Branching.number (b : Branching) : ℕ := b.order.length + if b.skipped = [] then 0 else 1

/-- `n_way_consequences::applyToSolver` (BonNWayObject.hpp:42-50). -/
def applyCons : List ℕ → Box → Option Box
  | [], b => some b
  | i :: is, b => if 9 / 10 < b.lo i then none else applyCons is ⟨b.lo, Function.update b.up i (b.lo i)⟩

/-- `applyConsequence` (125-135) for state 9999. -/
def Obj.applyConsequence (N : Obj) (j : ℕ) (b : Box) : Option Box :=
  match N.cons with
  | none => some b
  | some cs => (cs[j]?).bind fun c => match c with
    | none => some b
    | some is => applyCons is b

/-- Loop of `branch` (326-341) from position `p`; `which = none` stands for -1. -/
def branchLoop (N : Obj) (which : Option ℕ) : List ℕ → ℕ → Box → Option Box
  | [], _, b => some b
  | j :: js, p, b => (N.members[j]?).bind fun c =>
    if which ≠ some p then
      if -(10 ^ 20) < b.lo c then branchLoop N which js (p + 1) ⟨b.lo, Function.update b.up c (b.lo c)⟩ else none
    else
      if b.up c < 10 ^ 20 then (N.applyConsequence j ⟨Function.update b.lo c (b.up c), b.up⟩).bind fun b => branchLoop N which js (p + 1) b else none

/-- Loop over the skipped members (343-346). -/
def skipLoop (N : Obj) : List ℕ → Box → Option Box
  | [], b => some b
  | k :: ks, b => (N.members[k]?).bind fun c => if b.lo c + 1 / 2 < b.up c then skipLoop N ks ⟨b.lo, Function.update b.up c (b.lo c)⟩ else none

/-- `branch(solver, which)` (320-349). -/
def Branching.branchOn (N : Obj) (b : Branching) (which : Option ℕ) (x : Box) : Option Box :=
  (branchLoop N which b.order 0 x).bind fun x => if which ≠ none then skipLoop N b.skipped x else some x

/-- Which branch is done when `branchIndex_` is `i` (312-316). -/
def Branching.which (b : Branching) (i : ℕ) : Option ℕ := if b.skipped ≠ [] ∧ i + 1 = b.order.length then none else some i

/-- `branch(solver)` (309-318). -/
def Branching.branch (N : Obj) (b : Branching) (i : ℕ) (x : Box) : Option Box := b.branchOn N (b.which i) x

/-- `seq_branched_on` (BonNWayObject.hpp:182-186) after `i + 1` branches; `none` = access beyond the end. -/
def Branching.seqBranchedOn (b : Branching) (i : ℕ) : Option ℕ := b.order[i]?

/-- Copy constructor (50-67): `bounds_` is not copied. -/
def Obj.copy (N : Obj) : Obj := { N with bounds := [], cons := if N.members = [] then none else N.cons }

/-- Assignment (77-102) of another object; `none` = access beyond the array of consequences.  The second component counts consequences that are not deleted. -/
def Obj.assign (N R : Obj) : Option (Obj × ℕ) :=
  match N.cons with
  | some cs => if R.members.length ≤ cs.length then some ({ R with bounds := N.bounds }, (cs.drop R.members.length).countP Option.isSome) else none
  | none => some ({ R with bounds := N.bounds }, 0)

/-! ## Specification -/

/-- Points within bounds. -/
def InBox (b : Box) (y : ℕ → ℚ) : Prop := ∀ i, b.lo i ≤ y i ∧ y i ≤ b.up i

/-- Variables that are 0 if member `j` is 1. -/
def Obj.conseq (N : Obj) (j : ℕ) : List ℕ :=
  match N.cons with
  | none => []
  | some cs => match cs[j]? with
    | some (some is) => is
    | _ => []

/-- The members are different binaries, none fixed to 1; consequences are about other variables. -/
structure Binary (N : Obj) (x : Box) : Prop where
  nodup : N.members.Nodup
  lo : ∀ c ∈ N.members, x.lo c = 0
  up : ∀ c ∈ N.members, x.up c = 0 ∨ x.up c = 1
  cons : ∀ cs, N.cons = some cs → cs.length = N.members.length
  apart : ∀ j, ∀ i ∈ N.conseq j, i ∉ N.members
  conseqLo : ∀ j, ∀ i ∈ N.conseq j, 0 ≤ x.lo i

/-- `y` is a solution of the node in which member `k` is the one that is 1. -/
structure Sol (N : Obj) (x : Box) (y : ℕ → ℚ) (k : ℕ) : Prop where
  box : InBox x y
  mem : k < N.members.length
  one : ∀ c, N.members[k]? = some c → y c = 1
  zero : ∀ (j : ℕ) c, j ≠ k → N.members[j]? = some c → y c = 0
  conseq : ∀ i ∈ N.conseq k, y i = 0

/-! ## Lemmas -/

theorem infeasLoop_spec (s : Info) : ∀ (cs : List ℕ) (a : ℕ × ℚ), (infeasLoop s cs a).1 = a.1 + cs.countP (fun c => decide (s.tol < s.dist c)) ∧
    a.2 ≤ (infeasLoop s cs a).2 ∧ (∀ c ∈ cs, s.tol < s.dist c → s.dist c ≤ (infeasLoop s cs a).2) ∧
    ((infeasLoop s cs a).2 = a.2 ∨ ∃ c ∈ cs, s.tol < s.dist c ∧ (infeasLoop s cs a).2 = s.dist c)
  | [], a => by simp [infeasLoop]
  | c :: cs, a => by
    rw [infeasLoop]
    obtain ⟨h1, h2, h3, h4⟩ := infeasLoop_spec s cs (if s.tol < s.dist c then (a.1 + 1, max (s.dist c) a.2) else a)
    by_cases h : s.tol < s.dist c
    · simp only [h, if_true] at h1 h2 h3 h4 ⊢
      refine ⟨?_, le_trans (le_max_right _ _) h2, ?_, ?_⟩
      · rw [h1, List.countP_cons]; simp [h]; omega
      · intro d hd hd'
        rcases List.mem_cons.1 hd with rfl | hd
        · exact le_trans (le_max_left _ _) h2
        · exact h3 d hd hd'
      · rcases h4 with h4 | ⟨d, hd, hd'⟩
        · rcases le_total (s.dist c) a.2 with h5 | h5
          · left; rw [h4, max_eq_right h5]
          · right; exact ⟨c, by simp, h, by rw [h4, max_eq_left h5]⟩
        · right; exact ⟨d, by simp [hd], hd'⟩
    · simp only [h, if_false] at h1 h2 h3 h4 ⊢
      refine ⟨?_, h2, ?_, ?_⟩
      · rw [h1, List.countP_cons]; simp [h]
      · intro d hd hd'
        rcases List.mem_cons.1 hd with rfl | hd
        · exact absurd hd' h
        · exact h3 d hd hd'
      · rcases h4 with h4 | ⟨d, hd, hd'⟩
        · left; exact h4
        · right; exact ⟨d, by simp [hd], hd'⟩

/-- The members in order and the skipped ones by kind. -/
theorem createLoop_spec (N : Obj) (s : Info) : ∀ (cs : List ℕ) (j0 : ℕ) r, createLoop N s cs j0 = some r →
    (∀ j, j ∈ r.1 ↔ ∃ c, j0 ≤ j ∧ cs[j - j0]? = some c ∧ N.kind s j c = some .listed) ∧ (∀ j, j ∈ r.2 ↔ ∃ c, j0 ≤ j ∧ cs[j - j0]? = some c ∧ N.kind s j c = some .skipped) ∧
    r.1.Nodup ∧ r.2.Nodup
  | [], j0, r, h => by
    simp only [createLoop, Option.some.injEq] at h
    subst h
    simp
  | c :: cs, j0, r, h => by
    rw [createLoop, Option.bind_eq_some_iff] at h
    obtain ⟨k, hk, h⟩ := h
    rw [Option.map_eq_some_iff] at h
    obtain ⟨r', hr', h⟩ := h
    obtain ⟨h1, h2, h3, h4⟩ := createLoop_spec N s cs (j0 + 1) r' hr'
    have hge1 : ∀ j ∈ r'.1, j0 < j := fun j hj => by obtain ⟨d, hd, -⟩ := (h1 j).1 hj; omega
    have hge2 : ∀ j ∈ r'.2, j0 < j := fun j hj => by obtain ⟨d, hd, -⟩ := (h2 j).1 hj; omega
    have hstep : ∀ (K : Kind) (j : ℕ), (∃ d, j0 ≤ j ∧ (c :: cs)[j - j0]? = some d ∧ N.kind s j d = some K) ↔ (j = j0 ∧ k = K) ∨ ∃ d, j0 + 1 ≤ j ∧ cs[j - (j0 + 1)]? = some d ∧ N.kind s j d = some K := by
      intro K j
      constructor
      · rintro ⟨d, hd1, hd2, hd3⟩
        rcases Nat.eq_or_lt_of_le hd1 with rfl | hlt
        · rw [Nat.sub_self, List.getElem?_cons_zero, Option.some.injEq] at hd2
          subst hd2
          rw [hk] at hd3
          exact Or.inl ⟨rfl, Option.some.inj hd3⟩
        · right
          refine ⟨d, hlt, ?_, hd3⟩
          rw [show j - j0 = (j - (j0 + 1)) + 1 by omega, List.getElem?_cons_succ] at hd2
          exact hd2
      · rintro (⟨rfl, rfl⟩ | ⟨d, hd1, hd2, hd3⟩)
        · exact ⟨c, le_refl _, by simp, hk⟩
        · refine ⟨d, by omega, ?_, hd3⟩
          rw [show j - j0 = (j - (j0 + 1)) + 1 by omega, List.getElem?_cons_succ]
          exact hd2
    cases k with
    | listed =>
      simp only at h
      subst h
      refine ⟨fun j => ?_, fun j => ?_, ?_, h4⟩
      · rw [hstep, ← h1]; simp
      · rw [hstep, ← h2]; simp
      · exact List.nodup_cons.2 ⟨fun hm => lt_irrefl _ (hge1 _ hm), h3⟩
    | skipped =>
      simp only at h
      subst h
      refine ⟨fun j => ?_, fun j => ?_, h3, ?_⟩
      · rw [hstep, ← h1]; simp
      · rw [hstep, ← h2]; simp
      · exact List.nodup_cons.2 ⟨fun hm => lt_irrefl _ (hge2 _ hm), h4⟩
    | fixed =>
      simp only at h
      subst h
      refine ⟨fun j => ?_, fun j => ?_, h3, h4⟩
      · rw [hstep, ← h1]; simp
      · rw [hstep, ← h2]; simp
    | fathomed =>
      simp only at h
      subst h
      refine ⟨fun j => ?_, fun j => ?_, h3, h4⟩
      · rw [hstep, ← h1]; simp
      · rw [hstep, ← h2]; simp

theorem creates_spec (N : Obj) (s : Info) (b : Branching) (h : N.Creates s b) :
    (∀ j, j ∈ b.order ++ b.skipped ↔ ∃ c, N.members[j]? = some c ∧ (N.kind s j c = some .listed ∨ N.kind s j c = some .skipped)) ∧
    (b.order ++ b.skipped).Nodup ∧ b.skipped.length ≠ 1 := by
  obtain ⟨r, hr, hp, -, hs⟩ := h
  obtain ⟨h1, h2, h3, h4⟩ := createLoop_spec N s N.members 0 r hr
  simp only [Nat.zero_le, Nat.sub_zero, true_and] at h1 h2
  have hdis : ∀ j ∈ r.1, j ∉ r.2 := by
    intro j hj hj'
    obtain ⟨c, hc, hk⟩ := (h1 j).1 hj
    obtain ⟨c', hc', hk'⟩ := (h2 j).1 hj'
    rw [hc] at hc'
    obtain rfl := Option.some.inj hc'
    rw [hk] at hk'
    cases hk'
  have hpb : (b.order ++ b.skipped).Perm (r.1 ++ r.2) ∧ b.skipped.length ≠ 1 := by
    rw [hs]
    obtain ⟨l, sk⟩ := r
    match sk with
    | [] => exact ⟨hp.append_right _, by simp [putBack]⟩
    | [k] => exact ⟨by simpa [putBack] using hp, by simp [putBack]⟩
    | k :: k' :: sk => exact ⟨hp.append_right _, by simp [putBack]⟩
  refine ⟨fun j => ?_, ?_, hpb.2⟩
  · rw [hpb.1.mem_iff, List.mem_append, h1, h2]
    constructor
    · rintro (⟨c, hc, hk⟩ | ⟨c, hc, hk⟩)
      · exact ⟨c, hc, Or.inl hk⟩
      · exact ⟨c, hc, Or.inr hk⟩
    · rintro ⟨c, hc, hk | hk⟩
      · exact Or.inl ⟨c, hc, hk⟩
      · exact Or.inr ⟨c, hc, hk⟩
  · rw [hpb.1.nodup_iff]
    exact List.nodup_append.2 ⟨h3, h4, fun a ha c hc hac => hdis a ha (hac ▸ hc)⟩

/-- Columns of members. -/
def Obj.cols (N : Obj) (js : List ℕ) : List ℕ := js.filterMap fun j => N.members[j]?

theorem Obj.mem_cols (N : Obj) (js : List ℕ) (c : ℕ) : c ∈ N.cols js ↔ ∃ j ∈ js, N.members[j]? = some c := by simp [Obj.cols]

/-- Upper bounds moved down in some columns. -/
def Box.down (x : Box) (cs : List ℕ) : Box := ⟨x.lo, fun c => if c ∈ cs then x.lo c else x.up c⟩

theorem Box.down_nil (x : Box) : x.down [] = x := by simp [Box.down]

theorem Box.down_cons (x : Box) (c : ℕ) (cs : List ℕ) : (⟨x.lo, Function.update x.up c (x.lo c)⟩ : Box).down cs = x.down (c :: cs) := by
  simp only [Box.down, Box.mk.injEq, true_and]
  funext d
  by_cases h1 : d ∈ cs
  · simp [h1]
  · by_cases h2 : d = c
    · subst h2; simp [h1]
    · simp [h1, h2]

theorem Box.down_down (x : Box) (cs ds : List ℕ) : (x.down cs).down ds = x.down (cs ++ ds) := by
  simp only [Box.down, Box.mk.injEq, true_and]
  funext d
  by_cases h1 : d ∈ cs <;> by_cases h2 : d ∈ ds <;> simp [h1, h2]

theorem branchLoop_down (N : Obj) (which : Option ℕ) : ∀ (js : List ℕ) (p : ℕ) (x : Box), (∀ q < js.length, which ≠ some (p + q)) → (∀ j ∈ js, ∃ c, N.members[j]? = some c ∧ -(10 ^ 20) < x.lo c) →
    branchLoop N which js p x = some (x.down (N.cols js))
  | [], p, x, _, _ => by simp [branchLoop, Obj.cols, Box.down_nil]
  | j :: js, p, x, hw, hd => by
    obtain ⟨c, hc, hl⟩ := hd j (by simp)
    have h0 : which ≠ some p := by simpa using hw 0 (by simp)
    rw [branchLoop, hc, Option.bind_some, if_pos h0, if_pos hl, branchLoop_down N which js (p + 1) ⟨x.lo, Function.update x.up c (x.lo c)⟩ (fun q hq => by rw [Nat.add_assoc, Nat.add_comm 1 q]; exact hw (q + 1) (by simpa using hq))
      (fun j hj => hd j (by simp [hj])), Box.down_cons]
    congr 2
    simp [Obj.cols, hc]

theorem applyCons_ok : ∀ (is : List ℕ) (x : Box), (∀ i ∈ is, x.lo i ≤ 9 / 10) → applyCons is x = some (x.down is)
  | [], x, _ => by simp [applyCons, Box.down_nil]
  | i :: is, x, h => by
    rw [applyCons, if_neg (not_lt.2 (h i (by simp))), applyCons_ok is ⟨x.lo, Function.update x.up i (x.lo i)⟩ (fun i hi => h i (by simp [hi])), Box.down_cons]

theorem applyCons_fails : ∀ (is : List ℕ) (x : Box), (∃ i ∈ is, 9 / 10 < x.lo i) → applyCons is x = none
  | [], x, h => by simp at h
  | i :: is, x, h => by
    rw [applyCons]
    by_cases hi : 9 / 10 < x.lo i
    · rw [if_pos hi]
    · rw [if_neg hi]
      apply applyCons_fails
      obtain ⟨i', hi', h'⟩ := h
      rcases List.mem_cons.1 hi' with rfl | hm
      · exact absurd h' hi
      · exact ⟨i', hm, h'⟩

theorem skipLoop_ok (N : Obj) : ∀ (ks : List ℕ) (x : Box), (∀ k ∈ ks, ∃ c, N.members[k]? = some c ∧ x.lo c + 1 / 2 < x.up c) → (N.cols ks).Nodup → skipLoop N ks x = some (x.down (N.cols ks))
  | [], x, _, _ => by simp [skipLoop, Obj.cols, Box.down_nil]
  | k :: ks, x, h, hn => by
    obtain ⟨c, hc, hl⟩ := h k (by simp)
    have hcols : N.cols (k :: ks) = c :: N.cols ks := by simp [Obj.cols, hc]
    rw [hcols, List.nodup_cons] at hn
    rw [skipLoop, hc, Option.bind_some, if_pos hl, skipLoop_ok N ks, Box.down_cons, hcols]
    · intro j hj
      obtain ⟨d, hd, hl'⟩ := h j (by simp [hj])
      refine ⟨d, hd, ?_⟩
      have : d ≠ c := by
        rintro rfl
        exact hn.1 ((N.mem_cols ks d).2 ⟨j, hj, hd⟩)
      simpa [Function.update_of_ne this] using hl'
    · exact hn.2

theorem conseq_apply (N : Obj) (j : ℕ) (x : Box) (hc : ∀ cs, N.cons = some cs → j < cs.length) : N.applyConsequence j x = applyCons (N.conseq j) x := by
  unfold Obj.applyConsequence Obj.conseq
  cases h : N.cons with
  | none => simp [applyCons]
  | some cs =>
    have := hc cs h
    simp only [List.getElem?_eq_getElem this, Option.bind_some]
    cases cs[j] with
    | none => simp [applyCons]
    | some is => simp

/-- A list of members without repetition, free and in range. -/
structure Free (N : Obj) (x : Box) (js : List ℕ) : Prop where
  nodup : js.Nodup
  mem : ∀ j ∈ js, ∃ c, N.members[j]? = some c ∧ x.up c = 1

theorem cols_nodup (N : Obj) (h : N.members.Nodup) : ∀ js : List ℕ, js.Nodup → (N.cols js).Nodup
  | [], _ => by simp [Obj.cols]
  | j :: js, hj => by
    rw [List.nodup_cons] at hj
    cases hc : N.members[j]? with
    | none =>
      have : N.cols (j :: js) = N.cols js := by simp [Obj.cols, hc]
      rw [this]; exact cols_nodup N h js hj.2
    | some c =>
      have : N.cols (j :: js) = c :: N.cols js := by simp [Obj.cols, hc]
      rw [this, List.nodup_cons]
      refine ⟨fun hm => ?_, cols_nodup N h js hj.2⟩
      obtain ⟨j', hj', hc'⟩ := (N.mem_cols js c).1 hm
      have hlt := (List.getElem?_eq_some_iff.1 hc).1
      have : j' = j := by
        have := (List.nodup_iff_getElem?_ne_getElem?.1 h)
        rcases lt_trichotomy j j' with hl | hl | hl
        · exact absurd (hc.trans hc'.symm) (this j j' hl (List.getElem?_eq_some_iff.1 hc').1)
        · exact hl.symm
        · exact absurd (hc'.trans hc.symm) (this j' j hl hlt)
      exact hj.1 (this ▸ hj')

theorem Free.cols_sub {N : Obj} {js : List ℕ} {c : ℕ} (hc : c ∈ N.cols js) : c ∈ N.members := by
  obtain ⟨j, -, h⟩ := (N.mem_cols js c).1 hc
  exact List.mem_of_getElem? h

theorem index_inj {N : Obj} (h : N.members.Nodup) {j j' c : ℕ} (hc : N.members[j]? = some c) (hc' : N.members[j']? = some c) : j = j' := by
  have := (List.nodup_iff_getElem?_ne_getElem?.1 h)
  rcases lt_trichotomy j j' with hl | hl | hl
  · exact absurd (hc.trans hc'.symm) (this j j' hl (List.getElem?_eq_some_iff.1 hc').1)
  · exact hl
  · exact absurd (hc'.trans hc.symm) (this j' j hl (List.getElem?_eq_some_iff.1 hc).1)

theorem branchLoop_split (N : Obj) (which : Option ℕ) : ∀ (a l : List ℕ) (p : ℕ) (x : Box), (∀ q < a.length, which ≠ some (p + q)) → (∀ j ∈ a, ∃ c, N.members[j]? = some c ∧ -(10 ^ 20) < x.lo c) →
    branchLoop N which (a ++ l) p x = branchLoop N which l (p + a.length) (x.down (N.cols a))
  | [], l, p, x, _, _ => by simp [Obj.cols, Box.down_nil]
  | j :: a, l, p, x, hw, hd => by
    obtain ⟨d, hd', hl⟩ := hd j (by simp)
    have h0 : which ≠ some p := by simpa using hw 0 (by simp)
    rw [List.cons_append, branchLoop, hd', Option.bind_some, if_pos h0, if_pos hl, branchLoop_split N which a l (p + 1) ⟨x.lo, Function.update x.up d (x.lo d)⟩ (fun q hq => by rw [Nat.add_assoc, Nat.add_comm 1 q]; exact hw (q + 1) (by simpa using hq))
      (fun j hj => hd j (by simp [hj])), Box.down_cons]
    congr 1
    · simp only [List.length_cons]; omega
    · simp [Obj.cols, hd']

/-- The box of the branch in which the member at position `pre.length` is 1. -/
theorem branch_up (N : Obj) (x : Box) (hb : Binary N x) (pre post sk : List ℕ) (k : ℕ) (hf : Free N x (pre ++ k :: post ++ sk)) (hi : ∀ i ∈ N.conseq k, x.lo i ≤ 9 / 10)
    (c : ℕ) (hk : N.members[k]? = some c) :
    Branching.branchOn N ⟨pre ++ k :: post, sk⟩ (some pre.length) x = some ((⟨Function.update x.lo c 1, x.up⟩ : Box).down (N.cols pre ++ N.conseq k ++ N.cols post ++ N.cols sk)) := by
  have hnd := hf.nodup
  have hmem := hf.mem
  have hlo : ∀ j ∈ pre ++ k :: post ++ sk, ∃ c, N.members[j]? = some c ∧ -(10 ^ 20) < x.lo c := by
    intro j hj
    obtain ⟨d, hd, -⟩ := hmem j hj
    exact ⟨d, hd, by rw [hb.lo d (List.mem_of_getElem? hd)]; norm_num⟩
  have hne : ∀ j ∈ pre ++ post ++ sk, ∀ d, N.members[j]? = some d → d ≠ c := by
    rintro j hj d hd rfl
    have := index_inj hb.nodup hd hk
    subst this
    simp only [List.append_assoc, List.cons_append, List.nodup_append, List.nodup_cons, List.mem_append, List.mem_cons] at hnd hj
    grind
  have hupc : x.up c = 1 := by
    obtain ⟨d, hd, h⟩ := hmem k (by simp)
    rw [hk] at hd
    obtain rfl := Option.some.inj hd
    exact h
  have hcm : c ∉ N.conseq k := fun h => hb.apart k c h (List.mem_of_getElem? hk)
  unfold Branching.branchOn
  simp only
  rw [branchLoop_split N _ pre _ 0 x (fun q hq h => by rw [Option.some.injEq] at h; omega) (fun j hj => hlo j (by simp [hj])), Nat.zero_add, branchLoop, hk, Option.bind_some, if_neg (by simp)]
  have hcpre : c ∉ N.cols pre := by
    intro h
    obtain ⟨j, hj, hd⟩ := (N.mem_cols pre c).1 h
    exact hne j (by simp [hj]) c hd rfl
  have hup1 : (x.down (N.cols pre)).up c = 1 := by simp [Box.down, hcpre, hupc]
  have hbox1 : (⟨Function.update (x.down (N.cols pre)).lo c ((x.down (N.cols pre)).up c), (x.down (N.cols pre)).up⟩ : Box) = (⟨Function.update x.lo c 1, x.up⟩ : Box).down (N.cols pre) := by
    rw [hup1]
    simp only [Box.down, Box.mk.injEq, true_and]
    funext d
    by_cases h : d ∈ N.cols pre
    · have : d ≠ c := fun e => hcpre (e ▸ h)
      simp [h, this]
    · simp [h]
  rw [if_pos (by rw [hup1]; norm_num), hbox1, conseq_apply N k _ (fun cs h => by rw [hb.cons cs h]; exact (List.getElem?_eq_some_iff.1 hk).1), applyCons_ok]
  · rw [Option.bind_some, Box.down_down, branchLoop_down]
    · rw [Option.bind_some, if_pos (by simp), Box.down_down, skipLoop_ok]
      · rw [Box.down_down]
      · intro j hj
        obtain ⟨d, hd, hu⟩ := hmem j (by simp [hj])
        refine ⟨d, hd, ?_⟩
        have h1 : d ≠ c := hne j (by simp [hj]) d hd
        have hdm : d ∈ N.members := List.mem_of_getElem? hd
        have h2 : d ∉ N.conseq k := fun h => hb.apart k d h hdm
        have h3 : d ∉ N.cols pre := by
          intro h
          obtain ⟨j', hj', hd'⟩ := (N.mem_cols pre d).1 h
          have := index_inj hb.nodup hd hd'
          subst this
          simp only [List.append_assoc, List.cons_append, List.nodup_append, List.nodup_cons, List.mem_append, List.mem_cons] at hnd
          grind
        have h4 : d ∉ N.cols post := by
          intro h
          obtain ⟨j', hj', hd'⟩ := (N.mem_cols post d).1 h
          have := index_inj hb.nodup hd hd'
          subst this
          simp only [List.append_assoc, List.cons_append, List.nodup_append, List.nodup_cons, List.mem_append, List.mem_cons] at hnd
          grind
        simp only [Box.down, List.mem_append, h2, h3, h4, or_self, if_false, Function.update_of_ne h1, hu, hb.lo d hdm]
        norm_num
      · apply cols_nodup N hb.nodup
        exact (List.nodup_append.1 hnd).2.1
    · intro q _ h
      rw [Option.some.injEq] at h
      omega
    · intro j hj
      obtain ⟨d, hd, hl⟩ := hlo j (by simp [hj])
      refine ⟨d, hd, ?_⟩
      have h1 : d ≠ c := hne j (by simp [hj]) d hd
      simpa [Box.down, Function.update_of_ne h1] using hl
  · intro i him
    have : i ≠ c := fun e => hcm (e ▸ him)
    simpa [Box.down, Function.update_of_ne this] using hi i him

/-- The box of a branch in which no member is set to 1. -/
theorem branch_none (N : Obj) (x : Box) (hb : Binary N x) (b : Branching) (hf : Free N x (b.order ++ b.skipped)) (which : Option ℕ) (hw : which = none ∨ which = some b.order.length) :
    b.branchOn N which x = some (x.down (N.cols b.order ++ if which = none then [] else N.cols b.skipped)) := by
  have hlo : ∀ j ∈ b.order, ∃ c, N.members[j]? = some c ∧ -(10 ^ 20) < x.lo c := by
    intro j hj
    obtain ⟨d, hd, -⟩ := hf.mem j (by simp [hj])
    exact ⟨d, hd, by rw [hb.lo d (List.mem_of_getElem? hd)]; norm_num⟩
  unfold Branching.branchOn
  rw [branchLoop_down N which b.order 0 x (by rintro q hq rfl; rcases hw with h | h <;> simp at h; omega) hlo, Option.bind_some]
  rcases hw with rfl | rfl
  · simp
  · rw [if_pos (by simp), skipLoop_ok, Box.down_down]
    · simp
    · intro j hj
      obtain ⟨d, hd, hu⟩ := hf.mem j (by simp [hj])
      refine ⟨d, hd, ?_⟩
      have h3 : d ∉ N.cols b.order := by
        intro h
        obtain ⟨j', hj', hd'⟩ := (N.mem_cols b.order d).1 h
        have := index_inj hb.nodup hd hd'
        subst this
        exact (List.nodup_append.1 hf.nodup).2.2 _ hj' _ hj rfl
      simp only [Box.down, h3, if_false, hu, hb.lo d (List.mem_of_getElem? hd)]
      norm_num
    · exact cols_nodup N hb.nodup _ (List.nodup_append.1 hf.nodup).2.1

/-- The branch cannot be made if a consequence is already 1. -/
theorem branch_up_abort (N : Obj) (x : Box) (hb : Binary N x) (pre post sk : List ℕ) (k : ℕ) (hf : Free N x (pre ++ k :: post ++ sk)) (hi : ∃ i ∈ N.conseq k, 9 / 10 < x.lo i) :
    Branching.branchOn N ⟨pre ++ k :: post, sk⟩ (some pre.length) x = none := by
  have hmem := hf.mem
  obtain ⟨c, hk, -⟩ := hmem k (by simp)
  have hlo : ∀ j ∈ pre, ∃ c, N.members[j]? = some c ∧ -(10 ^ 20) < x.lo c := by
    intro j hj
    obtain ⟨d, hd, -⟩ := hmem j (by simp [hj])
    exact ⟨d, hd, by rw [hb.lo d (List.mem_of_getElem? hd)]; norm_num⟩
  unfold Branching.branchOn
  simp only
  rw [branchLoop_split N _ pre _ 0 x (fun q hq h => by rw [Option.some.injEq] at h; omega) hlo, Nat.zero_add, branchLoop, hk, Option.bind_some, if_neg (by simp)]
  by_cases hu : (x.down (N.cols pre)).up c < 10 ^ 20
  · rw [if_pos hu, conseq_apply N k _ (fun cs h => by rw [hb.cons cs h]; exact (List.getElem?_eq_some_iff.1 hk).1), applyCons_fails]
    · rfl
    · obtain ⟨i, hi, hl⟩ := hi
      have : i ≠ c := fun e => hb.apart k i hi (e ▸ List.mem_of_getElem? hk)
      exact ⟨i, hi, by simpa [Box.down, Function.update_of_ne this] using hl⟩
  · rw [if_neg hu]; rfl

theorem createLoop_defined (N : Obj) (s : Info) : ∀ (cs : List ℕ) (j0 : ℕ) r, createLoop N s cs j0 = some r → ∀ (j c : ℕ), cs[j]? = some c → ∃ K, N.kind s (j0 + j) c = some K
  | [], _, _, _, j, c, h => by simp at h
  | c0 :: cs, j0, r, h, j, c, hj => by
    rw [createLoop, Option.bind_eq_some_iff] at h
    obtain ⟨k, hk, h⟩ := h
    rw [Option.map_eq_some_iff] at h
    obtain ⟨r', hr', -⟩ := h
    cases j with
    | zero =>
      rw [List.getElem?_cons_zero, Option.some.injEq] at hj
      subst hj
      exact ⟨k, hk⟩
    | succ j =>
      rw [List.getElem?_cons_succ] at hj
      obtain ⟨K, hK⟩ := createLoop_defined N s cs (j0 + 1) r' hr' j c hj
      exact ⟨K, by rw [← hK]; congr 1; omega⟩

theorem kind_free (N : Obj) (s : Info) (j c : ℕ) (K : Kind) (h : N.kind s j c = some K) (hK : K ≠ .fixed) : s.box.lo c < s.box.up c := by
  unfold Obj.kind at h
  by_contra hn
  rw [if_neg hn, Option.some.injEq] at h
  exact hK h.symm

theorem creates_free (N : Obj) (s : Info) (b : Branching) (h : N.Creates s b) (hb : Binary N s.box) : Free N s.box (b.order ++ b.skipped) := by
  obtain ⟨h1, h2, -⟩ := creates_spec N s b h
  refine ⟨h2, fun j hj => ?_⟩
  obtain ⟨c, hc, hk⟩ := (h1 j).1 hj
  have hm := List.mem_of_getElem? hc
  have hlt : s.box.lo c < s.box.up c := by rcases hk with hk | hk <;> exact kind_free N s j c _ hk (by simp)
  refine ⟨c, hc, ?_⟩
  rcases hb.up c hm with h | h
  · rw [hb.lo c hm, h] at hlt; exact absurd hlt (lt_irrefl _)
  · exact h

theorem sol_listed (N : Obj) (s : Info) (b : Branching) (h : N.Creates s b) (hb : Binary N s.box) (y : ℕ → ℚ) (k c : ℕ) (hk : N.members[k]? = some c) (hy : Sol N s.box y k) (hnf : N.kind s k c ≠ some .fathomed) :
    k ∈ b.order ++ b.skipped := by
  obtain ⟨h1, -, -⟩ := creates_spec N s b h
  obtain ⟨r, hr, -⟩ := h
  obtain ⟨K, hK⟩ := createLoop_defined N s N.members 0 r hr k c hk
  rw [Nat.zero_add] at hK
  refine (h1 k).2 ⟨c, hk, ?_⟩
  have hlt : s.box.lo c < s.box.up c := by
    have := (hy.box c).2
    rw [hy.one c hk] at this
    rw [hb.lo c (List.mem_of_getElem? hk)]
    linarith
  cases K with
  | listed => exact Or.inl hK
  | skipped => exact Or.inr hK
  | fathomed => exact absurd hK hnf
  | fixed =>
    unfold Obj.kind at hK
    rw [if_pos hlt, Option.map_eq_some_iff] at hK
    obtain ⟨f, -, hf⟩ := hK
    split_ifs at hf

theorem inBox_down (x : Box) (cs : List ℕ) (y : ℕ → ℚ) : InBox (x.down cs) y ↔ (∀ i, x.lo i ≤ y i) ∧ (∀ i ∈ cs, y i ≤ x.lo i) ∧ ∀ i, i ∉ cs → y i ≤ x.up i := by
  unfold InBox Box.down
  constructor
  · intro h
    refine ⟨fun i => (h i).1, fun i hi => ?_, fun i hi => ?_⟩
    · have := (h i).2; simpa [hi] using this
    · have := (h i).2; simpa [hi] using this
  · rintro ⟨h1, h2, h3⟩ i
    refine ⟨h1 i, ?_⟩
    by_cases hi : i ∈ cs
    · simpa [hi] using h2 i hi
    · simpa [hi] using h3 i hi

theorem sol_down_iff (N : Obj) (x : Box) (hb : Binary N x) (y : ℕ → ℚ) (k : ℕ) (hy : Sol N x y k) (js : List ℕ) : InBox (x.down (N.cols js)) y ↔ k ∉ js := by
  obtain ⟨c, hc⟩ : ∃ c, N.members[k]? = some c := ⟨_, List.getElem?_eq_getElem hy.mem⟩
  rw [inBox_down]
  constructor
  · rintro ⟨-, h, -⟩ hk
    have := h c ((N.mem_cols js c).2 ⟨k, hk, hc⟩)
    rw [hy.one c hc, hb.lo c (List.mem_of_getElem? hc)] at this
    norm_num at this
  · intro hk
    refine ⟨fun i => (hy.box i).1, fun i hi => ?_, fun i _ => (hy.box i).2⟩
    obtain ⟨j, hj, hji⟩ := (N.mem_cols js i).1 hi
    rw [hy.zero j i (fun e => hk (e ▸ hj)) hji, hb.lo i (List.mem_of_getElem? hji)]

theorem sol_up_iff (N : Obj) (x : Box) (hb : Binary N x) (y : ℕ → ℚ) (k : ℕ) (hy : Sol N x y k) (pre post sk : List ℕ) (j : ℕ) (hf : Free N x (pre ++ j :: post ++ sk)) :
    (∃ x', Branching.branchOn N ⟨pre ++ j :: post, sk⟩ (some pre.length) x = some x' ∧ InBox x' y) ↔ j = k := by
  obtain ⟨c, hc, hcu⟩ := hf.mem j (by simp)
  by_cases hi : ∀ i ∈ N.conseq j, x.lo i ≤ 9 / 10
  · rw [branch_up N x hb pre post sk j hf hi c hc]
    simp only [Option.some.injEq, exists_eq_left', inBox_down]
    constructor
    · rintro ⟨h, -⟩
      by_contra hne
      have := h c
      rw [Function.update_self, hy.zero j c hne hc] at this
      norm_num at this
    · rintro rfl
      have hother : ∀ l, (l = pre ∨ l = post ∨ l = sk) → ∀ i ∈ N.cols l, i ≠ c ∧ y i = 0 ∧ x.lo i = 0 := by
        intro l hl i hi
        obtain ⟨q, hq, hqi⟩ := (N.mem_cols l i).1 hi
        have hnd := hf.nodup
        have hqj : q ≠ j := by
          rintro rfl
          simp only [List.append_assoc, List.cons_append, List.nodup_append, List.nodup_cons, List.mem_append, List.mem_cons] at hnd
          grind
        exact ⟨fun e => hqj (index_inj hb.nodup (e ▸ hqi) hc), hy.zero q i hqj hqi, hb.lo i (List.mem_of_getElem? hqi)⟩
      refine ⟨fun i => ?_, fun i hi => ?_, fun i _ => (hy.box i).2⟩
      · by_cases e : i = c
        · subst e; rw [Function.update_self, hy.one i hc]
        · rw [Function.update_of_ne e]; exact (hy.box i).1
      · simp only [List.mem_append] at hi
        have key : i ≠ c ∧ y i ≤ x.lo i := by
          rcases hi with ((hi | hi) | hi) | hi
          · obtain ⟨h1, h2, h3⟩ := hother pre (by simp) i hi; exact ⟨h1, by rw [h2, h3]⟩
          · exact ⟨fun e => hb.apart j i hi (e ▸ List.mem_of_getElem? hc), by rw [hy.conseq i hi]; exact hb.conseqLo j i hi⟩
          · obtain ⟨h1, h2, h3⟩ := hother post (by simp) i hi; exact ⟨h1, by rw [h2, h3]⟩
          · obtain ⟨h1, h2, h3⟩ := hother sk (by simp) i hi; exact ⟨h1, by rw [h2, h3]⟩
        rw [Function.update_of_ne key.1]
        exact key.2
  · rw [branch_up_abort N x hb pre post sk j hf (by simpa using hi)]
    simp only [reduceCtorEq, false_and, exists_false, false_iff]
    rintro rfl
    apply hi
    intro i hi
    have := (hy.box i).1
    rw [hy.conseq i hi] at this
    linarith

/-! ## C125: which branches keep a solution -/

/-- **C125.** Branch `i` keeps a solution whose member `k` is 1 and has not been fathomed exactly if `k` is the member at position `i`, where with skipped members the last
position has been given to the branch for all skipped members, and the branch after it keeps nothing. -/
theorem branch_keeps_iff (N : Obj) (s : Info) (b : Branching) (h : N.Creates s b) (hb : Binary N s.box) (y : ℕ → ℚ) (k c : ℕ) (hk : N.members[k]? = some c) (hy : Sol N s.box y k)
    (hnf : N.kind s k c ≠ some .fathomed) (i : ℕ) (hi : i < b.number) :
    (∃ x', b.branch N i s.box = some x' ∧ InBox x' y) ↔
      (b.skipped = [] ∧ b.order[i]? = some k) ∨ (b.skipped ≠ [] ∧ i + 1 < b.order.length ∧ b.order[i]? = some k) ∨ (b.skipped ≠ [] ∧ i + 1 = b.order.length ∧ k ∈ b.skipped) := by
  have hf := creates_free N s b h hb
  have hks := sol_listed N s b h hb y k c hk hy hnf
  have hnd := List.nodup_append.1 hf.nodup
  have hup : ∀ hlt : i < b.order.length, b.which i = some i → ((∃ x', b.branch N i s.box = some x' ∧ InBox x' y) ↔ b.order[i]? = some k) := by
    intro hlt hw
    have hsplit : b.order = b.order.take i ++ b.order[i] :: b.order.drop (i + 1) := by
      rw [List.getElem_cons_drop, List.take_append_drop]
    have hlen : (b.order.take i).length = i := by simp; omega
    have := sol_up_iff N s.box hb y k hy (b.order.take i) (b.order.drop (i + 1)) b.skipped b.order[i] (by rw [← hsplit]; exact hf)
    rw [hlen, ← hsplit] at this
    unfold Branching.branch
    rw [hw, this, List.getElem?_eq_getElem hlt, Option.some.injEq]
  by_cases hs : b.skipped = []
  · have hlt : i < b.order.length := by simpa [Branching.number, hs] using hi
    rw [hup hlt (by simp [Branching.which, hs])]
    simp [hs]
  · have hle : i < b.order.length + 1 := by simpa [Branching.number, hs] using hi
    rcases lt_trichotomy (i + 1) b.order.length with hl | hl | hl
    · rw [hup (by omega) (by simp [Branching.which]; omega)]
      simp only [hs, false_and, ne_eq, not_false_eq_true, true_and, hl, false_or]
      constructor
      · intro h; exact Or.inl h
      · rintro (h | ⟨h, -⟩)
        · exact h
        · omega
    · have hw : b.which i = none := by simp [Branching.which, hs, hl]
      unfold Branching.branch
      rw [hw, branch_none N s.box hb b hf none (Or.inl rfl)]
      simp only [if_true, List.append_nil, Option.some.injEq, exists_eq_left', sol_down_iff N s.box hb y k hy]
      simp only [hs, false_and, ne_eq, not_false_eq_true, true_and, hl, false_or, lt_irrefl]
      constructor
      · intro hn
        rcases List.mem_append.1 hks with h | h
        · exact absurd h hn
        · exact h
      · intro hk hn
        exact hnd.2.2 k hn k hk rfl
    · have hil : i = b.order.length := by omega
      have hw : b.which i = some b.order.length := by simp only [Branching.which, hil]; rw [if_neg (by omega)]
      unfold Branching.branch
      rw [hw, branch_none N s.box hb b hf _ (Or.inr rfl)]
      have : N.cols b.order ++ (if (some b.order.length) = none then [] else N.cols b.skipped) = N.cols (b.order ++ b.skipped) := by simp [Obj.cols]
      simp only [this, Option.some.injEq, exists_eq_left', sol_down_iff N s.box hb y k hy]
      simp only [hs, hks, not_true_eq_false, false_and, ne_eq, not_false_eq_true, true_and, false_or, false_iff, not_or, not_and]
      omega

/-- **C125 (proved part).** Without skipped members every solution of the node whose member has not been fathomed by its bound is kept by exactly one branch. -/
theorem covered_once_partial (N : Obj) (s : Info) (b : Branching) (h : N.Creates s b) (hb : Binary N s.box) (hs : b.skipped = []) (y : ℕ → ℚ) (k c : ℕ) (hk : N.members[k]? = some c) (hy : Sol N s.box y k)
    (hnf : N.kind s k c ≠ some .fathomed) : ∃! i, i < b.number ∧ ∃ x', b.branch N i s.box = some x' ∧ InBox x' y := by
  have hks := sol_listed N s b h hb y k c hk hy hnf
  rw [hs, List.append_nil] at hks
  obtain ⟨i, hi, hik⟩ := List.getElem_of_mem hks
  have hin : i < b.number := by simpa [Branching.number, hs] using hi
  refine ⟨i, ⟨hin, (branch_keeps_iff N s b h hb y k c hk hy hnf i hin).2 (Or.inl ⟨hs, by rw [List.getElem?_eq_getElem hi, hik]⟩)⟩, ?_⟩
  rintro i' ⟨hi', hx⟩
  rcases (branch_keeps_iff N s b h hb y k c hk hy hnf i' hi').1 hx with ⟨-, h'⟩ | ⟨h', -⟩ | ⟨h', -⟩
  · obtain ⟨hl, he⟩ := List.getElem?_eq_some_iff.1 h'
    exact (List.nodup_append.1 (creates_free N s b h hb).nodup).1.getElem_inj_iff.1 (he.trans hik.symm)
  · exact absurd hs h'
  · exact absurd hs h'

/-- **C125 (refuted with skipped members, general form).** Some branch keeps the solution exactly if nothing has been skipped, or there are listed members and the one that is 1 is not the
last of them. -/
theorem covered_iff (N : Obj) (s : Info) (b : Branching) (h : N.Creates s b) (hb : Binary N s.box) (y : ℕ → ℚ) (k c : ℕ) (hk : N.members[k]? = some c) (hy : Sol N s.box y k)
    (hnf : N.kind s k c ≠ some .fathomed) :
    (∃ i < b.number, ∃ x', b.branch N i s.box = some x' ∧ InBox x' y) ↔ b.skipped = [] ∨ (b.order ≠ [] ∧ b.order.getLast? ≠ some k) := by
  by_cases hs : b.skipped = []
  · obtain ⟨i, hi, -⟩ := covered_once_partial N s b h hb hs y k c hk hy hnf
    simp only [hs, true_or, iff_true]
    exact ⟨i, hi.1, hi.2⟩
  · have hks := sol_listed N s b h hb y k c hk hy hnf
    have hnd := List.nodup_append.1 (creates_free N s b h hb).nodup
    have hnum : b.number = b.order.length + 1 := by simp [Branching.number, hs]
    simp only [hs, false_or]
    constructor
    · rintro ⟨i, hi, hx⟩
      rcases (branch_keeps_iff N s b h hb y k c hk hy hnf i hi).1 hx with ⟨h', -⟩ | ⟨-, hl, ho⟩ | ⟨-, hl, hm⟩
      · exact absurd h' hs
      · have hne : b.order ≠ [] := by rintro e; simp [e] at hl
        refine ⟨hne, fun hlast => ?_⟩
        rw [List.getLast?_eq_getElem?] at hlast
        obtain ⟨h1, e1⟩ := List.getElem?_eq_some_iff.1 ho
        obtain ⟨h2, e2⟩ := List.getElem?_eq_some_iff.1 hlast
        have := hnd.1.getElem_inj_iff.1 (e1.trans e2.symm)
        omega
      · have hne : b.order ≠ [] := by rintro e; simp [e] at hl
        refine ⟨hne, fun hlast => hnd.2.2 k (List.mem_of_getLast? hlast) k hm rfl⟩
    · rintro ⟨hne, hlast⟩
      have hpos : 0 < b.order.length := List.length_pos_iff.2 hne
      rcases List.mem_append.1 hks with hm | hm
      · obtain ⟨i, hi, hik⟩ := List.getElem_of_mem hm
        have hi' : i + 1 < b.order.length := by
          by_contra hcon
          have : i = b.order.length - 1 := by omega
          apply hlast
          rw [List.getLast?_eq_getElem?, ← this, List.getElem?_eq_getElem hi, hik]
        exact ⟨i, by omega, (branch_keeps_iff N s b h hb y k c hk hy hnf i (by omega)).2 (Or.inr (Or.inl ⟨hs, hi', by rw [List.getElem?_eq_getElem hi, hik]⟩))⟩
      · exact ⟨b.order.length - 1, by omega, (branch_keeps_iff N s b h hb y k c hk hy hnf _ (by omega)).2 (Or.inr (Or.inr ⟨hs, by omega, hm⟩))⟩

/-- What makes a branch: members of one index are either raised to their upper bound or lowered. -/
theorem branch_box_cases (N : Obj) (s : Info) (b : Branching) (h : N.Creates s b) (hb : Binary N s.box) (i : ℕ) (hi : i < b.number) (x' : Box) (hx : b.branch N i s.box = some x') :
    (∃ j c, b.order[i]? = some j ∧ N.members[j]? = some c ∧ x'.lo = Function.update s.box.lo c 1 ∧ (∀ d, x'.up d = if (∃ q ∈ b.order ++ b.skipped, q ≠ j ∧ N.members[q]? = some d) ∨ d ∈ N.conseq j then s.box.lo d else s.box.up d)) ∨
    (b.skipped ≠ [] ∧ b.order.length ≤ i + 1 ∧ x'.lo = s.box.lo ∧ ∀ d, x'.up d = if (∃ q ∈ b.order, N.members[q]? = some d) ∨ (i = b.order.length ∧ ∃ q ∈ b.skipped, N.members[q]? = some d) then s.box.lo d else s.box.up d) := by
  have hf := creates_free N s b h hb
  have hup : ∀ hlt : i < b.order.length, b.which i = some i → ∃ j c, b.order[i]? = some j ∧ N.members[j]? = some c ∧ x'.lo = Function.update s.box.lo c 1 ∧ (∀ d, x'.up d = if (∃ q ∈ b.order ++ b.skipped, q ≠ j ∧ N.members[q]? = some d) ∨ d ∈ N.conseq j then s.box.lo d else s.box.up d) := by
    intro hlt hw
    have hsplit : b.order = b.order.take i ++ b.order[i] :: b.order.drop (i + 1) := by
      rw [List.getElem_cons_drop, List.take_append_drop]
    have hlen : (b.order.take i).length = i := by simp; omega
    have hf' : Free N s.box (b.order.take i ++ b.order[i] :: b.order.drop (i + 1) ++ b.skipped) := by rw [← hsplit]; exact hf
    obtain ⟨c, hc, -⟩ := hf.mem b.order[i] (by simp)
    unfold Branching.branch at hx
    rw [hw] at hx
    have hbe : Branching.branchOn N ⟨b.order.take i ++ b.order[i] :: b.order.drop (i + 1), b.skipped⟩ (some (b.order.take i).length) s.box = some x' := by
      rw [hlen, ← hsplit]; exact hx
    refine ⟨b.order[i], c, List.getElem?_eq_getElem hlt, hc, ?_⟩
    have hcj : c ∉ N.conseq b.order[i] := fun e => hb.apart _ c e (List.mem_of_getElem? hc)
    by_cases hi : ∀ i' ∈ N.conseq b.order[i], s.box.lo i' ≤ 9 / 10
    · rw [branch_up N s.box hb _ _ b.skipped _ hf' hi c hc, Option.some.injEq] at hbe
      subst hbe
      refine ⟨rfl, fun d => ?_⟩
      simp only [Box.down]
      have hiff : d ∈ N.cols (b.order.take i) ++ N.conseq b.order[i] ++ N.cols (b.order.drop (i + 1)) ++ N.cols b.skipped ↔
          (∃ q ∈ b.order ++ b.skipped, q ≠ b.order[i] ∧ N.members[q]? = some d) ∨ d ∈ N.conseq b.order[i] := by
        simp only [List.mem_append, N.mem_cols]
        have hnd := hf'.nodup
        simp only [List.append_assoc, List.cons_append, List.nodup_append, List.nodup_cons, List.mem_append, List.mem_cons] at hnd
        have hmem : ∀ q, q ∈ b.order ↔ q ∈ b.order.take i ∨ q = b.order[i] ∨ q ∈ b.order.drop (i + 1) := by
          intro q
          conv_lhs => rw [hsplit]
          simp only [List.mem_append, List.mem_cons]
        constructor
        · rintro (((⟨q, hq, hd⟩ | hd) | ⟨q, hq, hd⟩) | ⟨q, hq, hd⟩)
          · exact Or.inl ⟨q, Or.inl ((hmem q).2 (Or.inl hq)), by grind, hd⟩
          · exact Or.inr hd
          · exact Or.inl ⟨q, Or.inl ((hmem q).2 (Or.inr (Or.inr hq))), by grind, hd⟩
          · exact Or.inl ⟨q, Or.inr hq, by grind, hd⟩
        · rintro (⟨q, hq | hq, hne, hd⟩ | hd)
          · rcases (hmem q).1 hq with h | h | h
            · exact Or.inl (Or.inl (Or.inl ⟨q, h, hd⟩))
            · exact absurd h hne
            · exact Or.inl (Or.inr ⟨q, h, hd⟩)
          · exact Or.inr ⟨q, hq, hd⟩
          · exact Or.inl (Or.inl (Or.inr hd))
      by_cases hm : d ∈ N.cols (b.order.take i) ++ N.conseq b.order[i] ++ N.cols (b.order.drop (i + 1)) ++ N.cols b.skipped
      · rw [if_pos hm, if_pos (hiff.1 hm)]
        have hdc : d ≠ c := by
          rintro rfl
          rcases hiff.1 hm with ⟨q, -, hne, hq⟩ | hd
          · exact hne (index_inj hb.nodup hq hc)
          · exact hcj hd
        rw [Function.update_of_ne hdc]
      · rw [if_neg hm, if_neg (fun e => hm (hiff.2 e))]
    · rw [branch_up_abort N s.box hb _ _ b.skipped _ hf' (by simpa using hi)] at hbe
      cases hbe
  by_cases hs : b.skipped = []
  · exact Or.inl (hup (by simpa [Branching.number, hs] using hi) (by simp [Branching.which, hs]))
  · have hle : i < b.order.length + 1 := by simpa [Branching.number, hs] using hi
    rcases lt_trichotomy (i + 1) b.order.length with hl | hl | hl
    · exact Or.inl (hup (by omega) (by simp [Branching.which]; omega))
    · right
      have hw : b.which i = none := by simp [Branching.which, hs, hl]
      unfold Branching.branch at hx
      rw [hw, branch_none N s.box hb b hf none (Or.inl rfl), Option.some.injEq] at hx
      subst hx
      refine ⟨hs, by omega, rfl, fun d => ?_⟩
      simp only [Box.down, if_true, List.append_nil, N.mem_cols]
      have : ¬ i = b.order.length := by omega
      simp [this]
    · right
      have hil : i = b.order.length := by omega
      have hw : b.which i = some b.order.length := by simp only [Branching.which, hil]; rw [if_neg (by omega)]
      unfold Branching.branch at hx
      rw [hw, branch_none N s.box hb b hf _ (Or.inr rfl), Option.some.injEq] at hx
      subst hx
      refine ⟨hs, by omega, rfl, fun d => ?_⟩
      simp only [Box.down, reduceCtorEq, if_false, List.mem_append, N.mem_cols, hil, true_and]

/-! ## C126: satisfied objects, fixing and progress -/

theorem dist_nonneg (s : Info) (c : ℕ) (h : s.box.lo c ≤ s.box.up c) : 0 ≤ s.dist c := by
  have h1 : s.box.lo c ≤ s.value c := le_min (le_max_right _ _) h
  have h2 : s.value c ≤ s.box.up c := min_le_right _ _
  exact le_min (by linarith) (by linarith)

/-- **C126.** The infeasibility is 0 exactly if every member is within the tolerance of a bound, and otherwise it is the largest distance of a member to its bounds. -/
theorem infeasibility_exact (N : Obj) (s : Info) (ht : 0 ≤ s.tol) :
    (N.infeasibility s = 0 ↔ ∀ c ∈ N.members, s.dist c ≤ s.tol) ∧
    (N.infeasibility s ≠ 0 → s.tol < N.infeasibility s ∧ (∃ c ∈ N.members, N.infeasibility s = s.dist c) ∧ ∀ c ∈ N.members, s.dist c ≤ N.infeasibility s) := by
  obtain ⟨h1, h2, h3, h4⟩ := infeasLoop_spec s N.members (0, 0)
  simp only [Nat.zero_add] at h1
  unfold Obj.infeasibility
  simp only
  by_cases hz : (infeasLoop s N.members (0, 0)).1 = 0
  · have hall : ∀ c ∈ N.members, s.dist c ≤ s.tol := by
      rw [h1, List.countP_eq_zero] at hz
      intro c hc
      have := hz c hc
      simpa using this
    simp [hz]
    exact hall
  · have hex : ∃ c ∈ N.members, s.tol < s.dist c := by
      rw [h1] at hz
      obtain ⟨c, hc, h⟩ := List.countP_pos_iff.1 (Nat.pos_of_ne_zero hz)
      exact ⟨c, hc, by simpa using h⟩
    obtain ⟨c, hc, hlt⟩ := hex
    have hge := h3 c hc hlt
    have htl : s.tol < (infeasLoop s N.members (0, 0)).2 := lt_of_lt_of_le hlt hge
    simp only [ne_eq, hz, not_false_eq_true, if_true]
    refine ⟨⟨fun h => by rw [h] at htl; exact absurd htl (not_lt.2 ht), fun h => absurd hlt (not_lt.2 (h c hc))⟩, fun _ => ⟨htl, ?_, fun d hd => ?_⟩⟩
    · rcases h4 with h4 | ⟨d, hd, -, h4⟩
      · rw [h4] at htl; exact absurd htl (not_lt.2 ht)
      · exact ⟨d, hd, h4⟩
    · rcases lt_or_ge s.tol (s.dist d) with h | h
      · exact h3 d hd h
      · exact le_trans h htl.le

/-- The infeasibility of binary members is at most 1/2. -/
theorem infeasibility_le_half (N : Obj) (s : Info) (ht : 0 ≤ s.tol) (hb : ∀ c ∈ N.members, s.box.up c ≤ s.box.lo c + 1) : N.infeasibility s ≤ 1 / 2 := by
  by_cases h0 : N.infeasibility s = 0
  · rw [h0]; norm_num
  · obtain ⟨-, ⟨c, hc, he⟩, -⟩ := (infeasibility_exact N s ht).2 h0
    have h1 : s.dist c ≤ s.value c - s.box.lo c := min_le_left _ _
    have h2 : s.dist c ≤ s.box.up c - s.value c := min_le_right _ _
    have := hb c hc
    rw [he]
    linarith

theorem regionLoop_spec (s : Info) : ∀ (cs : List ℕ) (x : Box) (r : ℚ), cs.Nodup → (∀ c ∈ cs, x.lo c = s.box.lo c ∧ x.up c = s.box.up c) →
    regionLoop s cs (x, r) = if ∀ c ∈ cs, s.box.up c - s.tol ≤ s.value c ∨ s.value c ≤ s.box.lo c + s.tol then
      some (⟨fun d => if d ∈ cs ∧ s.box.up d - s.tol ≤ s.value d then s.box.up d else x.lo d, fun d => if d ∈ cs ∧ ¬ s.box.up d - s.tol ≤ s.value d then s.box.lo d else x.up d⟩,
        r + (cs.map fun c => s.value c - if s.box.up c - s.tol ≤ s.value c then s.box.up c else s.box.lo c).sum) else none
  | [], x, r, _, _ => by simp [regionLoop]
  | c :: cs, x, r, hn, hx => by
    rw [List.nodup_cons] at hn
    obtain ⟨hl, hu⟩ := hx c (by simp)
    have hv : min (max (s.sol c) (s.box.lo c)) (s.box.up c) = s.value c := rfl
    have hne : ∀ d ∈ cs, d ≠ c := fun d hd e => hn.1 (e ▸ hd)
    rw [regionLoop]
    simp only [hu, hl, hv]
    by_cases h1 : s.box.up c - s.tol ≤ s.value c
    · rw [if_pos h1, regionLoop_spec s cs _ _ hn.2 (fun d hd => by simpa [Function.update_of_ne (hne d hd)] using hx d (by simp [hd]))]
      simp only [List.forall_mem_cons, h1, true_or, true_and, List.map_cons, if_true, List.sum_cons]
      split_ifs with h2
      · congr 2
        · congr 1
          · funext d
            by_cases hd : d = c
            · subst hd; simp [h1]
            · simp [hd]
          · funext d
            by_cases hd : d = c
            · subst hd; simp [h1, hn.1]
            · simp [hd]
        · ring
      · rfl
    · rw [if_neg h1]
      by_cases h2 : s.value c ≤ s.box.lo c + s.tol
      · rw [if_pos h2, regionLoop_spec s cs _ _ hn.2 (fun d hd => by simpa [Function.update_of_ne (hne d hd)] using hx d (by simp [hd]))]
        simp only [List.forall_mem_cons, h2, or_true, true_and, List.map_cons, h1, if_false, List.sum_cons]
        split_ifs with h3
        · congr 2
          · congr 1
            · funext d
              by_cases hd : d = c
              · subst hd; simp [h1, hn.1]
              · simp [hd]
            · funext d
              by_cases hd : d = c
              · subst hd; simp [h1]
              · simp [hd]
          · ring
        · rfl
      · rw [if_neg h2, if_neg]
        intro h
        rcases h c (by simp) with h | h
        · exact h1 h
        · exact h2 h

/-- **C126.** `feasibleRegion` of different members works exactly if the object is satisfied; it fixes every member at the bound it is close to (the upper one if both are close) and changes
no other bound.  The number it returns is the sum of the signed moves. -/
theorem feasibleRegion_exact (N : Obj) (s : Info) (hn : N.members.Nodup) :
    N.feasibleRegion s = if ∀ c ∈ N.members, s.dist c ≤ s.tol then
      some (⟨fun d => if d ∈ N.members ∧ s.box.up d - s.tol ≤ s.value d then s.box.up d else s.box.lo d, fun d => if d ∈ N.members ∧ ¬ s.box.up d - s.tol ≤ s.value d then s.box.lo d else s.box.up d⟩,
        (N.members.map fun c => s.value c - if s.box.up c - s.tol ≤ s.value c then s.box.up c else s.box.lo c).sum) else none := by
  unfold Obj.feasibleRegion
  rw [regionLoop_spec s N.members s.box 0 hn (fun _ _ => ⟨rfl, rfl⟩)]
  have : ∀ c, s.dist c ≤ s.tol ↔ (s.box.up c - s.tol ≤ s.value c ∨ s.value c ≤ s.box.lo c + s.tol) := by
    intro c
    unfold Info.dist
    rw [min_le_iff]
    constructor
    · rintro (h | h)
      · right; linarith
      · left; linarith
    · rintro (h | h)
      · right; linarith
      · left; linarith
  simp only [this, zero_add]

/-- **C126.** A member off its bounds is listed unless fathomed, never skipped. -/
theorem fractional_listed (N : Obj) (s : Info) (j c : ℕ) (ht : 0 ≤ s.tol) (hd : s.tol < s.dist c) (K : Kind) (h : N.kind s j c = some K) (hK : K ≠ .fathomed) : K = .listed := by
  have h1 : s.dist c ≤ s.value c - s.box.lo c := min_le_left _ _
  have h2 : s.dist c ≤ s.box.up c - s.value c := min_le_right _ _
  have hlt : s.box.lo c < s.box.up c := by linarith
  have hv : s.value c ≤ max (s.sol c) (s.box.lo c) := min_le_left _ _
  have hs : s.box.lo c + s.tol < s.sol c := by
    rcases le_total (s.sol c) (s.box.lo c) with h | h
    · rw [max_eq_right h] at hv; linarith
    · rw [max_eq_left h] at hv; linarith
  have habs : ¬ |s.sol c - s.box.lo c| < s.tol := by rw [abs_of_pos (by linarith)]; linarith
  unfold Obj.kind at h
  rw [if_pos hlt, Option.map_eq_some_iff] at h
  obtain ⟨f, -, hf⟩ := h
  by_cases hft : f = true
  · rw [if_pos hft] at hf; exact absurd hf.symm hK
  · rw [if_neg hft, if_neg (fun h => habs h.2)] at hf; exact hf.symm

/-- **C126.** Every branch fixes all listed members, so it excludes the point if a listed member is off its bounds. -/
theorem branch_progress (N : Obj) (s : Info) (b : Branching) (h : N.Creates s b) (hb : Binary N s.box) (i : ℕ) (hi : i < b.number) (x' : Box) (hx : b.branch N i s.box = some x') :
    (∀ j ∈ b.order, ∀ c, N.members[j]? = some c → x'.lo c = x'.up c) ∧
    (0 ≤ s.tol → (∃ (j c : ℕ), N.members[j]? = some c ∧ s.tol < s.dist c ∧ N.kind s j c ≠ some .fathomed) → ¬ InBox x' s.sol) := by
  have hfix : ∀ j ∈ b.order, ∀ c, N.members[j]? = some c → x'.lo c = x'.up c := by
    intro j hj c hc
    have hf := creates_free N s b h hb
    rcases branch_box_cases N s b h hb i hi x' hx with ⟨j', c', hj', hc', hlo, hup⟩ | ⟨-, -, hlo, hup⟩
    · by_cases hjj : j = j'
      · subst hjj
        rw [hc] at hc'
        obtain rfl := Option.some.inj hc'
        rw [hlo, hup, Function.update_self, if_neg]
        · obtain ⟨d, hd, hu⟩ := hf.mem j (by simp [hj])
          rw [hc] at hd
          obtain rfl := Option.some.inj hd
          exact hu.symm
        · rintro (⟨q, -, hne, hq⟩ | hd)
          · exact hne (index_inj hb.nodup hq hc)
          · exact hb.apart j c hd (List.mem_of_getElem? hc)
      · have hcc : c ≠ c' := fun e => hjj (index_inj hb.nodup hc (e ▸ hc'))
        rw [hlo, hup, Function.update_of_ne hcc, if_pos (Or.inl ⟨j, by simp [hj], hjj, hc⟩)]
    · rw [hlo, hup, if_pos (Or.inl ⟨j, hj, hc⟩)]
  refine ⟨hfix, ?_⟩
  rintro ht ⟨j, c, hc, hd, hnf⟩ hin
  obtain ⟨h1, -, -⟩ := creates_spec N s b h
  have hnum : j ∈ b.order := by
    obtain ⟨r, hr, hp, -, -⟩ := h
    obtain ⟨K, hK⟩ := createLoop_defined N s N.members 0 r hr j c hc
    rw [Nat.zero_add] at hK
    have hl := fractional_listed N s j c ht hd K hK (fun e => hnf (e ▸ hK))
    subst hl
    have hjr : j ∈ r.1 := ((createLoop_spec N s N.members 0 r hr).1 j).2 ⟨c, Nat.zero_le _, by simpa using hc, hK⟩
    rw [hp.mem_iff]
    obtain ⟨l, sk⟩ := r
    match sk with
    | [] => exact hjr
    | [k] => exact List.mem_append_left _ hjr
    | k :: k' :: sk => exact hjr
  have heq := hfix j hnum c hc
  have hm := List.mem_of_getElem? hc
  have h1' : s.dist c ≤ s.value c - s.box.lo c := min_le_left _ _
  have h2' : s.dist c ≤ s.box.up c - s.value c := min_le_right _ _
  have hv1 : s.value c ≤ max (s.sol c) (s.box.lo c) := min_le_left _ _
  have hs1 : s.box.lo c < s.sol c := by
    rcases le_total (s.sol c) (s.box.lo c) with h | h
    · rw [max_eq_right h] at hv1; linarith
    · rw [max_eq_left h] at hv1; linarith
  have hs2 : s.sol c < s.box.up c := by
    by_contra hcon
    have : s.value c = s.box.up c := by
      unfold Info.value
      apply min_eq_right
      exact le_trans (not_lt.1 hcon) (le_max_left _ _)
    linarith
  have hsol := hin c
  have hsc : s.sol c = x'.up c := le_antisymm hsol.2 (heq ▸ hsol.1)
  rcases branch_box_cases N s b h hb i hi x' hx with ⟨j', c', hj', hc', hlo, hup⟩ | ⟨-, -, hlo, hup⟩
  · have := hup c
    rw [this] at hsc
    split_ifs at hsc <;> linarith
  · have := hup c
    rw [this] at hsc
    split_ifs at hsc <;> linarith

/-! ## C127: settings and copies -/

/-- **C127 (refuted): the quick option.** Which members are listed, skipped or fathomed does not depend on `quicky_`. -/
theorem quick_ignored (N : Obj) (s : Info) (b : Branching) (q : Bool) : ({ N with quick := q } : Obj).Creates s b ↔ N.Creates s b := by
  have hk : ∀ j c, ({ N with quick := q } : Obj).kind s j c = N.kind s j c := by
    intro j c
    unfold Obj.kind
    simp only
    by_cases hd : N.frac < s.depth <;> simp [hd]
  have hl : ∀ cs j, createLoop ({ N with quick := q } : Obj) s cs j = createLoop N s cs j := by
    intro cs
    induction cs with
    | nil => intro j; rfl
    | cons c cs ih => intro j; rw [createLoop, createLoop, hk, ih]
  unfold Obj.Creates
  simp only [hl]
  rfl

/-- **C127 (proved part).** A copy judges points, fixes and applies consequences like the original, and branches like an object without bounds on its members. -/
theorem copy_partial (N : Obj) (s : Info) (hc : N.members = [] → N.cons = none) : N.copy.infeasibility s = N.infeasibility s ∧ N.copy.feasibleRegion s = N.feasibleRegion s ∧
    (∀ b w x, Branching.branchOn N.copy b w x = Branching.branchOn N b w x) ∧ (N.bounds = [] → ∀ b, N.copy.Creates s b ↔ N.Creates s b) := by
  have hcons : N.copy.cons = N.cons := by
    unfold Obj.copy
    by_cases h : N.members = []
    · simp [h, hc h]
    · simp [h]
  refine ⟨rfl, rfl, fun b w x => ?_, fun hb b => ?_⟩
  · have h1 : ∀ j x, N.copy.applyConsequence j x = N.applyConsequence j x := by intro j x; unfold Obj.applyConsequence; rw [hcons]
    have h2 : ∀ js p x, branchLoop N.copy w js p x = branchLoop N w js p x := by
      intro js
      induction js with
      | nil => intro p x; rfl
      | cons j js ih => intro p x; simp only [branchLoop, ih, h1]; rfl
    have h3 : ∀ js x, skipLoop N.copy js x = skipLoop N js x := by
      intro js
      induction js with
      | nil => intro x; rfl
      | cons j js ih => intro x; simp only [skipLoop, ih]; rfl
    unfold Branching.branchOn
    simp only [h2, h3]
  · have : N.copy = N := by
      have hb' : N.copy.bounds = N.bounds := hb.symm
      cases N
      simp only [Obj.copy, Obj.mk.injEq] at *
      grind
    rw [this]

/-- **C127 (proved part).** Assignment between objects with equally many members and equal bounds gives the other object and loses nothing. -/
theorem assign_partial (N R : Obj) (h : ∀ cs, N.cons = some cs → cs.length = R.members.length) (hb : N.bounds = R.bounds) : N.assign R = some (R, 0) := by
  have he : ({ R with bounds := N.bounds } : Obj) = R := by rw [hb]
  unfold Obj.assign
  cases hc : N.cons with
  | none => simp [he]
  | some cs =>
    have := h cs hc
    simp only [this, le_refl, if_true, he]
    rw [← this, List.drop_length]
    rfl

/-- **C127.** Which assignments work, which bounds result and how many consequences are lost. -/
theorem assign_exact (N R : Obj) :
    (N.assign R = none ↔ ∃ cs, N.cons = some cs ∧ cs.length < R.members.length) ∧
    ∀ X n, N.assign R = some (X, n) → X.bounds = N.bounds ∧ X.members = R.members ∧ X.cons = R.cons ∧ X.quick = R.quick ∧ X.frac = R.frac ∧
      n = ((N.cons.getD []).drop R.members.length).countP Option.isSome := by
  unfold Obj.assign
  cases hc : N.cons with
  | none =>
    simp only [reduceCtorEq, false_and, exists_false, true_and, Option.some.injEq, Prod.mk.injEq, Option.getD_none, List.drop_nil, List.countP_nil]
    rintro X n ⟨rfl, rfl⟩
    simp
  | some cs =>
    by_cases hl : R.members.length ≤ cs.length
    · simp only [hl, if_true, reduceCtorEq, Option.some.injEq, exists_eq_left', false_iff, not_lt, true_and, Prod.mk.injEq, Option.getD_some]
      rintro X n ⟨rfl, rfl⟩
      simp
    · simp only [hl, if_false, Option.some.injEq, exists_eq_left', true_iff, reduceCtorEq, false_implies, implies_true, and_true]
      omega

/-! ## Cases -/

/-- Four binaries, all in the object. -/
def exObj : Obj := ⟨[0, 1, 2, 3], none, [], false, 0⟩

/-- A point with two fractional members at depth `d`. -/
def exInfo (d : ℤ) : Info := ⟨⟨fun _ => 0, fun _ => 1⟩, fun i => if i < 2 then 1 / 2 else 0, 1 / 100, 10, d⟩

theorem exBinary (d : ℤ) : Binary exObj (exInfo d).box := ⟨by decide, fun _ _ => rfl, fun _ _ => Or.inr rfl, fun _ h => by simp [exObj] at h, fun _ _ h => by simp [Obj.conseq, exObj] at h, fun _ _ h => by simp [Obj.conseq, exObj] at h⟩

theorem exCreates : exObj.Creates (exInfo 1) ⟨[0, 1], [2, 3]⟩ := by
  refine ⟨([0, 1], [2, 3]), ?_, List.Perm.refl _, ?_, rfl⟩
  · norm_num [createLoop, Obj.kind, exObj, exInfo]
  · norm_num [Obj.key, exObj, exInfo, Info.value]

theorem exCreatesRoot : exObj.Creates (exInfo 0) ⟨[0, 1, 2, 3], []⟩ := by
  refine ⟨([0, 1, 2, 3], []), ?_, List.Perm.refl _, ?_, rfl⟩
  · norm_num [createLoop, Obj.kind, exObj, exInfo]
  · norm_num [Obj.key, exObj, exInfo, Info.value]

theorem exSol (d : ℤ) (k : ℕ) (hk : k < 4) : Sol exObj (exInfo d).box (fun i => if i = k then 1 else 0) k := by
  refine ⟨fun i => ?_, hk, fun c hc => ?_, fun j c hj hc => ?_, fun i hi => by simp [Obj.conseq, exObj] at hi⟩
  · simp only [exInfo]; split_ifs <;> norm_num
  · have : c = k := by
      obtain ⟨h, e⟩ := List.getElem?_eq_some_iff.1 hc
      have h4 : k < 4 := hk
      match k, h4 with
      | 0, _ => exact e.symm
      | 1, _ => exact e.symm
      | 2, _ => exact e.symm
      | 3, _ => exact e.symm
    simp [this]
  · have : c = j := by
      obtain ⟨h, e⟩ := List.getElem?_eq_some_iff.1 hc
      have h4 : j < 4 := h
      match j, h4 with
      | 0, _ => exact e.symm
      | 1, _ => exact e.symm
      | 2, _ => exact e.symm
      | 3, _ => exact e.symm
    simp only [this, hj, if_false]

/-- At depth 0 every solution is kept once. -/
example (k : ℕ) (hk : k < 4) : ∃! i, i < 4 ∧ ∃ x', Branching.branch exObj ⟨[0, 1, 2, 3], []⟩ i (exInfo 0).box = some x' ∧ InBox x' (fun i => if i = k then 1 else 0) :=
  covered_once_partial exObj (exInfo 0) _ exCreatesRoot (exBinary 0) rfl _ k _ (List.getElem?_eq_getElem (l := exObj.members) hk) (exSol 0 k hk) (by
    match k, hk with
    | 0, _ => norm_num [Obj.kind, exObj, exInfo]; decide
    | 1, _ => norm_num [Obj.kind, exObj, exInfo]; decide
    | 2, _ => norm_num [Obj.kind, exObj, exInfo]; decide
    | 3, _ => norm_num [Obj.kind, exObj, exInfo]; decide)

/-- **C125 (refuted).** With the settings of the constructor, one level below the root, a solution is in no branch although no bound on members is known: two members are fractional, two are 0,
and the solution has the second fractional member at 1. -/
theorem last_lost : ∃ (N : Obj) (s : Info) (b : Branching) (y : ℕ → ℚ) (k : ℕ), N.Creates s b ∧ N.frac = 0 ∧ N.bounds = [] ∧ s.depth = 1 ∧ Binary N s.box ∧ Sol N s.box y k ∧
    ∀ i < b.number, ∀ x', b.branch N i s.box = some x' → ¬ InBox x' y := by
  refine ⟨exObj, exInfo 1, ⟨[0, 1], [2, 3]⟩, fun i => if i = 1 then 1 else 0, 1, exCreates, rfl, rfl, rfl, exBinary 1, exSol 1 1 (by norm_num), fun i hi x' hx hin => ?_⟩
  have := (covered_iff exObj (exInfo 1) ⟨[0, 1], [2, 3]⟩ exCreates (exBinary 1) (fun i => if i = 1 then 1 else 0) 1 1 rfl (exSol 1 1 (by norm_num)) (by norm_num [Obj.kind, exObj, exInfo]; decide)).1 ⟨i, hi, x', hx, hin⟩
  rcases this with h | ⟨-, h⟩
  · cases h
  · exact h rfl

example : exObj.infeasibility (exInfo 0) = 1 / 2 := by norm_num [Obj.infeasibility, infeasLoop, exObj, exInfo, Info.dist, Info.value]

example : ∃ (j c : ℕ), exObj.members[j]? = some c ∧ (exInfo 1).tol < (exInfo 1).dist c ∧ exObj.kind (exInfo 1) j c ≠ some .fathomed := ⟨0, 0, rfl, by norm_num [exInfo, Info.dist, Info.value], by norm_num [Obj.kind, exObj, exInfo]; decide⟩

/-- **C126 (refuted).** The amount returned: `feasibleRegion` returns 0 although it moves two members, because one moves up and the other down. -/
theorem moves_cancel : ∃ (N : Obj) (s : Info) (x' : Box), Binary N s.box ∧ InBox s.box s.sol ∧ N.feasibleRegion s = some (x', 0) ∧ ∀ c ∈ N.members, ¬ (x'.lo c ≤ s.sol c ∧ s.sol c ≤ x'.up c) := by
  let s : Info := ⟨⟨fun _ => 0, fun _ => 1⟩, fun i => if i = 0 then 99 / 100 else 1 / 100, 1 / 10, 10, 0⟩
  have h := feasibleRegion_exact ⟨[0, 1], none, [], false, 0⟩ s (by decide)
  have h1 : ∀ c ∈ [0, 1], s.dist c ≤ s.tol := by
    intro c hc
    simp only [List.mem_cons, List.not_mem_nil, or_false] at hc
    rcases hc with rfl | rfl <;> norm_num [s, Info.dist, Info.value]
  rw [if_pos h1] at h
  have h2 : ([0, 1].map fun c => s.value c - if s.box.up c - s.tol ≤ s.value c then s.box.up c else s.box.lo c).sum = 0 := by norm_num [s, Info.value]
  rw [h2] at h
  refine ⟨⟨[0, 1], none, [], false, 0⟩, s, _, ⟨by decide, fun _ _ => rfl, fun _ _ => Or.inr rfl, fun _ h => by simp at h, fun _ _ h => by simp [Obj.conseq] at h, fun _ _ h => by simp [Obj.conseq] at h⟩, fun i => ?_, h, ?_⟩
  · show (0 : ℚ) ≤ (if i = 0 then 99 / 100 else 1 / 100) ∧ (if i = 0 then (99 / 100 : ℚ) else 1 / 100) ≤ 1
    split_ifs <;> norm_num
  · intro c hc
    simp only [List.mem_cons, List.not_mem_nil, or_false] at hc
    rcases hc with rfl | rfl <;> norm_num [s, Info.value]

/-- **C127 (refuted).** A copy forgets the bounds on the members: the original does not branch on a member whose bound exceeds the cutoff, the copy does. -/
theorem copy_loses_bounds : ∃ (N : Obj) (s : Info), N.Creates s ⟨[0], []⟩ ∧ ¬ N.copy.Creates s ⟨[0], []⟩ ∧ N.copy.Creates s ⟨[0, 1], []⟩ := by
  refine ⟨⟨[0, 1], none, [0, 20], false, 0⟩, exInfo 0, ⟨([0], []), ?_, List.Perm.refl _, by simp, rfl⟩, ?_, ⟨([0, 1], []), ?_, List.Perm.refl _, ?_, rfl⟩⟩
  · have hb : ([0, 20] : List ℚ) ≠ [] := by simp
    simp only [createLoop, Obj.kind, hb, if_false]
    norm_num [exInfo]
  · rintro ⟨r, hr, hp, -⟩
    have : r = ([0, 1], []) := by
      have : createLoop (Obj.copy ⟨[0, 1], none, [0, 20], false, 0⟩) (exInfo 0) [0, 1] 0 = some ([0, 1], []) := by norm_num [createLoop, Obj.kind, exInfo, Obj.copy]
      exact Option.some.inj (hr.symm.trans this)
    subst this
    exact absurd hp.length_eq (by simp [putBack])
  · norm_num [createLoop, Obj.kind, exInfo, Obj.copy]
  · norm_num [Obj.key, exInfo, Info.value, Obj.copy]

/-- **C127 (refuted).** Assigning an object with more members to one with consequences reads beyond the array of consequences. -/
theorem assign_out_of_range : ∃ N R : Obj, (∀ cs, N.cons = some cs → cs.length = N.members.length) ∧ N.assign R = none := ⟨⟨[0], some [none], [], false, 0⟩, exObj, by simp, rfl⟩

/-- **C127 (refuted).** Assignment keeps the old bounds, which then belong to other members. -/
theorem assign_keeps_bounds : ∃ N R X : Obj, N.assign R = some (X, 0) ∧ R.bounds = [] ∧ X.bounds = [20, 0] := ⟨⟨[5, 6], none, [20, 0], false, 0⟩, exObj, ⟨[0, 1, 2, 3], none, [20, 0], false, 0⟩, rfl, rfl, rfl⟩

example : (⟨[0], some [some [7]], [], false, 0⟩ : Obj).assign ⟨[1], none, [], false, 0⟩ = some (⟨[1], none, [], false, 0⟩, 0) := assign_partial _ _ (by simp) rfl

/-- **C127 (refuted).** An object told to branch quickly, at its root, still branches up on members whose value is 0. -/
theorem quick_lists_zero : ∃ (N : Obj) (s : Info) (b : Branching), N.quick = true ∧ N.Creates s b ∧ ∃ j ∈ b.order, ∃ c, N.members[j]? = some c ∧ s.sol c = 0 :=
  ⟨{ exObj with quick := true }, exInfo 0, ⟨[0, 1, 2, 3], []⟩, rfl, (quick_ignored exObj (exInfo 0) _ true).2 exCreatesRoot, 3, by simp, 3, rfl, rfl⟩

end Verif.Nway

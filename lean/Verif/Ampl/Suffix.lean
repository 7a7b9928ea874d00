import Mathlib.Data.List.Basic
import Mathlib.Data.Int.Notation
import Mathlib.Algebra.Order.Ring.Rat
import Mathlib.Tactic.Linarith
import Mathlib.Tactic.NormNum
import Mathlib.Tactic.Ring

/-!
# AMPL models: suffixes (`src/Interfaces/Ampl/BonAmplTMINLP.cpp`)

A suffix is a list with one value per variable, constraint or objective; `none` is the NULL pointer of a suffix that the model does not declare.  A call of `exit` or an exception
is the outcome `stop`, undefined behaviour is `undefined`.
-/
namespace Verif.Ampl

/-- How a reader ends. -/
inductive Out (α : Type) where
  | done (a : α)
  | stop
  | undefined
deriving DecidableEq, Repr

/-- `TMINLP::BranchingInfo` as filled from the suffixes. -/
structure BranchSuffix where
  priorities : Option (List ℤ)
  directions : Option (List ℤ)
  up : Option (List ℚ)
  down : Option (List ℚ)
deriving DecidableEq, Repr

/-- A 32-bit `int`. -/
def isInt (z : ℤ) : Bool := decide (-2147483648 ≤ z ∧ z ≤ 2147483647)

/-- `branch_.priorities[i] = -pri[i] + 9999` (BonAmplTMINLP.cpp:231-236); an overflow is undefined. -/
def readPri : List ℤ → Option (List ℤ)
  | [] => some []
  | p :: ps => if isInt (-p) && isInt (-p + 9999) then (readPri ps).map ((-p + 9999) :: ·) else none

/-- The values of a suffix registered with `Number_Type` and read with `GetIntegerSuffixValues` (BonAmplTMINLP.cpp:139, 224): the same memory seen as `int`s.
`words d` are the two words of the double `d`. -/
def rawWords (words : ℚ → ℤ × ℤ) : List ℚ → List ℤ
  | [] => []
  | d :: ds => (words d).1 :: (words d).2 :: rawWords words ds

/-- `AmplTMINLP::read_priorities` (BonAmplTMINLP.cpp:214-253), without the radius of perturbation.  `ownHandler`: the caller passed no suffix handler (123-124);
otherwise `suffix_handler_` stays NULL and is used. -/
def readPriorities (words : ℚ → ℤ × ℤ) (n : ℕ) (ownHandler : Bool) (pri : Option (List ℤ)) (dir up down : Option (List ℚ)) : Out BranchSuffix :=
  if !ownHandler then .undefined
  else
    let dirs := dir.map fun d => (rawWords words d).take n
    match pri with
    | none => .done ⟨none, dirs, up.orElse fun _ => down, down.orElse fun _ => up⟩
    | some p =>
      match readPri p with
      | none => .undefined
      | some q => .done ⟨some q, dirs, up.orElse fun _ => down, down.orElse fun _ => up⟩

/-- The last index with value one, from `i` on (BonAmplTMINLP.cpp:316-324). -/
def lastMarked : ℤ → ℤ → List ℤ → ℤ
  | _, best, [] => best
  | i, best, u :: us => lastMarked (i + 1) (if u = 1 then i else best) us

/-- `AmplTMINLP::read_obj_suffixes` (BonAmplTMINLP.cpp:298-329): the objective that is minimised (`none`: not set) and `upperBoundingObj_`. -/
def readObj (nObj : ℕ) (ub : Option (List ℤ)) : Option ℕ × ℤ :=
  if nObj < 2 then (none, -1)
  else
    match ub with
    | none => (some 0, -1)
    | some u => (some (if u[0]? = some 1 then 1 else 0), lastMarked 0 (-1) u)

/-- `id_map[id[i]] = i` for all `i` (BonAmplTMINLP.cpp:373-375): the variable found for a key, the last one wins. -/
def lookupLast (p : ℤ) : ℕ → List ℤ → Option ℕ
  | _, [] => none
  | i, v :: vs => match lookupLast p (i + 1) vs with
    | some j => some j
    | none => if v = p then some i else none

/-- `TMINLP::SimpleConcaveConstraint` (src/Interfaces/BonTMINLP.hpp:380-389). -/
structure Concave where
  c : ℕ
  y : ℕ
  x : ℕ
deriving DecidableEq, Repr

/-- One marked constraint (BonAmplTMINLP.cpp:391-417).  `cols` are its variables (`jCol[k] - 1`); `operator[]` of the map gives 0 for an unknown key. -/
def oneConcave (ids : List ℤ) (cols : List ℕ) (i : ℕ) (p : ℤ) : Option Concave :=
  match cols with
  | [a, b] =>
    let y := (lookupLast p 0 ids).getD 0
    if a = y then some ⟨i, y, b⟩ else if b ≠ y then none else some ⟨i, y, a⟩
  | _ => none

/-- The loop over the constraints (BonAmplTMINLP.cpp:389-419). -/
def concaveLoop (ids : List ℤ) (cols : ℕ → List ℕ) : ℕ → List ℤ → Option (List Concave)
  | _, [] => some []
  | i, p :: ps =>
    if p = 0 then concaveLoop ids cols (i + 1) ps
    else (oneConcave ids (cols i) i p).bind fun c => (concaveLoop ids cols (i + 1) ps).map (c :: ·)

/-- `AmplTMINLP::read_convexities` (BonAmplTMINLP.cpp:351-425): `none` inside is that nothing was declared. -/
def readConvexities (ids primary : Option (List ℤ)) (cols : ℕ → List ℕ) : Out (Option (List Concave)) :=
  match primary with
  | none => .done none
  | some ps =>
    match ids with
    | none => .stop
    | some v =>
      match concaveLoop v cols 0 ps with
      | none => .stop
      | some l => .done (some l)

/-- The map of the indicator variables (BonAmplTMINLP.cpp:447-452): only positive ids are entered. -/
def lookupPos (p : ℤ) : ℕ → List ℤ → Option ℕ
  | _, [] => none
  | i, v :: vs => match lookupPos p (i + 1) vs with
    | some j => some j
    | none => if v > 0 ∧ v = p then some i else none

/-- The loop over the constraints (BonAmplTMINLP.cpp:454-465). -/
def onoffLoop (vs : List ℤ) : List ℤ → Option (List ℤ)
  | [] => some []
  | c :: cs =>
    if c > 0 then
      match lookupPos c 0 vs with
      | some k => (onoffLoop vs cs).map ((k : ℤ) :: ·)
      | none => none
    else (onoffLoop vs cs).map (-1 :: ·)

/-- `AmplTMINLP::read_onoff` (BonAmplTMINLP.cpp:428-466): `c_extra_id_`, `none` inside when nothing is declared. -/
def readOnoff (cs vs : Option (List ℤ)) : Out (Option (List ℤ)) :=
  match cs, vs with
  | none, none => .done none
  | some c, some v =>
    match onoffLoop v c with
    | some l => .done (some l)
    | none => .stop
  | _, _ => .stop

/-- Conversion of the types of the sets (BonAmplTMINLP.cpp:287-294); characters by their codes, `'0'` is 48. -/
def sosTypes : List ℤ → Option (List ℤ)
  | [] => some []
  | t :: ts => if t - 48 ≠ 1 ∧ t - 48 ≠ 2 then none else (sosTypes ts).map ((t - 48) :: ·)

/-! ## Priorities and pseudo-costs -/

theorem readPri_some : ∀ (ps q : List ℤ), readPri ps = some q ↔ q = ps.map (fun p => 9999 - p) ∧ ∀ p ∈ ps, -2147473648 ≤ p ∧ p ≤ 2147483648
  | [], q => by simp [readPri, eq_comm]
  | p :: ps, q => by
    unfold readPri
    split
    · rename_i h
      simp only [isInt, Bool.and_eq_true, decide_eq_true_eq] at h
      rw [Option.map_eq_some_iff]
      constructor
      · rintro ⟨r, hr, rfl⟩
        obtain ⟨e, hb⟩ := (readPri_some ps r).1 hr
        refine ⟨by simp [e]; ring, ?_⟩
        intro z hz
        rcases List.mem_cons.1 hz with rfl | hz
        · omega
        · exact hb z hz
      · rintro ⟨e, hb⟩
        refine ⟨ps.map fun p => 9999 - p, (readPri_some ps _).2 ⟨rfl, fun z hz => hb z (by simp [hz])⟩, ?_⟩
        rw [e]; simp; ring
    · rename_i h
      simp only [isInt, Bool.and_eq_true, decide_eq_true_eq] at h
      simp only [reduceCtorEq, false_iff, not_and]
      intro _ hb
      have := hb p (by simp)
      omega

/-- C78: the priorities that reach the branching rules. -/
theorem priorities_exact (words : ℚ → ℤ × ℤ) (n : ℕ) (own : Bool) (pri : Option (List ℤ)) (dir up down : Option (List ℚ)) (b : BranchSuffix) :
    readPriorities words n own pri dir up down = .done b ↔
      own = true ∧ (∀ p, pri = some p → ∀ z ∈ p, -2147473648 ≤ z ∧ z ≤ 2147483648) ∧ b.priorities = pri.map (fun p => p.map fun z => 9999 - z) ∧
      b.directions = dir.map (fun d => (rawWords words d).take n) ∧ b.up = (if up = none then down else up) ∧ b.down = (if down = none then up else down) := by
  obtain ⟨b1, b2, b3, b4⟩ := b
  have hu : (up.orElse fun _ => down) = if up = none then down else up := by cases up <;> simp
  have hd : (down.orElse fun _ => up) = if down = none then up else down := by cases down <;> simp
  unfold readPriorities
  cases own
  · simp
  · simp only [Bool.not_true, Bool.false_eq_true, if_false, true_and, hu, hd]
    cases pri with
    | none =>
      simp only [Out.done.injEq, BranchSuffix.mk.injEq, reduceCtorEq, false_implies, implies_true, true_and, Option.map_none]
      constructor
      · rintro ⟨rfl, rfl, rfl, rfl⟩; exact ⟨rfl, rfl, rfl, rfl⟩
      · rintro ⟨rfl, rfl, rfl, rfl⟩; exact ⟨rfl, rfl, rfl, rfl⟩
    | some p =>
      simp only [Option.some.injEq, forall_eq', Option.map_some]
      cases h : readPri p with
      | none =>
        simp only [reduceCtorEq, false_iff]
        rintro ⟨hb, -⟩
        have := (readPri_some p _).2 ⟨rfl, hb⟩
        rw [h] at this; simp at this
      | some q =>
        obtain ⟨e, hb⟩ := (readPri_some p q).1 h
        subst e
        simp only [Out.done.injEq, BranchSuffix.mk.injEq]
        constructor
        · rintro ⟨rfl, rfl, rfl, rfl⟩; exact ⟨hb, rfl, rfl, rfl, rfl⟩
        · rintro ⟨-, rfl, rfl, rfl, rfl⟩; exact ⟨rfl, rfl, rfl, rfl⟩

example : readPriorities (fun _ => (0, 0)) 2 true (some [5, 0]) none (some [1, 2]) none = .done ⟨some [9994, 9999], none, some [1, 2], some [1, 2]⟩ := by decide +kernel

/-- C78: of two variables the one with the larger `.priority` in the model gets the smaller number, that is it is branched on first. -/
theorem priority_order (words : ℚ → ℤ × ℤ) (n : ℕ) (p : List ℤ) (dir up down : Option (List ℚ)) (b : BranchSuffix)
    (h : readPriorities words n true (some p) dir up down = .done b) (i j : ℕ) (a c : ℤ) (ha : p[i]? = some a) (hc : p[j]? = some c) :
    ∃ q a' c', b.priorities = some q ∧ q[i]? = some a' ∧ q[j]? = some c' ∧ (a' < c' ↔ c < a) := by
  obtain ⟨-, -, e, -⟩ := (priorities_exact ..).1 h
  refine ⟨_, 9999 - a, 9999 - c, e, by simp [ha], by simp [hc], by omega⟩

example : ∃ b, readPriorities (fun _ => (0, 0)) 2 true (some [5, 0]) none none none = .done b ∧ b.priorities = some [9994, 9999] := ⟨_, rfl, by decide +kernel⟩

/-- C81 refuted: the direction of branching is declared as a real suffix and read as an integer one.  With the usual layout of doubles, where 1.0 consists of the words 0 and
1072693248, the direction given for the first variable is lost and the second variable gets one. -/
theorem direction_misread (words : ℚ → ℤ × ℤ) (h1 : words 1 = (0, 1072693248)) :
    ∃ b, readPriorities words 2 true none (some [1, 0]) none none = .done b ∧ b.directions = some [0, 1072693248] := by
  refine ⟨_, rfl, ?_⟩
  simp [rawWords, h1]

/-- C81, what is missing from the claim: directions arrive only if none is declared, or all of them have no nonzero word. -/
theorem direction_partial (words : ℚ → ℤ × ℤ) (n : ℕ) (pri : Option (List ℤ)) (d : List ℚ) (up down : Option (List ℚ)) (b : BranchSuffix)
    (h : readPriorities words n true pri (some d) up down = .done b) (hn : d.length = n) (i : ℕ) (hi : i < n) :
    ∃ q, b.directions = some q ∧ q.length = n ∧ q[i]? = (d[i / 2]?).map fun v => if i % 2 = 0 then (words v).1 else (words v).2 := by
  obtain ⟨-, -, -, e, -⟩ := (priorities_exact ..).1 h
  have hl : ∀ l : List ℚ, (rawWords words l).length = 2 * l.length := by
    intro l; induction l with
    | nil => rfl
    | cons a l ih => simp only [rawWords, List.length_cons, ih]; omega
  have hg : ∀ (l : List ℚ) (k : ℕ), (rawWords words l)[k]? = (l[k / 2]?).map fun v => if k % 2 = 0 then (words v).1 else (words v).2 := by
    intro l; induction l with
    | nil => intro k; simp [rawWords]
    | cons a l ih =>
      intro k
      match k with
      | 0 => simp [rawWords]
      | 1 => simp [rawWords]
      | k + 2 =>
        simp only [rawWords, List.getElem?_cons_succ, ih, Nat.add_mod_right]
        rw [show (k + 2) / 2 = k / 2 + 1 by omega, List.getElem?_cons_succ]
  refine ⟨_, e, ?_, ?_⟩
  · rw [List.length_take, hl]; omega
  · rw [List.getElem?_take_of_lt hi, hg]

example : ∃ b, readPriorities (fun v => (0, if v = 1 then 7 else 0)) 2 true none (some [1, 0]) none none = .done b ∧ b.directions = some [0, 7] := ⟨_, rfl, by decide +kernel⟩

/-- C81 refuted: when the caller passes its own suffix handler, the readers use a NULL pointer. -/
theorem foreign_handler_undefined (words : ℚ → ℤ × ℤ) (n : ℕ) (pri : Option (List ℤ)) (dir up down : Option (List ℚ)) :
    readPriorities words n false pri dir up down = .undefined := rfl

/-! ## Objectives -/

theorem lastMarked_spec : ∀ (u : List ℤ) (i best : ℤ),
    (lastMarked i best u = best ∧ ∀ k : ℕ, u[k]? ≠ some 1) ∨ ∃ k : ℕ, lastMarked i best u = i + k ∧ u[k]? = some 1 ∧ ∀ j : ℕ, k < j → u[j]? ≠ some 1
  | [], i, best => Or.inl ⟨rfl, by simp⟩
  | v :: u, i, best => by
    unfold lastMarked
    rcases lastMarked_spec u (i + 1) (if v = 1 then i else best) with ⟨e, h⟩ | ⟨k, e, h1, h2⟩
    · by_cases hv : v = 1
      · right
        refine ⟨0, by rw [e, if_pos hv]; simp, by simp [hv], ?_⟩
        intro j hj
        obtain ⟨j, rfl⟩ : ∃ m, j = m + 1 := ⟨j - 1, by omega⟩
        simpa using h j
      · left
        refine ⟨by rw [e, if_neg hv], ?_⟩
        intro k
        cases k with
        | zero => simpa using hv
        | succ k => simpa using h k
    · right
      refine ⟨k + 1, by rw [e]; push_cast; ring, by simpa using h1, ?_⟩
      intro j hj
      obtain ⟨j, rfl⟩ : ∃ m, j = m + 1 := ⟨j - 1, by omega⟩
      simpa using h2 j (by omega)

/-- C81: the objective used for upper bounds is the last one marked with `UBObj`, and there is none when none is marked. -/
theorem upperObj_exact (u : List ℤ) (hn : 2 ≤ u.length) (k : ℤ) :
    (readObj u.length (some u)).2 = k ↔ (k = -1 ∧ ∀ j : ℕ, u[j]? ≠ some 1) ∨ ∃ i : ℕ, k = i ∧ u[i]? = some 1 ∧ ∀ j : ℕ, i < j → u[j]? ≠ some 1 := by
  unfold readObj
  rw [if_neg (by omega)]
  show lastMarked 0 (-1) u = k ↔ _
  constructor
  · rintro rfl
    rcases lastMarked_spec u 0 (-1) with ⟨e, h⟩ | ⟨i, e, h1, h2⟩
    · exact Or.inl ⟨e, h⟩
    · exact Or.inr ⟨i, by rw [e]; ring, h1, h2⟩
  · rcases lastMarked_spec u 0 (-1) with ⟨e, h⟩ | ⟨i, e, h1, h2⟩
    · rintro (⟨rfl, -⟩ | ⟨j, -, hj, -⟩)
      · exact e
      · exact absurd hj (h j)
    · rintro (⟨-, h⟩ | ⟨j, rfl, hj, hj2⟩)
      · exact absurd h1 (h i)
      · rw [e]
        have : i = j := by
          rcases lt_trichotomy i j with q | q | q
          · exact absurd hj (h2 j q)
          · exact q
          · exact absurd h1 (hj2 i q)
        subst this; ring

example : readObj 3 (some [0, 1, 0]) = (some 0, 1) ∧ readObj 3 (some [1, 0, 0]) = (some 1, 0) ∧ readObj 2 none = (some 0, -1) := by decide +kernel

/-- C81: the minimised objective. -/
theorem activeObj_exact (n : ℕ) (ub : Option (List ℤ)) (k : ℕ) :
    (readObj n ub).1 = some k ↔ 2 ≤ n ∧ (k = 1 ∧ (∃ u, ub = some u ∧ u[0]? = some 1) ∨ k = 0 ∧ ∀ u, ub = some u → u[0]? ≠ some 1) := by
  unfold readObj
  split
  · simp; omega
  · rename_i h
    cases ub with
    | none => simp; omega
    | some u =>
      simp only [Option.some.injEq, exists_eq_left', forall_eq']
      split <;> simp_all <;> omega

/-- C81, for models with one objective marked for upper bounds: another one is minimised. -/
theorem objectives_partial (u : List ℤ) (hn : 2 ≤ u.length) (i : ℕ) (hi : u[i]? = some 1) (hu : ∀ j, u[j]? = some 1 → j = i) :
    (readObj u.length (some u)).2 = i ∧ ∃ k, (readObj u.length (some u)).1 = some k ∧ k ≠ i ∧ k < u.length := by
  refine ⟨(upperObj_exact u hn i).2 (Or.inr ⟨i, rfl, hi, fun j hj h => by have := hu j h; omega⟩), ?_⟩
  by_cases h0 : u[0]? = some 1
  · refine ⟨1, (activeObj_exact ..).2 ⟨hn, Or.inl ⟨rfl, u, rfl, h0⟩⟩, ?_, by omega⟩
    have := hu 0 h0; omega
  · refine ⟨0, (activeObj_exact ..).2 ⟨hn, Or.inr ⟨rfl, fun v hv => by obtain rfl := Option.some.inj hv; exact h0⟩⟩, ?_, by omega⟩
    rintro rfl
    exact h0 hi

example : (readObj 2 (some [1, 0])).2 = 0 ∧ (readObj 2 (some [1, 0])).1 = some 1 := by decide +kernel

/-- C81 refuted: when the first two objectives are marked, the second one is minimised and also gives the upper bounds, although a third one is not marked. -/
theorem both_objectives_marked : readObj 3 (some [1, 1, 0]) = (some 1, 1) := by decide +kernel

/-! ## Simple concave constraints -/

theorem lookupLast_spec (p : ℤ) : ∀ (l : List ℤ) (i : ℕ),
    (lookupLast p i l = none ↔ p ∉ l) ∧ ∀ j, lookupLast p i l = some j ↔ ∃ k, j = i + k ∧ l[k]? = some p ∧ ∀ m, k < m → l[m]? ≠ some p
  | [], i => by simp [lookupLast]
  | v :: l, i => by
    obtain ⟨a1, a2⟩ := lookupLast_spec p l (i + 1)
    unfold lookupLast
    cases h : lookupLast p (i + 1) l with
    | some j =>
      obtain ⟨k, e, hk, hm⟩ := (a2 j).1 h
      have hp : p ∈ l := List.mem_of_getElem? hk
      refine ⟨by simp [hp], fun j' => ?_⟩
      simp only [Option.some.injEq]
      constructor
      · rintro rfl
        refine ⟨k + 1, by omega, by simpa using hk, fun m hm' => ?_⟩
        obtain ⟨m, rfl⟩ : ∃ q, m = q + 1 := ⟨m - 1, by omega⟩
        simpa using hm m (by omega)
      · rintro ⟨k', e', hk', hm'⟩
        have : k' = k + 1 := by
          rcases lt_trichotomy k' (k + 1) with q | q | q
          · exact absurd (by simpa using hk) (hm' (k + 1) q)
          · exact q
          · obtain ⟨m, rfl⟩ : ∃ q, k' = q + 1 := ⟨k' - 1, by omega⟩
            exact absurd (by simpa using hk') (hm m (by omega))
        omega
    | none =>
      have hp : p ∉ l := a1.1 h
      have hl : ∀ m, l[m]? ≠ some p := fun m hm => hp (List.mem_of_getElem? hm)
      by_cases hv : v = p
      · subst hv
        refine ⟨by simp, fun j => ?_⟩
        simp only [if_true, Option.some.injEq]
        constructor
        · rintro rfl
          refine ⟨0, rfl, by simp, fun m hm => ?_⟩
          obtain ⟨m, rfl⟩ : ∃ q, m = q + 1 := ⟨m - 1, by omega⟩
          simpa using hl m
        · rintro ⟨k, e, hk, -⟩
          cases k with
          | zero => omega
          | succ k => exact absurd (by simpa using hk) (hl k)
      · refine ⟨by simp [hv, hp, Ne.symm hv], fun j => ?_⟩
        simp only [if_neg hv, reduceCtorEq, false_iff]
        rintro ⟨k, e, hk, -⟩
        cases k with
        | zero => exact hv (by simpa using hk)
        | succ k => exact absurd (by simpa using hk) (hl k)

/-- A constraint and the two variables of `y ≥ F(x)` as the modeller declared them: the constraint has exactly the variables `x` and `y` and `y` carries the id given for the
constraint, no other variable does. -/
def Declared (ids primary : List ℤ) (cols : ℕ → List ℕ) (c : Concave) : Prop :=
  ∃ p, primary[c.c]? = some p ∧ p ≠ 0 ∧ ids[c.y]? = some p ∧ (∀ j, ids[j]? = some p → j = c.y) ∧ (cols c.c = [c.x, c.y] ∨ cols c.c = [c.y, c.x])

theorem concaveLoop_spec (ids : List ℤ) (cols : ℕ → List ℕ) (P : ℕ → ℤ → Concave → Prop)
    (hP : ∀ i p c, P i p c ↔ oneConcave ids (cols i) i p = some c) : ∀ (ps : List ℤ) (i : ℕ) (r : List Concave),
    concaveLoop ids cols i ps = some r → (∀ c ∈ r, ∃ k p, ps[k]? = some p ∧ p ≠ 0 ∧ P (i + k) p c) ∧ ∀ k p, ps[k]? = some p → p ≠ 0 → ∃ c ∈ r, P (i + k) p c
  | [], i, r, h => by
    simp only [concaveLoop, Option.some.injEq] at h
    subst h; simp
  | p :: ps, i, r, h => by
    unfold concaveLoop at h
    split at h
    · rename_i hp
      obtain ⟨a, b⟩ := concaveLoop_spec ids cols P hP ps (i + 1) r h
      refine ⟨fun c hc => ?_, fun k q hk hq => ?_⟩
      · obtain ⟨k, q, h1, h2, h3⟩ := a c hc
        exact ⟨k + 1, q, by simpa using h1, h2, by rwa [show i + (k + 1) = i + 1 + k by omega]⟩
      · cases k with
        | zero => simp only [List.getElem?_cons_zero, Option.some.injEq] at hk; omega
        | succ k =>
          obtain ⟨c, hc, hc'⟩ := b k q (by simpa using hk) hq
          exact ⟨c, hc, by rwa [show i + (k + 1) = i + 1 + k by omega]⟩
    · rename_i hp
      cases h1 : oneConcave ids (cols i) i p with
      | none => rw [h1] at h; simp at h
      | some c0 =>
        rw [h1] at h
        simp only [Option.bind_some, Option.map_eq_some_iff] at h
        obtain ⟨r', hr, rfl⟩ := h
        obtain ⟨a, b⟩ := concaveLoop_spec ids cols P hP ps (i + 1) r' hr
        refine ⟨fun c hc => ?_, fun k q hk hq => ?_⟩
        · rcases List.mem_cons.1 hc with rfl | hc
          · exact ⟨0, p, by simp, hp, (hP ..).2 h1⟩
          · obtain ⟨k, q, h1, h2, h3⟩ := a c hc
            exact ⟨k + 1, q, by simpa using h1, h2, by rwa [show i + (k + 1) = i + 1 + k by omega]⟩
        · cases k with
          | zero =>
            simp only [List.getElem?_cons_zero, Option.some.injEq] at hk
            subst hk
            exact ⟨c0, by simp, (hP ..).2 h1⟩
          | succ k =>
            obtain ⟨c, hc, hc'⟩ := b k q (by simpa using hk) hq
            exact ⟨c, by simp [hc], by rwa [show i + (k + 1) = i + 1 + k by omega]⟩

/-- C81: the constraints that are reported come in order and are exactly the marked ones. -/
theorem concave_constraints (ids : List ℤ) (cols : ℕ → List ℕ) : ∀ (ps : List ℤ) (i : ℕ) (r : List Concave), concaveLoop ids cols i ps = some r →
    r.map (·.c) = (ps.zipIdx i).filterMap fun q => if q.1 = 0 then none else some q.2
  | [], i, r, h => by
    simp only [concaveLoop, Option.some.injEq] at h
    subst h; rfl
  | p :: ps, i, r, h => by
    unfold concaveLoop at h
    rw [List.zipIdx_cons, List.filterMap_cons]
    split at h
    · rename_i hp
      simp only [hp, if_true]
      exact concave_constraints ids cols ps (i + 1) r h
    · rename_i hp
      simp only [hp, if_false]
      cases h1 : oneConcave ids (cols i) i p with
      | none => rw [h1] at h; simp at h
      | some c0 =>
        rw [h1] at h
        simp only [Option.bind_some, Option.map_eq_some_iff] at h
        obtain ⟨r', hr, rfl⟩ := h
        rw [List.map_cons, concave_constraints ids cols ps (i + 1) r' hr]
        have : c0.c = i := by
          unfold oneConcave at h1
          split at h1
          · dsimp only at h1
            split at h1
            · simp only [Option.some.injEq] at h1; rw [← h1]
            · split at h1
              · simp at h1
              · simp only [Option.some.injEq] at h1; rw [← h1]
          · simp at h1
        rw [this]

/-- C81, for models where the id given for a marked constraint belongs to exactly one variable: every constraint that is reported is as declared, none is missed, and the program
only stops when a marked constraint has not exactly two variables or does not contain its variable. -/
theorem convexities_partial (ids primary : List ℤ) (cols : ℕ → List ℕ) (hcols : ∀ i, (cols i).Nodup)
    (hid : ∀ p ∈ primary, p ≠ 0 → ∃ y : ℕ, ids[y]? = some p ∧ ∀ j : ℕ, ids[j]? = some p → j = y) (l : List Concave)
    (h : readConvexities (some ids) (some primary) cols = .done (some l)) (c : Concave) : c ∈ l ↔ Declared ids primary cols c := by
  have hl : concaveLoop ids cols 0 primary = some l := by
    unfold readConvexities at h
    dsimp only at h
    split at h
    · simp at h
    · rename_i r hr; simp only [Out.done.injEq, Option.some.injEq] at h; rw [hr, h]
  obtain ⟨a, b⟩ := concaveLoop_spec ids cols (fun i p c => oneConcave ids (cols i) i p = some c) (fun _ _ _ => Iff.rfl) primary 0 l hl
  have key : ∀ i p, primary[i]? = some p → p ≠ 0 → ∀ c, oneConcave ids (cols i) i p = some c ↔
      c.c = i ∧ ids[c.y]? = some p ∧ (cols i = [c.x, c.y] ∨ cols i = [c.y, c.x]) := by
    intro i p hp hp0 c
    obtain ⟨y, hy, huniq⟩ := hid p (List.mem_of_getElem? hp) hp0
    have hlk : lookupLast p 0 ids = some y :=
      ((lookupLast_spec p ids 0).2 y).2 ⟨y, by omega, hy, fun m hm he => by have := huniq m he; omega⟩
    unfold oneConcave
    obtain ⟨c1, c2, c3⟩ := c
    have hn := hcols i
    split
    · rename_i u v huv
      rw [huv] at hn
      simp only [List.nodup_cons, List.mem_singleton, List.not_mem_nil, not_false_eq_true, List.nodup_nil, and_true] at hn
      simp only [hlk, Option.getD_some]
      rw [huv]
      split
      · rename_i e
        simp only [Option.some.injEq, Concave.mk.injEq, List.cons.injEq, and_true]
        constructor
        · rintro ⟨rfl, rfl, rfl⟩; exact ⟨rfl, hy, Or.inr ⟨e, rfl⟩⟩
        · rintro ⟨rfl, h2, h3⟩
          have := huniq c2 h2
          subst this
          rcases h3 with ⟨rfl, rfl⟩ | ⟨-, rfl⟩
          · exact absurd e hn
          · exact ⟨rfl, rfl, rfl⟩
      · rename_i e
        split
        · rename_i e2
          simp only [reduceCtorEq, List.cons.injEq, and_true, false_iff]
          rintro ⟨rfl, h2, h3⟩
          have := huniq c2 h2
          subst this
          rcases h3 with ⟨-, rfl⟩ | ⟨rfl, -⟩
          · exact e2 rfl
          · exact e rfl
        · rename_i e2
          simp only [ne_eq, not_not] at e2
          simp only [Option.some.injEq, Concave.mk.injEq, List.cons.injEq, and_true]
          constructor
          · rintro ⟨rfl, rfl, rfl⟩; exact ⟨rfl, hy, Or.inl ⟨rfl, e2⟩⟩
          · rintro ⟨rfl, h2, h3⟩
            have := huniq c2 h2
            subst this
            rcases h3 with ⟨rfl, -⟩ | ⟨q, -⟩
            · exact ⟨rfl, rfl, rfl⟩
            · exact absurd q e
    · rename_i hne
      simp only [reduceCtorEq, false_iff]
      rintro ⟨-, -, h3 | h3⟩
      · exact hne _ _ h3
      · exact hne _ _ h3
  constructor
  · intro hc
    obtain ⟨k, p, h1, h2, h3⟩ := a c hc
    rw [Nat.zero_add] at h3
    obtain ⟨e1, e2, e3⟩ := (key k p h1 h2 c).1 h3
    obtain ⟨y, hy, huniq⟩ := hid p (List.mem_of_getElem? h1) h2
    have ey := huniq c.y e2
    refine ⟨p, by rw [e1]; exact h1, h2, e2, fun j hj => by rw [ey]; exact huniq j hj, by rw [e1]; exact e3⟩
  · rintro ⟨p, h1, h2, h3, h4, h5⟩
    obtain ⟨c', hc', h6⟩ := b c.c p h1 h2
    rw [Nat.zero_add] at h6
    obtain ⟨e1, e2, e3⟩ := (key c.c p h1 h2 c').1 h6
    have ey := h4 c'.y e2
    have hn := hcols c.c
    have : c' = c := by
      obtain ⟨q1, q2, q3⟩ := c
      obtain ⟨r1, r2, r3⟩ := c'
      simp only at e1 ey h5 e3 hn ⊢
      subst e1 ey
      rcases h5 with h5 | h5 <;> rcases e3 with e3 | e3 <;> rw [h5] at e3 <;> simp only [List.cons.injEq, and_true] at e3
      · simp [e3]
      · rw [h5] at hn; simp [e3] at hn
      · rw [h5] at hn; simp [e3] at hn
      · simp [e3]
    exact this ▸ hc'

example : readConvexities (some [0, 7, 0]) (some [0, 7]) (fun i => if i = 1 then [1, 2] else [0]) = .done (some [⟨1, 1, 2⟩]) := by decide +kernel

/-- C81: when the program stops in `read_convexities`. -/
theorem convexities_stop_iff (ids primary : Option (List ℤ)) (cols : ℕ → List ℕ) :
    readConvexities ids primary cols = .stop ↔ ∃ ps, primary = some ps ∧ (ids = none ∨ ∃ v, ids = some v ∧
      ∃ i p, ps[i]? = some p ∧ p ≠ 0 ∧ ((cols i).length ≠ 2 ∨ (lookupLast p 0 v).getD 0 ∉ cols i)) := by
  have key : ∀ (v : List ℤ) (ps : List ℤ) (i : ℕ), concaveLoop v cols i ps = none ↔
      ∃ k p, ps[k]? = some p ∧ p ≠ 0 ∧ ((cols (i + k)).length ≠ 2 ∨ (lookupLast p 0 v).getD 0 ∉ cols (i + k)) := by
    intro v ps
    have one : ∀ i p, oneConcave v (cols i) i p = none ↔ ((cols i).length ≠ 2 ∨ (lookupLast p 0 v).getD 0 ∉ cols i) := by
      intro i p
      unfold oneConcave
      split
      · rename_i u w huw
        rw [huw]
        dsimp only
        generalize (lookupLast p 0 v).getD 0 = y
        by_cases e1 : u = y
        · simp [e1]
        · by_cases e2 : w = y
          · simp [e1, e2]
          · simp [e1, e2, Ne.symm e1, Ne.symm e2]
      · rename_i hne
        simp only [true_iff]
        left
        intro h2
        match hc : cols i, h2 with
        | [a, b], _ => exact hne a b hc
    induction ps with
    | nil => intro i; simp [concaveLoop]
    | cons p ps ih =>
      intro i
      unfold concaveLoop
      split
      · rename_i hp
        rw [ih]
        constructor
        · rintro ⟨k, q, h1, h2, h3⟩
          exact ⟨k + 1, q, by simpa using h1, h2, by rwa [show i + (k + 1) = i + 1 + k by omega]⟩
        · rintro ⟨k, q, h1, h2, h3⟩
          cases k with
          | zero => simp only [List.getElem?_cons_zero, Option.some.injEq] at h1; omega
          | succ k => exact ⟨k, q, by simpa using h1, h2, by rwa [show i + (k + 1) = i + 1 + k by omega] at h3⟩
      · rename_i hp
        cases h1 : oneConcave v (cols i) i p with
        | none =>
          simp only [Option.bind_none, true_iff]
          exact ⟨0, p, by simp, hp, (one i p).1 h1⟩
        | some c =>
          simp only [Option.bind_some, Option.map_eq_none_iff]
          rw [ih]
          constructor
          · rintro ⟨k, q, h1, h2, h3⟩
            exact ⟨k + 1, q, by simpa using h1, h2, by rwa [show i + (k + 1) = i + 1 + k by omega]⟩
          · rintro ⟨k, q, h2, h3, h4⟩
            cases k with
            | zero =>
              simp only [List.getElem?_cons_zero, Option.some.injEq] at h2
              subst h2
              have := (one i p).2 h4
              rw [h1] at this; simp at this
            | succ k => exact ⟨k, q, by simpa using h2, h3, by rwa [show i + (k + 1) = i + 1 + k by omega] at h4⟩
  unfold readConvexities
  cases primary with
  | none => simp
  | some ps =>
    cases ids with
    | none => simp
    | some v =>
      simp only [Option.some.injEq, exists_eq_left', reduceCtorEq, false_or]
      have := key v ps 0
      simp only [Nat.zero_add] at this
      rw [← this]
      cases concaveLoop v cols 0 ps <;> simp

example : readConvexities (some [0, 7, 0]) (some [0, 7]) (fun _ => [0, 2]) = .stop := by decide +kernel

/-- C81 refuted: an id that no variable carries is not detected; variable 0 is taken when it occurs in the constraint. -/
theorem unknown_id_taken : readConvexities (some [1, 2]) (some [9]) (fun _ => [0, 1]) = .done (some [⟨0, 0, 1⟩]) := by decide +kernel

/-- C81 refuted: when two variables carry the same id the later one is taken silently. -/
theorem duplicate_id_taken : readConvexities (some [9, 9]) (some [9]) (fun _ => [0, 1]) = .done (some [⟨0, 1, 0⟩]) := by decide +kernel

/-! ## Indicator constraints -/

theorem lookupPos_eq (p : ℤ) (hp : p > 0) : ∀ (l : List ℤ) (i : ℕ), lookupPos p i l = lookupLast p i l
  | [], i => rfl
  | v :: l, i => by
    unfold lookupPos lookupLast
    rw [lookupPos_eq p hp l (i + 1)]
    split
    · rfl
    · have : (v > 0 ∧ v = p) ↔ v = p := ⟨fun h => h.2, fun h => ⟨by omega, h⟩⟩
      simp only [this]

/-- C78: the indicator of every constraint: the last variable with the same positive id; constraints without a positive id get −1. -/
theorem onoff_exact (cs vs : List ℤ) (l : List ℤ) : readOnoff (some cs) (some vs) = .done (some l) ↔
    l.length = cs.length ∧ ∀ (i : ℕ) (c : ℤ), cs[i]? = some c →
      (c ≤ 0 ∧ l[i]? = some (-1)) ∨ (0 < c ∧ ∃ k : ℕ, l[i]? = some (k : ℤ) ∧ vs[k]? = some c ∧ ∀ m, k < m → vs[m]? ≠ some c) := by
  have key : ∀ (cs l : List ℤ), onoffLoop vs cs = some l ↔ l.length = cs.length ∧ ∀ (i : ℕ) (c : ℤ), cs[i]? = some c →
      (c ≤ 0 ∧ l[i]? = some (-1)) ∨ (0 < c ∧ ∃ k : ℕ, l[i]? = some (k : ℤ) ∧ vs[k]? = some c ∧ ∀ m, k < m → vs[m]? ≠ some c) := by
    intro cs
    induction cs with
    | nil => intro l; simp [onoffLoop, eq_comm]
    | cons c cs ih =>
      intro l
      have step : ∀ z : ℤ, ((onoffLoop vs cs).map (z :: ·) = some l ↔ ∃ l', l = z :: l' ∧ l'.length = cs.length ∧ ∀ (i : ℕ) (c : ℤ), cs[i]? = some c →
          (c ≤ 0 ∧ l'[i]? = some (-1)) ∨ (0 < c ∧ ∃ k : ℕ, l'[i]? = some (k : ℤ) ∧ vs[k]? = some c ∧ ∀ m, k < m → vs[m]? ≠ some c)) := by
        intro z
        rw [Option.map_eq_some_iff]
        constructor
        · rintro ⟨l', h1, rfl⟩; exact ⟨l', rfl, (ih l').1 h1⟩
        · rintro ⟨l', rfl, h1⟩; exact ⟨l', (ih l').2 h1, rfl⟩
      have split1 : ∀ (Q : ℤ → ℤ → Prop), (l.length = (c :: cs).length ∧ ∀ (i : ℕ) (d : ℤ), (c :: cs)[i]? = some d → ∃ z, l[i]? = some z ∧ Q d z) ↔
          ∃ z l', l = z :: l' ∧ Q c z ∧ l'.length = cs.length ∧ ∀ (i : ℕ) (d : ℤ), cs[i]? = some d → ∃ z, l'[i]? = some z ∧ Q d z := by
        intro Q
        constructor
        · rintro ⟨h1, h2⟩
          match l, h1 with
          | z :: l', h1 =>
            refine ⟨z, l', rfl, ?_, by simpa using h1, fun i d hd => ?_⟩
            · obtain ⟨z', h3, h4⟩ := h2 0 c rfl
              simp only [List.getElem?_cons_zero, Option.some.injEq] at h3
              exact h3 ▸ h4
            · simpa using h2 (i + 1) d (by simpa using hd)
        · rintro ⟨z, l', rfl, h1, h2, h3⟩
          refine ⟨by simp [h2], fun i d hd => ?_⟩
          cases i with
          | zero =>
            simp only [List.getElem?_cons_zero, Option.some.injEq] at hd
            exact ⟨z, rfl, hd ▸ h1⟩
          | succ i => simpa using h3 i d (by simpa using hd)
      have conv : ∀ (m : List ℤ) (i : ℕ) (d : ℤ), ((d ≤ 0 ∧ m[i]? = some (-1)) ∨ (0 < d ∧ ∃ k : ℕ, m[i]? = some (k : ℤ) ∧ vs[k]? = some d ∧ ∀ q, k < q → vs[q]? ≠ some d)) ↔
          ∃ z, m[i]? = some z ∧ ((d ≤ 0 ∧ z = -1) ∨ (0 < d ∧ ∃ k : ℕ, z = k ∧ vs[k]? = some d ∧ ∀ q, k < q → vs[q]? ≠ some d)) := by
        intro m i d
        constructor
        · rintro (⟨h1, h2⟩ | ⟨h1, k, h2, h3⟩)
          · exact ⟨-1, h2, Or.inl ⟨h1, rfl⟩⟩
          · exact ⟨k, h2, Or.inr ⟨h1, k, rfl, h3⟩⟩
        · rintro ⟨z, h0, ⟨h1, rfl⟩ | ⟨h1, k, rfl, h3⟩⟩
          · exact Or.inl ⟨h1, h0⟩
          · exact Or.inr ⟨h1, k, h0, h3⟩
      simp only [conv] at step ⊢
      rw [split1 fun d z => (d ≤ 0 ∧ z = -1) ∨ (0 < d ∧ ∃ k : ℕ, z = k ∧ vs[k]? = some d ∧ ∀ q, k < q → vs[q]? ≠ some d)]
      unfold onoffLoop
      by_cases hc : c > 0
      · rw [if_pos hc, lookupPos_eq c hc]
        obtain ⟨b1, b2⟩ := lookupLast_spec c vs 0
        cases h : lookupLast c 0 vs with
        | none =>
          simp only [reduceCtorEq, false_iff]
          rintro ⟨z, l', -, ⟨h1, -⟩ | ⟨-, k, -, h2, -⟩, -⟩
          · omega
          · exact (b1.1 h) (List.mem_of_getElem? h2)
        | some k =>
          obtain ⟨k', e, hk1, hk2⟩ := (b2 k).1 h
          have e' : k' = k := by omega
          subst e'
          simp only
          rw [step]
          constructor
          · rintro ⟨l', rfl, h3⟩
            exact ⟨k', l', rfl, Or.inr ⟨hc, k', rfl, hk1, hk2⟩, h3⟩
          · rintro ⟨z, l', rfl, ⟨h1, -⟩ | ⟨-, m, rfl, h2, h4⟩, h3⟩
            · omega
            · have : m = k' := by
                rcases lt_trichotomy m k' with q | q | q
                · exact absurd hk1 (h4 k' q)
                · exact q
                · exact absurd h2 (hk2 m q)
              subst this
              exact ⟨l', rfl, h3⟩
      · rw [if_neg hc, step]
        constructor
        · rintro ⟨l', rfl, h3⟩
          exact ⟨-1, l', rfl, Or.inl ⟨by omega, rfl⟩, h3⟩
        · rintro ⟨z, l', rfl, ⟨-, rfl⟩ | ⟨h1, -⟩, h3⟩
          · exact ⟨l', rfl, h3⟩
          · omega
  rw [← key]
  unfold readOnoff
  dsimp only
  cases h : onoffLoop vs cs <;> simp

example : readOnoff (some [0, 3, 4]) (some [4, 0, 3]) = .done (some [-1, 2, 0]) := by decide +kernel

/-- C78: reading the indicator suffixes stops exactly when only one of the two is declared, or when a positive id of a constraint is carried by no variable. -/
theorem onoff_stop_iff (cs vs : Option (List ℤ)) : readOnoff cs vs = .stop ↔
    (cs.isSome ≠ vs.isSome) ∨ ∃ c v, cs = some c ∧ vs = some v ∧ ∃ z ∈ c, 0 < z ∧ z ∉ v := by
  have key : ∀ (v c : List ℤ), onoffLoop v c = none ↔ ∃ z ∈ c, 0 < z ∧ z ∉ v := by
    intro v c
    induction c with
    | nil => simp [onoffLoop]
    | cons z c ih =>
      unfold onoffLoop
      by_cases hz : z > 0
      · rw [if_pos hz, lookupPos_eq z hz]
        obtain ⟨b1, -⟩ := lookupLast_spec z v 0
        cases h : lookupLast z 0 v with
        | none => simp only [true_iff]; exact ⟨z, by simp, hz, b1.1 h⟩
        | some k =>
          have hv : z ∈ v := by
            by_contra q
            rw [b1.2 q] at h; simp at h
          simp only [Option.map_eq_none_iff, ih, List.mem_cons, exists_eq_or_imp, hv, not_true_eq_false, and_false, false_or]
      · rw [if_neg hz]
        simp only [Option.map_eq_none_iff, ih, List.mem_cons, exists_eq_or_imp]
        constructor
        · exact Or.inr
        · rintro (⟨h, -⟩ | h)
          · omega
          · exact h
  cases cs with
  | none => cases vs <;> simp [readOnoff]
  | some c =>
    cases vs with
    | none => simp [readOnoff]
    | some v =>
      simp only [Option.isSome_some, ne_eq, not_true_eq_false, false_or, Option.some.injEq, exists_and_left, exists_eq_left']
      rw [← key]
      unfold readOnoff
      dsimp only
      cases onoffLoop v c <;> simp

example : readOnoff (some [3]) (some [0]) = .stop ∧ readOnoff (some [3]) none = .stop ∧ readOnoff none none = .done none := by decide +kernel

/-- C78: the types of special ordered sets: `'1'` and `'2'` become 1 and 2, anything else stops the program. -/
theorem sosTypes_exact : ∀ (ts r : List ℤ), sosTypes ts = some r ↔ (∀ t ∈ ts, t = 49 ∨ t = 50) ∧ r = ts.map fun t => if t = 49 then 1 else 2
  | [], r => by simp [sosTypes, eq_comm]
  | t :: ts, r => by
    unfold sosTypes
    split
    · rename_i h
      simp only [reduceCtorEq, false_iff, not_and]
      intro hh
      have := hh t (by simp)
      omega
    · rename_i h
      have ht : t = 49 ∨ t = 50 := by omega
      rw [Option.map_eq_some_iff]
      constructor
      · rintro ⟨q, hq, rfl⟩
        obtain ⟨h1, rfl⟩ := (sosTypes_exact ts q).1 hq
        refine ⟨fun z hz => ?_, ?_⟩
        · rcases List.mem_cons.1 hz with rfl | hz
          · exact ht
          · exact h1 z hz
        · rcases ht with rfl | rfl <;> simp
      · rintro ⟨h1, rfl⟩
        refine ⟨_, (sosTypes_exact ts _).2 ⟨fun z hz => h1 z (by simp [hz]), rfl⟩, ?_⟩
        rcases ht with rfl | rfl <;> simp

example : sosTypes [49, 50, 49] = some [1, 2, 1] ∧ sosTypes [51] = none := by decide +kernel

/-- C81: without a second objective, or without the suffix, there is no upper bounding objective; without a second objective none is chosen. -/
theorem upperObj_none (n : ℕ) (ub : Option (List ℤ)) (h : n < 2 ∨ ub = none) : (readObj n ub).2 = -1 ∧ ((readObj n ub).1 = none ↔ n < 2) := by
  unfold readObj
  by_cases hn : n < 2
  · rw [if_pos hn]; simp [hn]
  · rw [if_neg hn]
    obtain rfl : ub = none := h.resolve_left hn
    simp [hn]

/-- C81: no concave constraints are recorded exactly when the suffix for the primary variables is missing. -/
theorem convexities_none_iff (ids primary : Option (List ℤ)) (cols : ℕ → List ℕ) : readConvexities ids primary cols = .done none ↔ primary = none := by
  unfold readConvexities
  cases primary with
  | none => simp
  | some ps =>
    cases ids with
    | none => simp
    | some v => cases hc : concaveLoop v cols 0 ps <;> simp [hc]

/-- C78: no indicator constraints are recorded exactly when both suffixes are missing. -/
theorem onoff_none_iff (cs vs : Option (List ℤ)) : readOnoff cs vs = .done none ↔ cs = none ∧ vs = none := by
  unfold readOnoff
  cases cs <;> cases vs <;> simp
  split <;> simp

end Verif.Ampl

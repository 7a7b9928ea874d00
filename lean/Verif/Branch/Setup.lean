import Mathlib.Data.Rat.Defs
import Mathlib.Data.Rat.Floor
import Mathlib.Algebra.Order.Ring.Rat
import Mathlib.Data.List.Sort

/-!
# Candidate list for branching
`src/Algorithms/Branching/BonChooseVariable.cpp`, `setupList` (306-584).

A failed `assert`, an index outside an array and a read of index -1 are the outcome `none`.
-/
namespace Verif.Branch

/-- What `setupList` asks an object for: infeasibility and priority (379, 387), `computeUsefulness` (415-417; the two
outputs are `useful` and whether `value2` is the infeasibility, i.e. the object is not trusted yet, or `-COIN_DBL_MAX`). -/
structure Cand where
  infeas : ℚ
  prio : Int
  useful : ℚ
  untrusted : Bool
deriving DecidableEq

/-- `numberStrong_`, `numberStrongRoot_`, `setup_pseudo_frac_` and the value of `COIN_DBL_MAX`. -/
structure Cfg where
  strong : Nat
  strongRoot : Nat
  frac : ℚ
  huge : ℚ
deriving DecidableEq

/-- A slot of the parallel arrays `list_`/`useful_` (or `list2`/`useful2`); `none` is index -1. -/
abbrev Slot := Option (Nat × ℚ)

/-- The local variables of the loop.  For entries put at the end `useful_` is never written: it is still 0.0 there (348-351,
and 394 when a used slot is emptied), which is why they are stored with usefulness 0. -/
structure St where
  slots : List Slot
  putOther : Nat
  maxStrong : Nat
  best : Int
  check : ℚ
  checkIndex : Nat
  list2 : List Slot
  check2 : ℚ
  checkIndex2 : Nat
  unsat : Nat
deriving DecidableEq

/-- COIN_INT_MAX -/
def intMax : Int := 2147483647

/-- Initial value of `maximumStrong` (344-345). -/
def Cfg.maxStrong (c : Cfg) (n : Nat) : Nat := min (max c.strong c.strongRoot) n

/-- `max_most_fra` (357-360). -/
def Cfg.maxFra (c : Cfg) (n : Nat) : Nat :=
  if 0 < c.frac then max 1 (⌊c.frac * (c.maxStrong n : ℚ)⌋).toNat else 0

/-- State before the loop (327-369). -/
def St.init (c : Cfg) (n : Nat) : St :=
  ⟨List.replicate n none, n, c.maxStrong n, intMax, -c.huge, 0, List.replicate (c.maxFra n) none, -c.huge, 0, 0⟩

/-- Search for the worst entry, stopping at the first empty slot (431-443 and 458-470): value and index, starting from
index `j` with the values `c`, `k` found so far. -/
def worst : List Slot → Nat → ℚ → Nat → ℚ × Nat
  | [], _, c, k => (c, k)
  | none :: _, j, _, _ => (0, j)
  | some (_, u) :: l, j, c, k => if u < c then worst l (j + 1) u j else worst l (j + 1) c k

/-- `assert (list_[putOther-1]<0); list_[--putOther]=i;` (422-423, 447-448, 476-477). -/
def toEnd (s : St) (i : Nat) : Option St :=
  if s.putOther = 0 then none
  else if s.slots[s.putOther - 1]? = some none then
    some { s with slots := s.slots.set (s.putOther - 1) (some (i, 0)), putOther := s.putOther - 1 }
  else none

/-- `maximumStrong = CoinMin(maximumStrong,putOther);` -/
def shrink (s : St) : St := { s with maxStrong := min s.maxStrong s.putOther }

/-- Emptying the slots `j-1, …, 0` to the end of the list (390-397); no assert here. -/
def flush : Nat → St → Option St
  | 0, s => some s
  | j + 1, s =>
    match s.slots[j]? with
    | none => none
    | some none => flush j s
    | some (some (x, _)) =>
      if s.putOther = 0 then none
      else flush j { s with slots := (s.slots.set j none).set (s.putOther - 1) (some (x, 0)), putOther := s.putOther - 1 }

/-- A better priority was found (389-411). -/
def better (c : Cfg) (p : Int) (s : St) : Option St :=
  (flush s.maxStrong s).map fun t =>
    { shrink t with best := p, check := -c.huge, checkIndex := 0, check2 := -c.huge, checkIndex2 := 0,
                    list2 := s.list2.map fun _ => none }

/-- Putting an object in the slot `checkIndex` (418-444). -/
def place (c : Cfg) (i : Nat) (u : ℚ) (s : St) : Option St :=
  match s.slots[s.checkIndex]? with
  | none => none
  | some old =>
    (match old with | none => some s | some (x, _) => toEnd s x).bind fun t =>
      if t.checkIndex < t.putOther then
        let t := shrink { t with slots := t.slots.set t.checkIndex (some (i, u)) }
        let w := worst (t.slots.take t.maxStrong) 0 c.huge t.checkIndex
        some { t with check := w.1, checkIndex := w.2 }
      else none

/-- The second list, of objects not trusted yet (451-471).  `value2` of a trusted object is `-COIN_DBL_MAX`. -/
def place2 (c : Cfg) (i : Nat) (v2 : ℚ) (s : St) : Option St :=
  if 0 < s.list2.length ∧ s.check2 < v2 then
    if s.checkIndex2 < s.list2.length then
      let l := s.list2.set s.checkIndex2 (some (i, v2))
      let w := worst l 0 c.huge s.checkIndex2
      some { s with list2 := l, check2 := w.1, checkIndex2 := w.2 }
    else none
  else some s

/-- An object of the current best priority (412-472). -/
def equalPrio (c : Cfg) (i : Nat) (o : Cand) (s : St) : Option St :=
  (if s.check < o.useful then place c i o.useful s else (toEnd s i).map shrink).bind
    (place2 c i (if o.untrusted then o.infeas else -c.huge))

/-- One violated object with infeasibility below 1e50 (387-479). -/
def step (c : Cfg) (i : Nat) (o : Cand) (s : St) : Option St :=
  (if o.prio < s.best then better c o.prio s else some s).bind fun t =>
    if o.prio = t.best then equalPrio c i o t else (toEnd t i).map shrink

/-- The loop over the objects (377-481).  The Boolean is `feasible`. -/
def scan (c : Cfg) : List Cand → Nat → St → Option (St × Bool)
  | [], _, s => some (s, true)
  | o :: os, i, s =>
    if 0 < o.infeas then
      if 10 ^ 50 ≤ o.infeas then some ({ s with unsat := s.unsat + 1 }, false)
      else (step c i o { s with unsat := s.unsat + 1 }).bind (scan c os (i + 1))
    else scan c os (i + 1) s

/-- What the caller sees: `numberUnsatisfied_`, `numberOnList_` and the array `list_` (entries beyond `numberUnsatisfied_`
are left over and not listed; `none` is index -1). -/
structure Out where
  unsat : Int
  onList : Nat
  list : List (Option Nat)
deriving DecidableEq

/-- The loop over the objects which looks for those that are in both lists (530-542): `k` iterations left. -/
def common (maxFra : Nat) (lst : List (Option Nat)) : Nat → Nat → Nat → Nat → List ℚ × List (Option Nat × ℚ) →
    Option (List ℚ × List (Option Nat × ℚ))
  | 0, _, _, _, r => some r
  | k + 1, i, i1, i2, (use, l2) =>
    match lst[i1]?, l2[i2]? with
    | some a, some b =>
      let f1 := decide (a = some i)
      let f2 := decide (b.1 = some i)
      let r := if f1 && f2 then (use.set i1 (-(10 ^ 150) * (1 + b.2)), l2.set i2 (none, b.2)) else (use, l2)
      let i1 := if f1 then i1 + 1 else i1
      let i2 := if f2 then i2 + 1 else i2
      if i2 = maxFra then some r else common maxFra lst k (i + 1) i1 i2 r
    | _, _ => none

/-- Appending the others of the second list after the first one (543-549): position of the next one, and the arrays. -/
def append2 : List (Option Nat × ℚ) → Nat → List (Option Nat) × List ℚ → Option (Nat × List (Option Nat) × List ℚ)
  | [], p, r => some (p, r)
  | (none, _) :: l, p, r => append2 l p r
  | (some x, v) :: l, p, (lst, use) =>
    if p < lst.length then append2 l (p + 1) (lst.set p (some x), use.set p (-(10 ^ 150) * (1 + v))) else none

/-- Mixing the second list in (514-551).  The indices of the two lists are sorted first (528-529; they are distinct, so there is
only one sorted order).  Result: number of entries appended and the arrays. -/
def mixIn (n onList : Nat) (list2 : List Slot) (lst : List (Option Nat)) (use : List ℚ) :
    Option (Nat × List (Option Nat) × List ℚ) :=
  let l2 := list2.filterMap id
  if l2.length = 0 then some (0, lst, use)
  else
    let ps := ((lst.zip use).take onList).insertionSort (fun a b => a.1.getD 0 ≤ b.1.getD 0)
    let lst := ps.map Prod.fst ++ lst.drop onList
    let use := ps.map Prod.snd ++ use.drop onList
    let l2s := (l2.insertionSort (fun a b => a.1 ≤ b.1)).map fun p => (some p.1, p.2)
    let rest := (list2.drop l2.length).map fun o => (o.map Prod.fst, (o.map Prod.snd).getD 0)
    (common list2.length lst n 0 0 0 (use, l2s ++ rest)).bind fun r =>
      (append2 (r.2.take l2.length) onList (lst, r.1)).map fun q => (q.1 - onList, q.2)

/-- The end of the function (490-566).  `srt` is `CoinSort_2` on (`useful_`, `list_`), which sorts by increasing key; what it
does with equal keys is not specified. -/
def finish (c : Cfg) (srt : List (ℚ × Option Nat) → List (ℚ × Option Nat)) (n : Nat) (s : St) : Option Out :=
  let s := shrink s
  let front := (s.slots.take s.maxStrong).filterMap id
  let k := front.length
  let lst := front.map (fun p => some p.1) ++ (s.slots.drop k).map (Option.map Prod.fst)
  let use := front.map (fun p => -p.2) ++ (s.slots.drop k).map fun o => (o.map Prod.snd).getD 0
  if k = 0 then some ⟨s.unsat, 0, lst⟩
  else
    (if 0 < s.list2.length ∧ s.maxStrong ≤ k then mixIn n k s.list2 lst use else some (0, lst, use)).bind fun r =>
      let ps := srt ((r.2.2.zip r.2.1).take (k + r.1))
      let lst := ps.map Prod.snd ++ r.2.1.drop (k + r.1)
      let res := lst.take k ++ lst.drop s.putOther
      if res.length = s.unsat then some ⟨s.unsat, if max c.strong c.strongRoot = 0 then 0 else k, res⟩ else none

/-- `BonChooseVariable::setupList` with `initialize` true and `numberBeforeTrustedList_` nonnegative (306-584). -/
def setupList (c : Cfg) (srt : List (ℚ × Option Nat) → List (ℚ × Option Nat)) (objs : List Cand) : Option Out :=
  if objs.length = 0 then none
  else
    (scan c objs 0 (St.init c objs.length)).bind fun r =>
      if r.2 then finish c srt objs.length r.1 else some ⟨-1, 0, r.1.slots.map (Option.map Prod.fst)⟩

/-- A sort by insertion, one of the sorts allowed. -/
def keySort (l : List (ℚ × Option Nat)) : List (ℚ × Option Nat) := l.insertionSort (fun a b => a.1 ≤ b.1)

/-- **C27**: a candidate for a free slot is placed only before the entries put at the end; otherwise the assertion fails. -/
theorem place_needs_room (c : Cfg) (i : Nat) (u : ℚ) (s : St) (h : s.slots[s.checkIndex]? = some none) : (place c i u s).isSome ↔ s.checkIndex < s.putOther := by
  unfold place
  rw [h]
  simp only [Option.bind_some]
  by_cases hc : s.checkIndex < s.putOther <;> simp [hc]

end Verif.Branch

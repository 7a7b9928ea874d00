import Mathlib.Data.List.Basic
import Mathlib.Data.List.Nodup
import Mathlib.Data.Int.Basic
import Mathlib.Tactic.Ring

/-!
# Warm starts of the NLP solvers (`Filter/BonFilterWarmStart.cpp`, `Ipopt/BonIpoptWarmStart.cpp`)
Both classes inherit a primal-dual part (`CoinWarmStartPrimalDual`) and a basis part
(`CoinWarmStartBasis`) from CoinUtils, which is not in this repository.  The primal-dual part is
a value of any type `P` with difference functions given by an oracle `PdOps`; the basis part is a
value of any type `B` that no function of these two files touches after construction.
-/
namespace Verif.Slv

/-- `CoinWarmStartPrimalDual` of CoinUtils: `generateDiff`, `applyDiff` and `clear`. -/
structure PdOps (P Δ : Type) where
  gen : P → P → Δ
  apply : P → Δ → P
  clear : P

/-- The `lws` array of filterSQP: allocated (possibly NULL with size 0, `[]`), or freed with the pointer kept. -/
inductive Lws where
  | live (l : List ℤ)
  | freed (size : ℕ)
deriving DecidableEq, Repr

/-- `FilterWarmStart` (`BonFilterWarmStart.hpp:32-105`). -/
structure FWarm (P B : Type) where
  pd : P
  basis : B
  lws : Lws
  istat : List ℤ
  empty : Bool
deriving DecidableEq, Repr

/-- `FilterWarmStartDiff` (`BonFilterWarmStart.hpp:107-134`). -/
structure FDiff (Δ : Type) where
  pd : Δ
  diffs : List (ℕ × ℤ)
  istat : List ℤ
deriving DecidableEq, Repr

/-- The constructor (`BonFilterWarmStart.cpp:16-39`): a NULL array is `none`; the assertions of 30 and 33 are `none` results. -/
def fNew {P B : Type} (pd : P) (basis0 : B) (size : ℕ) (arr : Option (List ℤ)) (istat : List ℤ) : Option (FWarm P B) :=
  match arr with
  | none => if size = 0 then some ⟨pd, basis0, .live [], istat, false⟩ else none
  | some a => if size = 0 ∨ a.length < size then none else some ⟨pd, basis0, .live (a.take size), istat, false⟩

/-- The loop of `generateDiff` (82-86): `lwsArray_[i]` and `old->lwsArray_[i]` for `i < lwsSize_`; reading past the end of the old array is undefined. -/
def lwsDiff : ℕ → List ℤ → List ℤ → Option (List (ℕ × ℤ))
  | _, [], _ => some []
  | _, _ :: _, [] => none
  | i, a :: as, b :: bs =>
    match lwsDiff (i + 1) as bs with
    | none => none
    | some r => some (if a ≠ b then (i, a - b) :: r else r)

/-- `FilterWarmStart::generateDiff` (66-95). -/
def fGen {P B Δ : Type} (ops : PdOps P Δ) (new old : FWarm P B) : Option (FDiff Δ) :=
  match new.lws, old.lws with
  | .live a, .live b => (lwsDiff 0 a b).map fun d => ⟨ops.gen new.pd old.pd, d, new.istat⟩
  | .freed 0, _ => some ⟨ops.gen new.pd old.pd, [], new.istat⟩
  | .live [], _ => some ⟨ops.gen new.pd old.pd, [], new.istat⟩
  | _, _ => none

/-- The loop of `applyDiff` (105-108): writing past the end is undefined. -/
def lwsApply : List (ℕ × ℤ) → List ℤ → Option (List ℤ)
  | [], l => some l
  | (i, v) :: ds, l => match l[i]? with
    | none => none
    | some a => lwsApply ds (l.set i (a + v))

/-- `FilterWarmStart::applyDiff` (97-112). -/
def fApply {P B Δ : Type} (ops : PdOps P Δ) (w : FWarm P B) (d : FDiff Δ) : Option (FWarm P B) :=
  match w.lws, d.diffs with
  | .live l, ds => (lwsApply ds l).map fun l' => { w with pd := ops.apply w.pd d.pd, lws := .live l', istat := d.istat }
  | .freed _, [] => some { w with pd := ops.apply w.pd d.pd, istat := d.istat }
  | .freed _, _ :: _ => none

/-- The copy constructor (42-59): reads the array when the size is positive. -/
def fCopy {P B : Type} (w : FWarm P B) : Option (FWarm P B) :=
  match w.lws with
  | .live _ => some w
  | .freed 0 => some { w with lws := .live [] }
  | .freed (_ + 1) => none

/-- `FilterWarmStart::flushPoint` (114-118): `delete [] lwsArray_`, the pointer and the size are kept.  Deleting NULL (size 0) is harmless, deleting twice is undefined. -/
def fFlush {P B : Type} (w : FWarm P B) : Option (FWarm P B) :=
  match w.lws with
  | .live [] => some w
  | .live l => some { w with lws := .freed l.length }
  | .freed _ => none

/-- The destructor (61-64): `none` is a double free. -/
def fDestroy {P B : Type} (w : FWarm P B) : Option Unit := (fFlush w).map fun _ => ()

/-- `FilterSolver::getEmptyWarmStart` (`BonFilterSolver.cpp:766-770`): the constructor with its default arguments; `pd0`, `b0` are default-constructed base parts. -/
def fEmptyWs {P B : Type} (pd0 : P) (b0 : B) : Option (FWarm P B) := fNew pd0 b0 0 none (List.replicate 14 0)

/-- `FilterSolver::warmStartIsValid` (`BonFilterSolver.cpp:774-781`) for a warm start of this class. -/
def fValid {P B : Type} (w : FWarm P B) : Bool := !w.empty

/-- `FilterSolver::setWarmStart` (`BonFilterSolver.cpp:738-756`) for a warm start of this class: the stored copy and whether warm starting is on. -/
def fSet {P B : Type} (w : FWarm P B) : Option (Option (FWarm P B) × Bool) :=
  if w.empty then some (none, false) else (fCopy w).map fun c => (some c, true)

/-- The warm starts that can exist: built, copied, changed by differences, flushed. -/
inductive FReach {P B Δ : Type} (ops : PdOps P Δ) : FWarm P B → Prop
  | new (pd : P) (b : B) (size : ℕ) (arr : Option (List ℤ)) (istat : List ℤ) (w : FWarm P B) : fNew pd b size arr istat = some w → FReach ops w
  | copy (w w' : FWarm P B) : FReach ops w → fCopy w = some w' → FReach ops w'
  | apply (w w' : FWarm P B) (d : FDiff Δ) : FReach ops w → fApply ops w d = some w' → FReach ops w'
  | flush (w w' : FWarm P B) : FReach ops w → fFlush w = some w' → FReach ops w'

/-- `IpoptWarmStart` (`BonIpoptWarmStart.hpp:44-104`); the warm starter is a reference of any type `W`, NULL is `none`. -/
structure IWarm (P B W : Type) where
  pd : P
  basis : B
  starter : Option W
  empty : Bool
deriving DecidableEq, Repr

/-- `IpoptWarmStartDiff` (`BonIpoptWarmStart.hpp:113-149`). -/
structure IDiff (Δ W : Type) where
  pd : Δ
  starter : Option W
deriving DecidableEq, Repr

/-- `IpoptWarmStart::generateDiff` (`BonIpoptWarmStart.cpp:76-93`); the constructor of the difference sets its warm starter to NULL whatever it is given (`BonIpoptWarmStart.hpp:118-124`). -/
def iGen {P B Δ W : Type} (ops : PdOps P Δ) (new old : IWarm P B W) : IDiff Δ W := ⟨ops.gen new.pd old.pd, none⟩

/-- `IpoptWarmStart::applyDiff` (96-104). -/
def iApply {P B Δ W : Type} (ops : PdOps P Δ) (w : IWarm P B W) (d : IDiff Δ W) : IWarm P B W :=
  { w with pd := ops.apply w.pd d.pd, starter := d.starter }

/-- The copy constructor (58-65): the warm starter is not copied. -/
def iCopy {P B W : Type} (w : IWarm P B W) : IWarm P B W := { w with starter := none }

/-- `IpoptWarmStart::flushPoint` (109-113). -/
def iFlush {P B Δ W : Type} (ops : PdOps P Δ) (w : IWarm P B W) : IWarm P B W := { w with pd := ops.clear }

/-- How Cbc uses differences: a full warm start at the root and one difference per node of a path. -/
def replay {P B Δ : Type} (ops : PdOps P Δ) : FWarm P B → List (FDiff Δ) → Option (FWarm P B)
  | w, [] => some w
  | w, d :: ds => match fApply ops w d with
    | none => none
    | some w' => replay ops w' ds

/-- The differences along a path of warm starts, each taken against its parent. -/
def pathDiffs {P B Δ : Type} (ops : PdOps P Δ) : FWarm P B → List (FWarm P B) → Option (List (FDiff Δ))
  | _, [] => some []
  | w, v :: vs => match fGen ops v w, pathDiffs ops v vs with
    | some d, some ds => some (d :: ds)
    | _, _ => none

/-! ## Specification -/

/-- The contract of CoinUtils: differences of primal-dual points reproduce the new point. -/
def PdOk {P Δ : Type} (ops : PdOps P Δ) : Prop := ∀ a b, ops.apply b (ops.gen a b) = a

/-- A primal-dual part with differences: the new values themselves. -/
def exOps : PdOps (List ℤ) (List ℤ) := ⟨fun a _ => a, fun _ d => d, []⟩

theorem exOps_ok : PdOk exOps := fun _ _ => rfl

/-! ## Lemmas -/

theorem lwsDiff_isSome (a b : List ℤ) (i : ℕ) : (lwsDiff i a b).isSome ↔ a.length ≤ b.length := by
  induction a generalizing b i with
  | nil => simp [lwsDiff]
  | cons x xs ih =>
    cases b with
    | nil => simp [lwsDiff]
    | cons y ys =>
      simp only [lwsDiff, List.length_cons, Nat.add_le_add_iff_right, ← ih ys (i + 1)]
      cases lwsDiff (i + 1) xs ys <;> simp

theorem lwsApply_diff (pre a b : List ℤ) (ds : List (ℕ × ℤ)) (h : lwsDiff pre.length a b = some ds) :
    lwsApply ds (pre ++ b) = some (pre ++ (a ++ b.drop a.length)) := by
  induction a generalizing pre b ds with
  | nil => simp [lwsDiff] at h; subst h; simp [lwsApply]
  | cons x xs ih =>
    cases b with
    | nil => simp [lwsDiff] at h
    | cons y ys =>
      simp only [lwsDiff] at h
      cases h1 : lwsDiff (pre.length + 1) xs ys with
      | none => simp [h1] at h
      | some r =>
        simp only [h1, Option.some.injEq] at h
        have h1' : lwsDiff (pre ++ [x]).length xs ys = some r := by simpa using h1
        have := ih (pre ++ [x]) ys r h1'
        by_cases hxy : x = y
        · subst hxy
          simp at h; subst h
          simpa using this
        · simp only [ne_eq, hxy, not_false_eq_true, if_true] at h
          subst h
          have e : (pre ++ y :: ys)[pre.length]? = some y := by simp
          simp only [lwsApply, e]
          have : (pre ++ y :: ys).set pre.length (y + (x - y)) = (pre ++ [x]) ++ ys := by
            rw [List.set_append_right _ _ (Nat.le_refl _)]; simp
          rw [this, ‹lwsApply r _ = _›]; simp

/-! ## Properties -/

/-- C38: what a round trip gives, for all warm starts with live arrays: it succeeds exactly when the
new array is not longer than the old one, and then yields the new point, status and leading part of
the array — with the tail of the old array, the old basis part and the old empty flag. -/
theorem filter_roundtrip_exact {P B Δ : Type} (ops : PdOps P Δ) (ok : PdOk ops) (new old : FWarm P B) (a b : List ℤ)
    (ha : new.lws = .live a) (hb : old.lws = .live b) :
    (fGen ops new old).bind (fApply ops old) =
      if a.length ≤ b.length then some ⟨new.pd, old.basis, .live (a ++ b.drop a.length), new.istat, old.empty⟩ else none := by
  obtain ⟨np, nb, nl, ni, ne⟩ := new
  obtain ⟨op, ob, ol, oi, oe⟩ := old
  simp only at ha hb; subst ha hb
  by_cases h : a.length ≤ b.length
  · obtain ⟨ds, hds⟩ := Option.isSome_iff_exists.1 ((lwsDiff_isSome a b 0).2 h)
    have := lwsApply_diff [] a b ds hds
    simp only [List.nil_append] at this
    simp [fGen, fApply, hds, this, h, ok np op]
  · have : lwsDiff 0 a b = none := by
      have := (lwsDiff_isSome a b 0).not.2 h
      simpa using this
    simp [fGen, this, h]

/-- C38 (partial: same array length, same basis part and flag): the round trip gives the new warm start. -/
theorem filter_roundtrip_partial {P B Δ : Type} (ops : PdOps P Δ) (ok : PdOk ops) (new old : FWarm P B) (a b : List ℤ)
    (ha : new.lws = .live a) (hb : old.lws = .live b) (hl : a.length = b.length) (hB : new.basis = old.basis) (hE : new.empty = old.empty) :
    (fGen ops new old).bind (fApply ops old) = some new := by
  rw [filter_roundtrip_exact ops ok new old a b ha hb, if_pos hl.le]
  obtain ⟨np, nb, nl, ni, ne⟩ := new
  simp only at ha hB hE
  subst ha
  simp [hB, hE, hl]

/-- C38: and only then: the round trip returns the new warm start only if array length, basis part and flag agree. -/
theorem filter_roundtrip_iff {P B Δ : Type} (ops : PdOps P Δ) (ok : PdOk ops) (new old : FWarm P B) (a b : List ℤ)
    (ha : new.lws = .live a) (hb : old.lws = .live b) :
    (fGen ops new old).bind (fApply ops old) = some new ↔ a.length = b.length ∧ new.basis = old.basis ∧ new.empty = old.empty := by
  refine ⟨fun h => ?_, fun ⟨h1, h2, h3⟩ => filter_roundtrip_partial ops ok new old a b ha hb h1 h2 h3⟩
  rw [filter_roundtrip_exact ops ok new old a b ha hb] at h
  split at h
  · rename_i hle
    obtain ⟨np, nb, nl, ni, ne⟩ := new
    simp only at ha; subst ha
    simp only [Option.some.injEq, FWarm.mk.injEq, true_and, Lws.live.injEq] at h
    obtain ⟨h1, h2, h3⟩ := h
    refine ⟨?_, h1.symm, h3.symm⟩
    have := congrArg List.length h2
    simp at this; omega
  · cases h

example : (fGen exOps (⟨[1, 2], (), .live [5, 6, 7], [9], false⟩ : FWarm (List ℤ) Unit) ⟨[3], (), .live [5, 0, 8], [4], false⟩).map (·.diffs) = some [(1, 6), (2, -1)] := by decide +kernel
example : (fGen exOps (⟨[1, 2], (), .live [5, 6, 7], [9], false⟩ : FWarm (List ℤ) Unit) ⟨[3], (), .live [5, 0, 8], [4], false⟩).bind
    (fApply exOps ⟨[3], (), .live [5, 0, 8], [4], false⟩) = some ⟨[1, 2], (), .live [5, 6, 7], [9], false⟩ := by decide +kernel

/-- C38 refuted for arrays of different lengths: with a shorter old array (e.g. the empty warm start of
`getEmptyWarmStart`) the difference reads outside it, with a longer one the old tail stays. -/
theorem filter_roundtrip_fails :
    fGen exOps (⟨[], (), .live [5], [], false⟩ : FWarm (List ℤ) Unit) ⟨[], (), .live [], [], false⟩ = none ∧
    (fGen exOps (⟨[], (), .live [5], [], false⟩ : FWarm (List ℤ) Unit) ⟨[], (), .live [5, 8], [], false⟩).bind
      (fApply exOps ⟨[], (), .live [5, 8], [], false⟩) = some ⟨[], (), .live [5, 8], [], false⟩ := by decide +kernel

/-- C38 over a path: differences taken along a path of warm starts of one array length, basis part and
flag lead from the first to the last one. -/
theorem filter_replay {P B Δ : Type} (ops : PdOps P Δ) (ok : PdOk ops) (n : ℕ) (bs : B) (e : Bool) (w : FWarm P B) (path : List (FWarm P B))
    (h : ∀ v ∈ w :: path, ∃ l, v.lws = .live l ∧ l.length = n ∧ v.basis = bs ∧ v.empty = e) :
    ∃ ds, pathDiffs ops w path = some ds ∧ ds.length = path.length ∧ replay ops w ds = some (path.getLast?.getD w) := by
  induction path generalizing w with
  | nil => exact ⟨[], rfl, rfl, rfl⟩
  | cons v vs ih =>
    obtain ⟨ds, h1, h2, h3⟩ := ih v (fun u hu => h u (List.mem_cons_of_mem _ hu))
    obtain ⟨lv, v1, v2, v3, v4⟩ := h v (by simp)
    obtain ⟨lw, w1, w2, w3, w4⟩ := h w (by simp)
    have hr := filter_roundtrip_partial ops ok v w lv lw v1 w1 (v2.trans w2.symm) (v3.trans w3.symm) (v4.trans w4.symm)
    cases hg : fGen ops v w with
    | none => simp [hg] at hr
    | some d =>
      simp only [hg, Option.bind_some] at hr
      refine ⟨d :: ds, by simp [pathDiffs, hg, h1], by simp [h2], ?_⟩
      simp only [replay, hr, h3]
      cases vs with
      | nil => simp
      | cons u us => simp [List.getLast?_eq_some_getLast]

example : ∀ v ∈ [(⟨[1], (), .live [5, 6], [9], false⟩ : FWarm (List ℤ) Unit), ⟨[3], (), .live [5, 0], [4], false⟩], ∃ l, v.lws = .live l ∧ l.length = 2 ∧ v.basis = () ∧ v.empty = false := by
  simp

/-- C38: the constructor accepts a NULL array exactly with size 0 and an array exactly with a positive size, and copies the first `size` entries. -/
theorem filter_new {P B : Type} (pd : P) (b0 : B) (size : ℕ) (arr : Option (List ℤ)) (istat : List ℤ) (w : FWarm P B) :
    fNew pd b0 size arr istat = some w ↔
      w.pd = pd ∧ w.basis = b0 ∧ w.istat = istat ∧ w.empty = false ∧
      ((arr = none ∧ size = 0 ∧ w.lws = .live []) ∨ ∃ a, arr = some a ∧ 0 < size ∧ size ≤ a.length ∧ w.lws = .live (a.take size)) := by
  obtain ⟨p, b, l, i, e⟩ := w
  cases arr with
  | none =>
    simp only [fNew]
    split
    · rename_i h
      simp only [Option.some.injEq, FWarm.mk.injEq, h, true_and, reduceCtorEq, false_and, exists_false, or_false]
      constructor
      · rintro ⟨rfl, rfl, rfl, rfl, rfl⟩; simp
      · rintro ⟨rfl, rfl, rfl, rfl, rfl⟩; simp
    · rename_i h; simp [h]
  | some a =>
    simp only [fNew]
    split
    · rename_i h
      simp only [reduceCtorEq, false_and, false_or, Option.some.injEq, false_iff, not_and, not_exists]
      rintro - - - - x rfl _ _; omega
    · rename_i h
      simp only [Option.some.injEq, FWarm.mk.injEq, reduceCtorEq, false_and, false_or]
      constructor
      · rintro ⟨rfl, rfl, rfl, rfl, rfl⟩; exact ⟨rfl, rfl, rfl, rfl, a, rfl, by omega, by omega, rfl⟩
      · rintro ⟨rfl, rfl, rfl, rfl, a', rfl, _, _, rfl⟩; simp

example : fNew [1, 2] () 2 (some [7, 8, 9]) [0] = some (⟨[1, 2], (), .live [7, 8], [0], false⟩ : FWarm (List ℤ) Unit) := by decide +kernel

/-- C38: a copy of a live warm start is equal to it. -/
theorem filter_copy {P B : Type} (w : FWarm P B) (l : List ℤ) (h : w.lws = .live l) : fCopy w = some w := by
  simp [fCopy, h]

/-- C38 refuted after `flushPoint`: with a non-empty array the object cannot be copied, flushed again or destroyed
without undefined behaviour (the freed pointer is kept). -/
theorem filter_flush_dangles {P B : Type} (w : FWarm P B) (x : ℤ) (l : List ℤ) (h : w.lws = .live (x :: l)) :
    ∃ w', fFlush w = some w' ∧ fCopy w' = none ∧ fFlush w' = none ∧ fDestroy w' = none ∧
      fDestroy w = some () := by
  refine ⟨{ w with lws := .freed (l.length + 1) }, ?_⟩
  simp [fFlush, h, fCopy, fDestroy]

/-- C38: the life of a warm start that is never flushed ends without a double free. -/
theorem filter_destroy {P B : Type} (w : FWarm P B) (l : List ℤ) (h : w.lws = .live l) : fDestroy w = some () := by
  cases l <;> simp [fDestroy, fFlush, h]

/-- C38: no warm start of this class is ever marked empty, whatever its history ... -/
theorem filter_never_empty {P B Δ : Type} (ops : PdOps P Δ) (w : FWarm P B) (h : FReach ops w) : w.empty = false := by
  induction h with
  | new pd b size arr istat w h => exact ((filter_new pd b size arr istat w).1 h).2.2.2.1
  | copy w w' _ h ih =>
    simp only [fCopy] at h
    split at h <;> simp at h <;> subst h <;> exact ih
  | apply w w' d _ h ih =>
    simp only [fApply] at h
    split at h
    · simp only [Option.map_eq_some_iff] at h
      obtain ⟨l, -, rfl⟩ := h; exact ih
    · simp at h; subst h; exact ih
    · cases h
  | flush w w' _ h ih =>
    simp only [fFlush] at h
    split at h <;> simp at h <;> subst h <;> exact ih

/-- ... so the empty warm start of the filterSQP interface is taken for a valid one: it is stored and warm
starting is switched on with no point, instead of going back to the starting point of the problem. -/
theorem filter_empty_ws_used {P B : Type} (pd0 : P) (b0 : B) :
    ∃ w, fEmptyWs pd0 b0 = some w ∧ w.lws = .live [] ∧ fValid w = true ∧ fSet w = some (some w, true) := ⟨_, rfl, rfl, rfl, rfl⟩

/-- C38: setting a warm start marked empty switches warm starting off; any other live one is stored unchanged. -/
theorem filter_set {P B : Type} (w : FWarm P B) (l : List ℤ) (h : w.lws = .live l) :
    fSet w = some (if w.empty = true then (none, false) else (some w, true)) ∧ (fValid w = true ↔ w.empty = false) := by
  cases he : w.empty <;> simp [fSet, fCopy, h, he, fValid]

/-- C38 for Ipopt: a round trip gives the new point; warm starter, basis part and empty flag are not transferred. -/
theorem ipopt_roundtrip_exact {P B Δ W : Type} (ops : PdOps P Δ) (ok : PdOk ops) (new old : IWarm P B W) :
    iApply ops old (iGen ops new old) = ⟨new.pd, old.basis, none, old.empty⟩ := by
  simp [iApply, iGen, ok new.pd old.pd]

/-- C38 for Ipopt: the round trip gives the new warm start exactly when that has no warm starter and the same basis part and flag. -/
theorem ipopt_roundtrip_iff {P B Δ W : Type} (ops : PdOps P Δ) (ok : PdOk ops) (new old : IWarm P B W) :
    iApply ops old (iGen ops new old) = new ↔ new.starter = none ∧ new.basis = old.basis ∧ new.empty = old.empty := by
  rw [ipopt_roundtrip_exact ops ok]
  obtain ⟨p, b, s, e⟩ := new
  simp only [IWarm.mk.injEq, true_and]
  constructor
  · rintro ⟨rfl, rfl, rfl⟩; simp
  · rintro ⟨rfl, rfl, rfl⟩; simp

/-- C38 refuted for Ipopt: from the empty warm start the flag stays set, so the result still says it is empty. -/
theorem ipopt_roundtrip_empty :
    (iApply exOps (⟨[], (), none, true⟩ : IWarm (List ℤ) Unit ℕ) (iGen exOps ⟨[1, 2], (), some 7, false⟩ ⟨[], (), none, true⟩)) = ⟨[1, 2], (), none, true⟩ := by decide +kernel

/-- C38 for Ipopt: a copy equals its source up to the warm starter; flushing empties the point only. -/
theorem ipopt_copy_flush {P B Δ W : Type} (ops : PdOps P Δ) (w : IWarm P B W) :
    (iCopy w).pd = w.pd ∧ (iCopy w).basis = w.basis ∧ (iCopy w).starter = none ∧ (iCopy w).empty = w.empty ∧
    iFlush ops w = ⟨ops.clear, w.basis, w.starter, w.empty⟩ := ⟨rfl, rfl, rfl, rfl, rfl⟩

/-- C38: copying is defined exactly when the array has not been freed, or had size 0; the copy then has the same parts. -/
theorem filter_copy_iff {P B : Type} (w w' : FWarm P B) : fCopy w = some w' ↔ (∃ l, w.lws = .live l ∧ w' = w) ∨ (w.lws = .freed 0 ∧ w' = ⟨w.pd, w.basis, .live [], w.istat, w.empty⟩) := by
  unfold fCopy
  cases hw : w.lws with
  | live l => simp [eq_comm]
  | freed n => cases n <;> simp [eq_comm]

/-- C38: the empty warm start: no array, fourteen zeros, and not marked empty. -/
theorem filter_empty_ws {P B : Type} (pd0 : P) (b0 : B) : ∃ w : FWarm P B, fEmptyWs pd0 b0 = some w ∧ w.pd = pd0 ∧ w.basis = b0 ∧ w.lws = .live [] ∧ w.empty = false ∧ w.istat.length = 14 ∧ ∀ z ∈ w.istat, z = 0 :=
  ⟨⟨pd0, b0, .live [], List.replicate 14 0, false⟩, rfl, rfl, rfl, rfl, rfl, rfl, fun _ h => List.eq_of_mem_replicate h⟩

/-- The size the loop of `generateDiff` runs to, the entries behind a pointer that may be read. -/
def Lws.size : Lws → ℕ
  | .live l => l.length
  | .freed n => n

/-- C38: a difference is defined exactly when there is nothing to compare, or both arrays are alive and the old one is not shorter. -/
theorem filter_gen_defined {P B Δ : Type} (ops : PdOps P Δ) (new old : FWarm P B) : (fGen ops new old).isSome ↔
    new.lws.size = 0 ∨ ∃ a b, new.lws = .live a ∧ old.lws = .live b ∧ a.length ≤ b.length := by
  unfold fGen
  cases hn : new.lws with
  | live a =>
    cases ho : old.lws with
    | live b =>
      have := lwsDiff_isSome a b 0
      simp only [Option.isSome_map, this, Lws.size]
      constructor
      · intro h; exact Or.inr ⟨a, b, rfl, rfl, h⟩
      · rintro (h | ⟨a', b', h1, h2, h3⟩)
        · omega
        · obtain rfl := Lws.live.inj h1; obtain rfl := Lws.live.inj h2; exact h3
    | freed n =>
      cases a with
      | nil => simp [Lws.size]
      | cons x a => simp [Lws.size]
  | freed n =>
    cases n with
    | zero => simp [Lws.size]
    | succ n => simp [Lws.size]

/-- C38: a freed array that was never filled and a live empty one give a difference without entries; the other parts are always there. -/
theorem filter_gen_parts {P B Δ : Type} (ops : PdOps P Δ) (new old : FWarm P B) (d : FDiff Δ) (h : fGen ops new old = some d) :
    d.pd = ops.gen new.pd old.pd ∧ d.istat = new.istat ∧ (new.lws.size = 0 → d.diffs = []) ∧ ∀ a b, new.lws = .live a → old.lws = .live b → lwsDiff 0 a b = some d.diffs := by
  unfold fGen at h
  cases hn : new.lws with
  | live a =>
    cases ho : old.lws with
    | live b =>
      rw [hn, ho] at h
      dsimp only at h
      cases hd : lwsDiff 0 a b with
      | none => rw [hd] at h; cases h
      | some r =>
        rw [hd] at h
        obtain rfl := Option.some.inj h
        refine ⟨rfl, rfl, fun h0 => ?_, fun a' b' h1 h2 => ?_⟩
        · have : a = [] := List.length_eq_zero_iff.1 h0
          subst this
          simp only [lwsDiff, Option.some.injEq] at hd
          exact hd.symm
        · obtain rfl := Lws.live.inj h1; obtain rfl := Lws.live.inj h2; exact hd
    | freed n =>
      rw [hn, ho] at h
      cases a with
      | nil => obtain rfl := Option.some.inj h; exact ⟨rfl, rfl, fun _ => rfl, fun _ _ _ h2 => by cases h2⟩
      | cons x a => cases h
  | freed n =>
    rw [hn] at h
    cases n with
    | zero => obtain rfl := Option.some.inj h; exact ⟨rfl, rfl, fun _ => rfl, fun _ _ h1 => by cases h1⟩
    | succ n => cases h

/-- C38: applying a difference is defined exactly when all its positions are inside the array. -/
theorem lwsApply_defined (ds : List (ℕ × ℤ)) (l : List ℤ) : (lwsApply ds l).isSome ↔ ∀ d ∈ ds, d.1 < l.length := by
  induction ds generalizing l with
  | nil => simp [lwsApply]
  | cons d ds ih =>
    obtain ⟨i, v⟩ := d
    simp only [lwsApply]
    by_cases hi : i < l.length
    · rw [List.getElem?_eq_getElem hi]
      simp only [ih, List.length_set, List.mem_cons, forall_eq_or_imp, hi, true_and]
    · rw [List.getElem?_eq_none (by omega)]
      simp [hi]

/-- C38: the differences along a path are defined exactly when each one against its parent is. -/
theorem path_defined {P B Δ : Type} (ops : PdOps P Δ) (w : FWarm P B) (vs : List (FWarm P B)) : (pathDiffs ops w vs).isSome ↔ ∀ p ∈ (w :: vs).zip vs, (fGen ops p.2 p.1).isSome := by
  induction vs generalizing w with
  | nil => simp [pathDiffs]
  | cons v vs ih =>
    simp only [pathDiffs, List.zip_cons_cons, List.mem_cons, forall_eq_or_imp]
    rw [← ih v]
    cases fGen ops v w <;> cases pathDiffs ops v vs <;> simp

/-- Applying a difference to a warm start of Filter, where it is defined: points combined, statistics taken from the difference, basis and flag kept. -/
theorem apply_fields {P B Δ : Type} (ops : PdOps P Δ) (w w' : FWarm P B) (d : FDiff Δ) (h : fApply ops w d = some w') :
    w'.pd = ops.apply w.pd d.pd ∧ w'.istat = d.istat ∧ w'.basis = w.basis ∧ w'.empty = w.empty := by
  unfold fApply at h
  split at h
  · obtain ⟨l', _, rfl⟩ := Option.map_eq_some_iff.mp h
    simp
  · injection h with h; subst h; simp
  · cases h
example : fApply exOps ⟨[3], (), .freed 2, [4], false⟩ ⟨[], [], [7]⟩ = some ⟨[], (), .freed 2, [7], false⟩ := by decide +kernel

end Verif.Slv

import Mathlib.Data.List.Basic
import Mathlib.Data.Rat.Defs

/-!
# Warm starts of the BQPD solver

`BqpdWarmStart` (src/Interfaces/Filter/BonBqpdWarmStart.cpp:16-95): construction, copies, `flushPoint`, differences.

The null pointer is `none`.  Reading through it, or beyond the end of an array, is undefined (`none` as the result of an operation).  `delete []` of the array of integers of the object
itself is left out, as is `empty_`, which is always false (28, 48).
-/

namespace Verif.Slv.BqpdWarm

/-- The members: the two vectors of `CoinWarmStartPrimalDual`, `lwsSize_`, `lwsArray_`, `istat_`. -/
structure Warm where
  x : List ℚ
  lam : List ℚ
  size : ℤ
  lws : Option (List ℤ)
  istat : List ℤ
  deriving DecidableEq

/-- `new fint[size]` and `CoinCopyN`, for a positive size (31-35, 51-55). -/
def array (size : ℤ) (src : Option (List ℤ)) : Option (Option (List ℤ)) :=
  if 0 < size then
    match src with
    | none => none
    | some a => if size.toNat ≤ a.length then some (some (a.take size.toNat)) else none
  else some none

/-- The fourteen entries (36-38, 56-58). -/
def take14 (l : List ℤ) : Option (List ℤ) := if 14 ≤ l.length then some (l.take 14) else none

/-- Constructor (16-39); `x` and `lam` with their sizes are lists. -/
def new (x lam : List ℚ) (size : ℤ) (src : Option (List ℤ)) (istat : List ℤ) : Option Warm :=
  (array size src).bind fun a => (take14 istat).map fun i => ⟨x, lam, size, a, i⟩

/-- Copy constructor (42-59); `clone` (BonBqpdWarmStart.hpp:56-57). -/
def Warm.copy (w : Warm) : Option Warm := (array w.size w.lws).bind fun a => (take14 w.istat).map fun i => ⟨w.x, w.lam, w.size, a, i⟩

/-- `flushPoint` (84-91): the vectors and the array go, the size stays. -/
def Warm.flush (w : Warm) : Warm := { w with x := [], lam := [], lws := none }

/-- What is done with a warm start: a copy replaces it, or it is flushed. -/
inductive Op | copy | flush
  deriving DecidableEq

def Warm.step (w : Warm) : Op → Option Warm
  | .copy => w.copy
  | .flush => some w.flush

def Warm.run (w : Warm) : List Op → Option Warm
  | [] => some w
  | o :: os => (w.step o).bind fun v => v.run os

/-! ### specification -/

/-- A copy comes after a flush. -/
def CopyAfterFlush (os : List Op) : Prop := ∃ i j : ℕ, i < j ∧ os[i]? = some .flush ∧ os[j]? = some .copy

/-- As the constructor leaves the members. -/
def Warm.Full (w : Warm) : Prop := w.istat.length = 14 ∧ (0 < w.size → ∃ a, w.lws = some a ∧ (a.length : ℤ) = w.size) ∧ (w.size ≤ 0 → w.lws = none)

/-! ### theorems -/

/-- **C242**: the constructor is defined exactly when the arrays given are as long as stated; it keeps what it is given. -/
theorem new_exact (x lam : List ℚ) (size : ℤ) (src : Option (List ℤ)) (istat : List ℤ) (w : Warm) :
    new x lam size src istat = some w ↔ 14 ≤ istat.length ∧ w.x = x ∧ w.lam = lam ∧ w.size = size ∧ w.istat = istat.take 14 ∧
      ((0 < size ∧ ∃ a, src = some a ∧ size ≤ a.length ∧ w.lws = some (a.take size.toNat)) ∨ (size ≤ 0 ∧ w.lws = none)) := by
  obtain ⟨wx, wl, ws, wa, wi⟩ := w
  unfold new array take14
  by_cases hi : 14 ≤ istat.length
  · by_cases hs : 0 < size
    · have hn : ¬ size ≤ 0 := by omega
      cases src with
      | none => simp [hs, hn]
      | some a =>
        by_cases hl : size.toNat ≤ a.length
        · have hl' : size ≤ a.length := by omega
          simp only [hi, hs, hl, hl', hn, if_true, Option.bind_some, Option.map_some, Option.some.injEq, Warm.mk.injEq, true_and, false_and, or_false, exists_eq_left']
          constructor
          · rintro ⟨rfl, rfl, rfl, rfl, rfl⟩; exact ⟨rfl, rfl, rfl, rfl, rfl⟩
          · rintro ⟨rfl, rfl, rfl, rfl, rfl⟩; exact ⟨rfl, rfl, rfl, rfl, rfl⟩
        · have hl' : ¬ size ≤ a.length := by omega
          simp [hs, hl, hn, hl']
    · have hn : size ≤ 0 := by omega
      simp only [hi, hs, hn, if_true, if_false, Option.bind_some, Option.map_some, Option.some.injEq, Warm.mk.injEq, true_and, false_and, false_or]
      constructor
      · rintro ⟨rfl, rfl, rfl, rfl, rfl⟩; exact ⟨rfl, rfl, rfl, rfl, rfl⟩
      · rintro ⟨rfl, rfl, rfl, rfl, rfl⟩; exact ⟨rfl, rfl, rfl, rfl, rfl⟩
  · have : ∀ o : Option (Option (List ℤ)), (o.bind fun _ => (none : Option Warm)) = none := by intro o; cases o <;> rfl
    simp [hi]

theorem new_full (x lam : List ℚ) (size : ℤ) (src : Option (List ℤ)) (istat : List ℤ) (w : Warm) (h : new x lam size src istat = some w) : w.Full := by
  obtain ⟨h1, rfl, rfl, rfl, h5, h⟩ := (new_exact x lam size src istat w).1 h
  refine ⟨by rw [h5]; simp [h1], ?_, ?_⟩
  · intro hp
    rcases h with ⟨_, a, _, hl, ha⟩ | ⟨hn, _⟩
    · exact ⟨_, ha, by simp; omega⟩
    · omega
  · intro hn
    rcases h with ⟨hp, _⟩ | ⟨_, ha⟩
    · omega
    · exact ha

theorem take14_full {l : List ℤ} (h : l.length = 14) : take14 l = some l := by
  unfold take14
  rw [if_pos (by omega), List.take_of_length_le (by omega)]

theorem copy_full {w : Warm} (h : w.Full) : w.copy = some w := by
  obtain ⟨x, lam, size, lws, istat⟩ := w
  obtain ⟨h1, h2, h3⟩ := h
  simp only at h1 h2 h3
  unfold Warm.copy array
  rw [take14_full h1]
  by_cases hs : 0 < size
  · obtain ⟨a, rfl, hl⟩ := h2 hs
    have : size.toNat = a.length := by omega
    simp [hs, this]
  · rw [h3 (by omega)]
    simp [hs]

/-- The state after a flush. -/
def Warm.Flushed (w : Warm) : Prop := w.istat.length = 14 ∧ w.x = [] ∧ w.lam = [] ∧ w.lws = none

theorem flush_flushed {w : Warm} (h : w.istat.length = 14) : w.flush.Flushed := ⟨h, rfl, rfl, rfl⟩

theorem flush_again {w : Warm} (h : w.Flushed) : w.flush = w := by
  obtain ⟨x, lam, size, lws, istat⟩ := w
  obtain ⟨_, h2, h3, h4⟩ := h
  simp only at h2 h3 h4
  subst h2 h3 h4
  rfl

theorem copy_flushed {w : Warm} (h : w.Flushed) : w.copy = if 0 < w.size then none else some w := by
  obtain ⟨x, lam, size, lws, istat⟩ := w
  obtain ⟨h1, h2, h3, h4⟩ := h
  simp only at h1 h2 h3 h4
  subst h2 h3 h4
  unfold Warm.copy array
  rw [take14_full h1]
  by_cases hs : 0 < size <;> simp [hs]

theorem run_flushed {w : Warm} (h : w.Flushed) : ∀ os : List Op, w.run os = if 0 < w.size ∧ .copy ∈ os then none else some w
  | [] => by simp [Warm.run]
  | .flush :: os => by
    rw [Warm.run, Warm.step, Option.bind_some, flush_again h, run_flushed h os]
    simp
  | .copy :: os => by
    rw [Warm.run, Warm.step, copy_flushed h]
    by_cases hs : 0 < w.size
    · simp [hs]
    · simp only [hs, if_false, Option.bind_some, run_flushed h os, false_and]

theorem copyAfterFlush_cons_copy (os : List Op) : CopyAfterFlush (.copy :: os) ↔ CopyAfterFlush os := by
  constructor
  · rintro ⟨i, j, hij, hi, hj⟩
    cases i with
    | zero => simp at hi
    | succ i =>
      cases j with
      | zero => omega
      | succ j => exact ⟨i, j, by omega, by simpa using hi, by simpa using hj⟩
  · rintro ⟨i, j, hij, hi, hj⟩
    exact ⟨i + 1, j + 1, by omega, by simpa using hi, by simpa using hj⟩

theorem copyAfterFlush_cons_flush (os : List Op) : CopyAfterFlush (.flush :: os) ↔ .copy ∈ os := by
  constructor
  · rintro ⟨i, j, hij, hi, hj⟩
    cases j with
    | zero => omega
    | succ j => exact List.mem_of_getElem? (by simpa using hj)
  · intro h
    obtain ⟨j, hj⟩ := List.mem_iff_getElem?.1 h
    exact ⟨0, j + 1, by omega, by simp, by simpa using hj⟩

/-- **C242**: exact result of any sequence of copies and flushes of a warm start made by the constructor: undefined exactly when the array is not empty and a copy comes after a flush;
otherwise the warm start itself, or, after a flush, the same with the point and the array gone. -/
theorem run_exact (w : Warm) (h : w.Full) : ∀ os : List Op,
    (w.run os = none ↔ 0 < w.size ∧ CopyAfterFlush os) ∧
    (¬ (0 < w.size ∧ CopyAfterFlush os) → w.run os = some (if .flush ∈ os then ⟨[], [], w.size, none, w.istat⟩ else w))
  | [] => by
    refine ⟨?_, by simp [Warm.run]⟩
    simp only [Warm.run, reduceCtorEq, false_iff, not_and]
    rintro _ ⟨i, _, _, hi, _⟩
    simp at hi
  | .copy :: os => by
    have ih := run_exact w h os
    rw [Warm.run, Warm.step, copy_full h, Option.bind_some, copyAfterFlush_cons_copy]
    refine ⟨ih.1, fun hn => ?_⟩
    rw [ih.2 hn]
    simp
  | .flush :: os => by
    rw [Warm.run, Warm.step, Option.bind_some, run_flushed (flush_flushed h.1), copyAfterFlush_cons_flush]
    have hs : w.flush.size = w.size := rfl
    rw [hs]
    constructor
    · by_cases hc : 0 < w.size ∧ Op.copy ∈ os
      · simp [hc]
      · rw [if_neg hc]; simp [hc]
    · intro hn
      rw [if_neg hn]
      simp [Warm.flush]

/-- **C242**: copies of a warm start that was not flushed are equal to it. -/
theorem copies_equal (w : Warm) (h : w.Full) (n : ℕ) : w.run (List.replicate n .copy) = some w := by
  have hc : ¬ CopyAfterFlush (List.replicate n .copy) := by
    rintro ⟨i, _, _, hi, _⟩
    have := List.eq_of_mem_replicate (List.mem_of_getElem? hi)
    cases this
  rw [(run_exact w h _).2 fun hn => hc hn.2, if_neg]
  intro hm
  cases List.eq_of_mem_replicate hm

/-- A warm start with an array of two integers. -/
def ex : Warm := ⟨[1, 2], [3], 2, some [7, 8], List.replicate 14 0⟩

/-- **C242 (refuted).** A flushed warm start cannot be copied: its size is still 2, and the copy reads two integers through a null pointer. -/
theorem flushed_copy_undefined : new [1, 2] [3] 2 (some [7, 8]) (List.replicate 14 0) = some ex ∧ ex.run [.flush] = some ⟨[], [], 2, none, List.replicate 14 0⟩ ∧ ex.run [.flush, .copy] = none := by
  decide +kernel

example : ex.Full ∧ ex.run [.copy, .copy] = some ex ∧ ex.run [.copy, .flush, .flush] = some ⟨[], [], 2, none, List.replicate 14 0⟩ := by
  refine ⟨⟨by simp [ex], fun _ => ⟨[7, 8], rfl, rfl⟩, fun h => ?_⟩, by decide +kernel, by decide +kernel⟩
  simp [ex] at h

end Verif.Slv.BqpdWarm

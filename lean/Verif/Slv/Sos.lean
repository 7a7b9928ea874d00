import Mathlib.Data.List.Basic
import Mathlib.Data.List.Chain
import Mathlib.Data.List.Forall2
import Mathlib.Algebra.Order.Ring.Rat
import Mathlib.Tactic.Linarith
import Mathlib.Tactic.NormNum

/-!
# Repair of SOS weights (`Interfaces/Ampl/sos_kludge.cpp`)
The addition `t + 1e-10` is a parameter `bump`: exact in `bumpExact`, absorbed for large weights in
IEEE arithmetic (`bumpAbsorb`).
-/
namespace Verif.Slv

/-- The `while` loop (37-43).  `none` is a read outside the array; the fuel bounds the number of passes. -/
def kInner (bump : ℚ → ℚ) (k : ℕ) : ℕ → ℕ → ℚ → List ℚ → Option (ℕ × List ℚ)
  | 0, _, _, _ => none
  | fuel + 1, j, t, arr =>
    if j + 1 < k then
      match arr[j + 1]? with
      | none => none
      | some t1 =>
        if t1 ≤ bump t then kInner bump k fuel (j + 1) (bump (bump t)) (arr.set (j + 1) (bump (bump t)))
        else kInner bump k fuel (j + 1) t1 arr
    else some (j + 1, arr)

/-- `sos_kludge` (28-45): `ends` are `sosbeg[1..nsos]`, `j` the running index. -/
def kludge (bump : ℚ → ℚ) : List ℕ → ℕ → List ℚ → Option (List ℚ)
  | [], _, arr => some arr
  | k :: ks, j, arr =>
    match arr[j]? with
    | none => none
    | some t =>
      match kInner bump k (k + 1) j t arr with
      | none => none
      | some r => kludge bump ks r.1 r.2

/-- `t + 1e-10` computed exactly. -/
def bumpExact (t : ℚ) : ℚ := t + 1 / 10 ^ 10

/-- `t + 1e-10` in double precision loses the addition from `2^20` on, where half a unit in the last place (`2^-33`) exceeds `1e-10`. -/
def bumpAbsorb (t : ℚ) : ℚ := if t < 2 ^ 20 then t + 1 / 10 ^ 10 else t

/-! ## Specification -/

/-- The ends of consecutive sets starting at `j`. -/
def setEnds : ℕ → List (List ℚ) → List ℕ
  | _, [] => []
  | j, s :: ss => (j + s.length) :: setEnds (j + s.length) ss

/-- What the repair may do to one set: the first weight stays, every other weight is beyond the bumped
weight before it, is kept if it already was, and is otherwise put just beyond it (two bumps). -/
inductive Repaired (bump : ℚ → ℚ) : List ℚ → List ℚ → Prop
  | one (x : ℚ) : Repaired bump [x] [x]
  | keep (x y : ℚ) (l m : List ℚ) : bump x < y → Repaired bump (y :: l) (y :: m) → Repaired bump (x :: y :: l) (x :: y :: m)
  | lift (x y : ℚ) (l m : List ℚ) : y ≤ bump x → Repaired bump (bump (bump x) :: l) (bump (bump x) :: m) →
      Repaired bump (x :: y :: l) (x :: bump (bump x) :: m)

/-! ## Lemmas -/

theorem kInner_spec (bump : ℚ → ℚ) (l : List ℚ) : ∀ (pre post : List ℚ) (x : ℚ) (fuel : ℕ), l.length < fuel →
    ∃ m, kInner bump (pre.length + 1 + l.length) fuel pre.length x (pre ++ x :: l ++ post) =
      some (pre.length + 1 + l.length, pre ++ x :: m ++ post) ∧ Repaired bump (x :: l) (x :: m) := by
  induction l with
  | nil =>
    intro pre post x fuel hf
    obtain ⟨f, rfl⟩ : ∃ f, fuel = f + 1 := ⟨fuel - 1, by simp at hf; omega⟩
    exact ⟨[], by simp [kInner], .one x⟩
  | cons y l ih =>
    intro pre post x fuel hf
    obtain ⟨f, rfl⟩ : ∃ f, fuel = f + 1 := ⟨fuel - 1, by simp at hf; omega⟩
    simp only [List.length_cons] at hf ⊢
    have hlt : pre.length + 1 < pre.length + 1 + (l.length + 1) := by omega
    have hget : (pre ++ x :: y :: l ++ post)[pre.length + 1]? = some y := by
      simp
    have hk : pre.length + 1 + (l.length + 1) = (pre ++ [x]).length + 1 + l.length := by simp; omega
    simp only [kInner, hlt, if_true, hget]
    by_cases hy : y ≤ bump x
    · obtain ⟨m, h1, h2⟩ := ih (pre ++ [x]) post (bump (bump x)) f (by omega)
      refine ⟨bump (bump x) :: m, ?_, .lift x y l m hy h2⟩
      rw [if_pos hy]
      have hset : (pre ++ x :: y :: l ++ post).set (pre.length + 1) (bump (bump x)) = (pre ++ [x]) ++ bump (bump x) :: l ++ post := by
        rw [List.append_assoc, List.set_append_right _ _ (by omega)]
        simp
      rw [hset, hk]
      have : (pre ++ [x]).length = pre.length + 1 := by simp
      rw [this] at h1 ⊢
      rw [h1]; simp
    · obtain ⟨m, h1, h2⟩ := ih (pre ++ [x]) post y f (by omega)
      refine ⟨y :: m, ?_, .keep x y l m (not_le.1 hy) h2⟩
      rw [if_neg hy, hk]
      have : (pre ++ [x]).length = pre.length + 1 := by simp
      rw [this] at h1 ⊢
      have e : pre ++ x :: y :: l ++ post = pre ++ [x] ++ y :: l ++ post := by simp
      rw [e, h1]; simp

theorem kludge_from (bump : ℚ → ℚ) (sets : List (List ℚ)) (hne : ∀ s ∈ sets, s ≠ []) (pre : List ℚ) :
    ∃ out, kludge bump (setEnds pre.length sets) pre.length (pre ++ sets.flatten) = some (pre ++ out.flatten) ∧ List.Forall₂ (Repaired bump) sets out := by
  induction sets generalizing pre with
  | nil => exact ⟨[], by simp [kludge, setEnds], .nil⟩
  | cons s ss ih =>
    cases s with
    | nil => exact absurd rfl (hne [] (by simp))
    | cons x l =>
      obtain ⟨m, h1, h2⟩ := kInner_spec bump l pre ss.flatten x (pre.length + 1 + l.length + 1) (by omega)
      have hlm : ∀ a b, Repaired bump a b → a.length = b.length := by
        intro a b h
        induction h with
        | one => rfl
        | keep _ _ _ _ _ _ ih => simpa using ih
        | lift _ _ _ _ _ _ ih => simpa using ih
      have hl := hlm _ _ h2
      obtain ⟨out, g1, g2⟩ := ih (fun s hs => hne s (by simp [hs])) (pre ++ x :: m)
      refine ⟨(x :: m) :: out, ?_, .cons h2 g2⟩
      have e1 : pre.length + (x :: l).length = pre.length + 1 + l.length := by simp; omega
      have e2 : pre ++ (((x :: l) :: ss).flatten) = pre ++ x :: l ++ ss.flatten := by simp
      have e3 : (pre ++ x :: m).length = pre.length + 1 + l.length := by simp at hl ⊢; omega
      have hget : (pre ++ x :: l ++ ss.flatten)[pre.length]? = some x := by simp
      rw [setEnds, kludge, e1, e2, hget]
      simp only [h1]
      rw [e3] at g1
      rw [g1]; simp

/-! ## Properties -/

/-- C42: for non-empty sets the repair succeeds, touches no array position outside the sets, and repairs each set on its own. -/
theorem sos_repair (bump : ℚ → ℚ) (sets : List (List ℚ)) (hne : ∀ s ∈ sets, s ≠ []) :
    ∃ out, kludge bump (setEnds 0 sets) 0 sets.flatten = some out.flatten ∧ List.Forall₂ (Repaired bump) sets out := by
  simpa using kludge_from bump sets hne []

/-- C42: a repaired set has as many weights, the same first weight, and strictly increasing weights (each more than a bump above the one before) when every bump is strict. -/
theorem sos_strict (bump : ℚ → ℚ) (hb : ∀ t, t < bump t) (a b : List ℚ) (h : Repaired bump a b) :
    b.length = a.length ∧ b.head? = a.head? ∧ b.IsChain (fun x y => bump x < y) ∧ b.Pairwise (· < ·) := by
  have key : b.length = a.length ∧ b.head? = a.head? ∧ b.IsChain (fun x y => bump x < y) := by
    induction h with
    | one => simp
    | keep x y l m h1 _ ih => obtain ⟨i1, i2, i3⟩ := ih; exact ⟨by simpa using i1, rfl, by simp [List.isChain_cons_cons, h1, i3]⟩
    | lift x y l m h1 _ ih => obtain ⟨i1, i2, i3⟩ := ih; exact ⟨by simpa using i1, rfl, by simp [List.isChain_cons_cons, i3, hb]⟩
  refine ⟨key.1, key.2.1, key.2.2, ?_⟩
  rw [← List.isChain_iff_pairwise]
  exact key.2.2.imp fun x y h => (hb x).trans h

/-- C42: weights that are already far enough apart are not changed, and no weight decreases. -/
theorem sos_unchanged (bump : ℚ → ℚ) (a b : List ℚ) (h : Repaired bump a b) : a.IsChain (fun x y => bump x < y) → b = a := by
  induction h with
  | one => intro; rfl
  | keep x y l m h1 _ ih =>
    intro hc
    rw [List.isChain_cons_cons] at hc
    rw [ih hc.2]
  | lift x y l m h1 _ ih =>
    intro hc
    rw [List.isChain_cons_cons] at hc
    exact absurd hc.1 (not_lt.2 h1)

/-- C42: no weight decreases. -/
theorem sos_monotone (bump : ℚ → ℚ) (hb : ∀ t, t ≤ bump t) (a b : List ℚ) (h : Repaired bump a b) : List.Forall₂ (· ≤ ·) a b := by
  induction h with
  | one x => exact .cons le_rfl .nil
  | keep x y l m h1 _ ih => exact .cons le_rfl ih
  | lift x y l m h1 _ ih =>
    cases ih with
    | cons _ h => exact .cons le_rfl (.cons (h1.trans (hb _)) h)

/-- C42: with exact arithmetic and non-empty sets, every set comes out with strictly increasing weights. -/
theorem sos_exact_partial (sets : List (List ℚ)) (hne : ∀ s ∈ sets, s ≠ []) :
    ∃ out, kludge bumpExact (setEnds 0 sets) 0 sets.flatten = some out.flatten ∧
      List.Forall₂ (fun a b => b.length = a.length ∧ b.head? = a.head? ∧ b.Pairwise (· < ·) ∧ List.Forall₂ (· ≤ ·) a b) sets out := by
  have hb : ∀ t, t < bumpExact t := fun t => by rw [bumpExact]; norm_num
  obtain ⟨out, h1, h2⟩ := sos_repair bumpExact sets hne
  refine ⟨out, h1, h2.imp fun a b h => ?_⟩
  have := sos_strict bumpExact hb a b h
  exact ⟨this.1, this.2.1, this.2.2.2, sos_monotone bumpExact (fun t => (hb t).le) a b h⟩

example : kludge bumpExact [3, 5] 0 [1, 1, 0, 7, 9] = some [1, 1 + 2 / 10 ^ 10, 1 + 4 / 10 ^ 10, 7, 9] := by decide +kernel
example : setEnds 0 [[1, 1, 0], [7, 9]] = [3, 5] ∧ ([[1, 1, 0], [7, 9]] : List (List ℚ)).flatten = [1, 1, 0, 7, 9] := by decide +kernel

/-- C42 refuted for an empty set: the set after it is shifted by one and keeps decreasing weights; an empty set at the end reads outside the array. -/
theorem sos_empty_set : kludge bumpExact (setEnds 0 [[], [5, 3]]) 0 [5, 3] = some [5, 3] ∧ kludge bumpExact (setEnds 0 [[1, 2], []]) 0 [1, 2] = none := by decide +kernel

/-- C42: a last empty set reads outside the array, whatever the sets before it. -/
theorem sos_last_empty (bump : ℚ → ℚ) (sets : List (List ℚ)) (hne : ∀ s ∈ sets, s ≠ []) :
    kludge bump (setEnds 0 (sets ++ [[]])) 0 (sets ++ [[]]).flatten = none := by
  suffices H : ∀ pre : List ℚ, kludge bump (setEnds pre.length (sets ++ [[]])) pre.length (pre ++ sets.flatten) = none by
    simpa using H []
  induction sets with
  | nil => intro pre; simp [setEnds, kludge]
  | cons s ss ih =>
    intro pre
    cases s with
    | nil => exact absurd rfl (hne [] (by simp))
    | cons x l =>
      obtain ⟨m, h1, h2⟩ := kInner_spec bump l pre ss.flatten x (pre.length + 1 + l.length + 1) (by omega)
      obtain ⟨out, g1, g2⟩ := kludge_from bump [x :: l] (by simp) pre
      have g := ih (fun s hs => hne s (by simp [hs])) (pre ++ x :: m)
      have hl : m.length = l.length := by
        have hlm : ∀ a b, Repaired bump a b → a.length = b.length := by
          intro a b h
          induction h with
          | one => rfl
          | keep _ _ _ _ _ _ ih => simpa using ih
          | lift _ _ _ _ _ _ ih => simpa using ih
        have := hlm _ _ h2; simpa using this.symm
      have e1 : pre.length + (x :: l).length = pre.length + 1 + l.length := by simp; omega
      have e2 : pre ++ (((x :: l) :: ss).flatten) = pre ++ x :: l ++ ss.flatten := by simp
      have e3 : (pre ++ x :: m).length = pre.length + 1 + l.length := by simp; omega
      have hget : (pre ++ x :: l ++ ss.flatten)[pre.length]? = some x := by simp
      rw [List.cons_append, setEnds, kludge, e1, e2, hget]
      simp only [h1]
      rw [e3] at g
      simpa using g

/-- C42 refuted in floating point: equal weights from 2^20 on stay equal. -/
theorem sos_absorbed : kludge bumpAbsorb (setEnds 0 [[2000000, 2000000]]) 0 [2000000, 2000000] = some [2000000, 2000000] := by decide +kernel

/-- C42: where the addition is absorbed the result is still never decreasing. -/
theorem sos_weak (bump : ℚ → ℚ) (hb : ∀ t, t ≤ bump t) (a b : List ℚ) (h : Repaired bump a b) : b.Pairwise (· ≤ ·) := by
  rw [← List.isChain_iff_pairwise]
  induction h with
  | one => simp
  | keep x y l m h1 _ ih => rw [List.isChain_cons_cons]; exact ⟨(hb x).trans h1.le, ih⟩
  | lift x y l m h1 _ ih => rw [List.isChain_cons_cons]; exact ⟨(hb x).trans (hb _), ih⟩

/-- C42: the rounded addition is exact below `2^20` and does nothing from there on. -/
theorem bumpAbsorb_iff (t : ℚ) : (t < 2 ^ 20 → bumpAbsorb t = bumpExact t) ∧ (bumpAbsorb t = t ↔ 2 ^ 20 ≤ t) := by
  unfold bumpAbsorb bumpExact
  by_cases h : t < 2 ^ 20
  · rw [if_pos h]
    refine ⟨fun _ => rfl, fun he => ?_, fun hh => absurd h (not_lt.2 hh)⟩
    exfalso; have : (1 : ℚ) / 10 ^ 10 = 0 := by linarith
    norm_num at this
  · rw [if_neg h]
    exact ⟨fun hh => absurd hh h, fun _ => not_lt.1 h, fun _ => rfl⟩

/-- C42 refuted for all large weights: two equal weights from `2^20` on are left equal. -/
theorem sos_absorbed_all (t : ℚ) (h : 2 ^ 20 ≤ t) : kludge bumpAbsorb (setEnds 0 [[t, t]]) 0 [t, t] = some [t, t] := by
  have hb := (bumpAbsorb_iff t).2.2 h
  simp [kludge, setEnds, kInner, hb]

end Verif.Slv

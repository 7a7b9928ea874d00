import Verif.Branch.Strong
import Mathlib.Tactic.Linarith
import Mathlib.Tactic.NormNum
import Mathlib.Algebra.Order.Field.Rat
/-! # C253: searching for the node at which a known solution is lost

With `read_solution_file` a known solution is given to the NLP interface (src/Algorithms/Ampl/BonAmplSetup.cpp:22-32); then
src/Interfaces/BonOsiTMINLPInterface.cpp: `solveAndCheckErrors` 2621-2630 and src/Algorithms/Branching/BonChooseVariable.cpp: `doStrongBranching` 845-848, 892-895 throw an
`UnsolvedError` at nodes that contain the solution and lose it.

Simplifications: `getRowCutDebugger` of Osi gives the debugger exactly if the known values of the integer columns satisfy the bounds of the columns up to a tolerance (1e-3);
numbers are exact. -/
namespace Verif.Branch.Debug
open Verif.Branch

/-- The known solution: the values, which columns are integer, the objective value. -/
structure Known where
  x : List ℚ
  ints : List Bool
  value : ℚ
  deriving DecidableEq, Repr

/-- Within bounds up to `tol`. -/
def within (tol : ℚ) (v : ℚ) (b : ℚ × ℚ) : Bool := decide (b.1 - tol ≤ v) && decide (v ≤ b.2 + tol)

/-- `getRowCutDebugger() != NULL` (Osi): only integer columns are looked at. -/
def onPath (tol : ℚ) (k : Known) (b : Bounds) : Bool := ((k.x.zip k.ints).zip b).all fun q => !q.1.2 || within tol q.1.1 q.2

/-- What the NLP solver says. -/
structure Nlp where
  optimal : Bool
  infeasible : Bool
  value : ℚ
  deriving DecidableEq, Repr

/-- `solveAndCheckErrors` throws (BonOsiTMINLPInterface.cpp:2621-2630). -/
def solveAlarm (tol : ℚ) (k : Known) (b : Bounds) (a : Nlp) : Bool := onPath tol k b && !(a.optimal && decide (a.value ≤ k.value))

/-- Osi's status of a side with a cutoff: 0 solved, 1 infeasible or not better than the cutoff, 2 unfinished. -/
def osiStatus (cutoff : ℚ) (a : Nlp) : Int := if a.optimal then (if a.value < cutoff then 0 else 1) else if a.infeasible then 1 else 2

/-- A side on which the debugger throws (BonChooseVariable.cpp:845-848, 892-895): `b` are the bounds of `solver` then. -/
def sideAlarm (tol : ℚ) (k : Known) (b : Bounds) (status : Int) : Bool := onPath tol k b && decide (status = 1)

/-- Bounds of `solver` at the check: those of the branch, unless the branch was made on a clone. -/
def atCheck (p : Probe) (way : Bounds → Bounds) (b : Bounds) : Bounds := if p.isBound then way b else b

/-- The loop of `doStrongBranching` (807-948) with the debugger: `.error b` is the exception, with `b` the bounds left in the solver. -/
def loopD (tol : ℚ) (k : Known) (c : SCfg) (save : Bounds) : List Probe → SB → Except Bounds (Option SB)
  | [], s => .ok (some s)
  | p :: ps, s =>
    let b0 := atCheck p p.way0 s.bounds
    let s := side save p.isBound p.way0 s
    let r0 := seen c p.ans0 s.cutoff
    if sideAlarm tol k b0 r0.1 then .error b0
    else
      let b1 := atCheck p p.way1 s.bounds
      let s := side save p.isBound p.way1 { s with cutoff := r0.2 }
      let r1 := seen c p.ans1 s.cutoff
      if sideAlarm tol k b1 r1.1 then .error b1
      else
        let s := { s with cutoff := r1.2, done := s.done + 1, code := newCode s.code r0.1 r1.1,
                          fixed := if ¬ (r0.1 = 1 ∧ r1.1 = 1) ∧ (r0.1 = 1 ∨ r1.1 = 1) then s.fixed + 1 else s.fixed }
        if p.late then .ok (some { s with code := 3 })
        else if c.isRoot = false ∧ c.lookAhead ≠ 0 then
          if r0.1 = 0 ∧ r1.1 = 0 then
            let v := combine c.crit p.ans1.change p.ans0.change
            if s.bestLook < v then loopD tol k c save ps { s with bestLook := v, since := 0 }
            else if c.lookAhead ≤ s.since + 1 then .ok (some { s with since := s.since + 1 })
            else loopD tol k c save ps { s with since := s.since + 1 }
          else .ok none
        else loopD tol k c save ps s

/-- `doStrongBranching` with the debugger. -/
def strongD (tol : ℚ) (k : Known) (c : SCfg) (bounds : Bounds) (cutoff : ℚ) (ps : List Probe) : Except Bounds (Option SB) :=
  loopD tol k c bounds ps ⟨bounds, [], cutoff, 0, 0, 0, -c.huge, 0⟩

/-! ## Specification -/

/-- A point within bounds. -/
def In (x : List ℚ) (b : Bounds) : Prop := List.Forall₂ (fun v b => b.1 ≤ v ∧ v ≤ b.2) x b

/-- The solver tells the truth about minimising `f` over the points of `F` within `b`. -/
def Truth (F : List ℚ → Prop) (f : List ℚ → ℚ) (b : Bounds) (a : Nlp) : Prop :=
  (∃ x, F x ∧ In x b) → a.optimal = true ∧ ∀ x, F x → In x b → a.value ≤ f x

/-! ## What holds -/

theorem onPath_iff (tol : ℚ) (k : Known) (b : Bounds) : onPath tol k b = true ↔
    ∀ (i : ℕ) (v l u : ℚ), k.x[i]? = some v → k.ints[i]? = some true → b[i]? = some (l, u) → l - tol ≤ v ∧ v ≤ u + tol := by
  unfold onPath within
  rw [List.all_eq_true]
  constructor
  · intro h i v l u hx hi hb
    have hm : ((v, true), (l, u)) ∈ (k.x.zip k.ints).zip b := by
      rw [List.mem_iff_getElem?]
      exact ⟨i, by simp [List.getElem?_zip_eq_some, hx, hi, hb]⟩
    simpa using h _ hm
  · rintro h ⟨⟨v, t⟩, l, u⟩ hm
    obtain ⟨i, hi⟩ := List.mem_iff_getElem?.mp hm
    obtain ⟨h1, h2⟩ := List.getElem?_zip_eq_some.mp hi
    obtain ⟨h3, h4⟩ := List.getElem?_zip_eq_some.mp h1
    cases t with
    | false => simp
    | true => simpa using h i v l u h3 h4 h2

/-- **C253.** A solve throws exactly if the known values of the integer columns are within the bounds, up to the tolerance, and the solver does not prove optimality with a
value that is at most the known one. -/
theorem solve_alarm_iff (tol : ℚ) (k : Known) (b : Bounds) (a : Nlp) : solveAlarm tol k b a = true ↔
    (∀ (i : ℕ) (v l u : ℚ), k.x[i]? = some v → k.ints[i]? = some true → b[i]? = some (l, u) → l - tol ≤ v ∧ v ≤ u + tol) ∧ (a.optimal = false ∨ k.value < a.value) := by
  unfold solveAlarm
  rw [Bool.and_eq_true, onPath_iff]
  cases a.optimal <;> simp

example : solveAlarm (1 / 1000) ⟨[1, 2], [true, false], 5⟩ [(0, 1), (0, 0)] ⟨true, false, 6⟩ = true := by decide +kernel
example : solveAlarm (1 / 1000) ⟨[1, 2], [true, false], 5⟩ [(0, 0), (0, 4)] ⟨true, false, 6⟩ = false := by decide +kernel

/-- **C253.** Solves that lose the known solution throw. -/
theorem lost_reported (tol : ℚ) (ht : 0 ≤ tol) (k : Known) (b : Bounds) (a : Nlp) (hin : In k.x b) (ha : a.optimal = false ∨ k.value < a.value) :
    solveAlarm tol k b a = true := by
  rw [solve_alarm_iff]
  refine ⟨fun i v l u hx _ hb => ?_, ha⟩
  obtain ⟨hl, hv⟩ := List.forall₂_iff_get.mp hin
  obtain ⟨h1, h1'⟩ := List.getElem?_eq_some_iff.mp hx
  obtain ⟨h2, h2'⟩ := List.getElem?_eq_some_iff.mp hb
  have := hv i h1 h2
  simp only [List.get_eq_getElem, h1', h2'] at this
  constructor <;> linarith [this.1, this.2]

example : In [1, 2] [(0, 1), (0, 4)] := by simp [In]; norm_num

/-- **C253.** The claim: an exception means that the solver is wrong or the solution known is none. Here for nodes whose bounds contain the whole known point. -/
theorem solve_alarm_partial (F : List ℚ → Prop) (f : List ℚ → ℚ) (tol : ℚ) (k : Known) (b : Bounds) (a : Nlp) (hin : In k.x b)
    (h : solveAlarm tol k b a = true) : ¬ F k.x ∨ f k.x ≠ k.value ∨ ¬ Truth F f b a := by
  by_contra hc
  push Not at hc
  obtain ⟨h1, h2, h3⟩ := hc
  obtain ⟨h4, h5⟩ := h3 ⟨k.x, h1, hin⟩
  rcases ((solve_alarm_iff tol k b a).mp h).2 with h6 | h6
  · simp [h4] at h6
  · have := h5 k.x h1 hin
    linarith

example : Truth (fun _ => True) (fun x => x.sum) [(0, 1)] ⟨true, false, 0⟩ := by
  intro _
  refine ⟨rfl, fun x _ hx => ?_⟩
  cases hx with
  | cons h t => cases t; simpa using h.1

/-- **C253.** With whole bounds, whole known values of the integer columns and a tolerance below one, the debugger is present exactly at the nodes whose integer bounds contain
the known values. -/
theorem path_exact (tol : ℚ) (h0 : 0 ≤ tol) (h1 : tol < 1) (k : Known) (b : Bounds)
    (hk : ∀ (i : ℕ) (v : ℚ), k.x[i]? = some v → k.ints[i]? = some true → ∃ z : ℤ, v = z) (hb : ∀ (i : ℕ) (l u : ℚ), b[i]? = some (l, u) → k.ints[i]? = some true → (∃ z : ℤ, l = z) ∧ ∃ z : ℤ, u = z) :
    onPath tol k b = true ↔ ∀ (i : ℕ) (v l u : ℚ), k.x[i]? = some v → k.ints[i]? = some true → b[i]? = some (l, u) → l ≤ v ∧ v ≤ u := by
  rw [onPath_iff]
  constructor
  · intro h i v l u hx hi hbi
    obtain ⟨a1, a2⟩ := h i v l u hx hi hbi
    obtain ⟨z, rfl⟩ := hk i v hx hi
    obtain ⟨⟨y, rfl⟩, w, rfl⟩ := hb i l u hbi hi
    have b1 : ((y : ℤ) : ℚ) < ((z + 1 : ℤ) : ℚ) := by push_cast; linarith
    have b2 : ((z : ℤ) : ℚ) < ((w + 1 : ℤ) : ℚ) := by push_cast; linarith
    have b1 := Int.cast_lt.mp b1
    have b2 := Int.cast_lt.mp b2
    exact ⟨Int.cast_le.mpr (by omega), Int.cast_le.mpr (by omega)⟩
  · intro h i v l u hx hi hbi
    obtain ⟨a1, a2⟩ := h i v l u hx hi hbi
    constructor <;> linarith

example : onPath (1 / 1000) ⟨[1], [true], 0⟩ [(0, 1)] = true ∧ onPath (1 / 1000) ⟨[1], [true], 0⟩ [(0, 0)] = false := by decide +kernel

/-- **C253.** Strong branching that does not throw gives what it gives without the debugger. -/
theorem strong_transparent (tol : ℚ) (k : Known) (c : SCfg) (save : Bounds) : ∀ (ps : List Probe) (s : SB) (r : Option SB),
    loopD tol k c save ps s = .ok r → sbLoop c save ps s = r
  | [], s, r, h => by simpa [loopD, sbLoop] using h
  | p :: ps, s, r, h => by
    rw [loopD] at h
    rw [sbLoop]
    simp only at h ⊢
    split at h
    · simp at h
    · split at h
      · simp at h
      · split at h
        · rename_i hl; rw [if_pos hl]; simpa using h
        · rename_i hl
          rw [if_neg hl]
          split at h
          · rename_i hr
            rw [if_pos hr]
            split at h
            · rename_i hz
              rw [if_pos hz]
              split at h
              · rename_i hb; rw [if_pos hb]; exact strong_transparent tol k c save ps _ r h
              · rename_i hb
                rw [if_neg hb]
                split at h
                · rename_i hs; rw [if_pos hs]; simpa using h
                · rename_i hs; rw [if_neg hs]; exact strong_transparent tol k c save ps _ r h
            · rename_i hz; rw [if_neg hz]; simpa using h
          · rename_i hr; rw [if_neg hr]; exact strong_transparent tol k c save ps _ r h

/-- The sides of the candidates. -/
def sides (ps : List Probe) : List (Bool × (Bounds → Bounds) × Ans) := ps.flatMap fun p => [(p.isBound, p.way0, p.ans0), (p.isBound, p.way1, p.ans1)]

theorem loopD_error (tol : ℚ) (k : Known) (c : SCfg) (save : Bounds) : ∀ (ps : List Probe) (s : SB) (b : Bounds), (∀ p ∈ ps, p.Sized save.length) → s.bounds = save →
    loopD tol k c save ps s = .error b →
    ∃ q ∈ sides ps, b = (if q.1 then q.2.1 save else save) ∧ onPath tol k b = true ∧ q.2.2.infeasible
  | [], s, b, _, _, h => by simp [loopD] at h
  | p :: ps, s, b, hsz, hs, h => by
    have hp := hsz p List.mem_cons_self save rfl
    have hside : ∀ (way : Bounds → Bounds) (s : SB), s.bounds = save → (way save).length = save.length → (side save p.isBound way s).bounds = save := by
      intro way s h1 h2
      unfold side
      rw [h1]
      split
      · exact restore_self _ _ h2.symm
      · exact restore_self _ _ rfl
    have hb0 := hside p.way0 s hs hp.1
    have again : ∀ s' : SB, s'.bounds = save → loopD tol k c save ps s' = .error b →
        ∃ q ∈ sides (p :: ps), b = (if q.1 then q.2.1 save else save) ∧ onPath tol k b = true ∧ q.2.2.infeasible := by
      intro s' h1 h2
      obtain ⟨q, hq, h3⟩ := loopD_error tol k c save ps s' b (fun p hp => hsz p (List.mem_cons_of_mem _ hp)) h1 h2
      exact ⟨q, by rw [sides, List.flatMap_cons]; exact List.mem_append_right _ hq, h3⟩
    rw [loopD] at h
    simp only at h
    split at h
    · rename_i ha
      simp only [Except.error.injEq] at h
      rw [hs] at h ha
      rw [sideAlarm, Bool.and_eq_true, decide_eq_true_iff, seen_one] at ha
      exact ⟨(p.isBound, p.way0, p.ans0), by simp [sides], by rw [← h]; rfl, h ▸ ha.1, ha.2⟩
    · split at h
      · rename_i ha
        simp only [Except.error.injEq] at h
        rw [hb0] at h ha
        rw [sideAlarm, Bool.and_eq_true, decide_eq_true_iff, seen_one] at ha
        exact ⟨(p.isBound, p.way1, p.ans1), by simp [sides], by rw [← h]; rfl, h ▸ ha.1, ha.2⟩
      · have hb1 := fun r => hside p.way1 { side save p.isBound p.way0 s with cutoff := r } hb0 hp.2
        split at h
        · simp at h
        · split at h
          · split at h
            · split at h
              · refine again _ ?_ h; exact hb1 _
              · split at h
                · simp at h
                · refine again _ ?_ h; exact hb1 _
            · simp at h
          · refine again _ ?_ h; exact hb1 _

/-- **C253.** Strong branching throws only at a side that was found infeasible while the known values are within the bounds of the solver, which keeps the bounds of the branch. -/
theorem strong_throws (tol : ℚ) (k : Known) (c : SCfg) (bounds : Bounds) (cutoff : ℚ) (ps : List Probe) (hsz : ∀ p ∈ ps, p.Sized bounds.length) (b : Bounds)
    (h : strongD tol k c bounds cutoff ps = .error b) :
    ∃ q ∈ sides ps, b = (if q.1 then q.2.1 bounds else bounds) ∧ onPath tol k b = true ∧ q.2.2.infeasible :=
  loopD_error tol k c bounds ps _ b hsz rfl h

/-- **C253.** The claim: no exception if every side that keeps the known values is found feasible. Here for branches that are changes of bounds. -/
theorem strong_quiet_partial (tol : ℚ) (k : Known) (c : SCfg) (bounds : Bounds) (cutoff : ℚ) (ps : List Probe) (hsz : ∀ p ∈ ps, p.Sized bounds.length)
    (hb : ∀ p ∈ ps, p.isBound = true)
    (hf : ∀ p ∈ ps, (onPath tol k (p.way0 bounds) = true → ¬ p.ans0.infeasible) ∧ (onPath tol k (p.way1 bounds) = true → ¬ p.ans1.infeasible)) :
    strongD tol k c bounds cutoff ps = .ok (doStrong c bounds cutoff ps) := by
  cases h : strongD tol k c bounds cutoff ps with
  | ok r => rw [doStrong, strong_transparent tol k c bounds ps _ r h]
  | error b =>
    obtain ⟨q, hq, h1, h2, h3⟩ := strong_throws tol k c bounds cutoff ps hsz b h
    obtain ⟨p, hp, hq⟩ := List.mem_flatMap.mp hq
    have := hb p hp
    simp only [List.mem_cons, List.not_mem_nil, or_false] at hq
    rcases hq with rfl | rfl
    · simp only [this, if_true] at h1
      exact absurd h3 ((hf p hp).1 (h1 ▸ h2))
    · simp only [this, if_true] at h1
      exact absurd h3 ((hf p hp).2 (h1 ▸ h2))

/-- Branching on the first column at 1/2, for examples. -/
def half (a0 a1 : Ans) (isBound : Bool) : Probe :=
  { isBound := isBound, way0 := fun b => List.set b 0 (0, 0), way1 := fun b => List.set b 0 (1, 1), ans0 := a0, ans1 := a1, late := false }

theorem half_sized (n : ℕ) (a0 a1 : Ans) (t : Bool) : (half a0 a1 t).Sized n := fun b h => by simp [half, h]

example : strongD (1 / 1000) ⟨[1], [true], 3⟩ ⟨true, 0, true, 1, 100⟩ [(0, 1)] 10 [half ⟨1, false, 0, 0⟩ ⟨0, false, 0, 2⟩ true] =
    .ok (doStrong ⟨true, 0, true, 1, 100⟩ [(0, 1)] 10 [half ⟨1, false, 0, 0⟩ ⟨0, false, 0, 2⟩ true]) :=
  strong_quiet_partial _ _ _ _ _ _ (by intro p hp; simp at hp; subst hp; exact half_sized _ _ _ _) (by intro p hp; simp at hp; subst hp; rfl) (by
    intro p hp; simp at hp; subst hp; decide +kernel)

/-- **C253.** A side that keeps the known solution, solved truthfully, does not count as infeasible as long as the known solution is better than the cutoff. -/
theorem kept_side_feasible (F : List ℚ → Prop) (f : List ℚ → ℚ) (k : Known) (b : Bounds) (a : Nlp) (cutoff : ℚ) (hin : In k.x b) (hF : F k.x) (hk : f k.x = k.value)
    (ht : Truth F f b a) (hc : k.value < cutoff) : osiStatus cutoff a = 0 ∧ hotStatus (osiStatus cutoff a) false a.optimal a.value = 0 := by
  obtain ⟨h1, h2⟩ := ht ⟨k.x, hF, hin⟩
  have h3 := h2 k.x hF hin
  have h4 : a.value < cutoff := by linarith
  simp [osiStatus, hotStatus, h1, h4]

example : osiStatus 10 ⟨true, false, 3⟩ = 0 := by decide +kernel

/-! ## What does not hold -/

/-- **C253 (refuted).** Bounds of continuous columns, as set by branching on special ordered sets, are not looked at: a correct solve of a node without the known point throws. -/
theorem continuous_ignored : Truth (fun x => ∃ v, x = [v]) (fun x => -x.sum) [(0, 0)] ⟨true, false, 0⟩ ∧ ¬ In [1] [(0, 0)] ∧
    solveAlarm (1 / 1000) ⟨[1], [false], -1⟩ [(0, 0)] ⟨true, false, 0⟩ = true := by
  refine ⟨fun _ => ⟨rfl, fun x _ hx => ?_⟩, by simp [In], by decide +kernel⟩
  cases hx with
  | cons h t =>
    cases t
    simpa using h.2

/-- **C253 (refuted).** When the known solution has been found and is the cutoff, the side that keeps it counts as infeasible, and strong branching throws. -/
theorem found_solution_throws : osiStatus 3 ⟨true, false, 3⟩ = 1 ∧ hotStatus 1 false true 3 = 1 ∧
    strongD (1 / 1000) ⟨[1], [true], 3⟩ ⟨true, 0, true, 1, 100⟩ [(0, 1)] 3 [half ⟨0, false, 0, 0⟩ ⟨1, false, 0, 0⟩ true] = .error [(1, 1)] := by decide +kernel

/-- **C253 (refuted).** A branch made on a clone is judged by the bounds of the node: an infeasible side without the known solution makes strong branching throw. -/
theorem clone_misjudged : onPath (1 / 1000) ⟨[1], [true], 3⟩ ((half ⟨1, false, 0, 0⟩ ⟨0, false, 0, 2⟩ false).way0 [(0, 1)]) = false ∧
    strongD (1 / 1000) ⟨[1], [true], 3⟩ ⟨true, 0, true, 1, 100⟩ [(0, 1)] 10 [half ⟨1, false, 0, 0⟩ ⟨0, false, 0, 2⟩ false] = .error [(0, 1)] := by decide +kernel

/-- **C253 (refuted).** A solve that did not finish throws like one that lost the solution. -/
theorem unfinished_throws : solveAlarm (1 / 1000) ⟨[1], [true], 3⟩ [(0, 1)] ⟨false, false, 2⟩ = true := by decide +kernel

/-- **C253**: the status of a branch: 0 solved below the cutoff, 1 solved not below it or infeasible, 2 otherwise. -/
theorem osi_status_exact (cutoff : ℚ) (a : Nlp) : (osiStatus cutoff a = 0 ↔ a.optimal = true ∧ a.value < cutoff) ∧
    (osiStatus cutoff a = 1 ↔ a.optimal = true ∧ cutoff ≤ a.value ∨ a.optimal = false ∧ a.infeasible = true) ∧
    (osiStatus cutoff a = 2 ↔ a.optimal = false ∧ a.infeasible = false) := by
  unfold osiStatus
  cases a.optimal <;> cases a.infeasible <;> by_cases h : a.value < cutoff <;> simp [h, not_lt.mp, not_le.mpr]

end Verif.Branch.Debug

import Mathlib.Data.List.Basic
import Mathlib.Data.Int.Notation
import Mathlib.Algebra.Order.Ring.Rat
import Mathlib.Tactic.Linarith
import Mathlib.Tactic.NormNum
import Mathlib.Tactic.Ring
import Mathlib.Algebra.Ring.Divisibility.Basic

/-!
# The QP solver of strong branching (`src/Interfaces/Filter/BonBqpdSolver.cpp`, `src/Algorithms/Branching/BonQpBranchingSolver.cpp`)
The arrays and common blocks bqpd works on are one value of any type `σ`; bqpd is an arbitrary function of its mode, the bounds, the size of the workspace and that value.
-/
namespace Verif.Slv.Bqpd

/-- What is outside: the options `reinit_freq` and `hot_start_m0de` (static members, cpp:23-24), the problem's starting point written into the arrays, the copy into a larger workspace
(cpp:826-835), and bqpd itself: mode, lower and upper bounds, fill-in factor, arrays ↦ `ifail`, number of pivots `info[0]`, arrays. -/
structure Env (σ : Type) where
  freq : ℤ
  mode : ℤ
  start : σ → σ
  grow : σ → σ
  solve : ℤ → List ℚ → List ℚ → ℚ → σ → ℤ × ℤ × σ

/-- The cache (`BonBqpdSolver.hpp:230-309`), with `ifail`, the fill-in factor of the solver object it points to, and the calls of bqpd made so far (newest first). -/
structure Cache (σ : Type) where
  prob : ℕ
  lo : List ℚ
  up : List ℚ
  st : σ
  hot : Option σ
  useWarm : Bool
  bad : Bool
  pivots : ℤ
  next : ℤ
  m0de : ℤ
  fill : ℚ
  ifail : ℤ
  calls : List (ℤ × List ℚ × List ℚ × σ)
deriving DecidableEq, Repr

/-- `while (reinit_freq_ > 0 && next_reinit_ < pivots_) next_reinit_ += reinit_freq_` (cpp:721-722); the difference bounds the number of rounds. -/
def bumpLoop (freq pivots : ℤ) : ℕ → ℤ → ℤ
  | 0, next => next
  | k + 1, next => if 0 < freq ∧ next < pivots then bumpLoop freq pivots k (next + freq) else next
def bump (freq pivots next : ℤ) : ℤ := bumpLoop freq pivots (pivots - next).toNat next

/-- One call of bqpd (cpp:792-794, 803-805, 813-815, 841-843). -/
def call {σ : Type} (E : Env σ) (c : Cache σ) : Cache σ × ℤ :=
  let r := E.solve c.m0de c.lo c.up c.fill c.st
  ({ c with ifail := r.1, st := r.2.2, calls := (c.m0de, c.lo, c.up, c.st) :: c.calls }, r.2.1)

/-- The beginning of `optimize` (cpp:715-730): the flag is cleared only when it is used. -/
def prepare {σ : Type} (E : Env σ) (c : Cache σ) : Cache σ :=
  if c.useWarm ∧ ¬ c.bad then
    match c.hot with
    | some h => if c.next < c.pivots then { c with useWarm := false, st := h, next := bump E.freq c.pivots c.next } else { c with useWarm := false }
    | none => { c with useWarm := false }
  else { c with m0de := 0, st := E.start c.st, bad := false }

/-- The loop on code 7 (cpp:818-844); running out of fuel is `none`. -/
def loop7 {σ : Type} (E : Env σ) : ℕ → Cache σ → Option (Cache σ)
  | 0, c => if c.ifail = 7 then none else some c
  | k + 1, c => if c.ifail = 7 then loop7 E k (call E { c with hot := none, fill := c.fill * 2, m0de := 0, st := E.start (E.grow c.st) }).1 else some c

/-- Retry from the hot start (cpp:799-807). -/
def retryHot {σ : Type} (E : Env σ) (c : Cache σ) : Cache σ :=
  match c.hot with
  | some h => if 0 < E.freq ∧ (c.ifail = 7 ∨ c.ifail = 8) ∧ c.m0de = 6 then (call E { c with st := h }).1 else c
  | none => c

/-- Cold retry (cpp:808-817). -/
def retryCold {σ : Type} (E : Env σ) (c : Cache σ) : Cache σ :=
  if c.ifail = 8 ∧ E.mode = 6 then (call E { c with m0de := 0, st := E.start c.st }).1 else c

/-- `cachedInfo::optimize` (cpp:702-877). -/
def optimize {σ : Type} (E : Env σ) (fuel : ℕ) (c : Cache σ) : Option (Cache σ) :=
  let r := call E (prepare E c)
  let c := { r.1 with pivots := r.1.pivots + r.2 }
  (loop7 E fuel (retryCold E (retryHot E c))).map fun c => if c.ifail = 8 then { c with bad := true } else c

inductive Ret | solvedOptimal | unbounded | provenInfeasible | exception
deriving DecidableEq, Repr

/-- The switch of `callOptimizer` (cpp:436-452); case 1 has no `break`. -/
def retOf (ifail : ℤ) : Ret :=
  if ifail = 0 then .solvedOptimal else if ifail = 1 ∨ ifail = 2 ∨ ifail = 3 then .provenInfeasible else .exception

/-- Bounds are cut at ±1e50 (cpp:244-247, 321-324). -/
def clipLo (l : List ℚ) : List ℚ := l.map fun v => max v (-(10 ^ 50))
def clipUp (l : List ℚ) : List ℚ := l.map fun v => min v (10 ^ 50)

/-- A QP: its arrays when set up, and its present bounds. -/
structure Qp (σ : Type) where
  init : σ
  lo : List ℚ
  up : List ℚ

/-- `cachedInfo::initialize` (cpp:267-413). -/
def fresh {σ : Type} (p : ℕ) (P : Qp σ) (fill : ℚ) : Cache σ := ⟨p, clipLo P.lo, clipUp P.up, P.init, none, false, false, 0, 0, 0, fill, 0, []⟩

/-- `OptimizeTNLP` (cpp:208-229): the cache is kept if its flag is set. -/
def optimizeTNLP {σ : Type} (E : Env σ) (fuel : ℕ) (p : ℕ) (P : Qp σ) (fill : ℚ) (c : Option (Cache σ)) : Option (Cache σ × Ret) :=
  let c0 := match c with | some c => if c.useWarm then c else fresh p P fill | none => fresh p P fill
  (optimize E fuel c0).map fun c => (c, retOf c.ifail)

/-- `ReOptimizeTNLP` (cpp:232-265): the bounds are read again, the flag is set, the mode is the option's. -/
def reoptimizeTNLP {σ : Type} (E : Env σ) (fuel : ℕ) (P : Qp σ) (c : Cache σ) : Option (Cache σ × Ret) :=
  (optimize E fuel { c with lo := clipLo P.lo, up := clipUp P.up, useWarm := true, m0de := E.mode }).map fun c => (c, retOf c.ifail)

/-- `markHotStart` (cpp:489-587). -/
def mark {σ : Type} (E : Env σ) (c : Cache σ) : Cache σ := { c with hot := some c.st, next := E.freq }

/-- `QpBranchingSolver` with filterSQP: the cache of its QP solver and `first_solve_`. -/
structure Sb (σ : Type) where
  cache : Cache σ
  first : Bool

/-- `QpBranchingSolver::markHotStart` (BonQpBranchingSolver.cpp:50-82). -/
def sbMark {σ : Type} (E : Env σ) (fuel : ℕ) (p : ℕ) (P : Qp σ) (fill : ℚ) : Option (Sb σ) :=
  (optimizeTNLP E fuel p P fill none).map fun r => if r.2 = .solvedOptimal then ⟨mark E r.1, false⟩ else ⟨r.1, true⟩

/-- `QpBranchingSolver::solveFromHotStart` (BonQpBranchingSolver.cpp:96-116). -/
def sbSolve {σ : Type} (E : Env σ) (fuel : ℕ) (p : ℕ) (P : Qp σ) (s : Sb σ) : Option (Sb σ × Ret) :=
  (if s.first then optimizeTNLP E fuel p P s.cache.fill (some s.cache) else reoptimizeTNLP E fuel P s.cache).map fun r =>
    (⟨r.1, if r.2 = .solvedOptimal then false else s.first⟩, r.2)

/-- Several candidates one after the other: the bounds of each, and the statuses. -/
def sbRun {σ : Type} (E : Env σ) (fuel : ℕ) (p : ℕ) (init : σ) : List (List ℚ × List ℚ) → Sb σ → Option (Sb σ × List Ret)
  | [], s => some (s, [])
  | b :: bs, s => (sbSolve E fuel p ⟨init, b.1, b.2⟩ s).bind fun r => (sbRun E fuel p init bs r.1).map fun q => (q.1, r.2 :: q.2)

/-! ## Results -/

/-- C86: which codes of bqpd give which status. -/
theorem qp_status_exact (i : ℤ) : (retOf i = .solvedOptimal ↔ i = 0) ∧ (retOf i = .provenInfeasible ↔ 1 ≤ i ∧ i ≤ 3) ∧ (retOf i = .exception ↔ i < 0 ∨ 4 ≤ i) ∧ retOf i ≠ .unbounded := by
  unfold retOf
  refine ⟨?_, ?_, ?_, ?_⟩ <;> split_ifs with h1 h2 <;> simp only [reduceCtorEq, false_iff, true_iff, not_false_eq_true, ne_eq] <;> omega

/-- C86, refuted for unbounded QPs: code 1 (unbounded, cpp:444-446) is returned as proven infeasible. -/
theorem qp_unbounded_is_infeasible : retOf 1 = .provenInfeasible := by decide

/-- The next reinitialisation: the first of `next`, `next + freq`, … that is at least the number of pivots. -/
theorem bump_spec (freq pivots next : ℤ) (h : 0 < freq) (hn : next < pivots) :
    pivots ≤ bump freq pivots next ∧ bump freq pivots next < pivots + freq ∧ freq ∣ bump freq pivots next - next := by
  unfold bump
  suffices ∀ (k : ℕ) (nx : ℤ), pivots - nx ≤ k → nx < pivots + freq →
      pivots ≤ bumpLoop freq pivots k nx ∧ bumpLoop freq pivots k nx < pivots + freq ∧ freq ∣ bumpLoop freq pivots k nx - nx from
    this _ next (by omega) (by omega)
  intro k
  induction k with
  | zero => intro nx h1 h2; simp only [bumpLoop]; exact ⟨by push_cast at h1; omega, h2, by simp⟩
  | succ k ih =>
    intro nx h1 h2
    simp only [bumpLoop]
    split_ifs with hc
    · obtain ⟨a, b, c⟩ := ih (nx + freq) (by push_cast at h1; omega) (by omega)
      refine ⟨a, b, ?_⟩
      have e : bumpLoop freq pivots k (nx + freq) - nx = (bumpLoop freq pivots k (nx + freq) - (nx + freq)) + freq := by ring
      rw [e]
      exact dvd_add c (dvd_refl _)
    · exact ⟨by omega, h2, by simp⟩

/-- With frequency 0 nothing changes. -/
theorem bump_zero (pivots next : ℤ) : bump 0 pivots next = next := by
  unfold bump
  cases (pivots - next).toNat <;> simp [bumpLoop]

theorem loop7_not7 {σ : Type} (E : Env σ) (fuel : ℕ) (c c' : Cache σ) (h : loop7 E fuel c = some c') : c'.ifail ≠ 7 := by
  induction fuel generalizing c with
  | zero => simp only [loop7] at h; split_ifs at h with h1; simp only [Option.some.injEq] at h; exact h ▸ h1
  | succ k ih =>
    simp only [loop7] at h
    split_ifs at h with h1
    · exact ih _ h
    · simp only [Option.some.injEq] at h; exact h ▸ h1

theorem loop7_fill {σ : Type} (E : Env σ) (fuel : ℕ) (c c' : Cache σ) (h : loop7 E fuel c = some c') : ∃ k : ℕ, c'.fill = c.fill * 2 ^ k ∧ (k = 0 ↔ c.ifail ≠ 7) := by
  induction fuel generalizing c with
  | zero => simp only [loop7] at h; split_ifs at h with h1; simp only [Option.some.injEq] at h; exact ⟨0, by rw [← h]; ring, by simp [h1]⟩
  | succ n ih =>
    simp only [loop7] at h
    split_ifs at h with h1
    · obtain ⟨k, hk, -⟩ := ih _ h
      refine ⟨k + 1, ?_, by simp [h1]⟩
      rw [hk]
      simp only [call]
      ring
    · simp only [Option.some.injEq] at h; exact ⟨0, by rw [← h]; ring, by simp [h1]⟩

/-- C86: a solve that comes back never leaves code 7 (too little workspace), and the fill-in factor only grows, by powers of two. -/
theorem qp_workspace {σ : Type} (E : Env σ) (fuel : ℕ) (c c' : Cache σ) (h : optimize E fuel c = some c') : c'.ifail ≠ 7 ∧ ∃ k : ℕ, c'.fill = c.fill * 2 ^ k := by
  have hp : (prepare E c).fill = c.fill := by
    unfold prepare
    by_cases hw : c.useWarm ∧ ¬ c.bad
    · rw [if_pos hw]
      cases c.hot with
      | none => rfl
      | some h => dsimp only; split_ifs <;> rfl
    · rw [if_neg hw]
  have hh : ∀ c : Cache σ, (retryHot E c).fill = c.fill := by
    intro c
    unfold retryHot
    cases c.hot with
    | none => rfl
    | some h => dsimp only; split_ifs <;> rfl
  have hc : ∀ c : Cache σ, (retryCold E c).fill = c.fill := by
    intro c; unfold retryCold; split_ifs <;> rfl
  unfold optimize at h
  dsimp only at h
  rw [Option.map_eq_some_iff] at h
  obtain ⟨d, hd, rfl⟩ := h
  have h7 := loop7_not7 E fuel _ _ hd
  obtain ⟨k, hk, -⟩ := loop7_fill E fuel _ _ hd
  rw [hc, hh] at hk
  simp only [call, hp] at hk
  constructor
  · split_ifs <;> exact h7
  · exact ⟨k, by split_ifs <;> exact hk⟩

/-- More fuel does not change an answer. -/
theorem qp_fuel {σ : Type} (E : Env σ) (fuel k : ℕ) (c c' : Cache σ) (h : optimize E fuel c = some c') : optimize E (fuel + k) c = some c' := by
  have key : ∀ (n : ℕ) (c c' : Cache σ), loop7 E n c = some c' → loop7 E (n + k) c = some c' := by
    intro n
    induction n with
    | zero =>
      intro c c' h
      simp only [loop7] at h
      split_ifs at h with h1
      cases k with
      | zero => simp only [loop7]; rw [if_neg h1]; exact h
      | succ k => rw [Nat.zero_add]; simp only [loop7]; rw [if_neg h1]; exact h
    | succ n ih =>
      intro c c' h
      rw [Nat.add_right_comm]
      simp only [loop7] at h ⊢
      split_ifs at h ⊢ with h1
      · exact ih _ _ h
      · exact h
  unfold optimize at h ⊢
  dsimp only at h ⊢
  rw [Option.map_eq_some_iff] at h ⊢
  obtain ⟨d, hd, rfl⟩ := h
  exact ⟨d, key _ _ _ hd, rfl⟩

/-- A code that asks for no retry. -/
def Plain (i : ℤ) : Prop := i ≠ 7 ∧ i ≠ 8

theorem optimize_plain {σ : Type} (E : Env σ) (fuel : ℕ) (c : Cache σ)
    (h : Plain (E.solve (prepare E c).m0de (prepare E c).lo (prepare E c).up (prepare E c).fill (prepare E c).st).1) :
    optimize E fuel c = some { (call E (prepare E c)).1 with pivots := (call E (prepare E c)).1.pivots + (call E (prepare E c)).2 } := by
  obtain ⟨h7, h8⟩ := h
  have hi : (call E (prepare E c)).1.ifail ≠ 7 ∧ (call E (prepare E c)).1.ifail ≠ 8 := ⟨h7, h8⟩
  unfold optimize
  dsimp only
  have e1 : retryHot E { (call E (prepare E c)).1 with pivots := (call E (prepare E c)).1.pivots + (call E (prepare E c)).2 } =
      { (call E (prepare E c)).1 with pivots := (call E (prepare E c)).1.pivots + (call E (prepare E c)).2 } := by
    unfold retryHot
    dsimp only
    split
    · rw [if_neg]; rintro ⟨-, h | h, -⟩
      · exact hi.1 h
      · exact hi.2 h
    · rfl
  have e2 : retryCold E { (call E (prepare E c)).1 with pivots := (call E (prepare E c)).1.pivots + (call E (prepare E c)).2 } =
      { (call E (prepare E c)).1 with pivots := (call E (prepare E c)).1.pivots + (call E (prepare E c)).2 } := by
    unfold retryCold
    rw [if_neg]; rintro ⟨h, -⟩; exact hi.2 h
  rw [e1, e2]
  have e3 : loop7 E fuel { (call E (prepare E c)).1 with pivots := (call E (prepare E c)).1.pivots + (call E (prepare E c)).2 } =
      some { (call E (prepare E c)).1 with pivots := (call E (prepare E c)).1.pivots + (call E (prepare E c)).2 } := by
    cases fuel <;> simp only [loop7] <;> rw [if_neg] <;> exact hi.1
  rw [e3]
  simp only [Option.map_some]
  rw [if_neg hi.2]

/-- C86: after a hot start has been marked (with `reinit_freq` 0, the default) and some pivots were made, every candidate is solved in the hot-start mode from the marked arrays, with its
own bounds: the statuses do not depend on the order or number of the candidates. -/
theorem candidates_independent {σ : Type} (E : Env σ) (fuel p : ℕ) (init hotSt : σ) (cands : List (List ℚ × List ℚ)) (s : Sb σ)
    (hfreq : E.freq = 0) (hfirst : s.first = false) (hhot : s.cache.hot = some hotSt) (hnext : s.cache.next = 0) (hpiv : 0 < s.cache.pivots) (hbad : s.cache.bad = false)
    (hpos : ∀ m l u f t, 0 ≤ (E.solve m l u f t).2.1)
    (hplain : ∀ b ∈ cands, Plain (E.solve E.mode (clipLo b.1) (clipUp b.2) s.cache.fill hotSt).1) :
    ∃ s', sbRun E fuel p init cands s = some (s', cands.map fun b => retOf (E.solve E.mode (clipLo b.1) (clipUp b.2) s.cache.fill hotSt).1) ∧
      s'.cache.calls = (cands.map fun b => (E.mode, clipLo b.1, clipUp b.2, hotSt)).reverse ++ s.cache.calls := by
  induction cands generalizing s with
  | nil => exact ⟨s, rfl, rfl⟩
  | cons b bs ih =>
    set c0 : Cache σ := { s.cache with lo := clipLo b.1, up := clipUp b.2, useWarm := true, m0de := E.mode } with hc0
    have hprep : prepare E c0 = { c0 with useWarm := false, st := hotSt, next := bump E.freq c0.pivots c0.next } := by
      unfold prepare
      rw [if_pos ⟨rfl, by simp [hc0, hbad]⟩]
      simp only [hc0, hhot]
      rw [if_pos (by rw [hnext]; exact hpiv)]
    have hpl : Plain (E.solve (prepare E c0).m0de (prepare E c0).lo (prepare E c0).up (prepare E c0).fill (prepare E c0).st).1 := by
      rw [hprep]
      exact hplain b List.mem_cons_self
    have hopt := optimize_plain E fuel c0 hpl
    have hstep : sbSolve E fuel p ⟨init, b.1, b.2⟩ s = some (⟨{ (call E (prepare E c0)).1 with pivots := (call E (prepare E c0)).1.pivots + (call E (prepare E c0)).2 }, false⟩,
        retOf (E.solve E.mode (clipLo b.1) (clipUp b.2) s.cache.fill hotSt).1) := by
      unfold sbSolve
      simp only [hfirst, Bool.false_eq_true, if_false, reoptimizeTNLP]
      rw [← hc0, hopt]
      simp only [Option.map_some, ite_self]
      rw [hprep]
      rfl
    obtain ⟨s', h1, h2⟩ := ih ⟨{ (call E (prepare E c0)).1 with pivots := (call E (prepare E c0)).1.pivots + (call E (prepare E c0)).2 }, false⟩ rfl
      (by rw [hprep]; exact hhot) (by rw [hprep]; simp only [call, hfreq, bump_zero]; exact hnext)
      (by
        have hnn := hpos c0.m0de c0.lo c0.up c0.fill hotSt
        rw [hprep]
        simp only [call]
        exact lt_of_lt_of_le hpiv (le_add_of_nonneg_right hnn))
      (by rw [hprep]; exact hbad)
      (by
        intro b' hb'
        rw [hprep]
        exact hplain b' (List.mem_cons_of_mem _ hb'))
    refine ⟨s', ?_, ?_⟩
    · simp only [sbRun, hstep, Option.bind_some, h1, Option.map_some, List.map_cons]
      rw [hprep]
      rfl
    · rw [h2, hprep]
      simp only [call, List.map_cons, List.reverse_cons, List.append_assoc, List.singleton_append]
      rfl

/-- C86: after a failure with code 8 the next solve is a cold one, from the starting point. -/
theorem bad_then_cold {σ : Type} (E : Env σ) (c : Cache σ) (h : c.bad = true) : (prepare E c).m0de = 0 ∧ (prepare E c).st = E.start c.st ∧ (prepare E c).bad = false := by
  unfold prepare
  rw [if_neg (by simp [h])]
  exact ⟨rfl, rfl, rfl⟩

/-- C86: code 8 is remembered. -/
theorem code8_remembered {σ : Type} (E : Env σ) (fuel : ℕ) (c c' : Cache σ) (h : optimize E fuel c = some c') (h8 : c'.ifail = 8) : c'.bad = true := by
  unfold optimize at h
  dsimp only at h
  rw [Option.map_eq_some_iff] at h
  obtain ⟨d, -, rfl⟩ := h
  split_ifs at h8 ⊢ with hd
  · rfl
  · exact absurd h8 hd

/-- Arrays are the name of the problem they belong to; bqpd fails with 8 in the hot-start mode with upper bound 3, otherwise it solves. -/
def exEnv : Env ℕ := ⟨0, 4, id, id, fun m _ u _ s => if m = 4 ∧ u = [3] then (8, 0, s) else (0, 1, s)⟩

/-- A solver that fails on a hot start, solves again cold, and is then given another problem (2 instead of 1, with other bounds). -/
def exStale : Option (ℕ × List ℚ × ℕ) :=
  (optimizeTNLP exEnv 1 1 ⟨1, [0], [2]⟩ 4 none).bind fun r =>
  (reoptimizeTNLP exEnv 1 ⟨1, [0], [3]⟩ r.1).bind fun r =>
  (reoptimizeTNLP exEnv 1 ⟨1, [0], [2]⟩ r.1).bind fun r =>
  (optimizeTNLP exEnv 1 2 ⟨2, [5], [7]⟩ 4 (some r.1)).map fun r => (r.1.prob, r.1.up, r.1.st)

/-- C86, refuted: the flag is not cleared by the cold solve, so the cache of the old problem is kept and problem 1 is solved once more instead of problem 2. -/
theorem stale_problem_solved : exStale = some (1, [2], 1) := by decide +kernel

/-- The flag after a solve: set exactly if it was set and the solve was forced to be cold. -/
theorem flag_after {σ : Type} (E : Env σ) (fuel : ℕ) (c c' : Cache σ) (h : optimize E fuel c = some c') : c'.useWarm = (c.useWarm && c.bad) := by
  have hp : (prepare E c).useWarm = (c.useWarm && c.bad) := by
    unfold prepare
    cases hu : c.useWarm <;> cases hb : c.bad <;> simp
    cases c.hot with
    | none => rfl
    | some h => dsimp only; split_ifs <;> rfl
  have hl : ∀ (n : ℕ) (c c' : Cache σ), loop7 E n c = some c' → c'.useWarm = c.useWarm := by
    intro n
    induction n with
    | zero => intro c c' h; simp only [loop7] at h; split_ifs at h; simp only [Option.some.injEq] at h; rw [← h]
    | succ n ih =>
      intro c c' h
      simp only [loop7] at h
      split_ifs at h
      · rw [ih _ _ h]; rfl
      · simp only [Option.some.injEq] at h; rw [← h]
  unfold optimize at h
  dsimp only at h
  rw [Option.map_eq_some_iff] at h
  obtain ⟨d, hd, rfl⟩ := h
  have := hl _ _ _ hd
  have hh : ∀ c : Cache σ, (retryHot E c).useWarm = c.useWarm := by
    intro c; unfold retryHot
    cases c.hot with
    | none => rfl
    | some h => dsimp only; split_ifs <;> rfl
  have hc : ∀ c : Cache σ, (retryCold E c).useWarm = c.useWarm := by
    intro c; unfold retryCold; split_ifs <;> rfl
  rw [hc, hh] at this
  simp only [call] at this
  split_ifs <;> rw [← hp, ← this]

/-- C86: a solve of a given problem uses that problem unless the last one was forced to be cold. -/
theorem optimize_given_partial {σ : Type} (E : Env σ) (fuel p : ℕ) (P : Qp σ) (fill : ℚ) (c : Option (Cache σ)) (h : ∀ d, c = some d → d.useWarm = false) :
    optimizeTNLP E fuel p P fill c = (optimize E fuel ⟨p, clipLo P.lo, clipUp P.up, P.init, none, false, false, 0, 0, 0, fill, 0, []⟩).map fun c => (c, retOf c.ifail) := by
  unfold optimizeTNLP
  cases c with
  | none => rfl
  | some d => simp only [h d rfl, Bool.false_eq_true, if_false]; rfl

/-- C86: a repeated solve always works on the present bounds. -/
theorem reoptimize_bounds {σ : Type} (E : Env σ) (c : Cache σ) (P : Qp σ) :
    (prepare E { c with lo := clipLo P.lo, up := clipUp P.up, useWarm := true, m0de := E.mode }).lo = clipLo P.lo ∧
    (prepare E { c with lo := clipLo P.lo, up := clipUp P.up, useWarm := true, m0de := E.mode }).up = clipUp P.up := by
  unfold prepare
  dsimp only
  by_cases hw : true = true ∧ ¬ c.bad = true
  · rw [if_pos hw]
    cases c.hot with
    | none => exact ⟨rfl, rfl⟩
    | some h => dsimp only; split_ifs <;> exact ⟨rfl, rfl⟩
  · rw [if_neg hw]; exact ⟨rfl, rfl⟩

/-- Cutting the bounds keeps every point with entries up to 1e50. -/
theorem clip_points (l u x : List ℚ) (hx : ∀ v ∈ x, -(10 ^ 50) ≤ v ∧ v ≤ 10 ^ 50) :
    (List.Forall₂ (· ≤ ·) (clipLo l) x ↔ List.Forall₂ (· ≤ ·) l x) ∧ (List.Forall₂ (· ≤ ·) x (clipUp u) ↔ List.Forall₂ (· ≤ ·) x u) := by
  induction x generalizing l u with
  | nil =>
    constructor
    · cases l with
      | nil => rfl
      | cons a l => exact ⟨fun h => (by simp only [clipLo, List.map_cons] at h; cases h), fun h => (by cases h)⟩
    · cases u with
      | nil => rfl
      | cons a u => exact ⟨fun h => (by simp only [clipUp, List.map_cons] at h; cases h), fun h => (by cases h)⟩
  | cons v x ih =>
    have hv := hx v List.mem_cons_self
    have hx' := fun w hw => hx w (List.mem_cons_of_mem _ hw)
    constructor
    · cases l with
      | nil => simp [clipLo]
      | cons a l =>
        have := (ih l [] hx').1
        simp only [clipLo, List.map_cons, List.forall₂_cons, max_le_iff] at this ⊢
        rw [this]
        exact ⟨fun h => ⟨h.1.1, h.2⟩, fun h => ⟨⟨h.1, hv.1⟩, h.2⟩⟩
    · cases u with
      | nil => simp [clipUp]
      | cons a u =>
        have := (ih [] u hx').2
        simp only [clipUp, List.map_cons, List.forall₂_cons, le_min_iff] at this ⊢
        rw [this]
        exact ⟨fun h => ⟨h.1.1, h.2⟩, fun h => ⟨⟨h.1, hv.2⟩, h.2⟩⟩

/-- C86: `markHotStart` marks exactly if the QP with the node's bounds is solved. -/
theorem sbMark_exact {σ : Type} (E : Env σ) (fuel p : ℕ) (P : Qp σ) (fill : ℚ) (s : Sb σ) (h : sbMark E fuel p P fill = some s) :
    ∃ c, optimize E fuel (fresh p P fill) = some c ∧ (c.ifail = 0 → s.first = false ∧ s.cache.hot = some c.st ∧ s.cache.next = E.freq ∧ s.cache.pivots = c.pivots) ∧
      (c.ifail ≠ 0 → s.first = true ∧ s.cache = c) := by
  unfold sbMark optimizeTNLP at h
  rw [Option.map_map, Option.map_eq_some_iff] at h
  obtain ⟨c, hc, rfl⟩ := h
  refine ⟨c, hc, fun h0 => ?_, fun h0 => ?_⟩
  · simp [retOf, h0, mark]
  · have : retOf c.ifail ≠ .solvedOptimal := fun hh => h0 ((qp_status_exact _).1.mp hh)
    simp [this]

/-- A hot start: three candidates with upper bounds 1, 2 and 1 after a root QP with one pivot; the arrays count the solves made on them. -/
def exHot : Env ℕ := ⟨0, 6, id, id, fun _ _ u _ s => (if u = [2] then 2 else 0, 1, s + 1)⟩
example : ((sbMark exHot 1 1 ⟨0, [0], [5]⟩ 4).bind fun s => sbRun exHot 1 1 0 [([0], [1]), ([0], [2]), ([0], [1])] s).map (fun r => (r.2, r.1.cache.calls.map fun c => c.2.2.2)) =
    some ([.solvedOptimal, .provenInfeasible, .solvedOptimal], [1, 1, 1, 0]) := by decide +kernel
example : bump 10 35 10 = 40 := by decide

/-- With an unbounded QP the candidate is reported infeasible (and strong branching then closes the branch). -/
theorem candidate_unbounded_closed :
    ((sbMark (⟨0, 6, id, id, fun _ _ u _ s => (if u = [2] then 1 else 0, 1, s)⟩ : Env ℕ) 1 1 ⟨0, [0], [5]⟩ 4).bind fun s =>
      sbRun (⟨0, 6, id, id, fun _ _ u _ s => (if u = [2] then 1 else 0, 1, s)⟩ : Env ℕ) 1 1 0 [([0], [2])] s).map (·.2) = some [.provenInfeasible] := by decide +kernel

/-- C86: the first solve of a QP, if bqpd asks for no retry: one call in mode 0 with the problem's bounds, from its starting point; no hot start is marked, the pivots counted are those of this
call, the warm-start data are not bad. -/
theorem first_solve_exact {σ : Type} (E : Env σ) (fuel p : ℕ) (P : Qp σ) (fill : ℚ) (i v : ℤ) (t : σ)
    (hs : E.solve 0 (clipLo P.lo) (clipUp P.up) fill (E.start P.init) = (i, v, t)) (h : Plain i) :
    ∃ c, optimize E fuel (fresh p P fill) = some c ∧ c.ifail = i ∧ c.pivots = v ∧ c.st = t ∧ c.hot = none ∧ c.m0de = 0 ∧ c.fill = fill ∧ c.bad = false ∧ c.useWarm = false ∧
      c.prob = p ∧ c.lo = clipLo P.lo ∧ c.up = clipUp P.up ∧ c.calls = [(0, clipLo P.lo, clipUp P.up, E.start P.init)] := by
  have hp : prepare E (fresh p P fill) = { fresh p P fill with m0de := 0, st := E.start P.init, bad := false } := by
    simp only [prepare, fresh, Bool.false_eq_true, false_and, if_false]
  refine ⟨_, optimize_plain E fuel _ (by rw [hp]; simp only [fresh]; rw [hs]; exact h), ?_⟩
  rw [hp]
  simp only [call, fresh, hs, zero_add, and_self]

/-- C86: code 8 with `hot_start_m0de` 6 and no reinitialisation of hot starts: bqpd is called a second time, in mode 0 and from the starting point, and its second answer is the result. -/
theorem retry_cold_exact {σ : Type} (E : Env σ) (fuel : ℕ) (c : Cache σ) (v w i : ℤ) (t t' : σ) (hf : E.freq ≤ 0) (hm : E.mode = 6)
    (hs : E.solve (prepare E c).m0de (prepare E c).lo (prepare E c).up (prepare E c).fill (prepare E c).st = (8, v, t))
    (hs' : E.solve 0 (prepare E c).lo (prepare E c).up (prepare E c).fill (E.start t) = (i, w, t')) (h : i ≠ 7) :
    ∃ c', optimize E fuel c = some c' ∧ c'.ifail = i ∧ c'.m0de = 0 ∧ c'.st = t' ∧ c'.pivots = (prepare E c).pivots + v ∧ (i ≠ 8 → c'.bad = (prepare E c).bad) ∧ (i = 8 → c'.bad = true) ∧
      c'.calls = (0, (prepare E c).lo, (prepare E c).up, E.start t) :: ((prepare E c).m0de, (prepare E c).lo, (prepare E c).up, (prepare E c).st) :: (prepare E c).calls := by
  have e1 : ∀ d : Cache σ, retryHot E d = d := by
    intro d
    unfold retryHot
    split
    · rw [if_neg]; rintro ⟨h, -⟩; omega
    · rfl
  unfold optimize
  dsimp only
  rw [e1]
  generalize prepare E c = d at *
  have e2 : retryCold E { (call E d).1 with pivots := (call E d).1.pivots + (call E d).2 } =
      { d with ifail := i, m0de := 0, st := t', pivots := d.pivots + v, calls := (0, d.lo, d.up, E.start t) :: (d.m0de, d.lo, d.up, d.st) :: d.calls } := by
    unfold retryCold
    rw [if_pos ⟨by simp only [call, hs], hm⟩]
    simp only [call, hs, hs']
  rw [e2]
  have e3 : ∀ e : Cache σ, e.ifail ≠ 7 → loop7 E fuel e = some e := by
    intro e he
    cases fuel <;> simp only [loop7, if_neg he]
  rw [e3 _ h]
  simp only [Option.map_some, Option.some.injEq, exists_eq_left']
  by_cases h8 : i = 8
  · simp [h8]
  · simp [h8]

/-- C86: code 7 or 8 in mode 6 with reinitialisation switched on and a hot start marked: bqpd is called a second time in the same mode from the marked arrays, and its answer is the result
unless it asks again for a retry. -/
theorem retry_hot_exact {σ : Type} (E : Env σ) (fuel : ℕ) (c : Cache σ) (j v w i : ℤ) (t t' hotSt : σ) (hf : 0 < E.freq) (hj : j = 7 ∨ j = 8)
    (hh : (prepare E c).hot = some hotSt) (hm : (prepare E c).m0de = 6)
    (hs : E.solve 6 (prepare E c).lo (prepare E c).up (prepare E c).fill (prepare E c).st = (j, v, t))
    (hs' : E.solve 6 (prepare E c).lo (prepare E c).up (prepare E c).fill hotSt = (i, w, t')) (h : Plain i) :
    ∃ c', optimize E fuel c = some c' ∧ c'.ifail = i ∧ c'.m0de = 6 ∧ c'.st = t' ∧ c'.hot = some hotSt ∧ c'.pivots = (prepare E c).pivots + v ∧ c'.bad = (prepare E c).bad ∧
      c'.calls = (6, (prepare E c).lo, (prepare E c).up, hotSt) :: (6, (prepare E c).lo, (prepare E c).up, (prepare E c).st) :: (prepare E c).calls := by
  unfold optimize
  dsimp only
  generalize prepare E c = d at *
  have e2 : retryHot E { (call E d).1 with pivots := (call E d).1.pivots + (call E d).2 } =
      { d with ifail := i, st := t', pivots := d.pivots + v, calls := (6, d.lo, d.up, hotSt) :: (6, d.lo, d.up, d.st) :: d.calls } := by
    unfold retryHot
    simp only [call, hh, hm, hs]
    rw [if_pos ⟨hf, hj, trivial⟩]
    simp only [hs']
  rw [e2]
  have e4 : ∀ e : Cache σ, e.ifail ≠ 8 → retryCold E e = e := by
    intro e he
    unfold retryCold
    rw [if_neg]; rintro ⟨h, -⟩; exact he h
  have e3 : ∀ e : Cache σ, e.ifail ≠ 7 → loop7 E fuel e = some e := by
    intro e he
    cases fuel <;> simp only [loop7, if_neg he]
  rw [e4 _ h.2, e3 _ h.1]
  simp only [Option.map_some, Option.some.injEq, exists_eq_left']
  simp [h.2, hm, hh]

/-- C86: code 8 is final if neither retry applies: there is one call, and the warm-start data are marked bad. -/
theorem no_retry_exact {σ : Type} (E : Env σ) (fuel : ℕ) (c : Cache σ) (v : ℤ) (t : σ) (hm : E.mode ≠ 6)
    (hno : E.freq ≤ 0 ∨ (prepare E c).hot = none ∨ (prepare E c).m0de ≠ 6)
    (hs : E.solve (prepare E c).m0de (prepare E c).lo (prepare E c).up (prepare E c).fill (prepare E c).st = (8, v, t)) :
    ∃ c', optimize E fuel c = some c' ∧ c'.ifail = 8 ∧ c'.bad = true ∧ c'.st = t ∧ c'.m0de = (prepare E c).m0de ∧
      c'.calls = ((prepare E c).m0de, (prepare E c).lo, (prepare E c).up, (prepare E c).st) :: (prepare E c).calls := by
  unfold optimize
  dsimp only
  generalize prepare E c = d at *
  have e1 : ∀ e : Cache σ, e.hot = d.hot → e.m0de = d.m0de → retryHot E e = e := by
    intro e he1 he2
    unfold retryHot
    split
    · rename_i hh
      rw [if_neg]
      rintro ⟨h1, -, h2⟩
      rcases hno with h | h | h
      · omega
      · rw [← he1, hh] at h; exact absurd h (by simp)
      · exact h (he2 ▸ h2)
    · rfl
  have e4 : ∀ e : Cache σ, retryCold E e = e := by
    intro e
    unfold retryCold
    rw [if_neg]; rintro ⟨-, h⟩; exact hm h
  have e3 : ∀ e : Cache σ, e.ifail ≠ 7 → loop7 E fuel e = some e := by
    intro e he
    cases fuel <;> simp only [loop7, if_neg he]
  rw [e1 { (call E d).1 with pivots := (call E d).1.pivots + (call E d).2 } rfl rfl, e4, e3 _ (by simp only [call, hs]; norm_num)]
  simp [call, hs]

/-- C86: a candidate that is solved before any node problem was leads to hot starts afterwards; a failed one does not; hot starting is not given up later. -/
theorem sbSolve_first {σ : Type} (E : Env σ) (fuel p : ℕ) (P : Qp σ) (s s' : Sb σ) (r : Ret) (h : sbSolve E fuel p P s = some (s', r)) :
    (s'.first = true ↔ s.first = true ∧ r ≠ .solvedOptimal) ∧ r = retOf s'.cache.ifail := by
  have hr : ∀ (o : Option (Cache σ × Ret)), (∀ q, o = some q → q.2 = retOf q.1.ifail) →
      o.map (fun r => ((⟨r.1, if r.2 = .solvedOptimal then false else s.first⟩ : Sb σ), r.2)) = some (s', r) →
      (s'.first = true ↔ s.first = true ∧ r ≠ .solvedOptimal) ∧ r = retOf s'.cache.ifail := by
    intro o ho h
    rw [Option.map_eq_some_iff] at h
    obtain ⟨q, hq, he⟩ := h
    have := ho q hq
    cases he
    refine ⟨?_, this⟩
    by_cases h0 : q.2 = .solvedOptimal
    · simp [h0]
    · simp [h0]
  unfold sbSolve at h
  refine hr _ ?_ h
  intro q hq
  split_ifs at hq
  · unfold optimizeTNLP at hq
    rw [Option.map_eq_some_iff] at hq
    obtain ⟨a, -, rfl⟩ := hq; rfl
  · unfold reoptimizeTNLP at hq
    rw [Option.map_eq_some_iff] at hq
    obtain ⟨a, -, rfl⟩ := hq; rfl

/-- Code 8 in the hot-start mode, solved when started again: cold with reinitialisation off, from the marked arrays with it on. -/
def exRetry (freq : ℤ) : Env ℕ := ⟨freq, 6, fun _ => 100, id, fun m _ _ _ s => (if m = 6 ∧ s ≠ 0 then 8 else 0, 1, s + 1)⟩
example : (optimize (exRetry 0) 3 ⟨1, [0], [1], 5, some 0, true, false, 0, 0, 6, 4, 0, []⟩).map (fun c => (c.ifail, c.m0de, c.calls.map (·.2.2.2))) = some (0, 0, [100, 5]) := by decide +kernel
example : (optimize (exRetry 9) 3 ⟨1, [0], [1], 5, some 0, true, false, 0, 0, 6, 4, 0, []⟩).map (fun c => (c.ifail, c.m0de, c.calls.map (·.2.2.2))) = some (0, 6, [0, 5]) := by decide +kernel

end Verif.Slv.Bqpd

import Verif.Heur.DiveProps
import Verif.Fp.Props

/-!
# C37, C57: heuristics that solve a smaller problem by branch and bound

`HeuristicRINS` (BonHeuristicRINS.cpp), `HeuristicLocalBranching` (BonHeuristicLocalBranching.cpp), `FixAndSolveHeuristic` (BonFixAndSolveHeuristic.cpp), all in
src/CbcBonmin/Heuristics, on top of `LocalSolverBasedHeuristic::doLocalSearch` (BonLocalSolverBasedHeuristic.cpp:90-108).  The branch and bound on the smaller problem is an
oracle: it answers with a point and a value, or with nothing; `doLocalSearch` passes that answer on and returns 1 exactly when there is one.
-/
namespace Verif.Heur

/-! ### RINS -/

/-- The members that change (`howOften_`, `numberSolutions_`). -/
structure Rins where
  howOften : Int
  numSol : Int
deriving DecidableEq, Repr

/-- Constructors (20-30). -/
def Rins.new : Rins := ⟨10, 0⟩

/-- What a call reads: node count, solution count, incumbent, point and bounds of the node, the integer columns with their original bounds
(`getIntegerInformation`), the tolerance, and the branch and bound. -/
structure RinsIn where
  node : Int
  count : Int
  best : Option (Nat → ℚ)
  cur : Nat → ℚ
  b : Bnds
  ints : List Nat
  orig : Bnds
  tol : ℚ
  search : Bnds → Option ((Nat → ℚ) × ℚ)

/-- `valueInt` (84-89). -/
def clamp (lo up v : ℚ) : ℚ := if v < lo then lo else if up < v then up else v

/-- One column of the fixing loop (77-96). -/
def rinsFix1 (i : RinsIn) (best : Nat → ℚ) (s : Bnds × Nat) (c : Nat) : Bnds × Nat :=
  if |i.cur c - clamp (i.orig.lo c) (i.orig.up c) (best c)| < 10 * i.tol then
    ((s.1.setLo c ⌊clamp (i.orig.lo c) (i.orig.up c) (best c) + 1 / 2⌋).setUp c ⌊clamp (i.orig.lo c) (i.orig.up c) (best c) + 1 / 2⌋, s.2 + 1)
  else s

/-- The loop: bounds of the smaller problem and `nFix`. -/
def rinsFix (i : RinsIn) (best : Nat → ℚ) : Bnds × Nat := i.ints.foldl (rinsFix1 i best) (i.b, 0)

/-- The end of `solution` (108-116): `ns` is `numberSolutions_` after line 108, `r` the answer. -/
def rinsEnd (h count ns : Int) (r : Option ((Nat → ℚ) × ℚ)) : Rins × Option ((Nat → ℚ) × ℚ) :=
  match r with
  | some y => (⟨max 10 (h.tdiv 2), count + 1⟩, some y)
  | none => (⟨min 10000 (2 * h), ns⟩, none)

/-- `solution` (43-117). -/
def rinsCall (s : Rins) (i : RinsIn) : Rins × Option ((Nat → ℚ) × ℚ) :=
  if s.howOften = 0 ∨ i.node.tmod s.howOften ≠ 0 then (s, none)
  else match i.best with
    | none => (⟨s.howOften, i.count⟩, none)
    | some best =>
      if i.ints.length / 10 < (rinsFix i best).2 then rinsEnd s.howOften i.count i.count (i.search (rinsFix i best).1)
      else rinsEnd s.howOften i.count (i.count - 1) none

/-- A history of calls. -/
def rinsRun (s : Rins) (h : List RinsIn) : Rins := h.foldl (fun s i => (rinsCall s i).1) s

theorem setBoth (b : Bnds) (c j : Nat) (v : ℚ) : ((b.setLo c v).setUp c v).lo j = (if j = c then v else b.lo j) ∧ ((b.setLo c v).setUp c v).up j = (if j = c then v else b.up j) := ⟨rfl, rfl⟩

/-- The value the incumbent contributes for a column: pulled into the original bounds. -/
def Agrees (i : RinsIn) (best : Nat → ℚ) (c : Nat) : Prop := |i.cur c - max (i.orig.lo c) (min (i.orig.up c) (best c))| < 10 * i.tol

theorem clamp_eq (lo up v : ℚ) (h : lo ≤ up) : clamp lo up v = max lo (min up v) := by
  unfold clamp
  split_ifs with h1 h2
  · rw [max_eq_left]; exact le_trans (min_le_right _ _) (le_of_lt h1)
  · rw [min_eq_left (le_of_lt h2), max_eq_right h]
  · rw [min_eq_right (not_lt.1 h2), max_eq_right (not_lt.1 h1)]

theorem fold_fix (i : RinsIn) (best : Nat → ℚ) (l : List Nat) (s : Bnds × Nat) (ho : ∀ c ∈ l, i.orig.lo c ≤ i.orig.up c) :
    (∀ c, (c ∈ l ∧ Agrees i best c → (l.foldl (rinsFix1 i best) s).1.lo c = (round (max (i.orig.lo c) (min (i.orig.up c) (best c))) : ℚ) ∧
        (l.foldl (rinsFix1 i best) s).1.up c = (round (max (i.orig.lo c) (min (i.orig.up c) (best c))) : ℚ)) ∧
      (¬ (c ∈ l ∧ Agrees i best c) → (l.foldl (rinsFix1 i best) s).1.lo c = s.1.lo c ∧ (l.foldl (rinsFix1 i best) s).1.up c = s.1.up c)) ∧
    (open Classical in (l.foldl (rinsFix1 i best) s).2 = s.2 + l.countP fun c => decide (Agrees i best c)) := by
  classical
  induction l generalizing s with
  | nil => simp
  | cons a l ih =>
    obtain ⟨ih1, ih2⟩ := ih (rinsFix1 i best s a) fun c hc => ho c (by simp [hc])
    have ha := ho a (by simp)
    simp only [List.foldl_cons]
    have hcl := clamp_eq (i.orig.lo a) (i.orig.up a) (best a) ha
    by_cases hA : Agrees i best a
    · have hA' : |i.cur a - max (i.orig.lo a) (min (i.orig.up a) (best a))| < 10 * i.tol := hA
      have he : rinsFix1 i best s a = ((s.1.setLo a (round (max (i.orig.lo a) (min (i.orig.up a) (best a))) : ℚ)).setUp a
          (round (max (i.orig.lo a) (min (i.orig.up a) (best a))) : ℚ), s.2 + 1) := by
        unfold rinsFix1
        rw [hcl, if_pos hA', round_eq]
      refine ⟨fun c => ⟨?_, ?_⟩, ?_⟩
      · rintro ⟨hc, hg⟩
        by_cases hcl' : c ∈ l
        · exact (ih1 c).1 ⟨hcl', hg⟩
        · have : c = a := by simpa [hcl'] using hc
          subst this
          have := (ih1 c).2 fun h => hcl' h.1
          rw [this.1, this.2, he]
          simp only [setBoth, if_true, and_self]
      · intro hn
        have hca : c ≠ a := fun e => hn ⟨by simp [e], e ▸ hA⟩
        have := (ih1 c).2 fun h => hn ⟨by simp [h.1], h.2⟩
        rw [this.1, this.2, he]
        simp only [setBoth, if_neg hca, and_self]
      · rw [ih2, he, List.countP_cons, if_pos (by simpa using hA)]
        simp only
        omega
    · have hA' : ¬ |i.cur a - max (i.orig.lo a) (min (i.orig.up a) (best a))| < 10 * i.tol := hA
      have he : rinsFix1 i best s a = s := by
        unfold rinsFix1
        rw [hcl, if_neg hA']
      rw [he] at ih1 ih2 ⊢
      refine ⟨fun c => ⟨?_, ?_⟩, ?_⟩
      · rintro ⟨hc, hg⟩
        have hcl' : c ∈ l := by
          rcases List.mem_cons.1 hc with h | h
          · subst h; exact absurd hg hA
          · exact h
        exact (ih1 c).1 ⟨hcl', hg⟩
      · intro hn
        exact (ih1 c).2 fun h => hn ⟨by simp [h.1], h.2⟩
      · rw [ih2, List.countP_cons, if_neg (by simpa using hA)]; omega

/-- **C37**: the neighbourhood: the integer columns on which the incumbent (pulled into the original bounds) and the point of the node agree are fixed at the rounded common value,
every other bound is that of the node; `nFix` counts them. -/
theorem rinsFix_exact (i : RinsIn) (best : Nat → ℚ) (ho : ∀ c ∈ i.ints, i.orig.lo c ≤ i.orig.up c) :
    (∀ c, (c ∈ i.ints ∧ Agrees i best c → (rinsFix i best).1.lo c = (round (max (i.orig.lo c) (min (i.orig.up c) (best c))) : ℚ) ∧
        (rinsFix i best).1.up c = (round (max (i.orig.lo c) (min (i.orig.up c) (best c))) : ℚ)) ∧
      (¬ (c ∈ i.ints ∧ Agrees i best c) → (rinsFix i best).1.lo c = i.b.lo c ∧ (rinsFix i best).1.up c = i.b.up c)) ∧
    (open Classical in (rinsFix i best).2 = i.ints.countP fun c => decide (Agrees i best c)) := by
  have h := fold_fix i best i.ints (i.b, 0) ho
  unfold rinsFix
  simpa using h

/-- **C37**: fixed values lie within the bounds of the node, for integral bounds, a point within them and a tolerance of at most 1/20. -/
theorem rinsFix_in_bounds_partial (i : RinsIn) (best : Nat → ℚ) (ho : ∀ c ∈ i.ints, i.orig.lo c ≤ i.orig.up c) (ht : 10 * i.tol ≤ 1 / 2)
    (hb : ∀ c ∈ i.ints, ∃ l u : Int, i.b.lo c = l ∧ i.b.up c = u) (hx : ∀ c ∈ i.ints, i.b.lo c ≤ i.cur c ∧ i.cur c ≤ i.b.up c) (c : Nat) (hc : c ∈ i.ints) :
    i.b.lo c ≤ (rinsFix i best).1.lo c ∧ (rinsFix i best).1.up c ≤ i.b.up c := by
  have h := (rinsFix_exact i best ho).1 c
  by_cases hA : Agrees i best c
  · obtain ⟨h1, h2⟩ := h.1 ⟨hc, hA⟩
    rw [h1, h2]
    obtain ⟨l, u, hl, hu⟩ := hb c hc
    obtain ⟨x1, x2⟩ := hx c hc
    have hA' := abs_lt.1 (show |i.cur c - max (i.orig.lo c) (min (i.orig.up c) (best c))| < 10 * i.tol from hA)
    generalize max (i.orig.lo c) (min (i.orig.up c) (best c)) = v at hA' ⊢
    rw [round_eq, hl, hu] at *
    constructor
    · have : l ≤ ⌊v + 1 / 2⌋ := Int.le_floor.2 (by linarith [hA'.2])
      exact_mod_cast this
    · have : ⌊v + 1 / 2⌋ < u + 1 := Int.floor_lt.2 (by push_cast; linarith [hA'.1])
      have : ⌊v + 1 / 2⌋ ≤ u := by omega
      exact_mod_cast this
  · obtain ⟨h1, h2⟩ := h.2 fun h => hA h.2
    rw [h1, h2]
    exact ⟨le_refl _, le_refl _⟩

/-- **C37** refuted for large tolerances: with a tolerance of 1/5 a column at 0 in a node where it is fixed at 0 is fixed at the incumbent's 1. -/
theorem rinsFix_out_of_bounds :
    let i : RinsIn := ⟨0, 1, some fun _ => 1, fun _ => 0, ⟨fun _ => 0, fun _ => 0⟩, [0], ⟨fun _ => 0, fun _ => 1⟩, 1 / 5, fun _ => none⟩
    (rinsFix i fun _ => 1).1.lo 0 = 1 ∧ i.b.up 0 = 0 := by
  decide +kernel

theorem rinsEnd_ans (h c n : Int) (r : Option ((Nat → ℚ) × ℚ)) : (rinsEnd h c n r).2 = r := by cases r <;> rfl

theorem rinsEnd_freq (h c n : Int) (r : Option ((Nat → ℚ) × ℚ)) : (rinsEnd h c n r).1.howOften = if r.isSome then max 10 (h.tdiv 2) else min 10000 (2 * h) := by cases r <;> rfl

/-- **C37**: when and how the branch and bound is called, and what is returned. -/
theorem rins_found_iff (s : Rins) (i : RinsIn) (y : (Nat → ℚ) × ℚ) :
    (rinsCall s i).2 = some y ↔ s.howOften ≠ 0 ∧ s.howOften ∣ i.node ∧ ∃ best, i.best = some best ∧ i.ints.length < 10 * (rinsFix i best).2 ∧ i.search (rinsFix i best).1 = some y := by
  unfold rinsCall
  have hd : i.node.tmod s.howOften ≠ 0 ↔ ¬ s.howOften ∣ i.node := by rw [Int.dvd_iff_tmod_eq_zero]
  by_cases hg : s.howOften = 0 ∨ i.node.tmod s.howOften ≠ 0
  · rw [if_pos hg]
    constructor
    · intro h; cases h
    · rintro ⟨h1, h2, _⟩
      rcases hg with h | h
      · exact absurd h h1
      · exact absurd h2 (hd.1 h)
  · rw [if_neg hg]
    push Not at hg
    have h2 : s.howOften ∣ i.node := Int.dvd_iff_tmod_eq_zero.2 hg.2
    cases hb : i.best with
    | none => simp
    | some best =>
      simp only [Option.some.injEq, exists_eq_left']
      have hn : i.ints.length / 10 < (rinsFix i best).2 ↔ i.ints.length < 10 * (rinsFix i best).2 := by omega
      by_cases hr : i.ints.length < 10 * (rinsFix i best).2
      · rw [if_pos (hn.2 hr)]
        rw [rinsEnd_ans]
        simp [hg.1, h2, hr]
      · rw [if_neg fun h => hr (hn.1 h), rinsEnd_ans]
        simp [hr]

/-- **C37**: how the frequency moves: it is halved (but not below 10) by a success, doubled (but not beyond 10000) by a failure, and unchanged by calls that do nothing. -/
theorem rins_howOften (s : Rins) (i : RinsIn) :
    (rinsCall s i).1.howOften =
      if s.howOften ≠ 0 ∧ s.howOften ∣ i.node ∧ i.best.isSome then (if (rinsCall s i).2.isSome then max 10 (s.howOften.tdiv 2) else min 10000 (2 * s.howOften)) else s.howOften := by
  unfold rinsCall
  by_cases hg : s.howOften = 0 ∨ i.node.tmod s.howOften ≠ 0
  · rw [if_pos hg]
    have : ¬ (s.howOften ≠ 0 ∧ s.howOften ∣ i.node ∧ i.best.isSome) := by
      rintro ⟨h1, h2, _⟩
      rcases hg with h | h
      · exact h1 h
      · exact h (Int.dvd_iff_tmod_eq_zero.1 h2)
    rw [if_neg this]
  · rw [if_neg hg]
    push Not at hg
    have h2 : s.howOften ∣ i.node := Int.dvd_iff_tmod_eq_zero.2 hg.2
    cases hb : i.best with
    | none => simp
    | some best =>
      simp only [Option.isSome_some, and_true]
      have hc : s.howOften ≠ 0 ∧ s.howOften ∣ i.node := ⟨hg.1, h2⟩
      by_cases hr : i.ints.length / 10 < (rinsFix i best).2
      · simp only [if_pos hr, rinsEnd_freq, rinsEnd_ans, if_pos hc]
      · simp only [if_neg hr, rinsEnd_freq, rinsEnd_ans, if_pos hc]

/-- **C37**: over every history the frequency stays between 10 and 10000 (and so never overflows when doubled). -/
theorem rins_range (s : Rins) (h : List RinsIn) (hs : 10 ≤ s.howOften ∧ s.howOften ≤ 10000) : 10 ≤ (rinsRun s h).howOften ∧ (rinsRun s h).howOften ≤ 10000 := by
  induction h generalizing s with
  | nil => exact hs
  | cons i h ih =>
    refine ih _ ?_
    rw [rins_howOften]
    split_ifs
    · have : s.howOften.tdiv 2 ≤ 10000 := by
        have := Int.tdiv_eq_ediv_of_nonneg (a := s.howOften) (b := 2) (by omega)
        omega
      omega
    · omega
    · exact hs

/-- **C37**: the range holds from the constructor on; a user value below 5 leaves it (1 is doubled to 2), and 0 switches the heuristic off for good. -/
theorem rins_new_range (h : List RinsIn) : 10 ≤ (rinsRun Rins.new h).howOften ∧ (rinsRun Rins.new h).howOften ≤ 10000 := rins_range _ h (by simp [Rins.new])

theorem rins_off (n : Int) (h : List RinsIn) : rinsRun ⟨0, n⟩ h = ⟨0, n⟩ := by
  induction h with
  | nil => rfl
  | cons i h ih => rw [rinsRun, List.foldl_cons]; simpa [rinsCall, rinsRun] using ih

/-- Concrete histories: the two columns agree and are fixed; success from 40 gives 20, failure gives 80. -/
def rinsEx (r : Option ((Nat → ℚ) × ℚ)) : RinsIn :=
  ⟨80, 1, some fun _ => 1, fun c => if c = 0 then 1 else 1 / 2, ⟨fun _ => 0, fun _ => 1⟩, [0, 1], ⟨fun _ => 0, fun _ => 1⟩, 1 / 10 ^ 8, fun _ => r⟩

example : (rinsFix (rinsEx none) fun _ => 1).2 = 1 ∧ ((rinsFix (rinsEx none) fun _ => 1).1.lo 0, (rinsFix (rinsEx none) fun _ => 1).1.lo 1) = (1, 0) ∧
    (rinsCall ⟨40, 0⟩ (rinsEx none)).1 = ⟨80, 1⟩ ∧ (rinsCall ⟨40, 0⟩ (rinsEx (some (fun _ => 0, 5)))).1 = ⟨20, 2⟩ ∧ (rinsCall ⟨30, 0⟩ (rinsEx none)).1 = ⟨30, 0⟩ := by
  decide +kernel

example : (rinsCall ⟨1, 0⟩ (rinsEx none)).1.howOften = 2 := by decide +kernel

/-! ### Local branching -/

/-- `numberSolutions_` and the base class's `when_`. -/
structure Lb where
  numSol : Int
  when_ : Int
deriving DecidableEq, Repr

/-- `validate` (49-74): `setWhen(0)` when an integer column is not binary. -/
def lbValidate (s : Lb) (p : Prob) (b : Bnds) : Lb :=
  if (List.range p.n).any fun c => p.isInt c && (decide (b.lo c ≠ 0) || decide (b.up c ≠ 1)) then { s with when_ := 0 } else s

/-- `solution` (76-119): solution count, incumbent, and branch and bound on the neighbourhood of the incumbent.  The second component says whether it was called. -/
def lbCall (s : Lb) (count : Int) (best : Option (List ℚ)) (search : List ℚ → Option (List ℚ × ℚ)) : Lb × Bool × Option (List ℚ × ℚ) :=
  if count ≤ s.numSol then (s, false, none)
  else match best with
    | none => ({ s with numSol := count }, false, none)
    | some x => match search x with
      | none => ({ s with numSol := count }, true, none)
      | some y => ({ s with numSol := count + 1 }, true, some y)

/-- Number of branch and bounds run over a history, and the state after it. -/
def lbRun (s : Lb) : List (Int × Option (List ℚ) × (List ℚ → Option (List ℚ × ℚ))) → Lb × Nat
  | [] => (s, 0)
  | (c, b, f) :: h => ((lbRun (lbCall s c b f).1 h).1, (lbRun (lbCall s c b f).1 h).2 + if (lbCall s c b f).2.1 then 1 else 0)

/-- The parameters of the neighbourhood (95-108); `numberIntegers / 2` is an integer division. -/
def lbPar (q : Fp.Par) (ints : List Nat) (best : List ℚ) : Fp.Par := q.toLoc (ints.map (Fp.at' best)) ints ((ints.length / 2 : Nat) : ℚ)

/-- **C57**: the branch and bound is run exactly when the solution count exceeds the remembered one and there is an incumbent; and the answer is passed on. -/
theorem lb_runs_iff (s : Lb) (count : Int) (best : Option (List ℚ)) (search : List ℚ → Option (List ℚ × ℚ)) :
    ((lbCall s count best search).2.1 = true ↔ s.numSol < count ∧ best.isSome) ∧
    (lbCall s count best search).2.2 = (if s.numSol < count then best.bind search else none) ∧
    (lbCall s count best search).1.numSol = if s.numSol < count then count + (if (lbCall s count best search).2.2.isSome then 1 else 0) else s.numSol := by
  unfold lbCall
  by_cases h : count ≤ s.numSol
  · rw [if_pos h]
    simp [not_lt.2 h]
  · rw [if_neg h]
    have h' : s.numSol < count := not_le.1 h
    cases best with
    | none => simp [h']
    | some x =>
      cases hs : search x <;> simp [h', hs]

theorem lb_run_aux (h : List (Int × Option (List ℚ) × (List ℚ → Option (List ℚ × ℚ)))) (s : Lb) (N : Int) (hN : ∀ e ∈ h, e.1 ≤ N) :
    ((lbRun s h).2 : Int) + s.numSol ≤ max s.numSol N ∧ s.numSol ≤ (lbRun s h).1.numSol := by
  induction h generalizing s with
  | nil => simp [lbRun]
  | cons e h ih =>
    obtain ⟨c, b, f⟩ := e
    obtain ⟨i1, i2⟩ := ih (lbCall s c b f).1 fun e he => hN e (by simp [he])
    obtain ⟨r1, _, r3⟩ := lb_runs_iff s c b f
    have hc : c ≤ N := hN (c, b, f) (by simp)
    simp only [lbRun]
    by_cases hlt : s.numSol < c
    · rw [if_pos hlt] at r3
      have hge : c ≤ (lbCall s c b f).1.numSol := by rw [r3]; split_ifs <;> omega
      have hle : (lbCall s c b f).1.numSol ≤ c + 1 := by rw [r3]; split_ifs <;> omega
      constructor
      · split_ifs <;> push_cast <;> omega
      · omega
    · have hf : ¬ (lbCall s c b f).2.1 = true := fun hh => hlt (r1.1 hh).1
      rw [if_neg hlt] at r3
      rw [if_neg hf]
      rw [r3] at i1 i2
      exact ⟨by omega, i2⟩

/-- **C57**: over every history, from the constructor on, local branching is run at most once per solution found: the number of runs is at most the largest solution count seen. -/
theorem lb_runs_bounded (h : List (Int × Option (List ℚ) × (List ℚ → Option (List ℚ × ℚ)))) (w N : Int) (h0 : 0 ≤ N) (hN : ∀ e ∈ h, e.1 ≤ N) : ((lbRun ⟨0, w⟩ h).2 : Int) ≤ N := by
  have := (lb_run_aux h ⟨0, w⟩ N hN).1
  simp only at this
  omega

example : (lbRun ⟨0, 2⟩ [(0, none, fun _ => none), (1, some [1], fun _ => none), (1, some [1], fun _ => none), (2, some [0], fun _ => some ([1], 3)), (3, some [1], fun _ => none), (5, some [1], fun _ => none)]) = (⟨5, 2⟩, 3) := by decide +kernel

/-- **C57**: for binary columns the neighbourhood consists of the feasible points that differ from the incumbent in at most half of the integer columns. -/
theorem lb_neighbourhood (inf : ℚ) (hinf : 0 < inf) (q : Fp.Par) (p : Nlp) (ints : List Nat) (best x : List ℚ) (hn : (ints.length / 2 : Nat) < inf)
    (hb : ∀ i ∈ ints, Fp.at' best i = 0 ∨ Fp.at' best i = 1) (hx : ∀ i ∈ ints, Fp.at' x i = 0 ∨ Fp.at' x i = 1) :
    Box inf (Fp.gl (lbPar q ints best) inf p) (Fp.gu (lbPar q ints best) p) (Fp.evalG (lbPar q ints best) p x) ↔
      Box inf p.gl p.gu (p.evalG x) ∧ 2 * (ints.countP fun i => decide (Fp.at' x i ≠ Fp.at' best i)) ≤ ints.length := by
  rw [Fp.local_branching_row inf hinf (lbPar q ints best) p x rfl rfl hn]
  · have hm : ∀ l : List Nat, (∀ i ∈ l, Fp.at' best i = 0 ∨ Fp.at' best i = 1) → (∀ i ∈ l, Fp.at' x i = 0 ∨ Fp.at' x i = 1) →
        Fp.man l (l.map (Fp.at' best)) x = (l.countP fun i => decide (Fp.at' x i ≠ Fp.at' best i) : Nat) := by
      intro l
      induction l with
      | nil => intro _ _; simp [Fp.man]
      | cons a l ih =>
        intro h1 h2
        have ih := ih (fun i hi => h1 i (by simp [hi])) (fun i hi => h2 i (by simp [hi]))
        simp only [Fp.man, List.map_cons, List.zipWith_cons_cons, List.sum_cons, List.countP_cons] at ih ⊢
        rw [ih]
        push_cast
        rcases h1 a (by simp) with e1 | e1 <;> rcases h2 a (by simp) with e2 | e2 <;> rw [e1, e2] <;> norm_num <;> ring
    rw [show (lbPar q ints best).inds = ints from rfl, show (lbPar q ints best).vals = ints.map (Fp.at' best) from rfl, hm ints hb hx,
      show (lbPar q ints best).rhs = ((ints.length / 2 : Nat) : ℚ) from rfl, Nat.cast_le]
    constructor
    · rintro ⟨h1, h2⟩; exact ⟨h1, by omega⟩
    · rintro ⟨h1, h2⟩; exact ⟨h1, by omega⟩
  · intro v hv
    obtain ⟨i, hi, rfl⟩ := List.mem_map.1 hv
    exact hb i hi
  · intro i hi
    rcases hx i hi with e | e <;> rw [e] <;> norm_num

/-- **C57** refuted for general integers: the heuristic is meant to be off (`setWhen(0)`), but `solution` does not look at `when_` and runs; the row it adds for an incumbent
value of 3 then reads 1 - x ≤ 0: it accepts x = 100 and is violated by x = 0. -/
theorem lb_general_integers (s : Lb) (h : s.numSol < 1) :
    (lbCall (lbValidate s ⟨1, 0, fun _ => true, fun _ => 0, fun _ => 0, fun _ => 0, fun _ _ => 0⟩ ⟨fun _ => 0, fun _ => 100⟩) 1 (some [3]) fun _ => none).2.1 = true ∧
    (lbValidate s ⟨1, 0, fun _ => true, fun _ => 0, fun _ => 0, fun _ => 0, fun _ _ => 0⟩ ⟨fun _ => 0, fun _ => 100⟩).when_ = 0 ∧
    Fp.l1 [0] [3] [100] ≤ (([0] : List Nat).length / 2 : Nat) ∧ ¬ Fp.l1 [0] [3] [0] ≤ (([0] : List Nat).length / 2 : Nat) := by
  have hv : lbValidate s ⟨1, 0, fun _ => true, fun _ => 0, fun _ => 0, fun _ => 0, fun _ _ => 0⟩ ⟨fun _ => 0, fun _ => 100⟩ = ⟨s.numSol, 0⟩ := by
    unfold lbValidate
    rw [if_pos (by decide +kernel)]
  rw [hv]
  refine ⟨?_, rfl, by norm_num [Fp.l1, Fp.at'], by norm_num [Fp.l1, Fp.at']⟩
  rw [(lb_runs_iff _ _ _ _).1]
  exact ⟨h, rfl⟩

/-- **C57**: `validate` switches off exactly when an integer column does not have the bounds 0 and 1. -/
theorem lbValidate_iff (s : Lb) (p : Prob) (b : Bnds) (hw : s.when_ ≠ 0) : (lbValidate s p b).when_ = 0 ↔ ∃ c < p.n, p.isInt c = true ∧ ¬ (b.lo c = 0 ∧ b.up c = 1) := by
  unfold lbValidate
  have hiff : ((List.range p.n).any fun c => p.isInt c && (decide (b.lo c ≠ 0) || decide (b.up c ≠ 1))) = true ↔ ∃ c < p.n, p.isInt c = true ∧ ¬ (b.lo c = 0 ∧ b.up c = 1) := by
    simp only [List.any_eq_true, List.mem_range, Bool.and_eq_true, Bool.or_eq_true, decide_eq_true_iff, not_and_or, ne_eq]
  by_cases h : ((List.range p.n).any fun c => p.isInt c && (decide (b.lo c ≠ 0) || decide (b.up c ≠ 1))) = true
  · rw [if_pos h]; exact ⟨fun _ => hiff.1 h, fun _ => rfl⟩
  · rw [if_neg h]; exact ⟨fun e => absurd e hw, fun e => absurd (hiff.2 e) h⟩

/-! ### Fix and solve -/

/-- What becomes of the clone of the solver: never made, still there, or deleted a second time by 70 after the search (whose setup owns it, see `Verif.Heur.LocalSearch`). -/
inductive Clone
  | unused | left | deletedTwice
deriving DecidableEq

/-- `FixAndSolveHeuristic::solution` (35-72): `objs` are the objects with their infeasibility and the effect of `feasibleRegion`; the second component says what becomes of the
clone of the solver (with `deletedTwice` the result is that of the search, before the second deletion). -/
def fixSolve (count node : Int) (objs : List (ℚ × (Bnds → Bnds))) (b : Bnds) (search : Bnds → Option ((Nat → ℚ) × ℚ)) : Option ((Nat → ℚ) × ℚ) × Clone :=
  if 0 < count then (none, .unused) else if 1000 < node then (none, .unused) else if node.tmod 100 ≠ 0 then (none, .unused)
  else
    let f := objs.foldl (fun s o => if o.1 = 0 then (o.2 s.1, s.2 + 1) else s) (b, 0)
    if f.2 < objs.length / 3 then (none, .left) else (search f.1, .deletedTwice)

theorem fixSolve_fold (objs : List (ℚ × (Bnds → Bnds))) (s : Bnds × Nat) :
    objs.foldl (fun s o => if o.1 = 0 then (o.2 s.1, s.2 + 1) else s) s = ((objs.filter fun o => decide (o.1 = 0)).foldl (fun b o => o.2 b) s.1, s.2 + objs.countP fun o => decide (o.1 = 0)) := by
  induction objs generalizing s with
  | nil => simp
  | cons o objs ih =>
    by_cases h : o.1 = 0
    · simp [ih, h]; omega
    · simp [ih, h]

/-- **C57**: fix-and-solve: runs only before a first solution, at nodes 0, 100, ..., 1000 (negative node counts aside), with all satisfied objects fixed, when these are at least a
third (rounded down) of all objects. -/
theorem fixSolve_exact (count node : Int) (objs : List (ℚ × (Bnds → Bnds))) (b : Bnds) (search : Bnds → Option ((Nat → ℚ) × ℚ)) (y : (Nat → ℚ) × ℚ) :
    (fixSolve count node objs b search).1 = some y ↔ count ≤ 0 ∧ node ≤ 1000 ∧ (100 : Int) ∣ node ∧ objs.length / 3 ≤ (objs.countP fun o => decide (o.1 = 0)) ∧
      search ((objs.filter fun o => decide (o.1 = 0)).foldl (fun b o => o.2 b) b) = some y := by
  unfold fixSolve
  rw [fixSolve_fold]
  simp only [Nat.zero_add]
  by_cases h1 : 0 < count
  · rw [if_pos h1]
    simp [not_le.2 h1]
  by_cases h2 : 1000 < node
  · rw [if_neg h1, if_pos h2]
    simp [not_le.2 h2]
  by_cases h3 : node.tmod 100 ≠ 0
  · rw [if_neg h1, if_neg h2, if_pos h3]
    have : ¬ (100 : Int) ∣ node := fun h => h3 (Int.dvd_iff_tmod_eq_zero.1 h)
    simp [this]
  rw [if_neg h1, if_neg h2, if_neg h3]
  push Not at h3
  have hd : (100 : Int) ∣ node := Int.dvd_iff_tmod_eq_zero.2 h3
  by_cases h4 : (objs.countP fun o => decide (o.1 = 0)) < objs.length / 3
  · rw [if_pos h4]
    constructor
    · intro h; cases h
    · rintro ⟨_, _, _, h, _⟩; omega
  · rw [if_neg h4]
    exact ⟨fun h => ⟨not_lt.1 h1, not_lt.1 h2, hd, not_lt.1 h4, h⟩, fun h => h.2.2.2.2⟩

/-- **C57** refuted: when too few objects are satisfied the clone of the solver is never freed. -/
theorem fixSolve_leaks (b : Bnds) (search : Bnds → Option ((Nat → ℚ) × ℚ)) : (fixSolve 0 0 (List.replicate 3 (1, id)) b search).2 = .left := by
  simp [fixSolve, List.replicate]

/-- **C57**: what becomes of the clone, exactly: it is never released properly. -/
theorem fixSolve_clone (count node : Int) (objs : List (ℚ × (Bnds → Bnds))) (b : Bnds) (search : Bnds → Option ((Nat → ℚ) × ℚ)) :
    (fixSolve count node objs b search).2 = if count ≤ 0 ∧ node ≤ 1000 ∧ (100 : Int) ∣ node then
      if objs.length / 3 ≤ (objs.countP fun o => decide (o.1 = 0)) then .deletedTwice else .left else .unused := by
  unfold fixSolve
  rw [fixSolve_fold]
  simp only [Nat.zero_add]
  by_cases h1 : 0 < count
  · rw [if_pos h1, if_neg (fun h => absurd h.1 (not_le.2 h1))]
  by_cases h2 : 1000 < node
  · rw [if_neg h1, if_pos h2, if_neg (fun h => absurd h.2.1 (not_le.2 h2))]
  by_cases h3 : node.tmod 100 ≠ 0
  · rw [if_neg h1, if_neg h2, if_pos h3, if_neg (fun h => h3 (Int.dvd_iff_tmod_eq_zero.1 h.2.2))]
  rw [if_neg h1, if_neg h2, if_neg h3]
  push Not at h3
  have hc : count ≤ 0 ∧ node ≤ 1000 ∧ (100 : Int) ∣ node := ⟨not_lt.1 h1, not_lt.1 h2, Int.dvd_iff_tmod_eq_zero.2 h3⟩
  by_cases h4 : (objs.countP fun o => decide (o.1 = 0)) < objs.length / 3
  · rw [if_pos h4, if_pos hc, if_neg (not_le.2 h4)]
  · rw [if_neg h4, if_pos hc, if_pos (not_lt.1 h4)]

/-- **C57** refuted: when the search is made, the clone is deleted twice. -/
theorem fixSolve_deletes_twice (b : Bnds) (search : Bnds → Option ((Nat → ℚ) × ℚ)) : (fixSolve 0 0 [(0, id)] b search).2 = .deletedTwice := by
  simp [fixSolve]

example : ((fixSolve 0 100 [(0, fun b => b.setLo 0 1), (1, id), (1 / 2, id)] ⟨fun _ => 0, fun _ => 1⟩ fun b => some (b.lo, 7)).1.map fun r => (r.1 0, r.1 1, r.2)) = some (1, 0, 7) := by decide +kernel

/-- **C37**: the state left by the end of `solution`, both components, and the state after construction. -/
theorem rinsEnd_state (h c n : Int) (r : Option ((Nat → ℚ) × ℚ)) :
    (rinsEnd h c n r).1 = if r.isSome then ⟨max 10 (h.tdiv 2), c + 1⟩ else ⟨min 10000 (2 * h), n⟩ := by cases r <;> rfl

theorem rins_new : Rins.new.howOften = 10 ∧ Rins.new.numSol = 0 := ⟨rfl, rfl⟩

/-- **C57**: the number of branch and bounds of a history is the number of its calls that find a solution count above the one recorded when they are made and an incumbent. -/
theorem lb_run_count (s : Lb) (h : List (Int × Option (List ℚ) × (List ℚ → Option (List ℚ × ℚ)))) :
    (lbRun s h).2 = ((List.range h.length).filter fun k => match h[k]? with
      | none => false
      | some e => decide ((lbRun s (h.take k)).1.numSol < e.1) && e.2.1.isSome).length := by
  induction h generalizing s with
  | nil => rfl
  | cons e h ih =>
    obtain ⟨c, b, f⟩ := e
    have r1 := (lb_runs_iff s c b f).1
    simp only [lbRun, List.length_cons, List.range_succ_eq_map, List.filter_cons, List.getElem?_cons_zero, List.take_zero, List.filter_map]
    rw [ih]
    have e1 : (decide (s.numSol < c) && b.isSome) = (lbCall s c b f).2.1 := by
      rw [Bool.eq_iff_iff, r1]; simp
    rw [e1]
    have e2 : ((fun k => match ((c, b, f) :: h)[k]? with
        | none => false
        | some e => decide ((lbRun s (((c, b, f) :: h).take k)).1.numSol < e.1) && e.2.1.isSome) ∘ Nat.succ) =
        (fun k => match h[k]? with
        | none => false
        | some e => decide ((lbRun (lbCall s c b f).1 (h.take k)).1.numSol < e.1) && e.2.1.isSome) := by
      funext k
      simp only [Function.comp, List.getElem?_cons_succ, List.take_succ_cons, lbRun]
    rw [e2]
    cases (lbCall s c b f).2.1 <;> simp

/-- The number of solutions RINS remembers: as it was if it is not its turn; one more than the search counts if it finds a point; else that number, less one if too few variables could be fixed (so that it is tried again). -/
theorem rins_numSol (s : Rins) (i : RinsIn) : (s.howOften = 0 ∨ i.node.tmod s.howOften ≠ 0 → (rinsCall s i).1.numSol = s.numSol) ∧
    (¬ (s.howOften = 0 ∨ i.node.tmod s.howOften ≠ 0) → (i.best = none → (rinsCall s i).1.numSol = i.count) ∧ ∀ best, i.best = some best →
      (i.ints.length / 10 < (rinsFix i best).2 → (rinsCall s i).1.numSol = if (i.search (rinsFix i best).1).isSome then i.count + 1 else i.count) ∧
      (¬ i.ints.length / 10 < (rinsFix i best).2 → (rinsCall s i).1.numSol = i.count - 1)) := by
  unfold rinsCall
  refine ⟨fun h => by rw [if_pos h], fun h => ?_⟩
  rw [if_neg h]
  refine ⟨fun hb => by rw [hb], fun best hb => ?_⟩
  rw [hb]
  refine ⟨fun hf => ?_, fun hf => ?_⟩
  · simp only [if_pos hf, rinsEnd_state]
    split <;> rfl
  · simp only [if_neg hf, rinsEnd]

end Verif.Heur

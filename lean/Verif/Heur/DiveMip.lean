import Verif.Heur.DiveProps
import Mathlib.Tactic.NormNum
/-!
# Model of `HeuristicDiveMIP::solution` as a whole
(src/CbcBonmin/Heuristics/BonHeuristicDiveMIP.cpp:94-490; selection rules as for the dives, BonHeuristicDiveMIPFractional.cpp and
BonHeuristicDiveMIPVectorLength.cpp have the same functions as BonHeuristicDiveFractional.cpp and BonHeuristicDiveVectorLength.cpp)

The NLP solver is an oracle as in `Heur/Dive`; the MIP over the linear columns, which is the subject of `Heur/Milp`, is an oracle that is given the bounds and
the point.  Not modelled: the gate on node count and pass number (97-99), memory handling, exceptions of the solvers.
-/
namespace Verif.Heur

/-- Parameters: those of a dive without fixings, the linear columns (`variableLinearNonLinear`), and the MIP solver. -/
structure MipDive where
  tol : ℚ
  inc : ℚ
  solve : Oracle
  sel : Nat → Bnds → (Nat → ℚ) → Option (Nat × Bool)
  isLin : Nat → Bool
  mip : Bnds → (Nat → ℚ) → Option (Nat → ℚ)

/-- `integerNonlinearColumns` (209-220). -/
def nlInts (p : Prob) (d : MipDive) : List Nat := (List.range p.n).filter fun c => p.isInt c && !d.isLin c

/-- The integer ones among `linearVariable` (265-274). -/
def linInts (p : Prob) (d : MipDive) : List Nat := (List.range p.n).filter fun c => p.isInt c && d.isLin c

/-- The loop (225-261); `none` = still running after `fuel` iterations.  Result: calls made, bounds in force, `newSolution`. -/
def mipLoop (p : Prob) (d : MipDive) : Nat → Nat → Bnds → (Nat → ℚ) → Option (Nat × Bnds × (Nat → ℚ))
  | 0, k, b, x => if (nlInts p d).any fun i => isFrac d.tol (x i) then none else some (k, b, x)
  | fuel + 1, k, b, x =>
    if (nlInts p d).any fun i => isFrac d.tol (x i) then
      match d.sel k b x with
      | none => some (k, b, x)
      | some (j, up) =>
        match d.solve k (bound x j up b) with
        | none => some (k + 1, bound x j up b, x)
        | some x' => mipLoop p d fuel (k + 1) (bound x j up b) x'
    else some (k, b, x)

/-- `newSolution` after the MIP (264-395); `none` = `feasible` is false. -/
def afterMip (p : Prob) (d : MipDive) (b : Bnds) (x : Nat → ℚ) : Option (Nat → ℚ) :=
  if (linInts p d).any fun i => isFrac d.tol (x i) then (d.mip b x).map fun z c => if d.isLin c then z c else x c else some x

/-- The integer columns fixed (436-453). -/
def fixInts (p : Prob) (b : Bnds) (x : Nat → ℚ) : Bnds :=
  ⟨fun c => if c < p.n ∧ p.isInt c then (⌊x c + 1 / 2⌋ : ℚ) else b.lo c, fun c => if c < p.n ∧ p.isInt c then (⌊x c + 1 / 2⌋ : ℚ) else b.up c⟩

/-- From the end of the loop on (264-472). -/
def mipEnd (p : Prob) (d : MipDive) (k : Nat) (b : Bnds) (x : Nat → ℚ) : Verdict :=
  match afterMip p d b x with
  | none => .nothing k
  | some z =>
    if (intCols p).any fun i => isFrac d.tol (z i) then .nothing k
    else match d.solve k (fixInts p b z) with
      | none => .nothing (k + 1)
      | some y => if p.f y < d.inc then .found (k + 1) y (p.f y) else .nothing (k + 1)

/-- `HeuristicDiveMIP::solution` (94-489) on a node whose relaxation has solution `x0` with rows `g0`. -/
def diveMip (dbg : Bool) (p : Prob) (d : MipDive) (fuel : Nat) (b0 : Bnds) (x0 g0 : Nat → ℚ) : Verdict :=
  if dbg && !nlpFeasible p b0 (adjust p g0 (1 / 10 ^ 6)) x0 g0 then .abort
  else match mipLoop p d fuel 0 b0 x0 with
    | none => .running
    | some (k, b, x) => mipEnd p d k b x

/-! ### lemmas -/

/-- The problem with only the nonlinear integer columns marked integer. -/
def nlProb (p : Prob) (d : MipDive) : Prob := { p with isInt := fun c => p.isInt c && !d.isLin c }

theorem nlInts_eq (p : Prob) (d : MipDive) : nlInts p d = intCols (nlProb p d) := rfl

/-- Contract of the selection rule: an integer nonlinear column with a fractional value. -/
def MipSelects (p : Prob) (d : MipDive) : Prop :=
  ∀ k b x j up, d.sel k b x = some (j, up) → j < p.n ∧ p.isInt j = true ∧ d.isLin j = false ∧ isFrac d.tol (x j) = true

/-- Contract of the MIP solver: linear columns within their bounds. -/
def MipRespects (p : Prob) (d : MipDive) : Prop := ∀ b x z, d.mip b x = some z → ∀ c < p.n, d.isLin c = true → b.lo c ≤ z c ∧ z c ≤ b.up c

theorem mipLoop_inv (p : Prob) (d : MipDive) (hr : Respects p d.solve) (hs : MipSelects p d) (b0 : Bnds) :
    ∀ (fuel k : Nat) (b : Bnds) (x : Nat → ℚ), InBox p.n b x → Tighter p.n b b0 → (∀ c, p.isInt c = false ∨ d.isLin c = true → b.lo c = b0.lo c ∧ b.up c = b0.up c) →
      ∀ k' b' x', mipLoop p d fuel k b x = some (k', b', x') →
        Tighter p.n b' b0 ∧ (∀ c, p.isInt c = false ∨ d.isLin c = true → b'.lo c = b0.lo c ∧ b'.up c = b0.up c) ∧ InBox p.n b0 x' := by
  intro fuel
  induction fuel with
  | zero =>
    intro k b x hx hb hc k' b' x' h
    rw [mipLoop] at h
    split_ifs at h
    cases h
    exact ⟨hb, hc, fun i hi => ⟨(hb i hi).1.trans (hx i hi).1, (hx i hi).2.trans (hb i hi).2⟩⟩
  | succ fuel ih =>
    intro k b x hx hb hc k' b' x' h
    have hx0 : InBox p.n b0 x := fun i hi => ⟨(hb i hi).1.trans (hx i hi).1, (hx i hi).2.trans (hb i hi).2⟩
    rw [mipLoop] at h
    split_ifs at h
    · cases hsel : d.sel k b x with
      | none => rw [hsel] at h; cases h; exact ⟨hb, hc, hx0⟩
      | some q =>
        obtain ⟨j, up⟩ := q
        rw [hsel] at h
        obtain ⟨hj, hji, hjl, hjf⟩ := hs k b x j up hsel
        have hb' : Tighter p.n (bound x j up b) b0 := fun i hi =>
          ⟨(hb i hi).1.trans (bound_tighter p.n x j up b (hx j hj) i hi).1, (bound_tighter p.n x j up b (hx j hj) i hi).2.trans (hb i hi).2⟩
        have hc' : ∀ c, p.isInt c = false ∨ d.isLin c = true → (bound x j up b).lo c = b0.lo c ∧ (bound x j up b).up c = b0.up c := by
          intro c hcc
          have hne : c ≠ j := by
            rintro rfl
            rcases hcc with h | h
            · rw [hji] at h; cases h
            · rw [hjl] at h; cases h
          have := hc c hcc
          cases up <;> simpa [bound, Bnds.setUp, Bnds.setLo, hne] using this
        simp only at h
        cases hsol : d.solve k (bound x j up b) with
        | none => rw [hsol] at h; cases h; exact ⟨hb', hc', hx0⟩
        | some x1 => rw [hsol] at h; exact ih (k + 1) _ x1 (hr k _ x1 hsol) hb' hc' k' b' x' h
    · cases h
      exact ⟨hb, hc, hx0⟩

theorem mipLoop_ends (p : Prob) (d : MipDive) (ht : 0 ≤ d.tol) (hr : Respects p d.solve) (hs : MipSelects p d) :
    ∀ (fuel k : Nat) (b : Bnds) (x : Nat → ℚ), InBox p.n b x → width (nlProb p d) b ≤ fuel →
      ∃ k' b' x', mipLoop p d fuel k b x = some (k', b', x') ∧ k' ≤ k + width (nlProb p d) b := by
  intro fuel
  induction fuel with
  | zero =>
    intro k b x hx hw
    rw [mipLoop]
    by_cases ha : ((nlInts p d).any fun i => isFrac d.tol (x i)) = true
    · have := width_pos (nlProb p d) d.tol ht x b hx ha
      omega
    · exact ⟨k, b, x, by rw [if_neg ha], by omega⟩
  | succ fuel ih =>
    intro k b x hx hw
    rw [mipLoop]
    by_cases ha : ((nlInts p d).any fun i => isFrac d.tol (x i)) = true
    · rw [if_pos ha]
      have hpos := width_pos (nlProb p d) d.tol ht x b hx ha
      cases hsel : d.sel k b x with
      | none => exact ⟨k, b, x, rfl, by omega⟩
      | some q =>
        obtain ⟨j, up⟩ := q
        obtain ⟨hj, hji, hjl, hjf⟩ := hs k b x j up hsel
        have hmem : j ∈ intCols (nlProb p d) := (mem_intCols (nlProb p d) j).2 ⟨hj, by simp [nlProb, hji, hjl]⟩
        have hlt := width_bound (nlProb p d) d.tol ht x j up b b hmem (hx j hj) hjf (fun i => ⟨le_refl _, le_refl _⟩) ⟨rfl, rfl⟩
        simp only
        cases hsol : d.solve k (bound x j up b) with
        | none => exact ⟨k + 1, bound x j up b, x, rfl, by omega⟩
        | some x1 =>
          obtain ⟨k', b', x', h1, h2⟩ := ih (k + 1) (bound x j up b) x1 (hr k _ x1 hsol) (by omega)
          exact ⟨k', b', x', h1, by omega⟩
    · exact ⟨k, b, x, by rw [if_neg ha], by omega⟩

/-! ### what is returned -/

/-- **C234 (part).** Whatever the solvers answer, a point is returned only if the dive ended with integral nonlinear columns, and then it is the answer
of the NLP solver with every integer column fixed at the rounded value of a point that is integral within the tolerance, agrees with the end of the dive in the nonlinear
columns, and in the linear ones either with it or with the answer of the MIP; the value is that of the point and better than the incumbent. -/
theorem mip_found_from (dbg : Bool) (p : Prob) (d : MipDive) (fuel : Nat) (b0 : Bnds) (x0 g0 : Nat → ℚ) (k : Nat) (y : Nat → ℚ) (v : ℚ)
    (h : diveMip dbg p d fuel b0 x0 g0 = .found k y v) :
    p.f y = v ∧ v < d.inc ∧ ∃ k0 b x z, k = k0 + 1 ∧ mipLoop p d fuel 0 b0 x0 = some (k0, b, x) ∧ Integral p d.tol z ∧
      (∀ c, d.isLin c = false → z c = x c) ∧ ((∀ c, z c = x c) ∨ ∃ w, d.mip b x = some w ∧ ∀ c, d.isLin c = true → z c = w c) ∧
      d.solve k0 (fixInts p b z) = some y := by
  unfold diveMip at h
  split_ifs at h
  cases hl : mipLoop p d fuel 0 b0 x0 with
  | none => rw [hl] at h; cases h
  | some q =>
    obtain ⟨k0, b, x⟩ := q
    rw [hl] at h
    simp only [mipEnd] at h
    cases ha : afterMip p d b x with
    | none => rw [ha] at h; cases h
    | some z =>
      rw [ha] at h
      simp only at h
      by_cases hf : ((intCols p).any fun i => isFrac d.tol (z i)) = true
      · rw [if_pos hf] at h; cases h
      · rw [if_neg hf] at h
        cases hsol : d.solve k0 (fixInts p b z) with
        | none => rw [hsol] at h; cases h
        | some y' =>
          rw [hsol] at h
          simp only at h
          split_ifs at h with hv
          cases h
          refine ⟨rfl, hv, k0, b, x, z, rfl, rfl, ?_, ?_, ?_, hsol⟩
          · intro i hi hint
            refine (not_isFrac_iff d.tol (z i)).1 ?_
            rw [← Bool.not_eq_true]
            intro hc
            exact hf (List.any_eq_true.2 ⟨i, (mem_intCols p i).2 ⟨hi, hint⟩, hc⟩)
          · intro c hc
            unfold afterMip at ha
            split_ifs at ha
            · obtain ⟨w, -, rfl⟩ := Option.map_eq_some_iff.1 ha
              simp [hc]
            · cases ha; rfl
          · unfold afterMip at ha
            split_ifs at ha
            · obtain ⟨w, hw, rfl⟩ := Option.map_eq_some_iff.1 ha
              exact .inr ⟨w, hw, fun c hc => by simp [hc]⟩
            · cases ha; exact .inl fun _ => rfl

theorem round_near (tol v : ℚ) (h : isFrac tol v = false) : |(⌊v + 1 / 2⌋ : ℚ) - v| ≤ tol := by
  unfold isFrac at h
  rw [decide_eq_false_iff_not, not_lt] at h
  exact h

/-- **C234 (partial).** With solvers that respect the bounds, a returned point has exact integers in all integer columns, is within the bounds of the node for all
other columns, within the tolerance of them for the integer columns — and within them if they are integers; its value is the one reported, better than the incumbent.
(Missing: integer columns with bounds that are not integers.) -/
theorem mip_found_partial (dbg : Bool) (p : Prob) (d : MipDive) (fuel : Nat) (b0 : Bnds) (x0 g0 : Nat → ℚ) (k : Nat) (y : Nat → ℚ) (v : ℚ)
    (hr : Respects p d.solve) (hm : MipRespects p d) (hs : MipSelects p d) (hx : InBox p.n b0 x0)
    (h : diveMip dbg p d fuel b0 x0 g0 = .found k y v) :
    p.f y = v ∧ v < d.inc ∧ ∀ c < p.n,
      (p.isInt c = false → b0.lo c ≤ y c ∧ y c ≤ b0.up c) ∧
      (p.isInt c = true → (∃ z : ℤ, y c = z) ∧ b0.lo c - d.tol ≤ y c ∧ y c ≤ b0.up c + d.tol ∧
        (∀ l : ℤ, b0.lo c = l → b0.lo c ≤ y c) ∧ (∀ u : ℤ, b0.up c = u → y c ≤ b0.up c)) := by
  obtain ⟨h1, h2, k0, b, x, z, hk, hl, hI, hz1, hz2, hsol⟩ := mip_found_from dbg p d fuel b0 x0 g0 k y v h
  obtain ⟨hb, hc, hx'⟩ := mipLoop_inv p d hr hs b0 fuel 0 b0 x0 hx (fun i _ => ⟨le_refl _, le_refl _⟩) (fun c _ => ⟨rfl, rfl⟩) k0 b x hl
  have hzbox : ∀ c < p.n, b0.lo c ≤ z c ∧ z c ≤ b0.up c := by
    intro c hcn
    cases hlin : d.isLin c with
    | false => rw [hz1 c hlin]; exact hx' c hcn
    | true =>
      rcases hz2 with hz | ⟨w, hw, hz⟩
      · rw [hz c]; exact hx' c hcn
      · rw [hz c hlin, ← (hc c (.inr hlin)).1, ← (hc c (.inr hlin)).2]
        exact hm b x w hw c hcn hlin
  have hy := hr k0 _ y hsol
  refine ⟨h1, h2, fun c hcn => ⟨fun hi => ?_, fun hi => ?_⟩⟩
  · have := hy c hcn
    simp only [fixInts, hi, Bool.false_eq_true, and_false, if_false] at this
    rw [(hc c (.inl hi)).1, (hc c (.inl hi)).2] at this
    exact this
  · have hyc := hy c hcn
    simp only [fixInts, hi, hcn, and_self, if_true] at hyc
    have hyz : y c = (⌊z c + 1 / 2⌋ : ℚ) := le_antisymm hyc.2 hyc.1
    have hnear : |(⌊z c + 1 / 2⌋ : ℚ) - z c| ≤ d.tol := round_near _ _ ((not_isFrac_iff d.tol (z c)).2 (hI c hcn hi))
    rw [abs_le] at hnear
    obtain ⟨hz3, hz4⟩ := hzbox c hcn
    rw [hyz]
    refine ⟨⟨_, rfl⟩, by linarith [hnear.1], by linarith [hnear.2], fun l hl => ?_, fun u hu => ?_⟩
    · rw [hl] at hz3 ⊢
      have : l ≤ ⌊z c + 1 / 2⌋ := Int.le_floor.2 (by linarith)
      exact_mod_cast this
    · rw [hu] at hz4 ⊢
      have : ⌊z c + 1 / 2⌋ < u + 1 := Int.floor_lt.2 (by push_cast; linarith)
      exact_mod_cast (by omega : ⌊z c + 1 / 2⌋ ≤ u)

/-- **C235.** The heuristic ends: after as many iterations as the total width of the nonlinear integer columns at most, and with one more NLP solve at most. -/
theorem mip_terminates (dbg : Bool) (p : Prob) (d : MipDive) (b0 : Bnds) (x0 g0 : Nat → ℚ) (ht : 0 ≤ d.tol) (hr : Respects p d.solve)
    (hs : MipSelects p d) (hx : InBox p.n b0 x0) :
    let w := ((List.range p.n).filter fun c => p.isInt c && !d.isLin c).map fun i => (⌈b0.up i⌉ - ⌊b0.lo i⌋).toNat
    diveMip dbg p d w.sum b0 x0 g0 ≠ .running ∧
    ∀ k, (diveMip dbg p d w.sum b0 x0 g0 = .nothing k ∨ ∃ y v, diveMip dbg p d w.sum b0 x0 g0 = .found k y v) → k ≤ w.sum + 1 := by
  intro w
  obtain ⟨k', b', x', h1, h2⟩ := mipLoop_ends p d ht hr hs w.sum 0 b0 x0 hx (le_refl _)
  have h2 : k' ≤ w.sum := by
    have e : width (nlProb p d) b0 = w.sum := rfl
    rw [e] at h2; omega
  unfold diveMip
  split_ifs
  · simp
  · rw [h1]
    simp only [mipEnd]
    cases afterMip p d b' x' with
    | none => simp; omega
    | some z =>
      simp only
      split_ifs
      · simp; omega
      · cases d.solve k' (fixInts p b' z) with
        | none => simp; omega
        | some y =>
          simp only
          split_ifs <;> simp <;> omega

/-- **C234 (part).** If the relaxation is integral in the nonlinear columns and its linear columns are integral too, or the MIP answers, then the point is returned exactly if
the NLP with the integer columns fixed is solved with a value better than the incumbent, after a single solve. -/
theorem mip_direct (p : Prob) (d : MipDive) (fuel : Nat) (b0 : Bnds) (x0 g0 z : Nat → ℚ)
    (hn : ∀ c < p.n, p.isInt c = true → d.isLin c = false → isFrac d.tol (x0 c) = false)
    (hz : ((∀ c < p.n, p.isInt c = true → isFrac d.tol (x0 c) = false) ∧ z = x0) ∨
      ((∃ c < p.n, p.isInt c = true ∧ isFrac d.tol (x0 c) = true) ∧ ∃ w, d.mip b0 x0 = some w ∧ z = (fun c => if d.isLin c then w c else x0 c) ∧
        ∀ c < p.n, p.isInt c = true → isFrac d.tol (z c) = false)) (y : Nat → ℚ) :
    diveMip false p d fuel b0 x0 g0 = .found 1 y (p.f y) ↔ d.solve 0 (fixInts p b0 z) = some y ∧ p.f y < d.inc := by
  have h0 : ((nlInts p d).any fun i => isFrac d.tol (x0 i)) = false := by
    rw [List.any_eq_false]
    intro i hi
    simp only [nlInts, List.mem_filter, List.mem_range, Bool.and_eq_true, Bool.not_eq_true'] at hi
    rw [hn i hi.1 hi.2.1 hi.2.2]
    simp
  have hl : mipLoop p d fuel 0 b0 x0 = some (0, b0, x0) := by
    cases fuel <;> simp [mipLoop, h0]
  have hz' : afterMip p d b0 x0 = some z ∧ ((intCols p).any fun i => isFrac d.tol (z i)) = false := by
    rcases hz with ⟨hi, rfl⟩ | ⟨⟨c, hcn, hci, hcf⟩, w, hw, hzw, hzi⟩
    · constructor
      · unfold afterMip
        rw [if_neg]
        rw [Bool.not_eq_true, List.any_eq_false]
        intro i him
        simp only [linInts, List.mem_filter, List.mem_range, Bool.and_eq_true] at him
        rw [hi i him.1 him.2.1]
        simp
      · rw [List.any_eq_false]
        intro i him
        rw [mem_intCols] at him
        rw [hi i him.1 him.2]
        simp
    · constructor
      · unfold afterMip
        rw [if_pos, hw, hzw]
        · rfl
        · rw [List.any_eq_true]
          refine ⟨c, ?_, hcf⟩
          simp only [linInts, List.mem_filter, List.mem_range, Bool.and_eq_true]
          refine ⟨hcn, hci, ?_⟩
          cases hc : d.isLin c with
          | true => rfl
          | false => rw [hn c hcn hci hc] at hcf; cases hcf
      · rw [List.any_eq_false]
        intro i him
        rw [mem_intCols] at him
        rw [hzi i him.1 him.2]
        simp
  unfold diveMip
  simp only [Bool.false_and, Bool.false_eq_true, if_false, hl, mipEnd, hz'.1, hz'.2]
  cases hs : d.solve 0 (fixInts p b0 z) with
  | none => simp
  | some y' =>
    simp only [Option.some.injEq, Nat.zero_add]
    split_ifs with hv
    · simp only [Verdict.found.injEq, true_and]
      constructor
      · rintro ⟨rfl, -⟩; exact ⟨rfl, hv⟩
      · rintro ⟨rfl, -⟩; exact ⟨rfl, rfl⟩
    · constructor
      · intro h; cases h
      · rintro ⟨rfl, h⟩; exact absurd h hv

/-- One integer column. -/
def oneInt : Prob := ⟨1, 0, fun _ => true, fun _ => 0, fun _ => 0, fun x => x 0, fun _ _ => 0⟩

/-- Solver answering with the upper bound of column 0. -/
def upSolver : Oracle := fun _ b => if b.lo 0 ≤ b.up 0 then some fun _ => b.up 0 else none

theorem upSolver_respects : Respects oneInt upSolver := by
  intro k b x h i hi
  have hi0 : i = 0 := by
    have : i < 1 := hi
    omega
  subst hi0
  unfold upSolver at h
  split_ifs at h with hle
  cases h
  exact ⟨hle, le_refl _⟩

/-- **C234 (refuted).** With a bound of an integer column that is not an integer, the point returned may be outside the bounds. -/
theorem mip_outside_bounds : ∃ (d : MipDive) (b0 : Bnds) (x0 y : Nat → ℚ) (v : ℚ), Respects oneInt d.solve ∧ InBox oneInt.n b0 x0 ∧
    diveMip false oneInt d 0 b0 x0 (fun _ => 0) = .found 1 y v ∧ b0.up 0 < y 0 := by
  refine ⟨⟨1 / 10 ^ 6, 10, upSolver, fun _ _ _ => none, fun _ => false, fun _ _ => none⟩,
    ⟨fun _ => 0, fun _ => 1 - 1 / 10 ^ 7⟩, fun _ => 1 - 1 / 10 ^ 7, fun _ => 1, 1, upSolver_respects, ?_, ?_, ?_⟩
  · intro i _; norm_num
  · have hfl : ⌊(1 : ℚ) - 1 / 10 ^ 7 + 1 / 2⌋ = 1 := by rw [Int.floor_eq_iff]; norm_num
    have hf : isFrac (1 / 10 ^ 6) (1 - 1 / 10 ^ 7) = false := by
      unfold isFrac
      rw [hfl, decide_eq_false_iff_not]
      norm_num [abs_of_pos]
    have hs : upSolver 0 (fixInts oneInt ⟨fun _ => 0, fun _ => 1 - 1 / 10 ^ 7⟩ (fun _ => 1 - 1 / 10 ^ 7)) = some fun _ => 1 := by
      have h1 : oneInt.isInt 0 = true := rfl
      have h2 : (0 : Nat) < oneInt.n := Nat.one_pos
      simp only [upSolver, fixInts, h1, h2, hfl, and_self, if_true, Int.cast_one, le_refl]
    exact (mip_direct oneInt ⟨1 / 10 ^ 6, 10, upSolver, fun _ _ _ => none, fun _ => false, fun _ _ => none⟩ 0 _ _ _ _ (fun _ _ _ _ => hf)
      (.inl ⟨fun _ _ _ => hf, rfl⟩) (fun _ => 1)).2 ⟨hs, by norm_num [oneInt]⟩
  · norm_num

/-! ### example: a nonlinear and a linear integer column; one branching, then the MIP -/

/-- Two integer columns, the second linear. -/
def twoInt : Prob := ⟨2, 0, fun _ => true, fun _ => 0, fun _ => 0, fun x => x 0 + x 1, fun _ _ => 0⟩

/-- The solver answers with the upper bounds, the MIP with 1. -/
def exMip : MipDive :=
  ⟨1 / 10 ^ 6, 10, fun _ b => if b.lo 0 ≤ b.up 0 ∧ b.lo 1 ≤ b.up 1 then some (fun c => if c = 0 then b.up 0 else b.up 1) else none,
   fun _ _ x => if isFrac (1 / 10 ^ 6) (x 0) then some (0, false) else none, fun c => c = 1, fun b _ => if b.lo 1 ≤ 1 ∧ 1 ≤ b.up 1 then some fun _ => 1 else none⟩

example : MipSelects twoInt exMip := by
  intro k b x j up h
  have h : (if isFrac (1 / 10 ^ 6) (x 0) then some (0, false) else none) = some (j, up) := h
  split_ifs at h with hf
  cases h
  exact ⟨Nat.two_pos, rfl, rfl, hf⟩
example : MipRespects twoInt exMip := by
  intro b x z h c hc hl
  have hc1 : c = 1 := of_decide_eq_true hl
  subst hc1
  have h : (if b.lo 1 ≤ 1 ∧ 1 ≤ b.up 1 then some fun _ => (1 : ℚ) else none) = some z := h
  split_ifs at h with hb
  cases h
  exact hb
example : Respects twoInt exMip.solve := by
  intro k b x h i hi
  have h : (if b.lo 0 ≤ b.up 0 ∧ b.lo 1 ≤ b.up 1 then some (fun c => if c = 0 then b.up 0 else b.up 1) else none) = some x := h
  split_ifs at h with hb
  cases h
  have hi : i < 2 := hi
  have : i = 0 ∨ i = 1 := by omega
  rcases this with rfl | rfl
  · exact ⟨hb.1, le_refl _⟩
  · exact ⟨hb.2, le_refl _⟩
/-- The dive starts at (3/2, 5/2) within [0, 3] × [0, 5/2] and returns (1, 1) after two solves. -/
example : (match diveMip false twoInt exMip 5 ⟨fun _ => 0, fun c => if c = 0 then 3 else 5 / 2⟩ (fun c => if c = 0 then 3 / 2 else 5 / 2) (fun _ => 0) with
    | .found k y v => some (k, y 0, y 1, v)
    | _ => none) = some (2, 1, 1, 2) := by decide +kernel

/-- **C235.**  The assertion at the start fails exactly when the solution of the relaxation is outside the bounds; without assertions nothing is checked. -/
theorem mip_abort_iff (dbg : Bool) (p : Prob) (d : MipDive) (fuel : Nat) (b0 : Bnds) (x0 g0 : Nat → ℚ) (hb : ∀ i < p.m, p.gl i ≤ p.gu i) :
    diveMip dbg p d fuel b0 x0 g0 = .abort ↔ dbg = true ∧ ¬ InBox p.n b0 x0 := by
  have hrow : rowsOk p (adjust p g0 (1 / 10 ^ 6)) g0 = true := (rowsOk_iff _ _ _).2 (adjust_spec p g0 _ hb (by norm_num)).2.1
  have hend : ∀ k b x, mipEnd p d k b x ≠ .abort := by
    intro k b x
    unfold mipEnd
    split
    · simp
    · split
      · simp
      · split
        · simp
        · split <;> simp
  unfold diveMip
  rw [nlpFeasible, hrow, Bool.and_true, ← boxOk_iff]
  cases dbg <;> cases hbx : boxOk p b0 x0 <;> simp
  all_goals
    cases mipLoop p d fuel 0 b0 x0 with
    | none => simp
    | some r => obtain ⟨k', b', x'⟩ := r; simpa using hend k' b' x'

/-- **C235.**  The heuristic returns nothing in exactly these cases: the loop ended and the MIP over the linear columns failed; or an integer column is still fractional; or the NLP with the integers
fixed failed; or its value is not below the incumbent.  In the last two cases one more NLP was solved than in the loop. -/
theorem mip_nothing_iff (p : Prob) (d : MipDive) (fuel : Nat) (b0 : Bnds) (x0 g0 : Nat → ℚ) (k : Nat) :
    diveMip false p d fuel b0 x0 g0 = .nothing k ↔ ∃ k0 b x, mipLoop p d fuel 0 b0 x0 = some (k0, b, x) ∧
      ((k = k0 ∧ (afterMip p d b x = none ∨ ∃ z, afterMip p d b x = some z ∧ ∃ c < p.n, p.isInt c = true ∧ isFrac d.tol (z c) = true)) ∨
       (k = k0 + 1 ∧ ∃ z, afterMip p d b x = some z ∧ (∀ c < p.n, p.isInt c = true → isFrac d.tol (z c) = false) ∧
         (d.solve k0 (fixInts p b z) = none ∨ ∃ y, d.solve k0 (fixInts p b z) = some y ∧ d.inc ≤ p.f y))) := by
  have hfr : ∀ z : Nat → ℚ, ((intCols p).any fun i => isFrac d.tol (z i)) = true ↔ ∃ c < p.n, p.isInt c = true ∧ isFrac d.tol (z c) = true := by
    intro z
    simp [intCols, List.any_eq_true]
  have hnf : ∀ z : Nat → ℚ, ((intCols p).any fun i => isFrac d.tol (z i)) = false ↔ ∀ c < p.n, p.isInt c = true → isFrac d.tol (z c) = false := by
    intro z
    rw [← Bool.not_eq_true, hfr]
    simp
  unfold diveMip
  simp only [Bool.false_and, Bool.false_eq_true, if_false]
  cases mipLoop p d fuel 0 b0 x0 with
  | none => simp
  | some r =>
    obtain ⟨k', b', x'⟩ := r
    simp only [Option.some.injEq, Prod.mk.injEq]
    have : ∀ Q : ℕ → Bnds → (ℕ → ℚ) → Prop, (∃ a b c, (k' = a ∧ b' = b ∧ x' = c) ∧ Q a b c) ↔ Q k' b' x' := by
      intro Q
      constructor
      · rintro ⟨_, _, _, ⟨rfl, rfl, rfl⟩, h⟩; exact h
      · intro h; exact ⟨_, _, _, ⟨rfl, rfl, rfl⟩, h⟩
    rw [this]
    unfold mipEnd
    cases ha : afterMip p d b' x' with
    | none =>
      dsimp only
      constructor
      · intro h; cases h; exact Or.inl ⟨rfl, Or.inl rfl⟩
      · rintro (⟨rfl, _⟩ | ⟨_, z', e, _⟩)
        · rfl
        · cases e
    | some z =>
      cases hf : ((intCols p).any fun i => isFrac d.tol (z i)) with
      | true =>
        have h1 := (hfr z).mp hf
        dsimp only
        rw [if_pos hf]
        constructor
        · intro h; cases h; exact Or.inl ⟨rfl, Or.inr ⟨z, rfl, h1⟩⟩
        · rintro (⟨rfl, _⟩ | ⟨_, z', e, hn, _⟩)
          · rfl
          · cases e
            rw [(hnf z).mpr hn] at hf; cases hf
      | false =>
        have h1 := (hnf z).mp hf
        have h2 : ¬ ∃ c < p.n, p.isInt c = true ∧ isFrac d.tol (z c) = true := by rw [← hfr z, hf]; simp
        dsimp only
        rw [if_neg (by rw [hf]; simp)]
        cases hs : d.solve k' (fixInts p b' z) with
        | none =>
          dsimp only
          constructor
          · intro h; cases h; exact Or.inr ⟨rfl, z, rfl, h1, Or.inl hs⟩
          · rintro (⟨_, h | ⟨z', e, hn⟩⟩ | ⟨rfl, _⟩)
            · cases h
            · cases e; exact absurd hn h2
            · rfl
        | some y =>
          by_cases hv : p.f y < d.inc
          · dsimp only
            rw [if_pos hv]
            refine ⟨fun h => (by cases h), ?_⟩
            rintro (⟨_, h | ⟨z', e, hn⟩⟩ | ⟨_, z', e, _, h | ⟨y', e', hle⟩⟩)
            · cases h
            · cases e; exact absurd hn h2
            · cases e; rw [hs] at h; cases h
            · cases e; rw [hs] at e'; cases e'; exact absurd hv (not_lt.mpr hle)
          · dsimp only
            rw [if_neg hv]
            constructor
            · intro h; cases h; exact Or.inr ⟨rfl, z, rfl, h1, Or.inr ⟨y, hs, not_lt.mp hv⟩⟩
            · rintro (⟨_, h | ⟨z', e, hn⟩⟩ | ⟨rfl, _⟩)
              · cases h
              · cases e; exact absurd hn h2
              · rfl

/-- A relaxation outside the bounds trips the assertion; a solver that fails leaves nothing after one NLP. -/
example : diveMip true oneInt ⟨1 / 10 ^ 6, 10, upSolver, fun _ _ _ => none, fun _ => false, fun _ _ => none⟩ 0 ⟨fun _ => 0, fun _ => 1⟩ (fun _ => 2) (fun _ => 0) = .abort :=
  (mip_abort_iff true oneInt _ 0 _ _ _ (by simp [oneInt])).mpr ⟨rfl, fun h => by have := h 0 (by simp [oneInt]); norm_num at this⟩

example : diveMip false oneInt ⟨1 / 10 ^ 6, 10, fun _ _ => none, fun _ _ _ => none, fun _ => false, fun _ _ => none⟩ 0 ⟨fun _ => 0, fun _ => 1⟩ (fun _ => 1) (fun _ => 0) = .nothing 1 := by
  norm_num [diveMip, mipLoop, mipEnd, afterMip, nlInts, linInts, intCols, isFrac, oneInt]

end Verif.Heur

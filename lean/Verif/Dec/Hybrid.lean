import Verif.Dec.OaLoop
import Mathlib.Data.Rat.Floor
import Mathlib.Algebra.Order.Floor.Ring
import Mathlib.Algebra.Order.Field.Basic
import Mathlib.Tactic.Ring
import Mathlib.Tactic.Linarith
/-!
# C66, C69: NLP relaxations in the hybrid algorithm, C67: the wrapper of the MILP solver, C68: removal of slack cuts
`src/Algorithms/OaGenerators/BonOaNlpOptim.cpp` 62-173, `src/Algorithms/BonSubMipSolver.cpp` 147-177, 192-242, 327-372, `src/Algorithms/QuadCuts/BonLinearCutsGenerator.cpp` 108-153.
-/
namespace Verif.Dec

/-! ## `OaNlpOptim::generateCuts` -/

/-- Bounds of the columns. -/
abbrev Bnds := List (ℚ × ℚ)

/-- Answer of the NLP solver. `fail`: abandoned or iteration limit reached (139). -/
structure HybA where
  optimal : Bool
  fail : Bool
  x : List ℚ
  obj : ℚ
deriving DecidableEq

/-- Configuration: `maxDepth_`, `solves_per_level_`, which columns are integer, `addOnlyViolated_`. -/
structure HybCfg where
  maxDepth : Nat
  perLevel : ℚ
  isInt : List Bool
  only : Bool

/-- What the generator is called with: `info.inTree`, `info.pass`, `info.level`, depth of the current node (0 without a node), random number, bounds and solution of the LP. -/
structure HybCall where
  inTree : Bool
  pass : Nat
  level : Nat
  depth : Nat
  rand : ℚ
  bnds : Bnds
  x : List ℚ

/-- Early returns (74, 81-89). -/
def hybSkip (c : HybCfg) (k : HybCall) : Bool :=
  (!k.inTree || decide (0 < k.pass)) || decide (k.level > c.maxDepth) || (decide (c.perLevel < 10 ^ 10) && decide (1 / 2 ^ k.depth * c.perLevel ≤ k.rand))

/-- `setColBounds` on the integer columns (96-100 and 163-167): entries of `b` replaced by those of `n`. -/
def setInts (isInt : List Bool) (b n : Bnds) : Bnds := b.mapIdx fun i q => if isInt[i]? = some true then (n[i]?).getD q else q

/-- The integrality test (113-120). -/
def hybInt (isInt : List Bool) (x : List ℚ) : Bool := (x.zip isInt).all fun p => !(p.2 && decide (|p.1 - (⌊p.1 + 1 / 2⌋ : ℚ)| > 1 / 10 ^ 7))

/-- State: bounds of the NLP, number of solves, solution stored in the auxiliary information (values and objective as extra entry; objective). -/
structure HybSt where
  bnds : Bnds
  nSolve : Nat
  stored : Option (List ℚ × ℚ)
deriving DecidableEq

/-- Outcome: state, new cuts, whether the exception of line 140 is thrown. -/
structure HybOut (κ : Type) where
  st : HybSt
  cuts : List κ
  thrown : Bool
deriving DecidableEq

/-- `generateCuts` (62-173).  The point at which cuts must be violated is passed as second argument of `gen`. -/
def hybGen {κ : Type} (nlp : Bnds → HybA) (gen : List ℚ → Option (List ℚ) → List κ) (c : HybCfg) (k : HybCall) (s : HybSt) : HybOut κ :=
  if hybSkip c k then ⟨s, [], false⟩
  else
    let b := setInts c.isInt s.bnds k.bnds
    let a := nlp b
    let cuts := gen a.x (if c.only then some k.x else none)
    if a.optimal then
      let st := if hybInt c.isInt a.x then some (a.x ++ [a.obj], a.obj) else s.stored
      ⟨⟨setInts c.isInt b s.bnds, s.nSolve + 1, st⟩, cuts, false⟩
    else if a.fail then ⟨⟨b, s.nSolve + 1, s.stored⟩, cuts, true⟩
    else ⟨⟨setInts c.isInt b s.bnds, s.nSolve + 1, s.stored⟩, cuts, false⟩

/-- Calls one after the other until one throws. -/
def hybRun {κ : Type} (nlp : Bnds → HybA) (gen : List ℚ → Option (List ℚ) → List κ) (c : HybCfg) : List HybCall → HybSt → HybOut κ
  | [], s => ⟨s, [], false⟩
  | k :: ks, s =>
    let o := hybGen nlp gen c k s
    if o.thrown then o else
      let r := hybRun nlp gen c ks o.st
      ⟨r.st, o.cuts ++ r.cuts, r.thrown⟩

/-! ## `SubMipSolver` with Cbc -/

/-- Answer of Cbc: proven optimal, proven infeasible, best bound, best solution if `getSolutionCount()` is positive. -/
structure CbcA where
  opt : Bool
  inf : Bool
  low : ℚ
  sol : Option (List ℚ)

/-- `clp_->getNumCols()`, `lowBound_` (`none` is `-COIN_DBL_MAX`), `optimal_`, `integerSolution_`. -/
structure SubSt where
  cols : Nat
  low : Option ℚ
  opt : Bool
  buf : Option (List ℚ)
deriving DecidableEq

/-- Operations: `setLpSolver` with a problem of so many columns, columns added to that problem from outside, `solve` (`find_good_sol` and `optimize` treat the answer alike). -/
inductive SubOp
  | setLp (n : Nat)
  | addCol
  | solve (a : CbcA)

/-- One operation (171-176; 220-234 and 354-368).  The buffer is allocated only if there is none; writing past its end is undefined (`none`). -/
def subStep (s : SubSt) : SubOp → Option SubSt
  | .setLp n => some ⟨n, none, false, none⟩
  | .addCol => some { s with cols := s.cols + 1 }
  | .solve a =>
    match a.sol with
    | some x =>
      match s.buf with
      | some b => if s.cols ≤ b.length then some ⟨s.cols, some a.low, a.opt || a.inf, some (x.take s.cols ++ b.drop s.cols)⟩ else none
      | none => some ⟨s.cols, some a.low, a.opt || a.inf, some (x.take s.cols)⟩
    | none => some ⟨s.cols, some a.low, a.opt || a.inf, none⟩

/-- A history of operations. -/
def subRun (s : SubSt) : List SubOp → Option SubSt
  | [] => some s
  | o :: os => (subStep s o).bind fun t => subRun t os

/-! ## `LinearCutsGenerator::generateCuts` -/

/-- The rounds (118-134): `gen` gives the cuts of a round from those applied so far.  Returns the contents of `cs` and the applied cuts.  `&mycuts[0]` of an empty vector is undefined (`none`). -/
def lcRounds {κ : Type} (gen : List κ → List κ) : Nat → List κ × List κ → Option (List κ × List κ)
  | 0, s => some s
  | n + 1, s => if gen s.2 = [] then none else lcRounds gen n (s.1 ++ gen s.2, s.2 ++ gen s.2)

/-- The removal (147-150): from the last applied row to the first; `tight j` says that the `j`-th applied row is at one of its sides. -/
def lcErase {κ : Type} (tight : Nat → Bool) (n : Nat) (cs : List κ) : List κ := (List.range n).reverse.foldl (fun l j => if tight j then l else l.eraseIdx j) cs

/-- `CoinRelFltEq(1e-6)` and the test of line 148. -/
def relEq (a b : ℚ) : Bool := decide (a = b) || decide (|a - b| ≤ 1 / 10 ^ 6 * (1 + max |a| |b|))

/-- Row at one of its sides. -/
def atSide (act lb ub : ℚ) : Bool := relEq act lb || relEq act ub

/-- `generateCuts` (108-153); `tight` may depend on all applied cuts. -/
def lcGen {κ : Type} (gen : List κ → List κ) (tight : List κ → Nat → Bool) (cs : List κ) : Option (List κ) :=
  (lcRounds gen 5 (cs, [])).map fun r => lcErase (tight r.2) r.2.length r.1

/-! ## Specification -/

/-- Column by column within bounds. -/
def Within (b : Bnds) (x : List ℚ) : Prop := ∀ (i : Nat) (q : ℚ × ℚ), b[i]? = some q → ∃ v, x[i]? = some v ∧ q.1 ≤ v ∧ v ≤ q.2

/-- Solution of the last `solve` after the last `setLpSolver`. -/
def lastSol : List SubOp → Option (Bool × Option ℚ × Option (List ℚ))
  | [] => none
  | .setLp _ :: os => (lastSol os).or (some (false, none, none))
  | .addCol :: os => lastSol os
  | .solve a :: os => (lastSol os).or (some (a.opt || a.inf, some a.low, a.sol))

/-! ## Properties: hybrid -/

/-- **C66**: the relaxation is solved exactly if the generator is called in the tree in the first pass, at a level not beyond the limit, and the random number lies below
`nlp_solves_per_depth / 2^depth` (or that option is at least `1e10`). -/
theorem hyb_solves_iff (c : HybCfg) (k : HybCall) : hybSkip c k = false ↔ k.inTree = true ∧ k.pass = 0 ∧ k.level ≤ c.maxDepth ∧ (10 ^ 10 ≤ c.perLevel ∨ k.rand * 2 ^ k.depth < c.perLevel) := by
  have h2 : (0 : ℚ) < 2 ^ k.depth := by positivity
  have e : 1 / 2 ^ k.depth * c.perLevel ≤ k.rand ↔ c.perLevel ≤ k.rand * 2 ^ k.depth := by
    rw [one_div, inv_mul_le_iff₀ h2, mul_comm]
  unfold hybSkip
  simp only [Bool.or_eq_false_iff, Bool.and_eq_false_iff, decide_eq_false_iff_not, Bool.not_eq_false', e]
  constructor
  · rintro ⟨⟨⟨h1, h3⟩, h4⟩, h5⟩
    refine ⟨h1, by omega, by omega, ?_⟩
    rcases h5 with h5 | h5
    · exact Or.inl (not_lt.1 h5)
    · exact Or.inr (not_le.1 h5)
  · rintro ⟨h1, h3, h4, h5⟩
    refine ⟨⟨⟨h1, by omega⟩, by omega⟩, ?_⟩
    rcases h5 with h5 | h5
    · exact Or.inl (not_lt.2 h5)
    · exact Or.inr (not_le.2 h5)

example : hybSkip ⟨10, 10 ^ 100, [], false⟩ ⟨true, 0, 3, 3, 1 / 2, [], []⟩ = false ∧ hybSkip ⟨10, 1, [], false⟩ ⟨true, 0, 3, 3, 1 / 2, [], []⟩ = true := by decide +kernel

/-- **C66** refuted for the documented meaning of `nlp_solve_max_depth 0` ("never solve the NLP relaxation", 186-187): it is solved at the root. -/
theorem hyb_depth_zero : hybSkip ⟨0, 10 ^ 100, [], false⟩ ⟨true, 0, 0, 0, 1 / 2, [], []⟩ = false := by decide +kernel

/-- Bounds column by column after `setInts`. -/
theorem setInts_get (isInt : List Bool) (b n : Bnds) (i : Nat) : (setInts isInt b n)[i]? = (b[i]?).map fun q => if isInt[i]? = some true then (n[i]?).getD q else q := by
  unfold setInts
  rw [List.getElem?_mapIdx]

theorem setInts_back (isInt : List Bool) (b n : Bnds) : setInts isInt (setInts isInt b n) b = b := by
  apply List.ext_getElem?
  intro i
  rw [setInts_get, setInts_get]
  cases h : b[i]? with
  | none => rfl
  | some q =>
    simp only [Option.map_some]
    by_cases hi : isInt[i]? = some true
    · simp [hi]
    · simp [hi]

/-- The integrality test: every integer column is within `1e-7` of an integer. -/
theorem hybInt_iff (isInt : List Bool) (x : List ℚ) : hybInt isInt x = true ↔ ∀ (i : Nat) (v : ℚ), isInt[i]? = some true → x[i]? = some v → ∃ n : ℤ, |v - (n : ℚ)| ≤ 1 / 10 ^ 7 := by
  have key : ∀ v : ℚ, |v - (⌊v + 1 / 2⌋ : ℚ)| ≤ 1 / 10 ^ 7 ↔ ∃ n : ℤ, |v - (n : ℚ)| ≤ 1 / 10 ^ 7 := by
    intro v
    refine ⟨fun h => ⟨_, h⟩, ?_⟩
    rintro ⟨n, hn⟩
    have : ⌊v + 1 / 2⌋ = n := by
      rw [Int.floor_eq_iff]
      rw [abs_le] at hn
      constructor <;> linarith [hn.1, hn.2]
    rw [this]; exact hn
  unfold hybInt
  rw [List.all_eq_true]
  constructor
  · intro h i v hi hv
    have hm : (v, true) ∈ x.zip isInt := by
      rw [List.mem_iff_getElem?]
      exact ⟨i, by rw [List.getElem?_zip_eq_some]; exact ⟨hv, hi⟩⟩
    have := h _ hm
    simp only [Bool.true_and, Bool.not_eq_true', decide_eq_false_iff_not, gt_iff_lt, not_lt] at this
    exact (key v).1 this
  · rintro h ⟨v, b⟩ hp
    obtain ⟨i, hi⟩ := List.mem_iff_getElem?.1 hp
    rw [List.getElem?_zip_eq_some] at hi
    cases b
    · simp
    · simp only [Bool.true_and, Bool.not_eq_true', decide_eq_false_iff_not, gt_iff_lt, not_lt]
      exact (key v).2 (h i v hi.2 hi.1)

/-- **C66**: exact outcome of a call that is not skipped: the NLP has the LP's bounds on the integer columns and its own on the others; cuts are those generated at its solution; the solve
is counted; the bounds are the old ones again unless the solve failed; the solution is stored iff optimal and integer to `1e-7`. -/
theorem hyb_exact {κ : Type} (nlp : Bnds → HybA) (gen : List ℚ → Option (List ℚ) → List κ) (c : HybCfg) (k : HybCall) (s : HybSt) (h : hybSkip c k = false) :
    ∃ b, (∀ i : Nat, b[i]? = (s.bnds[i]?).map fun q => if c.isInt[i]? = some true then (k.bnds[i]?).getD q else q) ∧
      (hybGen nlp gen c k s).cuts = gen (nlp b).x (if c.only then some k.x else none) ∧
      (hybGen nlp gen c k s).st.nSolve = s.nSolve + 1 ∧
      ((hybGen nlp gen c k s).thrown = true ↔ (nlp b).optimal = false ∧ (nlp b).fail = true) ∧
      (hybGen nlp gen c k s).st.bnds = (if (nlp b).optimal = false ∧ (nlp b).fail = true then b else s.bnds) ∧
      (hybGen nlp gen c k s).st.stored = (if (nlp b).optimal = true ∧ hybInt c.isInt (nlp b).x = true then some ((nlp b).x ++ [(nlp b).obj], (nlp b).obj) else s.stored) := by
  refine ⟨setInts c.isInt s.bnds k.bnds, fun i => setInts_get _ _ _ i, ?_⟩
  unfold hybGen
  rw [h]
  simp only [Bool.false_eq_true, if_false]
  cases ho : (nlp (setInts c.isInt s.bnds k.bnds)).optimal
  · cases hf : (nlp (setInts c.isInt s.bnds k.bnds)).fail
    · simp [setInts_back]
    · simp
  · cases hi : hybInt c.isInt (nlp (setInts c.isInt s.bnds k.bnds)).x <;> simp [setInts_back]

theorem hyb_skipped {κ : Type} (nlp : Bnds → HybA) (gen : List ℚ → Option (List ℚ) → List κ) (c : HybCfg) (k : HybCall) (s : HybSt) (h : hybSkip c k = true) : hybGen nlp gen c k s = ⟨s, [], false⟩ := by
  unfold hybGen
  rw [h]
  simp

/-- **C66**, partial: over any sequence of calls that throws nothing, the bounds of the NLP are the same afterwards.  Missing: the exception, refuted below. -/
theorem hyb_restored_partial {κ : Type} (nlp : Bnds → HybA) (gen : List ℚ → Option (List ℚ) → List κ) (c : HybCfg) : ∀ (ks : List HybCall) (s : HybSt),
    (hybRun nlp gen c ks s).thrown = false → (hybRun nlp gen c ks s).st.bnds = s.bnds
  | [], s, _ => rfl
  | k :: ks, s, h => by
    unfold hybRun at h ⊢
    simp only at h ⊢
    cases ht : (hybGen nlp gen c k s).thrown
    · rw [ht] at h
      simp only [Bool.false_eq_true, if_false] at h ⊢
      rw [hyb_restored_partial nlp gen c ks _ h]
      cases hs : hybSkip c k
      · obtain ⟨b, _, _, _, h4, h5, _⟩ := hyb_exact nlp gen c k s hs
        rw [h5, if_neg]
        intro hh
        rw [h4.2 hh] at ht
        exact absurd ht (by simp)
      · rw [hyb_skipped nlp gen c k s hs]
    · rw [ht] at h
      simp only [if_true] at h
      rw [ht] at h
      exact absurd h (by simp)

/-- An NLP solver that fails on the bounds `[1, 1]`. -/
def exHyb (b : Bnds) : HybA := if b = [(1, 1)] then ⟨false, true, [1], 0⟩ else ⟨true, false, [0], 5⟩

example : hybRun (κ := Nat) exHyb (fun _ _ => [7]) ⟨10, 10 ^ 100, [true], false⟩ [⟨true, 0, 0, 0, 0, [(0, 0)], [0]⟩, ⟨true, 1, 0, 0, 0, [(1, 1)], [0]⟩] ⟨[(0, 1)], 0, none⟩ =
    ⟨⟨[(0, 1)], 1, some ([0, 5], 5)⟩, [7], false⟩ := by decide +kernel

/-- **C66** refuted: when the NLP solver fails, the exception leaves the NLP with the bounds of the node. -/
theorem hyb_throw_leaves_bounds : (hybRun (κ := Nat) exHyb (fun _ _ => [7]) ⟨10, 10 ^ 100, [true], false⟩ [⟨true, 0, 0, 0, 0, [(1, 1)], [0]⟩] ⟨[(0, 1)], 0, none⟩) = ⟨⟨[(1, 1)], 1, none⟩, [7], true⟩ := by
  decide +kernel

/-- **C69**: over any sequence of calls at nodes whose bounds lie within those of the problem, every cut made is valid and every solution stored satisfies the constraints and the bounds of
the problem, is integer to `1e-7`, and carries its objective value twice. -/
theorem hyb_sound {κ : Type} (nlp : Bnds → HybA) (gen : List ℚ → Option (List ℚ) → List κ) (c : HybCfg) (root : Bnds) (feas : List ℚ → Prop) (f : List ℚ → ℚ) (sat : κ → Prop)
    (hn : ∀ b, (nlp b).optimal = true → feas (nlp b).x ∧ Within b (nlp b).x ∧ (nlp b).obj = f (nlp b).x) (hv : ∀ x v, ∀ k ∈ gen x v, sat k) :
    ∀ (ks : List HybCall) (s : HybSt), s.bnds = root → (∀ k ∈ ks, ∀ (i : Nat) (q r : ℚ × ℚ), k.bnds[i]? = some q → root[i]? = some r → r.1 ≤ q.1 ∧ q.2 ≤ r.2) →
      (∀ y, s.stored = some y → ∃ x, y = (x ++ [f x], f x) ∧ feas x ∧ Within root x ∧ hybInt c.isInt x = true) →
      (∀ k ∈ (hybRun nlp gen c ks s).cuts, sat k) ∧
      ∀ y, (hybRun nlp gen c ks s).st.stored = some y → ∃ x, y = (x ++ [f x], f x) ∧ feas x ∧ Within root x ∧ hybInt c.isInt x = true
  | [], s, _, _, hst => ⟨by simp [hybRun], hst⟩
  | k :: ks, s, hb, hk, hst => by
    have one : (∀ u ∈ (hybGen nlp gen c k s).cuts, sat u) ∧ ((hybGen nlp gen c k s).thrown = false → (hybGen nlp gen c k s).st.bnds = root) ∧
        ∀ y, (hybGen nlp gen c k s).st.stored = some y → ∃ x, y = (x ++ [f x], f x) ∧ feas x ∧ Within root x ∧ hybInt c.isInt x = true := by
      cases hs : hybSkip c k
      · obtain ⟨b, h1, h2, _, h4, h5, h6⟩ := hyb_exact nlp gen c k s hs
        refine ⟨by rw [h2]; exact hv _ _, ?_, ?_⟩
        · intro ht
          rw [h5, if_neg]
          · exact hb
          · intro hh; rw [h4.2 hh] at ht; exact absurd ht (by simp)
        · intro y hy
          rw [h6] at hy
          split at hy
          · rename_i ho
            obtain ⟨g1, g2, g3⟩ := hn b ho.1
            refine ⟨(nlp b).x, by rw [← Option.some.inj hy, g3], g1, ?_, ho.2⟩
            intro i r hr
            have hbi := h1 i
            rw [hb, hr] at hbi
            simp only [Option.map_some] at hbi
            obtain ⟨v, hv1, hv2, hv3⟩ := g2 i _ hbi
            refine ⟨v, hv1, ?_⟩
            split at hv2
            · rename_i hi
              rw [if_pos hi] at hv3
              cases hq : k.bnds[i]? with
              | none => rw [hq] at hv2 hv3; exact ⟨hv2, hv3⟩
              | some q =>
                rw [hq] at hv2 hv3
                obtain ⟨w1, w2⟩ := hk k (by simp) i q r hq hr
                exact ⟨le_trans w1 hv2, le_trans hv3 w2⟩
            · rename_i hi
              rw [if_neg hi] at hv3
              exact ⟨hv2, hv3⟩
          · exact hst y hy
      · rw [hyb_skipped nlp gen c k s hs]
        exact ⟨by simp, fun _ => hb, hst⟩
    unfold hybRun
    simp only
    cases ht : (hybGen nlp gen c k s).thrown
    · simp only [Bool.false_eq_true, if_false]
      obtain ⟨r1, r2⟩ := hyb_sound nlp gen c root feas f sat hn hv ks (hybGen nlp gen c k s).st (one.2.1 ht) (fun j hj => hk j (List.mem_cons_of_mem _ hj)) one.2.2
      refine ⟨fun u hu => ?_, r2⟩
      rcases List.mem_append.1 hu with hu | hu
      · exact one.1 u hu
      · exact r1 u hu
    · simp only [if_true]
      exact ⟨one.1, one.2.2⟩

/-! ## Properties: MILP wrapper -/

/-- The buffer is as long as the LP has columns. -/
def BufOk (s : SubSt) : Prop := ∀ b, s.buf = some b → b.length = s.cols

/-- Columns are added only while no solution is stored, and Cbc's solutions have one entry per column. -/
def SubFair : SubSt → List SubOp → Prop
  | _, [] => True
  | s, o :: os => (match o with | .addCol => s.buf = none | .solve a => ∀ x, a.sol = some x → x.length = s.cols | .setLp _ => True) ∧ ∀ t, subStep s o = some t → SubFair t os

/-- **C67**: in every fair history nothing is undefined, and at the end the solution, status and bound are those of the last solve since the last problem was set. -/
theorem sub_last : ∀ (os : List SubOp) (s : SubSt), BufOk s → SubFair s os → ∃ t, subRun s os = some t ∧ (t.opt, t.low, t.buf) = (lastSol os).getD (s.opt, s.low, s.buf)
  | [], s, _, _ => ⟨s, rfl, rfl⟩
  | o :: os, s, hb, hf => by
    have step : ∃ t, subStep s o = some t ∧ BufOk t ∧ (t.opt, t.low, t.buf) = (lastSol [o]).getD (s.opt, s.low, s.buf) := by
      cases o with
      | setLp n => exact ⟨_, rfl, by intro b hb'; simp at hb', rfl⟩
      | addCol =>
        have := hf.1
        simp only at this
        exact ⟨_, rfl, by intro b hb'; simp only at hb'; rw [this] at hb'; simp at hb', rfl⟩
      | solve a =>
        have hl := hf.1
        simp only at hl
        unfold subStep
        simp only
        cases hs : a.sol with
        | none => exact ⟨_, rfl, by intro b hb'; simp at hb', by simp [lastSol, hs]⟩
        | some x =>
          have hx := hl x hs
          cases hbuf : s.buf with
          | none =>
            refine ⟨_, rfl, ?_, ?_⟩
            · intro b hb'; simp only [Option.some.injEq] at hb'; rw [← hb']; simp [hx]
            · simp [lastSol, hs, ← hx]
          | some b =>
            have hbl := hb b hbuf
            refine ⟨_, if_pos (le_of_eq hbl.symm), ?_, ?_⟩
            · intro b' hb'; simp only [Option.some.injEq] at hb'; rw [← hb']; simp [hx, hbl]
            · simp [lastSol, hs, ← hx, List.drop_eq_nil_of_le (le_of_eq (hbl.trans hx.symm))]
    obtain ⟨t, ht, hbt, het⟩ := step
    obtain ⟨u, hu, heu⟩ := sub_last os t hbt (hf.2 t ht)
    refine ⟨u, by unfold subRun; rw [ht]; exact hu, ?_⟩
    rw [heu]
    cases hl : lastSol os with
    | some v => cases o <;> simp [lastSol, hl]
    | none => rw [Option.getD_none, het]; cases o <;> simp [lastSol, hl]

example : subRun ⟨0, none, false, none⟩ [.setLp 1, .addCol, .solve ⟨true, false, 3, some [1, 3]⟩, .solve ⟨false, false, 4, some [2, 4]⟩] = some ⟨2, some 4, false, some [2, 4]⟩ ∧
    subRun ⟨0, none, false, none⟩ [.setLp 1, .solve ⟨true, false, 3, some [1]⟩, .solve ⟨false, true, 4, none⟩] = some ⟨1, some 4, true, none⟩ := by decide +kernel

/-- **C67** refuted without the proviso: a column added after a solution was found makes the next solution overflow the buffer. -/
theorem sub_overflow : subRun ⟨0, none, false, none⟩ [.setLp 1, .solve ⟨true, false, 3, some [1]⟩, .addCol, .solve ⟨true, false, 3, some [1, 3]⟩] = none := by decide +kernel

/-! ## Properties: slack cuts -/

/-- Removal from the back: the first `n` entries are filtered, the others stay. -/
theorem lcErase_eq {κ : Type} (tight : Nat → Bool) : ∀ (n : Nat) (l : List κ), n ≤ l.length → lcErase tight n l = (((l.take n).zipIdx.filter fun p => tight p.2).map Prod.fst) ++ l.drop n
  | 0, l, _ => by simp [lcErase]
  | n + 1, l, h => by
    have hn : n < l.length := h
    have e : lcErase tight (n + 1) l = lcErase tight n (if tight n then l else l.eraseIdx n) := by
      unfold lcErase
      rw [List.range_succ, List.reverse_append]
      rfl
    rw [e]
    have ht : l.take (n + 1) = l.take n ++ [l[n]] := (List.take_concat_get' l n hn).symm
    cases hc : tight n
    · simp only [Bool.false_eq_true, if_false]
      rw [lcErase_eq tight n _ (by rw [List.length_eraseIdx]; split <;> omega)]
      have h1 : (l.eraseIdx n).take n = l.take n := by rw [List.eraseIdx_eq_take_drop_succ, List.take_append_of_le_length (by simp; omega)]; simp
      have h2 : (l.eraseIdx n).drop n = l.drop (n + 1) := by
        rw [List.eraseIdx_eq_take_drop_succ, List.drop_append_of_le_length (by simp; omega)]; simp
      rw [h1, h2, ht, List.zipIdx_append, List.filter_append, List.map_append]
      simp [hc, Nat.min_eq_left (le_of_lt hn)]
    · simp only [if_true]
      rw [lcErase_eq tight n l (le_of_lt hn), ht, List.zipIdx_append, List.filter_append, List.map_append]
      simp [hc, Nat.min_eq_left (le_of_lt hn)]

theorem lcRounds_eq {κ : Type} (gen : List κ → List κ) : ∀ (n : Nat) (cs ap : List κ) (r : List κ × List κ), lcRounds gen n (cs, ap) = some r → ∃ new, r = (cs ++ new, ap ++ new) ∧ n ≤ new.length
  | 0, cs, ap, r, h => ⟨[], by rw [← Option.some.inj h]; simp, by simp⟩
  | n + 1, cs, ap, r, h => by
    unfold lcRounds at h
    split at h
    · simp at h
    · rename_i hg
      obtain ⟨new, h1, h2⟩ := lcRounds_eq gen n _ _ r h
      refine ⟨gen ap ++ new, by rw [h1]; simp, ?_⟩
      have : 0 < (gen ap).length := List.length_pos_iff.2 hg
      rw [List.length_append]; omega

/-- **C68**: exact result for any contents `cs`: with `new` the cuts made (at least five), the first `new.length` cuts of `cs ++ new` are filtered by the state of the rows of `new`. -/
theorem lc_exact {κ : Type} (gen : List κ → List κ) (tight : List κ → Nat → Bool) (cs res : List κ) (h : lcGen gen tight cs = some res) :
    ∃ new, lcRounds gen 5 (cs, []) = some (cs ++ new, new) ∧ 5 ≤ new.length ∧
      res = ((((cs ++ new).take new.length).zipIdx.filter fun p => tight new p.2).map Prod.fst) ++ (cs ++ new).drop new.length := by
  unfold lcGen at h
  obtain ⟨r, hr, h2⟩ := Option.map_eq_some_iff.1 h
  obtain ⟨new, h3, h4⟩ := lcRounds_eq gen 5 cs [] r hr
  rw [List.nil_append] at h3
  rw [h3] at hr h2
  exact ⟨new, hr, h4, by rw [← h2, lcErase_eq _ _ _ (by simp)]⟩

/-- **C68**, partial: if no cuts were there before, exactly the cuts at one of their sides are returned. -/
theorem lc_slack_partial {κ : Type} (gen : List κ → List κ) (tight : List κ → Nat → Bool) (res : List κ) (h : lcGen gen tight [] = some res) :
    ∃ new, lcRounds gen 5 ([], []) = some (new, new) ∧ res = (new.zipIdx.filter fun p => tight new p.2).map Prod.fst := by
  obtain ⟨new, h1, _, h3⟩ := lc_exact gen tight [] res h
  exact ⟨new, by simpa using h1, by simpa using h3⟩

example : lcGen (fun l => [l.length]) (fun _ j => j % 2 == 0) [] = some [0, 2, 4] := by decide +kernel

/-- **C68** refuted: a cut that was there before (100) is removed and a slack one (4) stays. -/
theorem lc_removes_other : lcGen (fun l => [l.length]) (fun _ j => j != 0 && j != 4) [100] = some [0, 1, 2, 4] := by decide +kernel

/-- **C68**: a round without cuts is undefined behaviour. -/
theorem lc_undefined {κ : Type} (gen : List κ → List κ) (tight : List κ → Nat → Bool) (cs : List κ) (h : gen [] = []) : lcGen gen tight cs = none := by
  unfold lcGen lcRounds
  simp [h]

/-- The test for a row at one of its sides. -/
theorem atSide_iff (act lb ub : ℚ) : atSide act lb ub = true ↔ |act - lb| ≤ 1 / 10 ^ 6 * (1 + max |act| |lb|) ∨ |act - ub| ≤ 1 / 10 ^ 6 * (1 + max |act| |ub|) := by
  have key : ∀ a b : ℚ, relEq a b = true ↔ |a - b| ≤ 1 / 10 ^ 6 * (1 + max |a| |b|) := by
    intro a b
    unfold relEq
    rw [Bool.or_eq_true, decide_eq_true_iff, decide_eq_true_iff]
    refine ⟨?_, Or.inr⟩
    rintro (h | h)
    · rw [h, sub_self, abs_zero]
      have := abs_nonneg b
      rw [max_self]
      positivity
    · exact h
  unfold atSide
  rw [Bool.or_eq_true, key, key]

/-- **C66**: one call is one call, and calls after each other run until one throws, with all their cuts. -/
theorem hyb_run_single {κ : Type} (nlp : Bnds → HybA) (gen : List ℚ → Option (List ℚ) → List κ) (c : HybCfg) (k : HybCall) (s : HybSt) :
    hybRun nlp gen c [k] s = hybGen nlp gen c k s := by
  unfold hybRun
  dsimp only
  cases h : (hybGen nlp gen c k s).thrown
  · rw [if_neg (by simp)]
    simp only [hybRun, List.append_nil]
    rw [← h]
  · simp

theorem hyb_run_append {κ : Type} (nlp : Bnds → HybA) (gen : List ℚ → Option (List ℚ) → List κ) (c : HybCfg) (ks ls : List HybCall) (s : HybSt) :
    hybRun nlp gen c (ks ++ ls) s = if (hybRun nlp gen c ks s).thrown then hybRun nlp gen c ks s else
      ⟨(hybRun nlp gen c ls (hybRun nlp gen c ks s).st).st, (hybRun nlp gen c ks s).cuts ++ (hybRun nlp gen c ls (hybRun nlp gen c ks s).st).cuts, (hybRun nlp gen c ls (hybRun nlp gen c ks s).st).thrown⟩ := by
  induction ks generalizing s with
  | nil => simp [hybRun]
  | cons k ks ih =>
    simp only [List.cons_append, hybRun]
    cases h : (hybGen nlp gen c k s).thrown
    · simp only [Bool.false_eq_true, if_false]
      rw [ih]
      cases h2 : (hybRun nlp gen c ks (hybGen nlp gen c k s).st).thrown <;> simp [List.append_assoc, h2]
    · simp [h]

end Verif.Dec

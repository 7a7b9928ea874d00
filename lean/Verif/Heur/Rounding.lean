import Verif.Heur.MilpProps

/-!
# The MILP rounding heuristic as a whole

`MilpRounding` (src/CbcBonmin/Heuristics/BonMilpRounding.cpp:29-354): when it runs, the MILP it builds, and the cuts it keeps from call to call.

The MILP solver and the NLP solver are parameters.  The message handler of the sub-solver (236-238, 292) has no effect on the result and is left out.  `x_sol` (113) has been set by an
earlier solve of the problem.
-/

namespace Verif.Heur

/-- What `solution` is told by the branch-and-bound: `getCurrentPassNumber`, `currentDepth`, `getNodeCount`, the bounds and the solution of the relaxation, the value of the
incumbent (`solutionValue`). -/
structure RoundNode where
  pass : ℤ
  depth : ℤ
  nodes : ℤ
  b : Bnds
  x : Nat → ℚ
  inc : ℚ

/-- The linear part of the problem: `c_lin`, the entries of the Jacobian and the order they are sorted in (125-157). -/
structure LinPart where
  lin : Nat → Bool
  ents : List Ent
  srt : List Nat

/-- The MILP handed to the sub-solver (182-243). -/
structure RMilp where
  col : Nat → List (Nat × ℚ)
  rowLo : List ℚ
  rowUp : List ℚ
  b : Bnds
  obj : Nat → ℚ
  ints : List Nat
  cuts : List NoGood

/-- The members that matter: `howOften_` and `noGoods` (src/CbcBonmin/Heuristics/BonMilpRounding.hpp:62-66). -/
structure Rounding where
  howOften : ℤ
  cuts : List NoGood

/-- Constructor (29-37). -/
def Rounding.new : Rounding := ⟨20, []⟩

/-- Copy constructor (46-53): `noGoods` is not copied.  `clone` calls it. -/
def Rounding.copy (s : Rounding) : Rounding := ⟨s.howOften, []⟩

/-- Assignment (55-68): `noGoods` stays that of the object on the left. -/
def Rounding.assign (s r : Rounding) : Rounding := ⟨r.howOften, s.cuts⟩

/-- Whether the heuristic runs (87-89). -/
def Rounding.runs (s : Rounding) (nd : RoundNode) : Bool := !(decide (nd.pass > 1) || (decide (nd.depth > 2) && decide (Int.tmod nd.nodes s.howOften ≠ 0)))

/-- Objective (199-205): `1 - 2 x` for the columns that are not continuous, 0 for the others. -/
def roundObj (p : Prob) (x : Nat → ℚ) (c : Nat) : ℚ := if c < p.n ∧ p.isInt c then 1 - 2 * x c else 0

/-- The MILP (125-243). -/
def Rounding.milp (s : Rounding) (p : Prob) (l : LinPart) (nd : RoundNode) : RMilp :=
  { col := (csc (milpItems l.lin l.ents l.srt)).column
    rowLo := ((List.range p.m).filter l.lin).map p.gl
    rowUp := ((List.range p.m).filter l.lin).map p.gu
    b := nd.b, obj := roundObj p nd.x, ints := (List.range p.n).filter p.isInt, cuts := s.cuts }

/-- `solution` (84-354).  `b0` are the bounds of the cloned NLP; the second component is the answer of the MILP if the heuristic got that far. -/
def Rounding.call (tol : ℚ) (p : Prob) (l : LinPart) (b0 : Bnds) (mip : RMilp → Option (Nat → ℚ)) (nlp : Bnds → Option (Nat → ℚ)) (s : Rounding) (nd : RoundNode) :
    Rounding × Option (Nat → ℚ) × Option ((Nat → ℚ) × ℚ) :=
  if s.runs nd then
    let x := mip (s.milp p l nd)
    let r := milpFinish tol nd.inc p b0 nlp s.cuts x
    ({ s with cuts := r.1 }, x, r.2)
  else (s, none, none)

/-- A sequence of calls of one object: state, answers of the MILPs, results. -/
def Rounding.calls (tol : ℚ) (p : Prob) (l : LinPart) (b0 : Bnds) (mip : RMilp → Option (Nat → ℚ)) (nlp : Bnds → Option (Nat → ℚ)) :
    Rounding → List RoundNode → Rounding × List (Option (Nat → ℚ)) × List (Option ((Nat → ℚ) × ℚ))
  | s, [] => (s, [], [])
  | s, nd :: nds =>
    let r := s.call tol p l b0 mip nlp nd
    let t := Rounding.calls tol p l b0 mip nlp r.1 nds
    (t.1, r.2.1 :: t.2.1, r.2.2 :: t.2.2)

/-! ### specification -/

/-- Distance in the integer columns. -/
def intDist (p : Prob) (x y : Nat → ℚ) : ℚ := (((List.range p.n).filter p.isInt).map fun c => |y c - x c|).sum

/-- Objective of the MILP at a point. -/
def RMilp.value (q : RMilp) (n : Nat) (y : Nat → ℚ) : ℚ := ((List.range n).map fun c => q.obj c * y c).sum

/-- Contract of the MILP solver: its answer satisfies the cuts it was given and is integral to the tolerance. -/
def MipOk (tol : ℚ) (p : Prob) (mip : RMilp → Option (Nat → ℚ)) : Prop :=
  ∀ q x, mip q = some x → (∀ g ∈ q.cuts, g.sat x) ∧ Integral p tol x

/-! ### when it runs -/

/-- **C236**: the heuristic runs exactly in the first pass of a node that is at depth two or less or whose number is a multiple of the frequency. -/
theorem round_runs_iff (s : Rounding) (nd : RoundNode) : s.runs nd = true ↔ nd.pass ≤ 1 ∧ (nd.depth ≤ 2 ∨ s.howOften ∣ nd.nodes) := by
  unfold Rounding.runs
  rw [Int.dvd_iff_tmod_eq_zero]
  simp only [Bool.not_eq_true', Bool.or_eq_false_iff, Bool.and_eq_false_iff, decide_eq_false_iff_not]
  constructor
  · rintro ⟨h1, h2⟩
    refine ⟨by omega, ?_⟩
    rcases h2 with h2 | h2
    · exact Or.inl (by omega)
    · exact Or.inr (by simpa using h2)
  · rintro ⟨h1, h2⟩
    refine ⟨by omega, ?_⟩
    rcases h2 with h2 | h2
    · exact Or.inl (by omega)
    · exact Or.inr (by simpa using h2)

/-- **C236**: a call that does not run returns no solution and leaves the cuts as they were. -/
theorem round_skips (tol : ℚ) (p : Prob) (l : LinPart) (b0 : Bnds) (mip : RMilp → Option (Nat → ℚ)) (nlp : Bnds → Option (Nat → ℚ)) (s : Rounding) (nd : RoundNode)
    (h : s.runs nd = false) : s.call tol p l b0 mip nlp nd = (s, none, none) := by simp [Rounding.call, h]

/-- The frequency is never changed. -/
theorem calls_howOften (tol : ℚ) (p : Prob) (l : LinPart) (b0 : Bnds) (mip : RMilp → Option (Nat → ℚ)) (nlp : Bnds → Option (Nat → ℚ)) :
    ∀ (nds : List RoundNode) (s : Rounding), (s.calls tol p l b0 mip nlp nds).1.howOften = s.howOften
  | [], _ => rfl
  | nd :: nds, s => by
    rw [Rounding.calls]
    rw [calls_howOften tol p l b0 mip nlp nds]
    unfold Rounding.call
    split <;> rfl

/-- **C236**: an object made by the constructor runs at depth greater than two every twenty nodes, at any time of its life. -/
theorem round_every_twenty (tol : ℚ) (p : Prob) (l : LinPart) (b0 : Bnds) (mip : RMilp → Option (Nat → ℚ)) (nlp : Bnds → Option (Nat → ℚ)) (nds : List RoundNode)
    (nd : RoundNode) (hp : nd.pass ≤ 1) (hd : 2 < nd.depth) : (Rounding.new.calls tol p l b0 mip nlp nds).1.runs nd = true ↔ 20 ∣ nd.nodes := by
  rw [round_runs_iff, calls_howOften]
  constructor
  · rintro ⟨_, h | h⟩
    · omega
    · exact h
  · exact fun h => ⟨hp, Or.inr h⟩

/-! ### the objective -/

theorem round_value_sum (p : Prob) (x y : Nat → ℚ) : ∀ l : List Nat, (∀ c ∈ l, c < p.n) → (∀ c ∈ l, p.isInt c = true → 0 ≤ x c ∧ x c ≤ 1) →
    (∀ c ∈ l, p.isInt c = true → y c = 0 ∨ y c = 1) →
    (l.map fun c => roundObj p x c * y c).sum = ((l.filter p.isInt).map fun c => |y c - x c|).sum - ((l.filter p.isInt).map x).sum
  | [], _, _, _ => by simp
  | c :: l, hn, hx, hy => by
    have ih := round_value_sum p x y l (fun d hd => hn d (by simp [hd])) (fun d hd => hx d (by simp [hd])) fun d hd => hy d (by simp [hd])
    rw [List.map_cons, List.sum_cons, ih]
    have hc := hn c (by simp)
    by_cases hI : p.isInt c = true
    · rw [List.filter_cons_of_pos hI, List.map_cons, List.map_cons, List.sum_cons, List.sum_cons]
      have h01 := hx c (by simp) hI
      rw [roundObj, if_pos ⟨hc, hI⟩]
      rcases hy c (by simp) hI with h | h
      · rw [h, zero_sub, abs_neg, abs_of_nonneg h01.1]; ring
      · rw [h, abs_of_nonneg (by linarith)]; ring
    · rw [List.filter_cons_of_neg hI, roundObj, if_neg (fun h => hI h.2)]
      ring

/-- **C237**: with 0-1 columns, the objective of the MILP is the distance to the solution of the relaxation in these columns, up to a constant. -/
theorem round_value_partial (s : Rounding) (p : Prob) (l : LinPart) (nd : RoundNode) (y : Nat → ℚ)
    (hx : ∀ c < p.n, p.isInt c = true → 0 ≤ nd.x c ∧ nd.x c ≤ 1) (hy : ∀ c < p.n, p.isInt c = true → y c = 0 ∨ y c = 1) :
    (s.milp p l nd).value p.n y = intDist p nd.x y - (((List.range p.n).filter p.isInt).map nd.x).sum :=
  round_value_sum p nd.x y (List.range p.n) (fun c hc => List.mem_range.1 hc) (fun c hc => hx c (List.mem_range.1 hc)) fun c hc => hy c (List.mem_range.1 hc)

/-- **C237**: so a 0-1 point that minimises the objective among a set of 0-1 points is one nearest to the solution of the relaxation, and conversely. -/
theorem round_nearest_partial (s : Rounding) (p : Prob) (l : LinPart) (nd : RoundNode) (hx : ∀ c < p.n, p.isInt c = true → 0 ≤ nd.x c ∧ nd.x c ≤ 1) (y z : Nat → ℚ)
    (hy : ∀ c < p.n, p.isInt c = true → y c = 0 ∨ y c = 1) (hz : ∀ c < p.n, p.isInt c = true → z c = 0 ∨ z c = 1) :
    (s.milp p l nd).value p.n y ≤ (s.milp p l nd).value p.n z ↔ intDist p nd.x y ≤ intDist p nd.x z := by
  rw [round_value_partial s p l nd y hx hy, round_value_partial s p l nd z hx hz]
  constructor <;> intro h <;> linarith

/-- One integer column. -/
def one1 : Prob := ⟨1, 0, fun _ => true, fun _ => 0, fun _ => 0, fun _ => 0, fun _ _ => 0⟩

/-- The relaxation has the value 3 in a column between 0 and 10. -/
def nodeAt3 : RoundNode := ⟨1, 0, 0, ⟨fun _ => 0, fun _ => 10⟩, fun _ => 3, 0⟩

/-- **C237 (refuted).** For a general integer column at 3 the objective is smaller at 10 than at 3: the MILP goes to the far end of the bounds although the relaxation is integral. -/
theorem round_far : (Rounding.new.milp one1 ⟨fun _ => true, [], []⟩ nodeAt3).value one1.n (fun _ => 10) < (Rounding.new.milp one1 ⟨fun _ => true, [], []⟩ nodeAt3).value one1.n nodeAt3.x ∧
    intDist one1 nodeAt3.x nodeAt3.x = 0 ∧ intDist one1 nodeAt3.x (fun _ => 10) = 7 ∧
    ∀ v : ℚ, v ≤ 10 → (Rounding.new.milp one1 ⟨fun _ => true, [], []⟩ nodeAt3).value one1.n (fun _ => 10) ≤ (Rounding.new.milp one1 ⟨fun _ => true, [], []⟩ nodeAt3).value one1.n (fun _ => v) := by
  refine ⟨by decide +kernel, by decide +kernel, by decide +kernel, fun v hv => ?_⟩
  simp [RMilp.value, Rounding.milp, roundObj, one1, nodeAt3]
  linarith

/-- **C237**: the other data of the MILP: the bounds of the node, the rows of the linear constraints in their order, the integer columns, and all the cuts kept. -/
theorem round_milp_data (s : Rounding) (p : Prob) (l : LinPart) (nd : RoundNode) :
    (s.milp p l nd).b = nd.b ∧ (s.milp p l nd).cuts = s.cuts ∧ (∀ c, c ∈ (s.milp p l nd).ints ↔ c < p.n ∧ p.isInt c = true) ∧
    (∀ r k, r < p.m → rank l.lin r = some k → (s.milp p l nd).rowLo[k]? = some (p.gl r) ∧ (s.milp p l nd).rowUp[k]? = some (p.gu r)) ∧
    (∀ c, p.n ≤ c ∨ p.isInt c = false → (s.milp p l nd).obj c = 0) := by
  refine ⟨rfl, rfl, fun _ => by simp [Rounding.milp], ?_, ?_⟩
  · intro r k hr hk
    unfold rank at hk
    split at hk
    · rename_i hl
      simp only [Option.some.injEq] at hk
      have hget : ((List.range p.m).filter l.lin)[k]? = some r := by
        have hsplit : List.range p.m = List.range r ++ r :: (List.range (p.m - r - 1)).map (r + 1 + ·) := by
          have h1 : p.m = r + (1 + (p.m - r - 1)) := by omega
          conv_lhs => rw [h1, List.range_add, List.range_add]
          simp [List.map_map, Function.comp_def, Nat.add_assoc]
        rw [hsplit, List.filter_append, List.filter_cons_of_pos hl, ← hk, List.countP_eq_length_filter, List.getElem?_append_right (by omega)]
        simp
      simp [Rounding.milp, List.getElem?_map, hget]
    · cases hk
  · intro c hc
    show roundObj p nd.x c = 0
    rw [roundObj, if_neg]
    rintro ⟨h1, h2⟩
    rcases hc with hc | hc
    · omega
    · rw [h2] at hc; cases hc

/-! ### sequences of calls -/

/-- The MILP answers, without the calls that got none. -/
def seen (r : Rounding × List (Option (Nat → ℚ)) × List (Option ((Nat → ℚ) × ℚ))) : List (Nat → ℚ) := r.2.1.filterMap id

theorem call_cuts (tol : ℚ) (p : Prob) (l : LinPart) (b0 : Bnds) (mip : RMilp → Option (Nat → ℚ)) (nlp : Bnds → Option (Nat → ℚ)) (s : Rounding) (nd : RoundNode) :
    (s.call tol p l b0 mip nlp nd).1.cuts = s.cuts ++ cutsAfter tol p (s.call tol p l b0 mip nlp nd).2.1.toList := by
  unfold Rounding.call
  split
  · cases h : mip (s.milp p l nd) with
    | none => simp [milpFinish, cutsAfter]
    | some x => simp [milpFinish, cutsAfter]
  · simp [cutsAfter]

/-- **C238**: the cuts kept are exactly those of the answers of all the MILPs solved so far, in their order. -/
theorem round_cuts_exact (tol : ℚ) (p : Prob) (l : LinPart) (b0 : Bnds) (mip : RMilp → Option (Nat → ℚ)) (nlp : Bnds → Option (Nat → ℚ)) :
    ∀ (nds : List RoundNode) (s : Rounding), (s.calls tol p l b0 mip nlp nds).1.cuts = s.cuts ++ cutsAfter tol p (seen (s.calls tol p l b0 mip nlp nds))
  | [], s => by simp [Rounding.calls, seen, cutsAfter]
  | nd :: nds, s => by
    have ih := round_cuts_exact tol p l b0 mip nlp nds (s.call tol p l b0 mip nlp nd).1
    rw [Rounding.calls]
    simp only
    rw [ih, call_cuts, List.append_assoc]
    congr 1
    cases (s.call tol p l b0 mip nlp nd).2.1 <;> simp [seen, cutsAfter]

theorem seen_sat (tol : ℚ) (p : Prob) (l : LinPart) (b0 : Bnds) (mip : RMilp → Option (Nat → ℚ)) (nlp : Bnds → Option (Nat → ℚ)) (hm : MipOk tol p mip) :
    ∀ (nds : List RoundNode) (s : Rounding), (∀ x ∈ seen (s.calls tol p l b0 mip nlp nds), Integral p tol x ∧ ∀ g ∈ s.cuts, g.sat x) ∧
      ((seen (s.calls tol p l b0 mip nlp nds)).Pairwise fun x y => (noGood tol p x).1.sat y)
  | [], s => by simp [Rounding.calls, seen]
  | nd :: nds, s => by
    have ih := seen_sat tol p l b0 mip nlp hm nds (s.call tol p l b0 mip nlp nd).1
    rw [Rounding.calls]
    have hc := call_cuts tol p l b0 mip nlp s nd
    have hx : ∀ x, (s.call tol p l b0 mip nlp nd).2.1 = some x → Integral p tol x ∧ ∀ g ∈ s.cuts, g.sat x := by
      intro x h
      unfold Rounding.call at h
      split at h
      · exact ⟨(hm _ x h).2, (hm _ x h).1⟩
      · cases h
    cases h : (s.call tol p l b0 mip nlp nd).2.1 with
    | none =>
      rw [h] at hc
      simp only [Option.toList, cutsAfter, List.map_nil, List.append_nil] at hc
      rw [hc] at ih
      exact ih
    | some x =>
      rw [h] at hc
      simp only [Option.toList, cutsAfter, List.map_cons, List.map_nil] at hc
      rw [hc] at ih
      simp only [seen, List.filterMap_cons, id, List.mem_cons, List.pairwise_cons]
      refine ⟨?_, ?_, ih.2⟩
      · rintro y (rfl | hy)
        · exact hx y h
        · exact ⟨(ih.1 y hy).1, fun g hg => (ih.1 y hy).2 g (by simp [hg])⟩
      · exact fun y hy => (ih.1 y hy).2 _ (by simp)

/-- **C238**: over any sequence of calls of one object, whatever the nodes, no two MILP answers have the same rounded values in the integer columns. -/
theorem round_no_repeat_partial (tol : ℚ) (p : Prob) (l : LinPart) (b0 : Bnds) (mip : RMilp → Option (Nat → ℚ)) (nlp : Bnds → Option (Nat → ℚ)) (hm : MipOk tol p mip)
    (ht : 0 ≤ tol) (hn : p.n * tol < 1) (nds : List RoundNode) (s : Rounding) :
    (seen (s.calls tol p l b0 mip nlp nds)).Pairwise fun x y => ∃ c < p.n, p.isInt c = true ∧ round (y c) ≠ round (x c) := by
  have h := seen_sat tol p l b0 mip nlp hm nds s
  refine List.Pairwise.imp_of_mem (fun {x y} hx hy hxy => ?_) h.2
  by_contra hne
  push Not at hne
  exact noGood_excludes_partial tol p x y (h.1 x hx).1 (h.1 y hy).1 ht hn hne hxy

/-- **C239**: 0-1 problems: the cuts kept allow a 0-1 point exactly when every point seen so far has a 1 where it has a 0. -/
theorem round_allowed_iff (tol : ℚ) (p : Prob) (l : LinPart) (b0 : Bnds) (mip : RMilp → Option (Nat → ℚ)) (nlp : Bnds → Option (Nat → ℚ)) (hm : MipOk tol p mip)
    (nds : List RoundNode) (hb : ∀ x ∈ seen (Rounding.new.calls tol p l b0 mip nlp nds), ∀ c < p.n, p.isInt c = true → round (x c) = 0 ∨ round (x c) = 1) (y : Nat → ℚ)
    (hy : ∀ c < p.n, p.isInt c = true → y c = 0 ∨ y c = 1) :
    (∀ g ∈ (Rounding.new.calls tol p l b0 mip nlp nds).1.cuts, g.sat y) ↔
      ∀ x ∈ seen (Rounding.new.calls tol p l b0 mip nlp nds), ∃ c < p.n, p.isInt c = true ∧ round (x c) = 1 ∧ y c = 0 := by
  rw [round_cuts_exact]
  have hI := seen_sat tol p l b0 mip nlp hm nds Rounding.new
  simp only [Rounding.new, List.nil_append, cutsAfter, List.mem_map, forall_exists_index, and_imp, forall_apply_eq_imp_iff₂]
  exact forall₂_congr fun x hx => noGood_binary tol p x y (hI.1 x hx).1 (hb x hx) hy

/-- No point satisfies the cuts kept. -/
def Rounding.Dead (s : Rounding) : Prop := ∀ y, ∃ g ∈ s.cuts, ¬ g.sat y

/-- **C239**: once no point satisfies the cuts, the heuristic never finds anything any more and stays in that state. -/
theorem dead_forever (tol : ℚ) (p : Prob) (l : LinPart) (b0 : Bnds) (mip : RMilp → Option (Nat → ℚ)) (nlp : Bnds → Option (Nat → ℚ)) (hm : MipOk tol p mip) :
    ∀ (nds : List RoundNode) (s : Rounding), s.Dead → (s.calls tol p l b0 mip nlp nds).1 = s ∧ (∀ r ∈ (s.calls tol p l b0 mip nlp nds).2.2, r = none)
  | [], s, _ => by simp [Rounding.calls]
  | nd :: nds, s, hd => by
    have hcall : s.call tol p l b0 mip nlp nd = (s, none, none) := by
      unfold Rounding.call
      split
      · cases h : mip (s.milp p l nd) with
        | none => simp [milpFinish]
        | some x =>
          obtain ⟨g, hg, hn⟩ := hd x
          exact absurd ((hm _ x h).1 g hg) hn
      · rfl
    have ih := dead_forever tol p l b0 mip nlp hm nds s hd
    rw [Rounding.calls, hcall]
    refine ⟨ih.1, ?_⟩
    intro r hr
    rcases List.mem_cons.1 hr with rfl | hr
    · rfl
    · exact ih.2 r hr

/-- **C239 (refuted).** A point with no positive integer column ends the life of the heuristic: after it no point is allowed, so no later call returns a solution, whatever else is
feasible. -/
theorem zero_kills (tol : ℚ) (p : Prob) (l : LinPart) (b0 : Bnds) (mip : RMilp → Option (Nat → ℚ)) (nlp : Bnds → Option (Nat → ℚ)) (hm : MipOk tol p mip)
    (before after : List RoundNode) (s : Rounding) (x : Nat → ℚ) (hx : x ∈ seen (s.calls tol p l b0 mip nlp before)) (h0 : ∀ c < p.n, p.isInt c = true → round (x c) ≤ 0) :
    (s.calls tol p l b0 mip nlp before).1.Dead ∧
    ∀ r ∈ ((s.calls tol p l b0 mip nlp before).1.calls tol p l b0 mip nlp after).2.2, r = none := by
  have hd : (s.calls tol p l b0 mip nlp before).1.Dead := by
    intro y
    refine ⟨(noGood tol p x).1, ?_, ?_⟩
    · rw [round_cuts_exact]
      exact List.mem_append_right _ (List.mem_map.2 ⟨x, hx, rfl⟩)
    · have hI := ((seen_sat tol p l b0 mip nlp hm before s).1 x hx).1
      rw [(noGood_exact tol p x y).1, takeWhile_integral tol p x hI]
      have : onesOf p x (List.range p.n) = [] := by
        unfold onesOf
        rw [List.filter_eq_nil_iff]
        intro c hc
        have := h0 c (List.mem_range.1 hc)
        simp only [Bool.and_eq_true, decide_eq_true_iff, not_and, not_lt]
        exact fun hI => this hI
      rw [this]
      norm_num
  exact ⟨hd, (dead_forever tol p l b0 mip nlp hm after _ hd).2⟩

/-- **C236**: a solution returned is better than the incumbent handed in, has the value reported and the rounded values of the MILP answer were fixed for the NLP. -/
theorem round_found_iff (tol : ℚ) (p : Prob) (l : LinPart) (b0 : Bnds) (mip : RMilp → Option (Nat → ℚ)) (nlp : Bnds → Option (Nat → ℚ)) (s : Rounding) (nd : RoundNode)
    (y : Nat → ℚ) (v : ℚ) : (s.call tol p l b0 mip nlp nd).2.2 = some (y, v) ↔
      (nd.pass ≤ 1 ∧ (nd.depth ≤ 2 ∨ s.howOften ∣ nd.nodes)) ∧ ∃ x, mip (s.milp p l nd) = some x ∧ Integral p tol x ∧ v = p.f y ∧ p.f y < nd.inc ∧ ∃ b', nlp b' = some y ∧
        ∀ c, (c < p.n ∧ p.isInt c = true → b'.lo c = (round (x c) : ℚ) ∧ b'.up c = (round (x c) : ℚ)) ∧ (¬ (c < p.n ∧ p.isInt c = true) → b'.lo c = b0.lo c ∧ b'.up c = b0.up c) := by
  rw [← round_runs_iff]
  unfold Rounding.call
  split
  · rename_i hr
    cases h : mip (s.milp p l nd) with
    | none => simp [milpFinish]
    | some x =>
      simp only [Option.some.injEq]
      rw [milp_found_iff]
      constructor
      · exact fun h => ⟨hr, x, rfl, h⟩
      · rintro ⟨_, x', rfl, h⟩; exact h
  · rename_i hr
    constructor
    · intro h; cases h
    · exact fun h => absurd h.1 hr

/-! ### concrete cases -/

/-- Decidable form of the satisfaction of a cut. -/
def NoGood.ok (g : NoGood) (y : Nat → ℚ) : Bool := decide (g.lb ≤ (g.v.map fun c => -y c).sum)

/-- The four 0-1 points. -/
def pt (a b : ℚ) : Nat → ℚ := fun c => if c = 0 then a else b

/-- A MILP solver for `bin2`: the first of the given points that the cuts allow. -/
def pick (l : List (Nat → ℚ)) : RMilp → Option (Nat → ℚ) := fun q => l.find? fun y => q.cuts.all fun g => g.ok y

theorem pick_ok (l : List (Nat → ℚ)) (h : ∀ x ∈ l, Integral bin2 0 x) : MipOk 0 bin2 (pick l) := by
  intro q x hx
  unfold pick at hx
  have h1 := List.find?_some hx
  simp only [List.all_eq_true, NoGood.ok, decide_eq_true_iff] at h1
  exact ⟨h1, h x (List.mem_of_find?_eq_some hx)⟩

theorem pt_integral (a b : ℤ) : Integral bin2 0 (pt a b) := by
  intro i _ _
  by_cases h : i = 0
  · exact ⟨a, by simp [pt, h]⟩
  · exact ⟨b, by simp [pt, h]⟩

/-- Node in the first pass at the root. -/
def rootNd : RoundNode := ⟨1, 0, 0, ⟨fun _ => 0, fun _ => 1⟩, fun _ => 1 / 2, 10⟩

/-- No linear rows. -/
def noLin : LinPart := ⟨fun _ => false, [], []⟩

/-- An NLP solver that answers with the lower bounds. -/
def lowNlp : Bnds → Option (Nat → ℚ) := fun b => some b.lo

/-- **C238 (refuted).** A copy, as made by `clone`, starts without cuts: it looks at the point its original has looked at. -/
theorem copy_repeats : let s := (Rounding.new.calls 0 bin2 noLin ⟨fun _ => 0, fun _ => 1⟩ (pick [pt 1 0, pt 0 1]) lowNlp [rootNd]).1
    s.cuts.length = 1 ∧ s.copy.cuts.length = 0 ∧ (Rounding.new.assign s).cuts.length = 0 ∧ (s.assign Rounding.new).cuts.length = 1 ∧ s.copy.howOften = 20 ∧ (s.assign ⟨7, []⟩).howOften = 7 ∧
    ((seen (s.calls 0 bin2 noLin ⟨fun _ => 0, fun _ => 1⟩ (pick [pt 1 0, pt 0 1]) lowNlp [rootNd])).map fun x => (x 0, x 1)) = [(0, 1)] ∧
    ((seen (s.copy.calls 0 bin2 noLin ⟨fun _ => 0, fun _ => 1⟩ (pick [pt 1 0, pt 0 1]) lowNlp [rootNd])).map fun x => (x 0, x 1)) = [(1, 0)] := by
  decide +kernel

example : MipOk 0 bin2 (pick [pt 1 0, pt 0 1]) := pick_ok _ (by
  intro x hx
  rcases List.mem_cons.1 hx with rfl | hx
  · exact_mod_cast pt_integral 1 0
  · rcases List.mem_cons.1 hx with rfl | hx
    · exact_mod_cast pt_integral 0 1
    · cases hx)

/-- The case of `zero_kills`: the first answer is the zero point; afterwards (1, 0) is never proposed although the solver has it. -/
example : ((seen (Rounding.new.calls 0 bin2 noLin ⟨fun _ => 0, fun _ => 1⟩ (pick [pt 0 0, pt 1 0]) lowNlp [rootNd, rootNd, rootNd])).map fun x => (x 0, x 1)) = [(0, 0)] := by
  decide +kernel

/-- The hypotheses of `round_every_twenty` and both outcomes. -/
example : Rounding.new.runs { rootNd with depth := 5, nodes := 40 } = true ∧ Rounding.new.runs { rootNd with depth := 5, nodes := 41 } = false ∧
    Rounding.new.runs { rootNd with pass := 2 } = false := by decide +kernel

/-- The hypotheses of `round_nearest_partial`. -/
example : (∀ c < bin2.n, bin2.isInt c = true → 0 ≤ rootNd.x c ∧ rootNd.x c ≤ 1) ∧ intDist bin2 (pt (1 / 4) 1) (pt 0 1) = 1 / 4 ∧ intDist bin2 (pt (1 / 4) 1) (pt 1 1) = 3 / 4 := by
  refine ⟨fun c _ _ => by norm_num [rootNd], by decide +kernel, by decide +kernel⟩

end Verif.Heur

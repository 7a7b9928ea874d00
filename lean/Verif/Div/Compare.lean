import Verif.Div.Model
import Mathlib.Data.List.Perm.Basic
import Mathlib.Tactic.Linarith
import Mathlib.Algebra.Order.Field.Basic
import Mathlib.Algebra.Order.Ring.Rat
import Mathlib.Algebra.Order.BigOperators.Group.List

/-!
# The node comparison that steers the depth-first diver, and the guessed objective

`DiverCompare` (`CbcBonmin/BonDiver.cpp:790-855`, `BonDiver.hpp:308-418`), used with
`tree_search_strategy = dfs-dive-dynamic` (`BonCbc.cpp:363-375`), on top of the model of `CbcDfsDiver`
in `Verif/Div/Model.lean`; `GuessHeuristic` (`CbcBonmin/BonGuessHeuristic.cpp:22-73`).
-/

namespace Verif.Div

/-- Members of `DiverCompare` (`BonDiver.hpp:405-418`); `none` is a null pointer. -/
structure Cmp where
  diver : Bool
  solStop : ℤ
  nodeLimit : ℤ
  dive : Option (Node → Node → Bool)
  bound : Option (Node → Node → Bool)

/-- Default constructor (`BonDiver.hpp:312-319`). -/
def Cmp.default : Cmp := ⟨false, 5, 1000000, none, none⟩

/-- Copy constructor (`BonDiver.hpp:329-336`): clones both comparisons without testing for null. -/
def Cmp.copy (c : Cmp) : Option Cmp :=
  match c.dive, c.bound with
  | some d, some b => some ⟨c.diver, c.solStop, c.nodeLimit, some d, some b⟩
  | _, _ => none

/-- Assignment (`BonDiver.hpp:339-354`). -/
def Cmp.assign (_ rhs : Cmp) : Cmp := ⟨rhs.diver, rhs.solStop, rhs.nodeLimit, rhs.dive, rhs.bound⟩

/-- Outcome of a comparison. -/
inductive TestRes
  | val (b : Bool) | throws | null
  deriving DecidableEq

/-- `DiverCompare::test` (`BonDiver.cpp:813-832`); `depth` is `CbcCompareDepth`. -/
def Cmp.test (depth : Node → Node → Bool) (c : Cmp) (m : Mode) (x y : Node) : TestRes :=
  match m with
  | .findSolutions => match c.dive with | some f => .val (f x y) | none => .null
  | .closeBound => match c.bound with | some f => .val (f x y) | none => .null
  | .limitTreeSize => .val (depth x y)
  | .enlarge => .throws

/-- `DiverCompare::newSolution(model)` (`BonDiver.cpp:792-810`). -/
def Cmp.newSolution (c : Cmp) (solCount : ℤ) (s : Dfs) : Dfs × Bool :=
  let a : Dfs × Bool := if s.mode = .enlarge then (s.setMode .findSolutions, true) else (s, false)
  if solCount ≥ c.solStop ∧ a.1.mode = .findSolutions then (a.1.setMode .closeBound, true) else a

/-- `DiverCompare::every1000Nodes` (`BonDiver.cpp:846-855`). -/
def Cmp.every1000 (c : Cmp) (nNodes : ℤ) (s : Dfs) : Dfs × Bool :=
  if nNodes > c.nodeLimit ∧ s.mode ≠ .limitTreeSize then (s.setMode .limitTreeSize, true)
  else (s, false)

/-- `CbcDfsDiver::cleanTree` (`BonDiver.cpp:696-707`) with this comparison: pushing a node onto a
nonempty heap compares nodes, which throws in `Enlarge` mode; `none` is that exception. -/
def cleanChecked (s : Dfs) (c : ℚ) : Option (Dfs × List Node) :=
  if s.mode = .enlarge ∧ s.dive ≠ [] ∧ 2 ≤ s.nodes.length + s.dive.length then none
  else some (s.clean c)

/-- Calls during a search: those on the tree, and the two callbacks of the comparison. -/
inductive COp where
  | tree (o : Op)
  | newSol (count : ℤ)
  | nodes (n : ℤ)

/-- One call. -/
def cstep (dbg : Bool) (c : Cmp) (s : Dfs) : COp → Option Dfs
  | .tree o => (s.step dbg (.tree o)).map (·.1)
  | .newSol k => some (c.newSolution k s).1
  | .nodes n => some (c.every1000 n s).1

/-- A history of calls. -/
def crun (dbg : Bool) (c : Cmp) : Dfs → List COp → Option Dfs
  | s, [] => some s
  | s, o :: os =>
    match cstep dbg c s o with
    | none => none
    | some s' => crun dbg c s' os

/-! ## C75: modes of the dynamic diver -/

/-- The order in which the modes may be visited (specification). -/
def rank : Mode → Nat
  | .enlarge => 0
  | .findSolutions => 1
  | .closeBound => 2
  | .limitTreeSize => 3

theorem setMode_mode (s : Dfs) (m : Mode) : (s.setMode m).mode = m := by
  unfold Dfs.setMode
  split
  · rename_i h; exact h.symm
  · rfl

/-- **C75 (new solution).**  After a solution the mode is: unchanged in the bounding modes; otherwise
`CloseBound` when enough solutions are known, else `FindSolutions`; and Cbc is asked to re-sort the
tree exactly when the mode changed. -/
theorem newSolution_mode (c : Cmp) (k : ℤ) (s : Dfs) :
    (c.newSolution k s).1.mode =
      (if rank s.mode ≥ 2 then s.mode else if k ≥ c.solStop then .closeBound else .findSolutions) ∧
    ((c.newSolution k s).2 = true ↔ (c.newSolution k s).1.mode ≠ s.mode) := by
  unfold Cmp.newSolution
  cases hm : s.mode <;> by_cases hk : k ≥ c.solStop <;>
    simp [hm, hk, setMode_mode, rank]

/-- **C75 (many nodes).**  Every 1000 nodes: `LimitTreeSize` once more than the limit have been
explored, otherwise no change; re-sort exactly when the mode changed. -/
theorem every1000_mode (c : Cmp) (n : ℤ) (s : Dfs) :
    (c.every1000 n s).1.mode = (if n > c.nodeLimit then .limitTreeSize else s.mode) ∧
    ((c.every1000 n s).2 = true ↔ (c.every1000 n s).1.mode ≠ s.mode) := by
  unfold Cmp.every1000
  by_cases hn : n > c.nodeLimit <;> cases hm : s.mode <;>
    simp [hm, hn, setMode_mode]

/-- All the nodes held by a diver. -/
def held (s : Dfs) : List Node := s.nodes ++ s.dive

theorem setMode_held (s : Dfs) (m : Mode) : (held (s.setMode m)).Perm (held s) ∧
    (m ≠ s.mode → (s.setMode m).dive = [] ∧
      (s.setMode m).diveSize = s.diveSize - s.dive.length) := by
  unfold Dfs.setMode
  split
  · rename_i h
    exact ⟨List.Perm.refl _, fun h' => absurd h h'⟩
  · refine ⟨?_, fun _ => ⟨rfl, rfl⟩⟩
    show (s.dive.reverse ++ s.nodes ++ []).Perm _
    rw [List.append_nil]
    exact (List.Perm.append_right _ (List.reverse_perm _)).trans List.perm_append_comm

/-- **C75 (no node is lost).**  The callbacks only move nodes between the dive and the heap; when the
mode changes the dive is emptied. -/
theorem callbacks_keep_nodes (c : Cmp) (k : ℤ) (s : Dfs) :
    (held (c.newSolution k s).1).Perm (held s) ∧ (held (c.every1000 k s).1).Perm (held s) ∧
    ((c.newSolution k s).2 = true → (c.newSolution k s).1.dive = []) ∧
    ((c.every1000 k s).2 = true → (c.every1000 k s).1.dive = []) := by
  have hne : ∀ m, m ≠ s.mode → (s.setMode m).dive = [] := fun m h => ((setMode_held s m).2 h).1
  refine ⟨?_, ?_, ?_, ?_⟩
  · unfold Cmp.newSolution
    dsimp only
    split
    · split
      · exact (setMode_held _ _).1.trans (setMode_held _ _).1
      · exact (setMode_held _ _).1
    · split
      · exact (setMode_held _ _).1
      · exact List.Perm.refl _
  · unfold Cmp.every1000
    split
    · exact (setMode_held _ _).1
    · exact List.Perm.refl _
  · unfold Cmp.newSolution
    dsimp only
    split
    · rename_i h1
      split
      · rename_i h2
        intro _
        exact ((setMode_held _ _).2 (by rw [setMode_mode]; decide)).1
      · intro _
        exact hne _ (by rw [h1]; decide)
    · split
      · rename_i he
        intro _
        exact hne _ (by rw [he.2]; decide)
      · simp
  · unfold Cmp.every1000
    split
    · rename_i h
      intro _
      exact hne _ (Ne.symm h.2)
    · simp

theorem fromHeap_mode (s s' : Dfs) (c : ℚ) (pick : Pick) (r : Option Node) (d : List Node)
    (h : s.fromHeap c pick = some (s', r, d)) : s'.mode = s.mode := by
  unfold Dfs.fromHeap at h
  dsimp only at h
  split at h
  · cases h
  · injection h with h
    injection h with h _
    rw [← h]

theorem diveToHeap_mode (s : Dfs) : s.diveToHeap.mode = s.mode := rfl

theorem examine_mode (s : Dfs) (x : Node) (c : ℚ) : (s.examine x c).1.mode = s.mode := by
  unfold Dfs.examine
  dsimp only
  have h : ∀ r : Dfs × Option Node, r.1.mode = s.mode →
      (if r.1.nBack ≥ r.1.maxBack then
        (match r.2 with
         | some y => (({ r.1.diveToHeap with nodes := y :: r.1.diveToHeap.nodes } : Dfs), (none : Option Node))
         | none => (r.1.diveToHeap, none))
       else r).1.mode = s.mode := by
    intro r hr
    split
    · split <;> exact hr
    · exact hr
  apply h
  split
  · rfl
  · split
    · rfl
    · split <;> rfl

theorem loop_mode (dbg : Bool) (c : ℚ) (pick : Pick) : ∀ (n : Nat) (s s' : Dfs) (r : Option Node)
    (d : List Node), Dfs.loop dbg c pick n s = some (s', r, d) → s'.mode = s.mode := by
  intro n
  induction n with
  | zero =>
    intro s s' r d h
    unfold Dfs.loop at h
    split at h
    · cases h
    · exact fromHeap_mode _ _ _ _ _ _ h
  | succ n ih =>
    intro s s' r d h
    unfold Dfs.loop at h
    split at h
    · split at h
      · cases h
      · rename_i x dd hd
        unfold chk at h
        split at h
        · cases h
        · have hm := examine_mode ({ s with dive := dd, diveSize := s.diveSize - 1 } : Dfs) x c
          split at h
          · rename_i s1 y he
            rw [he] at hm
            injection h with h
            injection h with h _
            rw [← h]; exact hm
          · rename_i s1 he
            rw [he] at hm
            rw [ih _ _ _ _ h]; exact hm
    · exact fromHeap_mode _ _ _ _ _ _ h

theorem bestRest_mode (dbg : Bool) (s s' : Dfs) (c : ℚ) (pick : Pick) (r : Option Node)
    (d : List Node) (h : s.bestRest dbg c pick = some (s', r, d)) : s'.mode = s.mode := by
  unfold Dfs.bestRest chk at h
  split at h
  · cases h
  · dsimp only at h
    split at h
    · cases h
    · split at h
      · cases h
      · rename_i s1 r1 d1 hl
        injection h with h
        injection h with h _
        rw [← h, loop_mode _ _ _ _ _ _ _ _ hl]
        unfold Dfs.misstep
        split <;> rfl

theorem best_rank (dbg : Bool) (s s' : Dfs) (c : ℚ) (pick : Pick) (r : Option Node)
    (d : List Node) (h : s.best dbg c pick = some (s', r, d)) :
    s'.mode = s.mode ∨ (s.mode = .enlarge ∧ s'.mode = .findSolutions) := by
  unfold Dfs.best at h
  split at h
  · rename_i he
    split at h
    · right; exact ⟨he, bestRest_mode _ _ _ _ _ _ _ h⟩
    · split at h
      · cases h
      · split at h
        · right
          refine ⟨he, ?_⟩
          rw [bestRest_mode _ _ _ _ _ _ _ h, setMode_mode]
        · injection h with h
          injection h with h _
          rw [← h]; left; rfl
  · left; exact bestRest_mode _ _ _ _ _ _ _ h

theorem tree_rank (dbg : Bool) (s s' : Dfs) (o : Op)
    (h : (s.step dbg (.tree o)).map (·.1) = some s') :
    s'.mode = s.mode ∨ (s.mode = .enlarge ∧ s'.mode = .findSolutions) := by
  rw [Option.map_eq_some_iff] at h
  obtain ⟨⟨a, l⟩, h, ha⟩ := h
  dsimp only at ha
  subst ha
  cases o with
  | push x cmp =>
    left
    unfold Dfs.step at h
    rw [Option.map_eq_some_iff] at h
    obtain ⟨b, hb, hbl⟩ := h
    injection hbl with hb1 _
    subst hb1
    unfold Dfs.push chk at hb
    split at hb
    · split at hb
      · cases hb
      · injection hb with hb; rw [← hb]
    · injection hb with hb; rw [← hb]
  | best c pick =>
    unfold Dfs.step at h
    rw [Option.map_eq_some_iff] at h
    obtain ⟨⟨b, r, d⟩, hb, hbl⟩ := h
    injection hbl with hb1 _
    subst hb1
    exact best_rank dbg s b c pick r d hb
  | pop pick =>
    left
    unfold Dfs.step at h
    rw [Option.map_eq_some_iff] at h
    obtain ⟨⟨b, x⟩, hb, hbl⟩ := h
    injection hbl with hb1 _
    subst hb1
    unfold Dfs.pop chk at hb
    split at hb
    · cases hb
    · split at hb
      · injection hb with hb; injection hb with hb _; rw [← hb]
      · split at hb
        · injection hb with hb; injection hb with hb _; rw [← hb]
        · cases hb
  | clean c =>
    left
    unfold Dfs.step at h
    injection h with h
    injection h with h _
    rw [← h]
    rfl

/-- **C75 (modes only advance).**  Over every history of calls on the tree and callbacks, the mode never
goes back (`Enlarge`, `FindSolutions`, `CloseBound`, `LimitTreeSize`). -/
theorem mode_advances (dbg : Bool) (c : Cmp) : ∀ (os : List COp) (s s' : Dfs),
    crun dbg c s os = some s' → rank s.mode ≤ rank s'.mode := by
  intro os
  induction os with
  | nil => intro s s' h; injection h with h; rw [h]
  | cons o os ih =>
    intro s s' h
    unfold crun at h
    split at h
    · cases h
    · rename_i s1 hs
      refine le_trans ?_ (ih _ _ h)
      cases o with
      | tree o =>
        rcases tree_rank dbg s s1 o hs with h1 | ⟨h1, h2⟩
        · rw [h1]
        · rw [h1, h2]; decide
      | newSol k =>
        injection hs with hs
        rw [← hs, (newSolution_mode c k s).1]
        split
        · exact le_refl _
        · rename_i hr
          have : rank s.mode ≤ 1 := by omega
          split
          · exact le_trans this (by decide)
          · exact le_trans this (by decide)
      | nodes n =>
        injection hs with hs
        rw [← hs, (every1000_mode c n s).1]
        split
        · cases s.mode <;> decide
        · exact le_refl _

/-- Once the tree size is being limited it stays so, and no dive is started again. -/
theorem limit_absorbing (dbg : Bool) (c : Cmp) (os : List COp) (s s' : Dfs)
    (hs : s.mode = .limitTreeSize) (h : crun dbg c s os = some s') : s'.mode = .limitTreeSize := by
  have := mode_advances dbg c os s s' h
  rw [hs] at this
  cases hm : s'.mode with
  | limitTreeSize => rfl
  | enlarge => rw [hm] at this; exact absurd this (by decide)
  | findSolutions => rw [hm] at this; exact absurd this (by decide)
  | closeBound => rw [hm] at this; exact absurd this (by decide)

/-- The comparison as `BonCbc.cpp:368-374` builds it. -/
def demoCmp : Cmp := ⟨true, 5, 1000000, some (fun x y => decide (x.depth < y.depth)),
  some (fun x y => decide (x.obj > y.obj))⟩

example : (crun true demoCmp {} [.tree (.push ⟨0, 1, 0, 0, 2, 2⟩ (fun _ _ => true)), .newSol 1,
    .newSol 6, .nodes 2000000, .newSol 9]).map (·.mode) = some .limitTreeSize := by decide +kernel

/-- **C75 (which comparison is used).**  With both comparisons set, the comparison is the diving rule,
the bounding rule or depth according to the mode, and it throws exactly in `Enlarge` mode. -/
theorem test_partial (depth : Node → Node → Bool) (c : Cmp) (f g : Node → Node → Bool)
    (hf : c.dive = some f) (hg : c.bound = some g) (m : Mode) (x y : Node) :
    (m = .findSolutions → c.test depth m x y = .val (f x y)) ∧
    (m = .closeBound → c.test depth m x y = .val (g x y)) ∧
    (m = .limitTreeSize → c.test depth m x y = .val (depth x y)) ∧
    (c.test depth m x y = .throws ↔ m = .enlarge) ∧ c.test depth m x y ≠ .null := by
  cases m <;> simp [Cmp.test, hf, hg]

/-- **C75 (cleaning the tree).**  Outside `Enlarge` mode cleaning the tree never throws: the nodes kept
are exactly those with objective below the cutoff. -/
theorem clean_partial (s : Dfs) (c : ℚ) (h : s.mode ≠ .enlarge) :
    ∃ s' d, cleanChecked s c = some (s', d) ∧ s'.dive = [] ∧ (held s' ++ d).Perm (held s) ∧
      ∀ x, x ∈ held s' ↔ x ∈ held s ∧ x.obj < c := by
  refine ⟨(s.clean c).1, (s.clean c).2, if_neg (fun h' => h h'.1), rfl, ?_, ?_⟩
  · show ((List.filter _ (s.dive.reverse ++ s.nodes) ++ []) ++
      List.filter _ (s.dive.reverse ++ s.nodes)).Perm _
    rw [List.append_nil]
    exact (List.filter_append_perm _ _).trans ((List.Perm.append_right _ (List.reverse_perm _)).trans
      List.perm_append_comm)
  · intro x
    show x ∈ List.filter (fun x => decide (x.obj < c)) (s.dive.reverse ++ s.nodes) ++ [] ↔ _
    rw [List.append_nil, List.mem_filter]
    unfold held
    simp only [List.mem_append, List.mem_reverse, decide_eq_true_eq]
    constructor
    · rintro ⟨h1 | h1, h2⟩
      · exact ⟨Or.inr h1, h2⟩
      · exact ⟨Or.inl h1, h2⟩
    · rintro ⟨h1 | h1, h2⟩
      · exact ⟨Or.inr h1, h2⟩
      · exact ⟨Or.inl h1, h2⟩

example : (cleanChecked { mode := .findSolutions, dive := [⟨0, 1, 0, 0, 2, 2⟩, ⟨1, 9, 0, 0, 2, 2⟩], diveSize := 2 } 5).map
    (fun r => (r.1.nodes.map (·.obj), r.2.map (·.obj))) = some ([1], [9]) := by decide +kernel

/-- **C75 refuted.**  In the initial `Enlarge` mode, cleaning the tree with two open nodes throws
"Unknown mode for comparison" (for instance when the search stops on a limit, or a solution is found,
during the first levels of the tree). -/
theorem clean_throws_while_enlarging :
    ∃ s : Dfs, crun true demoCmp {} [.tree (.push ⟨0, 1, 0, 0, 2, 2⟩ (fun _ _ => true)),
        .tree (.push ⟨1, 2, 0, 0, 2, 2⟩ (fun _ _ => true))] = some s ∧ s.mode = .enlarge ∧
      cleanChecked s 100 = none :=
  ⟨_, rfl, rfl, by decide +kernel⟩

/-- **C75 (copies).**  Assignment copies everything; the copy constructor agrees with it when both
comparisons are set. -/
theorem cmp_copy_partial (c a : Cmp) : a.assign c = c ∧
    (c.dive.isSome → c.bound.isSome → c.copy = some c) := by
  refine ⟨rfl, ?_⟩
  obtain ⟨d, s, n, di, bo⟩ := c
  intro h1 h2
  cases di with
  | none => simp at h1
  | some f =>
    cases bo with
    | none => simp at h2
    | some g => rfl

example : demoCmp.copy.isSome = true := rfl

/-- **C75 refuted (copies).**  Copying a default-constructed comparison calls `clone()` on null
pointers. -/
theorem cmp_copy_default_crashes : Cmp.default.copy.isNone = true := rfl

/-! ## C76: the guessed objective -/

/-- Pseudo-cost record of one object together with its current estimates
(`BonGuessHeuristic.cpp:37-40, 66-67`). -/
structure PC where
  upTot : ℚ
  upNum : Nat
  downTot : ℚ
  downNum : Nat
  upEst : ℚ
  downEst : ℚ

/-- Lines 42-51: totals over all objects. -/
def totals (l : List PC) : ℚ × Nat × ℚ × Nat :=
  l.foldl (fun a p => (a.1 + p.upTot, a.2.1 + p.upNum, a.2.2.1 + p.downTot, a.2.2.2 + p.downNum))
    (0, 0, 0, 0)

/-- Lines 66-69: contribution of one object. -/
def contribution (upAv downAv : ℚ) (p : PC) : ℚ :=
  let up := if p.upNum ≠ 0 then p.upEst * p.upTot / p.upNum else p.upEst * upAv
  let down := if p.downNum ≠ 0 then p.downEst * p.downTot / p.downNum else p.downEst * downAv
  if up < down then up else down

/-- `GuessHeuristic::solution` (`BonGuessHeuristic.cpp:23-73`), returning the value put in
`solutionValue` and the return code; `pcs = none`: Bonmin's own variable selection is not in use
(29-33), `big` is `COIN_DBL_MAX`. -/
def guess (big obj : ℚ) (pcs : Option (List PC)) : ℚ × ℤ :=
  match pcs with
  | none => (obj, -1)
  | some l =>
    let t := totals l
    if t.2.1 = 0 ∨ t.2.2.2 = 0 then (big, -1)
    else (l.foldl (fun v p => v + contribution (t.1 / t.2.1) (t.2.2.1 / t.2.2.2) p) obj, -1)

/-- Average change per unit: own average if there is any observation, else the average over all
observations (specification). -/
def Rate (tot : PC → ℚ) (num : PC → Nat) (l : List PC) (p : PC) : ℚ :=
  if num p = 0 then (l.map tot).sum / ((l.map num).sum : ℕ) else tot p / (num p : ℕ)

theorem totals_aux (l : List PC) : ∀ a : ℚ × Nat × ℚ × Nat,
    l.foldl (fun a p => (a.1 + p.upTot, a.2.1 + p.upNum, a.2.2.1 + p.downTot, a.2.2.2 + p.downNum)) a =
      (a.1 + (l.map (·.upTot)).sum, a.2.1 + (l.map (·.upNum)).sum, a.2.2.1 + (l.map (·.downTot)).sum,
        a.2.2.2 + (l.map (·.downNum)).sum) := by
  induction l with
  | nil => intro a; simp
  | cons p l ih =>
    intro a
    rw [List.foldl_cons, ih]
    simp only [List.map_cons, List.sum_cons, add_assoc]

theorem totals_eq (l : List PC) : totals l = ((l.map (·.upTot)).sum, (l.map (·.upNum)).sum,
    (l.map (·.downTot)).sum, (l.map (·.downNum)).sum) := by
  unfold totals
  rw [totals_aux]
  simp

theorem foldl_sum (f : PC → ℚ) (l : List PC) : ∀ a : ℚ,
    l.foldl (fun v p => v + f p) a = a + (l.map f).sum := by
  induction l with
  | nil => intro a; simp
  | cons p l ih => intro a; rw [List.foldl_cons, ih]; simp only [List.map_cons, List.sum_cons, add_assoc]

/-- **C76 (exact value).**  The guess is the node's objective plus, per object, the smaller of the
up and down estimates times the average change; it is `COIN_DBL_MAX` when nothing has been observed in
one of the directions, and the plain objective without Bonmin's pseudo-costs.  It never claims a
solution (return value -1). -/
theorem guess_exact (big obj : ℚ) (pcs : Option (List PC)) :
    guess big obj pcs =
      match pcs with
      | none => (obj, -1)
      | some l =>
        if (l.map (·.upNum)).sum = 0 ∨ (l.map (·.downNum)).sum = 0 then (big, -1)
        else (obj + (l.map (fun p => min (p.upEst * Rate (·.upTot) (·.upNum) l p)
          (p.downEst * Rate (·.downTot) (·.downNum) l p))).sum, -1) := by
  unfold guess
  cases pcs with
  | none => rfl
  | some l =>
    dsimp only
    rw [totals_eq]
    dsimp only
    split
    · rfl
    · rw [foldl_sum]
      congr 3
      apply List.map_congr_left
      intro p _
      unfold contribution Rate
      dsimp only
      have hmin : ∀ a b : ℚ, (if a < b then a else b) = min a b := by
        intro a b
        by_cases h : a < b
        · rw [if_pos h, min_eq_left h.le]
        · rw [if_neg h, min_eq_right (not_lt.1 h)]
      rw [hmin]
      congr 1
      · by_cases h : p.upNum = 0
        · simp [h]
        · simp [h, mul_div_assoc]
      · by_cases h : p.downNum = 0
        · simp [h]
        · simp [h, mul_div_assoc]

/-- **C76 (bounds).**  With nonnegative observations and estimates the guess is never below the node's
objective. -/
theorem guess_ge_objective (big obj : ℚ) (l : List PC) (hb : obj ≤ big)
    (h : ∀ p ∈ l, 0 ≤ p.upTot ∧ 0 ≤ p.downTot ∧ 0 ≤ p.upEst ∧ 0 ≤ p.downEst) :
    obj ≤ (guess big obj (some l)).1 := by
  rw [guess_exact]
  dsimp only
  split
  · exact hb
  · have hs : ∀ f : PC → ℚ, (∀ p ∈ l, 0 ≤ f p) → 0 ≤ (l.map f).sum := by
      intro f hf
      apply List.sum_nonneg
      intro x hx
      obtain ⟨p, hp, rfl⟩ := List.mem_map.1 hx
      exact hf p hp
    have hr : ∀ (tot : PC → ℚ) (num : PC → Nat), (∀ p ∈ l, 0 ≤ tot p) → ∀ p ∈ l,
        0 ≤ Rate tot num l p := by
      intro tot num ht p hp
      unfold Rate
      split
      · exact div_nonneg (hs tot ht) (Nat.cast_nonneg _)
      · exact div_nonneg (ht p hp) (Nat.cast_nonneg _)
    have := hs (fun p => min (p.upEst * Rate (·.upTot) (·.upNum) l p)
        (p.downEst * Rate (·.downTot) (·.downNum) l p)) (by
      intro p hp
      exact le_min (mul_nonneg (h p hp).2.2.1 (hr _ _ (fun q hq => (h q hq).1) p hp))
        (mul_nonneg (h p hp).2.2.2 (hr _ _ (fun q hq => (h q hq).2.1) p hp)))
    simp only
    linarith

example : guess 1000 10 (some [⟨6, 3, 4, 1, 1/2, 1/2⟩, ⟨0, 0, 2, 1, 1/4, 3/4⟩]) = (23/2, -1) := by
  norm_num [guess, totals, contribution]
example : guess 1000 10 (some [⟨6, 3, 0, 0, 1/2, 1/2⟩]) = (1000, -1) := by
  norm_num [guess, totals]

/-- **C75**: the state of a comparison object after construction. -/
theorem cmp_default : Cmp.default.diver = false ∧ Cmp.default.solStop = 5 ∧ Cmp.default.nodeLimit = 1000000 ∧ Cmp.default.dive.isNone ∧ Cmp.default.bound.isNone := ⟨rfl, rfl, rfl, rfl, rfl⟩

/-- The order of the modes is strict: a mode once left is not entered again without the rank having fallen. -/
theorem rank_inj : Function.Injective rank := by
  intro a b h
  cases a <;> cases b <;> first | rfl | exact absurd h (by decide)

end Verif.Div

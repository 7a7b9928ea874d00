import Mathlib.Algebra.Order.Field.Rat
import Mathlib.Data.List.Basic
import Mathlib.Data.List.Nodup
import Mathlib.Data.List.Perm.Subperm
import Mathlib.Data.List.ProdSigma
import Mathlib.Tactic.Linarith
import Mathlib.Tactic.NormNum
import Verif.Dec.OaLoop

/-!
# C51: control of the cut generation and the feasibility checker
`src/Algorithms/OaGenerators/BonOaDecBase.cpp`: `OaDecompositionBase::generateCuts` (236-345);
`BonOaFeasChecker.cpp`: `OaFeasibilityChecker::performOa` (37-135).
-/
namespace Verif.Dec

/-! ## `generateCuts` -/

/-- `currentNodeNumber_` and `savedCuts_`. -/
structure GenSt (κ : Type) where
  node : Int
  saved : List κ
deriving DecidableEq

/-- One call: `mipFeasible()`, number of the node, `integerFeasible` of the LP solution, `doLocalSearch`, which cuts the LP solution violates; and what `performOa` does if it is called:
the cuts it adds, the cuts it saves (only the feasibility checker does), its bound. -/
structure GenIn (κ : Type) where
  mipFeasible : Bool
  node : Int
  isInt : Bool
  doLocal : Bool
  violated : κ → Bool
  oaCuts : List κ
  oaSaved : List κ
  oaBound : ℚ

/-- What a call does: emitted cuts, whether `performOa` ran, the bound passed to `setMipBound`. -/
structure GenOut (κ : Type) where
  cuts : List κ
  ran : Bool
  bound : Option ℚ
deriving DecidableEq

/-- The scan of the saved cuts (279-292): the first violated one is taken out. -/
def takeViolated {κ : Type} (v : κ → Bool) : List κ → Option (κ × List κ)
  | [] => none
  | c :: l => if v c then some (c, l) else (takeViolated v l).map fun r => (r.1, c :: r.2)

/-- Lines 299-334: call `performOa` unless the point is fractional and no local search is wanted. -/
def runOa {κ : Type} (s : GenSt κ) (i : GenIn κ) : GenSt κ × GenOut κ :=
  if !i.isInt && !i.doLocal then (s, ⟨[], false, none⟩)
  else ({ s with saved := s.saved ++ i.oaSaved }, ⟨i.oaCuts, true, if -(10 ^ 100) < i.oaBound then some i.oaBound else none⟩)

/-- `generateCuts` (236-345), with an NLP and a `BabInfo` present.  The saving and restoring of the solvers is the subject of C31. -/
def genCuts {κ : Type} (s : GenSt κ) (i : GenIn κ) : GenSt κ × GenOut κ :=
  if !i.mipFeasible then (s, ⟨[], false, none⟩)
  else if i.node = s.node then
    match takeViolated i.violated s.saved with
    | some (c, l) => ({ s with saved := l }, ⟨[c], false, none⟩)
    | none => runOa s i
  else runOa ⟨i.node, []⟩ i

/-- A sequence of calls. -/
def genRun {κ : Type} (s : GenSt κ) : List (GenIn κ) → GenSt κ × List (GenOut κ)
  | [] => (s, [])
  | i :: l => let r := genCuts s i; let q := genRun r.1 l; (q.1, r.2 :: q.2)

/-! ## The feasibility checker -/

/-- Variables of the loop: cuts in `cs` added since the start, rows appended to the LP, `cut_count_`, cutoff, result; `pt` is the LP solution. -/
structure FcSt (P κ : Type) where
  new : List κ
  rows : List κ
  count : Nat
  cutoff : ℚ
  bound : ℚ
  isInt : Bool
  feasible : Bool
  pt : P
  passes : Nat

/-- Oracles: the NLP for the integers of a point, outer approximation cuts, Benders cuts, LP. -/
structure FcOracles (P κ : Type) where
  nlp : P → NlpAns P
  oa : P → P → List κ
  benders : P → List κ
  lp : List κ → ℚ → LpAns P
  integral : P → Bool
  differ01 : P → P → Bool

/-- The new cutoff (65-72). -/
def fcCutoff {P : Type} (eps : ℚ) (a : NlpAns P) (cutoff : ℚ) : ℚ :=
  if a.optimal = true ∧ a.obj < cutoff then newCutoff eps a.obj else cutoff

/-- The cuts generated by one pass (79-84). -/
def fcGen {P κ : Type} (o : FcOracles P κ) (maxOa : Nat) (oaType : Bool) (s : FcSt P κ) : List κ :=
  if s.count ≤ maxOa ∧ oaType = true then o.oa (o.nlp s.pt).pt s.pt else o.benders (o.nlp s.pt).pt

/-- One pass (53-117).  `maxOa` is `maximum_oa_cuts_`, `oaType` is `type_ == OA`; `numberCutsBefore` is not updated in the loop, so all cuts added since the start are
counted and installed again. -/
def fcPass {P κ : Type} (o : FcOracles P κ) (eps : ℚ) (maxOa : Nat) (oaType : Bool) (s : FcSt P κ) : FcSt P κ :=
  let a := o.nlp s.pt
  let cutoff := fcCutoff eps a s.cutoff
  let new := s.new ++ fcGen o maxOa oaType s
  let rows := s.rows ++ new
  let l := o.lp rows cutoff
  let feas := l.optimal && !l.limit && decide (l.obj < cutoff)
  if !feas || o.differ01 a.pt l.pt then ⟨new, rows, s.count + new.length, cutoff, s.bound, o.integral l.pt, feas, l.pt, s.passes + 1⟩
  else ⟨new, rows, s.count + new.length, cutoff, 10 ^ 200, false, feas, l.pt, s.passes + 1⟩

/-- The loop (52), at most `n` passes; `true` when it was left. -/
def fcRun {P κ : Type} (o : FcOracles P κ) (eps : ℚ) (maxOa : Nat) (oaType : Bool) : Nat → FcSt P κ → Bool × FcSt P κ
  | 0, s => (!(s.isInt && s.feasible), s)
  | n + 1, s => if s.isInt && s.feasible then fcRun o eps maxOa oaType n (fcPass o eps maxOa oaType s) else (true, s)

/-- The start (41-50). -/
def fcInit {P κ : Type} (dmax : ℚ) (count : Nat) (cutoff : ℚ) (pt : P) : FcSt P κ := ⟨[], [], count, cutoff, -dmax, true, true, pt, 0⟩

/-! ## Properties of `generateCuts` -/

theorem takeViolated_some {κ : Type} (v : κ → Bool) (l : List κ) (c : κ) (r : List κ) :
    takeViolated v l = some (c, r) ↔ ∃ a b, l = a ++ c :: b ∧ r = a ++ b ∧ v c = true ∧ ∀ x ∈ a, v x = false := by
  induction l generalizing c r with
  | nil => simp [takeViolated]
  | cons d l ih =>
    unfold takeViolated
    split
    · rename_i h
      constructor
      · intro he
        simp at he
        exact ⟨[], l, by rw [← he.1]; rfl, by rw [← he.2]; rfl, by rw [← he.1]; exact h, by simp⟩
      · rintro ⟨a, b, h1, h2, h3, h4⟩
        cases a with
        | nil => simp at h1 h2; simp [h1, h2]
        | cons e a =>
          simp at h1
          have := h4 e (by simp)
          rw [← h1.1, h] at this
          simp at this
    · rename_i h
      rw [Option.map_eq_some_iff]
      constructor
      · rintro ⟨q, hq, he⟩
        obtain ⟨a, b, h1, h2, h3, h4⟩ := (ih q.1 q.2).mp hq
        simp at he
        refine ⟨d :: a, b, ?_, ?_, ?_, ?_⟩
        · rw [h1, he.1]; rfl
        · rw [← he.2, h2]; rfl
        · rw [← he.1]; exact h3
        · intro x hx
          rcases List.mem_cons.mp hx with rfl | hx
          · simpa using h
          · exact h4 x hx
      · rintro ⟨a, b, h1, h2, h3, h4⟩
        cases a with
        | nil =>
          simp at h1
          rw [h1.1] at h
          exact absurd h3 h
        | cons e a =>
          simp at h1
          refine ⟨(c, a ++ b), (ih c (a ++ b)).mpr ⟨a, b, h1.2, rfl, h3, fun x hx => h4 x (by simp [hx])⟩, ?_⟩
          simp [h2, h1.1]

theorem takeViolated_none {κ : Type} (v : κ → Bool) (l : List κ) : takeViolated v l = none ↔ ∀ x ∈ l, v x = false := by
  induction l with
  | nil => simp [takeViolated]
  | cons d l ih =>
    unfold takeViolated
    split
    · rename_i h; simp [h]
    · rename_i h; simp [ih, h]

/-- **C51** (a saved cut).  Called again at the same node with an LP solution that violates some saved cuts, the generator returns the first of them and nothing else, does not run
the decomposition, and forgets exactly that cut. -/
theorem gen_saved {κ : Type} (s : GenSt κ) (i : GenIn κ) (a b : List κ) (c : κ) (h1 : i.mipFeasible = true) (h2 : i.node = s.node) (h3 : s.saved = a ++ c :: b)
    (h4 : i.violated c = true) (h5 : ∀ x ∈ a, i.violated x = false) : genCuts s i = (⟨s.node, a ++ b⟩, ⟨[c], false, none⟩) := by
  unfold genCuts
  rw [(takeViolated_some i.violated s.saved c (a ++ b)).mpr ⟨a, b, h3, rfl, h4, h5⟩]
  simp [h1, h2]

/-- **C51** (the other calls).  An infeasible master problem: nothing happens.  Otherwise, with no violated saved cut or at a new node (then the saved cuts are dropped): the decomposition
runs exactly when the LP solution is integral or a local search is wanted; its cuts are returned, its bound is passed on when it is above `-1e100`. -/
theorem gen_other {κ : Type} (s : GenSt κ) (i : GenIn κ) :
    (i.mipFeasible = false → genCuts s i = (s, ⟨[], false, none⟩)) ∧
    (i.mipFeasible = true → (i.node = s.node → ∀ x ∈ s.saved, i.violated x = false) →
      ∀ kept, kept = (if i.node = s.node then s.saved else []) →
      (i.isInt = false ∧ i.doLocal = false → genCuts s i = (⟨i.node, kept⟩, ⟨[], false, none⟩)) ∧
      (i.isInt = true ∨ i.doLocal = true → (genCuts s i).1 = ⟨i.node, kept ++ i.oaSaved⟩ ∧ (genCuts s i).2.cuts = i.oaCuts ∧ (genCuts s i).2.ran = true ∧
        (-(10 ^ 100) < i.oaBound → (genCuts s i).2.bound = some i.oaBound) ∧ (i.oaBound ≤ -(10 ^ 100) → (genCuts s i).2.bound = none))) := by
  constructor
  · intro h; simp [genCuts, h]
  · intro h hv kept hk
    have hg : genCuts s i = runOa ⟨i.node, kept⟩ i := by
      unfold genCuts
      by_cases hn : i.node = s.node
      · rw [(takeViolated_none i.violated s.saved).mpr (hv hn)]
        rw [if_pos hn] at hk
        simp [h, hn, hk]
      · rw [if_neg hn] at hk
        simp [h, hn, hk]
    rw [hg]
    unfold runOa
    constructor
    · rintro ⟨e1, e2⟩; simp [e1, e2]
    · intro ho
      have hno : ¬ ((!i.isInt && !i.doLocal) = true) := by
        rcases ho with ho | ho <;> simp [ho]
      rw [if_neg hno]
      refine ⟨rfl, rfl, rfl, fun hb => by simp [hb], fun hb => ?_⟩
      have : ¬ (-(10 ^ 100) < i.oaBound) := not_lt.mpr hb
      simp only [this, if_false]

/-- Cuts returned without running the decomposition. -/
def fromSaved {κ : Type} (l : List (GenOut κ)) : List κ := (l.filter fun o => !o.ran).flatMap fun o => o.cuts

/-- **C51** (no endless return of saved cuts).  In every sequence of calls, the number of cuts returned from the store plus the cuts still stored is at most the number of cuts stored at the
start plus those stored on the way. -/
theorem gen_saved_bounded {κ : Type} (s : GenSt κ) (l : List (GenIn κ)) :
    (fromSaved (genRun s l).2).length + (genRun s l).1.saved.length ≤ s.saved.length + (l.map fun i => i.oaSaved.length).sum := by
  induction l generalizing s with
  | nil => simp [genRun, fromSaved]
  | cons i l ih =>
    have step : (fromSaved [(genCuts s i).2]).length + (genCuts s i).1.saved.length ≤ s.saved.length + i.oaSaved.length := by
      have hrun : ∀ t : GenSt κ, t.saved.length ≤ s.saved.length → (fromSaved [(runOa t i).2]).length + (runOa t i).1.saved.length ≤ s.saved.length + i.oaSaved.length := by
        intro t ht
        unfold runOa
        split
        · simp [fromSaved]; omega
        · simp [fromSaved]; omega
      unfold genCuts
      split
      · simp [fromSaved]
      · split
        · split
          · rename_i c r hc
            obtain ⟨a, b, e1, e2, _, _⟩ := (takeViolated_some _ _ _ _).mp hc
            simp [fromSaved, e1, e2]
            omega
          · exact hrun s (le_refl _)
        · exact hrun ⟨i.node, []⟩ (by simp)
    have ih' := ih (genCuts s i).1
    have hsplit : fromSaved ((genCuts s i).2 :: (genRun (genCuts s i).1 l).2) = fromSaved [(genCuts s i).2] ++ fromSaved (genRun (genCuts s i).1 l).2 := by
      unfold fromSaved
      rw [List.filter_cons, List.filter_cons]
      split <;> simp
    simp only [genRun, hsplit, List.length_append, List.map_cons, List.sum_cons]
    omega

example : genCuts (⟨4, [1, 2, 3]⟩ : GenSt Nat) ⟨true, 4, true, false, fun c => decide (2 ≤ c), [9], [8], 0⟩ = (⟨4, [1, 3]⟩, ⟨[2], false, none⟩) ∧
    genCuts (⟨4, [1, 2, 3]⟩ : GenSt Nat) ⟨true, 5, true, false, fun c => decide (2 ≤ c), [9], [8], 0⟩ = (⟨5, [8]⟩, ⟨[9], true, some 0⟩) := by decide +kernel

/-! ## Properties of the feasibility checker -/

/-- **C51** (result).  When the checker is left, either the last LP is infeasible or not below the cutoff, or its solution is not integral, or it proposes the integers of the NLP solution again and
the bound is 1e200 (the node is then fathomed). -/
theorem fc_exit {P κ : Type} (o : FcOracles P κ) (eps : ℚ) (maxOa : Nat) (oaType : Bool) (n : Nat) (dmax : ℚ) (count : Nat) (cutoff : ℚ) (pt : P) (s : FcSt P κ)
    (h : fcRun o eps maxOa oaType n (fcInit dmax count cutoff pt) = (true, s)) :
    0 < s.passes ∧ ∃ l, l = o.lp s.rows s.cutoff ∧ s.pt = l.pt ∧ (s.feasible = true ↔ l.optimal = true ∧ l.limit = false ∧ l.obj < s.cutoff) ∧
      (s.feasible = false ∨ o.integral l.pt = false ∨ (s.bound = 10 ^ 200 ∧ ∃ x, o.differ01 (o.nlp x).pt l.pt = false)) ∧
      (s.bound = -dmax ∨ s.bound = 10 ^ 200 ∧ s.feasible = true ∧ ∃ x, o.differ01 (o.nlp x).pt l.pt = false) := by
  -- a description of the state after at least one pass
  let D : FcSt P κ → Prop := fun s => 0 < s.passes ∧ ∃ l, l = o.lp s.rows s.cutoff ∧ s.pt = l.pt ∧ (s.feasible = true ↔ l.optimal = true ∧ l.limit = false ∧ l.obj < s.cutoff) ∧
    ((s.isInt = o.integral l.pt ∧ s.bound = -dmax) ∨ (s.isInt = false ∧ s.bound = 10 ^ 200 ∧ s.feasible = true ∧ ∃ x, o.differ01 (o.nlp x).pt l.pt = false))
  have hpass : ∀ s : FcSt P κ, s.bound = -dmax → D (fcPass o eps maxOa oaType s) := by
    intro s hb
    unfold fcPass
    dsimp only
    split
    · refine ⟨Nat.succ_pos _, _, rfl, rfl, ?_, Or.inl ⟨rfl, hb⟩⟩
      simp [and_assoc]
    · rename_i hc
      simp only [Bool.or_eq_true, Bool.not_eq_true', not_or, Bool.not_eq_true, Bool.not_eq_false] at hc
      refine ⟨Nat.succ_pos _, _, rfl, rfl, ?_, Or.inr ⟨rfl, rfl, hc.1, s.pt, hc.2⟩⟩
      simp [and_assoc]
  have key : ∀ n (s t : FcSt P κ), (D s ∨ (s.bound = -dmax ∧ (s.isInt && s.feasible) = true)) → fcRun o eps maxOa oaType n s = (true, t) → D t ∧ (t.isInt && t.feasible) = false := by
    intro n
    induction n with
    | zero =>
      intro s t hs he
      simp only [fcRun, Prod.mk.injEq, Bool.not_eq_true'] at he
      obtain ⟨e1, e2⟩ := he
      subst e2
      rcases hs with hs | hs
      · exact ⟨hs, e1⟩
      · rw [hs.2] at e1; simp at e1
    | succ n ih =>
      intro s t hs he
      unfold fcRun at he
      split at he
      · rename_i hw
        apply ih _ _ _ he
        left
        apply hpass
        rcases hs with hs | hs
        · obtain ⟨_, l, _, _, _, hb⟩ := hs
          rcases hb with hb | hb
          · exact hb.2
          · rw [hb.1] at hw; simp at hw
        · exact hs.1
      · rename_i hw
        simp only [Prod.mk.injEq, true_and] at he
        subst he
        rcases hs with hs | hs
        · exact ⟨hs, by simpa using hw⟩
        · exact absurd hs.2 hw
  obtain ⟨⟨d1, l, d2, d3, d4, d5⟩, hw⟩ := key n _ s (Or.inr ⟨rfl, rfl⟩) h
  refine ⟨d1, l, d2, d3, d4, ?_, ?_⟩
  · rcases d5 with ⟨e1, e2⟩ | ⟨e1, e2, e3, e4⟩
    · rw [e1] at hw
      cases hf : s.feasible
      · exact Or.inl rfl
      · rw [hf] at hw
        simp at hw
        exact Or.inr (Or.inl hw)
    · exact Or.inr (Or.inr ⟨e2, e4⟩)
  · rcases d5 with ⟨e1, e2⟩ | ⟨e1, e2, e3, e4⟩
    · exact Or.inl e2
    · exact Or.inr ⟨e2, e3, e4⟩

/-- **C51** (cutoff).  With a nonnegative increment the cutoff never rises, and it stays at most the value of every NLP solved to optimality. -/
theorem fc_cutoff {P κ : Type} (o : FcOracles P κ) (eps : ℚ) (he : 0 ≤ eps) (maxOa : Nat) (oaType : Bool) (s : FcSt P κ) :
    (fcPass o eps maxOa oaType s).cutoff ≤ s.cutoff ∧ ((o.nlp s.pt).optimal = true → (fcPass o eps maxOa oaType s).cutoff ≤ (o.nlp s.pt).obj) ∧
    ((o.nlp s.pt).optimal = true → (o.nlp s.pt).obj < s.cutoff → (fcPass o eps maxOa oaType s).cutoff = (o.nlp s.pt).obj - eps * |(o.nlp s.pt).obj|) ∧
    (¬ ((o.nlp s.pt).optimal = true ∧ (o.nlp s.pt).obj < s.cutoff) → (fcPass o eps maxOa oaType s).cutoff = s.cutoff) := by
  have hc : (fcPass o eps maxOa oaType s).cutoff = fcCutoff eps (o.nlp s.pt) s.cutoff := by
    unfold fcPass; dsimp only; split <;> rfl
  rw [hc]
  unfold fcCutoff
  have h0 := mul_nonneg he (abs_nonneg (o.nlp s.pt).obj)
  split
  · rename_i h
    rw [newCutoff_eq]
    exact ⟨by linarith [h.2], fun _ => by linarith, fun _ _ => rfl, fun hn => absurd h hn⟩
  · rename_i h
    refine ⟨le_refl _, fun ho => not_lt.mp fun hlt => h ⟨ho, hlt⟩, fun h1 h2 => absurd ⟨h1, h2⟩ h, fun _ => rfl⟩

/-- **C51** (rows).  A pass adds its cuts to the returned ones, but appends to the LP *all* cuts returned so far, and counts all of them. -/
theorem fc_rows {P κ : Type} (o : FcOracles P κ) (eps : ℚ) (maxOa : Nat) (oaType : Bool) (s : FcSt P κ) :
    (fcPass o eps maxOa oaType s).new = s.new ++ fcGen o maxOa oaType s ∧ (fcPass o eps maxOa oaType s).rows = s.rows ++ s.new ++ fcGen o maxOa oaType s ∧
    (fcPass o eps maxOa oaType s).count = s.count + s.new.length + (fcGen o maxOa oaType s).length ∧
    (s.count ≤ maxOa → oaType = true → fcGen o maxOa oaType s = o.oa (o.nlp s.pt).pt s.pt) ∧
    ((maxOa < s.count ∨ oaType = false) → fcGen o maxOa oaType s = o.benders (o.nlp s.pt).pt) := by
  have hg : (s.count ≤ maxOa → oaType = true → fcGen o maxOa oaType s = o.oa (o.nlp s.pt).pt s.pt) ∧
    ((maxOa < s.count ∨ oaType = false) → fcGen o maxOa oaType s = o.benders (o.nlp s.pt).pt) := by
    unfold fcGen
    refine ⟨fun h1 h2 => if_pos ⟨h1, h2⟩, fun h => if_neg ?_⟩
    rintro ⟨h1, h2⟩
    rcases h with h | h
    · omega
    · rw [h2] at h; simp at h
  refine ⟨?_, ?_, ?_, hg.1, hg.2⟩
  all_goals
    unfold fcPass
    dsimp only
    split <;> simp <;> omega

/-- **C51** (termination).  If the LP, whose rows contain the cuts of an assignment, never proposes this assignment again as an integral solution below the cutoff, the checker is left after at most as many passes as
there are assignments. -/
theorem fc_terminates {P κ α : Type} [DecidableEq α] (o : FcOracles P κ) (eps : ℚ) (he : 0 ≤ eps) (maxOa : Nat) (oaType : Bool) (y : P → α) (Y : List α)
    (hY : ∀ x, o.integral x = true → y x ∈ Y)
    (hnew : ∀ rows v x, o.integral x = true → ((o.nlp x).optimal = true → v ≤ (o.nlp x).obj) →
      ((∀ c ∈ o.oa (o.nlp x).pt x, c ∈ rows) ∨ (∀ c ∈ o.benders (o.nlp x).pt, c ∈ rows)) →
      (o.lp rows v).optimal = true → (o.lp rows v).limit = false → (o.lp rows v).obj < v → o.integral (o.lp rows v).pt = true → y (o.lp rows v).pt ≠ y x)
    (dmax : ℚ) (count : Nat) (cutoff : ℚ) (pt : P) (hpt : o.integral pt = true) : (fcRun o eps maxOa oaType Y.length (fcInit dmax count cutoff pt)).1 = true := by
  have key : ∀ n (s : FcSt P κ) (seen : List α), seen.Nodup → (∀ a ∈ seen, a ∈ Y) →
      (∀ a ∈ seen, ∃ x, o.integral x = true ∧ y x = a ∧ ((o.nlp x).optimal = true → s.cutoff ≤ (o.nlp x).obj) ∧ ((∀ c ∈ o.oa (o.nlp x).pt x, c ∈ s.rows) ∨ (∀ c ∈ o.benders (o.nlp x).pt, c ∈ s.rows))) →
      ((s.isInt && s.feasible) = true → o.integral s.pt = true ∧ y s.pt ∉ seen) → seen.length + n = Y.length → (fcRun o eps maxOa oaType n s).1 = true := by
    intro n
    induction n with
    | zero =>
      intro s seen hnd hsub _ hw hlen
      unfold fcRun
      by_contra hcon
      simp only [Bool.not_eq_true', Bool.not_eq_false] at hcon
      obtain ⟨h1, h2⟩ := hw hcon
      replace h1 := hY _ h1
      have := (List.subperm_of_subset (List.nodup_cons.mpr ⟨h2, hnd⟩) (by
        intro a ha
        rcases List.mem_cons.mp ha with rfl | ha
        · exact h1
        · exact hsub a ha)).length_le
      simp at this
      omega
    | succ n ih =>
      intro s seen hnd hsub hcuts hw hlen
      unfold fcRun
      split
      · rename_i hcond
        obtain ⟨h1, h2⟩ := hw hcond
        obtain ⟨c1, c2, _, _⟩ := fc_cutoff o eps he maxOa oaType s
        obtain ⟨_, r2, _, r4, r5⟩ := fc_rows o eps maxOa oaType s
        have hcuts' : ∀ a ∈ y s.pt :: seen, ∃ x, o.integral x = true ∧ y x = a ∧ ((o.nlp x).optimal = true → (fcPass o eps maxOa oaType s).cutoff ≤ (o.nlp x).obj) ∧
            ((∀ c ∈ o.oa (o.nlp x).pt x, c ∈ (fcPass o eps maxOa oaType s).rows) ∨ (∀ c ∈ o.benders (o.nlp x).pt, c ∈ (fcPass o eps maxOa oaType s).rows)) := by
          intro a ha
          rcases List.mem_cons.mp ha with rfl | ha
          · refine ⟨s.pt, h1, rfl, c2, ?_⟩
            by_cases hk : s.count ≤ maxOa ∧ oaType = true
            · left
              rw [← r4 hk.1 hk.2, r2]
              exact fun c hc => List.mem_append_right _ hc
            · right
              rw [← r5 (by
                by_cases hk1 : s.count ≤ maxOa
                · exact Or.inr (by simpa using fun hh => hk ⟨hk1, hh⟩)
                · exact Or.inl (by omega)), r2]
              exact fun c hc => List.mem_append_right _ hc
          · obtain ⟨x, e0, e1, e2, e3⟩ := hcuts a ha
            refine ⟨x, e0, e1, fun ho => le_trans c1 (e2 ho), ?_⟩
            rw [r2]
            rcases e3 with e3 | e3
            · exact Or.inl fun c hc => List.mem_append_left _ (List.mem_append_left _ (e3 c hc))
            · exact Or.inr fun c hc => List.mem_append_left _ (List.mem_append_left _ (e3 c hc))
        refine ih _ (y s.pt :: seen) (List.nodup_cons.mpr ⟨h2, hnd⟩) ?_ hcuts' ?_ (by simp; omega)
        · intro a ha
          rcases List.mem_cons.mp ha with rfl | ha
          · exact hY _ h1
          · exact hsub a ha
        · intro hw'
          have hst : ∃ l, l = o.lp (fcPass o eps maxOa oaType s).rows (fcPass o eps maxOa oaType s).cutoff ∧ (fcPass o eps maxOa oaType s).pt = l.pt ∧
              ((fcPass o eps maxOa oaType s).isInt = true → o.integral l.pt = true) ∧
              ((fcPass o eps maxOa oaType s).feasible = true → l.optimal = true ∧ l.limit = false ∧ l.obj < (fcPass o eps maxOa oaType s).cutoff) := by
            unfold fcPass
            dsimp only
            split
            · exact ⟨_, rfl, rfl, by simp, by simp [and_assoc]⟩
            · exact ⟨_, rfl, rfl, by simp, by simp [and_assoc]⟩
          obtain ⟨l, e1, e2, e3, e4⟩ := hst
          simp only [Bool.and_eq_true] at hw'
          rw [e2]
          refine ⟨e3 hw'.1, ?_⟩
          intro hmem
          obtain ⟨x, g0, g1, g2, g3⟩ := hcuts' _ hmem
          have f0 := e3 hw'.1
          obtain ⟨f1, f2, f3⟩ := e4 hw'.2
          rw [e1] at f0 f1 f2 f3 g1
          exact hnew _ _ x g0 g2 g3 f1 f2 f3 f0 g1.symm
      · rfl
  exact key Y.length _ [] List.nodup_nil (by simp) (by simp) (fun _ => ⟨hpt, by simp⟩) (by simp)

/-- **C51** (termination without that).  Also when the LP does come back to an assignment whose cuts it has: if its answer depends only on which rows there are and on the cutoff, the NLP and its outer approximation cuts
only on the assignment, and an integral point is not told apart from the NLP of its assignment, then the checker is left after at most two passes for each assignment (one with outer approximation cuts, one with
Benders cuts) and one more. -/
theorem fc_terminates_again {P κ α : Type} [DecidableEq α] (o : FcOracles P κ) (eps : ℚ) (he : 0 ≤ eps) (maxOa : Nat) (oaType : Bool) (y : P → α) (Y : List α)
    (hY : ∀ x, o.integral x = true → y x ∈ Y) (hlp : ∀ rows rows' v, (∀ c, c ∈ rows ↔ c ∈ rows') → o.lp rows v = o.lp rows' v)
    (hsame : ∀ x x', o.integral x = true → o.integral x' = true → y x = y x' → o.nlp x = o.nlp x' ∧ o.oa (o.nlp x).pt x = o.oa (o.nlp x').pt x')
    (hclose : ∀ x, o.integral x = true → o.differ01 (o.nlp x).pt x = false)
    (dmax : ℚ) (count : Nat) (cutoff : ℚ) (pt : P) (hpt : o.integral pt = true) : (fcRun o eps maxOa oaType (2 * Y.length + 1) (fcInit dmax count cutoff pt)).1 = true := by
  -- whether the pass makes outer approximation cuts
  have hgen : ∀ s : FcSt P κ, fcGen o maxOa oaType s = if decide (s.count ≤ maxOa ∧ oaType = true) = true then o.oa (o.nlp s.pt).pt s.pt else o.benders (o.nlp s.pt).pt := by
    intro s; simp only [fcGen, decide_eq_true_eq]
  have hst : ∀ s : FcSt P κ, (fcPass o eps maxOa oaType s).pt = (o.lp (fcPass o eps maxOa oaType s).rows (fcPass o eps maxOa oaType s).cutoff).pt ∧
      ((fcPass o eps maxOa oaType s).isInt = true → o.integral (fcPass o eps maxOa oaType s).pt = true) ∧
      ((fcPass o eps maxOa oaType s).feasible = true → o.differ01 (o.nlp s.pt).pt (fcPass o eps maxOa oaType s).pt = false → (fcPass o eps maxOa oaType s).isInt = false) := by
    intro s
    unfold fcPass
    dsimp only
    split
    · rename_i hc
      refine ⟨rfl, id, fun h1 h2 => ?_⟩
      dsimp only at h1 h2
      rw [h1, h2] at hc
      simp at hc
    · exact ⟨rfl, by simp, fun _ _ => rfl⟩
  have key : ∀ n (s : FcSt P κ) (seen : List (α × Bool)), seen.Nodup → (∀ a ∈ seen, a.1 ∈ Y) → (∀ c ∈ s.new, c ∈ s.rows) →
      (∀ a ∈ seen, ∃ x, o.integral x = true ∧ y x = a.1 ∧ ((o.nlp x).optimal = true → s.cutoff ≤ (o.nlp x).obj) ∧
        (∀ c ∈ (if a.2 = true then o.oa (o.nlp x).pt x else o.benders (o.nlp x).pt), c ∈ s.rows)) →
      ((s.isInt && s.feasible) = true → o.integral s.pt = true ∧ (seen = [] ∨ s.pt = (o.lp s.rows s.cutoff).pt)) → seen.length + n = 2 * Y.length + 1 → (fcRun o eps maxOa oaType n s).1 = true := by
    have small : ∀ seen : List (α × Bool), seen.Nodup → (∀ a ∈ seen, a.1 ∈ Y) → seen.length ≤ 2 * Y.length := by
      intro seen hnd hsub
      have := (List.subperm_of_subset (l₂ := Y ×ˢ [true, false]) hnd (by
        rintro ⟨a, k⟩ ha
        refine List.mem_product.mpr ⟨hsub _ ha, ?_⟩
        cases k <;> simp)).length_le
      rw [List.length_product] at this
      simp only [List.length_cons, List.length_nil] at this
      omega
    intro n
    induction n with
    | zero =>
      intro s seen hnd hsub _ _ _ hlen
      have := small seen hnd hsub
      omega
    | succ n ih =>
      intro s seen hnd hsub hin hcuts hw hlen
      unfold fcRun
      split
      · rename_i hcond
        obtain ⟨h1, h2⟩ := hw hcond
        obtain ⟨c1, c2, _, c4⟩ := fc_cutoff o eps he maxOa oaType s
        obtain ⟨r1, r2, _, _, _⟩ := fc_rows o eps maxOa oaType s
        obtain ⟨p1, p2, p3⟩ := hst s
        have hin' : ∀ c ∈ (fcPass o eps maxOa oaType s).new, c ∈ (fcPass o eps maxOa oaType s).rows := by
          rw [r1, r2]
          intro c hc
          rcases List.mem_append.mp hc with hc | hc
          · exact List.mem_append_left _ (List.mem_append_right _ hc)
          · exact List.mem_append_right _ hc
        by_cases hmem : (y s.pt, decide (s.count ≤ maxOa ∧ oaType = true)) ∈ seen
        · -- the same again: the LP has not changed
          obtain ⟨x, g0, g1, g2, g3⟩ := hcuts _ hmem
          obtain ⟨s1, s2⟩ := hsame x s.pt g0 h1 g1
          have hsub' : ∀ c ∈ fcGen o maxOa oaType s, c ∈ s.rows := by
            intro c hc
            rw [hgen, ← s1] at hc
            apply g3
            by_cases hk : decide (s.count ≤ maxOa ∧ oaType = true) = true
            · rw [if_pos hk] at hc ⊢
              rw [s2, ← s1]; exact hc
            · rw [if_neg hk] at hc ⊢
              exact hc
          have hcut : (fcPass o eps maxOa oaType s).cutoff = s.cutoff := by
            apply c4
            rw [← s1]
            rintro ⟨k1, k2⟩
            exact absurd (g2 k1) (not_le.mpr k2)
          have hrows : ∀ c, c ∈ (fcPass o eps maxOa oaType s).rows ↔ c ∈ s.rows := by
            intro c
            rw [r2]
            constructor
            · intro hc
              rcases List.mem_append.mp hc with hc | hc
              · rcases List.mem_append.mp hc with hc | hc
                · exact hc
                · exact hin c hc
              · exact hsub' c hc
            · exact fun hc => List.mem_append_left _ (List.mem_append_left _ hc)
          have hback : (fcPass o eps maxOa oaType s).pt = s.pt := by
            rw [p1, hcut, hlp _ _ _ hrows]
            rcases h2 with h2 | h2
            · rw [h2] at hmem; simp at hmem
            · exact h2.symm
          have hno : ((fcPass o eps maxOa oaType s).isInt && (fcPass o eps maxOa oaType s).feasible) = false := by
            cases hf : (fcPass o eps maxOa oaType s).feasible with
            | false => simp
            | true => rw [p3 hf (by rw [hback]; exact hclose _ h1)]; rfl
          cases n with
          | zero => unfold fcRun; rw [hno]; rfl
          | succ n => unfold fcRun; rw [if_neg (by rw [hno]; simp)]
        · refine ih _ ((y s.pt, decide (s.count ≤ maxOa ∧ oaType = true)) :: seen) (List.nodup_cons.mpr ⟨hmem, hnd⟩) ?_ hin' ?_ ?_ (by simp; omega)
          · intro a ha
            rcases List.mem_cons.mp ha with rfl | ha
            · exact hY _ h1
            · exact hsub a ha
          · intro a ha
            rcases List.mem_cons.mp ha with rfl | ha
            · refine ⟨s.pt, h1, rfl, c2, ?_⟩
              rw [r2, hgen]
              exact fun c hc => List.mem_append_right _ hc
            · obtain ⟨x, e0, e1, e2, e3⟩ := hcuts a ha
              refine ⟨x, e0, e1, fun ho => le_trans c1 (e2 ho), fun c hc => ?_⟩
              rw [r2]
              exact List.mem_append_left _ (List.mem_append_left _ (e3 c hc))
          · intro hw'
            rw [Bool.and_eq_true] at hw'
            exact ⟨p2 hw'.1, Or.inr p1⟩
      · rfl
  exact key _ _ [] List.nodup_nil (by simp) (by simp [fcInit]) (by simp) (fun _ => ⟨hpt, Or.inl rfl⟩) (by simp)

/-! ### Refutations and an example -/

/-- The two-assignment problem of C32 for the checker. -/
def fcEx2 : FcOracles Bool Bool :=
  ⟨fun x => exO.nlp x 0, fun p x => exO.cuts p x 0, fun p => exO.cuts p p 0, fun rows v => exO.lp rows v 0, exO.integral, exO.differ⟩

/-- It meets the hypotheses of `fc_terminates`. -/
example (n : Nat) (cutoff : ℚ) (x : Bool) : (fcRun fcEx2 (1 / 10) n true 2 (fcInit 0 0 cutoff x)).1 = true := by
  refine fc_terminates fcEx2 (1 / 10) (by norm_num) n true id [true, false] (by intro x _; cases x <;> simp) ?_ 0 0 cutoff x rfl
  intro rows v x _ hv hc h1 h2 h3 _
  have := exO_contract.newLp rows v 0 x hv (by rcases hc with hc | hc <;> exact hc) h1 h2 h3
  simp only [exO, bne_iff_ne, ne_eq] at this
  exact fun he => this he.symm

/-- Two assignments; the LP goes to `true` while the cut of `true` is missing, then to `false`, and with both cuts back to `true`: it does return, always below the cutoff. -/
def fcBack : FcOracles Bool Bool :=
  ⟨fun x => ⟨true, 5, x⟩, fun _ x => [x], fun _ => [], fun rows v => ⟨true, false, v - 1, !decide (true ∈ rows) || decide (false ∈ rows)⟩, fun _ => true, fun a b => a != b⟩

/-- It meets the hypotheses of `fc_terminates_again`, not those of `fc_terminates`: three passes are needed for the two assignments. -/
example (cutoff : ℚ) (x : Bool) : (fcRun fcBack (1 / 10) 100 true 5 (fcInit 0 0 cutoff x)).1 = true :=
  fc_terminates_again fcBack (1 / 10) (by norm_num) 100 true id [true, false] (by intro x _; cases x <;> simp)
    (fun rows rows' v h => by simp only [fcBack, h]) (fun x x' _ _ h => by cases h; exact ⟨rfl, rfl⟩) (fun x _ => by simp [fcBack]) 0 0 cutoff x rfl

example : (fcRun fcBack (1 / 10) 100 true 2 (fcInit 0 0 50 true)).1 = false ∧ (fcRun fcBack (1 / 10) 100 true 3 (fcInit 0 0 50 true)).1 = true ∧
    (fcRun fcBack (1 / 10) 100 true 3 (fcInit 0 0 50 true)).2.passes = 3 := by decide +kernel

/-- Points are 0, 1, 2; each pass generates one outer approximation cut (named after the point) or the Benders cut 100; the LP moves to the next point after each new cut. -/
def fcEx : FcOracles Nat Nat :=
  ⟨fun x => ⟨true, 10 - x, x⟩, fun _ x => [x], fun _ => [100], fun rows v => ⟨decide (rows.dedup.length < 3), false, v - 1, rows.dedup.length⟩, fun _ => true, fun a b => a != b⟩

/-- **C51** refuted: cuts are installed in the LP several times in the same call (here 0 three times, 1 twice). -/
theorem fc_rows_repeat : (fcRun fcEx (1 / 10) 100 true 5 (fcInit 0 0 50 0)).1 = true ∧ (fcRun fcEx (1 / 10) 100 true 5 (fcInit 0 0 50 0)).2.rows = [0, 0, 1, 0, 1, 2] ∧
    (fcRun fcEx (1 / 10) 100 true 5 (fcInit 0 0 50 0)).2.new = [0, 1, 2] := by decide +kernel

/-- **C51** refuted: Benders cuts replace outer approximation cuts although not more than `generate_benders_after_so_many_oa` cuts were generated: with the limit 2, two cuts were
generated in two passes, but the count is already 3 and the third pass generates a Benders cut. -/
theorem fc_benders_early : (fcRun fcEx (1 / 10) 2 true 5 (fcInit 0 0 50 0)).2.new = [0, 1, 100] := by decide +kernel

/-- **C51**: the state before the first pass. -/
theorem fc_start {P κ : Type} (dmax : ℚ) (count : Nat) (cutoff : ℚ) (pt : P) :
    let s : FcSt P κ := fcInit dmax count cutoff pt
    s.new = [] ∧ s.rows = [] ∧ s.count = count ∧ s.cutoff = cutoff ∧ s.bound = -dmax ∧ s.isInt = true ∧ s.feasible = true ∧ s.pt = pt ∧ s.passes = 0 := ⟨rfl, rfl, rfl, rfl, rfl, rfl, rfl, rfl, rfl⟩

/-- **C51**: the recorded number of passes is at most the number allowed, and exactly that number if the loop has not been left. -/
theorem fc_passes {P κ : Type} (o : FcOracles P κ) (eps : ℚ) (maxOa : Nat) (oaType : Bool) (n : Nat) (s : FcSt P κ) :
    (fcRun o eps maxOa oaType n s).2.passes ≤ s.passes + n ∧ ((fcRun o eps maxOa oaType n s).1 = false → (fcRun o eps maxOa oaType n s).2.passes = s.passes + n) := by
  have step : ∀ s : FcSt P κ, (fcPass o eps maxOa oaType s).passes = s.passes + 1 := by
    intro s
    unfold fcPass
    dsimp only
    split_ifs <;> rfl
  induction n generalizing s with
  | zero => simp [fcRun]
  | succ n ih =>
    unfold fcRun
    split_ifs
    · obtain ⟨h1, h2⟩ := ih (fcPass o eps maxOa oaType s)
      rw [step] at h1 h2
      exact ⟨by omega, fun h => by have := h2 h; omega⟩
    · exact ⟨by simp, fun h => by cases h⟩

end Verif.Dec

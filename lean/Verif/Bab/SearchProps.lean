import Verif.Bab.Search
import Verif.Bab.NodeStatusProps
import Verif.Bab.FinalProps
import Verif.Div.BoundProps
import Verif.Div.DiverProps
import Mathlib.Tactic.Linarith
import Mathlib.Tactic.NormNum
import Mathlib.Tactic.Ring
import Mathlib.Algebra.Order.BigOperators.Group.List
import Mathlib.Data.List.Induction
/-!
# C257: what the search of B-BB guarantees
-/
namespace Verif.Bab.Search
open Verif.Div

variable {X σ : Type}

/-! ## Specification -/

/-- The values of the integer variables lie in the box. -/
def InBox (b : Box) (v : List ℚ) : Prop :=
  v.length = b.length ∧ ∀ (i : ℕ) (p : ℤ × ℤ) (a : ℚ), b[i]? = some p → v[i]? = some a → (p.1 : ℚ) ≤ a ∧ a ≤ p.2

/-- All integer variables have whole values. -/
def Whole (v : List ℚ) : Prop := ∀ a ∈ v, ∃ z : ℤ, a = z

/-- All integer variables are within `tol` of whole values. -/
def Near (tol : ℚ) (v : List ℚ) : Prop := ∀ a ∈ v, ∃ z : ℤ, |a - z| ≤ tol

/-- The MINLP: the feasible points of its continuous relaxation and the objective to be minimised. -/
structure Minlp (X : Type) where
  feas : X → Prop
  obj : X → ℚ

/-- A solution of the MINLP in the box. -/
def Sol (ints : X → List ℚ) (P : Minlp X) (b : Box) (y : X) : Prop := P.feas y ∧ InBox b (ints y) ∧ Whole (ints y)

/-- The NLP solver, when it does not give up, solves the continuous relaxation on the box globally. -/
def Right (w : World X) (P : Minlp X) : Prop := ∀ b, (w.nlp b).flags.abandoned = false →
  ((w.nlp b).flags.infeasible = true → ∀ y, P.feas y → ¬ InBox b (w.ints y)) ∧
  ((w.nlp b).flags.infeasible = false → P.feas (w.nlp b).point ∧ InBox b (w.ints (w.nlp b).point) ∧ (w.nlp b).value = P.obj (w.nlp b).point ∧
    ∀ y, P.feas y → InBox b (w.ints y) → (w.nlp b).value ≤ P.obj y)

/-- The solves from the hot start: infeasible and solved are said only when true, and then the value is a bound. -/
def RightHot (w : World X) (P : Minlp X) : Prop := ∀ b,
  ((w.hot b).optimal = false → (w.hot b).infeasible = true → ∀ y, P.feas y → ¬ InBox b (w.ints y)) ∧
  ((w.hot b).optimal = true → ∀ y, P.feas y → InBox b (w.ints y) → (w.hot b).value ≤ P.obj y)

/-- Heuristics hand over solutions (within the integer tolerance) in the root box with their values. -/
def RightHeur (w : World X) (P : Minlp X) (b0 : Box) : Prop := ∀ b cut v x, w.heur b cut = some (v, x) →
  P.feas x ∧ InBox b0 (w.ints x) ∧ Near w.tol (w.ints x) ∧ v = P.obj x

/-- All that the search relies on. -/
structure Helpers (w : World X) (P : Minlp X) (b0 : Box) : Prop where
  nlp : Right w P
  hot : RightHot w P
  heur : RightHeur w P b0
  tol : 0 ≤ w.tol
  low : ∀ y, P.feas y → -10 ^ 200 ≤ P.obj y

/-- What is demanded of a tree: it conserves the nodes, deletes only what reached a cutoff, hands out at most one node below the cutoff, none only when nothing is left;
its calls return in the order in which the search makes them (`ready` = a child may be put in); `empty` and the bound are truthful. -/
structure Lawful (T : Tree σ) (ready : σ → Prop) : Prop where
  init : T.inside T.init = [] ∧ ready T.init
  conserve : ∀ s o s' l, T.step s o = some (s', l) → Conserved (T.inside s) [o] (T.inside s') l
  pushQuiet : ∀ s x cmp s' l, T.step s (.push x cmp) = some (s', l) → l.handed = []
  cleanQuiet : ∀ s c s' l, T.step s (.clean c) = some (s', l) → l.handed = []
  best : ∀ s c pick s' l, T.step s (.best c pick) = some (s', l) →
    l.handed.length ≤ 1 ∧ (∀ x ∈ l.handed, x.obj < c) ∧ (l.handed = [] → T.inside s' = []) ∧ ready s'
  bestRuns : ∀ s c pick, T.step s (.best c pick) ≠ none
  cleanRuns : ∀ s c, T.step s (.clean c) ≠ none
  pushRuns : ∀ s x cmp, ready s → T.step s (.push x cmp) ≠ none
  pushBack : ∀ s x cmp s' l, ready s → x.left < x.total → T.step s (.push x cmp) = some (s', l) → ready s'
  empty : ∀ s, T.empty s = true ↔ T.inside s = []
  bound : ∀ s, ∀ x ∈ T.inside s, T.bound s ≤ x.obj

/-! ## Boxes and branching -/

/-- The sum of the widths of a box. -/
def width (b : Box) : ℕ := (b.map (fun p => (p.2 - p.1).toNat)).sum

theorem width_modify : ∀ (b : Box) (i : ℕ) (p : ℤ × ℤ) (f : ℤ × ℤ → ℤ × ℤ), b[i]? = some p →
    width (b.modify i f) + (p.2 - p.1).toNat = width b + ((f p).2 - (f p).1).toNat
  | [], i, p, f, h => by simp at h
  | a :: b, 0, p, f, h => by
    simp only [List.getElem?_cons_zero, Option.some.injEq] at h
    subst h
    simp only [width, List.modify_zero_cons, List.map_cons, List.sum_cons]
    omega
  | a :: b, i + 1, p, f, h => by
    simp only [List.getElem?_cons_succ] at h
    have := width_modify b i p f h
    simp only [width, List.modify_succ_cons, List.map_cons, List.sum_cons] at this ⊢
    omega

/-- The branching variable of a node has a value strictly inside its bounds. -/
def Splits (p : Pay) : Prop := ∃ lo hi, p.box[p.var]? = some (lo, hi) ∧ lo ≤ p.val ∧ p.val < hi

theorem width_side {p : Pay} (h : Splits p) (k : ℕ) : width (side p k) < width p.box := by
  obtain ⟨lo, hi, hb, h1, h2⟩ := h
  unfold side
  split_ifs
  · have := width_modify p.box p.var _ (fun b => (p.val + 1, b.2)) hb
    simp only [upper] at this ⊢
    omega
  · have := width_modify p.box p.var _ (fun b => (b.1, p.val)) hb
    simp only [down] at this ⊢
    omega

theorem inBox_down (p : Pay) (v : List ℚ) (h : Splits p) :
    InBox (down p) v ↔ InBox p.box v ∧ ∀ a, v[p.var]? = some a → a ≤ p.val := by
  obtain ⟨lo, hi, hb, h1, h2⟩ := h
  simp only [InBox, down, List.length_modify]
  constructor
  · rintro ⟨hl, h⟩
    refine ⟨⟨hl, fun i q a hq ha => ?_⟩, fun a ha => ?_⟩
    · by_cases hi' : p.var = i
      · subst hi'
        have := h p.var (q.1, p.val) a (by rw [List.getElem?_modify, hq]; simp) ha
        rw [hb] at hq
        simp only [Option.some.injEq] at hq
        subst hq
        refine ⟨this.1, this.2.trans ?_⟩
        exact_mod_cast h2.le
      · exact h i q a (by rw [List.getElem?_modify, hq]; simp [hi']) ha
    · exact (h p.var (lo, p.val) a (by rw [List.getElem?_modify, hb]; simp) ha).2
  · rintro ⟨⟨hl, h⟩, hv⟩
    refine ⟨hl, fun i q a hq ha => ?_⟩
    rw [List.getElem?_modify] at hq
    cases hc : p.box[i]? with
    | none => rw [hc] at hq; simp at hq
    | some c =>
      rw [hc] at hq
      simp only [Option.map_eq_map, Option.map_some, Option.some.injEq] at hq
      subst hq
      by_cases hi' : p.var = i
      · subst hi'
        simp only [if_true]
        exact ⟨(h _ _ _ hc ha).1, hv a ha⟩
      · simp only [if_neg hi']
        exact h _ _ _ hc ha

theorem inBox_upper (p : Pay) (v : List ℚ) (h : Splits p) :
    InBox (upper p) v ↔ InBox p.box v ∧ ∀ a, v[p.var]? = some a → (p.val : ℚ) + 1 ≤ a := by
  obtain ⟨lo, hi, hb, h1, h2⟩ := h
  simp only [InBox, upper, List.length_modify]
  constructor
  · rintro ⟨hl, h⟩
    refine ⟨⟨hl, fun i q a hq ha => ?_⟩, fun a ha => ?_⟩
    · by_cases hi' : p.var = i
      · subst hi'
        have := h p.var (p.val + 1, q.2) a (by rw [List.getElem?_modify, hq]; simp) ha
        rw [hb] at hq
        simp only [Option.some.injEq] at hq
        subst hq
        refine ⟨?_, this.2⟩
        have h3 : (lo : ℚ) ≤ p.val := by exact_mod_cast h1
        have := this.1
        push_cast at this
        linarith
      · exact h i q a (by rw [List.getElem?_modify, hq]; simp [hi']) ha
    · have := (h p.var (p.val + 1, hi) a (by rw [List.getElem?_modify, hb]; simp) ha).1
      push_cast at this
      exact this
  · rintro ⟨⟨hl, h⟩, hv⟩
    refine ⟨hl, fun i q a hq ha => ?_⟩
    rw [List.getElem?_modify] at hq
    cases hc : p.box[i]? with
    | none => rw [hc] at hq; simp at hq
    | some c =>
      rw [hc] at hq
      simp only [Option.map_eq_map, Option.map_some, Option.some.injEq] at hq
      subst hq
      by_cases hi' : p.var = i
      · subst hi'
        simp only [if_true]
        refine ⟨?_, (h _ _ _ hc ha).2⟩
        push_cast
        exact hv a ha
      · simp only [if_neg hi']
        exact h _ _ _ hc ha

/-- C257: branching keeps every integral point, in exactly one of the two branches, and adds none. -/
theorem sides_partition (p : Pay) (v : List ℚ) (h : Splits p) (hw : Whole v) :
    (InBox p.box v ↔ InBox (side p 0) v ∨ InBox (side p 1) v) ∧ ¬ (InBox (side p 0) v ∧ InBox (side p 1) v) := by
  have hd := inBox_down p v h
  have hu := inBox_upper p v h
  have hside : (side p 0 = upper p ∧ side p 1 = down p) ∨ (side p 0 = down p ∧ side p 1 = upper p) := by
    cases hp : p.up <;> simp [side, hp]
  have hsome : InBox p.box v → ∃ a, v[p.var]? = some a := by
    rintro ⟨hl, -⟩
    obtain ⟨lo, hi, hb, -⟩ := h
    have : p.var < v.length := by rw [hl]; exact (List.getElem?_eq_some_iff.mp hb).1
    exact ⟨_, List.getElem?_eq_getElem this⟩
  have key : (InBox p.box v ↔ InBox (down p) v ∨ InBox (upper p) v) ∧ ¬ (InBox (down p) v ∧ InBox (upper p) v) := by
    constructor
    · constructor
      · intro hb
        obtain ⟨a, ha⟩ := hsome hb
        obtain ⟨z, rfl⟩ := hw a (List.mem_of_getElem? ha)
        rcases le_or_gt z p.val with hz | hz
        · left
          rw [hd]
          refine ⟨hb, fun a' ha' => ?_⟩
          rw [ha] at ha'
          cases ha'
          exact_mod_cast hz
        · right
          rw [hu]
          refine ⟨hb, fun a' ha' => ?_⟩
          rw [ha] at ha'
          cases ha'
          exact_mod_cast hz
      · rintro (h' | h')
        · exact (hd.mp h').1
        · exact (hu.mp h').1
    · rintro ⟨h1, h2⟩
      obtain ⟨a, ha⟩ := hsome (hd.mp h1).1
      have e1 := (hd.mp h1).2 a ha
      have e2 := (hu.mp h2).2 a ha
      linarith
  rcases hside with ⟨e0, e1⟩ | ⟨e0, e1⟩
  · rw [e0, e1]
    exact ⟨key.1.trans or_comm, fun hh => key.2 hh.symm⟩
  · rw [e0, e1]
    exact key

theorem cands_mem {tol : ℚ} {b : Box} {vals : List ℚ} {i : ℕ} {k : ℤ} (h : (i, k) ∈ cands tol b vals) :
    ∃ p v, b[i]? = some p ∧ vals[i]? = some v ∧ fractional tol p v = true ∧ k = ⌊clamp p v⌋ := by
  simp only [cands, List.mem_map, List.mem_filter, Prod.mk.injEq, Prod.exists] at h
  obtain ⟨p, q, v, n, ⟨hm, hf⟩, rfl, rfl⟩ := h
  rw [List.mem_zipIdx_iff_getElem?] at hm
  rw [List.getElem?_zip_eq_some] at hm
  exact ⟨_, _, hm.1, hm.2, hf, rfl⟩

theorem cands_nil {tol : ℚ} {b : Box} {vals : List ℚ} (h : cands tol b vals = []) (i : ℕ) (p : ℤ × ℤ) (v : ℚ) (hp : b[i]? = some p) (hv : vals[i]? = some v) :
    fractional tol p v = false := by
  simp only [cands, List.map_eq_nil_iff, List.filter_eq_nil_iff, Prod.forall] at h
  have := h p.1 p.2 v i (by rw [List.mem_zipIdx_iff_getElem?, List.getElem?_zip_eq_some]; exact ⟨hp, hv⟩)
  simpa using this

theorem fractional_splits {tol : ℚ} (ht : 0 ≤ tol) {p : ℤ × ℤ} {v : ℚ} (h : fractional tol p v = true) : p.1 ≤ ⌊clamp p v⌋ ∧ ⌊clamp p v⌋ < p.2 := by
  simp only [fractional, decide_eq_true_eq] at h
  have hni : ∀ z : ℤ, clamp p v ≠ z := by
    rintro z hz
    rw [hz] at h
    simp at h
    linarith
  refine ⟨Int.le_floor.mpr (le_max_left _ _), ?_⟩
  rw [Int.floor_lt]
  refine lt_of_le_of_ne ?_ (hni _)
  unfold clamp
  rcases le_total (p.1 : ℚ) (min v p.2) with h1 | h1
  · rw [max_eq_right h1]; exact min_le_right _ _
  · exact absurd (max_eq_left h1) (hni p.1)

theorem pickVar_mem {k : ℕ} {l : List (ℕ × ℤ)} {e : ℕ × ℤ} (h : pickVar k l = some e) : e ∈ l := List.mem_of_getElem? h

theorem pickVar_none {k : ℕ} {l : List (ℕ × ℤ)} (h : pickVar k l = none) : l = [] := by
  cases l with
  | nil => rfl
  | cons a l =>
    simp only [pickVar, List.getElem?_eq_none_iff] at h
    have := Nat.mod_lt k (show 0 < (a :: l).length by simp)
    omega

/-- C257: which variables are candidates: exactly those whose value, moved into the bounds, is farther than the tolerance from every whole number. -/
theorem cands_exact (tol : ℚ) (b : Box) (vals : List ℚ) (i : ℕ) (k : ℤ) :
    (i, k) ∈ cands tol b vals ↔ ∃ p v, b[i]? = some p ∧ vals[i]? = some v ∧ (∀ z : ℤ, tol < |clamp p v - z|) ∧ (k : ℚ) ≤ clamp p v ∧ clamp p v < k + 1 := by
  have hfr : ∀ (p : ℤ × ℤ) (v : ℚ), fractional tol p v = true ↔ ∀ z : ℤ, tol < |clamp p v - z| := by
    intro p v
    simp only [fractional, decide_eq_true_eq]
    exact ⟨fun h z => h.trans_le (round_le _ z), fun h => h _⟩
  constructor
  · intro h
    obtain ⟨p, v, hp, hv, hf, rfl⟩ := cands_mem h
    exact ⟨p, v, hp, hv, (hfr _ _).mp hf, Int.floor_le _, Int.lt_floor_add_one _⟩
  · rintro ⟨p, v, hp, hv, hf, h1, h2⟩
    have hk : k = ⌊clamp p v⌋ := (Int.floor_eq_iff.mpr ⟨h1, h2⟩).symm
    simp only [cands, List.mem_map, List.mem_filter, Prod.mk.injEq, Prod.exists]
    exact ⟨p.1, p.2, v, i, ⟨by rw [List.mem_zipIdx_iff_getElem?, List.getElem?_zip_eq_some]; exact ⟨hp, hv⟩, (hfr _ _).mpr hf⟩, rfl, hk.symm⟩

/-! ## One child -/

/-- What may be concluded from the fate of a child. -/
def Meaning (w : World X) (P : Minlp X) (b : Box) (cut : ℚ) : Fate X → Prop
  | .closed true => (w.nlp b).flags.abandoned = true
  | .closed false => ∀ y, Sol w.ints P b y → cut ≤ P.obj y
  | .solution v x => P.feas x ∧ InBox b (w.ints x) ∧ Near w.tol (w.ints x) ∧ v = P.obj x ∧ v < cut ∧ ∀ y, Sol w.ints P b y → v ≤ P.obj y
  | .opened o i k => (∃ lo hi, b[i]? = some (lo, hi) ∧ lo ≤ k ∧ k < hi) ∧ ∀ y, Sol w.ints P b y → o ≤ P.obj y
  | .threw => (w.nlp b).flags.abandoned = true

theorem near_of_none {tol : ℚ} {b : Box} {v : List ℚ} {k : ℕ} (hb : InBox b v) (h : pickVar k (cands tol b v) = none) : Near tol v := by
  intro a ha
  obtain ⟨i, hi⟩ := List.mem_iff_getElem?.mp ha
  have hlt : i < b.length := by rw [← hb.1]; exact (List.getElem?_eq_some_iff.mp hi).1
  have hp : b[i]? = some b[i] := List.getElem?_eq_getElem hlt
  have hf := cands_nil (pickVar_none h) i _ a hp hi
  obtain ⟨h1, h2⟩ := hb.2 i _ a hp hi
  have hc : clamp b[i] a = a := by
    unfold clamp
    rw [min_eq_left h2, max_eq_right h1]
  simp only [fractional, decide_eq_false_iff_not, not_lt, hc] at hf
  exact ⟨_, hf⟩

theorem status_verdict (cfg : Cfg) (hf : Bool) (p : Parent) (f : Flags) :
    ((status cfg hf p f).1 = .throws → f.abandoned = true) ∧ ((status cfg hf p f).1 = .fathom → f.abandoned = true) ∧
    ((status cfg hf p f).1 = .branch → f.abandoned = true ∨ f.infeasible = true) := by
  obtain ⟨ab, inf, it⟩ := f
  cases p with
  | root => simp [status]
  | node c => cases ab <;> cases inf <;> (simp [status]; try (split_ifs <;> simp_all))

theorem plain_meaning (w : World X) (P : Minlp X) (hr : Right w P) (ht : 0 ≤ w.tol) (b : Box) (cut : ℚ) : Meaning w P b cut (plain w b cut) := by
  have hb := hr b
  unfold plain
  simp only [proceeds]
  rcases Bool.eq_false_or_eq_true (w.nlp b).flags.abandoned with ha | ha
  · simp [Meaning, ha]
  · rcases Bool.eq_false_or_eq_true (w.nlp b).flags.infeasible with hi | hi
    · simp only [ha, hi, Bool.not_false, Bool.not_true, Bool.and_false, Bool.false_eq_true, if_false, Meaning]
      exact fun y hy => absurd hy.2.1 ((hb ha).1 hi y hy.1)
    · obtain ⟨f1, f2, f3, f4⟩ := (hb ha).2 hi
      simp only [ha, hi, Bool.not_false, Bool.and_self, if_true]
      by_cases hc : cut ≤ (w.nlp b).value
      · rw [if_pos hc]
        exact fun y hy => hc.trans (f4 y hy.1 hy.2.1)
      · rw [if_neg hc]
        cases hp : pickVar (w.choose b) (cands w.tol b (w.ints (w.nlp b).point)) with
        | some e =>
          obtain ⟨i, k⟩ := e
          simp only [Meaning]
          obtain ⟨q, v, h1, h2, h3, rfl⟩ := cands_mem (pickVar_mem hp)
          exact ⟨⟨q.1, q.2, h1, fractional_splits ht h3⟩, fun y hy => f4 y hy.1 hy.2.1⟩
        | none => exact ⟨f1, f2, near_of_none f2 hp, f3, not_le.mp hc, fun y hy => f4 y hy.1 hy.2.1⟩

theorem fate_meaning (w : World X) (P : Minlp X) (hr : Right w P) (ht : 0 ≤ w.tol) (hlow : ∀ y, P.feas y → -10 ^ 200 ≤ P.obj y)
    (cfg : Cfg) (hf : Bool) (info : Parent) (b : Box) (cut : ℚ) : Meaning w P b cut (fate w cfg hf info b cut).1 := by
  have hv := status_verdict cfg hf info (w.nlp b).flags
  have hb := hr b
  unfold fate
  simp only
  cases hs : (status cfg hf info (w.nlp b).flags).1 with
  | throws => exact hv.1 hs
  | fathom => exact hv.2.1 hs
  | branch =>
    simp only
    cases hp : pickVar (w.choose b) (cands w.tol b (forced b)) with
    | some e =>
      obtain ⟨i, k⟩ := e
      simp only [Meaning]
      obtain ⟨q, v, h1, h2, h3, rfl⟩ := cands_mem (pickVar_mem hp)
      exact ⟨⟨q.1, q.2, h1, fractional_splits ht h3⟩, fun y hy => hlow y hy.1⟩
    | none =>
      simp only
      cases ha : (w.nlp b).flags.abandoned with
      | true => exact ha
      | false =>
        have hi : (w.nlp b).flags.infeasible = true := by
          rcases hv.2.2 hs with h | h
          · rw [ha] at h; cases h
          · exact h
        exact fun y hy => absurd hy.2.1 ((hb ha).1 hi y hy.1)
  | noEffect => exact plain_meaning w P hr ht b cut

/-! ## Strong branching -/

/-- A branch counts as infeasible only if it has no solution better than the cutoff. -/
theorem probe_one {w : World X} {P : Minlp X} (hh : RightHot w P) {cut : ℚ} {b : Box} (h : probe w cut b = 1) (y : X) (hf : P.feas y) (hy : InBox b (w.ints y)) :
    cut ≤ P.obj y := by
  obtain ⟨h1, h2⟩ := hh b
  obtain ⟨ho, -⟩ := (Branch.hotStatus_truth _ _ _ _).1.mp h
  rcases (Branch.Debug.osi_status_exact cut (w.hot b)).2.1.mp ho with ⟨e1, e2⟩ | ⟨e1, e2⟩
  · exact e2.trans (h2 e1 y hf hy)
  · exact absurd hy (h1 e1 e2 y hf)

theorem inspected_mem {w : World X} {cut : ℚ} {b : Box} {cs : List (ℕ × ℤ)} {c : ℕ × ℤ} (h : c ∈ inspected w cut b cs) : c ∈ cs ∧ c.1 ∈ w.tried b cut := by
  simp only [inspected, List.mem_filterMap, List.mem_dedup] at h
  obtain ⟨i, h1, h2⟩ := h
  have := List.find?_some h2
  simp only [beq_iff_eq] at this
  exact ⟨List.mem_of_find?_eq_some h2, this ▸ h1⟩

theorem filterMap_fst {f : ℕ → Option (ℕ × ℤ)} (hf : ∀ i c, f i = some c → c.1 = i) : ∀ l : List ℕ, ((l.filterMap f).map Prod.fst).Sublist l
  | [] => by simp
  | a :: l => by
    cases ha : f a with
    | none => rw [List.filterMap_cons_none ha]; exact (filterMap_fst hf l).cons _
    | some c =>
      rw [List.filterMap_cons_some ha, List.map_cons, hf a c ha]
      exact (filterMap_fst hf l).cons_cons _

theorem inspected_nodup (w : World X) (cut : ℚ) (b : Box) (cs : List (ℕ × ℤ)) : ((inspected w cut b cs).map Prod.fst).Nodup := by
  refine List.Nodup.sublist (filterMap_fst ?_ _) (List.nodup_dedup _)
  intro i c h
  simpa using List.find?_some h

/-- What the fixings do to a box: a part of it, and only points of branches found infeasible are lost. -/
theorem fix_spec (s : ℕ × ℤ → ℤ × ℤ) : ∀ (cs : List (ℕ × ℤ)) (acc : Box), (cs.map Prod.fst).Nodup → (∀ c ∈ cs, ∃ lo hi, acc[c.1]? = some (lo, hi) ∧ lo ≤ c.2 ∧ c.2 < hi) →
    (∀ v, InBox (cs.foldl (fun a c => fixOne (s c) a c) acc) v ↔
      InBox acc v ∧ ∀ c ∈ cs, ∀ a, v[c.1]? = some a → ((s c).1 = 1 → (c.2 : ℚ) + 1 ≤ a) ∧ ((s c).1 ≠ 1 → (s c).2 = 1 → a ≤ c.2)) ∧
    width (cs.foldl (fun a c => fixOne (s c) a c) acc) ≤ width acc
  | [], acc, _, _ => by simp
  | c :: cs, acc, hn, hs => by
    simp only [List.map_cons, List.nodup_cons] at hn
    have hc : Splits ⟨acc, c.1, c.2, false, .root⟩ := hs c (by simp)
    have hrest : ∀ d ∈ cs, ∃ lo hi, (fixOne (s c) acc c)[d.1]? = some (lo, hi) ∧ lo ≤ d.2 ∧ d.2 < hi := by
      intro d hd
      have hne : c.1 ≠ d.1 := by
        intro h
        exact hn.1 (h ▸ List.mem_map_of_mem hd)
      obtain ⟨lo, hi, e⟩ := hs d (List.mem_cons_of_mem _ hd)
      refine ⟨lo, hi, ?_, e.2⟩
      unfold fixOne
      split_ifs <;> simp [upper, down, List.getElem?_modify, hne, e.1]
    obtain ⟨i1, i2⟩ := fix_spec s cs (fixOne (s c) acc c) hn.2 hrest
    have hbox : ∀ v, InBox (fixOne (s c) acc c) v ↔ InBox acc v ∧ ∀ a, v[c.1]? = some a → ((s c).1 = 1 → (c.2 : ℚ) + 1 ≤ a) ∧ ((s c).1 ≠ 1 → (s c).2 = 1 → a ≤ c.2) := by
      intro v
      unfold fixOne
      split_ifs with h1 h2
      · rw [inBox_upper _ _ hc]
        simp [h1]
      · rw [inBox_down _ _ hc]
        simp [h1, h2]
      · simp [h1, h2]
    refine ⟨fun v => ?_, ?_⟩
    · rw [List.foldl_cons, i1 v, hbox v]
      simp only [List.mem_cons, forall_eq_or_imp, and_assoc]
    · rw [List.foldl_cons]
      refine i2.trans ?_
      unfold fixOne
      have hu := width_side hc 0
      have hd := width_side hc 1
      simp only [side] at hu hd
      split_ifs
      · simpa using hd.le
      · simpa using hu.le
      · exact le_refl _

/-- **C257.**  A branch counts as infeasible exactly if it was solved and is not better than the cutoff, or is infeasible and the value left by the solver is not almost zero. -/
theorem probe_exact (w : World X) (cut : ℚ) (b : Box) : probe w cut b = 1 ↔
    ((w.hot b).optimal = true ∧ cut ≤ (w.hot b).value ∧ ((w.hot b).infeasible = true → 1 / 10 ^ 6 ≤ |(w.hot b).value|)) ∨
    ((w.hot b).optimal = false ∧ (w.hot b).infeasible = true ∧ 1 / 10 ^ 6 ≤ |(w.hot b).value|) := by
  unfold probe
  rw [(Branch.hotStatus_truth _ _ _ _).1, (Branch.Debug.osi_status_exact cut (w.hot b)).2.1]
  cases (w.hot b).optimal <;> cases (w.hot b).infeasible <;> simp

theorem code_fold (s : ℕ × ℤ → ℤ × ℤ) (k : ℤ) : ∀ l : List (ℕ × ℤ), l.foldl (fun k c => Branch.newCode k (s c).1 (s c).2) k =
    match (l.filter (fun c => decide ((s c).1 = 1 ∨ (s c).2 = 1))).getLast? with
    | none => k
    | some c => if (s c).1 = 1 ∧ (s c).2 = 1 then -1 else 1 := by
  intro l
  induction l using List.reverseRecOn with
  | nil => simp
  | append_singleton l c ih =>
    rw [List.foldl_append, List.foldl_cons, List.foldl_nil, ih, List.filter_append]
    unfold Branch.newCode
    by_cases h1 : (s c).1 = 1 <;> by_cases h2 : (s c).2 = 1 <;> simp [h1, h2]

/-- **C257.**  What strong branching finds is decided by the last candidate looked at that has an infeasible branch: with two, the node is infeasible; with one, all candidates with
infeasible branches are fixed; without such a candidate nothing is done. -/
theorem strong_exact (w : World X) (cut : ℚ) (b : Box) (cs : List (ℕ × ℤ)) : strong w cut b cs =
    match ((inspected w cut b cs).filter (fun c => decide ((probes w cut b c).1 = 1 ∨ (probes w cut b c).2 = 1))).getLast? with
    | none => .go
    | some c => if (probes w cut b c).1 = 1 ∧ (probes w cut b c).2 = 1 then .infeasible
      else .tight ((inspected w cut b cs).foldl (fun acc c => fixOne (probes w cut b c) acc c) b) := by
  unfold strong
  simp only [code_fold]
  cases ((inspected w cut b cs).filter (fun c => decide ((probes w cut b c).1 = 1 ∨ (probes w cut b c).2 = 1))).getLast? with
  | none => simp
  | some c => simp only; split_ifs <;> simp_all

/-- **C257.**  What may be concluded from strong branching at a node: no solution better than the cutoff is lost. -/
theorem strong_spec {w : World X} {P : Minlp X} (hh : RightHot w P) (ht : 0 ≤ w.tol) (cut : ℚ) (b : Box) (vals : List ℚ) :
    match strong w cut b (cands w.tol b vals) with
    | .go => True
    | .infeasible => ∀ y, Sol w.ints P b y → cut ≤ P.obj y
    | .tight b' => (∀ v, InBox b' v → InBox b v) ∧ width b' ≤ width b ∧ ∀ y, Sol w.ints P b y → P.obj y < cut → InBox b' (w.ints y) := by
  have hsp : ∀ c ∈ inspected w cut b (cands w.tol b vals), ∃ lo hi, b[c.1]? = some (lo, hi) ∧ lo ≤ c.2 ∧ c.2 < hi := by
    intro c hc
    obtain ⟨q, v, h1, h2, h3, h4⟩ := cands_mem (i := c.1) (k := c.2) (inspected_mem hc).1
    rw [h4]
    exact ⟨q.1, q.2, h1, fractional_splits ht h3⟩
  -- a solution better than the cutoff is in a branch that does not count as infeasible
  have hside : ∀ c ∈ inspected w cut b (cands w.tol b vals), ∀ y, Sol w.ints P b y → P.obj y < cut →
      ((probes w cut b c).1 = 1 → (probes w cut b c).2 ≠ 1 ∧ ∀ a, (w.ints y)[c.1]? = some a → (c.2 : ℚ) + 1 ≤ a) ∧
      ((probes w cut b c).2 = 1 → ∀ a, (w.ints y)[c.1]? = some a → a ≤ c.2) := by
    intro c hc y hy hlt
    have hs : Splits ⟨b, c.1, c.2, false, .root⟩ := hsp c hc
    have hno : ∀ b', probe w cut b' = 1 → ¬ InBox b' (w.ints y) := fun b' h1 h2 => absurd (probe_one hh h1 y hy.1 h2) (not_le.mpr hlt)
    have hp := (sides_partition _ _ hs hy.2.2).1.mp hy.2.1
    simp only [side, Nat.one_ne_zero, decide_true, decide_false, Bool.false_eq_true, if_false, if_true] at hp
    refine ⟨fun h1 => ?_, fun h2 => ?_⟩
    · rcases hp with h | h
      · exact absurd h (hno _ h1)
      · exact ⟨fun h2 => hno _ h2 h, ((inBox_upper _ _ hs).mp h).2⟩
    · rcases hp with h | h
      · exact ((inBox_down _ _ hs).mp h).2
      · exact absurd h (hno _ h2)
  unfold strong
  simp only
  split_ifs with h1 h2
  · intro y hy
    by_contra hc
    have hlt := not_le.mp hc
    have key : ∀ (l : List (ℕ × ℤ)) (k : ℤ), k ≠ -1 → (∀ c ∈ l, c ∈ inspected w cut b (cands w.tol b vals)) →
        l.foldl (fun k c => Branch.newCode k (probes w cut b c).1 (probes w cut b c).2) k ≠ -1 := by
      intro l
      induction l with
      | nil => intro k hk _; exact hk
      | cons c l ih =>
        intro k hk hl
        rw [List.foldl_cons]
        apply ih _ _ (fun d hd => hl d (List.mem_cons_of_mem _ hd))
        unfold Branch.newCode
        split_ifs with e1 e2
        · exact absurd e1.2 ((hside c (hl c (by simp)) y hy hlt).1 e1.1).1
        · norm_num
        · exact hk
    exact key _ 0 (by norm_num) (fun c hc => hc) h1
  · obtain ⟨f1, f2⟩ := fix_spec (probes w cut b) (inspected w cut b (cands w.tol b vals)) b (inspected_nodup _ _ _ _) hsp
    refine ⟨fun v hv => ((f1 v).mp hv).1, f2, fun y hy hlt => (f1 _).mpr ⟨hy.2.1, fun c hc a ha => ?_⟩⟩
    obtain ⟨g1, g2⟩ := hside c hc y hy hlt
    exact ⟨fun e => (g1 e).2 a ha, fun _ e => g2 e a ha⟩
  · trivial

/-- **C257.**  The rounds of strong branching: the box gets smaller, keeps all solutions better than the cutoff, and the fate belongs to it. -/
theorem deepen_spec {w : World X} {P : Minlp X} (hr : Right w P) (hh : RightHot w P) (ht : 0 ≤ w.tol) (cut : ℚ) : ∀ (n : ℕ) (b : Box) (vals : List ℚ) (f : Fate X), Meaning w P b cut f →
    Meaning w P (deepen w cut n b vals f).2 cut (deepen w cut n b vals f).1 ∧ (∀ v, InBox (deepen w cut n b vals f).2 v → InBox b v) ∧
    width (deepen w cut n b vals f).2 ≤ width b ∧ ∀ y, Sol w.ints P b y → P.obj y < cut → InBox (deepen w cut n b vals f).2 (w.ints y)
  | 0, b, vals, f, hm => ⟨hm, fun _ h => h, le_refl _, fun y hy _ => hy.2.1⟩
  | n + 1, b, vals, f, hm => by
    cases f with
    | closed u => exact ⟨hm, fun _ h => h, le_refl _, fun y hy _ => hy.2.1⟩
    | solution v x => exact ⟨hm, fun _ h => h, le_refl _, fun y hy _ => hy.2.1⟩
    | threw => exact ⟨hm, fun _ h => h, le_refl _, fun y hy _ => hy.2.1⟩
    | opened o i k =>
      have hs := strong_spec hh ht cut b vals
      unfold deepen
      cases hst : strong w cut b (cands w.tol b vals) with
      | go => exact ⟨hm, fun _ h => h, le_refl _, fun y hy _ => hy.2.1⟩
      | infeasible =>
        rw [hst] at hs
        exact ⟨hs, fun _ h => h, le_refl _, fun y hy _ => hy.2.1⟩
      | tight b' =>
        rw [hst] at hs
        obtain ⟨s1, s2, s3⟩ := hs
        obtain ⟨d1, d2, d3, d4⟩ := deepen_spec hr hh ht cut n b' (w.ints (w.nlp b').point) (plain w b' cut) (plain_meaning w P hr ht b' cut)
        exact ⟨d1, fun v hv => s1 v (d2 v hv), d3.trans s2, fun y hy hlt => d4 y ⟨hy.1, s3 y hy hlt, hy.2.2⟩ hlt⟩

/-! ## The invariant -/

/-- A node in the tree is a proper one: two branches, at least one left, a box inside the root box that its branches divide, and a bound that holds. -/
def NodeOK (ints : X → List ℚ) (P : Minlp X) (b0 : Box) (tab : List Pay) (x : Node) : Prop :=
  x.total = 2 ∧ 1 ≤ x.left ∧ x.left ≤ 2 ∧ ∃ p, tab[x.id]? = some p ∧ Splits p ∧ (∀ v, InBox p.box v → InBox b0 v) ∧ ∀ y, Sol ints P p.box y → x.obj ≤ P.obj y

/-- A point lies in a branch of the node that was not explored yet. -/
def OpenAt (tab : List Pay) (x : Node) (v : List ℚ) : Prop :=
  ∃ p k, tab[x.id]? = some p ∧ x.total - x.left ≤ k ∧ k < 2 ∧ InBox (side p k) v

/-- The best solution is a solution within the tolerance, and the cutoff belongs to it. -/
def IncOK (w : World X) (P : Minlp X) (b0 : Box) (cut0 decr : ℚ) (st : St σ X) : Prop :=
  match st.inc with
  | none => st.cut = cut0
  | some (v, x) => st.cut = v - decr ∧ v = P.obj x ∧ P.feas x ∧ InBox b0 (w.ints x) ∧ Near w.tol (w.ints x) ∧ v < cut0

/-- All but the points of the set `extra` that are better than the cutoff are still to be found, or were lost. -/
structure Inv (T : Tree σ) (w : World X) (P : Minlp X) (b0 : Box) (cut0 decr : ℚ) (extra : List ℚ → Prop) (st : St σ X) : Prop where
  nodes : ∀ x ∈ T.inside st.tree, NodeOK w.ints P b0 st.tab x
  cover : ∀ y, Sol w.ints P b0 y → P.obj y < st.cut →
    (∃ x ∈ T.inside st.tree, OpenAt st.tab x (w.ints y)) ∨ (∃ b ∈ st.lost, InBox b (w.ints y)) ∨ extra (w.ints y)
  inc : IncOK w P b0 cut0 decr st
  lost : ∀ b ∈ st.lost, (w.nlp b).flags.abandoned = true
  mono : st.cut ≤ cut0

/-- The number of visits a node may still cause. -/
def cost (tab : List Pay) (x : Node) : ℕ :=
  match tab[x.id]? with
  | none => 0
  | some p => x.left * (2 ^ width p.box - 1)

def mass (T : Tree σ) (st : St σ X) : ℕ := ((T.inside st.tree).map (cost st.tab)).sum

theorem tab_append {tab : List Pay} {i : ℕ} {p : Pay} (h : tab[i]? = some p) (q : List Pay) : (tab ++ q)[i]? = some p := by
  rw [List.getElem?_append_left (List.getElem?_eq_some_iff.mp h).1, h]

theorem cost_append {ints : X → List ℚ} {P : Minlp X} {b0 : Box} {tab : List Pay} {x : Node} (h : NodeOK ints P b0 tab x) (q : List Pay) : cost (tab ++ q) x = cost tab x := by
  obtain ⟨-, -, -, p, hp, -⟩ := h
  simp only [cost, hp, tab_append hp]

theorem cost_pos {ints : X → List ℚ} {P : Minlp X} {b0 : Box} {tab : List Pay} {x : Node} (h : NodeOK ints P b0 tab x) : 1 ≤ cost tab x := by
  obtain ⟨-, h1, -, p, hp, hs, -⟩ := h
  simp only [cost, hp]
  have hw : 1 ≤ width p.box := by have := width_side hs 0; omega
  have h2 : 2 ≤ 2 ^ width p.box := by
    calc 2 = 2 ^ 1 := rfl
      _ ≤ 2 ^ width p.box := Nat.pow_le_pow_right (by norm_num) hw
  calc 1 = 1 * 1 := rfl
    _ ≤ x.left * (2 ^ width p.box - 1) := Nat.mul_le_mul h1 (by omega)

theorem mem_after {T : Tree σ} {ready : σ → Prop} (hT : Lawful T ready) {s s' : σ} {o : Op} {l : Log} (h : T.step s o = some (s', l)) (x : Node) :
    (x ∈ T.inside s' ∨ x ∈ l.handed ∨ x ∈ l.deleted) ↔ x ∈ T.inside s ∨ x ∈ o.pushed := by
  have := (hT.conserve _ _ _ _ h).1.mem_iff (a := x)
  simpa [or_assoc] using this

theorem deleted_bound {T : Tree σ} {ready : σ → Prop} (hT : Lawful T ready) {s s' : σ} {c : ℚ} {l : Log} {o : Op} (ho : o.cutoffs = [c])
    (h : T.step s o = some (s', l)) (x : Node) (hx : x ∈ l.deleted) : c ≤ x.obj := by
  have := (hT.conserve _ _ _ _ h).2 x hx
  simpa [ho] using this

theorem push_deleted {T : Tree σ} {ready : σ → Prop} (hT : Lawful T ready) {s s' : σ} {l : Log} {x : Node} {cmp : Node → Node → Bool}
    (h : T.step s (.push x cmp) = some (s', l)) : (T.inside s').Perm (T.inside s ++ [x]) := by
  obtain ⟨h1, h2⟩ := hT.conserve _ _ _ _ h
  have hd : l.deleted = [] := by
    rw [List.eq_nil_iff_forall_not_mem]
    intro y hy
    have := h2 y hy
    simp [Op.cutoffs] at this
  rw [hT.pushQuiet _ _ _ _ _ h, hd] at h1
  simpa [Op.pushed] using h1

/-- The deletion of a node by the cutoff `c` removes only points that are not better. -/
theorem open_bound {ints : X → List ℚ} {P : Minlp X} {b0 : Box} {tab : List Pay} {x : Node} (h : NodeOK ints P b0 tab x) {y : X} (hy : Sol ints P b0 y)
    (ho : OpenAt tab x (ints y)) : x.obj ≤ P.obj y := by
  obtain ⟨-, -, -, p, hp, hs, -, hb⟩ := h
  obtain ⟨p', k, hp', -, hk, hin⟩ := ho
  rw [hp] at hp'
  cases hp'
  refine hb y ⟨hy.1, ?_, hy.2.2⟩
  rw [(sides_partition p _ hs hy.2.2).1]
  have : k = 0 ∨ k = 1 := by omega
  rcases this with rfl | rfl
  · exact Or.inl hin
  · exact Or.inr hin

theorem sum_cost_le {l l' : List Node} {f : Node → ℕ} {r : List Node} (h : (l' ++ r).Perm l) : (l'.map f).sum ≤ (l.map f).sum := by
  have := (h.map f).sum_eq
  simp only [List.map_append, List.sum_append] at this
  omega

/-- The step after a child was solved. -/
theorem settle_spec {T : Tree σ} {ready : σ → Prop} (hT : Lawful T ready) (w : World X) (P : Minlp X) (b0 : Box) (cut0 decr : ℚ) (hdecr : 0 ≤ decr)
    (st : St σ X) (b : Box) (depth : ℤ) (info : Parent) (F : Fate X × Bool)
    (hinv : Inv T w P b0 cut0 decr (InBox b) st) (hsub : ∀ v, InBox b v → InBox b0 v) (hready : ready st.tree) (hF : Meaning w P b st.cut F.1) :
    (∃ st', settle T w decr st b depth info F = .run st' ∧ Inv T w P b0 cut0 decr (fun _ => False) st' ∧ mass T st' ≤ mass T st + 2 * (2 ^ width b - 1)) ∨
    (∃ st', settle T w decr st b depth info F = .threw st' ∧ F.1 = .threw ∧ (w.nlp b).flags.abandoned = true ∧ st'.inc = st.inc ∧ st'.failed = F.2) := by
  obtain ⟨F, f⟩ := F
  cases F with
  | threw => exact Or.inr ⟨_, rfl, rfl, hF, rfl, rfl⟩
  | closed u =>
    refine Or.inl ⟨_, rfl, ?_, by simp [mass]⟩
    refine ⟨hinv.nodes, fun y hy hlt => ?_, hinv.inc, ?_, hinv.mono⟩
    · rcases hinv.cover y hy hlt with h | ⟨b', hb', h⟩ | h
      · exact Or.inl h
      · refine Or.inr (Or.inl ⟨b', ?_, h⟩)
        cases u
        · exact hb'
        · exact List.mem_cons_of_mem _ hb'
      · cases u with
        | false => exact absurd hlt (not_lt.mpr (hF y ⟨hy.1, h, hy.2.2⟩))
        | true => exact Or.inr (Or.inl ⟨b, by simp, h⟩)
    · intro b' hb'
      cases u with
      | false => exact hinv.lost b' hb'
      | true =>
        rcases List.mem_cons.mp hb' with rfl | hb'
        · exact hF
        · exact hinv.lost b' hb'
  | solution v x =>
    obtain ⟨g1, g2, g3, g4, g5, g6⟩ := hF
    left
    cases hc : T.step st.tree (.clean (v - decr)) with
    | none => exact absurd hc (hT.cleanRuns _ _)
    | some r =>
      obtain ⟨t, l⟩ := r
      have hq := hT.cleanQuiet _ _ _ _ hc
      have hm := mem_after hT hc
      rw [hq] at hm
      refine ⟨{ st with tree := t, inc := some (v, x), cut := v - decr, failed := f }, by simp only [settle, hc], ⟨?_, ?_, ?_, hinv.lost, ?_⟩, ?_⟩
      · intro z hz
        have := (hm z).mp (Or.inl hz)
        simp only [Op.pushed, List.not_mem_nil, or_false] at this
        exact hinv.nodes z this
      · intro y hy hlt
        have hlt' : P.obj y < st.cut := by dsimp only at hlt; linarith
        rcases hinv.cover y hy hlt' with ⟨z, hz, ho⟩ | h | h
        · rcases (hm z).mpr (Or.inl hz) with h | h | h
          · exact Or.inl ⟨z, h, ho⟩
          · exact absurd h (by simp)
          · have h1 := deleted_bound hT (c := v - decr) rfl hc z h
            have h2 := open_bound (hinv.nodes z hz) hy ho
            dsimp only at hlt
            linarith
        · exact Or.inr (Or.inl h)
        · have := g6 y ⟨hy.1, h, hy.2.2⟩
          dsimp only at hlt
          linarith
      · exact ⟨rfl, g4, g1, hsub _ g2, g3, lt_of_lt_of_le g5 hinv.mono⟩
      · have := hinv.mono
        dsimp only
        linarith
      · have hp := (hT.conserve _ _ _ _ hc).1
        rw [hq] at hp
        have : (T.inside t ++ l.deleted).Perm (T.inside st.tree) := by simpa [Op.pushed] using hp
        have := sum_cost_le (f := cost st.tab) this
        simp only [mass]
        omega
  | opened o i k =>
    obtain ⟨g1, g2⟩ := hF
    left
    cases hc : T.step st.tree (.push ⟨st.tab.length, o, w.guess b, depth, 2, 2⟩ byValue) with
    | none => exact absurd hc (hT.pushRuns _ _ _ hready)
    | some r =>
      obtain ⟨t, l⟩ := r
      have hp := push_deleted hT hc
      have hlook : (st.tab ++ [(⟨b, i, k, w.upFirst b, info⟩ : Pay)])[st.tab.length]? = some ⟨b, i, k, w.upFirst b, info⟩ := by simp
      refine ⟨{ st with tree := t, tab := st.tab ++ [⟨b, i, k, w.upFirst b, info⟩], failed := f }, by simp only [settle, hc],
        ⟨?_, ?_, hinv.inc, hinv.lost, hinv.mono⟩, ?_⟩
      · intro z hz
        rcases List.mem_append.mp (hp.mem_iff.mp hz) with h | h
        · obtain ⟨e1, e2, e3, p, hp', e4⟩ := hinv.nodes z h
          exact ⟨e1, e2, e3, p, tab_append hp' _, e4⟩
        · simp only [List.mem_singleton] at h
          subst h
          exact ⟨rfl, by simp, by simp, _, hlook, g1, hsub, g2⟩
      · intro y hy hlt
        rcases hinv.cover y hy hlt with ⟨z, hz, p, kk, hp', h1, h2, h3⟩ | h | h
        · exact Or.inl ⟨z, hp.mem_iff.mpr (List.mem_append_left _ hz), p, kk, tab_append hp' _, h1, h2, h3⟩
        · exact Or.inr (Or.inl h)
        · have hs : Splits ⟨b, i, k, w.upFirst b, info⟩ := g1
          rcases (sides_partition _ _ hs hy.2.2).1.mp h with h' | h'
          · exact Or.inl ⟨_, hp.mem_iff.mpr (List.mem_append_right _ (List.mem_singleton.mpr rfl)), _, 0, hlook, by simp, by norm_num, h'⟩
          · exact Or.inl ⟨_, hp.mem_iff.mpr (List.mem_append_right _ (List.mem_singleton.mpr rfl)), _, 1, hlook, by simp, by norm_num, h'⟩
      · have h1 := (hp.map (cost (st.tab ++ [(⟨b, i, k, w.upFirst b, info⟩ : Pay)]))).sum_eq
        have h2 : (T.inside st.tree).map (cost (st.tab ++ [(⟨b, i, k, w.upFirst b, info⟩ : Pay)])) = (T.inside st.tree).map (cost st.tab) :=
          List.map_congr_left (fun z hz => cost_append (hinv.nodes z hz) _)
        rw [List.map_append, List.sum_append, h2] at h1
        simp only [List.map_cons, List.map_nil, List.sum_cons, List.sum_nil, cost, hlook] at h1
        simp only [mass]
        rw [h1]
        omega

/-- A solution of a heuristic keeps the invariant. -/
theorem improve_spec {T : Tree σ} {ready : σ → Prop} (hT : Lawful T ready) (w : World X) (P : Minlp X) (b0 : Box) (cut0 decr : ℚ) (hdecr : 0 ≤ decr) (st : St σ X) (h : Option (ℚ × X))
    (hh : ∀ v x, h = some (v, x) → P.feas x ∧ InBox b0 (w.ints x) ∧ Near w.tol (w.ints x) ∧ v = P.obj x) (hinv : Inv T w P b0 cut0 decr (fun _ => False) st) :
    ∃ st', improve T decr st h = .run st' ∧ Inv T w P b0 cut0 decr (fun _ => False) st' ∧ mass T st' ≤ mass T st := by
  cases h with
  | none => exact ⟨st, rfl, hinv, le_refl _⟩
  | some e =>
    obtain ⟨v, x⟩ := e
    obtain ⟨g1, g2, g3, g4⟩ := hh v x rfl
    unfold improve
    by_cases hlt0 : v < st.cut
    · simp only [if_pos hlt0]
      cases hc : T.step st.tree (.clean (v - decr)) with
      | none => exact absurd hc (hT.cleanRuns _ _)
      | some r =>
        obtain ⟨t, l⟩ := r
        have hq := hT.cleanQuiet _ _ _ _ hc
        have hm := mem_after hT hc
        rw [hq] at hm
        refine ⟨{ st with tree := t, inc := some (v, x), cut := v - decr }, rfl, ⟨?_, ?_, ?_, hinv.lost, ?_⟩, ?_⟩
        · intro z hz
          have := (hm z).mp (Or.inl hz)
          simp only [Op.pushed, List.not_mem_nil, or_false] at this
          exact hinv.nodes z this
        · intro y hy hlt
          have hlt' : P.obj y < st.cut := by dsimp only at hlt; linarith
          rcases hinv.cover y hy hlt' with ⟨z, hz, ho⟩ | h | h
          · rcases (hm z).mpr (Or.inl hz) with h | h | h
            · exact Or.inl ⟨z, h, ho⟩
            · exact absurd h (by simp)
            · have h1 := deleted_bound hT (c := v - decr) rfl hc z h
              have h2 := open_bound (hinv.nodes z hz) hy ho
              dsimp only at hlt
              linarith
          · exact Or.inr (Or.inl h)
          · exact h.elim
        · exact ⟨rfl, g4, g1, g2, g3, lt_of_lt_of_le hlt0 hinv.mono⟩
        · have := hinv.mono
          dsimp only
          linarith
        · have hp := (hT.conserve _ _ _ _ hc).1
          rw [hq] at hp
          have : (T.inside t ++ l.deleted).Perm (T.inside st.tree) := by simpa [Op.pushed] using hp
          exact sum_cost_le (f := cost st.tab) this
    · simp only [if_neg hlt0]
      exact ⟨st, rfl, hinv, le_refl _⟩

/-- All that is done with a child. -/
theorem treat_spec {T : Tree σ} {ready : σ → Prop} (hT : Lawful T ready) (w : World X) (P : Minlp X) (b0 : Box) (H : Helpers w P b0) (cfg : Cfg) (cut0 decr : ℚ) (hdecr : 0 ≤ decr)
    (st : St σ X) (b : Box) (depth : ℤ) (info : Parent) (next : Flags → Parent)
    (hinv : Inv T w P b0 cut0 decr (InBox b) st) (hsub : ∀ v, InBox b v → InBox b0 v) (hready : ready st.tree) :
    (∃ st', treat T w cfg decr st b depth info next = .run st' ∧ Inv T w P b0 cut0 decr (fun _ => False) st' ∧ mass T st' ≤ mass T st + 2 * (2 ^ width b - 1)) ∨
    (∃ st' b', treat T w cfg decr st b depth info next = .threw st' ∧ (w.nlp b').flags.abandoned = true ∧ st'.inc = st.inc) := by
  obtain ⟨d1, d2, d3, d4⟩ := deepen_spec H.nlp H.hot H.tol st.cut w.rounds b (shown w cfg st.failed info b) _
    (fate_meaning w P H.nlp H.tol H.low cfg st.failed info b st.cut)
  have hinv' : Inv T w P b0 cut0 decr (InBox (deepen w st.cut w.rounds b (shown w cfg st.failed info b) (fate w cfg st.failed info b st.cut).1).2) st := by
    refine ⟨hinv.nodes, fun y hy hlt => ?_, hinv.inc, hinv.lost, hinv.mono⟩
    rcases hinv.cover y hy hlt with h | h | h
    · exact Or.inl h
    · exact Or.inr (Or.inl h)
    · exact Or.inr (Or.inr (d4 y ⟨hy.1, h, hy.2.2⟩ hlt))
  unfold treat
  simp only
  rcases settle_spec hT w P b0 cut0 decr hdecr st _ depth (next (w.nlp (deepen w st.cut w.rounds b (shown w cfg st.failed info b) (fate w cfg st.failed info b st.cut).1).2).flags)
      ((deepen w st.cut w.rounds b (shown w cfg st.failed info b) (fate w cfg st.failed info b st.cut).1).1, (fate w cfg st.failed info b st.cut).2) hinv' (fun v hv => hsub v (d2 v hv)) hready d1
    with ⟨st', h1, h2, h3⟩ | ⟨st', h1, -, h2, h3, -⟩
  · left
    rw [h1]
    obtain ⟨st2, i1, i2, i3⟩ := improve_spec hT w P b0 cut0 decr hdecr st' _ (H.heur _ st'.cut) h2
    refine ⟨st2, i1, i2, i3.trans (h3.trans ?_)⟩
    have := Nat.pow_le_pow_right (n := 2) (by norm_num) d3
    omega
  · right
    rw [h1]
    exact ⟨st', _, rfl, h2, h3⟩

/-- One pass keeps the invariant, uses up mass, and ends with the exception only at an unsolved NLP. -/
theorem visit_spec {T : Tree σ} {ready : σ → Prop} (hT : Lawful T ready) (w : World X) (P : Minlp X) (b0 : Box) (H : Helpers w P b0) (cfg : Cfg) (cut0 decr : ℚ) (hdecr : 0 ≤ decr) (pick : Pick) (st : St σ X)
    (hinv : Inv T w P b0 cut0 decr (fun _ => False) st) :
    (∃ st', visit T w cfg decr pick st = .run st' ∧ Inv T w P b0 cut0 decr (fun _ => False) st' ∧ (T.inside st'.tree = [] ∨ mass T st' < mass T st)) ∨
    (∃ st' b, visit T w cfg decr pick st = .threw st' ∧ (w.nlp b).flags.abandoned = true ∧ st'.inc = st.inc) := by
  cases hb : T.step st.tree (.best st.cut pick) with
  | none => exact absurd hb (hT.bestRuns _ _ _)
  | some r =>
    obtain ⟨t, log⟩ := r
    obtain ⟨b1, b2, b3, b4⟩ := hT.best _ _ _ _ _ hb
    have hm := mem_after hT hb
    have hperm := (hT.conserve _ _ _ _ hb).1
    simp only [Op.pushed, List.flatMap_cons, List.flatMap_nil, List.append_nil] at hperm
    simp only [Op.pushed, List.not_mem_nil, or_false] at hm
    cases hh : log.handed with
    | nil =>
      left
      refine ⟨{ st with tree := t }, by simp only [visit, hb, hh], ⟨?_, ?_, hinv.inc, hinv.lost, hinv.mono⟩, Or.inl (b3 hh)⟩
      · intro z hz
        exact hinv.nodes z ((hm z).mp (Or.inl hz))
      · intro y hy hlt
        rcases hinv.cover y hy hlt with ⟨z, hz, ho⟩ | h | h
        · rcases (hm z).mpr hz with h | h | h
          · exact Or.inl ⟨z, h, ho⟩
          · rw [hh] at h; exact absurd h (by simp)
          · have h1 := deleted_bound hT (c := st.cut) rfl hb z h
            have h2 := open_bound (hinv.nodes z hz) hy ho
            dsimp only at hlt
            linarith
        · exact Or.inr (Or.inl h)
        · exact h.elim
    | cons x rest =>
      have hrest : rest = [] := by
        rw [hh] at b1
        simpa using b1
      subst hrest
      rw [hh] at hm hperm
      have hx : x ∈ T.inside st.tree := (hm x).mp (by simp)
      obtain ⟨x1, x2, x3, p, hp, hs, hsub, hbd⟩ := hinv.nodes x hx
      -- put back
      have hback : ∃ t2 l2, (if 1 < x.left then T.step t (.push { x with left := x.left - 1 } byValue) else some (t, {})) = some (t2, l2) ∧ ready t2 ∧
          (T.inside t2).Perm (T.inside t ++ if 1 < x.left then [{ x with left := x.left - 1 }] else []) := by
        by_cases h2 : 1 < x.left
        · rw [if_pos h2, if_pos h2]
          cases hq : T.step t (.push { x with left := x.left - 1 } byValue) with
          | none => exact absurd hq (hT.pushRuns _ _ _ b4)
          | some r =>
            obtain ⟨t2, l2⟩ := r
            exact ⟨t2, l2, rfl, hT.pushBack _ _ _ _ _ b4 (by dsimp only; omega) hq, push_deleted hT hq⟩
        · rw [if_neg h2, if_neg h2]
          exact ⟨t, {}, rfl, b4, by simp⟩
      obtain ⟨t2, l2, hpush, hready, hin⟩ := hback
      have hk : x.total - x.left < 2 := by omega
      have hsub' : ∀ v, InBox (side p (x.total - x.left)) v → InBox b0 v := by
        intro v hv
        apply hsub
        unfold side at hv
        split_ifs at hv
        · exact ((inBox_upper p v hs).mp hv).1
        · exact ((inBox_down p v hs).mp hv).1
      have hinv2 : Inv T w P b0 cut0 decr (InBox (side p (x.total - x.left))) { st with tree := t2 } := by
        refine ⟨?_, ?_, hinv.inc, hinv.lost, hinv.mono⟩
        · intro z hz
          rcases List.mem_append.mp (hin.mem_iff.mp hz) with h | h
          · exact hinv.nodes z ((hm z).mp (Or.inl h))
          · split_ifs at h with h2
            · simp only [List.mem_singleton] at h
              subst h
              refine ⟨x1, ?_, ?_, p, hp, hs, hsub, hbd⟩
              · dsimp only; omega
              · dsimp only; omega
            · exact absurd h (by simp)
        · intro y hy hlt
          rcases hinv.cover y hy hlt with ⟨z, hz, ho⟩ | h | h
          · rcases (hm z).mpr hz with h | h | h
            · exact Or.inl ⟨z, hin.mem_iff.mpr (List.mem_append_left _ h), ho⟩
            · simp only [List.mem_singleton] at h
              subst h
              obtain ⟨p', k, hp', hk1, hk2, hbox⟩ := ho
              rw [hp] at hp'
              cases hp'
              by_cases hkk : k = z.total - z.left
              · subst hkk
                exact Or.inr (Or.inr hbox)
              · left
                have h2 : 1 < z.left := by omega
                refine ⟨{ z with left := z.left - 1 }, hin.mem_iff.mpr (List.mem_append_right _ (by rw [if_pos h2]; simp)), p, k, hp, ?_, hk2, hbox⟩
                dsimp only
                omega
            · have h1 := deleted_bound hT (c := st.cut) rfl hb z h
              have h2 := open_bound (hinv.nodes z hz) hy ho
              dsimp only at hlt
              linarith
          · exact Or.inr (Or.inl h)
          · exact h.elim
      have hmass : mass T ({ st with tree := t2 } : St σ X) + (2 ^ width p.box - 1) ≤ mass T st := by
        have e1 := (hin.map (cost st.tab)).sum_eq
        have e2 := (hperm.map (cost st.tab)).sum_eq
        simp only [List.map_append, List.sum_append, List.map_cons, List.map_nil, List.sum_cons, List.sum_nil, Nat.add_zero] at e1 e2
        have e3 : ((if 1 < x.left then [({ x with left := x.left - 1 } : Node)] else []).map (cost st.tab)).sum + (2 ^ width p.box - 1) = cost st.tab x := by
          split_ifs with h2
          · have : x.left = 2 := by omega
            simp only [List.map_cons, List.map_nil, List.sum_cons, List.sum_nil, cost, hp, this]
            omega
          · have : x.left = 1 := by omega
            simp only [List.map_nil, List.sum_nil, cost, hp, this]
            omega
        simp only [mass]
        omega
      have hwid := width_side hs (x.total - x.left)
      have hpow : 2 * (2 ^ width (side p (x.total - x.left)) - 1) < 2 ^ width p.box - 1 := by
        have h1 : 2 ^ (width (side p (x.total - x.left)) + 1) ≤ 2 ^ width p.box := Nat.pow_le_pow_right (by norm_num) hwid
        rw [pow_succ] at h1
        have h2 : 1 ≤ 2 ^ width (side p (x.total - x.left)) := Nat.one_le_two_pow
        omega
      have hvisit : visit T w cfg decr pick st = treat T w cfg decr { st with tree := t2 } (side p (x.total - x.left)) (x.depth + 1) p.info (fun f => .node (childInfo p.info f)) := by
        simp only [visit, hb, hh, hp]
        rw [hpush]
      rw [hvisit]
      rcases treat_spec hT w P b0 H cfg cut0 decr hdecr { st with tree := t2 } (side p (x.total - x.left)) (x.depth + 1) p.info
          (fun f => .node (childInfo p.info f)) hinv2 hsub' hready with ⟨st', h1, h2, h3⟩ | ⟨st', b', h1, h2, h3⟩
      · exact Or.inl ⟨st', h1, h2, Or.inr (by omega)⟩
      · exact Or.inr ⟨st', b', h1, h2, h3⟩

theorem mass_zero {T : Tree σ} {w : World X} {P : Minlp X} {b0 : Box} {cut0 decr : ℚ} {st : St σ X} (hinv : Inv T w P b0 cut0 decr (fun _ => False) st)
    (h : mass T st = 0) : T.inside st.tree = [] := by
  rw [List.eq_nil_iff_forall_not_mem]
  intro x hx
  have h1 := cost_pos (hinv.nodes x hx)
  have h2 : cost st.tab x ≤ ((T.inside st.tree).map (cost st.tab)).sum := List.single_le_sum (by simp) _ (List.mem_map_of_mem hx)
  rw [mass] at h
  omega

/-- What the end of the search guarantees. -/
def Ends (T : Tree σ) (w : World X) (P : Minlp X) (b0 : Box) (cut0 decr : ℚ) (g : Gaps) : End σ X → Prop
  | .done st => Inv T w P b0 cut0 decr (fun _ => False) st ∧ (T.inside st.tree = [] ∨ closeEnough g T st = true)
  | .limit st => Inv T w P b0 cut0 decr (fun _ => False) st
  | .threw _ => ∃ b, (w.nlp b).flags.abandoned = true
  | .crash => False

theorem loop_spec {T : Tree σ} {ready : σ → Prop} (hT : Lawful T ready) (w : World X) (P : Minlp X) (b0 : Box) (H : Helpers w P b0) (cfg : Cfg) (cut0 decr : ℚ) (hdecr : 0 ≤ decr) (g : Gaps) :
    ∀ (n : ℕ) (st : St σ X), Inv T w P b0 cut0 decr (fun _ => False) st →
      Ends T w P b0 cut0 decr g (loop T w cfg decr g n st) ∧ (mass T st ≤ n → ∀ st', loop T w cfg decr g n st ≠ .limit st')
  | 0, st, hinv => by
    unfold loop
    by_cases h : (T.empty st.tree || closeEnough g T st) = true
    · rw [if_pos h]
      rw [Bool.or_eq_true, hT.empty] at h
      exact ⟨⟨hinv, h⟩, by simp⟩
    · rw [if_neg h]
      refine ⟨hinv, fun hm => ?_⟩
      have := mass_zero hinv (by omega)
      rw [Bool.or_eq_true, hT.empty] at h
      exact absurd (Or.inl this) h
  | n + 1, st, hinv => by
    unfold loop
    by_cases h : (T.empty st.tree || closeEnough g T st) = true
    · rw [if_pos h]
      rw [Bool.or_eq_true, hT.empty] at h
      exact ⟨⟨hinv, h⟩, by simp⟩
    · rw [if_neg h]
      rcases visit_spec hT w P b0 H cfg cut0 decr hdecr (w.picks n) st hinv with ⟨st', h1, h2, h3⟩ | ⟨st', b, h1, h2, -⟩
      · rw [h1]
        obtain ⟨e1, e2⟩ := loop_spec hT w P b0 H cfg cut0 decr hdecr g n st' h2
        refine ⟨e1, fun hm => e2 ?_⟩
        rcases h3 with h3 | h3
        · simp [mass, h3]
        · omega
      · rw [h1]
        exact ⟨⟨b, h2⟩, by simp⟩

theorem search_spec {T : Tree σ} {ready : σ → Prop} (hT : Lawful T ready) (w : World X) (P : Minlp X) (b0 : Box) (H : Helpers w P b0) (cfg : Cfg) (cut0 decr : ℚ) (hdecr : 0 ≤ decr) (g : Gaps) (n : ℕ) :
    Ends T w P b0 cut0 decr g (search T w cfg decr cut0 g n b0) ∧ (2 * (2 ^ width b0 - 1) ≤ n → ∀ st', search T w cfg decr cut0 g n b0 ≠ .limit st') := by
  have hinv : Inv T w P b0 cut0 decr (InBox b0) (⟨T.init, [], none, cut0, false, []⟩ : St σ X) :=
    ⟨by simp [hT.init.1], fun y hy _ => Or.inr (Or.inr hy.2.1), rfl, by simp, le_refl _⟩
  unfold search
  rcases treat_spec hT w P b0 H cfg cut0 decr hdecr _ b0 0 .root (fun _ => .root) hinv (fun v hv => hv) hT.init.2 with ⟨st', h1, h2, h3⟩ | ⟨st', b', h1, h2, -⟩
  · rw [start, h1]
    obtain ⟨e1, e2⟩ := loop_spec hT w P b0 H cfg cut0 decr hdecr g n st' h2
    refine ⟨e1, fun hn => e2 ?_⟩
    have : mass T (⟨T.init, [], none, cut0, false, []⟩ : St σ X) = 0 := by simp [mass, hT.init.1]
    omega
  · rw [start, h1]
    exact ⟨⟨b', h2⟩, by simp⟩

/-! ## C257 -/

/-- **C257 (partial).**  Let the NLP solver be right whenever it does not give up (also from the hot start), heuristics hand over solutions, the objective be above -1e200.  With any tree that keeps the laws, any order, chooser, options
and gaps, a search that ends as complete has
* a best solution that is feasible, within the integer tolerance of whole values, with its value, or none;
* for each solution of the MINLP in the root box: it lies in a box that was dropped unsolved, or it is not better than the initial cutoff (no best solution), or not better
  than the best solution by more than the cutoff decrement, or by less than the gap at which Cbc stops. -/
theorem search_sound_partial {T : Tree σ} {ready : σ → Prop} (hT : Lawful T ready) (w : World X) (P : Minlp X) (b0 : Box) (H : Helpers w P b0) (cfg : Cfg) (cut0 decr : ℚ) (hdecr : 0 ≤ decr) (g : Gaps) (n : ℕ) (st : St σ X)
    (h : search T w cfg decr cut0 g n b0 = .done st) :
    (∀ v x, st.inc = some (v, x) → P.feas x ∧ InBox b0 (w.ints x) ∧ Near w.tol (w.ints x) ∧ v = P.obj x ∧ v < cut0) ∧
    (∀ b ∈ st.lost, (w.nlp b).flags.abandoned = true) ∧
    ∀ y, Sol w.ints P b0 y → (∃ b ∈ st.lost, InBox b (w.ints y)) ∨
      match st.inc with
      | none => cut0 ≤ P.obj y
      | some (v, _) => v - decr ≤ P.obj y ∨ v - P.obj y < testGap g v (T.bound st.tree) := by
  have hs := (search_spec hT w P b0 H cfg cut0 decr hdecr g n).1
  rw [h] at hs
  obtain ⟨hinv, hend⟩ := hs
  refine ⟨fun v x hx => ?_, hinv.lost, fun y hy => ?_⟩
  · have := hinv.inc
    simp only [IncOK, hx] at this
    exact ⟨this.2.2.1, this.2.2.2.1, this.2.2.2.2.1, this.2.1, this.2.2.2.2.2⟩
  · by_cases hlt : P.obj y < st.cut
    · rcases hinv.cover y hy hlt with ⟨z, hz, ho⟩ | hl | hf
      · right
        rcases hend with he | he
        · rw [he] at hz; exact absurd hz (by simp)
        · unfold closeEnough at he
          have h1 := hT.bound st.tree z hz
          have h2 := open_bound (hinv.nodes z hz) hy ho
          cases hi : st.inc with
          | none => rw [hi] at he; simp at he
          | some e =>
            obtain ⟨v, x⟩ := e
            rw [hi] at he
            simp only [decide_eq_true_eq] at he
            right
            linarith
      · exact Or.inl hl
      · exact hf.elim
    · right
      have := hinv.inc
      cases hi : st.inc with
      | none =>
        simp only [IncOK, hi] at this
        rw [← this]
        exact not_lt.mp hlt
      | some e =>
        obtain ⟨v, x⟩ := e
        simp only [IncOK, hi] at this
        left
        rw [← this.1]
        exact not_lt.mp hlt

/-- **C257.**  When no NLP is given up, nothing is dropped unsolved, no exception is thrown and no assertion of the tree fails. -/
theorem search_runs {T : Tree σ} {ready : σ → Prop} (hT : Lawful T ready) (w : World X) (P : Minlp X) (b0 : Box) (H : Helpers w P b0) (cfg : Cfg) (cut0 decr : ℚ) (hdecr : 0 ≤ decr) (g : Gaps) (n : ℕ)
    (hno : ∀ b, (w.nlp b).flags.abandoned = false) :
    ∃ st, st.lost = [] ∧ (search T w cfg decr cut0 g n b0 = .done st ∨ search T w cfg decr cut0 g n b0 = .limit st) := by
  have hs := (search_spec hT w P b0 H cfg cut0 decr hdecr g n).1
  have hl : ∀ st : St σ X, Inv T w P b0 cut0 decr (fun _ => False) st → st.lost = [] := by
    intro st hinv
    rw [List.eq_nil_iff_forall_not_mem]
    intro b hb
    have := hinv.lost b hb
    rw [hno] at this
    cases this
  cases hc : search T w cfg decr cut0 g n b0 with
  | done st => rw [hc] at hs; exact ⟨st, hl st hs.1, Or.inl rfl⟩
  | limit st => rw [hc] at hs; exact ⟨st, hl st hs, Or.inr rfl⟩
  | threw st =>
    rw [hc] at hs
    obtain ⟨b, hb⟩ := hs
    rw [hno] at hb
    cases hb
  | crash => rw [hc] at hs; exact hs.elim

/-- **C257.**  The search is finite: it never stops at a limit of `2 (2^W - 1)` nodes, `W` the sum of the widths of the integer variables. -/
theorem search_finite {T : Tree σ} {ready : σ → Prop} (hT : Lawful T ready) (w : World X) (P : Minlp X) (b0 : Box) (H : Helpers w P b0) (cfg : Cfg) (cut0 decr : ℚ) (hdecr : 0 ≤ decr) (g : Gaps) (n : ℕ)
    (hn : 2 * (2 ^ width b0 - 1) ≤ n) (st : St σ X) : search T w cfg decr cut0 g n b0 ≠ .limit st :=
  (search_spec hT w P b0 H cfg cut0 decr hdecr g n).2 hn st

/-- **C257.**  A search stopped at the node limit has lost nothing either: its best solution is one, and every better solution is in a branch that is still open or in a box dropped
unsolved. -/
theorem search_limit {T : Tree σ} {ready : σ → Prop} (hT : Lawful T ready) (w : World X) (P : Minlp X) (b0 : Box) (H : Helpers w P b0) (cfg : Cfg) (cut0 decr : ℚ) (hdecr : 0 ≤ decr) (g : Gaps) (n : ℕ) (st : St σ X)
    (h : search T w cfg decr cut0 g n b0 = .limit st) :
    (∀ v x, st.inc = some (v, x) → P.feas x ∧ InBox b0 (w.ints x) ∧ Near w.tol (w.ints x) ∧ v = P.obj x ∧ v < cut0) ∧
    ∀ y, Sol w.ints P b0 y → (∃ b ∈ st.lost, InBox b (w.ints y)) ∨ T.bound st.tree ≤ P.obj y ∨
      match st.inc with
      | none => cut0 ≤ P.obj y
      | some (v, _) => v - decr ≤ P.obj y := by
  have hinv := (search_spec hT w P b0 H cfg cut0 decr hdecr g n).1
  rw [h] at hinv
  change Inv T w P b0 cut0 decr (fun _ => False) st at hinv
  refine ⟨fun v x hx => ?_, fun y hy => ?_⟩
  · have := hinv.inc
    simp only [IncOK, hx] at this
    exact ⟨this.2.2.1, this.2.2.2.1, this.2.2.2.2.1, this.2.1, this.2.2.2.2.2⟩
  · by_cases hlt : P.obj y < st.cut
    · rcases hinv.cover y hy hlt with ⟨z, hz, ho⟩ | hl | hf
      · exact Or.inr (Or.inl ((hT.bound st.tree z hz).trans (open_bound (hinv.nodes z hz) hy ho)))
      · exact Or.inl hl
      · exact hf.elim
    · right; right
      have := hinv.inc
      cases hi : st.inc with
      | none =>
        simp only [IncOK, hi] at this
        rw [← this]
        exact not_lt.mp hlt
      | some e =>
        obtain ⟨v, x⟩ := e
        simp only [IncOK, hi] at this
        show v - decr ≤ P.obj y
        rw [← this.1]
        exact not_lt.mp hlt

/-! ## The trees keep the laws -/

/-- **C257.**  The heap of Cbc keeps the laws. -/
theorem heapTree_lawful (big : ℚ) : Lawful (heapTree big) (fun _ => True) where
  init := ⟨rfl, trivial⟩
  conserve := by
    intro s o s' l h
    refine conserved_of_count ?_
    cases o with
    | push x cmp =>
      simp only [heapTree, Option.some.injEq, Prod.mk.injEq] at h
      obtain ⟨rfl, rfl⟩ := h
      simp [heapTree, Op.pushed, Op.cutoffs, List.count_cons]
    | best c pick =>
      simp only [heapTree, Option.some.injEq, Prod.mk.injEq] at h
      obtain ⟨rfl, rfl⟩ := h
      have h1 := heapBest_count pick c s.length s (le_refl _)
      have h2 := (heapBest_spec pick c s.length s (le_refl _)).2.1
      refine ⟨fun a => ?_, fun x hx => ⟨c, by simp [Op.cutoffs], h2 x hx⟩⟩
      have := h1 a
      simp only [heapTree, id, Op.pushed, List.flatMap_cons, List.flatMap_nil, List.append_nil, List.count_nil, Nat.add_zero]
      omega
    | pop pick =>
      simp only [heapTree, Option.map_eq_some_iff, Prod.mk.injEq] at h
      obtain ⟨r, hr, rfl, rfl⟩ := h
      have := heapTake_perm hr
      refine ⟨fun a => ?_, by simp⟩
      have := this.count_eq a
      simp only [heapTree, id, Op.pushed, List.flatMap_cons, List.flatMap_nil, List.append_nil, List.count_nil, Nat.add_zero, List.count_cons] at this ⊢
      omega
    | clean c =>
      simp only [heapTree, Option.some.injEq, Prod.mk.injEq] at h
      obtain ⟨rfl, rfl⟩ := h
      refine ⟨fun a => ?_, fun x hx => ⟨c, by simp [Op.cutoffs], ?_⟩⟩
      · have := filter_count s c a
        simp only [heapTree, id, Op.pushed, List.flatMap_cons, List.flatMap_nil, List.append_nil, List.count_nil, Nat.add_zero]
        omega
      · have := (List.mem_filter.mp hx).2
        simpa using this
  pushQuiet := by
    intro s x cmp s' l h
    simp only [heapTree, Option.some.injEq, Prod.mk.injEq] at h
    rw [← h.2]
  cleanQuiet := by
    intro s c s' l h
    simp only [heapTree, Option.some.injEq, Prod.mk.injEq] at h
    rw [← h.2]
  best := by
    intro s c pick s' l h
    simp only [heapTree, Option.some.injEq, Prod.mk.injEq] at h
    obtain ⟨rfl, rfl⟩ := h
    obtain ⟨-, -, h3, h4⟩ := heapBest_spec pick c s.length s (le_refl _)
    refine ⟨?_, ?_, ?_, trivial⟩
    · cases (heapBest pick c s.length s).1 <;> simp
    · intro x hx
      exact h3 x (by simpa using hx)
    · intro hn
      exact h4 (by simpa using hn)
  bestRuns := by intro s c pick; simp [heapTree]
  cleanRuns := by intro s c; simp [heapTree]
  pushRuns := by intro s x cmp _; simp [heapTree]
  pushBack := by intros; trivial
  empty := by intro s; simp [heapTree]
  bound := by
    intro s x hx
    exact (fold_min s big).2.1 x hx

/-- **C257.**  The dive tree, with its assertions, keeps the laws. -/
theorem diveTree_lawful (stop : Bool) (big : ℚ) : Lawful (diveTree stop big) (fun s => s.next = none) where
  init := ⟨rfl, rfl⟩
  conserve := by
    intro s o s' l h
    refine conserved_of_count ?_
    have := Diver.step_conserves s o s' l h
    simpa [diveTree] using this
  pushQuiet := by
    intro s x cmp s' l h
    simp only [diveTree, Diver.step, Option.map_eq_some_iff, Prod.mk.injEq] at h
    obtain ⟨_, _, _, rfl⟩ := h
    rfl
  cleanQuiet := by
    intro s c s' l h
    simp only [diveTree, Diver.step, Option.some.injEq, Prod.mk.injEq] at h
    rw [← h.2]
  best := by
    intro s c pick s' l h
    simp only [diveTree, Diver.step, Option.some.injEq, Prod.mk.injEq] at h
    obtain ⟨rfl, rfl⟩ := h
    obtain ⟨-, -, h3, h4⟩ := s.best_spec c pick
    refine ⟨?_, ?_, ?_, ?_⟩
    · cases (s.best c pick).2.1 <;> simp
    · intro x hx
      exact h3 x (by simpa using hx)
    · intro hn
      exact h4 (by simpa using hn)
    · obtain ⟨nodes, next, st⟩ := s
      cases next with
      | none => rfl
      | some x =>
        simp only [Diver.best]
        split_ifs <;> rfl
  bestRuns := by intro s c pick; simp [diveTree, Diver.step]
  cleanRuns := by intro s c; simp [diveTree, Diver.step]
  pushRuns := by
    intro s x cmp hs
    simp only [diveTree, Diver.step, Diver.push, hs]
    split_ifs <;> simp_all
  pushBack := by
    intro s x cmp s' l hs hx h
    have hf : x.fresh = false := by
      simp only [Node.fresh, beq_eq_false_iff_ne]
      omega
    simp only [diveTree, Diver.step, Diver.push, hf, Bool.false_eq_true, if_false, Option.map_some, Option.some.injEq, Prod.mk.injEq] at h
    rw [← h.1]
    exact hs
  empty := by
    intro s
    obtain ⟨nodes, next, st⟩ := s
    cases next <;> simp [diveTree, Diver.empty, Diver.inside]
  bound := by
    intro s x hx
    exact (diver_bestPossible s big).1 x hx

/-! ## The report -/

/-- **C257.**  When no NLP is given up and all data are as in `search_sound_partial`, what a new `Bab` object reports after a complete search is right: "optimal" comes with a feasible point, integral
within the tolerance, no solution of the MINLP is better by more than the larger of decrement and gap; "infeasible" is reported exactly without solution, and then no solution is below the cutoff. -/
theorem report_right [Inhabited X] {T : Tree σ} {ready : σ → Prop} (hT : Lawful T ready) (w : World X) (P : Minlp X) (b0 : Box) (H : Helpers w P b0) (cfg : Cfg) (cut0 decr : ℚ) (hdecr : 0 ≤ decr) (g : Gaps) (n : ℕ)
    (hno : ∀ b, (w.nlp b).flags.abandoned = false) (dm : ℚ) (st : St σ X) (h : search T w cfg decr cut0 g n b0 = .done st) :
    let k := (finish dm (Keeper.new X) (toRun T st true)).1
    (k.mip = .feasibleOptimal ∧ ∃ x, k.best = some x ∧ k.obj = P.obj x ∧ P.feas x ∧ InBox b0 (w.ints x) ∧ Near w.tol (w.ints x) ∧
      ∀ y, Sol w.ints P b0 y → P.obj x - P.obj y ≤ max decr (testGap g (P.obj x) (T.bound st.tree))) ∨
    (k.mip = .provenInfeasible ∧ k.best = none ∧ ∀ y, Sol w.ints P b0 y → cut0 ≤ P.obj y) := by
  obtain ⟨h1, h2, h3⟩ := search_sound_partial hT w P b0 H cfg cut0 decr hdecr g n st h
  have hl : st.lost = [] := by
    rw [List.eq_nil_iff_forall_not_mem]
    intro b hb
    have := h2 b hb
    rw [hno] at this
    cases this
  intro k
  cases hi : st.inc with
  | none =>
    right
    refine ⟨?_, ?_, fun y hy => ?_⟩
    · simp [k, finish, toRun, keepBest, verdict, hi, Keeper.new]
    · simp [k, finish, toRun, keepBest, hi, Keeper.new]
    · rcases h3 y hy with ⟨b, hb, -⟩ | h'
      · rw [hl] at hb; exact absurd hb (by simp)
      · rw [hi] at h'
        exact h'
  | some e =>
    obtain ⟨v, x⟩ := e
    obtain ⟨a1, a2, a3, rfl, a5⟩ := h1 v x hi
    left
    refine ⟨?_, x, ?_, ?_, a1, a2, a3, fun y hy => ?_⟩
    · simp [k, finish, toRun, keepBest, verdict, hi]
    · simp [k, finish, toRun, keepBest, hi]
    · simp [k, finish, toRun, keepBest, hi]
    · rcases h3 y hy with ⟨b, hb, -⟩ | h'
      · rw [hl] at hb; exact absurd hb (by simp)
      · rw [hi] at h'
        rcases h' with h' | h'
        · exact le_trans (by linarith) (le_max_left _ _)
        · exact le_trans h'.le (le_max_right _ _)

/-- **C257.**  A search stopped at the node limit is never reported as optimal or infeasible. -/
theorem report_limit [Inhabited X] (T : Tree σ) (dm : ℚ) (st : St σ X) :
    (finish dm (Keeper.new X) (toRun T st false)).1.mip = if st.inc.isSome then .feasible else .noSolutionKnown := by
  cases hi : st.inc with
  | none => simp [finish, toRun, keepBest, verdict, hi, Keeper.new]
  | some e => simp [finish, toRun, keepBest, verdict, hi]

/-! ## Concrete searches -/

/-- The NLP: minimise `c (x - 8/5)^2` over an interval; on the boxes `bad` the solver gives up. -/
def exNlp (c : ℚ) (bad : Box → Bool) (b : Box) : Answer ℚ :=
  match b with
  | [(lo, hi)] =>
    if bad b then ⟨⟨true, false, false⟩, 0, 0⟩
    else if hi < lo then ⟨⟨false, true, false⟩, 0, 0⟩
    else ⟨⟨false, false, false⟩, c * (clamp (lo, hi) (8 / 5) - 8 / 5) ^ 2, clamp (lo, hi) (8 / 5)⟩
  | _ => ⟨⟨false, true, false⟩, 0, 0⟩

/-- Minimise `c (x - 8/5)^2` over one integer variable; on the boxes `bad` the NLP solver gives up.  `k` rounds of strong branching; heuristics find `h`. -/
def exWorld (c : ℚ) (bad : Box → Bool) (k : ℕ := 0) (h : Option (ℚ × ℚ) := none) : World ℚ where
  ints := fun x => [x]
  nlp := exNlp c bad
  tol := 1 / 10 ^ 6
  choose := fun _ => 0
  upFirst := fun _ => false
  guess := fun _ => 0
  picks := fun _ _ => 0
  hot := fun b => ⟨!(exNlp c bad b).flags.abandoned && !(exNlp c bad b).flags.infeasible, (exNlp c bad b).flags.infeasible, (exNlp c bad b).value⟩
  tried := fun _ _ => [0]
  rounds := k
  heur := fun _ _ => h

def exMinlp (c : ℚ) : Minlp ℚ := ⟨fun _ => True, fun x => c * (x - 8 / 5) ^ 2⟩

theorem ex_right (c : ℚ) (hc : 0 ≤ c) (bad : Box → Bool) (k : ℕ := 0) (h : Option (ℚ × ℚ) := none) : Right (exWorld c bad k h) (exMinlp c) := by
  intro b hab
  have hlen : ∀ b : Box, b.length ≠ 1 → ∀ y : ℚ, ¬ InBox b [y] := fun b hb y h => hb (by simpa using h.1.symm)
  match b, hab with
  | [], _ => exact ⟨fun _ y _ => hlen [] (by simp) y, fun h => by simp [exWorld, exNlp] at h⟩
  | p :: q :: r, _ => exact ⟨fun _ y _ => hlen _ (by simp) y, fun h => by simp [exWorld, exNlp] at h⟩
  | [(lo, hi)], hab =>
    have hin : ∀ y : ℚ, InBox [(lo, hi)] [y] ↔ (lo : ℚ) ≤ y ∧ y ≤ hi := by
      intro y
      constructor
      · intro h; exact h.2 0 (lo, hi) y rfl rfl
      · intro h
        refine ⟨rfl, fun i p a hp ha => ?_⟩
        cases i with
        | zero => simp at hp ha; subst hp; subst ha; exact h
        | succ i => simp at hp
    by_cases hbad : bad [(lo, hi)] = true
    · simp [exWorld, exNlp, hbad] at hab
    · by_cases hlt : hi < lo
      · refine ⟨fun _ y _ h => ?_, fun h => by simp [exWorld, exNlp, hbad, hlt] at h⟩
        have := (hin y).mp h
        have : (lo : ℚ) ≤ hi := this.1.trans this.2
        have : lo ≤ hi := by exact_mod_cast this
        omega
      · have hle : (lo : ℚ) ≤ hi := by exact_mod_cast not_lt.mp hlt
        refine ⟨fun h => by simp [exWorld, exNlp, hbad, hlt] at h, fun _ => ?_⟩
        have e1 : ((exWorld c bad k h).nlp [(lo, hi)]).point = clamp (lo, hi) (8 / 5) := by simp [exWorld, exNlp, hbad, hlt]
        have e2 : ((exWorld c bad k h).nlp [(lo, hi)]).value = c * (clamp (lo, hi) (8 / 5) - 8 / 5) ^ 2 := by simp [exWorld, exNlp, hbad, hlt]
        have hcl : (lo : ℚ) ≤ clamp (lo, hi) (8 / 5) ∧ clamp (lo, hi) (8 / 5) ≤ hi :=
          ⟨le_max_left _ _, max_le hle (min_le_right _ _)⟩
        refine ⟨trivial, ?_, ?_, fun y _ hy => ?_⟩
        · rw [e1]; exact (hin _).mpr hcl
        · rw [e2, e1]; rfl
        · rw [e2]
          refine mul_le_mul_of_nonneg_left ?_ hc
          obtain ⟨h1, h2⟩ := (hin y).mp hy
          unfold clamp
          dsimp only
          rcases le_total (8 / 5 : ℚ) hi with h3 | h3
          · rw [min_eq_left h3]
            rcases le_total (lo : ℚ) (8 / 5) with h4 | h4
            · rw [max_eq_right h4]
              have := sq_nonneg (y - 8 / 5)
              norm_num
              exact this
            · rw [max_eq_left h4]
              nlinarith
          · rw [min_eq_right h3, max_eq_right hle]
            nlinarith

theorem ex_helpers (k : ℕ) (h : Option (ℚ × ℚ)) (hh : h = none ∨ h = some (9 / 25, 1)) : Helpers (exWorld 1 (fun _ => false) k h) (exMinlp 1) [(0, 3)] where
  nlp := ex_right 1 (by norm_num) _ k h
  hot := by
    intro b
    have hab : ((exWorld 1 (fun _ => false) k h).nlp b).flags.abandoned = false := by
      simp only [exWorld, exNlp]
      split <;> (try split_ifs) <;> simp_all
    have hr := ex_right 1 (by norm_num) (fun _ => false) k h b hab
    refine ⟨fun _ h1 => hr.1 h1, fun h1 y hf hy => ?_⟩
    have h2 : (!((exWorld 1 (fun _ => false) k h).nlp b).flags.abandoned && !((exWorld 1 (fun _ => false) k h).nlp b).flags.infeasible) = true := h1
    rw [Bool.and_eq_true] at h2
    exact (hr.2 (by simpa using h2.2)).2.2.2 y hf hy
  heur := by
    intro b cut v x hx
    rcases hh with rfl | rfl
    · exact absurd hx (by simp [exWorld])
    · simp only [exWorld, Option.some.injEq, Prod.mk.injEq] at hx
      obtain ⟨rfl, rfl⟩ := hx
      refine ⟨trivial, ⟨rfl, fun i p a hp ha => ?_⟩, ?_, by norm_num [exMinlp]⟩
      · cases i with
        | zero => simp at hp; simp [exWorld] at ha; subst hp; subst ha; norm_num
        | succ i => simp at hp
      · intro a ha
        simp [exWorld] at ha
        exact ⟨1, by simp [ha, exWorld]⟩
  tol := by norm_num [exWorld]
  low := by
    intro y _
    have : (0 : ℚ) ≤ (y - 8 / 5) ^ 2 := sq_nonneg _
    simp only [exMinlp]
    norm_num
    linarith

/-- The best solution, the mark of failures and the kind of end (complete?). -/
def End.view : End σ X → Option (ℚ × X) × Bool × Bool
  | .done st => (st.inc, st.failed, true)
  | .limit st => (st.inc, st.failed, false)
  | .threw st => (st.inc, st.failed, false)
  | .crash => (none, false, false)

/-- A search on the dive tree: root 8/5, children 1 (value 9/25) and 2 (value 4/25); the second is the optimum. -/
example : (search (diveTree false (10 ^ 100)) (exWorld 1 (fun _ => false)) ⟨10, 0, false⟩ (1 / 10 ^ 5) (10 ^ 50) ⟨0, 0⟩ 14 [(0, 3)]).view
    = (some (4 / 25, 2), false, true) := by decide +kernel
/-- The same on the heap, and with the node limit 1 only the first child is seen. -/
example : (search (heapTree (10 ^ 100)) (exWorld 1 (fun _ => false)) ⟨10, 0, false⟩ (1 / 10 ^ 5) (10 ^ 50) ⟨0, 0⟩ 14 [(0, 3)]).view
    = (some (4 / 25, 2), false, true) := by decide +kernel
example : (search (heapTree (10 ^ 100)) (exWorld 1 (fun _ => false)) ⟨10, 0, false⟩ (1 / 10 ^ 5) (10 ^ 50) ⟨0, 0⟩ 1 [(0, 3)]).view
    = (some (9 / 25, 1), false, false) := by decide +kernel
/-- A gap of 1 stops the search after the first solution. -/
example : (search (diveTree false (10 ^ 100)) (exWorld 1 (fun _ => false)) ⟨10, 0, false⟩ (1 / 10 ^ 5) (10 ^ 50) ⟨1, 0⟩ 14 [(0, 3)]).view
    = (some (9 / 25, 1), false, true) := by decide +kernel
/-- A cutoff of 1/10 leaves nothing. -/
example : (search (diveTree false (10 ^ 100)) (exWorld 1 (fun _ => false)) ⟨10, 0, false⟩ (1 / 10 ^ 5) (1 / 10) ⟨0, 0⟩ 14 [(0, 3)]).view
    = (none, false, true) := by decide +kernel
/-- With strong branching and a cutoff of 1/5: the down branch of the root is found to be useless, the root is solved again on [2,3], and its solution is 2.  No node is left. -/
example : (search (diveTree false (10 ^ 100)) (exWorld 1 (fun _ => false) 1) ⟨10, 0, false⟩ (1 / 10 ^ 5) (1 / 5) ⟨0, 0⟩ 0 [(0, 3)]).view
    = (some (4 / 25, 2), false, true) := by decide +kernel
/-- With a cutoff of 1/10 both branches are useless. -/
example : (search (diveTree false (10 ^ 100)) (exWorld 1 (fun _ => false) 1) ⟨10, 0, false⟩ (1 / 10 ^ 5) (1 / 10) ⟨0, 0⟩ 0 [(0, 3)]).view
    = (none, false, true) := by decide +kernel
/-- A heuristic finds 1 at the root; then the search finds 2. -/
example : (search (heapTree (10 ^ 100)) (exWorld 1 (fun _ => false) 1 (some (9 / 25, 1))) ⟨10, 0, false⟩ (1 / 10 ^ 5) (10 ^ 50) ⟨0, 0⟩ 0 [(0, 3)]).view
    = (some (9 / 25, 1), false, false) := by decide +kernel
example : (search (heapTree (10 ^ 100)) (exWorld 1 (fun _ => false) 1 (some (9 / 25, 1))) ⟨10, 0, false⟩ (1 / 10 ^ 5) (10 ^ 50) ⟨0, 0⟩ 14 [(0, 3)]).view
    = (some (4 / 25, 2), false, true) := by decide +kernel
/-- The hypotheses of the theorems are met. -/
example : Helpers (exWorld 1 (fun _ => false) 1 (some (9 / 25, 1))) (exMinlp 1) [(0, 3)] ∧
    (∀ b, ((exWorld 1 (fun _ => false) 1 (some (9 / 25, 1))).nlp b).flags.abandoned = false) ∧ Sol (exWorld 1 (fun _ => false) 1 (some (9 / 25, 1))).ints (exMinlp 1) [(0, 3)] 2 := by
  refine ⟨ex_helpers _ _ (Or.inr rfl), fun b => ?_, trivial, ⟨rfl, fun i p a hp ha => ?_⟩, ?_⟩
  · simp only [exWorld, exNlp]
    split <;> (try split_ifs) <;> simp_all
  · cases i with
    | zero => simp at hp; simp [exWorld] at ha; subst hp; subst ha; norm_num
    | succ i => simp at hp
  · intro a ha
    simp [exWorld] at ha
    exact ⟨2, by simp [ha]⟩

/-- One integer variable with value as objective; the solver gives up on boxes of width 1 (depth 2 below [0,7]). -/
def failWorld : World ℚ where
  ints := fun x => [x]
  nlp := fun b => match b with
    | [(lo, hi)] =>
      if hi - lo = 1 then ⟨⟨true, false, false⟩, 0, 0⟩
      else if hi < lo then ⟨⟨false, true, false⟩, 0, 0⟩
      else ⟨⟨false, false, false⟩, (lo + hi) / 2, (lo + hi) / 2⟩
    | _ => ⟨⟨false, true, false⟩, 0, 0⟩
  tol := 1 / 10 ^ 6
  choose := fun _ => 0
  upFirst := fun _ => true
  guess := fun _ => 0
  picks := fun _ _ => 0
  hot := fun _ => ⟨false, false, 0⟩
  tried := fun _ _ => [0]
  rounds := 3
  heur := fun _ _ => none

/-- Ten failures in a row are allowed: the search branches on below the failed nodes. -/
example : (search (diveTree false (10 ^ 100)) failWorld ⟨10, 0, false⟩ (1 / 10 ^ 5) (10 ^ 50) ⟨0, 0⟩ 300 [(0, 7)]).view = (some (0, 0), false, true) := by decide +kernel
/-- None is allowed: the failed nodes are dropped and this is marked, or the exception is thrown. -/
example : (search (diveTree false (10 ^ 100)) failWorld ⟨0, 0, true⟩ (1 / 10 ^ 5) (10 ^ 50) ⟨0, 0⟩ 300 [(0, 7)]).view = (none, true, true) := by decide +kernel
example : (search (diveTree false (10 ^ 100)) failWorld ⟨0, 0, false⟩ (1 / 10 ^ 5) (10 ^ 50) ⟨0, 0⟩ 300 [(0, 7)]).view = (none, true, false) := by decide +kernel

/-- **C257.**  The exception is thrown exactly at a node that is not a child of the root, was given up, follows more failures than allowed, and when failures are not to be
taken as infeasible. -/
theorem fate_threw_iff (w : World X) (cfg : Cfg) (hf : Bool) (info : Parent) (b : Box) (cut : ℚ) :
    (fate w cfg hf info b cut).1 = .threw ↔ ∃ c, info = .node c ∧ (w.nlp b).flags.abandoned = true ∧ cfg.maxFailure < c.uns + 1 ∧ cfg.pretend = false := by
  have hne : (fate w cfg hf info b cut).1 = .threw ↔ (status cfg hf info (w.nlp b).flags).1 = .throws := by
    unfold fate
    simp only
    cases hs : (status cfg hf info (w.nlp b).flags).1 with
    | throws => simp
    | fathom => simp
    | branch => simp only; cases pickVar (w.choose b) (cands w.tol b (forced b)) <;> simp
    | noEffect =>
      simp only [plain]
      split_ifs
      · simp
      · cases pickVar (w.choose b) (cands w.tol b (w.ints (w.nlp b).point)) <;> simp
      · simp
  rw [hne]
  cases info with
  | root => simp [status]
  | node c =>
    rcases Bool.eq_false_or_eq_true (w.nlp b).flags.abandoned with ha | ha
    · by_cases hm : c.uns + 1 > cfg.maxFailure
      · cases hp : cfg.pretend <;> simp [status, ha, hm, hp]
      · have : ¬ cfg.maxFailure < c.uns + 1 := hm
        simp only [status, ha, Bool.true_and, if_true, decide_eq_true_eq, Parent.node.injEq, exists_eq_left', this, false_and, and_false, iff_false]
        split_ifs <;> simp_all
    · simp only [status, ha, Bool.false_and, Bool.false_eq_true, if_false, false_and, and_false, exists_false, iff_false]
      split_ifs <;> simp

/-- **C257 (refuted).** With an NLP solver that is right whenever it answers and gives up on the two children of the root only, the search ends as complete without
solution and without any mark of failure, although ten failures in a row are allowed: "infeasible" is reported for a problem that has the solutions 0, 1, 2 and 3. -/
theorem search_depth_one_lost :
    ∃ (w : World ℚ) (P : Minlp ℚ), Right w P ∧ (∀ y, P.feas y → 0 ≤ P.obj y) ∧
      ∃ st, search (diveTree false (10 ^ 100)) w ⟨10, 0, false⟩ (1 / 10 ^ 5) (10 ^ 50) ⟨0, 0⟩ 14 [(0, 3)] = .done st ∧ st.failed = false ∧
        (finish (10 ^ 200) (Keeper.new ℚ) (toRun (diveTree false (10 ^ 100)) st true)).1.mip = .provenInfeasible ∧ Sol w.ints P [(0, 3)] 2 ∧ P.obj 2 < 10 ^ 50 := by
  refine ⟨exWorld 1 (fun b => b == [(0, 1)] || b == [(2, 3)]), exMinlp 1, ex_right 1 (by norm_num) _, fun y _ => ?_, ?_⟩
  · have : (0 : ℚ) ≤ (y - 8 / 5) ^ 2 := sq_nonneg _
    simp only [exMinlp]
    linarith
  · have hv : (search (diveTree false (10 ^ 100)) (exWorld 1 (fun b => b == [(0, 1)] || b == [(2, 3)])) ⟨10, 0, false⟩ (1 / 10 ^ 5) (10 ^ 50) ⟨0, 0⟩ 14 [(0, 3)]).view
        = (none, false, true) := by decide +kernel
    generalize search (diveTree false (10 ^ 100)) (exWorld 1 (fun b => b == [(0, 1)] || b == [(2, 3)])) ⟨10, 0, false⟩ (1 / 10 ^ 5) (10 ^ 50) ⟨0, 0⟩ 14 [(0, 3)] = r at hv
    cases r with
    | done st =>
      simp only [End.view, Prod.mk.injEq] at hv
      refine ⟨st, rfl, hv.2.1, ?_, ⟨trivial, ⟨rfl, fun i p a hp ha => ?_⟩, ?_⟩, by norm_num [exMinlp]⟩
      · simp [finish, toRun, keepBest, verdict, hv.1, Keeper.new]
      · cases i with
        | zero => simp at hp; simp [exWorld] at ha; subst hp; subst ha; norm_num
        | succ i => simp at hp
      · intro a ha
        simp [exWorld] at ha
        exact ⟨2, by simp [ha]⟩
    | limit st => simp [End.view] at hv
    | threw st => simp [End.view] at hv
    | crash => simp [End.view] at hv

/-- **C257 (refuted).** With the default cutoff decrement 1e-5 and zero gaps the point reported as optimal need not be: the search for the minimum of `1e-5 (x - 8/5)^2` ends with 1, not with 2. -/
theorem search_decrement_suboptimal :
    (search (diveTree false (10 ^ 100)) (exWorld (1 / 10 ^ 5) (fun _ => false)) ⟨10, 0, false⟩ (1 / 10 ^ 5) (10 ^ 50) ⟨0, 0⟩ 14 [(0, 3)]).view
      = (some (9 / 25 / 10 ^ 5, 1), false, true) ∧ (exMinlp (1 / 10 ^ 5)).obj 2 < 9 / 25 / 10 ^ 5 := by
  refine ⟨by decide +kernel, by norm_num [exMinlp]⟩

/-- **C257.**  A node branched on although its NLP was not solved: with a tolerance below one half, every integer variable whose bounds differ is a candidate, and its box is split behind the lower bound. -/
theorem forced_exact (tol : ℚ) (h0 : 0 ≤ tol) (ht : tol < 1 / 2) (b : Box) (i : ℕ) (k : ℤ) : (i, k) ∈ cands tol b (forced b) ↔ ∃ hi : ℤ, b[i]? = some (k, hi) ∧ k < hi := by
  rw [cands_exact]
  have hfi : (forced b)[i]? = (b[i]?).map fun p => (p.1 : ℚ) + 1 / 2 := by simp [forced]
  constructor
  · rintro ⟨p, v, hp, hv, hz, h1, h2⟩
    rw [hfi, hp, Option.map_some, Option.some.injEq] at hv
    subst hv
    obtain ⟨lo, hi⟩ := p
    have hlt : lo < hi := by
      by_contra hge
      have hge' : (hi : ℚ) ≤ lo := by exact_mod_cast not_lt.mp hge
      have hc : clamp (lo, hi) ((lo : ℚ) + 1 / 2) = lo := by
        simp only [clamp]
        exact max_eq_left (le_trans (min_le_right _ _) hge')
      have := hz lo
      simp only [hc, sub_self, abs_zero] at this
      linarith
    have hlt' : (lo : ℚ) + 1 ≤ hi := by exact_mod_cast hlt
    have hc : clamp (lo, hi) ((lo : ℚ) + 1 / 2) = lo + 1 / 2 := by
      simp only [clamp]
      rw [min_eq_left (by linarith), max_eq_right (by linarith)]
    simp only [hc] at h1 h2
    have e1 : k < lo + 1 := by
      have : (k : ℚ) < lo + 1 := by linarith
      exact_mod_cast this
    have e2 : lo < k + 1 := by
      have : (lo : ℚ) < k + 1 := by linarith
      exact_mod_cast this
    have : k = lo := by omega
    subst this
    exact ⟨hi, hp, hlt⟩
  · rintro ⟨hi, hp, hlt⟩
    have hlt' : (k : ℚ) + 1 ≤ hi := by exact_mod_cast hlt
    have hc : clamp (k, hi) ((k : ℚ) + 1 / 2) = k + 1 / 2 := by
      simp only [clamp]
      rw [min_eq_left (by linarith), max_eq_right (by linarith)]
    refine ⟨(k, hi), (k : ℚ) + 1 / 2, hp, by rw [hfi, hp]; rfl, fun z => ?_, by rw [hc]; linarith, by rw [hc]; linarith⟩
    rw [hc]
    rcases le_or_gt z k with hz | hz
    · have : (z : ℚ) ≤ k := by exact_mod_cast hz
      exact lt_of_lt_of_le (by linarith) (le_abs_self _)
    · have : (k : ℚ) + 1 ≤ z := by exact_mod_cast hz
      exact lt_of_lt_of_le (by linarith) (neg_le_abs _)

example : (1, 2) ∈ cands (1 / 10) [(3, 3), (2, 5)] (forced [(3, 3), (2, 5)]) := (forced_exact _ (by norm_num) (by norm_num) _ _ _).mpr ⟨5, rfl, by norm_num⟩

/-- **C257.**  The search ends before the tree is empty exactly when there is a best solution and its distance to the bound of the tree is below the absolute gap, or below the fraction of the value or of
the bound. -/
theorem close_exact (g : Gaps) (hg : 0 ≤ g.frac) (T : Tree σ) (st : St σ X) : closeEnough g T st = true ↔ ∃ v x, st.inc = some (v, x) ∧
    (v - T.bound st.tree < g.abs ∨ v - T.bound st.tree < g.frac * |v| ∨ v - T.bound st.tree < g.frac * |T.bound st.tree|) := by
  unfold closeEnough testGap
  cases hi : st.inc with
  | none => simp
  | some e =>
    obtain ⟨v, x⟩ := e
    simp only [decide_eq_true_eq, Option.some.injEq, Prod.mk.injEq]
    rw [max_mul_of_nonneg _ _ hg, lt_max_iff, lt_max_iff, mul_comm |v|, mul_comm |T.bound st.tree|]
    constructor
    · intro h
      exact ⟨v, x, ⟨rfl, rfl⟩, h⟩
    · rintro ⟨v', x', ⟨rfl, rfl⟩, h⟩
      exact h

end Verif.Bab.Search

import Verif.Dec.Quesada
import Verif.Bab.SearchProps
/-!
# C259: what the search of B-QG guarantees
-/
namespace Verif.Dec.Qg
open Verif.Div Verif.Bab.Search

variable {X κ σ : Type}

/-! ## Specification -/

/-- The contract of what is called: `sat c y` says that `y` satisfies the cut `c`.  The LP bounds all feasible points of the box that satisfy its rows, and its solution is in the box; the cuts
generated hold for all feasible points (convexity; those of other generators if the rows do); the NLP has the integers of the point rounded, and when solved gives a feasible point with its value. -/
structure Right (w : World X κ) (P : Minlp X) (sat : κ → X → Prop) : Prop where
  lpNone : ∀ b rows v, ¬ ((w.lp b rows v).optimal = true ∧ (w.lp b rows v).limit = false) →
    ∀ y, P.feas y → InBox b (w.ints y) → (∀ c ∈ rows, sat c y) → v ≤ P.obj y
  lpBound : ∀ b rows v, (w.lp b rows v).optimal = true → (w.lp b rows v).limit = false →
    ∀ y, P.feas y → InBox b (w.ints y) → (∀ c ∈ rows, sat c y) → (w.lp b rows v).obj ≤ P.obj y
  lpBox : ∀ b rows v, (w.lp b rows v).optimal = true → (w.lp b rows v).limit = false → InBox b (w.ints (w.lp b rows v).pt)
  oa : ∀ x y, P.feas y → ∀ c ∈ w.oa (w.nlp x).pt x, sat c y
  benders : ∀ x y, P.feas y → ∀ c ∈ w.benders (w.nlp x).pt, sat c y
  extra : ∀ b rows, (∀ c ∈ rows, ∀ y, P.feas y → sat c y) → ∀ c ∈ w.extra b rows, ∀ y, P.feas y → sat c y
  nlpInts : ∀ x, w.ints (w.nlp x).pt = (w.ints x).map (fun a => ((round a : ℤ) : ℚ))
  nlpOpt : ∀ x, (w.nlp x).optimal = true → P.feas (w.nlp x).pt ∧ (w.nlp x).obj = P.obj (w.nlp x).pt

/-- The cutoff of the checker after it found a solution or none. -/
def kept (eps cut : ℚ) : Option (ℚ × X) → ℚ
  | none => cut
  | some (v, _) => v - eps * |v|

/-- Solutions handed over by heuristics and other generators are solutions in the root box, with their value.  When a generator gives a node up, what it hands over is a solution in the box below
the cutoff, and no solution in the box is below the cutoff that belongs to it. -/
structure Found (w : World X κ) (P : Minlp X) (sat : κ → X → Prop) (eps : ℚ) (b0 : Box) : Prop where
  heur : ∀ b rows v u x, w.heur b rows v = some (u, x) → u = P.obj x ∧ Sol w.ints P b0 x
  quit : ∀ b rows v s, (∀ c ∈ rows, ∀ y, P.feas y → sat c y) → w.quit b rows v = some s →
    (∀ u x, s = some (u, x) → u = P.obj x ∧ Sol w.ints P b x ∧ u < v) ∧ ∀ y, Sol w.ints P b y → kept eps v s ≤ P.obj y

/-- The LP on `b` with `rows` and cutoff `v` has a solution below `v`. -/
def Below (w : World X κ) (b : Box) (rows : List κ) (v : ℚ) : Prop :=
  (w.lp b rows v).optimal = true ∧ (w.lp b rows v).limit = false ∧ (w.lp b rows v).obj < v

/-- The point `x` was treated: its cuts are among the rows, and the cutoff is not above its value. -/
def Treated (w : World X κ) (rows : List κ) (v : ℚ) (x : X) : Prop :=
  ((w.nlp x).optimal = true → v ≤ (w.nlp x).obj) ∧ ((∀ c ∈ w.oa (w.nlp x).pt x, c ∈ rows) ∨ (∀ c ∈ w.benders (w.nlp x).pt, c ∈ rows))

/-- The LP does not propose the same whole values again. -/
def Moves (w : World X κ) : Prop := ∀ b rows v x, Treated w rows v x → Below w b rows v → Near w.tol (w.ints x) → Near w.tol (w.ints (w.lp b rows v).pt) →
  (w.ints (w.lp b rows v).pt).map (fun a => (round a : ℤ)) ≠ (w.ints x).map (fun a => (round a : ℤ))

/-- Two lists of values are nowhere farther apart than 1/10. -/
def Close (a l : List ℚ) : Prop := ∀ (i : ℕ) (p q : ℚ), a[i]? = some p → l[i]? = some q → |p - q| ≤ 1 / 10

/-- The LP, with rows that all hold for the feasible points, came within 1/10 of the integers of an NLP it has the cuts of. -/
def Repeats (w : World X κ) (P : Minlp X) (sat : κ → X → Prop) (b : Box) : Prop := ∃ rows v x, (∀ c ∈ rows, ∀ y, P.feas y → sat c y) ∧ Treated w rows v x ∧ Below w b rows v ∧ Close (w.ints (w.nlp x).pt) (w.ints (w.lp b rows v).pt)

/-- The same with a cutoff in the LP that is at least `u`. -/
def RepeatsAt (w : World X κ) (P : Minlp X) (sat : κ → X → Prop) (u : ℚ) (b : Box) : Prop := ∃ rows v x, u ≤ v ∧ (∀ c ∈ rows, ∀ y, P.feas y → sat c y) ∧ Treated w rows v x ∧ Below w b rows v ∧ Close (w.ints (w.nlp x).pt) (w.ints (w.lp b rows v).pt)

/-- Below this value solutions are kept. -/
def thr (opt : Opt) (cut0 : ℚ) : Option (ℚ × X) → ℚ
  | none => cut0
  | some (v, _) => min (v - opt.decr) (v - opt.eps * |v|)

theorem RepeatsAt.repeats {w : World X κ} {P : Minlp X} {sat : κ → X → Prop} {u : ℚ} {b : Box} (h : RepeatsAt w P sat u b) : Repeats w P sat b := by
  obtain ⟨rows, v, x, -, h⟩ := h
  exact ⟨rows, v, x, h⟩

theorem RepeatsAt.mono {w : World X κ} {P : Minlp X} {sat : κ → X → Prop} {u u' : ℚ} {b : Box} (h : RepeatsAt w P sat u b) (hu : u' ≤ u) : RepeatsAt w P sat u' b := by
  obtain ⟨rows, v, x, h1, h⟩ := h
  exact ⟨rows, v, x, hu.trans h1, h⟩

/-! ## The checks of points -/

theorem differ_false (a l : List ℚ) : differ a l = false ↔ Close a l := by
  simp only [differ, List.any_eq_false, decide_eq_true_eq, not_lt, Close]
  constructor
  · intro h i p q hp hq
    exact h (p, q) (List.mem_iff_getElem?.mpr ⟨i, List.getElem?_zip_eq_some.mpr ⟨hp, hq⟩⟩)
  · intro h e he
    obtain ⟨i, hi⟩ := List.mem_iff_getElem?.mp he
    obtain ⟨h1, h2⟩ := List.getElem?_zip_eq_some.mp hi
    exact h i _ _ h1 h2

theorem clamp_in {p : ℤ × ℤ} {a : ℚ} (h1 : (p.1 : ℚ) ≤ a) (h2 : a ≤ p.2) : clamp p a = a := by
  unfold clamp
  rw [min_eq_left h2, max_eq_right h1]

/-- **C259.**  The integrality test at a node: in the box, and each value within the tolerance of a whole number. -/
theorem whole_iff (tol : ℚ) (b : Box) (v : List ℚ) : whole tol b v = true ↔ InBox b v ∧ Near tol v := by
  simp only [whole, Bool.and_eq_true, decide_eq_true_eq, List.all_eq_true, Bool.not_eq_true']
  have hz : ∀ e : (ℤ × ℤ) × ℚ, e ∈ b.zip v ↔ ∃ i : ℕ, b[i]? = some e.1 ∧ v[i]? = some e.2 := by
    intro e
    rw [List.mem_iff_getElem?]
    simp only [List.getElem?_zip_eq_some]
  constructor
  · rintro ⟨hl, h⟩
    have hin : InBox b v := ⟨hl, fun i p a hp ha => (h (p, a) ((hz _).mpr ⟨i, hp, ha⟩)).1⟩
    refine ⟨hin, fun a ha => ?_⟩
    obtain ⟨i, hi⟩ := List.mem_iff_getElem?.mp ha
    have hlt : i < b.length := by rw [← hl]; exact (List.getElem?_eq_some_iff.mp hi).1
    have hp : b[i]? = some b[i] := List.getElem?_eq_getElem hlt
    obtain ⟨⟨h1, h2⟩, h3⟩ := h (b[i], a) ((hz _).mpr ⟨i, hp, hi⟩)
    simp only [fractional, clamp_in h1 h2, decide_eq_false_iff_not, not_lt] at h3
    exact ⟨_, h3⟩
  · rintro ⟨⟨hl, h⟩, hn⟩
    refine ⟨hl, fun e he => ?_⟩
    obtain ⟨i, hp, ha⟩ := (hz e).mp he
    obtain ⟨h1, h2⟩ := h i _ _ hp ha
    refine ⟨⟨h1, h2⟩, ?_⟩
    simp only [fractional, clamp_in h1 h2, decide_eq_false_iff_not, not_lt]
    obtain ⟨z, hz'⟩ := hn _ (List.mem_of_getElem? ha)
    exact (round_le _ z).trans hz'

theorem round_in {lo hi : ℤ} {a : ℚ} (h1 : (lo : ℚ) ≤ a) (h2 : a ≤ hi) : lo ≤ round a ∧ round a ≤ hi := by
  rw [round_eq]
  constructor
  · rw [Int.le_floor]; linarith
  · have : ⌊a + 1 / 2⌋ < hi + 1 := by
      rw [Int.floor_lt]; push_cast; linarith
    omega

/-- Rounding keeps a point in its box. -/
theorem inBox_round {b : Box} {v : List ℚ} (h : InBox b v) : InBox b (v.map (fun a => ((round a : ℤ) : ℚ))) := by
  refine ⟨by simpa using h.1, fun i p a hp ha => ?_⟩
  rw [List.getElem?_map, Option.map_eq_some_iff] at ha
  obtain ⟨c, hc, rfl⟩ := ha
  obtain ⟨h1, h2⟩ := h.2 i p c hp hc
  obtain ⟨e1, e2⟩ := round_in h1 h2
  exact ⟨by exact_mod_cast e1, by exact_mod_cast e2⟩

theorem whole_round (v : List ℚ) : Whole (v.map (fun a => ((round a : ℤ) : ℚ))) := by
  intro a ha
  obtain ⟨c, -, rfl⟩ := List.mem_map.mp ha
  exact ⟨_, rfl⟩

/-- All whole points of a box. -/
def assign : Box → List (List ℤ)
  | [] => [[]]
  | p :: b => (List.range (p.2 - p.1 + 1).toNat).flatMap (fun (k : ℕ) => (assign b).map (fun l => (p.1 + (k : ℤ)) :: l))

theorem assign_length : ∀ b : Box, (assign b).length = (b.map (fun p => (p.2 - p.1 + 1).toNat)).prod
  | [] => rfl
  | p :: b => by
    simp only [assign, List.length_flatMap, List.length_map, assign_length b, List.map_cons, List.prod_cons]
    simp

theorem mem_assign : ∀ (b : Box) (v : List ℚ), InBox b v → v.map (fun a => (round a : ℤ)) ∈ assign b
  | [], v, h => by
    have : v = [] := List.length_eq_zero_iff.mp (by simpa using h.1)
    simp [this, assign]
  | p :: b, [], h => by simp [InBox] at h
  | p :: b, a :: v, h => by
    obtain ⟨h1, h2⟩ := h.2 0 p a rfl rfl
    obtain ⟨e1, e2⟩ := round_in h1 h2
    have ih := mem_assign b v ⟨by simpa using h.1, fun i q c hq hc => h.2 (i + 1) q c (by simpa using hq) (by simpa using hc)⟩
    have hk : (round a - p.1).toNat < (p.2 - p.1 + 1).toNat := by omega
    unfold assign
    refine List.mem_flatMap.mpr ⟨(round a - p.1).toNat, List.mem_range.mpr hk, List.mem_map.mpr ⟨_, ih, ?_⟩⟩
    have : p.1 + ((round a - p.1).toNat : ℤ) = round a := by omega
    rw [this, List.map_cons]

/-! ## The checker at a node -/

/-- What holds at each pass: the cuts are valid, the cutoff belongs to the solution found, the point is integral while the loop goes on. -/
structure Ck (w : World X κ) (P : Minlp X) (sat : κ → X → Prop) (eps : ℚ) (b : Box) (pool : List κ) (cut : ℚ) (s : FcSt X κ) (f : Option (ℚ × X)) : Prop where
  new : ∀ c ∈ s.new, ∀ y, P.feas y → sat c y
  rows : ∀ c ∈ s.rows, ∀ y, P.feas y → sat c y
  none : f = none → s.cutoff = cut
  some : ∀ v x, f = some (v, x) → s.cutoff = v - eps * |v| ∧ v = P.obj x ∧ Sol w.ints P b x ∧ v < cut
  pt : (s.isInt && s.feasible) = true → InBox b (w.ints s.pt) ∧ Near w.tol (w.ints s.pt)
  after : (s.isInt = true ∧ s.feasible = true ∧ s.bound = -10 ^ 200) ∨
    (s.pt = (w.lp b (pool ++ s.rows) s.cutoff).pt ∧ (s.feasible = true ↔ Below w b (pool ++ s.rows) s.cutoff) ∧
      ((s.bound = -10 ^ 200 ∧ s.isInt = whole w.tol b (w.ints s.pt)) ∨ (s.bound = 10 ^ 200 ∧ s.isInt = false ∧ RepeatsAt w P sat s.cutoff b)))

theorem ck_cut {w : World X κ} {P : Minlp X} {sat : κ → X → Prop} {eps : ℚ} (he : 0 ≤ eps) {b : Box} {pool : List κ} {cut : ℚ} {s : FcSt X κ} {f : Option (ℚ × X)}
    (h : Ck w P sat eps b pool cut s f) : s.cutoff ≤ cut := by
  cases hf : f with
  | none => exact (h.none hf).le
  | some e =>
    obtain ⟨h1, -, -, h4⟩ := h.some e.1 e.2 hf
    have := mul_nonneg he (abs_nonneg e.1)
    linarith

theorem ck_pass {w : World X κ} {P : Minlp X} {sat : κ → X → Prop} (hr : Right w P sat) {eps : ℚ} (he : 0 ≤ eps) (maxOa : ℕ) (oaType : Bool) {b : Box} {pool : List κ} {cut : ℚ}
    (hpool : ∀ c ∈ pool, ∀ y, P.feas y → sat c y) {s : FcSt X κ} {f : Option (ℚ × X)} (h : Ck w P sat eps b pool cut s f) (hw : (s.isInt && s.feasible) = true) :
    Ck w P sat eps b pool cut (fcPass (w.oracles b pool) eps maxOa oaType s)
      (if (w.nlp s.pt).optimal = true ∧ (w.nlp s.pt).obj < s.cutoff then some ((w.nlp s.pt).obj, (w.nlp s.pt).pt) else f) := by
  obtain ⟨hbox, hnear⟩ := h.pt hw
  obtain ⟨r1, r2, -, r4, r5⟩ := fc_rows (w.oracles b pool) eps maxOa oaType s
  obtain ⟨-, c2, c3, c4⟩ := fc_cutoff (w.oracles b pool) eps he maxOa oaType s
  have hb0 : s.bound = -10 ^ 200 := by
    rcases h.after with h' | ⟨-, -, h' | h'⟩
    · exact h'.2.2
    · exact h'.1
    · rw [h'.2.1] at hw; simp at hw
  have hgen : (∀ c ∈ fcGen (w.oracles b pool) maxOa oaType s, ∀ y, P.feas y → sat c y) ∧
      ((∀ c ∈ w.oa (w.nlp s.pt).pt s.pt, c ∈ fcGen (w.oracles b pool) maxOa oaType s) ∨ (∀ c ∈ w.benders (w.nlp s.pt).pt, c ∈ fcGen (w.oracles b pool) maxOa oaType s)) := by
    unfold fcGen
    split_ifs
    · exact ⟨fun c hc y hy => hr.oa s.pt y hy c hc, Or.inl fun c hc => hc⟩
    · exact ⟨fun c hc y hy => hr.benders s.pt y hy c hc, Or.inr fun c hc => hc⟩
  have htr : Treated w (pool ++ (fcPass (w.oracles b pool) eps maxOa oaType s).rows) (fcPass (w.oracles b pool) eps maxOa oaType s).cutoff s.pt := by
    refine ⟨c2, ?_⟩
    rw [r2]
    rcases hgen.2 with h' | h'
    · exact Or.inl fun c hc => List.mem_append_right _ (List.mem_append_right _ (h' c hc))
    · exact Or.inr fun c hc => List.mem_append_right _ (List.mem_append_right _ (h' c hc))
  have hst : (fcPass (w.oracles b pool) eps maxOa oaType s).pt =
        (w.lp b (pool ++ (fcPass (w.oracles b pool) eps maxOa oaType s).rows) (fcPass (w.oracles b pool) eps maxOa oaType s).cutoff).pt ∧
      ((fcPass (w.oracles b pool) eps maxOa oaType s).feasible = true ↔
        Below w b (pool ++ (fcPass (w.oracles b pool) eps maxOa oaType s).rows) (fcPass (w.oracles b pool) eps maxOa oaType s).cutoff) ∧
      (((fcPass (w.oracles b pool) eps maxOa oaType s).bound = s.bound ∧
          (fcPass (w.oracles b pool) eps maxOa oaType s).isInt = whole w.tol b (w.ints (fcPass (w.oracles b pool) eps maxOa oaType s).pt)) ∨
        ((fcPass (w.oracles b pool) eps maxOa oaType s).bound = 10 ^ 200 ∧ (fcPass (w.oracles b pool) eps maxOa oaType s).isInt = false ∧
          (fcPass (w.oracles b pool) eps maxOa oaType s).feasible = true ∧
          differ (w.ints (w.nlp s.pt).pt) (w.ints (fcPass (w.oracles b pool) eps maxOa oaType s).pt) = false)) := by
    unfold fcPass
    dsimp only
    split
    · exact ⟨rfl, by simp only [Bool.and_eq_true, Bool.not_eq_true', decide_eq_true_eq, and_assoc]; exact Iff.rfl, Or.inl ⟨rfl, rfl⟩⟩
    · rename_i hc
      simp only [Bool.or_eq_true, Bool.not_eq_true', not_or, Bool.not_eq_true, Bool.not_eq_false] at hc
      exact ⟨rfl, by simp only [Bool.and_eq_true, Bool.not_eq_true', decide_eq_true_eq, and_assoc]; exact Iff.rfl, Or.inr ⟨rfl, rfl, hc.1, hc.2⟩⟩
  obtain ⟨s1, s2, s3⟩ := hst
  have hrows : ∀ c ∈ (fcPass (w.oracles b pool) eps maxOa oaType s).rows, ∀ y, P.feas y → sat c y := by
    rw [r2]
    intro c hc
    rcases List.mem_append.mp hc with hc | hc
    · rcases List.mem_append.mp hc with hc | hc
      · exact h.rows c hc
      · exact h.new c hc
    · exact hgen.1 c hc
  refine ⟨?_, hrows, ?_, ?_, ?_, Or.inr ⟨s1, s2, ?_⟩⟩
  · rw [r1]
    intro c hc
    rcases List.mem_append.mp hc with hc | hc
    · exact h.new c hc
    · exact hgen.1 c hc
  · intro hn
    split_ifs at hn with hc
    exact (c4 hc).trans (h.none hn)
  · intro v x hx
    split_ifs at hx with hc
    · simp only [Option.some.injEq, Prod.mk.injEq] at hx
      obtain ⟨rfl, rfl⟩ := hx
      obtain ⟨f1, f2⟩ := hr.nlpOpt _ hc.1
      refine ⟨c3 hc.1 hc.2, f2, ⟨f1, ?_, ?_⟩, lt_of_lt_of_le hc.2 (ck_cut he h)⟩
      · rw [hr.nlpInts]; exact inBox_round hbox
      · rw [hr.nlpInts]; exact whole_round _
    · obtain ⟨e1, e2⟩ := h.some v x hx
      exact ⟨(c4 hc).trans e1, e2⟩
  · intro hw'
    rw [Bool.and_eq_true] at hw'
    rcases s3 with h' | h'
    · rw [h'.2] at hw'
      exact (whole_iff _ _ _).mp hw'.1
    · rw [h'.2.1] at hw'; simp at hw'
  · rcases s3 with h' | h'
    · exact Or.inl ⟨h'.1.trans hb0, h'.2⟩
    · refine Or.inr ⟨h'.1, h'.2.1, _, _, s.pt, le_rfl, fun c hc => (List.mem_append.mp hc).elim (hpool c) (hrows c), htr, s2.mp h'.2.2.1, ?_⟩
      rw [← s1]
      exact (differ_false _ _).mp h'.2.2.2

theorem ck_run {w : World X κ} {P : Minlp X} {sat : κ → X → Prop} (hr : Right w P sat) {eps : ℚ} (he : 0 ≤ eps) (maxOa : ℕ) (oaType : Bool) {b : Box} {pool : List κ} {cut : ℚ}
    (hpool : ∀ c ∈ pool, ∀ y, P.feas y → sat c y) :
    ∀ (n : ℕ) (s : FcSt X κ) (f : Option (ℚ × X)), Ck w P sat eps b pool cut s f →
      Ck w P sat eps b pool cut (fcRun (w.oracles b pool) eps maxOa oaType n s).2 (found (w.oracles b pool) eps maxOa oaType n s f) ∧
      ((fcRun (w.oracles b pool) eps maxOa oaType n s).1 = true → ((fcRun (w.oracles b pool) eps maxOa oaType n s).2.isInt &&
        (fcRun (w.oracles b pool) eps maxOa oaType n s).2.feasible) = false)
  | 0, s, f, h => by
    refine ⟨h, fun hh => ?_⟩
    simpa only [fcRun, Bool.not_eq_true'] using hh
  | n + 1, s, f, h => by
    unfold fcRun found
    by_cases hw : (s.isInt && s.feasible) = true
    · rw [if_pos hw, if_pos hw]
      exact ck_run hr he maxOa oaType hpool n _ _ (ck_pass hr he maxOa oaType hpool h hw)
    · rw [if_neg hw, if_neg hw]
      exact ⟨h, fun _ => by simpa using hw⟩

/-- More passes allowed change nothing once the loop is left. -/
theorem fcRun_mono {P : Type} (o : FcOracles P κ) (eps : ℚ) (maxOa : ℕ) (oaType : Bool) : ∀ (n m : ℕ) (s : FcSt P κ), n ≤ m → (fcRun o eps maxOa oaType n s).1 = true →
    fcRun o eps maxOa oaType m s = fcRun o eps maxOa oaType n s
  | 0, m, s, _, h => by
    have hw : (s.isInt && s.feasible) = false := by simpa only [fcRun, Bool.not_eq_true'] using h
    cases m with
    | zero => rfl
    | succ m => simp [fcRun, hw]
  | n + 1, 0, s, hm, _ => by omega
  | n + 1, m + 1, s, hm, h => by
    unfold fcRun at h ⊢
    by_cases hw : (s.isInt && s.feasible) = true
    · rw [if_pos hw] at h ⊢
      rw [if_pos hw]
      exact fcRun_mono o eps maxOa oaType n m _ (by omega) h
    · rw [if_neg hw, if_neg hw]

/-- Every call of the checker at a node inside `b0`, started at an integral point, ends within the passes. -/
def Halts (w : World X κ) (opt : Opt) (b0 : Box) : Prop := ∀ b pool cut count x, (∀ v, InBox b v → InBox b0 v) → whole w.tol b (w.ints x) = true →
  (fcRun (w.oracles b pool) opt.eps opt.maxOa opt.oaType opt.passes (fcInit (10 ^ 200) count cut x)).1 = true

/-- The answers do not depend on the past: that of the LP only on which rows there are, that of the NLP and the cuts at it only on the whole values. -/
structure Memoryless (w : World X κ) : Prop where
  lp : ∀ b rows rows' v, (∀ c, c ∈ rows ↔ c ∈ rows') → w.lp b rows v = w.lp b rows' v
  nlp : ∀ x x', (w.ints x).map (fun a => (round a : ℤ)) = (w.ints x').map (fun a => (round a : ℤ)) → w.nlp x = w.nlp x' ∧ w.oa (w.nlp x).pt x = w.oa (w.nlp x').pt x'

/-- If the LP does not propose the same whole values again, as many passes suffice as there are whole points. -/
theorem halts_of_moves {w : World X κ} {opt : Opt} (he : 0 ≤ opt.eps) {b0 : Box} (hm : Moves w) (hlen : (assign b0).length ≤ opt.passes) : Halts w opt b0 := by
  intro b pool cut count x hsub hx
  have := fc_terminates (w.oracles b pool) opt.eps he opt.maxOa opt.oaType (fun x => (w.ints x).map (fun a => (round a : ℤ))) (assign b0)
    (fun x hx => mem_assign b0 _ (hsub _ ((whole_iff _ _ _).mp hx).1))
    (by
      intro rows v x hx h1 h2 h3 h4 h5 h6
      refine hm b (pool ++ rows) v x ⟨h1, ?_⟩ ⟨h3, h4, h5⟩ ((whole_iff _ _ _).mp hx).2 ((whole_iff _ _ _).mp h6).2
      rcases h2 with h2 | h2
      · exact Or.inl fun c hc => List.mem_append_right _ (h2 c hc)
      · exact Or.inr fun c hc => List.mem_append_right _ (h2 c hc))
    (10 ^ 200) count cut x hx
  rw [fcRun_mono _ _ _ _ _ _ _ hlen this]
  exact this

/-- Also when the LP does, two passes for each whole point and one more suffice, if the answers do not depend on the past and the integer tolerance is at most the 1/10 of the comparison. -/
theorem halts_of_memoryless {w : World X κ} {opt : Opt} (he : 0 ≤ opt.eps) {b0 : Box} (hm : Memoryless w) (ht : w.tol ≤ 1 / 10)
    (hi : ∀ x, w.ints (w.nlp x).pt = (w.ints x).map (fun a => ((round a : ℤ) : ℚ))) (hlen : 2 * (assign b0).length + 1 ≤ opt.passes) : Halts w opt b0 := by
  intro b pool cut count x hsub hx
  have := fc_terminates_again (w.oracles b pool) opt.eps he opt.maxOa opt.oaType (fun x => (w.ints x).map (fun a => (round a : ℤ))) (assign b0)
    (fun x hx => mem_assign b0 _ (hsub _ ((whole_iff _ _ _).mp hx).1))
    (by
      intro rows rows' v h
      exact hm.lp b _ _ v (fun c => by simp only [List.mem_append, h]))
    (fun x x' _ _ h => hm.nlp x x' h)
    (by
      intro x hx
      refine (differ_false _ _).mpr fun i p q hp hq => ?_
      have hn := ((whole_iff _ _ _).mp hx).2
      rw [show (w.oracles b pool).nlp = w.nlp from rfl, hi, List.getElem?_map, hq] at hp
      simp only [Option.map_some, Option.some.injEq] at hp
      subst hp
      obtain ⟨z, hz⟩ := hn q (List.mem_of_getElem? hq)
      have := (round_le q z).trans (hz.trans ht)
      rw [abs_sub_comm]
      exact this)
    (10 ^ 200) count cut x hx
  rw [fcRun_mono _ _ _ _ _ _ _ hlen this]
  exact this

/-- What may be concluded from the treatment of a node. -/
structure Meaning (w : World X κ) (P : Minlp X) (sat : κ → X → Prop) (opt : Opt) (b : Box) (cut : ℚ) (r : Out X κ) : Prop where
  new : ∀ c ∈ r.new, ∀ y, P.feas y → sat c y
  sol : ∀ v x, r.sol = some (v, x) → v = P.obj x ∧ Sol w.ints P b x ∧ v < cut
  closed : r.fate = .closed → ∀ y, Sol w.ints P b y → kept opt.eps cut r.sol ≤ P.obj y
  repeated : r.fate = .repeated → RepeatsAt w P sat (kept opt.eps cut r.sol) b
  opened : ∀ o i k, r.fate = .opened o i k → (∃ lo hi, b[i]? = some (lo, hi) ∧ lo ≤ k ∧ k < hi) ∧ ∀ y, Sol w.ints P b y → o ≤ P.obj y

theorem check_meaning {w : World X κ} {P : Minlp X} {sat : κ → X → Prop} (hr : Right w P sat) (ht : 0 ≤ w.tol) (opt : Opt) (he : 0 ≤ opt.eps) (b : Box) (pool : List κ)
    (hpool : ∀ c ∈ pool, ∀ y, P.feas y → sat c y) (cut : ℚ) (count : ℕ) (b0 : Box) (hsub : ∀ v, InBox b v → InBox b0 v) :
    Meaning w P sat opt b cut (check w opt b pool cut count) ∧
    (Halts w opt b0 → (check w opt b pool cut count).fate ≠ .stuck) := by
  have hsat : ∀ rows : List κ, (∀ c ∈ rows, ∀ y, P.feas y → sat c y) → ∀ y, P.feas y → ∀ c ∈ pool ++ rows, sat c y := by
    intro rows h y hy c hc
    rcases List.mem_append.mp hc with hc | hc
    · exact hpool c hc y hy
    · exact h c hc y hy
  unfold check
  simp only
  by_cases h0 : (!((w.lp b pool cut).optimal && !(w.lp b pool cut).limit && decide ((w.lp b pool cut).obj < cut))) = true
  · rw [if_pos h0]
    refine ⟨⟨by simp, by simp, fun _ y hy => ?_, by simp, by simp⟩, by simp⟩
    by_cases h1 : (w.lp b pool cut).optimal = true ∧ (w.lp b pool cut).limit = false
    · have h2 : cut ≤ (w.lp b pool cut).obj := by simpa [h1.1, h1.2] using h0
      exact h2.trans (hr.lpBound _ _ _ h1.1 h1.2 y hy.1 hy.2.1 (fun c hc => hpool c hc y hy.1))
    · exact hr.lpNone _ _ _ h1 y hy.1 hy.2.1 (fun c hc => hpool c hc y hy.1)
  · rw [if_neg h0]
    have hB : Below w b pool cut := by simpa [Below, and_assoc] using h0
    have hopen : ∀ (rows : List κ) (v : ℚ) (i : ℕ) (k : ℤ), (∀ c ∈ rows, ∀ y, P.feas y → sat c y) → Below w b rows v →
        pickVar (w.choose b) (cands w.tol b (w.ints (w.lp b rows v).pt)) = some (i, k) →
        (∃ lo hi, b[i]? = some (lo, hi) ∧ lo ≤ k ∧ k < hi) ∧ ∀ y, Sol w.ints P b y → (w.lp b rows v).obj ≤ P.obj y := by
      intro rows v i k hrows hbel hp
      obtain ⟨q, a, h1, h2, h3, rfl⟩ := cands_mem (pickVar_mem hp)
      exact ⟨⟨q.1, q.2, h1, fractional_splits ht h3⟩, fun y hy => hr.lpBound _ _ _ hbel.1 hbel.2.1 y hy.1 hy.2.1 (fun c hc => hrows c hc y hy.1)⟩
    cases hp : pickVar (w.choose b) (cands w.tol b (w.ints (w.lp b pool cut).pt)) with
    | some e =>
      obtain ⟨i, k⟩ := e
      refine ⟨⟨by simp, by simp, by simp, by simp, ?_⟩, by simp⟩
      intro o i' k' ho
      simp only [Fate.opened.injEq] at ho
      obtain ⟨rfl, rfl, rfl⟩ := ho
      exact hopen pool cut i k hpool hB hp
    | none =>
      simp only
      have hbox := hr.lpBox _ _ _ hB.1 hB.2.1
      have hnear : ∀ v : List ℚ, InBox b v → pickVar (w.choose b) (cands w.tol b v) = none → whole w.tol b v = true := by
        intro v hv hn
        have hz : Near w.tol v := near_of_none hv hn
        exact (whole_iff _ _ _).mpr ⟨hv, hz⟩
      have hint := hnear _ hbox hp
      have hstart : Ck w P sat opt.eps b pool cut (fcInit (10 ^ 200) count cut (w.lp b pool cut).pt) none :=
        ⟨by simp [fcInit], by simp [fcInit], fun _ => rfl, by simp, fun _ => (whole_iff _ _ _).mp hint, Or.inl ⟨rfl, rfl, rfl⟩⟩
      obtain ⟨hck, hleft⟩ := ck_run hr he opt.maxOa opt.oaType hpool opt.passes _ _ hstart
      have hterm : Halts w opt b0 →
          (fcRun (w.oracles b pool) opt.eps opt.maxOa opt.oaType opt.passes (fcInit (10 ^ 200) count cut (w.lp b pool cut).pt)).1 = true :=
        fun hm => hm b pool cut count _ hsub hint
      generalize fcRun (w.oracles b pool) opt.eps opt.maxOa opt.oaType opt.passes (fcInit (10 ^ 200) count cut (w.lp b pool cut).pt) = r at hck hleft hterm ⊢
      generalize found (w.oracles b pool) opt.eps opt.maxOa opt.oaType opt.passes (fcInit (10 ^ 200) count cut (w.lp b pool cut).pt) none = f at hck ⊢
      obtain ⟨left, s⟩ := r
      dsimp only at hck hleft hterm ⊢
      have hsol : ∀ v x, f = some (v, x) → v = P.obj x ∧ Sol w.ints P b x ∧ v < cut := fun v x hx => (hck.some v x hx).2
      cases left with
      | false =>
        refine ⟨⟨hck.new, hsol, by simp, by simp, by simp⟩, fun h1 => ?_⟩
        exact absurd (hterm h1) (by simp)
      | true =>
        have hno := hleft rfl
        have haft : s.pt = (w.lp b (pool ++ s.rows) s.cutoff).pt ∧ (s.feasible = true ↔ Below w b (pool ++ s.rows) s.cutoff) ∧
            ((s.bound = -10 ^ 200 ∧ s.isInt = whole w.tol b (w.ints s.pt)) ∨ (s.bound = 10 ^ 200 ∧ s.isInt = false ∧ RepeatsAt w P sat s.cutoff b)) := by
          rcases hck.after with h' | h'
          · rw [h'.1, h'.2.1] at hno; simp at hno
          · exact h'
        obtain ⟨a1, a2, a3⟩ := haft
        have hcut : kept opt.eps cut f = s.cutoff := by
          cases hfe : f with
          | none => exact (hck.none hfe).symm
          | some e => exact (hck.some e.1 e.2 hfe).1.symm
        simp only [Bool.not_true, Bool.false_eq_true, if_false]
        rcases Bool.eq_false_or_eq_true s.feasible with hf | hf
        · simp only [hf, Bool.not_true, Bool.false_eq_true, if_false]
          have hbel := a2.mp hf
          by_cases hbd : s.bound = 10 ^ 200
          · rw [if_pos hbd]
            refine ⟨⟨hck.new, hsol, by simp, fun _ => ?_, by simp⟩, by simp⟩
            rcases a3 with h' | h'
            · rw [h'.1] at hbd; norm_num at hbd
            · show RepeatsAt w P sat (kept opt.eps cut f) b
              rw [hcut]
              exact h'.2.2
          · rw [if_neg hbd]
            have hi : whole w.tol b (w.ints s.pt) = false := by
              rcases a3 with h' | h'
              · rw [← h'.2]; simpa [hf] using hno
              · exact absurd h'.1 hbd
            cases hp2 : pickVar (w.choose b) (cands w.tol b (w.ints s.pt)) with
            | none =>
              have := hnear _ (by rw [a1]; exact hr.lpBox _ _ _ hbel.1 hbel.2.1) hp2
              rw [hi] at this
              cases this
            | some e =>
              obtain ⟨i, k⟩ := e
              refine ⟨⟨hck.new, hsol, by simp, by simp, ?_⟩, by simp⟩
              intro o i' k' ho
              simp only [Fate.opened.injEq] at ho
              obtain ⟨rfl, rfl, rfl⟩ := ho
              rw [a1] at hp2
              exact hopen (pool ++ s.rows) s.cutoff i k (fun c hc y hy => hsat s.rows hck.rows y hy c hc) hbel hp2
        · simp only [hf, Bool.not_false, if_true]
          refine ⟨⟨hck.new, hsol, fun _ y hy => ?_, by simp, by simp⟩, by simp⟩
          show kept opt.eps cut f ≤ P.obj y
          rw [hcut]
          have hnb : ¬ Below w b (pool ++ s.rows) s.cutoff := fun h => by rw [a2.mpr h] at hf; cases hf
          by_cases h1 : (w.lp b (pool ++ s.rows) s.cutoff).optimal = true ∧ (w.lp b (pool ++ s.rows) s.cutoff).limit = false
          · exact (not_lt.mp fun h => hnb ⟨h1.1, h1.2, h⟩).trans (hr.lpBound _ _ _ h1.1 h1.2 y hy.1 hy.2.1 (hsat _ hck.rows y hy.1))
          · exact hr.lpNone _ _ _ h1 y hy.1 hy.2.1 (hsat _ hck.rows y hy.1)

theorem treat_meaning {w : World X κ} {P : Minlp X} {sat : κ → X → Prop} (hr : Right w P sat) (ht : 0 ≤ w.tol) (opt : Opt) (he : 0 ≤ opt.eps) (b : Box) (pool : List κ)
    (hpool : ∀ c ∈ pool, ∀ y, P.feas y → sat c y) (cut : ℚ) (count : ℕ) (b0 : Box) (hf : Found w P sat opt.eps b0) (hsub : ∀ v, InBox b v → InBox b0 v) :
    Meaning w P sat opt b cut (treat w opt b pool cut count) ∧
    (Halts w opt b0 → (treat w opt b pool cut count).fate ≠ .stuck) := by
  have hex := hr.extra b pool hpool
  obtain ⟨h1, h2⟩ := check_meaning hr ht opt he b (pool ++ w.extra b pool) (by
    intro c hc
    rcases List.mem_append.mp hc with hc | hc
    · exact hpool c hc
    · exact hex c hc) cut count b0 hsub
  cases hq : w.quit b pool cut with
  | some s =>
    obtain ⟨q1, q2⟩ := hf.quit b pool cut s hpool hq
    have e : treat w opt b pool cut count = ⟨.closed, w.extra b pool, s, count⟩ := by simp only [treat, hq]
    rw [e]
    exact ⟨⟨hex, q1, fun _ => q2, by simp, by simp⟩, by simp⟩
  | none =>
  have e : treat w opt b pool cut count = { check w opt b (pool ++ w.extra b pool) cut count with new := w.extra b pool ++ (check w opt b (pool ++ w.extra b pool) cut count).new } := by
    simp only [treat, hq]
  rw [e]
  refine ⟨⟨?_, h1.sol, h1.closed, h1.repeated, h1.opened⟩, h2⟩
  intro c hc
  rcases List.mem_append.mp hc with hc | hc
  · exact hex c hc
  · exact h1.new c hc

/-- **C259.**  The cuts of the other generators are in the LP of the node and are kept, in front of those of the checker; nothing else is changed by them, except that a node they give up is dropped
without LP and checker, with the solution they hand over. -/
theorem treat_extra (w : World X κ) (opt : Opt) (b : Box) (pool : List κ) (cut : ℚ) (count : ℕ) :
    (∀ c ∈ w.extra b pool, c ∈ (treat w opt b pool cut count).new) ∧
    (∀ s, w.quit b pool cut = some s → treat w opt b pool cut count = ⟨.closed, w.extra b pool, s, count⟩) ∧
    (w.quit b pool cut = none → w.extra b pool = [] → treat w opt b pool cut count = check w opt b pool cut count) ∧
    (w.quit b pool cut = none →
      ¬ ((w.lp b (pool ++ w.extra b pool) cut).optimal = true ∧ (w.lp b (pool ++ w.extra b pool) cut).limit = false ∧ (w.lp b (pool ++ w.extra b pool) cut).obj < cut) →
      treat w opt b pool cut count = ⟨.closed, w.extra b pool, none, count⟩) := by
  refine ⟨fun c hc => ?_, fun s h => by simp only [treat, h], fun hq h => by simp [treat, hq, h], fun hq h => ?_⟩
  · unfold treat
    split
    · exact hc
    · exact List.mem_append_left _ hc
  have : (!((w.lp b (pool ++ w.extra b pool) cut).optimal && !(w.lp b (pool ++ w.extra b pool) cut).limit && decide ((w.lp b (pool ++ w.extra b pool) cut).obj < cut))) = true := by
    cases h1 : (w.lp b (pool ++ w.extra b pool) cut).optimal <;> cases h2 : (w.lp b (pool ++ w.extra b pool) cut).limit <;> simp_all
  simp [treat, hq, check, this]

/-! ## The invariant -/

/-- The best solution is a solution, and the cutoff belongs to it. -/
def IncOK (w : World X κ) (P : Minlp X) (b0 : Box) (cut0 decr : ℚ) (st : St σ X κ) : Prop :=
  match st.inc with
  | none => st.cut = cut0
  | some (v, x) => st.cut = v - decr ∧ v = P.obj x ∧ Sol w.ints P b0 x ∧ v < cut0

structure Inv (T : Bab.Search.Tree σ) (w : World X κ) (P : Minlp X) (sat : κ → X → Prop) (b0 : Box) (cut0 : ℚ) (opt : Opt) (extra : List ℚ → Prop) (st : St σ X κ) : Prop where
  nodes : ∀ x ∈ T.inside st.tree, NodeOK w.ints P b0 st.tab x
  cover : ∀ y, Sol w.ints P b0 y → P.obj y < thr opt cut0 st.inc →
    (∃ x ∈ T.inside st.tree, OpenAt st.tab x (w.ints y)) ∨ (∃ b ∈ st.lost, InBox b (w.ints y)) ∨ extra (w.ints y)
  inc : IncOK w P b0 cut0 opt.decr st
  pool : ∀ c ∈ st.pool, ∀ y, P.feas y → sat c y
  lost : ∀ b ∈ st.lost, RepeatsAt w P sat (thr opt cut0 st.inc) b

def mass (T : Bab.Search.Tree σ) (st : St σ X κ) : ℕ := ((T.inside st.tree).map (cost st.tab)).sum

theorem thr_le {w : World X κ} {P : Minlp X} {b0 : Box} {cut0 : ℚ} {opt : Opt} {st : St σ X κ} (h : IncOK w P b0 cut0 opt.decr st) : thr opt cut0 st.inc ≤ st.cut := by
  unfold IncOK at h
  cases hi : st.inc with
  | none => rw [hi] at h; exact h.ge
  | some e =>
    rw [hi] at h
    rw [h.1]
    exact min_le_left _ _

theorem cutoff_mono {eps a b : ℚ} (h0 : 0 ≤ eps) (h1 : eps ≤ 1) (h : a ≤ b) : a - eps * |a| ≤ b - eps * |b| := by
  have h2 : |b| - |a| ≤ b - a := by
    have := abs_sub_abs_le_abs_sub b a
    rwa [abs_of_nonneg (by linarith : 0 ≤ b - a)] at this
  have h3 : eps * (|b| - |a|) ≤ eps * (b - a) := mul_le_mul_of_nonneg_left h2 h0
  have h4 : eps * (b - a) ≤ 1 * (b - a) := mul_le_mul_of_nonneg_right h1 (by linarith)
  nlinarith

/-- A new solution below the cutoff does not raise the threshold. -/
theorem thr_mono {w : World X κ} {P : Minlp X} {b0 : Box} {cut0 : ℚ} {opt : Opt} (hd : 0 ≤ opt.decr) (h0 : 0 ≤ opt.eps) (h1 : opt.eps ≤ 1) {st : St σ X κ}
    (h : IncOK w P b0 cut0 opt.decr st) {v : ℚ} (x : X) (hv : v < st.cut) : thr opt cut0 (some (v, x)) ≤ thr opt cut0 st.inc ∧ v < cut0 := by
  unfold IncOK at h
  cases hi : st.inc with
  | none =>
    rw [hi] at h
    change st.cut = cut0 at h
    simp only [thr]
    exact ⟨(min_le_left _ _).trans (by linarith), by linarith⟩
  | some e =>
    obtain ⟨v0, x0⟩ := e
    rw [hi] at h
    obtain ⟨e1, -, -, e4⟩ := h
    simp only [thr]
    exact ⟨min_le_min (by linarith) (cutoff_mono h0 h1 (by linarith)), by linarith⟩

theorem clean_spec {T : Bab.Search.Tree σ} {ready : σ → Prop} (hT : Lawful T ready) {w : World X κ} {P : Minlp X} {sat : κ → X → Prop} {b0 : Box} {cut0 : ℚ} {opt : Opt}
    {st : St σ X κ} (hinv : Inv T w P sat b0 cut0 opt (fun _ => False) st) :
    ∃ t l, T.step st.tree (.clean st.cut) = some (t, l) ∧ Inv T w P sat b0 cut0 opt (fun _ => False) { st with tree := t } ∧ mass T ({ st with tree := t } : St σ X κ) ≤ mass T st := by
  cases hc : T.step st.tree (.clean st.cut) with
  | none => exact absurd hc (hT.cleanRuns _ _)
  | some r =>
    obtain ⟨t, l⟩ := r
    have hq := hT.cleanQuiet _ _ _ _ hc
    have hm := mem_after hT hc
    rw [hq] at hm
    refine ⟨t, l, rfl, ⟨?_, ?_, hinv.inc, hinv.pool, hinv.lost⟩, ?_⟩
    · intro z hz
      have := (hm z).mp (Or.inl hz)
      simp only [Op.pushed, List.not_mem_nil, or_false] at this
      exact hinv.nodes z this
    · intro y hy hlt
      rcases hinv.cover y hy hlt with ⟨z, hz, ho⟩ | h | h
      · rcases (hm z).mpr (Or.inl hz) with h | h | h
        · exact Or.inl ⟨z, h, ho⟩
        · exact absurd h (by simp)
        · have h1 := deleted_bound hT (c := st.cut) rfl hc z h
          have h2 := open_bound (hinv.nodes z hz) hy ho
          have h3 := thr_le hinv.inc
          dsimp only at hlt
          linarith
      · exact Or.inr (Or.inl h)
      · exact h.elim
    · have hp := (hT.conserve _ _ _ _ hc).1
      rw [hq] at hp
      have : (T.inside t ++ l.deleted).Perm (T.inside st.tree) := by simpa [Op.pushed] using hp
      exact sum_cost_le (f := cost st.tab) this

/-- The step after a node was treated. -/
theorem settle_spec {T : Bab.Search.Tree σ} {ready : σ → Prop} (hT : Lawful T ready) (w : World X κ) (P : Minlp X) (sat : κ → X → Prop) (b0 : Box) (cut0 : ℚ) (opt : Opt)
    (hd : 0 ≤ opt.decr) (h0 : 0 ≤ opt.eps) (h1 : opt.eps ≤ 1) (st : St σ X κ) (b : Box) (depth : ℤ) (r : Out X κ)
    (hinv : Inv T w P sat b0 cut0 opt (InBox b) st) (hsub : ∀ v, InBox b v → InBox b0 v) (hready : ready st.tree) (hM : Meaning w P sat opt b st.cut r) :
    (∃ st', settle T w opt st b depth r = .run st' ∧ Inv T w P sat b0 cut0 opt (fun _ => False) st' ∧ mass T st' ≤ mass T st + 2 * (2 ^ width b - 1)) ∨
    (settle T w opt st b depth r = .stuck ∧ r.fate = .stuck) := by
  -- the state with the new solution and the new cuts
  obtain ⟨st1, hst1, htree, htab, hinv1, hthr⟩ : ∃ st1 : St σ X κ, ({ st with pool := st.pool ++ r.new, count := r.count } : St σ X κ).take opt r.sol = st1 ∧ st1.tree = st.tree ∧
      st1.tab = st.tab ∧ Inv T w P sat b0 cut0 opt (InBox b) st1 ∧ thr opt cut0 st1.inc ≤ kept opt.eps st.cut r.sol := by
    have hpool : ∀ c ∈ st.pool ++ r.new, ∀ y, P.feas y → sat c y := by
      intro c hc
      rcases List.mem_append.mp hc with hc | hc
      · exact hinv.pool c hc
      · exact hM.new c hc
    cases hs : r.sol with
    | none => exact ⟨_, rfl, rfl, rfl, ⟨hinv.nodes, hinv.cover, hinv.inc, hpool, hinv.lost⟩, thr_le hinv.inc⟩
    | some e =>
      obtain ⟨v, x⟩ := e
      obtain ⟨g1, g2, g3⟩ := hM.sol v x hs
      obtain ⟨m1, m2⟩ := thr_mono hd h0 h1 hinv.inc x g3
      refine ⟨_, rfl, rfl, rfl, ⟨hinv.nodes, fun y hy hlt => hinv.cover y hy (lt_of_lt_of_le hlt m1), ?_, hpool, fun b' hb' => (hinv.lost b' hb').mono m1⟩, min_le_right _ _⟩
      exact ⟨rfl, g1, ⟨g2.1, hsub _ g2.2.1, g2.2.2⟩, m2⟩
  -- the node itself
  have key : (∃ st2 : St σ X κ, place T w st1 b depth r.fate = .run st2 ∧
      Inv T w P sat b0 cut0 opt (fun _ => False) st2 ∧ mass T st2 ≤ mass T st + 2 * (2 ^ width b - 1)) ∨ r.fate = .stuck := by
    have hmass1 : mass T st1 = mass T st := by simp only [mass, htree, htab]
    cases hf : r.fate with
    | stuck => exact Or.inr rfl
    | closed =>
      refine Or.inl ⟨st1, rfl, ⟨hinv1.nodes, fun y hy hlt => ?_, hinv1.inc, hinv1.pool, hinv1.lost⟩, by omega⟩
      rcases hinv1.cover y hy hlt with h | h | h
      · exact Or.inl h
      · exact Or.inr (Or.inl h)
      · have := hM.closed hf y ⟨hy.1, h, hy.2.2⟩
        linarith
    | repeated =>
      refine Or.inl ⟨_, rfl, ⟨hinv1.nodes, fun y hy hlt => ?_, hinv1.inc, hinv1.pool, ?_⟩, by rw [← hmass1]; exact Nat.le_add_right _ _⟩
      · rcases hinv1.cover y hy hlt with h | ⟨b', hb', h⟩ | h
        · exact Or.inl h
        · exact Or.inr (Or.inl ⟨b', List.mem_cons_of_mem _ hb', h⟩)
        · exact Or.inr (Or.inl ⟨b, by simp, h⟩)
      · intro b' hb'
        rcases List.mem_cons.mp hb' with rfl | hb'
        · exact (hM.repeated hf).mono hthr
        · exact hinv1.lost b' hb'
    | opened o i k =>
      obtain ⟨g1, g2⟩ := hM.opened o i k hf
      left
      cases hc : T.step st1.tree (.push ⟨st1.tab.length, o, w.guess b, depth, 2, 2⟩ byValue) with
      | none => rw [htree] at hc; exact absurd hc (hT.pushRuns _ _ _ hready)
      | some q =>
        obtain ⟨t, l⟩ := q
        have hp := push_deleted hT hc
        have hlook : (st1.tab ++ [(⟨b, i, k, w.upFirst b, .root⟩ : Pay)])[st1.tab.length]? = some ⟨b, i, k, w.upFirst b, .root⟩ := by simp
        refine ⟨{ st1 with tree := t, tab := st1.tab ++ [⟨b, i, k, w.upFirst b, .root⟩] }, by simp only [place, hc], ⟨?_, ?_, hinv1.inc, hinv1.pool, hinv1.lost⟩, ?_⟩
        · intro z hz
          rcases List.mem_append.mp (hp.mem_iff.mp hz) with h | h
          · obtain ⟨e1, e2, e3, p, hp', e4⟩ := hinv1.nodes z h
            exact ⟨e1, e2, e3, p, tab_append hp' _, e4⟩
          · simp only [List.mem_singleton] at h
            subst h
            exact ⟨rfl, by simp, by simp, _, hlook, g1, hsub, g2⟩
        · intro y hy hlt
          rcases hinv1.cover y hy hlt with ⟨z, hz, p, kk, hp', h1, h2, h3⟩ | h | h
          · exact Or.inl ⟨z, hp.mem_iff.mpr (List.mem_append_left _ hz), p, kk, tab_append hp' _, h1, h2, h3⟩
          · exact Or.inr (Or.inl h)
          · have hs : Splits ⟨b, i, k, w.upFirst b, .root⟩ := g1
            rcases (sides_partition _ _ hs hy.2.2).1.mp h with h' | h'
            · exact Or.inl ⟨_, hp.mem_iff.mpr (List.mem_append_right _ (List.mem_singleton.mpr rfl)), _, 0, hlook, by simp, by norm_num, h'⟩
            · exact Or.inl ⟨_, hp.mem_iff.mpr (List.mem_append_right _ (List.mem_singleton.mpr rfl)), _, 1, hlook, by simp, by norm_num, h'⟩
        · have e1 := (hp.map (cost (st1.tab ++ [(⟨b, i, k, w.upFirst b, .root⟩ : Pay)]))).sum_eq
          have e2 : (T.inside st1.tree).map (cost (st1.tab ++ [(⟨b, i, k, w.upFirst b, .root⟩ : Pay)])) = (T.inside st1.tree).map (cost st1.tab) :=
            List.map_congr_left (fun z hz => cost_append (hinv1.nodes z hz) _)
          rw [List.map_append, List.sum_append, e2] at e1
          simp only [List.map_cons, List.map_nil, List.sum_cons, List.sum_nil, cost, hlook] at e1
          rw [← hmass1]
          simp only [mass]
          rw [e1]
          omega
  unfold settle
  rw [hst1]
  rcases key with ⟨st2, e1, e2, e3⟩ | hstuck
  · left
    rw [e1]
    simp only
    by_cases hs : r.sol.isSome = true
    · rw [if_pos hs]
      obtain ⟨t, l, c1, c2, c3⟩ := clean_spec hT e2
      rw [c1]
      exact ⟨_, rfl, c2, c3.trans e3⟩
    · rw [if_neg hs]
      exact ⟨_, rfl, e2, e3⟩
  · right
    rw [hstuck]
    exact ⟨rfl, rfl⟩

/-- **C259.**  A solution handed over is taken exactly when it is below the cutoff; then the tree loses nothing that is better by more than the decrement. -/
theorem improve_spec {T : Bab.Search.Tree σ} {ready : σ → Prop} (hT : Lawful T ready) (w : World X κ) (P : Minlp X) (sat : κ → X → Prop) (b0 : Box) (cut0 : ℚ) (opt : Opt)
    (hd : 0 ≤ opt.decr) (h0 : 0 ≤ opt.eps) (h1 : opt.eps ≤ 1) (st : St σ X κ) (h : Option (ℚ × X)) (hh : ∀ u x, h = some (u, x) → u = P.obj x ∧ Sol w.ints P b0 x)
    (hinv : Inv T w P sat b0 cut0 opt (fun _ => False) st) :
    ∃ st', improve T opt st h = .run st' ∧ Inv T w P sat b0 cut0 opt (fun _ => False) st' ∧ mass T st' ≤ mass T st ∧
      ((∃ v x, h = some (v, x) ∧ v < st.cut ∧ st'.inc = some (v, x) ∧ st'.cut = v - opt.decr) ∨ ((∀ v x, h = some (v, x) → st.cut ≤ v) ∧ st' = st)) := by
  cases h with
  | none => exact ⟨st, rfl, hinv, le_rfl, Or.inr ⟨by simp, rfl⟩⟩
  | some e =>
    obtain ⟨v, x⟩ := e
    by_cases hv : v < st.cut
    · obtain ⟨m1, m2⟩ := thr_mono hd h0 h1 hinv.inc x hv
      obtain ⟨g1, g2⟩ := hh v x rfl
      have hinv1 : Inv T w P sat b0 cut0 opt (fun _ => False) ({ st with inc := some (v, x), cut := v - opt.decr } : St σ X κ) :=
        ⟨hinv.nodes, fun y hy hlt => hinv.cover y hy (lt_of_lt_of_le hlt m1), ⟨rfl, g1, g2, m2⟩, hinv.pool, fun b' hb' => (hinv.lost b' hb').mono m1⟩
      obtain ⟨t, l, c1, c2, c3⟩ := clean_spec hT hinv1
      dsimp only at c1
      refine ⟨{ st with tree := t, inc := some (v, x), cut := v - opt.decr }, ?_, c2, c3, Or.inl ⟨v, x, rfl, hv, rfl, rfl⟩⟩
      simp only [improve, if_pos hv, c1]
    · refine ⟨st, by simp only [improve, if_neg hv], hinv, le_rfl, Or.inr ⟨fun u y he => ?_, rfl⟩⟩
      cases he
      exact not_lt.mp hv

/-- All that is done at a node. -/
theorem handle_spec {T : Bab.Search.Tree σ} {ready : σ → Prop} (hT : Lawful T ready) (w : World X κ) (P : Minlp X) (sat : κ → X → Prop) (hr : Right w P sat) (ht : 0 ≤ w.tol) (b0 : Box)
    (cut0 : ℚ) (opt : Opt) (hh : Found w P sat opt.eps b0) (hd : 0 ≤ opt.decr) (h0 : 0 ≤ opt.eps) (h1 : opt.eps ≤ 1) (st : St σ X κ) (b : Box) (depth : ℤ)
    (hinv : Inv T w P sat b0 cut0 opt (InBox b) st) (hsub : ∀ v, InBox b v → InBox b0 v) (hready : ready st.tree) :
    (∃ st', handle T w opt st b depth = .run st' ∧ Inv T w P sat b0 cut0 opt (fun _ => False) st' ∧ mass T st' ≤ mass T st + 2 * (2 ^ width b - 1)) ∨
    (handle T w opt st b depth = .stuck ∧ ¬ Halts w opt b0) := by
  obtain ⟨hM, hns⟩ := treat_meaning hr ht opt h0 b st.pool hinv.pool st.cut st.count b0 hh hsub
  rcases settle_spec hT w P sat b0 cut0 opt hd h0 h1 st b depth _ hinv hsub hready hM with ⟨st', e1, e2, e3⟩ | ⟨e1, e2⟩
  · obtain ⟨st2, i1, i2, i3, -⟩ := improve_spec hT w P sat b0 cut0 opt hd h0 h1 st' (w.heur b st'.pool st'.cut) (hh.heur b st'.pool st'.cut) e2
    exact Or.inl ⟨st2, by simp only [handle, e1, i1], i2, i3.trans e3⟩
  · exact Or.inr ⟨by simp only [handle, e1], fun h => hns h e2⟩

/-- One pass keeps the invariant and uses up mass; it is stuck only if a call of the checker did not end. -/
theorem visit_spec {T : Bab.Search.Tree σ} {ready : σ → Prop} (hT : Lawful T ready) (w : World X κ) (P : Minlp X) (sat : κ → X → Prop) (hr : Right w P sat) (ht : 0 ≤ w.tol)
    (b0 : Box) (cut0 : ℚ) (opt : Opt) (hf : Found w P sat opt.eps b0) (hd : 0 ≤ opt.decr) (h0 : 0 ≤ opt.eps) (h1 : opt.eps ≤ 1) (pick : Pick) (st : St σ X κ)
    (hinv : Inv T w P sat b0 cut0 opt (fun _ => False) st) :
    (∃ st', visit T w opt pick st = .run st' ∧ Inv T w P sat b0 cut0 opt (fun _ => False) st' ∧ (T.inside st'.tree = [] ∨ mass T st' < mass T st)) ∨
    (visit T w opt pick st = .stuck ∧ ¬ Halts w opt b0) := by
  have hthr := thr_le hinv.inc
  cases hb : T.step st.tree (.best st.cut pick) with
  | none => exact absurd hb (hT.bestRuns _ _ _)
  | some r =>
    obtain ⟨t, log⟩ := r
    obtain ⟨b1, b2, b3, b4⟩ := hT.best _ _ _ _ _ hb
    have hm := mem_after hT hb
    have hperm := (hT.conserve _ _ _ _ hb).1
    simp only [Op.pushed, List.flatMap_cons, List.flatMap_nil, List.append_nil] at hperm
    simp only [Op.pushed, List.not_mem_nil, or_false] at hm
    cases hh : log.handed with
    | nil =>
      left
      refine ⟨{ st with tree := t }, by simp only [visit, hb, hh], ⟨?_, ?_, hinv.inc, hinv.pool, hinv.lost⟩, Or.inl (b3 hh)⟩
      · intro z hz
        exact hinv.nodes z ((hm z).mp (Or.inl hz))
      · intro y hy hlt
        rcases hinv.cover y hy hlt with ⟨z, hz, ho⟩ | h | h
        · rcases (hm z).mpr hz with h | h | h
          · exact Or.inl ⟨z, h, ho⟩
          · rw [hh] at h; exact absurd h (by simp)
          · have h1 := deleted_bound hT (c := st.cut) rfl hb z h
            have h2 := open_bound (hinv.nodes z hz) hy ho
            dsimp only at hlt
            linarith
        · exact Or.inr (Or.inl h)
        · exact h.elim
    | cons x rest =>
      have hrest : rest = [] := by
        rw [hh] at b1
        simpa using b1
      subst hrest
      rw [hh] at hm hperm
      have hx : x ∈ T.inside st.tree := (hm x).mp (by simp)
      obtain ⟨x1, x2, x3, p, hp, hs, hsub, hbd⟩ := hinv.nodes x hx
      have hback : ∃ t2 l2, (if 1 < x.left then T.step t (.push { x with left := x.left - 1 } byValue) else some (t, {})) = some (t2, l2) ∧ ready t2 ∧
          (T.inside t2).Perm (T.inside t ++ if 1 < x.left then [{ x with left := x.left - 1 }] else []) := by
        by_cases h2 : 1 < x.left
        · rw [if_pos h2, if_pos h2]
          cases hq : T.step t (.push { x with left := x.left - 1 } byValue) with
          | none => exact absurd hq (hT.pushRuns _ _ _ b4)
          | some r =>
            obtain ⟨t2, l2⟩ := r
            exact ⟨t2, l2, rfl, hT.pushBack _ _ _ _ _ b4 (by dsimp only; omega) hq, push_deleted hT hq⟩
        · rw [if_neg h2, if_neg h2]
          exact ⟨t, {}, rfl, b4, by simp⟩
      obtain ⟨t2, l2, hpush, hready, hin⟩ := hback
      have hk : x.total - x.left < 2 := by omega
      have hsub' : ∀ v, InBox (side p (x.total - x.left)) v → InBox b0 v := by
        intro v hv
        apply hsub
        unfold side at hv
        split_ifs at hv
        · exact ((inBox_upper p v hs).mp hv).1
        · exact ((inBox_down p v hs).mp hv).1
      have hinv2 : Inv T w P sat b0 cut0 opt (InBox (side p (x.total - x.left))) { st with tree := t2 } := by
        refine ⟨?_, ?_, hinv.inc, hinv.pool, hinv.lost⟩
        · intro z hz
          rcases List.mem_append.mp (hin.mem_iff.mp hz) with h | h
          · exact hinv.nodes z ((hm z).mp (Or.inl h))
          · split_ifs at h with h2
            · simp only [List.mem_singleton] at h
              subst h
              refine ⟨x1, ?_, ?_, p, hp, hs, hsub, hbd⟩
              · dsimp only; omega
              · dsimp only; omega
            · exact absurd h (by simp)
        · intro y hy hlt
          rcases hinv.cover y hy hlt with ⟨z, hz, ho⟩ | h | h
          · rcases (hm z).mpr hz with h | h | h
            · exact Or.inl ⟨z, hin.mem_iff.mpr (List.mem_append_left _ h), ho⟩
            · simp only [List.mem_singleton] at h
              subst h
              obtain ⟨p', k, hp', hk1, hk2, hbox⟩ := ho
              rw [hp] at hp'
              cases hp'
              by_cases hkk : k = z.total - z.left
              · subst hkk
                exact Or.inr (Or.inr hbox)
              · left
                have h2 : 1 < z.left := by omega
                refine ⟨{ z with left := z.left - 1 }, hin.mem_iff.mpr (List.mem_append_right _ (by rw [if_pos h2]; simp)), p, k, hp, ?_, hk2, hbox⟩
                dsimp only
                omega
            · have h1 := deleted_bound hT (c := st.cut) rfl hb z h
              have h2 := open_bound (hinv.nodes z hz) hy ho
              dsimp only at hlt
              linarith
          · exact Or.inr (Or.inl h)
          · exact h.elim
      have hmass : mass T ({ st with tree := t2 } : St σ X κ) + (2 ^ width p.box - 1) ≤ mass T st := by
        have e1 := (hin.map (cost st.tab)).sum_eq
        have e2 := (hperm.map (cost st.tab)).sum_eq
        simp only [List.map_append, List.sum_append, List.map_cons, List.map_nil, List.sum_cons, List.sum_nil, Nat.add_zero] at e1 e2
        have e3 : ((if 1 < x.left then [({ x with left := x.left - 1 } : Node)] else []).map (cost st.tab)).sum + (2 ^ width p.box - 1) = cost st.tab x := by
          split_ifs with h2
          · have : x.left = 2 := by omega
            simp only [List.map_cons, List.map_nil, List.sum_cons, List.sum_nil, cost, hp, this]
            omega
          · have : x.left = 1 := by omega
            simp only [List.map_nil, List.sum_nil, cost, hp, this]
            omega
        simp only [mass]
        omega
      have hwid := width_side hs (x.total - x.left)
      have hpow : 2 * (2 ^ width (side p (x.total - x.left)) - 1) < 2 ^ width p.box - 1 := by
        have h1 : 2 ^ (width (side p (x.total - x.left)) + 1) ≤ 2 ^ width p.box := Nat.pow_le_pow_right (by norm_num) hwid
        rw [pow_succ] at h1
        have h2 : 1 ≤ 2 ^ width (side p (x.total - x.left)) := Nat.one_le_two_pow
        omega
      have hvisit : visit T w opt pick st = handle T w opt { st with tree := t2 } (side p (x.total - x.left)) (x.depth + 1) := by
        simp only [visit, hb, hh, hp]
        rw [hpush]
      rw [hvisit]
      rcases handle_spec hT w P sat hr ht b0 cut0 opt hf hd h0 h1 { st with tree := t2 } (side p (x.total - x.left)) (x.depth + 1) hinv2 hsub' hready with ⟨st', e1, e2, e3⟩ | ⟨e1, e2⟩
      · exact Or.inl ⟨st', e1, e2, Or.inr (by omega)⟩
      · exact Or.inr ⟨e1, e2⟩

theorem mass_zero {T : Bab.Search.Tree σ} {w : World X κ} {P : Minlp X} {sat : κ → X → Prop} {b0 : Box} {cut0 : ℚ} {opt : Opt} {st : St σ X κ}
    (hinv : Inv T w P sat b0 cut0 opt (fun _ => False) st) (h : mass T st = 0) : T.inside st.tree = [] := by
  rw [List.eq_nil_iff_forall_not_mem]
  intro x hx
  have h1 := cost_pos (hinv.nodes x hx)
  have h2 : cost st.tab x ≤ ((T.inside st.tree).map (cost st.tab)).sum := List.single_le_sum (by simp) _ (List.mem_map_of_mem hx)
  rw [mass] at h
  omega

/-- What the end of the search guarantees. -/
def Ends (T : Bab.Search.Tree σ) (w : World X κ) (P : Minlp X) (sat : κ → X → Prop) (b0 : Box) (cut0 : ℚ) (opt : Opt) (g : Gaps) : End σ X κ → Prop
  | .done st => Inv T w P sat b0 cut0 opt (fun _ => False) st ∧ (T.inside st.tree = [] ∨ closeEnough g T st = true)
  | .limit st => Inv T w P sat b0 cut0 opt (fun _ => False) st
  | .stuck => ¬ Halts w opt b0
  | .crash => False

theorem loop_spec {T : Bab.Search.Tree σ} {ready : σ → Prop} (hT : Lawful T ready) (w : World X κ) (P : Minlp X) (sat : κ → X → Prop) (hr : Right w P sat) (ht : 0 ≤ w.tol)
    (b0 : Box) (cut0 : ℚ) (opt : Opt) (hf : Found w P sat opt.eps b0) (hd : 0 ≤ opt.decr) (h0 : 0 ≤ opt.eps) (h1 : opt.eps ≤ 1) (g : Gaps) :
    ∀ (n : ℕ) (st : St σ X κ), Inv T w P sat b0 cut0 opt (fun _ => False) st →
      Ends T w P sat b0 cut0 opt g (loop T w opt g n st) ∧ (mass T st ≤ n → ∀ st', loop T w opt g n st ≠ .limit st')
  | 0, st, hinv => by
    unfold loop
    by_cases h : (T.empty st.tree || closeEnough g T st) = true
    · rw [if_pos h]
      rw [Bool.or_eq_true, hT.empty] at h
      exact ⟨⟨hinv, h⟩, by simp⟩
    · rw [if_neg h]
      refine ⟨hinv, fun hm => ?_⟩
      have := mass_zero hinv (by omega)
      rw [Bool.or_eq_true, hT.empty] at h
      exact absurd (Or.inl this) h
  | n + 1, st, hinv => by
    unfold loop
    by_cases h : (T.empty st.tree || closeEnough g T st) = true
    · rw [if_pos h]
      rw [Bool.or_eq_true, hT.empty] at h
      exact ⟨⟨hinv, h⟩, by simp⟩
    · rw [if_neg h]
      rcases visit_spec hT w P sat hr ht b0 cut0 opt hf hd h0 h1 (w.picks n) st hinv with ⟨st', e1, e2, e3⟩ | ⟨e1, e2⟩
      · rw [e1]
        obtain ⟨i1, i2⟩ := loop_spec hT w P sat hr ht b0 cut0 opt hf hd h0 h1 g n st' e2
        refine ⟨i1, fun hm => i2 ?_⟩
        rcases e3 with e3 | e3
        · simp [mass, e3]
        · omega
      · rw [e1]
        exact ⟨e2, by simp⟩

theorem search_spec {T : Bab.Search.Tree σ} {ready : σ → Prop} (hT : Lawful T ready) (w : World X κ) (P : Minlp X) (sat : κ → X → Prop) (hr : Right w P sat) (ht : 0 ≤ w.tol)
    (b0 : Box) (cut0 : ℚ) (opt : Opt) (hf : Found w P sat opt.eps b0) (hd : 0 ≤ opt.decr) (h0 : 0 ≤ opt.eps) (h1 : opt.eps ≤ 1) (g : Gaps) (n : ℕ) (pool : List κ) (hpool : ∀ c ∈ pool, ∀ y, P.feas y → sat c y) :
    Ends T w P sat b0 cut0 opt g (search T w opt cut0 g n pool b0) ∧ (2 * (2 ^ width b0 - 1) ≤ n → ∀ st', search T w opt cut0 g n pool b0 ≠ .limit st') := by
  have hinv : Inv T w P sat b0 cut0 opt (InBox b0) (⟨T.init, [], pool, none, cut0, 0, []⟩ : St σ X κ) :=
    ⟨by simp [hT.init.1], fun y hy _ => Or.inr (Or.inr hy.2.1), rfl, hpool, by simp⟩
  unfold search
  rcases handle_spec hT w P sat hr ht b0 cut0 opt hf hd h0 h1 _ b0 0 hinv (fun v hv => hv) hT.init.2 with ⟨st', e1, e2, e3⟩ | ⟨e1, e2⟩
  · rw [start, e1]
    obtain ⟨i1, i2⟩ := loop_spec hT w P sat hr ht b0 cut0 opt hf hd h0 h1 g n st' e2
    refine ⟨i1, fun hn => i2 ?_⟩
    have : mass T (⟨T.init, [], pool, none, cut0, 0, []⟩ : St σ X κ) = 0 := by simp [mass, hT.init.1]
    omega
  · rw [start, e1]
    exact ⟨e2, by simp⟩

/-! ## C259 -/

/-- What is known of a solution `y` after a complete search. -/
def Settled (P : Minlp X) (opt : Opt) (cut0 : ℚ) (g : Gaps) (bound : ℚ) (inc : Option (ℚ × X)) (y : X) : Prop :=
  match inc with
  | none => cut0 ≤ P.obj y
  | some (v, _) => v - opt.decr ≤ P.obj y ∨ v - opt.eps * |v| ≤ P.obj y ∨ v - P.obj y < testGap g v bound

/-- **C259 (partial).**  Under the contract of the LP, the NLP and the cuts, with any tree that keeps the laws, any order, chooser, kind of cuts and gaps, a search that ends as complete has
* a best solution that is one (feasible, whole values, its value below the cutoff), or none;
* for each solution of the MINLP in the root box: it lies in a box dropped because the LP with valid rows came within 1/10 of the integers of a treated NLP, or it is not below the initial cutoff (no best
  solution), or not better than the best solution by more than the decrement, the cutoff increment of the checker, or the gap. -/
theorem qg_sound_partial {T : Bab.Search.Tree σ} {ready : σ → Prop} (hT : Lawful T ready) (w : World X κ) (P : Minlp X) (sat : κ → X → Prop) (hr : Right w P sat) (ht : 0 ≤ w.tol)
    (b0 : Box) (cut0 : ℚ) (opt : Opt) (hf : Found w P sat opt.eps b0) (hd : 0 ≤ opt.decr) (h0 : 0 ≤ opt.eps) (h1 : opt.eps ≤ 1) (g : Gaps) (n : ℕ) (pool : List κ) (hpool : ∀ c ∈ pool, ∀ y, P.feas y → sat c y)
    (st : St σ X κ) (h : search T w opt cut0 g n pool b0 = .done st) :
    (∀ v x, st.inc = some (v, x) → v = P.obj x ∧ Sol w.ints P b0 x ∧ v < cut0) ∧
    (∀ b ∈ st.lost, Repeats w P sat b) ∧
    ∀ y, Sol w.ints P b0 y → (∃ b ∈ st.lost, InBox b (w.ints y)) ∨ Settled P opt cut0 g (T.bound st.tree) st.inc y := by
  have hs := (search_spec hT w P sat hr ht b0 cut0 opt hf hd h0 h1 g n pool hpool).1
  rw [h] at hs
  obtain ⟨hinv, hend⟩ := hs
  refine ⟨fun v x hx => ?_, fun b hb => (hinv.lost b hb).repeats, fun y hy => ?_⟩
  · have := hinv.inc
    simp only [IncOK, hx] at this
    exact this.2
  · by_cases hlt : P.obj y < thr opt cut0 st.inc
    · rcases hinv.cover y hy hlt with ⟨z, hz, ho⟩ | hl | hf
      · right
        rcases hend with he | he
        · rw [he] at hz; exact absurd hz (by simp)
        · unfold closeEnough at he
          have e1 := hT.bound st.tree z hz
          have e2 := open_bound (hinv.nodes z hz) hy ho
          cases hi : st.inc with
          | none => rw [hi] at he; simp at he
          | some e =>
            obtain ⟨v, x⟩ := e
            rw [hi] at he
            simp only [decide_eq_true_eq] at he
            right; right
            linarith
      · exact Or.inl hl
      · exact hf.elim
    · right
      cases hi : st.inc with
      | none => rw [hi] at hlt; exact not_lt.mp hlt
      | some e =>
        obtain ⟨v, x⟩ := e
        rw [hi] at hlt
        rcases min_le_iff.mp (not_lt.mp hlt) with h' | h'
        · exact Or.inl h'
        · exact Or.inr (Or.inl h')

/-- **C259.**  In a complete search the cutoff of the LP that made a box be dropped is not below the value under which solutions are still looked for at the end. -/
theorem qg_lost {T : Bab.Search.Tree σ} {ready : σ → Prop} (hT : Lawful T ready) (w : World X κ) (P : Minlp X) (sat : κ → X → Prop) (hr : Right w P sat) (ht : 0 ≤ w.tol)
    (b0 : Box) (cut0 : ℚ) (opt : Opt) (hf : Found w P sat opt.eps b0) (hd : 0 ≤ opt.decr) (h0 : 0 ≤ opt.eps) (h1 : opt.eps ≤ 1) (g : Gaps) (n : ℕ) (pool : List κ) (hpool : ∀ c ∈ pool, ∀ y, P.feas y → sat c y)
    (st : St σ X κ) (h : search T w opt cut0 g n pool b0 = .done st) : ∀ b ∈ st.lost, RepeatsAt w P sat (thr opt cut0 st.inc) b := by
  have hs := (search_spec hT w P sat hr ht b0 cut0 opt hf hd h0 h1 g n pool hpool).1
  rw [h] at hs
  exact hs.1.lost

theorem qg_halts {T : Bab.Search.Tree σ} {ready : σ → Prop} (hT : Lawful T ready) (w : World X κ) (P : Minlp X) (sat : κ → X → Prop) (hr : Right w P sat) (ht : 0 ≤ w.tol)
    (b0 : Box) (cut0 : ℚ) (opt : Opt) (hf : Found w P sat opt.eps b0) (hd : 0 ≤ opt.decr) (h0 : 0 ≤ opt.eps) (h1 : opt.eps ≤ 1) (g : Gaps) (n : ℕ) (pool : List κ) (hpool : ∀ c ∈ pool, ∀ y, P.feas y → sat c y)
    (hm : Halts w opt b0) (hn : 2 * (2 ^ width b0 - 1) ≤ n) : ∃ st, search T w opt cut0 g n pool b0 = .done st := by
  obtain ⟨hs, hl⟩ := search_spec hT w P sat hr ht b0 cut0 opt hf hd h0 h1 g n pool hpool
  cases hc : search T w opt cut0 g n pool b0 with
  | done st => exact ⟨st, rfl⟩
  | limit st => exact absurd hc (hl hn st)
  | stuck =>
    rw [hc] at hs
    exact absurd hm hs
  | crash => rw [hc] at hs; exact hs.elim

/-- **C259.**  The search is finite: if the LP never proposes treated whole values again, every call of the checker ends after at most as many passes as the root box has whole points, and the
search after at most `2 (2^W - 1)` nodes, `W` the sum of the widths of the integer variables.  The tree never fails. -/
theorem qg_finite {T : Bab.Search.Tree σ} {ready : σ → Prop} (hT : Lawful T ready) (w : World X κ) (P : Minlp X) (sat : κ → X → Prop) (hr : Right w P sat) (ht : 0 ≤ w.tol)
    (b0 : Box) (cut0 : ℚ) (opt : Opt) (hf : Found w P sat opt.eps b0) (hd : 0 ≤ opt.decr) (h0 : 0 ≤ opt.eps) (h1 : opt.eps ≤ 1) (g : Gaps) (n : ℕ) (pool : List κ) (hpool : ∀ c ∈ pool, ∀ y, P.feas y → sat c y)
    (hm : Moves w) (hp : (b0.map (fun p => (p.2 - p.1 + 1).toNat)).prod ≤ opt.passes) (hn : 2 * (2 ^ width b0 - 1) ≤ n) :
    ∃ st, search T w opt cut0 g n pool b0 = .done st := by
  rw [← assign_length] at hp
  exact qg_halts hT w P sat hr ht b0 cut0 opt hf hd h0 h1 g n pool hpool (halts_of_moves h0 hm hp) hn

/-- **C259.**  It is also finite when the LP does propose treated whole values again (as with relaxed cuts), if the answers of LP and NLP do not depend on the past and the integer tolerance is at most 1/10: every call
of the checker ends after at most two passes for each whole point of the root box and one more. -/
theorem qg_finite_again {T : Bab.Search.Tree σ} {ready : σ → Prop} (hT : Lawful T ready) (w : World X κ) (P : Minlp X) (sat : κ → X → Prop) (hr : Right w P sat) (ht : 0 ≤ w.tol)
    (b0 : Box) (cut0 : ℚ) (opt : Opt) (hf : Found w P sat opt.eps b0) (hd : 0 ≤ opt.decr) (h0 : 0 ≤ opt.eps) (h1 : opt.eps ≤ 1) (g : Gaps) (n : ℕ) (pool : List κ) (hpool : ∀ c ∈ pool, ∀ y, P.feas y → sat c y)
    (hm : Memoryless w) (ht1 : w.tol ≤ 1 / 10) (hp : 2 * (b0.map (fun p => (p.2 - p.1 + 1).toNat)).prod + 1 ≤ opt.passes) (hn : 2 * (2 ^ width b0 - 1) ≤ n) :
    ∃ st, search T w opt cut0 g n pool b0 = .done st := by
  rw [← assign_length] at hp
  exact qg_halts hT w P sat hr ht b0 cut0 opt hf hd h0 h1 g n pool hpool (halts_of_memoryless h0 hm ht1 hr.nlpInts hp) hn

/-- **C259.**  A search stopped at the node limit: its best solution is one, and every solution is in a box dropped because of a repetition, at least the bound of the tree, or settled. -/
theorem qg_limit {T : Bab.Search.Tree σ} {ready : σ → Prop} (hT : Lawful T ready) (w : World X κ) (P : Minlp X) (sat : κ → X → Prop) (hr : Right w P sat) (ht : 0 ≤ w.tol)
    (b0 : Box) (cut0 : ℚ) (opt : Opt) (hf : Found w P sat opt.eps b0) (hd : 0 ≤ opt.decr) (h0 : 0 ≤ opt.eps) (h1 : opt.eps ≤ 1) (g : Gaps) (n : ℕ) (pool : List κ) (hpool : ∀ c ∈ pool, ∀ y, P.feas y → sat c y)
    (st : St σ X κ) (h : search T w opt cut0 g n pool b0 = .limit st) :
    (∀ v x, st.inc = some (v, x) → v = P.obj x ∧ Sol w.ints P b0 x ∧ v < cut0) ∧
    ∀ y, Sol w.ints P b0 y → (∃ b ∈ st.lost, InBox b (w.ints y)) ∨ T.bound st.tree ≤ P.obj y ∨
      (∀ v x, st.inc = some (v, x) → v - opt.decr ≤ P.obj y ∨ v - opt.eps * |v| ≤ P.obj y) ∧ (st.inc = none → cut0 ≤ P.obj y) := by
  have hinv := (search_spec hT w P sat hr ht b0 cut0 opt hf hd h0 h1 g n pool hpool).1
  rw [h] at hinv
  change Inv T w P sat b0 cut0 opt (fun _ => False) st at hinv
  refine ⟨fun v x hx => ?_, fun y hy => ?_⟩
  · have := hinv.inc
    simp only [IncOK, hx] at this
    exact this.2
  · by_cases hlt : P.obj y < thr opt cut0 st.inc
    · rcases hinv.cover y hy hlt with ⟨z, hz, ho⟩ | hl | hf
      · exact Or.inr (Or.inl ((hT.bound st.tree z hz).trans (open_bound (hinv.nodes z hz) hy ho)))
      · exact Or.inl hl
      · exact hf.elim
    · right; right
      refine ⟨fun v x hx => ?_, fun hx => ?_⟩
      · rw [hx] at hlt
        exact min_le_iff.mp (not_lt.mp hlt)
      · rw [hx] at hlt
        exact not_lt.mp hlt

/-- **C260.**  If moreover the LP with valid rows never comes within 1/10 of the integers of a treated NLP, and decrement, increment and gaps are zero, the search ends with an optimal solution, or with none and
there is none below the cutoff. -/
theorem qg_optimal {T : Bab.Search.Tree σ} {ready : σ → Prop} (hT : Lawful T ready) (w : World X κ) (P : Minlp X) (sat : κ → X → Prop) (hr : Right w P sat) (ht : 0 ≤ w.tol)
    (b0 : Box) (hf : Found w P sat 0 b0) (cut0 : ℚ) (maxOa : ℕ) (oaType : Bool) (passes : ℕ) (n : ℕ) (pool : List κ) (hpool : ∀ c ∈ pool, ∀ y, P.feas y → sat c y)
    (hm : Moves w) (hfar : ∀ b, ¬ Repeats w P sat b) (hp : (b0.map (fun p => (p.2 - p.1 + 1).toNat)).prod ≤ passes) (hn : 2 * (2 ^ width b0 - 1) ≤ n) :
    ∃ st, search T w ⟨0, 0, maxOa, oaType, passes⟩ cut0 ⟨0, 0⟩ n pool b0 = .done st ∧ st.lost = [] ∧
      ((∃ x, st.inc = some (P.obj x, x) ∧ Sol w.ints P b0 x ∧ P.obj x < cut0 ∧ ∀ y, Sol w.ints P b0 y → P.obj x ≤ P.obj y) ∨
       (st.inc = none ∧ ∀ y, Sol w.ints P b0 y → cut0 ≤ P.obj y)) := by
  obtain ⟨st, hst⟩ := qg_finite hT w P sat hr ht b0 cut0 ⟨0, 0, maxOa, oaType, passes⟩ hf le_rfl le_rfl zero_le_one ⟨0, 0⟩ n pool hpool hm hp hn
  obtain ⟨e1, e2, e3⟩ := qg_sound_partial hT w P sat hr ht b0 cut0 ⟨0, 0, maxOa, oaType, passes⟩ hf le_rfl le_rfl zero_le_one ⟨0, 0⟩ n pool hpool st hst
  have hl : st.lost = [] := by
    rw [List.eq_nil_iff_forall_not_mem]
    exact fun b hb => hfar b (e2 b hb)
  refine ⟨st, hst, hl, ?_⟩
  cases hi : st.inc with
  | none =>
    right
    refine ⟨rfl, fun y hy => ?_⟩
    rcases e3 y hy with ⟨b, hb, -⟩ | h'
    · rw [hl] at hb; exact absurd hb (by simp)
    · rw [hi] at h'; exact h'
  | some e =>
    obtain ⟨v, x⟩ := e
    obtain ⟨rfl, a2, a3⟩ := e1 v x hi
    refine Or.inl ⟨x, rfl, a2, a3, fun y hy => ?_⟩
    rcases e3 y hy with ⟨b, hb, -⟩ | h'
    · rw [hl] at hb; exact absurd hb (by simp)
    · rw [hi] at h'
      simp only [Settled, testGap, sub_zero, zero_mul, mul_zero, max_self] at h'
      rcases h' with h' | h' | h'
      · exact h'
      · exact h'
      · linarith

/-! ## Concrete searches -/

/-- Maximise one integer variable `y ≥ 0` with `y^2 ≤ L`; the only cut is the tangent of `y^2 ≤ L` at 3, that is `6 y ≤ L + 9`. -/
def exMinlp (L : ℚ) : Minlp ℚ := ⟨fun y => 0 ≤ y ∧ y ^ 2 ≤ L, fun y => -y⟩

def exSat (L : ℚ) (_ : Unit) (y : ℚ) : Prop := 6 * y ≤ L + 9

/-- The largest value the LP allows. -/
def exTop (L : ℚ) (hi : ℤ) (rows : List Unit) : ℚ := if rows.isEmpty then (hi : ℚ) else min (hi : ℚ) ((L + 9) / 6)

def exWorld (L : ℚ) (ex : List Unit := []) (hs : Option (ℚ × ℚ) := none) (q : Option (Option (ℚ × ℚ)) := none) : World ℚ Unit where
  ints := fun x => [x]
  lp := fun b rows _ => match b with
    | [(lo, hi)] => ⟨decide ((lo : ℚ) ≤ exTop L hi rows) && decide (0 ≤ exTop L hi rows), false, -exTop L hi rows, exTop L hi rows⟩
    | _ => ⟨false, false, 0, 0⟩
  nlp := fun x => ⟨decide (0 ≤ ((round x : ℤ) : ℚ)) && decide (((round x : ℤ) : ℚ) ^ 2 ≤ L), -((round x : ℤ) : ℚ), ((round x : ℤ) : ℚ)⟩
  oa := fun _ _ => [()]
  benders := fun _ => [()]
  extra := fun _ _ => ex
  heur := fun _ _ _ => hs
  quit := fun _ _ _ => q
  tol := 1 / 10 ^ 6
  choose := fun _ => 0
  upFirst := fun _ => false
  guess := fun _ => 0
  picks := fun _ _ => 0

theorem inBox_one (lo hi : ℤ) (y : ℚ) : InBox [(lo, hi)] [y] ↔ (lo : ℚ) ≤ y ∧ y ≤ hi := by
  constructor
  · intro h; exact h.2 0 (lo, hi) y rfl rfl
  · intro h
    refine ⟨rfl, fun i p a hp ha => ?_⟩
    cases i with
    | zero => simp at hp ha; subst hp; subst ha; exact h
    | succ i => simp at hp

theorem exTop_le (L : ℚ) (hi : ℤ) (rows : List Unit) : exTop L hi rows ≤ hi := by
  unfold exTop; split_ifs
  · exact le_rfl
  · exact min_le_left _ _

theorem le_exTop (L : ℚ) (hi : ℤ) (rows : List Unit) (y : ℚ) (h1 : y ≤ hi) (h2 : ∀ c ∈ rows, exSat L c y) : y ≤ exTop L hi rows := by
  unfold exTop
  cases rows with
  | nil => exact h1
  | cons c r =>
    have := h2 c (by simp)
    unfold exSat at this
    exact le_min h1 (by linarith)

theorem ex_sat (L y : ℚ) (h : (exMinlp L).feas y) (c : Unit) : exSat L c y := by
  have h2 : y ^ 2 ≤ L := h.2
  unfold exSat
  nlinarith [sq_nonneg (y - 3)]

/-- The example keeps the contract. -/
theorem ex_right (L : ℚ) (ex : List Unit := []) : Right (exWorld L ex) (exMinlp L) (exSat L) where
  lpNone := by
    intro b rows v h y hf hb hc
    match b, h, hb with
    | [], _, hb => simp [InBox, exWorld] at hb
    | _ :: _ :: _, _, hb => simp [InBox, exWorld] at hb
    | [(lo, hi)], h, hb =>
      obtain ⟨h1, h2⟩ := (inBox_one lo hi y).mp hb
      have h3 := le_exTop L hi rows y h2 hc
      exfalso
      apply h
      simp only [exWorld, Bool.and_eq_true, decide_eq_true_eq, and_true]
      exact ⟨h1.trans h3, hf.1.trans h3⟩
  lpBound := by
    intro b rows v h _ y hf hb hc
    match b, h, hb with
    | [], _, hb => simp [InBox, exWorld] at hb
    | _ :: _ :: _, _, hb => simp [InBox, exWorld] at hb
    | [(lo, hi)], h, hb => exact neg_le_neg (le_exTop L hi rows y ((inBox_one lo hi y).mp hb).2 hc)
  lpBox := by
    intro b rows v h _
    match b, h with
    | [], h => simp [exWorld] at h
    | _ :: _ :: _, h => simp [exWorld] at h
    | [(lo, hi)], h =>
      simp only [exWorld, Bool.and_eq_true, decide_eq_true_eq] at h
      exact (inBox_one lo hi _).mpr ⟨h.1, exTop_le _ _ _⟩
  oa := fun _ y hy c _ => ex_sat L y hy c
  benders := fun _ y hy c _ => ex_sat L y hy c
  extra := fun _ _ _ c _ y hy => ex_sat L y hy c
  nlpInts := fun _ => rfl
  nlpOpt := by
    intro x h
    simp only [exWorld, Bool.and_eq_true, decide_eq_true_eq] at h
    exact ⟨h, rfl⟩

/-- For `L = 6` the cut is `y ≤ 5/2`: below the cutoff the LP stays 1/10 away from treated values. -/
theorem ex_gap (b : Box) (rows : List Unit) (v x : ℚ) (ht : Treated (exWorld 6) rows v x) (hb : Below (exWorld 6) b rows v) :
    ∃ t, (exWorld 6).ints ((exWorld 6).lp b rows v).pt = [t] ∧ 1 / 10 < |((round x : ℤ) : ℚ) - t| := by
  match b, hb with
  | [], hb => simp [Below, exWorld] at hb
  | _ :: _ :: _, hb => simp [Below, exWorld] at hb
  | [(lo, hi)], hb =>
    refine ⟨exTop 6 hi rows, rfl, ?_⟩
    have hrow : () ∈ rows := by
      rcases ht.2 with h | h
      · exact h () (by simp [exWorld])
      · exact h () (by simp [exWorld])
    have htop : exTop 6 hi rows = min (hi : ℚ) (5 / 2) := by
      unfold exTop
      cases rows with
      | nil => simp at hrow
      | cons c r => norm_num
    obtain ⟨h1, -, h3⟩ := hb
    simp only [exWorld, Bool.and_eq_true, decide_eq_true_eq] at h1 h3
    have hv := ht.1
    simp only [exWorld, Bool.and_eq_true, decide_eq_true_eq] at hv
    rw [htop] at h1 h3 ⊢
    generalize round x = a at hv ⊢
    by_contra hcon
    rw [not_lt, abs_le] at hcon
    rcases le_or_gt (hi : ℚ) (5 / 2) with hh | hh
    · rw [min_eq_left hh] at h1 h3 hcon
      have e : a = hi := by
        have e1 : ((a - hi : ℤ) : ℚ) < 1 := by push_cast; linarith [hcon.2]
        have e2 : (-1 : ℚ) < ((a - hi : ℤ) : ℚ) := by push_cast; linarith [hcon.1]
        have e1' : a - hi < 1 := by exact_mod_cast e1
        have e2' : -1 < a - hi := by exact_mod_cast e2
        omega
      subst e
      have h4 : (a : ℚ) ≤ 2 := by
        have : (a : ℚ) < 3 := by linarith
        have : a < 3 := by exact_mod_cast this
        have : a ≤ 2 := by omega
        exact_mod_cast this
      have := hv ⟨h1.2, by nlinarith [h1.2]⟩
      linarith
    · rw [min_eq_right hh.le] at hcon
      have e1 : (a : ℚ) < 3 := by linarith [hcon.2]
      have e2 : (2 : ℚ) < a := by linarith [hcon.1]
      have e1' : a < 3 := by exact_mod_cast e1
      have e2' : 2 < a := by exact_mod_cast e2
      omega

theorem ex_far (b : Box) : ¬ Repeats (exWorld 6) (exMinlp 6) (exSat 6) b := by
  rintro ⟨rows, v, x, -, h1, h2, h3⟩
  obtain ⟨t, e1, e2⟩ := ex_gap b rows v x h1 h2
  rw [e1] at h3
  have := h3 0 ((round x : ℤ) : ℚ) t rfl rfl
  linarith

theorem ex_moves : Moves (exWorld 6) := by
  intro b rows v x h1 h2 _ h4 he
  obtain ⟨t, e1, e2⟩ := ex_gap b rows v x h1 h2
  rw [e1] at h4 he
  obtain ⟨z, hz⟩ := h4 t (by simp)
  have hr : round t = round x := by simpa [exWorld] using he
  have h5 : |t - round t| ≤ 1 / 10 ^ 6 := (round_le t z).trans hz
  rw [hr, abs_sub_comm] at h5
  norm_num at h5
  linarith

theorem ex_found : Found (exWorld 6) (exMinlp 6) (exSat 6) 0 [(0, 3)] :=
  ⟨fun b rows v u x h => by simp [exWorld] at h, fun b rows v s _ h => by simp [exWorld] at h⟩

/-- The hypotheses of `qg_optimal` are met, with both kinds of trees and cuts. -/
example (oaType stop : Bool) (maxOa : ℕ) (cut0 : ℚ) :
    (∃ st, search (heapTree (10 ^ 50)) (exWorld 6) ⟨0, 0, maxOa, oaType, 4⟩ cut0 ⟨0, 0⟩ 14 [] [(0, 3)] = .done st) ∧
    (∃ st, search (diveTree stop (10 ^ 50)) (exWorld 6) ⟨0, 0, maxOa, oaType, 4⟩ cut0 ⟨0, 0⟩ 14 [] [(0, 3)] = .done st) := by
  constructor
  · obtain ⟨st, h, -⟩ := qg_optimal (heapTree_lawful (10 ^ 50)) (exWorld 6) (exMinlp 6) (exSat 6) (ex_right 6) (by norm_num [exWorld]) [(0, 3)] ex_found cut0 maxOa oaType 4 14 [] (by simp)
      ex_moves ex_far (by decide) (by decide)
    exact ⟨st, h⟩
  · obtain ⟨st, h, -⟩ := qg_optimal (diveTree_lawful stop (10 ^ 50)) (exWorld 6) (exMinlp 6) (exSat 6) (ex_right 6) (by norm_num [exWorld]) [(0, 3)] ex_found cut0 maxOa oaType 4 14 [] (by simp)
      ex_moves ex_far (by decide) (by decide)
    exact ⟨st, h⟩

/-- What can be seen of the end of a search: complete, the best solution, the boxes dropped because of a repetition. -/
def End.view {σ X κ : Type} : End σ X κ → Option (Bool × Option (ℚ × X) × List Box)
  | .done st => some (true, st.inc, st.lost)
  | .limit st => some (false, st.inc, st.lost)
  | _ => none

/-- The search for `L = 6`: 3 is cut off, the LP gives 5/2, and the branch `y ≤ 2` the solution 2. -/
example : (search (diveTree false (10 ^ 50)) (exWorld 6) ⟨0, 0, 100, true, 4⟩ (10 ^ 50) ⟨0, 0⟩ 14 [] [(0, 3)]).view = some (true, some (-2, 2), []) := by decide +kernel

/-- The same when another generator has found the cut before: the root LP gives 5/2 at once. -/
example : (search (heapTree (10 ^ 50)) (exWorld 6 [()]) ⟨0, 0, 100, true, 4⟩ (10 ^ 50) ⟨0, 0⟩ 14 [] [(0, 3)]).view = some (true, some (-2, 2), []) := by decide +kernel

/-- A heuristic hands over 1 at every node, which is taken at the root only. -/
example : Found (exWorld 6 [] (some (-1, 1))) (exMinlp 6) (exSat 6) 0 [(0, 3)] := by
  refine ⟨fun b rows v u x h => ?_, fun b rows v s _ h => by simp [exWorld] at h⟩
  simp only [exWorld, Option.some.injEq, Prod.mk.injEq] at h
  obtain ⟨rfl, rfl⟩ := h
  refine ⟨rfl, ⟨by norm_num, by norm_num⟩, (inBox_one 0 3 1).mpr ⟨by norm_num, by norm_num⟩, ?_⟩
  intro a ha
  simp only [exWorld, List.mem_singleton] at ha
  exact ⟨1, by rw [ha]; norm_num⟩

example : (search (diveTree false (10 ^ 50)) (exWorld 6 [] (some (-1, 1))) ⟨0, 0, 100, true, 4⟩ (10 ^ 50) ⟨0, 0⟩ 0 [] [(0, 3)]).view = some (false, some (-1, 1), []) := by decide +kernel

example : (search (diveTree false (10 ^ 50)) (exWorld 6 [] (some (-1, 1))) ⟨0, 0, 100, true, 4⟩ (10 ^ 50) ⟨0, 0⟩ 14 [] [(0, 3)]).view = some (true, some (-2, 2), []) := by decide +kernel

/-- A generator hands over 2 and gives the root up: the search is over at once. -/
example : (search (diveTree false (10 ^ 50)) (exWorld 6 [] none (some (some (-2, 2)))) ⟨0, 0, 100, true, 4⟩ (10 ^ 50) ⟨0, 0⟩ 0 [] [(0, 3)]).view = some (true, some (-2, 2), []) := by decide +kernel

/-- **C259 (refuted).** Maximise an integer `y` between 0 and 3 with `y^2 ≤ 87/10`: the LP gives 3, whose NLP is infeasible; with the tangent at 3 the LP gives 59/20, which is within 1/10 of 3.  The
checker takes this for a repetition and drops the whole problem: the search ends as complete without solution, although 2 is one and the contract is kept. -/
theorem qg_repeat_loses : Right (exWorld (87 / 10)) (exMinlp (87 / 10)) (exSat (87 / 10)) ∧
    (search (diveTree false (10 ^ 50)) (exWorld (87 / 10)) ⟨0, 0, 100, true, 4⟩ (10 ^ 50) ⟨0, 0⟩ 14 [] [(0, 3)]).view = some (true, none, [[(0, 3)]]) ∧
    Sol (exWorld (87 / 10)).ints (exMinlp (87 / 10)) [(0, 3)] 2 := by
  refine ⟨ex_right _, by decide +kernel, ⟨by norm_num, by norm_num⟩, (inBox_one 0 3 2).mpr ⟨by norm_num, by norm_num⟩, ?_⟩
  intro a ha
  simp only [exWorld, List.mem_singleton] at ha
  exact ⟨2, by rw [ha]; norm_num⟩

end Verif.Dec.Qg

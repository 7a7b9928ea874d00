import Mathlib.Data.Rat.Lemmas
import Mathlib.Algebra.Order.Field.Rat
import Mathlib.Tactic.NormNum
import Mathlib.Tactic.Linarith
/-! # C101: senses, right-hand sides and ranges of the rows

src/Interfaces/BonOsiTMINLPInterface.cpp: `setModel` 500-513, `freeCachedRowRim` 798-816, `getNumRows` 1107-1111, `extractSenseRhsAndRange` 1136-1150, `getRowSense`
1161-1168, `getRightHandSide` 1178-1185, `getRowRange` 1195-1202, `applyRowCuts` 2593-2605, `use` 3119-3123; src/Interfaces/BonOsiTMINLPInterface.hpp: `deleteRows`
689-694, `applyCuts` 1026-1032, `applyRowCuts` 1039-1044, `applyRowCut` 1125-1129; src/Interfaces/BonTMINLP2TNLP.hpp: `addCuts` 372-380, `removeCuts` 383-385;
src/Algorithms/QuadCuts/BonTMINLP2Quad.cpp: bounds of rows in `addCuts` 348-445 and `removeCuts` 448-483.

Simplifications: of a cut only its bounds are kept; numbers are exact; the effect of `removeCuts` on the bounds is given as a list operation (its loops are modelled
in `Verif.Quad.HModel`); `convertBoundToSense` is code of Osi, taken from its documentation. -/
namespace Verif.Itf.Rows

/-- Senses of a row (BonOsiTMINLPInterface.cpp:1152-1159). -/
inductive Sense
  | L | E | G | R | N
  deriving DecidableEq, Repr

/-- Bounds of a row. -/
structure Row where
  lb : ℚ
  ub : ℚ
  deriving DecidableEq, Repr

/-- `OsiSolverInterface::convertBoundToSense`, called at BonOsiTMINLPInterface.cpp:1148: sense, right-hand side, range; `inf` = `getInfinity()`. -/
def conv (inf : ℚ) (r : Row) : Sense × ℚ × ℚ :=
  if -inf < r.lb then
    if r.ub < inf then (if r.ub = r.lb then (.E, r.ub, 0) else (.R, r.ub, r.ub - r.lb)) else (.G, r.lb, 0)
  else if r.ub < inf then (.L, r.ub, 0) else (.N, 0, 0)

/-- The interface: `quad` = `problem_` is a `TMINLP2TNLPQuadCuts`, `base` = rows of the TMINLP, `rows` = `g_l_`, `g_u_` of `problem_`, and the three cached arrays
(`none` = NULL). -/
structure S where
  quad : Bool
  base : ℕ
  rows : List Row
  sense : Option (List Sense)
  rhs : Option (List ℚ)
  range : Option (List ℚ)
  deriving DecidableEq, Repr

/-- What a call gives: nothing, a pointer (`none` = NULL) or an exception. -/
inductive Out
  | done
  | senses (l : Option (List Sense))
  | nums (l : Option (List ℚ))
  | thrown
  deriving DecidableEq, Repr

/-- The calls: the three queries, `applyRowCuts` (both overloads), `applyCuts` (quadratic cuts of a `Cuts`, row cuts, number of column cuts), `deleteRows`, the
protected `applyRowCut`, `setModel` with the rows of the new model and `use` with a new problem (rows, rows of its TMINLP, quadratic or not). -/
inductive Op
  | getSense | getRhs | getRange
  | applyRows (cs : List Row)
  | applyCuts (quads rows : List Row) (cols : ℕ)
  | delete (idx : List ℕ)
  | applyOne (c : Row)
  | setModel (rs : List Row)
  | use (quad : Bool) (base : ℕ) (rs : List Row)
  deriving DecidableEq, Repr

/-- `freeCachedRowRim` (BonOsiTMINLPInterface.cpp:798-816). -/
def free (s : S) : S := { s with sense := none, rhs := none, range := none }

/-- `extractSenseRhsAndRange` (BonOsiTMINLPInterface.cpp:1136-1150); `none` = failed assertion of line 1138. -/
def extract (dbg : Bool) (inf : ℚ) (s : S) : Option S :=
  if dbg ∧ ¬ (s.sense = none ∧ s.rhs = none ∧ s.range = none) then none
  else if s.rows = [] then some s
  else
    let ds := s.rows.map (conv inf)
    some { s with sense := some (ds.map (·.1)), rhs := some (ds.map (·.2.1)), range := some (ds.map (·.2.2)) }

/-- Rows left by `removeCuts` (BonTMINLP2Quad.cpp:471-482): those at positions not listed, in their order. -/
def keep (idx : List ℕ) : ℕ → List Row → List Row
  | _, [] => []
  | k, r :: rs => if k ∈ idx then keep idx (k + 1) rs else r :: keep idx (k + 1) rs

/-- `removeCuts` of the quadratic problem is defined: positions of cuts, none twice (BonTMINLP2Quad.cpp:453-458: the row at a position given twice is NULL). -/
def canRemove (s : S) (idx : List ℕ) : Prop := idx.Nodup ∧ ∀ i ∈ idx, s.base ≤ i ∧ i < s.rows.length

instance (s : S) (idx : List ℕ) : Decidable (canRemove s idx) := inferInstanceAs (Decidable (_ ∧ _))

/-- One call; `none` = undefined behaviour or failed assertion. -/
def step (dbg : Bool) (inf : ℚ) (s : S) : Op → Option (S × Out)
  | .getSense => if s.sense = none then (extract dbg inf s).map fun t => (t, .senses t.sense) else some (s, .senses s.sense)
  | .getRhs => if s.rhs = none then (extract dbg inf s).map fun t => (t, .nums t.rhs) else some (s, .nums s.rhs)
  | .getRange => if s.range = none then (extract dbg inf s).map fun t => (t, .nums t.range) else some (s, .nums s.range)
  | .applyRows cs =>
    let t := if cs = [] then s else free s
    if s.quad then some ({ t with rows := s.rows ++ cs }, .done)
    else if cs = [] then some (t, .done) else some (t, .thrown)
  | .applyCuts qs rs cols =>
    let t := free s
    if s.quad then (if dbg ∧ cols ≠ 0 then none else some ({ t with rows := s.rows ++ qs ++ rs }, .done))
    else if rs = [] ∧ cols = 0 then some (t, .done) else some (t, .thrown)
  | .delete idx =>
    if idx = [] then some (s, .done)
    else if s.quad then (if canRemove s idx then some ({ free s with rows := keep idx 0 s.rows }, .done) else none)
    else some (free s, .thrown)
  | .applyOne c => if s.quad then some ({ s with rows := s.rows ++ [c] }, .done) else some (s, .thrown)
  | .setModel rs => some ({ s with quad := false, base := rs.length, rows := rs }, .done)
  | .use q b rs => some ({ s with quad := q, base := b, rows := rs }, .done)

/-- A sequence of calls with their answers; the caller goes on after exceptions. -/
def run (dbg : Bool) (inf : ℚ) : S → List Op → Option (S × List Out)
  | s, [] => some (s, [])
  | s, o :: os => match step dbg inf s o with
    | none => none
    | some (t, a) => (run dbg inf t os).map fun r => (r.1, a :: r.2)

/-! ## Specification -/

/-- Values a row with this sense, right-hand side and range allows, as Osi documents them. -/
def Allows (se : Sense) (rhs range v : ℚ) : Prop :=
  match se with
  | .L => v ≤ rhs
  | .E => v = rhs
  | .G => rhs ≤ v
  | .R => rhs - range ≤ v ∧ v ≤ rhs
  | .N => True

/-- A sense, right-hand side and range describe a row: same values allowed, and the relations of BonOsiTMINLPInterface.cpp:1170-1194. -/
structure Describes (inf : ℚ) (r : Row) (se : Sense) (rhs range : ℚ) : Prop where
  values : ∀ v, -inf < v → v < inf → (Allows se rhs range v ↔ r.lb ≤ v ∧ v ≤ r.ub)
  less : se = .L → rhs = r.ub
  greater : se = .G → rhs = r.lb
  ranged : se = .R → rhs = r.ub ∧ range = r.ub - r.lb
  free : se = .N → rhs = 0
  noRange : se ≠ .R → range = 0

/-- One description for every row. -/
def AllDescribe (inf : ℚ) (rs : List Row) (a : List Sense) (b c : List ℚ) : Prop :=
  a.length = rs.length ∧ b.length = rs.length ∧ c.length = rs.length ∧
  ∀ (i : ℕ) r se x y, rs[i]? = some r → a[i]? = some se → b[i]? = some x → c[i]? = some y → Describes inf r se x y

/-- The sense of a row is determined by which of its bounds are infinite and whether they are equal. -/
theorem sense_iff (inf : ℚ) (r : Row) :
    ((conv inf r).1 = .N ↔ r.lb ≤ -inf ∧ inf ≤ r.ub) ∧ ((conv inf r).1 = .L ↔ r.lb ≤ -inf ∧ r.ub < inf) ∧
    ((conv inf r).1 = .G ↔ -inf < r.lb ∧ inf ≤ r.ub) ∧ ((conv inf r).1 = .E ↔ -inf < r.lb ∧ r.ub < inf ∧ r.lb = r.ub) ∧
    ((conv inf r).1 = .R ↔ -inf < r.lb ∧ r.ub < inf ∧ r.lb ≠ r.ub) := by
  have e : (r.lb = r.ub) = (r.ub = r.lb) := propext eq_comm
  unfold conv
  rw [ne_eq, e]
  split_ifs with h1 h2 h3 h4
  · rw [h3] at h2
    simp [h1, h2, h3]
  · simp [h1, h2, not_le.mpr, h3]
  · simp [h1, h2, not_le.mpr, not_lt.mp h2]
  · simp [h1, not_lt.mp h1, h4, not_le.mpr]
  · simp [h1, not_lt.mp h1, h4, not_lt.mp h4]

/-- What Osi computes describes the row. -/
theorem conv_describes (inf : ℚ) (r : Row) : Describes inf r (conv inf r).1 (conv inf r).2.1 (conv inf r).2.2 := by
  unfold conv
  by_cases h1 : -inf < r.lb
  · by_cases h2 : r.ub < inf
    · by_cases h3 : r.ub = r.lb
      · simp only [h1, h3, if_pos]
        rw [h3] at h2
        simp only [h2, if_true]
        exact ⟨fun v _ _ => ⟨fun h => by simp only [Allows] at h; rw [h, h3]; exact ⟨le_refl _, le_refl _⟩,
          fun h => le_antisymm (h3 ▸ h.2) h.1⟩, by simp, by simp, by simp, by simp, by simp⟩
      · simp only [h1, h2, h3, if_true, if_false]
        exact ⟨fun v _ _ => by simp [Allows], by simp, by simp, by simp, by simp, by simp⟩
    · simp only [h1, h2, if_true, if_false]
      exact ⟨fun v _ hv => ⟨fun h => ⟨h, le_of_lt (lt_of_lt_of_le hv (not_lt.mp h2))⟩, fun h => h.1⟩, by simp, by simp, by simp, by simp, by simp⟩
  · by_cases h2 : r.ub < inf
    · simp only [h1, h2, if_true, if_false]
      exact ⟨fun v hv _ => ⟨fun h => ⟨le_of_lt (lt_of_le_of_lt (not_lt.mp h1) hv), h⟩, fun h => h.2⟩, by simp, by simp, by simp, by simp, by simp⟩
    · simp only [h1, h2, if_false]
      exact ⟨fun v hl hu => ⟨fun _ => ⟨le_of_lt (lt_of_le_of_lt (not_lt.mp h1) hl), le_of_lt (lt_of_lt_of_le hu (not_lt.mp h2))⟩, fun _ => trivial⟩,
        by simp, by simp, by simp, by simp, by simp⟩

example : conv 1000 ⟨-1000, 5⟩ = (.L, 5, 0) ∧ conv 1000 ⟨2, 5⟩ = (.R, 5, 3) ∧ conv 1000 ⟨5, 5⟩ = (.E, 5, 0) ∧ conv 1000 ⟨2, 1000⟩ = (.G, 2, 0)
    ∧ conv 1000 ⟨-1000, 2000⟩ = (.N, 0, 0) := by decide +kernel

/-! ## The cache -/

/-- The three arrays come from one extraction, of `rs`; `none` = no extraction. -/
def Holds (inf : ℚ) (s : S) : Option (List Row) → Prop
  | none => s.sense = none ∧ s.rhs = none ∧ s.range = none
  | some rs => rs ≠ [] ∧ s.sense = some (rs.map fun r => (conv inf r).1) ∧ s.rhs = some (rs.map fun r => (conv inf r).2.1) ∧
      s.range = some (rs.map fun r => (conv inf r).2.2)

theorem holds_null (inf : ℚ) (s : S) (seen : Option (List Row)) (h : Holds inf s seen) :
    (s.sense = none ↔ seen = none) ∧ (s.rhs = none ↔ seen = none) ∧ (s.range = none ↔ seen = none) := by
  cases seen with
  | none => simp [h.1, h.2.1, h.2.2]
  | some rs => simp [h.2.1, h.2.2.1, h.2.2.2]

/-- The rows after a call, and whether it changes something that empties the cache; independent of the cache. -/
def rowsAfter (s : S) : Op → List Row
  | .applyRows cs | .applyCuts [] cs _ => if s.quad then s.rows ++ cs else s.rows
  | .applyCuts (q :: qs) rs _ => if s.quad then s.rows ++ (q :: qs) ++ rs else s.rows
  | .delete idx => if s.quad then keep idx 0 s.rows else s.rows
  | .applyOne c => if s.quad then s.rows ++ [c] else s.rows
  | .setModel rs | .use _ _ rs => rs
  | _ => s.rows

/-- The cache after a query. -/
def fill (s : S) : Option (List Row) → Option (List Row)
  | some rs => some rs
  | none => if s.rows = [] then none else some s.rows

/-- What the cache shows after a call: queries fill an empty cache, calls that change rows empty it, others leave it. -/
def seenAfter (s : S) (seen : Option (List Row)) : Op → Option (List Row)
  | .getSense | .getRhs | .getRange => fill s seen
  | .applyRows cs => if cs = [] then seen else none
  | .applyCuts _ _ _ => none
  | .delete idx => if idx = [] then seen else none
  | .applyOne _ | .setModel _ | .use _ _ _ => seen

theorem keep_nil (k : ℕ) (rs : List Row) : keep [] k rs = rs := by
  induction rs generalizing k with
  | nil => rfl
  | cons r rs ih => simp [keep, ih]

theorem extract_holds (dbg : Bool) (inf : ℚ) (s : S) (h : Holds inf s none) :
    ∃ t, extract dbg inf s = some t ∧ Holds inf t (if s.rows = [] then none else some s.rows) ∧ t.rows = s.rows ∧ t.quad = s.quad ∧ t.base = s.base := by
  obtain ⟨h1, h2, h3⟩ := h
  unfold extract
  rw [if_neg (by simp [h1, h2, h3])]
  by_cases hr : s.rows = []
  · rw [if_pos hr]
    exact ⟨s, rfl, by rw [if_pos hr]; exact ⟨h1, h2, h3⟩, rfl, rfl, rfl⟩
  · rw [if_neg hr]
    exact ⟨_, rfl, by rw [if_neg hr]; exact ⟨hr, by simp, by simp, by simp⟩, rfl, rfl, rfl⟩

/-- Exact effect of a call on rows and cache. -/
theorem step_exact (dbg : Bool) (inf : ℚ) (s t : S) (o : Op) (a : Out) (seen : Option (List Row)) (h : Holds inf s seen) (hs : step dbg inf s o = some (t, a)) :
    Holds inf t (seenAfter s seen o) ∧ t.rows = rowsAfter s o := by
  have q : ∀ (p : Prop) [Decidable p] (f : S → Out), (p ↔ seen = none) →
      (if p then (extract dbg inf s).map fun t => (t, f t) else some (s, f s)) = some (t, a) →
      Holds inf t (fill s seen) ∧ t.rows = s.rows := by
    intro p _ f hp he
    by_cases hpp : p
    · rw [if_pos hpp] at he
      have hn := hp.mp hpp
      subst hn
      obtain ⟨u, hu, hh, hr, _⟩ := extract_holds dbg inf s h
      rw [hu] at he
      simp only [Option.map_some, Option.some.injEq, Prod.mk.injEq] at he
      rw [← he.1]
      exact ⟨hh, hr⟩
    · rw [if_neg hpp] at he
      simp only [Option.some.injEq, Prod.mk.injEq] at he
      rw [← he.1]
      cases seen with
      | none => exact absurd (hp.mpr rfl) hpp
      | some rs => exact ⟨h, rfl⟩
  cases o with
  | getSense => exact q _ (fun t => .senses t.sense) (holds_null inf s seen h).1 hs
  | getRhs => exact q _ (fun t => .nums t.rhs) (holds_null inf s seen h).2.1 hs
  | getRange => exact q _ (fun t => .nums t.range) (holds_null inf s seen h).2.2 hs
  | applyRows cs =>
    simp only [step] at hs
    by_cases hc : cs = []
    · subst hc
      by_cases hq : s.quad <;> simp [hq] at hs <;> rw [← hs.1] <;> simp [seenAfter, rowsAfter, hq] <;> exact h
    · by_cases hq : s.quad <;> simp [hq, hc, free] at hs <;> rw [← hs.1] <;> simp [seenAfter, rowsAfter, hq, hc, Holds]
  | applyCuts qs rs cols =>
    simp only [step] at hs
    by_cases hq : s.quad
    · simp only [hq, if_true] at hs
      split at hs
      · cases hs
      · simp [free] at hs
        rw [← hs.1]
        cases qs <;> simp [seenAfter, rowsAfter, hq, Holds]
    · simp only [hq] at hs
      cases qs <;> by_cases hr : rs = [] ∧ cols = 0 <;> simp [hr, free] at hs <;> (try rw [← hs.1]) <;> simp [seenAfter, rowsAfter, hq, Holds]
  | delete idx =>
    simp only [step] at hs
    by_cases hi : idx = []
    · subst hi
      simp at hs
      rw [← hs.1]
      refine ⟨by simpa [seenAfter] using h, ?_⟩
      simp [rowsAfter, keep_nil]
    · by_cases hq : s.quad
      · simp only [hi, hq, if_true, if_false] at hs
        split at hs
        · simp [free] at hs
          rw [← hs.1]
          simp [seenAfter, rowsAfter, hq, hi, Holds]
        · cases hs
      · simp [hi, hq, free] at hs
        rw [← hs.1]
        simp [seenAfter, rowsAfter, hq, hi, Holds]
  | applyOne c =>
    simp only [step] at hs
    by_cases hq : s.quad <;> simp [hq] at hs <;> rw [← hs.1] <;> simp [seenAfter, rowsAfter, hq] <;> cases seen <;> exact h
  | setModel rs =>
    simp only [step, Option.some.injEq, Prod.mk.injEq] at hs
    rw [← hs.1]
    refine ⟨?_, rfl⟩
    cases seen <;> exact h
  | use q b rs =>
    simp only [step, Option.some.injEq, Prod.mk.injEq] at hs
    rw [← hs.1]
    refine ⟨?_, rfl⟩
    cases seen <;> exact h

/-- The calls that leave the cache alone though they change the rows. -/
def Op.keeps : Op → Prop
  | .applyOne _ | .setModel _ | .use _ _ _ => True
  | _ => False

/-- The cache, if filled, shows the current rows. -/
def Fresh (inf : ℚ) (s : S) : Prop := Holds inf s none ∨ Holds inf s (some s.rows)

theorem step_fresh (dbg : Bool) (inf : ℚ) (s t : S) (o : Op) (a : Out) (h : Fresh inf s) (ho : ¬ o.keeps) (hs : step dbg inf s o = some (t, a)) : Fresh inf t := by
  rcases h with h | h
  · obtain ⟨h1, h2⟩ := step_exact dbg inf s t o a none h hs
    cases o <;> simp [seenAfter, fill, Op.keeps] at h1 ho
    case applyRows => exact Or.inl h1
    case applyCuts => exact Or.inl h1
    case delete => exact Or.inl h1
    all_goals
      simp only [rowsAfter] at h2
      by_cases hr : s.rows = []
      · rw [if_pos hr] at h1
        exact Or.inl h1
      · rw [if_neg hr] at h1
        right
        rw [h2]
        exact h1
  · obtain ⟨h1, h2⟩ := step_exact dbg inf s t o a _ h hs
    cases o <;> simp [seenAfter, fill, Op.keeps] at h1 ho
    case applyRows cs =>
      by_cases hc : cs = []
      · rw [if_pos hc] at h1
        right
        rw [h2]
        simpa [rowsAfter, hc] using h1
      · rw [if_neg hc] at h1
        exact Or.inl h1
    case applyCuts => exact Or.inl h1
    case delete idx =>
      by_cases hc : idx = []
      · rw [if_pos hc] at h1
        right
        rw [h2]
        simpa [rowsAfter, hc, keep_nil] using h1
      · rw [if_neg hc] at h1
        exact Or.inl h1
    all_goals
      simp only [rowsAfter] at h2
      right
      rw [h2]
      exact h1

theorem run_fresh (dbg : Bool) (inf : ℚ) (os : List Op) : ∀ (s t : S) (as : List Out), Fresh inf s → (∀ o ∈ os, ¬ o.keeps) → run dbg inf s os = some (t, as) →
    Fresh inf t := by
  induction os with
  | nil =>
    intro s t as h _ hr
    simp only [run, Option.some.injEq, Prod.mk.injEq] at hr
    rw [← hr.1]
    exact h
  | cons o os ih =>
    intro s t as h ho hr
    simp only [run] at hr
    cases hst : step dbg inf s o with
    | none => simp [hst] at hr
    | some p =>
      obtain ⟨u, a⟩ := p
      simp only [hst] at hr
      cases hru : run dbg inf u os with
      | none => simp [hru] at hr
      | some p =>
        simp [hru] at hr
        refine ih u t p.2 (step_fresh dbg inf s u o a h (ho _ List.mem_cons_self) hst) (fun x hx => ho x (List.mem_cons_of_mem _ hx)) ?_
        rw [hru, ← hr.1]

/-- The three queries, at any point of a history in which the problem is not replaced, answer with arrays that describe the current rows (NULL if there are none). -/
theorem answers_partial (dbg : Bool) (inf : ℚ) (s t : S) (os : List Op) (as : List Out) (h : Holds inf s none) (ho : ∀ o ∈ os, ¬ o.keeps)
    (hr : run dbg inf s os = some (t, as)) :
    ∃ t1 t2 t3 a b c, step dbg inf t .getSense = some (t1, .senses a) ∧ step dbg inf t .getRhs = some (t2, .nums b) ∧
      step dbg inf t .getRange = some (t3, .nums c) ∧ t1.rows = t.rows ∧ t2.rows = t.rows ∧ t3.rows = t.rows ∧
      (a = none ↔ t.rows = []) ∧ (b = none ↔ t.rows = []) ∧ (c = none ↔ t.rows = []) ∧
      AllDescribe inf t.rows (a.getD []) (b.getD []) (c.getD []) := by
  have key : ∀ (rs : List Row), AllDescribe inf rs (rs.map fun r => (conv inf r).1) (rs.map fun r => (conv inf r).2.1) (rs.map fun r => (conv inf r).2.2) := by
    intro rs
    refine ⟨by simp, by simp, by simp, ?_⟩
    intro i r se x y h1 h2 h3 h4
    simp only [List.getElem?_map, h1, Option.map_some, Option.some.injEq] at h2 h3 h4
    rw [← h2, ← h3, ← h4]
    exact conv_describes inf r
  rcases run_fresh dbg inf os s t as (Or.inl h) ho hr with hf | hf
  · obtain ⟨u, hu, hh, hrw, _⟩ := extract_holds dbg inf t hf
    refine ⟨u, u, u, u.sense, u.rhs, u.range, ?_, ?_, ?_, hrw, hrw, hrw, ?_⟩
    · simp [step, hf.1, hu]
    · simp [step, hf.2.1, hu]
    · simp [step, hf.2.2, hu]
    by_cases he : t.rows = []
    · rw [if_pos he] at hh
      rw [hh.1, hh.2.1, hh.2.2]
      exact ⟨by simp [he], by simp [he], by simp [he], by rw [he]; exact key []⟩
    · rw [if_neg he] at hh
      rw [hh.2.1, hh.2.2.1, hh.2.2.2]
      exact ⟨by simp [he], by simp [he], by simp [he], key t.rows⟩
  · refine ⟨t, t, t, t.sense, t.rhs, t.range, ?_, ?_, ?_, rfl, rfl, rfl, ?_⟩
    · simp [step, hf.2.1]
    · simp [step, hf.2.2.1]
    · simp [step, hf.2.2.2]
    rw [hf.2.1, hf.2.2.1, hf.2.2.2]
    exact ⟨by simp [hf.1], by simp [hf.1], by simp [hf.1], key t.rows⟩

/-- The three arrays are always all there or all NULL, with any calls, so the assertion at the start of the extraction never fails: a call is undefined only by
positions that are no cuts, or with column cuts when assertions are compiled in. -/
theorem undefined_iff (dbg : Bool) (inf : ℚ) (s : S) (o : Op) (seen : Option (List Row)) (h : Holds inf s seen) :
    step dbg inf s o = none ↔ s.quad = true ∧ ((∃ idx, o = .delete idx ∧ idx ≠ [] ∧ ¬ (idx.Nodup ∧ ∀ i ∈ idx, s.base ≤ i ∧ i < s.rows.length)) ∨
      (dbg = true ∧ ∃ qs rs cols, o = .applyCuts qs rs cols ∧ cols ≠ 0)) := by
  have e : seen = none → extract dbg inf s ≠ none := by
    intro hn
    subst hn
    obtain ⟨u, hu, _⟩ := extract_holds dbg inf s h
    simp [hu]
  cases o with
  | getSense =>
    have hn := (holds_null inf s seen h).1
    by_cases hs : seen = none <;> simp [step, hn, hs]
    exact e hs
  | getRhs =>
    have hn := (holds_null inf s seen h).2.1
    by_cases hs : seen = none <;> simp [step, hn, hs]
    exact e hs
  | getRange =>
    have hn := (holds_null inf s seen h).2.2
    by_cases hs : seen = none <;> simp [step, hn, hs]
    exact e hs
  | applyRows cs => by_cases hq : s.quad <;> by_cases hc : cs = [] <;> simp [step, hq, hc]
  | applyCuts qs rs cols =>
    by_cases hq : s.quad
    · simp [step, hq]
    · by_cases hc : rs = [] ∧ cols = 0
      · simp [step, hq, hc]
      · simp only [step, hq]
        simp [hc]
  | delete idx =>
    by_cases hi : idx = []
    · simp [step, hi]
    · by_cases hq : s.quad
      · by_cases hc : canRemove s idx
        · simp only [step, hi, hq, if_true, if_false, hc]
          simp [hc.1]
          exact fun _ x hx => hc.2 x hx
        · simp only [step, hi, hq, if_true, if_false, hc]
          simp only [true_and, true_iff]
          exact Or.inl ⟨idx, rfl, hi, hc⟩
      · simp [step, hi, hq]
  | applyOne c => by_cases hq : s.quad <;> simp [step, hq]
  | setModel rs => simp [step]
  | use q b rs => simp [step]

/-- The cached arrays after any calls, replacements included, are those of one extraction. -/
theorem run_holds (dbg : Bool) (inf : ℚ) (os : List Op) : ∀ (s t : S) (as : List Out) (seen : Option (List Row)), Holds inf s seen → run dbg inf s os = some (t, as) →
    ∃ seen', Holds inf t seen' := by
  induction os with
  | nil =>
    intro s t as seen h hr
    simp only [run, Option.some.injEq, Prod.mk.injEq] at hr
    exact ⟨seen, hr.1 ▸ h⟩
  | cons o os ih =>
    intro s t as seen h hr
    simp only [run] at hr
    cases hst : step dbg inf s o with
    | none => simp [hst] at hr
    | some p =>
      obtain ⟨u, a⟩ := p
      simp only [hst] at hr
      cases hru : run dbg inf u os with
      | none => simp [hru] at hr
      | some p =>
        simp [hru] at hr
        refine ih u t p.2 _ (step_exact dbg inf s u o a seen h hst).1 ?_
        rw [hru, ← hr.1]

/-- An exception is thrown exactly when linear or column cuts are to be added to, or rows removed from, a problem that cannot change, and then the rows stay. -/
theorem thrown_iff (dbg : Bool) (inf : ℚ) (s t : S) (o : Op) (a : Out) (hs : step dbg inf s o = some (t, a)) :
    (a = .thrown ↔ s.quad = false ∧ ((∃ cs, o = .applyRows cs ∧ cs ≠ []) ∨ (∃ qs rs cols, o = .applyCuts qs rs cols ∧ (rs ≠ [] ∨ cols ≠ 0)) ∨
      (∃ idx, o = .delete idx ∧ idx ≠ []) ∨ ∃ c, o = .applyOne c)) ∧ (a = .thrown → t.rows = s.rows) := by
  have q : ∀ (p : Prop) [Decidable p] (f : S → Out), (∀ x, f x ≠ .thrown) →
      (if p then (extract dbg inf s).map fun t => (t, f t) else some (s, f s)) = some (t, a) → a ≠ .thrown := by
    intro p _ f hf he
    split at he
    · cases hx : extract dbg inf s with
      | none => simp [hx] at he
      | some u => simp [hx] at he; rw [← he.2]; exact hf u
    · simp at he; rw [← he.2]; exact hf s
  cases o with
  | getSense => have := q _ (fun t => .senses t.sense) (by simp) hs; simp [this]
  | getRhs => have := q _ (fun t => .nums t.rhs) (by simp) hs; simp [this]
  | getRange => have := q _ (fun t => .nums t.range) (by simp) hs; simp [this]
  | applyRows cs =>
    simp only [step] at hs
    by_cases hq : s.quad <;> by_cases hc : cs = [] <;> simp [hq, hc, free] at hs <;> rw [← hs.1, ← hs.2] <;> simp [hq, hc]
  | applyCuts qs rs cols =>
    simp only [step] at hs
    by_cases hq : s.quad
    · simp only [hq, if_true] at hs
      split at hs
      · cases hs
      · simp at hs
        rw [← hs.2]
        simp [hq]
    · simp only [hq] at hs
      by_cases hc : rs = [] ∧ cols = 0
      · simp [hc, free] at hs
        rw [← hs.2]
        simp [hc]
      · simp [hc, free] at hs
        rw [← hs.1, ← hs.2]
        simp [hq]
        tauto
  | delete idx =>
    simp only [step] at hs
    by_cases hi : idx = []
    · simp [hi] at hs
      rw [← hs.2]
      simp [hi]
    · by_cases hq : s.quad
      · simp only [hi, hq, if_true, if_false] at hs
        split at hs
        · simp at hs
          rw [← hs.2]
          simp [hq]
        · cases hs
      · simp [hi, hq, free] at hs
        rw [← hs.1, ← hs.2]
        simp [hq, hi]
  | applyOne c =>
    simp only [step] at hs
    by_cases hq : s.quad <;> simp [hq] at hs <;> rw [← hs.1, ← hs.2] <;> simp [hq]
  | setModel rs => simp [step] at hs; rw [← hs.2]; simp
  | use q b rs => simp [step] at hs; rw [← hs.2]; simp

/-- After `setModel` or `use` the queries still answer for the rows of the old problem. -/
theorem replaced_stale (dbg : Bool) (inf : ℚ) (s t : S) (o : Op) (a : Out) (h : Holds inf s (some s.rows)) (ho : ∃ rs, o = .setModel rs ∨ ∃ q b, o = .use q b rs)
    (hs : step dbg inf s o = some (t, a)) : step dbg inf t .getSense = some (t, .senses (some (s.rows.map fun r => (conv inf r).1))) := by
  have h1 := (step_exact dbg inf s t o a _ h hs).1
  obtain ⟨rs, ho | ⟨q, b, ho⟩⟩ := ho <;> subst ho <;> simp only [seenAfter] at h1 <;> simp [step, h1.2.1]

/-- So a new model with more rows than the old one: the arrays are too short for its rows. -/
theorem new_model_too_short (inf : ℚ) (q : Bool) :
    ∃ t a, run true inf ⟨q, 1, [⟨0, 0⟩], none, none, none⟩ [.getSense, .setModel [⟨0, 0⟩, ⟨1, 1⟩], .getSense] = some (t, a) ∧ t.rows.length = 2 ∧
      ∃ l, a.getLast? = some (.senses (some l)) ∧ l.length = 1 := by
  refine ⟨_, _, rfl, rfl, _, rfl, rfl⟩

/-- The protected `applyRowCut` leaves the cache as it is, unlike `applyRowCuts`. -/
theorem single_cut_stale (inf : ℚ) (c : Row) :
    ∃ t a, run true inf ⟨true, 1, [⟨0, 0⟩], none, none, none⟩ [.getRhs, .applyOne c, .getRhs] = some (t, a) ∧ t.rows.length = 2 ∧
      ∃ l, a.getLast? = some (.nums (some l)) ∧ l.length = 1 := by
  refine ⟨_, _, rfl, rfl, _, rfl, rfl⟩

/-- A problem that cannot take cuts throws for linear ones but silently drops the quadratic ones of a collection. -/
theorem quadratic_dropped (dbg : Bool) (inf : ℚ) (s : S) (hq : s.quad = false) (qs : List Row) :
    ∃ t, step dbg inf s (.applyCuts qs [] 0) = some (t, .done) ∧ t.rows = s.rows := by
  simp [step, hq, free]

/-- The rows kept are exactly those at positions not listed, in their order. -/
theorem keep_spec (idx : List ℕ) (rs : List Row) : ∀ k, keep idx k rs = ((rs.zipIdx k).filter fun p => p.2 ∉ idx).map (·.1) := by
  induction rs with
  | nil => intro k; rfl
  | cons r rs ih =>
    intro k
    simp only [keep, List.zipIdx_cons, List.filter_cons]
    by_cases h : k ∈ idx <;> simp [h, ih (k + 1)]

def exS : S := ⟨true, 1, [⟨0, 1000⟩], none, none, none⟩
/-- Query, add two cuts, query, remove the first of them, query: each answer is for the rows of its time. -/
example : (run true 1000 exS [.getSense, .applyRows [⟨-1000, 3⟩, ⟨2, 2⟩], .getRhs, .delete [1], .getSense, .getRange]).map (·.2) =
    some [.senses (some [.G]), .done, .nums (some [0, 3, 2]), .done, .senses (some [.G, .E]), .nums (some [0, 0])] := by decide +kernel
example : Holds 1000 exS none := ⟨rfl, rfl, rfl⟩
example : Op.keeps (.applyRows [⟨-1000, 3⟩]) = False := rfl
example : (run true 1000 ⟨false, 0, [], none, none, none⟩ [.getSense, .getRhs, .applyRows [⟨0, 1⟩]]).map (·.2) = some [.senses none, .nums none, .thrown] := by
  decide +kernel

/-- C101: with a new model the rows are its own, and rows can no longer be added. -/
theorem new_model_exact (dbg : Bool) (inf : ℚ) (s : S) (rs : List Row) (c : Row) : ∃ t, step dbg inf s (.setModel rs) = some (t, .done) ∧ t.rows = rs ∧ t.base = rs.length ∧
    ∃ u, step dbg inf t (.applyRows [c]) = some (u, .thrown) ∧ u.rows = rs :=
  ⟨_, rfl, rfl, rfl, _, rfl, rfl⟩

end Verif.Itf.Rows

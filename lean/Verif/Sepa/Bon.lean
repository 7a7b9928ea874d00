import Mathlib.Data.List.TakeWhile
import Verif.Sepa.Inner
/-!
# Model of the chord loop of the `Bonmin` variant of the inner approximation
(experimental/Separable/BonHeuristicInnerApproximation.cpp:409-476)

`p` is a list of `n` coordinates, so that the write `p[varInd]` can be out of range (`none`).  `marg` is 0 here.
-/
namespace Verif.Sepa

open Verif.Oa (act)

/-- A list of coordinates as a point. -/
def asPt (p : List ℚ) (i : ℕ) : ℚ := (p[i]?).getD 0

/-- Columns for the loop: bounds, and whether the variable is integer or binary. -/
structure BCol where
  lo : ℚ
  up : ℚ
  isInt : Bool

/-- First point (BonHeuristicInnerApproximation.cpp:414-415, 435-438). -/
def bFirst (c : BCol) : ℚ := if c.lo < -100000000 then 0 else c.lo

/-- Last point (BonHeuristicInnerApproximation.cpp:416, 425-427). -/
def bLast (c : BCol) : ℚ := if 100000000 < c.up then 0 else c.up

/-- Step (BonHeuristicInnerApproximation.cpp:429-433). -/
def bStep (nbAp : ℕ) (c : BCol) : ℚ :=
  if 100000000 < c.up ∨ c.lo < -100000000 ∨ c.isInt then 0 else (bLast c - c.lo) / nbAp

/-- The rows of one turn (BonHeuristicInnerApproximation.cpp:453-464): the loop ends at the first row not declared nonlinear;
`varInd` goes back to 0 at `n - 1`; `none` = write outside `p`, or an exception.  In turn `j` each row visited has
`nbG[i] = j - 1`, so the test `nbG[i] < nbAp - 1` holds in the turns `j ≤ nbAp - 1` and not in turn `nbAp`, which does
nothing. -/
def bTurn (pp : List ℚ) : List Row → ℕ → List ℚ → Option (List ICut × List ℚ)
  | [], _, p => some ([], p)
  | r :: rs, vi, p =>
    if r.nonlin then
      match inner 0 r (asPt p) (asPt pp), pp[if vi + 1 = p.length then 0 else vi]? with
      | .thrown, _ => none
      | _, none => none
      | .nothing, some v =>
        bTurn pp rs ((if vi + 1 = p.length then 0 else vi) + 1) (p.set (if vi + 1 = p.length then 0 else vi) v)
      | .cut c, some v =>
        match bTurn pp rs ((if vi + 1 = p.length then 0 else vi) + 1) (p.set (if vi + 1 = p.length then 0 else vi) v) with
        | some (cs, q) => some (c :: cs, q)
        | none => none
    else some ([], p)

/-- The turns (BonHeuristicInnerApproximation.cpp:444-465): `k` turns left, `pp` grows by the steps. -/
def bTurns (rows : List Row) (steps : List ℚ) : ℕ → List ℚ → List ℚ → Option (List ICut × List ℚ)
  | 0, _, p => some ([], p)
  | k + 1, pp, p =>
    match bTurn (List.zipWith (· + ·) pp steps) rows 0 p with
    | none => none
    | some (cs, q) =>
      match bTurns rows steps k (List.zipWith (· + ·) pp steps) q with
      | none => none
      | some (cs', q') => some (cs ++ cs', q')

/-- The last chords (BonHeuristicInnerApproximation.cpp:467-470). -/
def bLasts (p up : List ℚ) : List Row → Option (List ICut)
  | [] => some []
  | r :: rs =>
    if r.nonlin then
      match inner 0 r (asPt p) (asPt up) with
      | .thrown => none
      | .nothing => bLasts p up rs
      | .cut c => (bLasts p up rs).map (c :: ·)
    else some []

/-- The chord part of `extractInnerApproximation` (BonHeuristicInnerApproximation.cpp:409-476). -/
def bonCuts (cols : List BCol) (rows : List Row) (nbAp : ℕ) : Option (List ICut) :=
  match bTurns rows (cols.map (bStep nbAp)) (nbAp - 1) (cols.map bFirst) (cols.map bFirst) with
  | none => none
  | some (cs, p) => (bLasts p (cols.map bLast) rows).map (cs ++ ·)

/-! ## Only the rows before the first linear one -/

theorem bTurn_prefix (pp : List ℚ) (rows : List Row) (vi : ℕ) (p : List ℚ) :
    bTurn pp rows vi p = bTurn pp (rows.takeWhile (·.nonlin)) vi p := by
  induction rows generalizing vi p with
  | nil => rfl
  | cons r rs ih =>
    by_cases h : r.nonlin = true
    · have ih' : bTurn pp rs = bTurn pp (rs.takeWhile (·.nonlin)) := by
        funext a b
        exact ih a b
      rw [List.takeWhile_cons_of_pos h, bTurn, bTurn, if_pos h, if_pos h, ih']
    · rw [List.takeWhile_cons_of_neg h]
      simp [bTurn, h]

theorem bTurns_prefix (rows : List Row) (steps : List ℚ) (k : ℕ) (pp p : List ℚ) :
    bTurns rows steps k pp p = bTurns (rows.takeWhile (·.nonlin)) steps k pp p := by
  induction k generalizing pp p with
  | zero => rfl
  | succ k ih =>
    rw [bTurns, bTurns, ← bTurn_prefix]
    cases bTurn (List.zipWith (· + ·) pp steps) rows 0 p with
    | none => rfl
    | some q => simp only [ih]

theorem bLasts_prefix (p up : List ℚ) (rows : List Row) :
    bLasts p up rows = bLasts p up (rows.takeWhile (·.nonlin)) := by
  induction rows with
  | nil => rfl
  | cons r rs ih =>
    by_cases h : r.nonlin = true
    · rw [List.takeWhile_cons_of_pos h, bLasts, bLasts, if_pos h, if_pos h, ih]
    · rw [List.takeWhile_cons_of_neg h]
      simp [bLasts, h]

/-- **C139** rows behind the first linear row are not looked at: the chords are those of the problem cut before it. -/
theorem bonCuts_prefix (cols : List BCol) (rows : List Row) (nbAp : ℕ) :
    bonCuts cols rows nbAp = bonCuts cols (rows.takeWhile (·.nonlin)) nbAp := by
  unfold bonCuts
  rw [bTurns_prefix]
  cases bTurns (rows.takeWhile (·.nonlin)) (cols.map (bStep nbAp)) (nbAp - 1) (cols.map bFirst) (cols.map bFirst) with
  | none => rfl
  | some q => simp only [bLasts_prefix q.2 _ rows]

/-- **C139** a linear first row: no chord at all. -/
theorem linear_first (cols : List BCol) (r : Row) (rs : List Row) (nbAp : ℕ) (h : r.nonlin = false) :
    bonCuts cols (r :: rs) nbAp = some [] := by
  rw [bonCuts_prefix, List.takeWhile_cons_of_neg (by simp [h])]
  have : ∀ k pp p, ∃ q, bTurns [] (cols.map (bStep nbAp)) k pp p = some ([], q) := by
    intro k
    induction k with
    | zero => exact fun pp p => ⟨p, rfl⟩
    | succ k ih =>
      intro pp p
      obtain ⟨q, hq⟩ := ih (List.zipWith (· + ·) pp (cols.map (bStep nbAp))) p
      exact ⟨q, by simp [bTurns, bTurn, hq]⟩
  obtain ⟨q, hq⟩ := this (nbAp - 1) (cols.map bFirst) (cols.map bFirst)
  simp [bonCuts, hq, bLasts]

/-! ## A single nonlinear row over one moving column -/

theorem asPt_set_self (p : List ℚ) (v : ℚ) (i : ℕ) (h : i < p.length) : asPt (p.set i v) i = v := by
  simp [asPt, h]

/-- **C139** chords of the first row (partial: the row is the only one before a linear one, and there are at least two
columns): in turn `j` the row's chord goes from the point whose first coordinate only has followed to the `j`-th point; the
other coordinates stay at their first value. -/
theorem single_row_turn_partial (pp p : List ℚ) (r : Row) (rs : List Row) (hr : r.nonlin = true)
    (hrs : ∀ s ∈ rs.head?, s.nonlin = false) (hn : 2 ≤ p.length) (hlen : pp.length = p.length) :
    bTurn pp (r :: rs) 0 p =
      match inner 0 r (asPt p) (asPt pp) with
      | .thrown => none
      | .nothing => some ([], p.set 0 (asPt pp 0))
      | .cut c => some ([c], p.set 0 (asPt pp 0)) := by
  have hpp : pp[0]? = some (asPt pp 0) := by
    rw [asPt, List.getElem?_eq_getElem (by omega)]
    rfl
  have hrest : ∀ q, bTurn pp rs 1 q = some ([], q) := by
    intro q
    cases rs with
    | nil => rfl
    | cons s rs =>
      have : s.nonlin = false := hrs s (by simp)
      rw [bTurn, if_neg (by simp [this])]
  rw [bTurn, if_pos hr, if_neg (by omega), hpp]
  cases inner 0 r (asPt p) (asPt pp) with
  | thrown => rfl
  | nothing => simp [hrest]
  | cut c => simp [hrest]

/-! ## Examples and refutations -/

/-- Example: `x_k² - x2 ≤ 0`. -/
def sqRow (k : ℕ) : Row :=
  { nonlin := true, g := fun y => y k * y k - y 2, cols := [k, 2],
    d := fun y c => if c = k then 2 * y k else -1, rl := none, ru := some 0, bin := -1 }

/-- Example columns: `x0, x1 ∈ [0, 2]`, `x2 ∈ [0, 1e9]`. -/
def exB : List BCol := [⟨0, 2, false⟩, ⟨0, 2, false⟩, ⟨0, 1000000000, false⟩]

example : bonCuts exB [sqRow 0] 2 = some [⟨[(0, 1), (2, -1)], 0⟩, ⟨[(0, 3), (2, -1)], 2⟩] := by decide +kernel

/-- **C139 (refuted).** A linear row in front: the nonlinear row `x0² - x2 ≤ 0` is deleted and gets no chord, so the MIP does
not contain it. -/
theorem linear_row_in_front :
    bonCuts exB [{ sqRow 0 with nonlin := false }, sqRow 0] 20 = some [] ∧
    ¬ inRow (sqRow 0).rl (sqRow 0).ru ((sqRow 0).g (fun i => if i = 0 then 1 else 0)) := by
  refine ⟨linear_first _ _ _ _ rfl, ?_⟩
  intro h
  have := h.2 0 rfl
  norm_num [sqRow] at this

/-- **C139 (refuted).** The moving coordinate follows the number of the row, not its variable: with the rows `x1² - x2 ≤ 0` and
`x0² - x2 ≤ 0` the second one gets only the last chord, and the point `(1/2, 0, 0)` meets all the chords and not the row. -/
theorem wrong_coordinate_moves : bonCuts exB [sqRow 1, sqRow 0] 2 =
      some [⟨[(1, 1), (2, -1)], 0⟩, ⟨[(1, 3), (2, -1)], 2⟩, ⟨[(0, 3), (2, -1)], 2⟩] ∧
    (∀ c ∈ ([⟨[(1, 1), (2, -1)], 0⟩, ⟨[(1, 3), (2, -1)], 2⟩, ⟨[(0, 3), (2, -1)], 2⟩] : List ICut),
      act c.co (fun i => if i = 0 then 1 / 2 else 0) ≤ c.ub) ∧
    ¬ inRow (sqRow 0).rl (sqRow 0).ru ((sqRow 0).g (fun i => if i = 0 then 1 / 2 else 0)) := by
  refine ⟨by decide +kernel, ?_, ?_⟩
  · intro c hc
    simp only [List.mem_cons, List.not_mem_nil, or_false] at hc
    rcases hc with rfl | rfl | rfl <;> norm_num [act]
  · intro h
    have := h.2 0 rfl
    norm_num [sqRow] at this

/-- A row over the column 0 only. -/
def oneRow : Row :=
  { nonlin := true, g := fun y => y 0 * y 0, cols := [0], d := fun y _ => 2 * y 0, rl := none, ru := some 0, bin := -1 }

/-- **C139 (refuted).** One variable and two nonlinear rows: the second row writes at index 1 of an array of one. -/
theorem one_column_overflow : bonCuts [⟨0, 2, false⟩] [oneRow, oneRow] 2 = none ∧
    bonCuts [⟨0, 2, false⟩] [oneRow] 2 ≠ none := by decide +kernel

/-- **C139** the points used: a column with bounds in ±1e8 goes from its lower to its upper bound, in steps of equal length unless it is integer; an infinite bound is replaced by 0, and a column with
one does not move. -/
theorem sample_points (nbAp : ℕ) (c : BCol) :
    (-100000000 ≤ c.lo → bFirst c = c.lo) ∧ (c.lo < -100000000 → bFirst c = 0) ∧ (c.up ≤ 100000000 → bLast c = c.up) ∧ (100000000 < c.up → bLast c = 0) ∧
    (-100000000 ≤ c.lo → c.up ≤ 100000000 → c.isInt = false → bStep nbAp c = (c.up - c.lo) / nbAp) ∧
    (c.lo < -100000000 ∨ 100000000 < c.up ∨ c.isInt = true → bStep nbAp c = 0) := by
  refine ⟨fun h => if_neg (not_lt.2 h), fun h => if_pos h, fun h => if_neg (not_lt.2 h), fun h => if_pos h, fun h1 h2 h3 => ?_, fun h => ?_⟩
  · unfold bStep bLast
    rw [if_neg (by rintro (h | h | h) <;> [linarith; linarith; (rw [h3] at h; cases h)]), if_neg (not_lt.2 h2)]
  · unfold bStep
    rw [if_pos]
    rcases h with h | h | h
    · exact Or.inr (Or.inl h)
    · exact Or.inl h
    · exact Or.inr (Or.inr h)

/-- The cuts of a list of chords: an exception if one of them throws. -/
def gather (l : List Out) : Option (List ICut) := if Out.thrown ∈ l then none else some (l.filterMap fun o => match o with | .cut c => some c | _ => none)

theorem gather_cons (o : Out) (l : List Out) : gather (o :: l) = match o with | .thrown => none | .nothing => gather l | .cut c => (gather l).map (c :: ·) := by
  cases o with
  | thrown => simp [gather]
  | nothing => simp [gather]
  | cut c => by_cases h : Out.thrown ∈ l <;> simp [gather, h]

theorem gather_append (l l' : List Out) : gather (l ++ l') = (gather l).bind fun a => (gather l').map fun b => a ++ b := by
  induction l with
  | nil =>
    rw [List.nil_append, show gather [] = some [] from by simp [gather]]
    cases gather l' <;> rfl
  | cons o l ih =>
    rw [List.cons_append, gather_cons, gather_cons, ih]
    cases o with
    | thrown => rfl
    | nothing => rfl
    | cut c => cases gather l <;> cases gather l' <;> rfl

theorem gather_range (f : ℕ → Out) (k : ℕ) : gather ((List.range (k + 1)).map f) =
    match f 0 with | .thrown => none | .nothing => gather ((List.range k).map fun i => f (i + 1)) | .cut c => (gather ((List.range k).map fun i => f (i + 1))).map (c :: ·) := by
  rw [List.range_succ_eq_map, List.map_cons, gather_cons, List.map_map]
  rfl

theorem zipWith_steps (cols : List BCol) (F G : BCol → ℚ) : List.zipWith (· + ·) (cols.map F) (cols.map G) = cols.map fun c => F c + G c := by
  induction cols with
  | nil => rfl
  | cons c cs ih => simp [ih]

theorem single_turns (a b : BCol) (cs : List BCol) (r : Row) (rs : List Row) (hr : r.nonlin = true) (hrs : ∀ s ∈ rs.head?, s.nonlin = false) (nbAp : ℕ) :
    ∀ (k j : ℕ), bTurns (r :: rs) ((a :: b :: cs).map (bStep nbAp)) k ((a :: b :: cs).map fun c => bFirst c + j * bStep nbAp c) ((bFirst a + j * bStep nbAp a) :: (b :: cs).map bFirst) =
      (gather ((List.range k).map fun i : ℕ => inner 0 r (asPt ((bFirst a + (j + i : ℕ) * bStep nbAp a) :: (b :: cs).map bFirst))
        (asPt ((a :: b :: cs).map fun c => bFirst c + (j + i + 1 : ℕ) * bStep nbAp c)))).map fun l => (l, (bFirst a + (j + k : ℕ) * bStep nbAp a) :: (b :: cs).map bFirst)
  | 0, j => by simp [bTurns, gather]
  | k + 1, j => by
    have hpp : List.zipWith (· + ·) ((a :: b :: cs).map fun c => bFirst c + j * bStep nbAp c) ((a :: b :: cs).map (bStep nbAp)) =
        (a :: b :: cs).map fun c => bFirst c + (j + 1 : ℕ) * bStep nbAp c := by
      rw [zipWith_steps]
      congr 1
      funext c
      push_cast
      ring
    have hset : ((bFirst a + j * bStep nbAp a) :: (b :: cs).map bFirst).set 0 (asPt ((a :: b :: cs).map fun c => bFirst c + (j + 1 : ℕ) * bStep nbAp c) 0) =
        (bFirst a + (j + 1 : ℕ) * bStep nbAp a) :: (b :: cs).map bFirst := by simp [asPt]
    rw [bTurns, hpp, single_row_turn_partial _ _ r rs hr hrs (by simp) (by simp), gather_range]
    have ih := single_turns a b cs r rs hr hrs nbAp k (j + 1)
    have hf : (fun i : ℕ => inner 0 r (asPt ((bFirst a + (j + (i + 1) : ℕ) * bStep nbAp a) :: (b :: cs).map bFirst))
        (asPt ((a :: b :: cs).map fun c => bFirst c + (j + (i + 1) + 1 : ℕ) * bStep nbAp c))) =
        fun i : ℕ => inner 0 r (asPt ((bFirst a + (j + 1 + i : ℕ) * bStep nbAp a) :: (b :: cs).map bFirst))
        (asPt ((a :: b :: cs).map fun c => bFirst c + (j + 1 + i + 1 : ℕ) * bStep nbAp c)) := by
      funext i
      rw [show j + (i + 1) = j + 1 + i by omega]
    rw [hf, show j + (k + 1) = j + 1 + k by omega]
    simp only [Nat.add_zero]
    cases inner 0 r (asPt ((bFirst a + j * bStep nbAp a) :: (b :: cs).map bFirst)) (asPt ((a :: b :: cs).map fun c => bFirst c + (j + 1 : ℕ) * bStep nbAp c)) with
    | thrown => rfl
    | nothing =>
      simp only [hset, ih]
      cases gather _ <;> rfl
    | cut c =>
      simp only [hset, ih]
      cases gather _ <;> rfl

/-- **C139** exact chords of a single nonlinear row, in a problem with at least two columns: one from each point to the next, where in the first point only column 0 has moved, and one from the
last point to the point of the upper ends. -/
theorem single_row_exact (a b : BCol) (cs : List BCol) (r : Row) (rs : List Row) (hr : r.nonlin = true) (hrs : ∀ s ∈ rs.head?, s.nonlin = false) (nbAp : ℕ) :
    bonCuts (a :: b :: cs) (r :: rs) nbAp = gather (((List.range (nbAp - 1)).map fun i : ℕ => inner 0 r (asPt ((bFirst a + i * bStep nbAp a) :: (b :: cs).map bFirst))
        (asPt ((a :: b :: cs).map fun c => bFirst c + (i + 1 : ℕ) * bStep nbAp c))) ++
      [inner 0 r (asPt ((bFirst a + (nbAp - 1 : ℕ) * bStep nbAp a) :: (b :: cs).map bFirst)) (asPt ((a :: b :: cs).map bLast))]) := by
  have h := single_turns a b cs r rs hr hrs nbAp (nbAp - 1) 0
  simp only [Nat.cast_zero, zero_mul, add_zero, Nat.zero_add] at h
  have hf : (fun c => bFirst c) = bFirst := rfl
  unfold bonCuts
  rw [show (a :: b :: cs).map bFirst = bFirst a :: (b :: cs).map bFirst from rfl] at h ⊢
  rw [h, gather_append]
  have hlast : ∀ p up, bLasts p up (r :: rs) = gather [inner 0 r (asPt p) (asPt up)] := by
    intro p up
    have hrest : bLasts p up rs = some [] := by
      cases rs with
      | nil => rfl
      | cons s rs =>
        have : s.nonlin = false := hrs s (by simp)
        rw [bLasts, if_neg (by simp [this])]
    rw [bLasts, if_pos hr, gather_cons]
    cases inner 0 r (asPt p) (asPt up) <;> simp [hrest, gather]
  cases gather ((List.range (nbAp - 1)).map fun i : ℕ => inner 0 r (asPt ((bFirst a + i * bStep nbAp a) :: (b :: cs).map bFirst))
        (asPt ((a :: b :: cs).map fun c => bFirst c + (i + 1 : ℕ) * bStep nbAp c))) with
  | none => rfl
  | some l => simp only [Option.map_some, Option.bind_some, hlast]

example : (sqRow 0).nonlin = true ∧ gather [inner 0 (sqRow 0) (asPt [0, 0, 0]) (asPt [1, 1, 0]), inner 0 (sqRow 0) (asPt [1, 0, 0]) (asPt [2, 2, 0])] =
    some [⟨[(0, 1), (2, -1)], 0⟩, ⟨[(0, 3), (2, -1)], 2⟩] := by decide +kernel

/-- The first point for row `i` in turn `t`, in a problem with `n` columns and `m` rows looked at: the coordinates moved in this turn, those moved in earlier turns, those never moved. -/
def startPt (cols : List BCol) (nbAp m t i : ℕ) : List ℚ :=
  cols.mapIdx fun j c => bFirst c + ((if j < min i (cols.length - 1) then t + 1 else if j < min m (cols.length - 1) then t else 0 : ℕ) : ℚ) * bStep nbAp c

/-- The point number `t`. -/
def samplePt (cols : List BCol) (nbAp t : ℕ) : List ℚ := cols.map fun c => bFirst c + (t : ℚ) * bStep nbAp c

theorem next_index (d i : ℕ) (hd : 0 < d) : (if i % d + 1 = d then 0 else i % d + 1) = (i + 1) % d := by
  have h1 := Nat.mod_lt i hd
  have h2 : (i + 1) % d = (i % d + 1) % d := by rw [Nat.add_mod i 1 d, Nat.add_mod (i % d) 1 d, Nat.mod_mod]
  rw [h2]
  split
  · rename_i h; rw [h, Nat.mod_self]
  · exact (Nat.mod_eq_of_lt (show i % d + 1 < d by omega)).symm

theorem startPt_set (cols : List BCol) (nbAp m t i : ℕ) (hn : 2 ≤ cols.length) :
    (startPt cols nbAp m t i).set (i % (cols.length - 1)) (asPt (samplePt cols nbAp (t + 1)) (i % (cols.length - 1))) = startPt cols nbAp m t (i + 1) := by
  have hlt := Nat.mod_lt i (show 0 < cols.length - 1 by omega)
  have hle := Nat.mod_le i (cols.length - 1)
  refine List.ext_getElem (by simp [startPt]) fun j h1 h2 => ?_
  have hj : j < cols.length := by simpa [startPt] using h2
  rw [List.getElem_set]
  simp only [startPt, List.getElem_mapIdx]
  split
  · rename_i h
    subst h
    rw [if_pos (by omega)]
    simp [asPt, samplePt, List.getElem?_eq_getElem hj]
  · rename_i h
    by_cases hi' : i < cols.length - 1
    · rw [Nat.mod_eq_of_lt hi'] at h
      have : (j < min i (cols.length - 1)) ↔ (j < min (i + 1) (cols.length - 1)) := by omega
      simp only [this]
    · have : (j < min i (cols.length - 1)) ↔ (j < min (i + 1) (cols.length - 1)) := by omega
      simp only [this]

theorem startPt_next (cols : List BCol) (nbAp m t : ℕ) : startPt cols nbAp m t m = startPt cols nbAp m (t + 1) 0 := by
  unfold startPt
  congr 1
  funext j c
  by_cases h : j < min m (cols.length - 1)
  · simp [h]
  · simp only [h, if_false, Nat.zero_min, Nat.not_lt_zero]

theorem turn_from (cols : List BCol) (nbAp m t : ℕ) (hn : 2 ≤ cols.length) : ∀ (rows : List Row) (i vi : ℕ), i + rows.length = m → (∀ r ∈ rows, r.nonlin = true) →
    (if vi + 1 = cols.length then 0 else vi) = i % (cols.length - 1) →
    bTurn (samplePt cols nbAp (t + 1)) rows vi (startPt cols nbAp m t i) =
      (gather (rows.mapIdx fun k r => inner 0 r (asPt (startPt cols nbAp m t (i + k))) (asPt (samplePt cols nbAp (t + 1))))).map fun l => (l, startPt cols nbAp m t m)
  | [], i, vi, hm, _, _ => by
    have : i = m := by simpa using hm
    simp [bTurn, gather, this]
  | r :: rs, i, vi, hm, hr, hv => by
    simp only [List.length_cons] at hm
    have hlt := Nat.mod_lt i (show 0 < cols.length - 1 by omega)
    have hlen : (startPt cols nbAp m t i).length = cols.length := by simp [startPt]
    have hget : (samplePt cols nbAp (t + 1))[i % (cols.length - 1)]? = some (asPt (samplePt cols nbAp (t + 1)) (i % (cols.length - 1))) := by
      have : i % (cols.length - 1) < cols.length := by omega
      simp [asPt, samplePt, List.getElem?_eq_getElem this]
    have ih := turn_from cols nbAp m t hn rs (i + 1) (i % (cols.length - 1) + 1) (by omega) (fun r h => hr r (List.mem_cons_of_mem _ h)) (by
      rw [← next_index _ _ (by omega : 0 < cols.length - 1)]
      have : (i % (cols.length - 1) + 1 + 1 = cols.length) ↔ (i % (cols.length - 1) + 1 = cols.length - 1) := by omega
      simp only [this])
    have hf : (fun (k : ℕ) (r : Row) => inner 0 r (asPt (startPt cols nbAp m t (i + (k + 1)))) (asPt (samplePt cols nbAp (t + 1)))) =
        fun k r => inner 0 r (asPt (startPt cols nbAp m t (i + 1 + k))) (asPt (samplePt cols nbAp (t + 1))) := by
      funext k r
      rw [show i + (k + 1) = i + 1 + k by omega]
    rw [bTurn, if_pos (hr r (by simp)), hlen, hv, hget, List.mapIdx_cons, gather_cons, hf, Nat.add_zero]
    cases inner 0 r (asPt (startPt cols nbAp m t i)) (asPt (samplePt cols nbAp (t + 1))) with
    | thrown => rfl
    | nothing => simp only [startPt_set cols nbAp m t i hn, ih]
    | cut c =>
      simp only [startPt_set cols nbAp m t i hn, ih]
      cases gather _ <;> rfl

theorem turns_from (cols : List BCol) (nbAp : ℕ) (rows : List Row) (hr : ∀ r ∈ rows, r.nonlin = true) (hn : 2 ≤ cols.length) : ∀ (k t : ℕ),
    bTurns rows (cols.map (bStep nbAp)) k (samplePt cols nbAp t) (startPt cols nbAp rows.length t 0) =
      (gather ((List.range k).flatMap fun s => rows.mapIdx fun i r => inner 0 r (asPt (startPt cols nbAp rows.length (t + s) i)) (asPt (samplePt cols nbAp (t + s + 1))))).map
        fun l => (l, startPt cols nbAp rows.length (t + k) 0)
  | 0, t => by simp [bTurns, gather]
  | k + 1, t => by
    have hpp : List.zipWith (· + ·) (samplePt cols nbAp t) (cols.map (bStep nbAp)) = samplePt cols nbAp (t + 1) := by
      unfold samplePt
      rw [zipWith_steps]
      congr 1
      funext c
      push_cast
      ring
    have ih := turns_from cols nbAp rows hr hn k (t + 1)
    have h0 := turn_from cols nbAp rows.length t hn rows 0 0 (by omega) hr (by simp)
    simp only [Nat.zero_add] at h0
    rw [bTurns, hpp, h0, List.range_succ_eq_map, List.flatMap_cons, gather_append, List.flatMap_map, startPt_next]
    have hf : (fun a : ℕ => rows.mapIdx fun i r => inner 0 r (asPt (startPt cols nbAp rows.length (t + a.succ) i)) (asPt (samplePt cols nbAp (t + a.succ + 1)))) =
        fun s => rows.mapIdx fun i r => inner 0 r (asPt (startPt cols nbAp rows.length (t + 1 + s) i)) (asPt (samplePt cols nbAp (t + 1 + s + 1))) := by
      funext s
      rw [show t + s.succ = t + 1 + s by omega]
    rw [hf, Nat.add_zero]
    cases gather (rows.mapIdx fun i r => inner 0 r (asPt (startPt cols nbAp rows.length t i)) (asPt (samplePt cols nbAp (t + 1)))) with
    | none => rfl
    | some l =>
      simp only [Option.map_some, Option.bind_some, ih]
      rw [show t + 1 + k = t + (k + 1) by omega]
      cases gather _ <;> rfl

theorem lasts_gather (p up : List ℚ) : ∀ rows : List Row, (∀ r ∈ rows, r.nonlin = true) → bLasts p up rows = gather (rows.map fun r => inner 0 r (asPt p) (asPt up))
  | [], _ => by simp [bLasts, gather]
  | r :: rs, h => by
    rw [bLasts, if_pos (h r (by simp)), lasts_gather p up rs fun s hs => h s (List.mem_cons_of_mem _ hs), List.map_cons, gather_cons]

/-- **C139** exact chords of all rows looked at, in a problem with at least two columns.  For the row number `i` of turn `t` the chord goes to point `t + 1` from a point where coordinate `j` is that of
point `t + 1` too if `j < i`, and that of point `t` if `i ≤ j < m`, with `m` the number of rows; the coordinates from `m` on, and the last one, stay at their first values.  The last chord of every row
goes from the point that the next turn would start with to the upper ends. -/
theorem all_rows_exact (cols : List BCol) (rows : List Row) (nbAp : ℕ) (hn : 2 ≤ cols.length) : let ls := rows.takeWhile (·.nonlin)
    bonCuts cols rows nbAp = gather (((List.range (nbAp - 1)).flatMap fun t => ls.mapIdx fun i r => inner 0 r (asPt (startPt cols nbAp ls.length t i)) (asPt (samplePt cols nbAp (t + 1)))) ++
      ls.map fun r => inner 0 r (asPt (startPt cols nbAp ls.length (nbAp - 1) 0)) (asPt (cols.map bLast))) := by
  intro ls
  have hls : ∀ r ∈ ls, r.nonlin = true := fun r h => List.mem_takeWhile_imp h
  have h := turns_from cols nbAp ls hls hn (nbAp - 1) 0
  have e1 : samplePt cols nbAp 0 = cols.map bFirst := by simp [samplePt]
  have e2 : startPt cols nbAp ls.length 0 0 = cols.map bFirst := by
    refine List.ext_getElem (by simp [startPt]) fun j h1 h2 => ?_
    simp [startPt]
  rw [e1, e2] at h
  simp only [Nat.zero_add] at h
  rw [bonCuts_prefix]
  show bonCuts cols ls nbAp = _
  unfold bonCuts
  rw [h, gather_append]
  cases gather ((List.range (nbAp - 1)).flatMap fun t => ls.mapIdx fun i r => inner 0 r (asPt (startPt cols nbAp ls.length t i)) (asPt (samplePt cols nbAp (t + 1)))) with
  | none => rfl
  | some l => simp only [Option.map_some, Option.bind_some, lasts_gather _ _ ls hls]

example : startPt [⟨0, 4, false⟩, ⟨0, 8, false⟩, ⟨0, 4, true⟩] 4 2 1 1 = [2, 2, 0] ∧ samplePt [⟨0, 4, false⟩, ⟨0, 8, false⟩, ⟨0, 4, true⟩] 4 2 = [2, 4, 0] := by decide +kernel

end Verif.Sepa

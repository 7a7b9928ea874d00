import Verif.Bab.Final
import Mathlib.Data.Rat.Floor
import Mathlib.Algebra.Order.Round
import Mathlib.Tactic.Linarith
import Mathlib.Tactic.NormNum

/-!
# The alternative objective for upper bounds
`src/Interfaces/BonAuxInfos.cpp`, `src/Interfaces/BonAuxInfos.hpp:24-107`, `src/CbcBonmin/BonBabInfos.cpp`,
`src/Interfaces/BonOsiTMINLPInterface.cpp:602` and `2696-2745` (end of `solveAndCheckErrors`),
`src/CbcBonmin/BonCbc.cpp:110-119` and `632-642`.

A user (or an AMPL model, suffix `UBObj`) can declare a second objective function by which integer feasible
points are compared.  Each NLP solve that ends at an integer point evaluates it and keeps the best point in a
cell shared by all copies of the auxiliary information; `Bab::branchAndBound` returns the point of the cell.

Simplifications: `COIN_DBL_MAX`, the initial value of the cell, is `none` (above every value); the other members
of `AuxInfo` (`nlpSolution_` …) are in `Verif.Bab.AuxNlp`; which interface object a solve runs on, where it ends
and with which status is given by the trace.
-/
namespace Verif.Bab.AltObj

/-- The pair of shared objects `bestSolution2_`, `bestObj2_` (BonAuxInfos.hpp:103-106). -/
structure Cell where
  sol : List ℚ
  obj : Option ℚ
deriving DecidableEq, Repr

/-- The constructors other than the copy constructor (BonAuxInfos.cpp:25-26, 37-38). -/
def Cell.new : Cell := ⟨[], none⟩

/-- What `getAuxiliaryInfo()` of an interface object is: nothing, an `OsiBabSolver`, an `AuxInfo`, a `BabInfo`;
the last two with the number of their cell. -/
inductive Info where
  | none | osi | aux (c : ℕ) | bab (c : ℕ)
deriving DecidableEq, Repr

/-- The cell written through `dynamic_cast<Bonmin::AuxInfo *>` (BonOsiTMINLPInterface.cpp:2728). -/
def Info.cell : Info → Option ℕ
  | .none => Option.none
  | .osi => Option.none
  | .aux c => some c
  | .bab c => some c

/-- The interface objects, by number, and the cells. -/
structure St where
  itf : List Info
  cells : List Cell
deriving DecidableEq, Repr

/-- The problem: `alt` is the alternative objective, if the problem has one; `none` for its value when
`eval_upper_bound_f` returns without setting it. `ints` says which variables are integer. -/
structure Prob where
  alt : Option (List ℚ → Option ℚ)
  ints : List Bool

/-- The end of a solve: `optimal` = `isProvenOptimal()`, the point, and `objects` the infeasibilities of the
objects of the interface at the point, `none` if the interface has no array of objects. -/
structure Solve where
  optimal : Bool
  sol : List ℚ
  objects : Option (List ℚ)
deriving DecidableEq

/-- The local variable `intTol` (BonOsiTMINLPInterface.cpp:2699). -/
def intTol : ℚ := 1 / 10 ^ 8

/-- `fabs(x - floor(x + 0.5)) > intTol` (2716). -/
def fractional (x : ℚ) : Bool := decide (intTol < |x - ⌊x + 1 / 2⌋|)

/-- The value of `integerSol` (2698-2722). -/
def integerSol (ints : List Bool) (s : Solve) : Bool :=
  match s.objects with
  | some l => l.all fun v => !decide (intTol < v)
  | none => (s.sol.zip ints).all fun p => !(p.2 && fractional p.1)

/-- The update of the cell (2732-2735). -/
def Cell.offer (c : Cell) (x : List ℚ) (v : ℚ) : Cell :=
  match c.obj with
  | none => ⟨x, some v⟩
  | some w => if v < w then ⟨x, some v⟩ else c

/-- The end of a solve on interface object `i` (2696-2745); `none` = a value that was not set is read (2724) or
there is no such object. -/
def solve (P : Prob) (st : St) (i : ℕ) (s : Solve) : Option St :=
  match st.itf[i]? with
  | none => none
  | some info =>
    match P.alt with
    | none => some st
    | some f =>
      if integerSol P.ints s && s.optimal then
        match f s.sol with
        | none => none
        | some v =>
          match info.cell with
          | none => some st
          | some c => some ⟨st.itf, st.cells.modify c (fun k => k.offer s.sol v)⟩
      else some st

/-- Start of `Bab::branchAndBound` on the continuous solver `i` (BonCbc.cpp:110-119): anything but a `BabInfo` is
replaced by a `BabInfo` made from its `OsiBabSolver` part; `none` = assertion failure (111). -/
def adopt (st : St) (i : ℕ) : Option St :=
  match st.itf[i]? with
  | none => none
  | some .none => none
  | some .osi => some ⟨st.itf.set i (.bab st.cells.length), st.cells ++ [Cell.new]⟩
  | some (.aux _) => some ⟨st.itf.set i (.bab st.cells.length), st.cells ++ [Cell.new]⟩
  | some (.bab _) => some st

/-- What happens to the interface objects: a setup is initialised on `i` (`initializeBBB`, BonBonminSetup.cpp:
402-403), a search starts on `i`, `i` is cloned (BonOsiTMINLPInterface.cpp:602; the copy constructor of `AuxInfo`
shares the cell, BonAuxInfos.cpp:49-50), `i` is assigned to `j`, a solve ends. -/
inductive Op where
  | init (i : ℕ) | start (i : ℕ) | clone (i : ℕ) | assign (i j : ℕ) | solve (i : ℕ) (s : Solve)
deriving DecidableEq

/-- One operation. -/
def step (P : Prob) (st : St) : Op → Option St
  | .init i => if i < st.itf.length then some ⟨st.itf.set i .osi, st.cells⟩ else none
  | .start i => adopt st i
  | .clone i => (st.itf[i]?).map fun f => ⟨st.itf ++ [f], st.cells⟩
  | .assign i j =>
    match st.itf[i]? with
    | none => none
    | some f => if j < st.itf.length then some ⟨st.itf.set j f, st.cells⟩ else none
  | .solve i s => solve P st i s

/-- A sequence of operations. -/
def run (P : Prob) : St → List Op → Option St
  | st, [] => some st
  | st, o :: os => (step P st o).bind fun s => run P s os

/-- The interface as a setup leaves it. -/
def fresh : St := ⟨[.osi], []⟩

/-- What the end of `branchAndBound` reads (BonCbc.cpp:632-639) from the information of object `i` in a problem
with `n` variables: outer `none` = no `BabInfo` or assertion failure (633). -/
def best2 (n : ℕ) (st : St) (i : ℕ) : Option (Option (List ℚ × ℚ)) :=
  match st.itf[i]? with
  | some (.bab c) =>
    match st.cells[c]? with
    | some ⟨x, some v⟩ => if x.length = 0 then some none else if x.length = n then some (some (x, v)) else none
    | some ⟨x, none⟩ => if x.length = 0 then some none else none
    | none => none
  | _ => none

/-! ## Specification -/

/-- A solve ends at a point that counts: optimal, and either all objects of the interface are satisfied or, if it
has none, all integer variables are at integers, within `10⁻⁸`. -/
def Counts (ints : List Bool) (s : Solve) : Prop :=
  s.optimal = true ∧
  match s.objects with
  | some l => ∀ v ∈ l, v ≤ 1 / 10 ^ 8
  | none => ∀ (k : ℕ) (x : ℚ), s.sol[k]? = some x → ints[k]? = some true → ∃ z : ℤ, |x - z| ≤ 1 / 10 ^ 8

open Classical in
/-- The points of the solves of a trace that count, with their values. -/
noncomputable def points (P : Prob) (f : List ℚ → Option ℚ) : List Op → List (List ℚ × ℚ)
  | [] => []
  | .solve _ s :: os =>
    if Counts P.ints s then
      match f s.sol with
      | some v => (s.sol, v) :: points P f os
      | none => points P f os
    else points P f os
  | _ :: os => points P f os

/-- The cell holds the first of the points with the least value. -/
def FirstBest (l : List (List ℚ × ℚ)) (c : Cell) : Prop :=
  (l = [] ∧ c = ⟨[], none⟩) ∨
  ∃ a x v b, l = a ++ (x, v) :: b ∧ (∀ p ∈ a, v < p.2) ∧ (∀ p ∈ b, v ≤ p.2) ∧ c = ⟨x, some v⟩

/-! ## Lemmas -/

theorem fractional_iff (x : ℚ) : fractional x = false ↔ ∃ z : ℤ, |x - z| ≤ 1 / 10 ^ 8 := by
  unfold fractional intTol
  rw [decide_eq_false_iff_not, not_lt]
  constructor
  · intro h; exact ⟨_, h⟩
  · rintro ⟨z, hz⟩
    have : ⌊x + 1 / 2⌋ = z := by
      rw [Int.floor_eq_iff]
      have h1 := abs_le.mp hz
      constructor
      · have := h1.1; norm_num at this ⊢; linarith
      · have := h1.2; norm_num at this ⊢; linarith
    rw [this]; exact hz

theorem counts_iff (ints : List Bool) (s : Solve) : (integerSol ints s && s.optimal) = true ↔ Counts ints s := by
  unfold integerSol Counts
  rw [Bool.and_eq_true, and_comm]
  refine and_congr_right fun _ => ?_
  cases s.objects with
  | some l => simp [intTol]
  | none =>
    simp only [List.all_eq_true]
    constructor
    · intro h k x hx hk
      have hz : (s.sol.zip ints)[k]? = some (x, true) := by
        rw [List.getElem?_zip_eq_some]; exact ⟨hx, hk⟩
      have := h _ (List.mem_of_getElem? hz)
      rw [← fractional_iff]; simpa using this
    · rintro h ⟨x, b⟩ hp
      obtain ⟨k, hk⟩ := List.getElem?_of_mem hp
      rw [List.getElem?_zip_eq_some] at hk
      cases b with
      | false => rfl
      | true =>
        have := (fractional_iff x).mpr (h k x hk.1 hk.2)
        simp [this]

theorem FirstBest.offer {l : List (List ℚ × ℚ)} {c : Cell} (h : FirstBest l c) (x : List ℚ) (v : ℚ) :
    FirstBest (l ++ [(x, v)]) (c.offer x v) := by
  rcases h with ⟨rfl, rfl⟩ | ⟨a, y, w, b, rfl, ha, hb, rfl⟩
  · right; exact ⟨[], x, v, [], rfl, by simp, by simp, rfl⟩
  · right
    unfold Cell.offer
    by_cases hv : v < w
    · simp only [if_pos hv]
      refine ⟨a ++ (y, w) :: b, x, v, [], by simp, ?_, by simp, rfl⟩
      intro p hp
      rcases List.mem_append.mp hp with h | h
      · exact lt_trans hv (ha p h)
      · rcases List.mem_cons.mp h with h | h
        · rw [h]; exact hv
        · exact lt_of_lt_of_le hv (hb p h)
    · simp only [if_neg hv]
      refine ⟨a, y, w, b ++ [(x, v)], by simp, ha, ?_, rfl⟩
      intro p hp
      rcases List.mem_append.mp hp with h | h
      · exact hb p h
      · rw [List.mem_singleton.mp h]; exact not_lt.mp hv

/-- All interface objects share the one cell. -/
def Shared (st : St) (c : Cell) : Prop := st.itf ≠ [] ∧ (∀ f ∈ st.itf, f = Info.bab 0) ∧ st.cells = [c]

/-- Operations of a search: everything but the initialisation of a setup. -/
def Op.search : Op → Bool
  | .init _ => false
  | _ => true

theorem step_shared {P : Prob} {f : List ℚ → Option ℚ} (hP : P.alt = some f) {st : St} {c : Cell}
    (h : Shared st c) {o : Op} (ho : o.search = true) {st' : St} (hs : step P st o = some st')
    {l : List (List ℚ × ℚ)} (hl : FirstBest l c) :
    ∃ c', Shared st' c' ∧ FirstBest (l ++ points P f [o]) c' := by
  obtain ⟨h0, h1, h2⟩ := h
  have key : ∀ i g, st.itf[i]? = some g → g = Info.bab 0 := fun i g hg => h1 g (List.mem_of_getElem? hg)
  cases o with
  | init i => simp [Op.search] at ho
  | start i =>
    refine ⟨c, ?_, by simpa [points] using hl⟩
    simp only [step, adopt] at hs
    split at hs
    · exact absurd hs (by simp)
    · exact absurd hs (by simp)
    · rename_i e; exact absurd (key _ _ e) (by simp)
    · rename_i e; exact absurd (key _ _ e) (by simp)
    · obtain rfl := Option.some.inj hs; exact ⟨h0, h1, h2⟩
  | clone i =>
    refine ⟨c, ?_, by simpa [points] using hl⟩
    simp only [step] at hs
    obtain ⟨g, hg, rfl⟩ := Option.map_eq_some_iff.mp hs
    refine ⟨by simp, ?_, h2⟩
    intro f' hf'
    rcases List.mem_append.mp hf' with h | h
    · exact h1 _ h
    · rw [List.mem_singleton.mp h]; exact key _ _ hg
  | assign i j =>
    refine ⟨c, ?_, by simpa [points] using hl⟩
    simp only [step] at hs
    split at hs
    · exact absurd hs (by simp)
    · rename_i g hg
      split at hs
      · obtain rfl := Option.some.inj hs
        refine ⟨?_, ?_, h2⟩
        · intro e; exact h0 (by simpa using e)
        · intro f' hf'
          rcases List.mem_or_eq_of_mem_set hf' with h | h
          · exact h1 _ h
          · rw [h]; exact key _ _ hg
      · exact absurd hs (by simp)
  | solve i s =>
    simp only [step, solve] at hs
    split at hs
    · exact absurd hs (by simp)
    rename_i g hg
    obtain rfl := key _ _ hg
    rw [hP] at hs
    simp only [Info.cell] at hs
    by_cases hc : Counts P.ints s
    · rw [if_pos ((counts_iff _ _).mpr hc)] at hs
      cases hv : f s.sol with
      | none => rw [hv] at hs; exact absurd hs (by simp)
      | some v =>
        rw [hv] at hs
        obtain rfl := Option.some.inj hs
        refine ⟨c.offer s.sol v, ⟨h0, h1, ?_⟩, ?_⟩
        · simp [h2]
        · have : points P f [.solve i s] = [(s.sol, v)] := by simp [points, hc, hv]
          rw [this]; exact hl.offer _ _
    · rw [if_neg (fun e => hc ((counts_iff _ _).mp e))] at hs
      obtain rfl := Option.some.inj hs
      exact ⟨c, ⟨h0, h1, h2⟩, by simpa [points, hc] using hl⟩

theorem points_cons (P : Prob) (f : List ℚ → Option ℚ) (o : Op) (os : List Op) :
    points P f (o :: os) = points P f [o] ++ points P f os := by
  cases o with
  | solve i s =>
    simp only [points]
    split
    · split <;> simp
    · simp
  | _ => simp [points]

theorem points_append (P : Prob) (f : List ℚ → Option ℚ) (a b : List Op) :
    points P f (a ++ b) = points P f a ++ points P f b := by
  induction a with
  | nil => simp [points]
  | cons o os ih =>
    rw [List.cons_append, points_cons, ih, points_cons P f o os, List.append_assoc]

theorem run_shared {P : Prob} {f : List ℚ → Option ℚ} (hP : P.alt = some f) (ops : List Op) :
    ∀ {st : St} {c : Cell}, Shared st c → (∀ o ∈ ops, o.search = true) → ∀ {st' : St}, run P st ops = some st' →
    ∀ {l : List (List ℚ × ℚ)}, FirstBest l c → ∃ c', Shared st' c' ∧ FirstBest (l ++ points P f ops) c' := by
  induction ops with
  | nil =>
    intro st c h _ st' hs l hl
    obtain rfl := Option.some.inj hs
    exact ⟨c, h, by simpa [points] using hl⟩
  | cons o os ih =>
    intro st c h ho st' hs l hl
    simp only [run] at hs
    obtain ⟨s1, e1, e2⟩ := Option.bind_eq_some_iff.mp hs
    obtain ⟨c1, hc1, hl1⟩ := step_shared hP h (ho o (by simp)) e1 hl
    obtain ⟨c2, hc2, hl2⟩ := ih hc1 (fun o' h' => ho o' (by simp [h'])) e2 hl1
    refine ⟨c2, hc2, ?_⟩
    rw [points_cons, ← List.append_assoc]; exact hl2

/-! ## Theorems -/

/-- From the start of a search on, whatever is cloned, assigned and solved, every interface object sees the point
of least alternative objective among **all** integer points found on any of them, the earliest one on ties; there is
none exactly when no point was found. -/
theorem recorded_partial (P : Prob) (f : List ℚ → Option ℚ) (hP : P.alt = some f) (ops : List Op)
    (ho : ∀ o ∈ ops, o.search = true) (st : St) (h : run P fresh (.start 0 :: ops) = some st) :
    ∃ c, st.cells = [c] ∧ st.itf ≠ [] ∧ (∀ g ∈ st.itf, g = Info.bab 0) ∧ FirstBest (points P f ops) c := by
  have h' : run P ⟨[.bab 0], [Cell.new]⟩ ops = some st := by simpa [run, step, adopt, fresh] using h
  obtain ⟨c, ⟨h0, h1, h2⟩, hc⟩ := run_shared hP ops (st := ⟨[.bab 0], [Cell.new]⟩) (c := Cell.new)
    ⟨by simp, by simp, rfl⟩ ho h' (l := []) (Or.inl ⟨rfl, rfl⟩)
  exact ⟨c, h2, h0, h1, by simpa using hc⟩

/-- A search is well defined exactly when the objects used exist and no integer point found leaves the value of the
alternative objective unset. -/
theorem search_defined_iff (P : Prob) (f : List ℚ → Option ℚ) (hP : P.alt = some f) (ops : List Op)
    (hs : ∀ o ∈ ops, ∃ s, o = .solve 0 s) :
    (∃ st, run P fresh (.start 0 :: ops) = some st) ↔
    ∀ s, Op.solve 0 s ∈ ops → Counts P.ints s → ∃ v, f s.sol = some v := by
  have h0 : run P fresh (.start 0 :: ops) = run P ⟨[.bab 0], [Cell.new]⟩ ops := by simp [run, step, adopt, fresh]
  rw [h0]
  generalize Cell.new = c
  clear h0
  induction ops generalizing c with
  | nil => simp [run]
  | cons o os ih =>
    obtain ⟨s, rfl⟩ := hs _ List.mem_cons_self
    have ih' := fun c => ih (fun o h => hs o (by simp [h])) c
    have e : ∀ (st : Option St), run P ⟨[.bab 0], [c]⟩ (.solve 0 s :: os) =
        (solve P ⟨[.bab 0], [c]⟩ 0 s).bind fun s => run P s os := fun _ => rfl
    rw [e none]
    by_cases hc : Counts P.ints s
    · cases hv : f s.sol with
      | none =>
        have : solve P ⟨[.bab 0], [c]⟩ 0 s = none := by
          simp only [solve, hP]; simp [(counts_iff _ _).mpr hc, hv]
        rw [this]
        simp only [Option.bind_none]
        constructor
        · rintro ⟨st, h⟩; simp at h
        · intro h; obtain ⟨v, hv'⟩ := h s (by simp) hc; rw [hv] at hv'; simp at hv'
      | some v =>
        have : solve P ⟨[.bab 0], [c]⟩ 0 s = some ⟨[.bab 0], [c.offer s.sol v]⟩ := by
          simp only [solve, hP, List.getElem?_cons_zero]
          rw [if_pos ((counts_iff _ _).mpr hc), hv]; simp [Info.cell]
        rw [this, Option.bind_some]
        refine (ih' _).trans ?_
        constructor
        · intro h s' hm hc'
          rcases List.mem_cons.mp hm with h' | h'
          · obtain rfl := (Op.solve.inj h').2; exact ⟨v, hv⟩
          · exact h s' h' hc'
        · intro h s' hm; exact h s' (by simp [hm])
    · have : solve P ⟨[.bab 0], [c]⟩ 0 s = some ⟨[.bab 0], [c]⟩ := by
        simp only [solve, hP, List.getElem?_cons_zero]
        rw [if_neg (fun e => hc ((counts_iff _ _).mp e))]
      rw [this, Option.bind_some]
      refine (ih' _).trans ?_
      constructor
      · intro h s' hm hc'
        rcases List.mem_cons.mp hm with h' | h'
        · obtain rfl := (Op.solve.inj h').2; exact absurd hc' hc
        · exact h s' h' hc'
      · intro h s' hm; exact h s' (by simp [hm])

/-- A search that starts on an interface without a `BabInfo` gets an empty cell of its own, also when there was an
`AuxInfo` with a point already. -/
theorem start_empty (P : Prob) (st : St) (i : ℕ) (g : Info) (hi : st.itf[i]? = some g) (h0 : g ≠ .none) (hb : ∀ c, g ≠ .bab c) (n : ℕ) :
    ∃ st', step P st (.start i) = some st' ∧ best2 n st' i = some none ∧ (∀ c < st.cells.length, st'.cells[c]? = st.cells[c]?) ∧
      (∀ j ≠ i, st'.itf[j]? = st.itf[j]?) := by
  obtain ⟨hlt, hg⟩ := List.getElem?_eq_some_iff.mp hi
  refine ⟨⟨st.itf.set i (.bab st.cells.length), st.cells ++ [Cell.new]⟩, ?_, ?_, ?_, ?_⟩
  · cases g with
    | none => exact absurd rfl h0
    | bab c => exact absurd rfl (hb c)
    | _ => simp [step, adopt, hi]
  · simp [best2, hlt, Cell.new]
  · intro c hc; simp [List.getElem?_append_left hc]
  · intro j hj; simp [hj.symm]

/-- Without an alternative objective nothing is ever recorded. -/
theorem unused (P : Prob) (hP : P.alt = none) (st : St) (i : ℕ) (s : Solve) (st' : St)
    (h : step P st (.solve i s) = some st') : st' = st := by
  simp only [step, solve, hP] at h
  split at h
  · simp at h
  · exact (Option.some.inj h).symm

/-- **What the user gets.**  With branching objects, at the end of the first search on a setup: the point returned
is one of the integer points found, its alternative objective is the objective value returned, and no integer point
found has a smaller one. -/
theorem returned_partial (P : Prob) (f : List ℚ → Option ℚ) (hP : P.alt = some f) (n : ℕ) (hn : 0 < n) (ops : List Op)
    (ho : ∀ o ∈ ops, o.search = true) (hlen : ∀ i s, Op.solve i s ∈ ops → s.sol.length = n)
    (hsome : points P f ops ≠ [])
    (st : St) (h : run P fresh (.start 0 :: ops) = some st)
    (dblMax : ℚ) (b : Keeper (List ℚ)) (r : Run (List ℚ)) (hr : best2 n st 0 = some r.best2) (hobj : r.objects ≠ 0) :
    ∃ x v, (finish dblMax b r).1.best = some x ∧ (finish dblMax b r).1.obj = v ∧ f x = some v ∧
      (x, v) ∈ points P f ops ∧ ∀ p ∈ points P f ops, v ≤ p.2 := by
  obtain ⟨c, h1, h2, h3, hc⟩ := recorded_partial P f hP ops ho st h
  rcases hc with ⟨e, _⟩ | ⟨a, x, v, d, e, ha, hd, rfl⟩
  · exact absurd e hsome
  have hmem : ∀ p ∈ points P f ops, (∃ i s, Op.solve i s ∈ ops ∧ s.sol = p.1) ∧ f p.1 = some p.2 := by
    clear h hlen hsome e ho
    induction ops with
    | nil => simp [points]
    | cons o os ih =>
      intro p hp
      rw [points_cons] at hp
      rcases List.mem_append.mp hp with h | h
      · cases o with
        | solve i s =>
          simp only [points] at h
          split at h
          · cases hv : f s.sol with
            | none => rw [hv] at h; simp at h
            | some w =>
              rw [hv] at h
              simp only [List.mem_singleton] at h
              subst h
              exact ⟨⟨i, s, by simp, rfl⟩, hv⟩
          · simp at h
        | _ => simp [points] at h
      · obtain ⟨⟨i, s, hm, hs⟩, h'⟩ := ih p h
        exact ⟨⟨i, s, by simp [hm], hs⟩, h'⟩
  have hxm : (x, v) ∈ points P f ops := by rw [e]; simp
  obtain ⟨⟨i, s, hm, hs⟩, hf⟩ := hmem _ hxm
  have hxl : x.length = n := by
    have e' : s.sol = x := hs
    rw [← e']; exact hlen i s hm
  have hb : best2 n st 0 = some (some (x, v)) := by
    cases hi : st.itf with
    | nil => exact absurd hi h2
    | cons g gs =>
      have : g = Info.bab 0 := h3 g (by rw [hi]; simp)
      subst this
      have hx0 : x ≠ [] := by intro e; rw [e] at hxl; simp at hxl; omega
      have hn0 : n ≠ 0 := by omega
      simp [best2, hi, h1, hxl, hn0]
  rw [hb] at hr
  have hr' := (Option.some.inj hr).symm
  have hfin : (finish dblMax b r).1.best = some x ∧ (finish dblMax b r).1.obj = v := by
    simp [finish, hobj, keepBest, hr']
  refine ⟨x, v, hfin.1, hfin.2, hf, hxm, ?_⟩
  intro p hp
  rw [e] at hp
  rcases List.mem_append.mp hp with h | h
  · exact le_of_lt (ha p h)
  · rcases List.mem_cons.mp h with h | h
    · rw [h]
    · exact hd p h

/-- A second search on the same setup starts from what the first one left: the points of both count. -/
theorem second_search (P : Prob) (f : List ℚ → Option ℚ) (hP : P.alt = some f) (ops1 ops2 : List Op)
    (h1 : ∀ o ∈ ops1, o.search = true) (h2 : ∀ o ∈ ops2, o.search = true)
    (st : St) (h : run P fresh (.start 0 :: ops1 ++ .start 0 :: ops2) = some st) :
    ∃ c, st.cells = [c] ∧ FirstBest (points P f ops1 ++ points P f ops2) c := by
  have ho : ∀ o ∈ ops1 ++ .start 0 :: ops2, o.search = true := by
    intro o hm
    rcases List.mem_append.mp hm with h | h
    · exact h1 o h
    · rcases List.mem_cons.mp h with h | h
      · rw [h]; rfl
      · exact h2 o h
  obtain ⟨c, hc, _, _, hb⟩ := recorded_partial P f hP (ops1 ++ .start 0 :: ops2) ho st h
  refine ⟨c, hc, ?_⟩
  rw [points_append] at hb
  simpa [points] using hb

/-! ## Concrete cases -/

/-- Two variables, the first integer; the alternative objective is the second variable. -/
def exP : Prob := ⟨some fun x => x[1]?, [true, false]⟩

/-- A solve at `[x, y]`. -/
def at2 (x y : ℚ) : Solve := ⟨true, [x, y], none⟩

example : run exP fresh [.start 0, .clone 0, .solve 1 (at2 1 5), .clone 1, .solve 2 (at2 0 3), .solve 0 (at2 (1/2) 1),
    .solve 0 (at2 4 3), .assign 2 0] = some ⟨[.bab 0, .bab 0, .bab 0], [⟨[0, 3], some 3⟩]⟩ := by decide +kernel

/-- The hypotheses of `returned_partial` are met by this search. -/
example : best2 2 ⟨[.bab 0, .bab 0, .bab 0], [⟨[0, 3], some 3⟩]⟩ 0 = some (some ([0, 3], 3)) := by decide +kernel

example : Counts [true, false] (at2 1 5) := by
  refine (counts_iff _ _).mp ?_
  decide +kernel

/-- The end of a search that found nothing itself. -/
def nothing (b2 : Option (List ℚ × ℚ)) : Run (List ℚ) :=
  { aborted := false, objects := 1, contOptimal := false, contInfeasible := true, contDualInfeasible := false, contSol := [], contObj := 0, best2 := b2, modelBest := none, modelObj := 0, modelBound := 0, remaining := true, status := 0, contUnbounded := false }

/-! ## Where the code differs from what is claimed -/

/-- A second search on the same setup (bounds changed so that the problem is infeasible, say) that finds nothing
returns the point of the first search and reports it as optimal. -/
theorem stale_point :
    ∃ (st : St), run exP fresh [.start 0, .clone 0, .solve 1 (at2 1 5), .start 0, .clone 0, .solve 2 ⟨false, [1, 5], none⟩] = some st ∧
      best2 2 st 0 = some (some ([1, 5], 5)) ∧
      finish 0 (Keeper.new _) (nothing (some ([1, 5], 5))) = (⟨some [1, 5], .feasibleOptimal, 5, 0⟩, .success) :=
  ⟨⟨[.bab 0, .bab 0, .bab 0], [⟨[1, 5], some 5⟩]⟩, by decide +kernel, by decide +kernel, by decide +kernel⟩

/-- Initialising the setup again gives the next search a cell of its own. -/
theorem init_again :
    (run exP fresh [.start 0, .solve 0 (at2 1 5), .init 0, .start 0]).bind (fun st => best2 2 st 0) = some none := by
  decide +kernel

/-- A copy of the interface made before the search (by a heuristic, say) does not take part: its better point is lost. -/
theorem early_copy_lost :
    (run exP fresh [.clone 0, .start 0, .solve 0 (at2 1 5), .solve 1 (at2 0 3)]).bind (fun st => best2 2 st 0) = some (some ([1, 5], 5)) := by
  decide +kernel

/-- If no object of the interface is a branching object of the search, the solution and the objective value returned
are those of the continuous solver: the alternative objective is ignored. -/
theorem no_objects_ignored (dblMax : ℚ) (b : Keeper (List ℚ)) (r : Run (List ℚ)) (p : Option (List ℚ × ℚ))
    (h : r.objects = 0) : finish dblMax b { r with best2 := p } = finish dblMax b r := by
  simp [finish, h, finishCont, Run.ret0]

/-- When the interface carries no objects only integrality is checked: a point violating a special ordered set is
recorded (here both variables of a type 1 set are positive), which the objects would have excluded. -/
theorem sets_ignored :
    integerSol [true, true] ⟨true, [1, 1], none⟩ = true ∧ integerSol [true, true] ⟨true, [1, 1], some [0, 0, 1]⟩ = false := by
  decide +kernel

/-- A user function that fails (returns false without setting the value) at an integer point makes the search undefined:
the return value is not looked at. -/
theorem failed_value_read : run ⟨some fun _ => none, [true, false]⟩ fresh [.start 0, .solve 0 (at2 1 5)] = none := by
  decide +kernel

/-- C94: setups, searches, copies and assignments are defined only for objects that exist. -/
theorem absent_undefined (P : Prob) (st : St) (i j : ℕ) (hi : st.itf.length ≤ i) : step P st (.init i) = none ∧ step P st (.start i) = none ∧ step P st (.clone i) = none ∧
    step P st (.assign i j) = none ∧ step P st (.assign j i) = none := by
  have h : st.itf[i]? = none := List.getElem?_eq_none hi
  refine ⟨by simp [step]; omega, by simp [step, adopt, h], by simp [step, h], by simp [step, h], ?_⟩
  simp only [step]
  cases st.itf[j]? with
  | none => rfl
  | some f => simp; omega

/-- What the end of `branchAndBound` reads: nothing if the recorded point is empty; the point and its value if it is as long as the problem and the value was written; everything else is undefined (no `BabInfo`, a point of
another length, a value that was never written). -/
theorem read_exact (n : ℕ) (st : St) (i : ℕ) :
    (best2 n st i = some none ↔ ∃ c o, st.itf[i]? = some (.bab c) ∧ st.cells[c]? = some ⟨[], o⟩) ∧
    (∀ x v, best2 n st i = some (some (x, v)) ↔ ∃ c, st.itf[i]? = some (.bab c) ∧ st.cells[c]? = some ⟨x, some v⟩ ∧ x ≠ [] ∧ x.length = n) := by
  unfold best2
  cases hi : st.itf[i]? with
  | none => simp
  | some g =>
    cases g with
    | bab c =>
      cases hc : st.cells[c]? with
      | none => simp [hc]
      | some e =>
        obtain ⟨x, o⟩ := e
        cases o with
        | none =>
          by_cases hx : x.length = 0
          · simp [hc, List.length_eq_zero_iff.mp hx]
          · have : x ≠ [] := fun h => hx (by simp [h])
            simp [hc, this]
        | some v =>
          rcases x with _ | ⟨q, x⟩
          · simp only [hc, List.length_nil, if_true, Option.some.injEq, Info.bab.injEq, reduceCtorEq, false_iff, not_exists, not_and]
            refine ⟨⟨fun _ => ⟨c, some v, rfl, hc⟩, fun _ => trivial⟩, ?_⟩
            rintro a b _ rfl h
            rw [hc] at h
            cases h
            intro h
            exact absurd rfl h
          · by_cases hn : (q :: x).length = n
            · simp only [hc]
              rw [if_neg (by simp), if_pos hn]
              refine ⟨⟨fun h => (by cases h), ?_⟩, fun a b => ⟨?_, ?_⟩⟩
              · rintro ⟨d, o, h, h'⟩
                cases h
                rw [hc] at h'
                cases h'
              · intro h
                cases h
                exact ⟨c, rfl, hc, by simp, hn⟩
              · rintro ⟨d, h, h', _, _⟩
                cases h
                rw [hc] at h'
                cases h'
                rfl
            · simp only [hc]
              rw [if_neg (by simp), if_neg hn]
              refine ⟨⟨fun h => (by cases h), ?_⟩, fun a b => ⟨fun h => (by cases h), ?_⟩⟩
              · rintro ⟨d, o, h, h'⟩
                cases h
                rw [hc] at h'
                cases h'
              · rintro ⟨d, h, h', _, h''⟩
                cases h
                rw [hc] at h'
                cases h'
                exact absurd h'' hn
    | _ => simp

end Verif.Bab.AltObj

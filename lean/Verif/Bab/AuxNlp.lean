import Mathlib.Data.Rat.Defs
import Mathlib.Algebra.Order.Ring.Rat
import Mathlib.Logic.Function.Basic

/-!
# Passing NLP solutions between components
`src/Interfaces/BonAuxInfos.cpp`, `src/Interfaces/BonAuxInfos.hpp:24-107`.

`AuxInfo` objects hold an array for "a solution found by an nlp solver".  They are cloned with the solver they
belong to.  The arrays are modelled as a heap, so that freeing twice and writing to freed memory show.
`COIN_DBL_MAX` is `none`; the alternative objective is in `Verif.Bab.AltObj`, `OsiBabSolver`'s members are not
modelled.
-/
namespace Verif.Bab.AuxNlp

/-- The members of `AuxInfo` (BonAuxInfos.hpp:93-102); `ptr` is `nlpSolution_`, an address in the heap. -/
structure Obj where
  infeasible : Bool
  obj : Option ℚ
  ptr : Option ℕ
  numcols : ℕ
  has : Bool
deriving DecidableEq

/-- Objects by number (`none` = not created or destroyed), arrays by address (`none` = not allocated or freed; an
entry `none` is not initialised), and how many of each were created. -/
structure St where
  objs : ℕ → Option Obj
  bufs : ℕ → Option (List (Option ℚ))
  nObj : ℕ
  nBuf : ℕ

/-- Nothing created. -/
def St.empty : St := ⟨fun _ => none, fun _ => none, 0, 0⟩

/-- The constructors other than the copy constructor (BonAuxInfos.cpp:18-39). -/
def Obj.new : Obj := ⟨false, none, none, 0, false⟩

/-- `delete [] p`; `none` = freed before. -/
def free (st : St) : Option ℕ → Option St
  | none => some st
  | some p => if (st.bufs p).isSome then some { st with bufs := Function.update st.bufs p none } else none

/-- Copy constructor (41-57); `dbg` = assertions are compiled in.  `none` = assertion failure, or the array copied
is freed or too short. -/
def copyObj (dbg : Bool) (st : St) (o : Obj) : Option St :=
  match o.ptr with
  | none => some { st with objs := Function.update st.objs st.nObj (some o), nObj := st.nObj + 1 }
  | some p =>
    if dbg ∧ o.numcols = 0 then none
    else
      match st.bufs p with
      | none => none
      | some b =>
        if o.numcols + 1 ≤ b.length then
          some { objs := Function.update st.objs st.nObj (some { o with ptr := some st.nBuf }), bufs := Function.update st.bufs st.nBuf (some (b.take (o.numcols + 1))), nObj := st.nObj + 1, nBuf := st.nBuf + 1 }
        else none

/-- The array after `CoinCopyN(sol, n, b); b[n] = v` (88-89). -/
def fill (b : List (Option ℚ)) (sol : List ℚ) (n : ℕ) (v : ℚ) : List (Option ℚ) :=
  (sol.take n).map some ++ [some v] ++ b.drop (n + 1)

/-- First half of `setNlpSolution` (80-87): the array is replaced if it is too short. -/
def ready (st : St) (o : Obj) (n : ℕ) : Option (St × Obj) :=
  match (if o.numcols < n then (free st o.ptr).map (fun s => (s, { o with ptr := none })) else some (st, o)) with
  | none => none
  | some (s, o) =>
    match o.ptr with
    | some _ => some (s, o)
    | none => some ({ s with bufs := Function.update s.bufs s.nBuf (some (List.replicate (n + 1) none)), nBuf := s.nBuf + 1 }, { o with ptr := some s.nBuf, numcols := n })

/-- `setNlpSolution` (76-91) on object `i`; `none` = out of bounds or freed array, or no such object. -/
def setSol (st : St) (i : ℕ) (sol : List ℚ) (n : ℕ) (v : ℚ) : Option St :=
  match st.objs i with
  | none => none
  | some o =>
    if sol.length < n then none
    else
      match ready st o n with
      | none => none
      | some (s, o) =>
        match o.ptr.bind s.bufs, o.ptr with
        | some b, some p =>
          if n + 1 ≤ b.length then
            some { s with objs := Function.update s.objs i (some { o with obj := some v }), bufs := Function.update s.bufs p (some (fill b sol n v)) }
          else none
        | _, _ => none

/-- Calls on `AuxInfo` objects.  `assign i j` is `*j = *i` with the assignment operator the compiler generates. -/
inductive Op where
  | create | copy (i : ℕ) | assign (i j : ℕ) | destroy (i : ℕ)
  | setSol (i : ℕ) (sol : List ℚ) (n : ℕ) (v : ℚ) | setHas (i : ℕ) (b : Bool) | setInf (i : ℕ) (b : Bool)

/-- One call; `none` = undefined behaviour or assertion failure. -/
def step (dbg : Bool) (st : St) : Op → Option St
  | .create => some { st with objs := Function.update st.objs st.nObj (some Obj.new), nObj := st.nObj + 1 }
  | .copy i => (st.objs i).bind (copyObj dbg st)
  | .assign i j =>
    match st.objs i, st.objs j with
    | some o, some _ => some { st with objs := Function.update st.objs j (some o) }
    | _, _ => none
  | .destroy i => (st.objs i).bind fun o => (free st o.ptr).map fun s => { s with objs := Function.update s.objs i none }
  | .setSol i sol n v => setSol st i sol n v
  | .setHas i b => (st.objs i).map fun o => { st with objs := Function.update st.objs i (some { o with has := b }) }
  | .setInf i b => (st.objs i).map fun o => { st with objs := Function.update st.objs i (some { o with infeasible := b }) }

/-- A sequence of calls. -/
def run (dbg : Bool) : St → List Op → Option St
  | st, [] => some st
  | st, o :: os => (step dbg st o).bind fun s => run dbg s os

/-- `nlpSolution()` (BonAuxInfos.hpp:54-60): the array, `some none` = the null pointer. -/
def nlpSolution (st : St) (i : ℕ) : Option (Option (List (Option ℚ))) :=
  match st.objs i with
  | none => none
  | some o =>
    if o.has then
      match o.ptr with
      | none => some none
      | some p => (st.bufs p).map some
    else some none

/-- `nlpObjValue()` (BonAuxInfos.cpp:73-74). -/
def nlpObjValue (st : St) (i : ℕ) : Option (Option ℚ) :=
  (st.objs i).map fun o => if o.has then o.obj else none

/-- `infeasibleNode()` (BonAuxInfos.hpp:50-51). -/
def infeasibleNode (st : St) (i : ℕ) : Option Bool := (st.objs i).map (·.infeasible)

/-! ## Specification: objects are values -/

/-- What an object knows: the latest solution passed to it with its objective value. -/
structure View where
  last : Option (List ℚ × ℚ)
  has : Bool
  infeasible : Bool

/-- Objects as values: by number, with how many were created. -/
structure Spec where
  objs : ℕ → Option View
  count : ℕ

def Spec.empty : Spec := ⟨fun _ => none, 0⟩

/-- Each call acts on its own object only; a copy knows what the original knows. -/
def Spec.step (s : Spec) : Op → Spec
  | .create => ⟨Function.update s.objs s.count (some ⟨none, false, false⟩), s.count + 1⟩
  | .copy i => ⟨Function.update s.objs s.count (s.objs i), s.count + 1⟩
  | .assign i j => ⟨Function.update s.objs j (s.objs i), s.count⟩
  | .destroy i => ⟨Function.update s.objs i none, s.count⟩
  | .setSol i sol n v => ⟨Function.update s.objs i ((s.objs i).map fun o => { o with last := some (sol.take n, v) }), s.count⟩
  | .setHas i b => ⟨Function.update s.objs i ((s.objs i).map fun o => { o with has := b }), s.count⟩
  | .setInf i b => ⟨Function.update s.objs i ((s.objs i).map fun o => { o with infeasible := b }), s.count⟩

def Spec.run (s : Spec) (ops : List Op) : Spec := ops.foldl Spec.step s

/-- No assignment. -/
def Op.plain : Op → Bool
  | .assign _ _ => false
  | _ => true

/-! ## Refinement -/

/-- Object `o` of the model shows the view `w`. -/
def Shows (bufs : ℕ → Option (List (Option ℚ))) (o : Obj) (w : View) : Prop :=
  o.has = w.has ∧ o.infeasible = w.infeasible ∧
  match w.last with
  | none => o.ptr = none ∧ o.obj = none ∧ o.numcols = 0
  | some (x, v) => o.obj = some v ∧ ∃ p b, o.ptr = some p ∧ bufs p = some b ∧ b.length = o.numcols + 1 ∧
      x.length ≤ o.numcols ∧ b.take (x.length + 1) = x.map some ++ [some v]

/-- The state refines the specification: same objects, each with its own array. -/
structure Ref (st : St) (s : Spec) : Prop where
  count : st.nObj = s.count
  dom : ∀ i, st.nObj ≤ i → st.objs i = none
  fresh : ∀ p, st.nBuf ≤ p → st.bufs p = none
  shows : ∀ i, (st.objs i = none ∧ s.objs i = none) ∨
    ∃ o w, st.objs i = some o ∧ s.objs i = some w ∧ Shows st.bufs o w
  own : ∀ i j oi oj p, st.objs i = some oi → st.objs j = some oj → oi.ptr = some p → oj.ptr = some p → i = j
  owned : ∀ p, st.bufs p ≠ none → ∃ i o, st.objs i = some o ∧ o.ptr = some p

theorem ref_empty : Ref St.empty Spec.empty :=
  ⟨rfl, fun _ _ => rfl, fun _ _ => rfl, fun _ => Or.inl ⟨rfl, rfl⟩, by intro i j oi oj p h; simp [St.empty] at h, by intro p h; simp [St.empty] at h⟩

theorem Shows.live {bufs : ℕ → Option (List (Option ℚ))} {o : Obj} {w : View} (h : Shows bufs o w) {p : ℕ} (hp : o.ptr = some p) :
    ∃ b, bufs p = some b ∧ b.length = o.numcols + 1 := by
  obtain ⟨_, _, h⟩ := h
  cases hl : w.last with
  | none => rw [hl] at h; rw [h.1] at hp; simp at hp
  | some xv =>
    rw [hl] at h
    obtain ⟨_, q, b, hq, hb, hlen, _⟩ := h
    rw [hq] at hp; obtain rfl := Option.some.inj hp
    exact ⟨b, hb, hlen⟩

/-- A view depends on the array of the object only. -/
theorem Shows.congr {b1 b2 : ℕ → Option (List (Option ℚ))} {o : Obj} {w : View} (h : Shows b1 o w)
    (e : ∀ p, o.ptr = some p → b2 p = b1 p) : Shows b2 o w := by
  obtain ⟨h1, h2, h3⟩ := h
  refine ⟨h1, h2, ?_⟩
  cases hl : w.last with
  | none => rw [hl] at h3; exact h3
  | some xv =>
    rw [hl] at h3
    obtain ⟨ho, p, b, hp, hb, r⟩ := h3
    exact ⟨ho, p, b, hp, by rw [e p hp]; exact hb, r⟩

theorem Ref.old {st : St} {s : Spec} (h : Ref st s) {i : ℕ} {o : Obj} (hi : st.objs i = some o) : i < st.nObj := by
  by_contra hn
  rw [h.dom i (not_lt.mp hn)] at hi; simp at hi

theorem Ref.get {st : St} {s : Spec} (h : Ref st s) {i : ℕ} {o : Obj} (hi : st.objs i = some o) :
    ∃ w, s.objs i = some w ∧ Shows st.bufs o w := by
  rcases h.shows i with ⟨h1, _⟩ | ⟨o', w, h1, h2, h3⟩
  · rw [h1] at hi; simp at hi
  · rw [h1] at hi; obtain rfl := Option.some.inj hi; exact ⟨w, h2, h3⟩

theorem Ref.ptr_old {st : St} {s : Spec} (h : Ref st s) {i : ℕ} {o : Obj} (hi : st.objs i = some o) {p : ℕ} (hp : o.ptr = some p) :
    p < st.nBuf := by
  obtain ⟨w, _, hw⟩ := h.get hi
  obtain ⟨b, hb, _⟩ := hw.live hp
  by_contra hn
  rw [h.fresh p (not_lt.mp hn)] at hb; simp at hb

/-- Replacing one object, possibly with changes to arrays no other object has. -/
theorem Ref.replace {st : St} {s : Spec} (h : Ref st s) (i n : ℕ) (hn : st.nObj ≤ n) (hi : i < n)
    (bufs : ℕ → Option (List (Option ℚ))) (nb : ℕ)
    (hf : ∀ p, nb ≤ p → bufs p = none)
    (ho : ∀ j o p, j ≠ i → st.objs j = some o → o.ptr = some p → bufs p = st.bufs p)
    (c : Option Obj) (w : Option View)
    (hcw : (c = none ∧ w = none) ∨ ∃ o v, c = some o ∧ w = some v ∧ Shows bufs o v)
    (hd : ∀ o p, c = some o → o.ptr = some p → ∀ j oj, j ≠ i → st.objs j = some oj → oj.ptr ≠ some p)
    (hl : ∀ p, bufs p ≠ none → (∃ o, c = some o ∧ o.ptr = some p) ∨ st.bufs p ≠ none ∧ ∀ o, st.objs i = some o → o.ptr ≠ some p) :
    Ref ⟨Function.update st.objs i c, bufs, n, nb⟩ ⟨Function.update s.objs i w, n⟩ := by
  refine ⟨rfl, ?_, hf, ?_, ?_, ?_⟩
  · intro j hj
    have hj : n ≤ j := hj
    have : j ≠ i := by omega
    simp only [Function.update_of_ne this]
    exact h.dom j (by omega)
  · intro j
    by_cases hj : j = i
    · subst hj; simpa using hcw
    · simp only [Function.update_of_ne hj]
      rcases h.shows j with h1 | ⟨o, v, h1, h2, h3⟩
      · exact Or.inl h1
      · exact Or.inr ⟨o, v, h1, h2, h3.congr fun p hp => ho j o p hj h1 hp⟩
  · intro j k oj ok p hj hk pj pk
    by_cases ej : j = i <;> by_cases ek : k = i
    · omega
    · subst ej
      simp only [Function.update_self] at hj
      simp only [Function.update_of_ne ek] at hk
      exact absurd pk (hd _ _ hj pj k ok ek hk)
    · subst ek
      simp only [Function.update_self] at hk
      simp only [Function.update_of_ne ej] at hj
      exact absurd pj (hd _ _ hk pk j oj ej hj)
    · simp only [Function.update_of_ne ej] at hj
      simp only [Function.update_of_ne ek] at hk
      exact h.own j k oj ok p hj hk pj pk
  · intro p hp
    rcases hl p hp with ⟨o, e1, e2⟩ | ⟨e1, e2⟩
    · exact ⟨i, o, by simp [e1], e2⟩
    · obtain ⟨j, o, f1, f2⟩ := h.owned p e1
      have : j ≠ i := by intro e; subst e; exact e2 o f1 f2
      exact ⟨j, o, by simp [Function.update_of_ne this, f1], f2⟩

theorem fill_length (b : List (Option ℚ)) (sol : List ℚ) (n : ℕ) (v : ℚ) (h : n ≤ sol.length) (hb : n + 1 ≤ b.length) :
    (fill b sol n v).length = b.length := by
  simp [fill]; omega

theorem fill_take (b : List (Option ℚ)) (sol : List ℚ) (n : ℕ) (v : ℚ) :
    (fill b sol n v).take ((sol.take n).length + 1) = (sol.take n).map some ++ [some v] := by
  have : ((sol.take n).map some ++ [some v]).length = (sol.take n).length + 1 := by simp
  rw [fill, ← this, List.take_left']
  rfl

/-- `setNlpSolution` on a state that refines a specification is defined and refines the specification. -/
theorem setSol_ref {st : St} {s : Spec} (h : Ref st s) (i : ℕ) (sol : List ℚ) (n : ℕ) (v : ℚ) (o : Obj)
    (hi : st.objs i = some o) (hn : n ≤ sol.length) :
    ∃ st', setSol st i sol n v = some st' ∧ Ref st' (s.step (.setSol i sol n v)) := by
  obtain ⟨w, hw, hs⟩ := h.get hi
  have hio := h.old hi
  have others : ∀ j oj p, j ≠ i → st.objs j = some oj → oj.ptr = some p → o.ptr ≠ some p := by
    intro j oj p hj h1 h2 h3
    exact hj (h.own j i oj o p h1 hi h2 h3)
  have hc : s.count = st.nObj := h.count.symm
  have hstep : s.step (.setSol i sol n v) = ⟨Function.update s.objs i (some { w with last := some (sol.take n, v) }), st.nObj⟩ := by
    simp [Spec.step, hw, hc]
  rw [hstep]
  have hlen : (sol.take n).length = n := by simp [hn]
  -- the object after `ready` has array `p` of length `k + 1`
  have fin : ∀ (s1 : St) (o1 : Obj) (p : ℕ) (b : List (Option ℚ)), ready st o n = some (s1, o1) → o1.ptr = some p →
      s1.bufs p = some b → b.length = o1.numcols + 1 → n ≤ o1.numcols → s1.objs = st.objs → s1.nObj = st.nObj → st.nBuf ≤ s1.nBuf →
      (∀ q, s1.nBuf ≤ q → s1.bufs q = none) → p < s1.nBuf →
      (∀ j oj q, j ≠ i → st.objs j = some oj → oj.ptr = some q → s1.bufs q = st.bufs q ∧ q ≠ p) →
      o1.has = o.has → o1.infeasible = o.infeasible →
      (∀ q, s1.bufs q ≠ none → q = p ∨ st.bufs q ≠ none ∧ o.ptr ≠ some q) →
      ∃ st', setSol st i sol n v = some st' ∧
        Ref st' ⟨Function.update s.objs i (some { w with last := some (sol.take n, v) }), st.nObj⟩ := by
    intro s1 o1 p b hr hp hb hbl hno hobjs hnO hnB hfresh hpn hoth hh hinf hown
    refine ⟨{ s1 with objs := Function.update s1.objs i (some { o1 with obj := some v }), bufs := Function.update s1.bufs p (some (fill b sol n v)) }, ?_, ?_⟩
    · unfold setSol
      rw [hi]
      simp only [hr]
      rw [if_neg (by omega)]
      simp only [hp, Option.bind_some, hb]
      rw [if_pos (by omega)]
    · rw [hobjs]
      have := h.replace i st.nObj le_rfl hio (Function.update s1.bufs p (some (fill b sol n v))) s1.nBuf
        (by intro q hq; rw [Function.update_of_ne (by omega)]; exact hfresh q hq)
        (by
          intro j oj q hj h1 h2
          obtain ⟨e1, e2⟩ := hoth j oj q hj h1 h2
          rw [Function.update_of_ne e2]; exact e1)
        (some { o1 with obj := some v }) (some { w with last := some (sol.take n, v) })
        (Or.inr ⟨_, _, rfl, rfl, by rw [← hs.1]; exact hh, by rw [← hs.2.1]; exact hinf, rfl, p, fill b sol n v, hp, by simp,
          by rw [fill_length _ _ _ _ hn (by omega)]; exact hbl, by rw [hlen]; exact hno, fill_take _ _ _ _⟩)
        (by
          intro oc q e1 e2 j oj hj h1 h2
          obtain rfl := Option.some.inj e1
          rw [hp] at e2
          obtain rfl := Option.some.inj e2
          exact (hoth j oj p hj h1 h2).2 rfl)
        (by
          intro q hq
          by_cases e : q = p
          · exact Or.inl ⟨_, rfl, by rw [e]; exact hp⟩
          · rw [Function.update_of_ne e] at hq
            rcases hown q hq with e' | ⟨e1, e2⟩
            · exact absurd e' e
            · refine Or.inr ⟨e1, fun o' e' => ?_⟩
              rw [hi] at e'; obtain rfl := Option.some.inj e'; exact e2)
      rw [← hnO] at this ⊢
      exact this
  cases hop : o.ptr with
  | none =>
    -- nothing to free: a new array
    have hr : ready st o n = some ({ st with bufs := Function.update st.bufs st.nBuf (some (List.replicate (n + 1) none)), nBuf := st.nBuf + 1 }, { o with ptr := some st.nBuf, numcols := n }) := by
      unfold ready
      by_cases hlt : o.numcols < n
      · rw [if_pos hlt]; simp [hop, free]
      · rw [if_neg hlt]; simp [hop]
    refine fin _ _ st.nBuf (List.replicate (n + 1) none) hr rfl (by simp) (by simp) (le_refl n) rfl rfl (Nat.le_succ _) ?_ (Nat.lt_succ_self _) ?_ rfl rfl ?_
    · intro q hq
      have hq : st.nBuf + 1 ≤ q := hq
      have : q ≠ st.nBuf := by omega
      simp only [Function.update_of_ne this]
      exact h.fresh q (by omega)
    · intro j oj q hj h1 h2
      have := h.ptr_old h1 h2
      have : q ≠ st.nBuf := by omega
      exact ⟨by simp [Function.update_of_ne this], this⟩
    · intro q hq
      by_cases e : q = st.nBuf
      · exact Or.inl e
      · simp only [Function.update_of_ne e] at hq
        exact Or.inr ⟨hq, by rw [hop]; simp⟩
  | some p =>
    obtain ⟨b, hb, hbl⟩ := hs.live hop
    have hpo := h.ptr_old hi hop
    by_cases hlt : o.numcols < n
    · have hr : ready st o n = some ({ st with bufs := Function.update (Function.update st.bufs p none) st.nBuf (some (List.replicate (n + 1) none)), nBuf := st.nBuf + 1 }, { o with ptr := some st.nBuf, numcols := n }) := by
        unfold ready
        rw [if_pos hlt]; simp [hop, free, hb]
      refine fin _ _ st.nBuf (List.replicate (n + 1) none) hr rfl (by simp) (by simp) (le_refl n) rfl rfl (Nat.le_succ _) ?_ (Nat.lt_succ_self _) ?_ rfl rfl ?_
      · intro q hq
        have hq : st.nBuf + 1 ≤ q := hq
        have h1 : q ≠ st.nBuf := by omega
        have h2 : q ≠ p := by omega
        simp only [Function.update_of_ne h1, Function.update_of_ne h2]
        exact h.fresh q (by omega)
      · intro j oj q hj h1 h2
        have := h.ptr_old h1 h2
        have h3 : q ≠ st.nBuf := by omega
        have h4 : q ≠ p := by
          intro e; subst e
          exact others j oj q hj h1 h2 hop
        exact ⟨by simp [Function.update_of_ne h3, Function.update_of_ne h4], h3⟩
      · intro q hq
        by_cases e : q = st.nBuf
        · exact Or.inl e
        · simp only [Function.update_of_ne e] at hq
          by_cases e2 : q = p
          · subst e2; simp at hq
          · rw [Function.update_of_ne e2] at hq
            exact Or.inr ⟨hq, by rw [hop]; intro e'; exact e2 (Option.some.inj e').symm⟩
    · have hr : ready st o n = some (st, o) := by
        unfold ready
        rw [if_neg hlt]; simp [hop]
      refine fin _ _ p b hr hop hb hbl (not_lt.mp hlt) rfl rfl le_rfl h.fresh hpo ?_ rfl rfl ?_
      · intro j oj q hj h1 h2
        refine ⟨rfl, ?_⟩
        intro e; subst e
        exact others j oj q hj h1 h2 hop
      · intro q hq
        by_cases e : q = p
        · exact Or.inl e
        · exact Or.inr ⟨hq, by rw [hop]; intro e'; exact e (Option.some.inj e').symm⟩

/-- The calls that are allowed: on existing objects, with arrays long enough, and with assertions compiled in no copy
of an object whose solution has no variables. -/
def Allowed (dbg : Bool) (s : Spec) : Op → Prop
  | .create => True
  | .copy i => ∃ w, s.objs i = some w ∧ (dbg = true → ∀ x v, w.last = some (x, v) → x ≠ [])
  | .assign _ _ => False
  | .destroy i => ∃ w, s.objs i = some w
  | .setSol i sol n _ => n ≤ sol.length ∧ ∃ w, s.objs i = some w
  | .setHas i _ => ∃ w, s.objs i = some w
  | .setInf i _ => ∃ w, s.objs i = some w

/-- Every call of a sequence is allowed when it is made. -/
def AllAllowed (dbg : Bool) : Spec → List Op → Prop
  | _, [] => True
  | s, o :: os => Allowed dbg s o ∧ AllAllowed dbg (s.step o) os

theorem Ref.has {st : St} {s : Spec} (h : Ref st s) {i : ℕ} {w : View} (hw : s.objs i = some w) :
    ∃ o, st.objs i = some o ∧ Shows st.bufs o w := by
  rcases h.shows i with ⟨_, h1⟩ | ⟨o', w', h1, h2, h3⟩
  · rw [h1] at hw; simp at hw
  · rw [h2] at hw; obtain rfl := Option.some.inj hw; exact ⟨o', h1, h3⟩

theorem step_ref {dbg : Bool} {st : St} {s : Spec} (h : Ref st s) (op : Op) (ha : Allowed dbg s op) :
    ∃ st', step dbg st op = some st' ∧ Ref st' (s.step op) := by
  have hc : s.count = st.nObj := h.count.symm
  cases op with
  | create =>
    refine ⟨_, rfl, ?_⟩
    have := h.replace st.nObj (st.nObj + 1) (Nat.le_succ _) (Nat.lt_succ_self _) st.bufs st.nBuf h.fresh
      (fun _ _ _ _ _ _ => rfl) (some Obj.new) (some ⟨none, false, false⟩)
      (Or.inr ⟨_, _, rfl, rfl, rfl, rfl, rfl, rfl, rfl⟩)
      (by intro o p e1 e2; obtain rfl := Option.some.inj e1; simp [Obj.new] at e2)
      (fun p hp => Or.inr ⟨hp, by intro o e; rw [h.dom _ le_rfl] at e; simp at e⟩)
    simpa [Spec.step, hc] using this
  | assign i j => exact absurd ha (by simp [Allowed])
  | setSol i sol n v =>
    obtain ⟨hn, w, hw⟩ := ha
    obtain ⟨o, ho, _⟩ := h.has hw
    exact setSol_ref h i sol n v o ho hn
  | setHas i b =>
    obtain ⟨w, hw⟩ := ha
    obtain ⟨o, ho, hs⟩ := h.has hw
    refine ⟨{ st with objs := Function.update st.objs i (some { o with has := b }) }, by simp [step, ho], ?_⟩
    have := h.replace i st.nObj le_rfl (h.old ho) st.bufs st.nBuf h.fresh (fun _ _ _ _ _ _ => rfl)
      (some { o with has := b }) (some { w with has := b })
      (Or.inr ⟨_, _, rfl, rfl, rfl, hs.2.1, hs.2.2⟩)
      (by
        intro o' p e1 e2 j oj hj h1 h2
        obtain rfl := Option.some.inj e1
        exact hj (h.own j i oj o p h1 ho h2 e2))
      (by
        intro p hp
        by_cases e : o.ptr = some p
        · exact Or.inl ⟨_, rfl, e⟩
        · refine Or.inr ⟨hp, fun o' e' => ?_⟩
          rw [ho] at e'; obtain rfl := Option.some.inj e'; exact e)
    simpa [Spec.step, hc, hw] using this
  | setInf i b =>
    obtain ⟨w, hw⟩ := ha
    obtain ⟨o, ho, hs⟩ := h.has hw
    refine ⟨{ st with objs := Function.update st.objs i (some { o with infeasible := b }) }, by simp [step, ho], ?_⟩
    have := h.replace i st.nObj le_rfl (h.old ho) st.bufs st.nBuf h.fresh (fun _ _ _ _ _ _ => rfl)
      (some { o with infeasible := b }) (some { w with infeasible := b })
      (Or.inr ⟨_, _, rfl, rfl, hs.1, rfl, hs.2.2⟩)
      (by
        intro o' p e1 e2 j oj hj h1 h2
        obtain rfl := Option.some.inj e1
        exact hj (h.own j i oj o p h1 ho h2 e2))
      (by
        intro p hp
        by_cases e : o.ptr = some p
        · exact Or.inl ⟨_, rfl, e⟩
        · refine Or.inr ⟨hp, fun o' e' => ?_⟩
          rw [ho] at e'; obtain rfl := Option.some.inj e'; exact e)
    simpa [Spec.step, hc, hw] using this
  | destroy i =>
    obtain ⟨w, hw⟩ := ha
    obtain ⟨o, ho, hs⟩ := h.has hw
    cases hp : o.ptr with
    | none =>
      refine ⟨{ st with objs := Function.update st.objs i none }, by simp [step, ho, free, hp], ?_⟩
      have := h.replace i st.nObj le_rfl (h.old ho) st.bufs st.nBuf h.fresh (fun _ _ _ _ _ _ => rfl)
        none none (Or.inl ⟨rfl, rfl⟩) (by intro o' p e1; simp at e1)
        (fun p hp' => Or.inr ⟨hp', fun o' e' => by rw [ho] at e'; obtain rfl := Option.some.inj e'; rw [hp]; simp⟩)
      simpa [Spec.step, hc] using this
    | some p =>
      obtain ⟨b, hb, _⟩ := hs.live hp
      refine ⟨{ st with objs := Function.update st.objs i none, bufs := Function.update st.bufs p none }, by simp [step, ho, free, hp, hb], ?_⟩
      have := h.replace i st.nObj le_rfl (h.old ho) (Function.update st.bufs p none) st.nBuf
        (by
          intro q hq
          by_cases e : q = p
          · subst e; simp
          · rw [Function.update_of_ne e]; exact h.fresh q hq)
        (by
          intro j oj q hj h1 h2
          have e : q ≠ p := by
            intro e; subst e
            exact hj (h.own j i oj o q h1 ho h2 hp)
          rw [Function.update_of_ne e])
        none none (Or.inl ⟨rfl, rfl⟩) (by intro o' p e1; simp at e1)
        (by
          intro q hq
          by_cases e : q = p
          · subst e; simp at hq
          · rw [Function.update_of_ne e] at hq
            refine Or.inr ⟨hq, fun o' e' => ?_⟩
            rw [ho] at e'; obtain rfl := Option.some.inj e'
            rw [hp]; intro e'; exact e (Option.some.inj e').symm)
      simpa [Spec.step, hc] using this
  | copy i =>
    obtain ⟨w, hw, hd⟩ := ha
    obtain ⟨o, ho, hs⟩ := h.has hw
    cases hp : o.ptr with
    | none =>
      refine ⟨{ st with objs := Function.update st.objs st.nObj (some o), nObj := st.nObj + 1 }, by simp [step, ho, copyObj, hp], ?_⟩
      have := h.replace st.nObj (st.nObj + 1) (Nat.le_succ _) (Nat.lt_succ_self _) st.bufs st.nBuf h.fresh
        (fun _ _ _ _ _ _ => rfl) (some o) (some w) (Or.inr ⟨_, _, rfl, rfl, hs⟩)
        (by intro o' q e1 e2; obtain rfl := Option.some.inj e1; rw [hp] at e2; simp at e2)
        (fun p hp => Or.inr ⟨hp, by intro o e; rw [h.dom _ le_rfl] at e; simp at e⟩)
      simpa [Spec.step, hc, hw] using this
    | some p =>
      obtain ⟨b, hb, hbl⟩ := hs.live hp
      obtain ⟨h1, h2, h3⟩ := hs
      cases hl : w.last with
      | none => rw [hl] at h3; rw [h3.1] at hp; simp at hp
      | some xv =>
        obtain ⟨x, v⟩ := xv
        rw [hl] at h3
        obtain ⟨hov, p', b', hp', hb', _, hxl, htk⟩ := h3
        rw [hp] at hp'; obtain rfl := Option.some.inj hp'
        rw [hb] at hb'; obtain rfl := Option.some.inj hb'
        have hdb : ¬ (dbg = true ∧ o.numcols = 0) := by
          rintro ⟨e1, e2⟩
          have := hd e1 x v hl
          rw [e2] at hxl
          exact this (List.length_eq_zero_iff.mp (Nat.le_zero.mp hxl))
        have hbt : b.take (o.numcols + 1) = b := List.take_of_length_le (by omega)
        refine ⟨{ objs := Function.update st.objs st.nObj (some { o with ptr := some st.nBuf }), bufs := Function.update st.bufs st.nBuf (some (b.take (o.numcols + 1))), nObj := st.nObj + 1, nBuf := st.nBuf + 1 }, ?_, ?_⟩
        · simp only [step, ho, Option.bind_some, copyObj, hp]
          rw [if_neg hdb]
          simp only [hb]
          rw [if_pos (by omega)]
        · have := h.replace st.nObj (st.nObj + 1) (Nat.le_succ _) (Nat.lt_succ_self _)
            (Function.update st.bufs st.nBuf (some (b.take (o.numcols + 1)))) (st.nBuf + 1)
            (by intro q hq; rw [Function.update_of_ne (by omega)]; exact h.fresh q (by omega))
            (by
              intro j oj q hj e1 e2
              have := h.ptr_old e1 e2
              rw [Function.update_of_ne (by omega)])
            (some { o with ptr := some st.nBuf }) (some w)
            (Or.inr ⟨_, _, rfl, rfl, h1, h2, by
              rw [hl]
              exact ⟨hov, st.nBuf, b, rfl, by simp [hbt], hbl, hxl, htk⟩⟩)
            (by
              intro o' q e1 e2 j oj hj f1 f2
              obtain rfl := Option.some.inj e1
              obtain rfl := Option.some.inj e2
              have := h.ptr_old f1 f2
              omega)
            (by
              intro q hq
              by_cases e : q = st.nBuf
              · exact Or.inl ⟨_, rfl, by rw [e]⟩
              · rw [Function.update_of_ne e] at hq
                exact Or.inr ⟨hq, by intro o e; rw [h.dom _ le_rfl] at e; simp at e⟩)
          simpa [Spec.step, hc, hw] using this

theorem run_ref {dbg : Bool} (ops : List Op) : ∀ {st : St} {s : Spec}, Ref st s → AllAllowed dbg s ops →
    ∃ st', run dbg st ops = some st' ∧ Ref st' (s.run ops) := by
  induction ops with
  | nil => intro st s h _; exact ⟨st, rfl, h⟩
  | cons o os ih =>
    intro st s h ha
    obtain ⟨s1, e1, h1⟩ := step_ref h o ha.1
    obtain ⟨s2, e2, h2⟩ := ih h1 ha.2
    exact ⟨s2, by simp [run, e1, e2], h2⟩

/-! ## Theorems -/

/-- What a user of the object can expect of `nlpSolution()`: null without a solution or when the flag is off;
otherwise an array starting with the latest solution followed by its objective value. -/
def Gives (w : View) (r : Option (List (Option ℚ))) : Prop :=
  match w.has, w.last with
  | true, some (x, v) => ∃ rest, r = some (x.map some ++ some v :: rest)
  | _, _ => r = none

/-- **Objects are values.**  Any sequence of allowed calls, not using assignment, is defined; afterwards each object
gives the latest solution passed to it or to the object it was copied from before the copy, with its objective value,
whatever happened to other objects. -/
theorem values_partial (dbg : Bool) (ops : List Op) (ha : AllAllowed dbg Spec.empty ops) :
    ∃ st, run dbg St.empty ops = some st ∧ ∀ i,
      match (Spec.empty.run ops).objs i with
      | none => nlpSolution st i = none ∧ nlpObjValue st i = none ∧ infeasibleNode st i = none
      | some w => (∃ r, nlpSolution st i = some r ∧ Gives w r) ∧
          nlpObjValue st i = some (if w.has then w.last.map (·.2) else none) ∧ infeasibleNode st i = some w.infeasible := by
  obtain ⟨st, h1, h2⟩ := run_ref (dbg := dbg) ops ref_empty ha
  refine ⟨st, h1, fun i => ?_⟩
  rcases h2.shows i with ⟨e1, e2⟩ | ⟨o, w, e1, e2, hh, hi, hl⟩
  · rw [e2]; simp [nlpSolution, nlpObjValue, infeasibleNode, e1]
  · rw [e2]
    simp only [nlpSolution, nlpObjValue, infeasibleNode, e1, Option.map_some, Gives, hh, hi]
    cases hw : w.last with
    | none =>
      rw [hw] at hl
      obtain ⟨l1, l2, _⟩ := hl
      cases w.has <;> simp [l1, l2]
    | some xv =>
      obtain ⟨x, v⟩ := xv
      rw [hw] at hl
      obtain ⟨l1, p, b, l2, l3, _, _, l4⟩ := hl
      cases w.has
      · simp
      · refine ⟨⟨some b, by simp [l2, l3], b.drop (x.length + 1), ?_⟩, by simp [l1], trivial⟩
        have := List.take_append_drop (x.length + 1) b
        rw [l4] at this
        rw [List.append_assoc] at this
        exact congrArg some this.symm

/-- Every array belongs to exactly one object: when all objects are destroyed no array is left, and none was freed
twice on the way (the calls are defined). -/
theorem arrays_owned (dbg : Bool) (ops : List Op) (ha : AllAllowed dbg Spec.empty ops) :
    ∃ st, run dbg St.empty ops = some st ∧
      (∀ p, st.bufs p ≠ none → ∃ i o, st.objs i = some o ∧ o.ptr = some p) ∧
      (∀ i o p, st.objs i = some o → o.ptr = some p → st.bufs p ≠ none ∧ ∀ j oj, st.objs j = some oj → oj.ptr = some p → j = i) ∧
      ((∀ i, (Spec.empty.run ops).objs i = none) → ∀ p, st.bufs p = none) := by
  obtain ⟨st, h1, h2⟩ := run_ref (dbg := dbg) ops ref_empty ha
  refine ⟨st, h1, h2.owned, ?_, ?_⟩
  · intro i o p e1 e2
    obtain ⟨w, _, hw⟩ := h2.get e1
    obtain ⟨b, hb, _⟩ := hw.live e2
    exact ⟨by rw [hb]; simp, fun j oj f1 f2 => h2.own j i oj o p f1 e1 f2 e2⟩
  · intro hall p
    by_contra hp
    obtain ⟨i, o, e1, _⟩ := h2.owned p hp
    obtain ⟨w, hw, _⟩ := h2.get e1
    rw [hall i] at hw; simp at hw

/-! ## Concrete cases -/

/-- A solution is passed, the object is copied, the original gets another solution; the flag must be set by hand. -/
def exOps : List Op :=
  [.create, .setSol 0 [1, 2, 3] 3 7, .copy 0, .setSol 0 [5] 1 9, .setHas 0 true, .setHas 1 true]

example : (run true St.empty exOps).map (fun s => (nlpSolution s 0, nlpSolution s 1)) =
    some (some (some [some 5, some 9, some 3, some 7]), some (some [some 1, some 2, some 3, some 7])) := by
  decide +kernel

example : (run true St.empty exOps).map (fun s => (nlpObjValue s 0, nlpObjValue s 1)) = some (some (some 9), some (some 7)) := by
  decide +kernel

example : AllAllowed true Spec.empty exOps := by
  simp [AllAllowed, Allowed, exOps, Spec.step, Spec.empty, Function.update]

/-! ## Where the code differs from what is claimed -/

/-- Passing a solution does not make it available: `nlpSolution()` is null and `nlpObjValue()` infinite until
`setHasNlpSolution(true)` is called. -/
theorem not_available :
    (run true St.empty [.create, .setSol 0 [1, 2] 2 7]).map (fun s => (nlpSolution s 0, nlpObjValue s 0)) =
      some (some none, some none) := by decide +kernel

/-- After a shorter solution the array is as long as before: the entry past the objective value is left over
from the previous solution, and `numcols_` is not the number of variables of the solution. -/
theorem left_over :
    (run true St.empty [.create, .setSol 0 [1, 2, 3] 3 7, .setSol 0 [5] 1 9, .setHas 0 true]).map (fun s => (nlpSolution s 0, (s.objs 0).map (·.numcols))) =
      some (some (some [some 5, some 9, some 3, some 7]), some 3) := by decide +kernel

/-- With assertions, an object holding the solution of a problem without variables cannot be copied; without, it can. -/
theorem empty_solution_copy :
    (run true St.empty [.create, .setSol 0 [] 0 7, .copy 0]).isNone = true ∧
    (run false St.empty [.create, .setSol 0 [] 0 7, .copy 0]).isSome = true := by decide +kernel

/-- Assignment copies the pointer: the array is freed twice when both objects are destroyed, and a solution passed to
one shows in the other. -/
theorem assigned_twice_freed :
    (run true St.empty [.create, .create, .setSol 0 [1] 1 7, .assign 0 1, .destroy 0, .destroy 1]).isNone = true ∧
    (run true St.empty [.create, .create, .setSol 0 [1] 1 7, .setHas 0 true, .assign 0 1, .setSol 0 [2] 1 8]).map (fun s => nlpSolution s 1) =
      some (some (some [some 2, some 8])) := by decide +kernel

end Verif.Bab.AuxNlp

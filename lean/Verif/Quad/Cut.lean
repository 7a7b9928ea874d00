import Verif.Quad.Props
import Mathlib.Logic.Function.Basic
import Mathlib.Tactic.Linarith
/-! # C110: violation of quadratic cuts; C111: the collection of cuts owns its quadratic cuts

src/Algorithms/QuadCuts/BonQuadCut.cpp: `violated` 47-77, `Cuts` 105-139; BonQuadCut.hpp: `Cuts` 102-213; BonTMatrix.cpp: `TMat::create` 61-92. -/
namespace Verif.Quad.Cut

/-- A `CoinPackedMatrix`: vectors with starts and lengths (there may be gaps), minor indices, values, ordering. -/
structure Packed where
  colOrd : Bool
  starts : List ℕ
  lens : List ℕ
  idx : List ℕ
  val : List ℚ
  deriving DecidableEq

/-- `getMajorDim`. -/
def Packed.major (p : Packed) : ℕ := p.starts.length

/-- Inner loop of `TMat::create` (BonTMatrix.cpp:85-89) for vector `i`; `none` = an access out of range. -/
def createK (p : Packed) (i : ℕ) : List ℕ → List Ent → Option (List Ent)
  | [], q => some q
  | k :: ks, q => do
    let j ← p.idx[k]?
    let v ← p.val[k]?
    createK p i ks (q ++ [if p.colOrd then ⟨j, i, v⟩ else ⟨i, j, v⟩])

/-- Outer loop (BonTMatrix.cpp:82-90). -/
def createI (p : Packed) : List ℕ → List Ent → Option (List Ent)
  | [], q => some q
  | i :: is, q => do
    let s ← p.starts[i]?
    let l ← p.lens[i]?
    let q ← createK p i (List.range' s l) q
    createI p is q

/-- `TMat::create` (BonTMatrix.cpp:61-92). -/
def create (p : Packed) : Option (List Ent) := createI p (List.range p.major) []

/-- Inner loop of `QuadCut::violated` (BonQuadCut.cpp:61-64). -/
def violK (p : Packed) (x : List ℚ) (i : ℕ) : List ℕ → ℚ → Option ℚ
  | [], r => some r
  | k :: ks, r => do
    let j ← p.idx[k]?
    let v ← p.val[k]?
    let xi ← x[i]?
    let xj ← x[j]?
    violK p x i ks (if i = j then r + xi * xj * v else r + 2 * xi * xj * v)

/-- Outer loop (BonQuadCut.cpp:58-65). -/
def violI (p : Packed) (x : List ℚ) : List ℕ → ℚ → Option ℚ
  | [], r => some r
  | i :: is, r => do
    let s ← p.starts[i]?
    let l ← p.lens[i]?
    let r ← violK p x i (List.range' s l) r
    violI p x is r

/-- `CoinPackedVector::dotProduct`. -/
def dot (x : List ℚ) : List (ℕ × ℚ) → ℚ → Option ℚ
  | [], r => some r
  | e :: es, r => do
    let v ← x[e.1]?
    dot x es (r + e.2 * v)

/-- A `QuadCut` as built by a user: constant, linear part, packed matrix, storage, bounds (BonQuadCut.hpp:28-82). -/
structure PCut where
  c : ℚ
  a : List (ℕ × ℚ)
  m : Packed
  ty : Storage
  lb : ℚ
  ub : ℚ

/-- `QuadCut::violated` (BonQuadCut.cpp:47-77); `none` = an access out of range. -/
def violated (u : PCut) (x : List ℚ) : Option ℚ := do
  let l ← dot x u.a 0
  let r ← violI u.m x (List.range u.m.major) (u.c + l)
  some (max (u.lb - r) (r - u.ub))

/-- The cut the rest of the code sees: triplets instead of the packed matrix. -/
def PCut.toCut (u : PCut) : Option QCut := (create u.m).map fun q => ⟨u.c, u.a, q, u.ty, u.lb, u.ub⟩

/-! ## Value -/

/-- The point as a function. -/
def pt (x : List ℚ) : ℕ → ℚ := fun i => x.getD i 0

theorem getD_of_some {x : List ℚ} {i : ℕ} {v : ℚ} (h : x[i]? = some v) : pt x i = v := by simp [pt, h]

/-- Form of a list of entries, as a sum (independent of the order of storage). -/
theorem symForm_append (q q' : List Ent) (x y : ℕ → ℚ) : symForm (q ++ q') x y = symForm q x y + symForm q' x y := by
  simp [symForm]

theorem symForm_one (p : Packed) (i j : ℕ) (v : ℚ) (x : ℕ → ℚ) : symForm [if p.colOrd then ⟨j, i, v⟩ else ⟨i, j, v⟩] x x =
    if i = j then x i * x j * v else 2 * x i * x j * v := by
  by_cases hc : p.colOrd <;> by_cases h : i = j
  · subst h; simp [symForm, hc]; ring
  · simp [symForm, hc, h, Ne.symm h]; ring
  · subst h; simp [symForm, hc]; ring
  · simp [symForm, hc, h]; ring

theorem violK_value (p : Packed) (x : List ℚ) (i : ℕ) : ∀ (ks : List ℕ) (q q' : List Ent) (r : ℚ), createK p i ks q = some q' →
    ((∀ k ∈ ks, ∃ j xi xj, p.idx[k]? = some j ∧ x[i]? = some xi ∧ x[j]? = some xj) → violK p x i ks r = some (r + symForm q' (pt x) (pt x) - symForm q (pt x) (pt x))) ∧
    ((violK p x i ks r).isSome → ∀ k ∈ ks, ∃ j xi xj, p.idx[k]? = some j ∧ x[i]? = some xi ∧ x[j]? = some xj) := by
  intro ks
  induction ks with
  | nil => intro q q' r h; simp [createK] at h; subst h; simp [violK]
  | cons k ks ih =>
    intro q q' r h
    simp only [createK] at h
    cases hj : p.idx[k]? with
    | none => simp [hj] at h
    | some j =>
      cases hv : p.val[k]? with
      | none => simp [hj, hv] at h
      | some v =>
        simp only [hj, hv, Option.bind_eq_bind, Option.bind_some] at h
        constructor
        · intro hk
          obtain ⟨j', xi, xj, h1, h2, h3⟩ := hk k (by simp)
          rw [hj] at h1
          cases h1
          simp only [violK, hj, hv, h2, h3, Option.bind_eq_bind, Option.bind_some]
          rw [(ih _ _ _ h).1 (fun k' hk' => hk k' (by simp [hk'])), symForm_append, symForm_one, getD_of_some h2, getD_of_some h3]
          split_ifs <;> (congr 1; ring)
        · intro hs
          cases h2 : x[i]? with
          | none => simp [violK, hj, hv, h2] at hs
          | some xi =>
            cases h3 : x[j]? with
            | none => simp [violK, hj, hv, h2, h3] at hs
            | some xj =>
              simp only [violK, hj, hv, h2, h3, Option.bind_eq_bind, Option.bind_some] at hs
              intro k' hk'
              rcases List.mem_cons.mp hk' with rfl | hk'
              · exact ⟨j, xi, xj, hj, rfl, h3⟩
              · obtain ⟨a, b, c, d, e, f⟩ := (ih _ _ _ h).2 hs k' hk'
                rw [h2] at e
                exact ⟨a, b, c, d, e, f⟩

/-- All cells of the vectors in the list have their indices within a point of the given length. -/
def Within (p : Packed) (n : ℕ) (is : List ℕ) : Prop :=
  ∀ i ∈ is, ∀ s l, p.starts[i]? = some s → p.lens[i]? = some l → ∀ k, s ≤ k → k < s + l → i < n ∧ ∀ j, p.idx[k]? = some j → j < n

theorem some_lt {x : List ℚ} {i : ℕ} : (∃ v, x[i]? = some v) ↔ i < x.length := by
  constructor
  · rintro ⟨v, h⟩; exact (List.getElem?_eq_some_iff.mp h).1
  · intro h; exact ⟨x[i], List.getElem?_eq_getElem h⟩

theorem createK_idx (p : Packed) (i : ℕ) : ∀ (ks : List ℕ) (q q' : List Ent), createK p i ks q = some q' → ∀ k ∈ ks, ∃ j, p.idx[k]? = some j := by
  intro ks
  induction ks with
  | nil => simp
  | cons k ks ih =>
    intro q q' h k' hk'
    simp only [createK] at h
    cases hj : p.idx[k]? with
    | none => simp [hj] at h
    | some j =>
      cases hv : p.val[k]? with
      | none => simp [hj, hv] at h
      | some v =>
        simp only [hj, hv, Option.bind_eq_bind, Option.bind_some] at h
        rcases List.mem_cons.mp hk' with rfl | hk'
        · exact ⟨j, hj⟩
        · exact ih _ _ h _ hk'

theorem violI_value (p : Packed) (x : List ℚ) : ∀ (is : List ℕ) (q q' : List Ent) (r : ℚ), createI p is q = some q' →
    (Within p x.length is → violI p x is r = some (r + symForm q' (pt x) (pt x) - symForm q (pt x) (pt x))) ∧ ((violI p x is r).isSome → Within p x.length is) := by
  intro is
  induction is with
  | nil => intro q q' r h; simp [createI] at h; subst h; simp [violI, Within]
  | cons i is ih =>
    intro q q' r h
    simp only [createI] at h
    cases hs : p.starts[i]? with
    | none => simp [hs] at h
    | some s =>
      cases hl : p.lens[i]? with
      | none => simp [hs, hl] at h
      | some l =>
        simp only [hs, hl, Option.bind_eq_bind, Option.bind_some] at h
        cases hq : createK p i (List.range' s l) q with
        | none => simp [hq] at h
        | some q1 =>
          simp only [hq, Option.bind_some] at h
          have key := violK_value p x i (List.range' s l) q q1 r hq
          have hidx := createK_idx p i _ _ _ hq
          have hmem : ∀ k, k ∈ List.range' s l ↔ s ≤ k ∧ k < s + l := by intro k; simp [List.mem_range'_1]
          constructor
          · intro hw
            have hK := key.1 (fun k hk => by
              obtain ⟨h1, h2⟩ := hw i (by simp) s l hs hl k ((hmem k).mp hk).1 ((hmem k).mp hk).2
              obtain ⟨j, hj⟩ := hidx k hk
              obtain ⟨xi, hxi⟩ := some_lt.mpr h1
              obtain ⟨xj, hxj⟩ := some_lt.mpr (h2 j hj)
              exact ⟨j, xi, xj, hj, hxi, hxj⟩)
            simp only [violI, hs, hl, Option.bind_eq_bind, Option.bind_some, hK]
            rw [(ih _ _ _ h).1 (fun i' hi' => hw i' (by simp [hi']))]
            congr 1
            ring
          · intro hv
            cases hK : violK p x i (List.range' s l) r with
            | none => simp [violI, hs, hl, hK] at hv
            | some r1 =>
              simp only [violI, hs, hl, Option.bind_eq_bind, Option.bind_some, hK] at hv
              have h1 := key.2 (by simp [hK])
              intro i' hi' s' l' hs' hl' k hk1 hk2
              rcases List.mem_cons.mp hi' with rfl | hi'
              · rw [hs] at hs'
                rw [hl] at hl'
                cases hs'
                cases hl'
                obtain ⟨j, xi, xj, a, b, c⟩ := h1 k ((hmem k).mpr ⟨hk1, hk2⟩)
                refine ⟨some_lt.mp ⟨_, b⟩, fun j' hj' => ?_⟩
                rw [a] at hj'
                cases hj'
                exact some_lt.mp ⟨_, c⟩
              · exact (ih _ _ _ h).2 hv i' hi' s' l' hs' hl' k hk1 hk2

theorem dot_value (x : List ℚ) : ∀ (a : List (ℕ × ℚ)) (r : ℚ), ((∀ e ∈ a, e.1 < x.length) → dot x a r = some (r + linForm a (pt x))) ∧
    ((dot x a r).isSome → ∀ e ∈ a, e.1 < x.length) := by
  intro a
  induction a with
  | nil => intro r; simp [dot, linForm]
  | cons e a ih =>
    intro r
    constructor
    · intro h
      obtain ⟨v, hv⟩ := some_lt.mpr (h e (by simp))
      simp only [dot, hv, Option.bind_eq_bind, Option.bind_some]
      rw [(ih _).1 (fun e' he' => h e' (by simp [he']))]
      simp only [linForm, List.map_cons, List.sum_cons, getD_of_some hv]
      congr 1
      ring
    · intro h
      cases hv : x[e.1]? with
      | none => simp [dot, hv] at h
      | some v =>
        simp only [dot, hv, Option.bind_eq_bind, Option.bind_some] at h
        intro e' he'
        rcases List.mem_cons.mp he' with rfl | he'
        · exact some_lt.mp ⟨_, hv⟩
        · exact (ih _).2 h e' he'

/-- The indices of a cut are within points of length `n`. -/
def PCut.Fits (u : PCut) (n : ℕ) : Prop := (∀ e ∈ u.a, e.1 < n) ∧ Within u.m n (List.range u.m.major)

/-- The violation is the distance to the bounds of the quadratic function with the given triangle, whatever the ordering and the gaps of the matrix. -/
theorem violated_value_partial (u : PCut) (cut : QCut) (x : List ℚ) (h : u.toCut = some cut) (hf : u.Fits x.length) :
    violated u x = some (max (u.lb - quadFun u.c u.a cut.q (pt x)) (quadFun u.c u.a cut.q (pt x) - u.ub)) := by
  simp only [PCut.toCut, Option.map_eq_some_iff] at h
  obtain ⟨q, hq, rfl⟩ := h
  simp only [violated, Option.bind_eq_bind]
  rw [(dot_value x u.a 0).1 hf.1, Option.bind_some, (violI_value u.m x _ [] q _ hq).1 hf.2, Option.bind_some]
  have : u.c + (0 + linForm u.a (pt x)) + symForm q (pt x) (pt x) - symForm [] (pt x) (pt x) = quadFun u.c u.a q (pt x) := by
    simp [quadFun, symForm]
  rw [this]

/-- It is defined exactly if the indices are within the point. -/
theorem violated_defined_iff (u : PCut) (cut : QCut) (x : List ℚ) (h : u.toCut = some cut) : (violated u x).isSome ↔ u.Fits x.length := by
  constructor
  · intro hv
    simp only [PCut.toCut, Option.map_eq_some_iff] at h
    obtain ⟨q, hq, rfl⟩ := h
    simp only [violated, Option.bind_eq_bind] at hv
    cases hd : dot x u.a 0 with
    | none => simp [hd] at hv
    | some l =>
      simp only [hd, Option.bind_some] at hv
      cases hr : violI u.m x (List.range u.m.major) (u.c + l) with
      | none => simp [hr] at hv
      | some r => exact ⟨(dot_value x u.a 0).2 (by simp [hd]), (violI_value u.m x _ [] q (u.c + l) hq).2 (by rw [hr]; rfl)⟩
  · intro hf
    rw [violated_value_partial u cut x h hf]
    rfl

/-- A point satisfies the cut exactly if its violation is not positive. -/
theorem satisfied_iff (u : PCut) (cut : QCut) (x : List ℚ) (v : ℚ) (h : u.toCut = some cut) (hv : violated u x = some v) :
    v ≤ 0 ↔ u.lb ≤ quadFun u.c u.a cut.q (pt x) ∧ quadFun u.c u.a cut.q (pt x) ≤ u.ub := by
  have hf := (violated_defined_iff u cut x h).mp (by simp [hv])
  rw [violated_value_partial u cut x h hf] at hv
  simp only [Option.some.injEq] at hv
  rw [← hv, max_le_iff, sub_nonpos, sub_nonpos]

/-- The row assigned from the cut has the value the violation is computed from. -/
theorem row_agrees (u : PCut) (cut : QCut) (q : List Ent) (ro co : List ℕ) (x : List ℚ) (v : ℚ) (h : u.toCut = some cut) (hv : violated u x = some v)
    (hq : makeUpper cut.ty cut.q = some q) (hro : IsOrdering rowLt q ro) (hco : IsOrdering colLt q co) :
    ∃ r, QRow.assignCut cut ro co = some r ∧ v = max (u.lb - r.evalF (pt x)) (r.evalF (pt x) - u.ub) := by
  obtain ⟨r, h1, h2⟩ := quadRow_assignCut cut q ro co hq hro hco
  have hf := (violated_defined_iff u cut x h).mp (by simp [hv])
  rw [violated_value_partial u cut x h hf] at hv
  simp only [PCut.toCut, Option.map_eq_some_iff] at h
  obtain ⟨q0, hq0, rfl⟩ := h
  refine ⟨r, h1, ?_⟩
  rw [h2]
  simp only [Option.some.injEq] at hv
  exact hv.symm

/-- Upper triangle of `x0² + 2 x0 x1` by columns with a gap: at `(2, 3)` the value is 16. -/
def exMat : Packed := ⟨true, [0, 2], [1, 1], [0, 7, 0], [1, 9, 1]⟩
def exCut : PCut := ⟨0, [(1, 1)], exMat, .upper, -(10 ^ 50), 10⟩
example : violated exCut [2, 3] = some 9 := by decide +kernel
example : create exMat = some [⟨0, 0, 1⟩, ⟨0, 1, 1⟩] := by decide +kernel
example : exCut.Fits 2 := by
  refine ⟨by decide, ?_⟩
  intro i hi s l hs hl k h1 h2
  simp [exCut, exMat, Packed.major] at hi
  have : i = 0 ∨ i = 1 := by omega
  rcases this with rfl | rfl
  · simp [exCut, exMat] at hs hl
    subst hs hl
    have : k = 0 := by omega
    subst this
    simp [exCut, exMat]
  · simp [exCut, exMat] at hs hl
    subst hs hl
    have : k = 2 := by omega
    subst this
    simp [exCut, exMat]

/-- With storage `Full` the entries off the diagonal count twice: `x0 x1` stored as a whole symmetric matrix gives at `(1, 1)` the value 2 instead of 1. -/
theorem full_counts_twice : violated ⟨0, [], ⟨true, [0, 1], [1, 1], [1, 0], [1 / 2, 1 / 2]⟩, .full, -(10 ^ 50), 1⟩ [1, 1] = some 1 ∧
    (1 / 2 * 1 * 1 + 1 / 2 * 1 * 1 : ℚ) - 1 = 0 := by
  refine ⟨by decide +kernel, by norm_num⟩

/-- The row built from a cut by the constructor does not contain the constant: a point that satisfies the cut violates the row. -/
theorem constant_disagrees : violated ⟨-5, [(0, 1)], ⟨true, [], [], [], []⟩, .upper, -(10 ^ 50), 0⟩ [4] = some (-1) ∧
    ((QRow.ofCut ⟨-5, [(0, 1)], [], .upper, -(10 ^ 50), 0⟩ [] []).map fun r => decide (r.evalF (pt [4]) ≤ 0)) = some false := by
  refine ⟨by decide +kernel, by decide +kernel⟩

/-! ## The collection -/

/-- Collections by handle, each with pointers to its quadratic cuts and their values; objects in existence; next address. -/
structure St (α : Type) where
  box : ℕ → Option (List (ℕ × α))
  live : ℕ → Bool
  next : ℕ

/-- `delete` of a list of pointers; `none` = one does not exist any more. -/
def free : List ℕ → (ℕ → Bool) → Option (ℕ → Bool)
  | [], L => some L
  | i :: is, L => if L i then free is (Function.update L i false) else none

/-- `new QuadCut(...)` for each value, from address `n`. -/
def fresh {α : Type} (n : ℕ) : List α → List (ℕ × α)
  | [] => []
  | v :: vs => (n, v) :: fresh (n + 1) vs

/-- The objects of a list exist. -/
def alloc (L : ℕ → Bool) (n k : ℕ) : ℕ → Bool := fun i => L i || (decide (n ≤ i) && decide (i < n + k))

/-- Operations (BonQuadCut.cpp:105-139, BonQuadCut.hpp:159-210). -/
inductive Op (α : Type)
  | new (k : ℕ)
  | insert (k : ℕ) (v : α)
  | insertAll (k l : ℕ)
  | copy (k l : ℕ)
  | assign (k l : ℕ)
  | erase (k i : ℕ)
  | set (k i : ℕ) (v : α)
  | destroy (k : ℕ)

/-- Effect; `none` = undefined or does not end. -/
def step {α : Type} (s : St α) : Op α → Option (St α)
  | .new k => if s.box k = none then some { s with box := Function.update s.box k (some []) } else none
  | .insert k v => (s.box k).map fun b =>
      { box := Function.update s.box k (some (b ++ fresh s.next [v])), live := alloc s.live s.next 1, next := s.next + 1 }
  | .insertAll k l => (s.box k).bind fun b => (s.box l).bind fun c =>
      -- with itself, the vector read grows with each element
      if k = l ∧ c ≠ [] then none
      else some { box := Function.update s.box k (some (b ++ fresh s.next (c.map Prod.snd))), live := alloc s.live s.next c.length, next := s.next + c.length }
  | .copy k l => if s.box k = none then (s.box l).map fun c =>
      { box := Function.update s.box k (some (fresh s.next (c.map Prod.snd))), live := alloc s.live s.next c.length, next := s.next + c.length } else none
  | .assign k l => (s.box k).bind fun b => (s.box l).bind fun c =>
      if k = l then some s
      else (free (b.map Prod.fst) s.live).map fun L =>
        { box := Function.update s.box k (some (fresh s.next (c.map Prod.snd))), live := alloc L s.next c.length, next := s.next + c.length }
  | .erase k i => (s.box k).bind fun b => (b[i]?).bind fun e => (free [e.1] s.live).map fun L =>
      { s with box := Function.update s.box k (some (b.eraseIdx i)), live := L }
  | .set k i v => (s.box k).bind fun b => (b[i]?).bind fun e =>
      if s.live e.1 then some { s with box := Function.update s.box k (some (b.set i (e.1, v))) } else none
  | .destroy k => (s.box k).bind fun b => (free (b.map Prod.fst) s.live).map fun L => { s with box := Function.update s.box k none, live := L }

/-- A sequence of operations. -/
def run {α : Type} : St α → List (Op α) → Option (St α)
  | s, [] => some s
  | s, o :: os => (step s o).bind fun s => run s os

/-- Start: no collections. -/
def St.init (α : Type) : St α := ⟨fun _ => none, fun _ => false, 0⟩

/-! ### Specification: each collection is a list of values -/

/-- Effect on lists of values. -/
def specStep {α : Type} (b : ℕ → Option (List α)) : Op α → Option (ℕ → Option (List α))
  | .new k => if b k = none then some (Function.update b k (some [])) else none
  | .insert k v => (b k).map fun l => Function.update b k (some (l ++ [v]))
  | .insertAll k l => (b k).bind fun x => (b l).map fun y => Function.update b k (some (x ++ y))
  | .copy k l => if b k = none then (b l).map fun y => Function.update b k (some y) else none
  | .assign k l => (b k).bind fun _ => (b l).map fun y => Function.update b k (some y)
  | .erase k i => (b k).bind fun x => if i < x.length then some (Function.update b k (some (x.eraseIdx i))) else none
  | .set k i v => (b k).bind fun x => if i < x.length then some (Function.update b k (some (x.set i v))) else none
  | .destroy k => (b k).map fun _ => Function.update b k none

/-- The collection is not inserted into itself (unless it is empty). -/
def Op.ok {α : Type} (b : ℕ → Option (List α)) : Op α → Prop
  | .insertAll k l => k = l → b l = some [] ∨ b l = none
  | _ => True

/-- Values in the collections. -/
def St.vals {α : Type} (s : St α) : ℕ → Option (List α) := fun k => (s.box k).map (List.map Prod.snd)

/-- Every cut belongs to exactly one place of one collection and exists; nothing else exists. -/
structure Inv {α : Type} (s : St α) : Prop where
  live_iff : ∀ i, s.live i = true ↔ ∃ k b, s.box k = some b ∧ i ∈ b.map Prod.fst
  nodup : ∀ k b, s.box k = some b → (b.map Prod.fst).Nodup
  apart : ∀ k l b c, s.box k = some b → s.box l = some c → k ≠ l → ∀ i, i ∈ b.map Prod.fst → i ∉ c.map Prod.fst
  small : ∀ i, s.live i = true → i < s.next

theorem free_some : ∀ (is : List ℕ) (L : ℕ → Bool), is.Nodup → (∀ i ∈ is, L i = true) → ∃ L', free is L = some L' ∧ ∀ i, L' i = true ↔ L i = true ∧ i ∉ is := by
  intro is
  induction is with
  | nil => intro L _ _; exact ⟨L, rfl, by simp⟩
  | cons a is ih =>
    intro L hn hl
    obtain ⟨ha, hn'⟩ := List.nodup_cons.mp hn
    obtain ⟨L', h1, h2⟩ := ih (Function.update L a false) hn' (by
      intro i hi
      have hne : i ≠ a := by rintro rfl; exact ha hi
      rw [Function.update_of_ne hne]
      exact hl i (by simp [hi]))
    refine ⟨L', ?_, ?_⟩
    · simp only [free, hl a (by simp), if_true, h1]
    · intro i
      rw [h2]
      by_cases h : i = a
      · subst h; simp
      · rw [Function.update_of_ne h]; simp [h]

/-- Pointers can be deleted exactly if they exist and none occurs twice. -/
theorem free_iff : ∀ (is : List ℕ) (L : ℕ → Bool), (free is L).isSome ↔ is.Nodup ∧ ∀ i ∈ is, L i = true := by
  intro is
  induction is with
  | nil => intro L; simp [free]
  | cons a is ih =>
    intro L
    by_cases ha : L a = true
    · simp only [free, ha, if_true]
      rw [ih, List.nodup_cons]
      constructor
      · rintro ⟨hn, hl⟩
        have hm : a ∉ is := fun h => by simpa using hl a h
        refine ⟨⟨hm, hn⟩, fun i hi => ?_⟩
        rcases List.mem_cons.mp hi with h | h
        · rw [h]; exact ha
        · have hne : i ≠ a := fun e => hm (e ▸ h)
          simpa [Function.update_of_ne hne] using hl i h
      · rintro ⟨⟨hm, hn⟩, hl⟩
        refine ⟨hn, fun i hi => ?_⟩
        have hne : i ≠ a := by rintro rfl; exact hm hi
        rw [Function.update_of_ne hne]
        exact hl i (by simp [hi])
    · simp only [free, ha, if_false, Option.isSome_none, Bool.false_eq_true, false_iff]
      exact fun h => ha (h.2 a (by simp))

/-- **C111.** In any state, also one the operations do not lead to, a collection can be destroyed, or assigned another one, exactly if its cuts exist and none is in it twice: a second `delete` is never defined. -/
theorem delete_defined_iff {α : Type} (s : St α) (k l : ℕ) (b c : List (ℕ × α)) (hb : s.box k = some b) (hc : s.box l = some c) (hkl : k ≠ l) :
    ((step s (.destroy k)).isSome ↔ (b.map Prod.fst).Nodup ∧ ∀ e ∈ b, s.live e.1 = true) ∧
    ((step s (.assign k l)).isSome ↔ (b.map Prod.fst).Nodup ∧ ∀ e ∈ b, s.live e.1 = true) ∧
    (∀ i, (step s (.erase k i)).isSome ↔ ∃ e, b[i]? = some e ∧ s.live e.1 = true) := by
  have hf : (free (b.map Prod.fst) s.live).isSome ↔ (b.map Prod.fst).Nodup ∧ ∀ e ∈ b, s.live e.1 = true := by
    rw [free_iff]; simp
  refine ⟨?_, ?_, fun i => ?_⟩
  · simp only [step, hb, Option.bind_some, Option.isSome_map, hf]
  · simp only [step, hb, hc, Option.bind_some, if_neg hkl, Option.isSome_map, hf]
  · cases he : b[i]? with
    | none => simp [step, hb, he]
    | some e =>
      simp only [step, hb, he, Option.bind_some, Option.isSome_map]
      rw [free_iff]; simp

/-- Two collections that share a cut: the first can be destroyed, the second then not. -/
example : ((step (⟨fun k => if k < 2 then some [(0, 5)] else none, fun i => i == 0, 1⟩ : St ℕ) (.destroy 0)).bind fun s => step s (.destroy 1)).isSome = false := by decide +kernel

theorem fresh_fst {α : Type} : ∀ (vs : List α) (n : ℕ), (fresh n vs).map Prod.fst = List.range' n vs.length := by
  intro vs
  induction vs with
  | nil => intro n; rfl
  | cons v vs ih => intro n; simp [fresh, ih, List.range'_succ]

theorem fresh_snd {α : Type} : ∀ (vs : List α) (n : ℕ), (fresh n vs).map Prod.snd = vs := by
  intro vs
  induction vs with
  | nil => intro n; rfl
  | cons v vs ih => intro n; simp [fresh, ih]

theorem vals_update {α : Type} (s : St α) (k : ℕ) (b : Option (List (ℕ × α))) (L : ℕ → Bool) (n : ℕ) :
    (St.mk (Function.update s.box k b) L n).vals = Function.update s.vals k (b.map (List.map Prod.snd)) := by
  funext j
  by_cases h : j = k
  · subst h; simp [St.vals]
  · simp [St.vals, Function.update_of_ne h]

/-- Replacing the contents of one collection, with objects freed and new ones. -/
theorem inv_update {α : Type} (s : St α) (h : Inv s) (k : ℕ) (b : Option (List (ℕ × α))) (L : ℕ → Bool) (n : ℕ) (hn : s.next ≤ n)
    (hb : ∀ c, b = some c → (c.map Prod.fst).Nodup)
    (hold : ∀ c, b = some c → ∀ i ∈ c.map Prod.fst, i < n ∧ (i < s.next → ∃ c0, s.box k = some c0 ∧ i ∈ c0.map Prod.fst))
    (hL : ∀ i, L i = true ↔ (∃ c, b = some c ∧ i ∈ c.map Prod.fst) ∨ (s.live i = true ∧ ∀ c0, s.box k = some c0 → i ∉ c0.map Prod.fst)) :
    Inv (St.mk (Function.update s.box k b) L n) := by
  have hother : ∀ l c, l ≠ k → s.box l = some c → ∀ i ∈ c.map Prod.fst, s.live i = true ∧ ∀ c0, s.box k = some c0 → i ∉ c0.map Prod.fst := by
    intro l c hlk hc i hi
    exact ⟨(h.live_iff i).mpr ⟨l, c, hc, hi⟩, fun c0 hc0 => h.apart l k c c0 hc hc0 hlk i hi⟩
  constructor
  · intro i
    rw [hL]
    constructor
    · rintro (⟨c, hc, hi⟩ | ⟨hl, hk⟩)
      · exact ⟨k, c, by simp [hc], hi⟩
      · obtain ⟨l, c, hc, hi⟩ := (h.live_iff i).mp hl
        have : l ≠ k := fun e => hk c (e ▸ hc) hi
        exact ⟨l, c, by simp [Function.update_of_ne this, hc], hi⟩
    · rintro ⟨l, c, hc, hi⟩
      by_cases e : l = k
      · subst e
        simp at hc
        exact .inl ⟨c, hc, hi⟩
      · simp only [Function.update_of_ne e] at hc
        exact .inr (hother l c e hc i hi)
  · intro l c hc
    by_cases e : l = k
    · subst e
      simp at hc
      exact hb c hc
    · simp only [Function.update_of_ne e] at hc
      exact h.nodup l c hc
  · have key : ∀ l c d, l ≠ k → s.box l = some c → b = some d → ∀ i, i ∈ d.map Prod.fst → i ∉ c.map Prod.fst := by
      intro l c d hlk hc hd i hi hic
      obtain ⟨h1, h2⟩ := hother l c hlk hc i hic
      obtain ⟨c0, hc0, hi0⟩ := (hold d hd i hi).2 (h.small i h1)
      exact h2 c0 hc0 hi0
    intro l m c d hc hd hlm i hi
    by_cases e : l = k
    · subst e
      simp at hc
      simp only [Function.update_of_ne (Ne.symm hlm)] at hd
      exact key m d c (Ne.symm hlm) hd hc i hi
    · simp only [Function.update_of_ne e] at hc
      by_cases e' : m = k
      · subst e'
        simp at hd
        exact fun hx => key l c d hlm hc hd i hx hi
      · simp only [Function.update_of_ne e'] at hd
        exact h.apart l m c d hc hd hlm i hi
  · intro i hi
    rcases (hL i).mp hi with ⟨c, hc, hic⟩ | ⟨hl, _⟩
    · exact (hold c hc i hic).1
    · exact lt_of_lt_of_le (h.small i hl) hn

theorem alloc_iff (L : ℕ → Bool) (n k i : ℕ) : alloc L n k i = true ↔ L i = true ∨ (n ≤ i ∧ i < n + k) := by simp [alloc]

/-- Each operation is defined exactly when it is on lists of values and the collection is not inserted into itself; it does the same, and ownership is kept. -/
theorem step_refines {α : Type} (s : St α) (h : Inv s) (o : Op α) :
    (∀ s', step s o = some s' → Inv s' ∧ specStep s.vals o = some s'.vals) ∧ ((step s o).isSome ↔ (specStep s.vals o).isSome ∧ o.ok s.vals) := by
  have hlive : ∀ k b, s.box k = some b → ∀ i ∈ b.map Prod.fst, s.live i = true := fun k b hb i hi => (h.live_iff i).mpr ⟨k, b, hb, hi⟩
  have hfresh : ∀ k b, s.box k = some b → ∀ i ∈ b.map Prod.fst, i < s.next := fun k b hb i hi => h.small i (hlive k b hb i hi)
  cases o with
  | new k =>
    by_cases hk : s.box k = none
    · have hv : s.vals k = none := by simp [St.vals, hk]
      refine ⟨?_, by simp [step, specStep, hk, hv, Op.ok]⟩
      intro s' hs'
      simp only [step, hk, if_true, Option.some.injEq] at hs'
      subst hs'
      refine ⟨?_, ?_⟩
      · apply inv_update s h k (some []) s.live s.next le_rfl
        · intro c hc; cases hc; simp
        · intro c hc; cases hc; simp
        · intro i; simp [hk]
      · rw [vals_update]; simp [specStep, hv]
    · have hv : ¬ s.vals k = none := by simp [St.vals, hk]
      simp [step, specStep, hk, hv]
  | insert k v =>
    cases hk : s.box k with
    | none =>
      have hv : s.vals k = none := by simp [St.vals, hk]
      simp [step, specStep, hk, hv]
    | some b =>
      have hv : s.vals k = some (b.map Prod.snd) := by simp [St.vals, hk]
      refine ⟨?_, by simp [step, specStep, hk, hv, Op.ok]⟩
      intro s' hs'
      simp only [step, hk, Option.map_some, Option.some.injEq] at hs'
      subst hs'
      refine ⟨?_, ?_⟩
      · apply inv_update s h k _ _ _ (Nat.le_succ _)
        · intro c hc
          cases hc
          rw [List.map_append, fresh_fst, List.nodup_append]
          refine ⟨h.nodup k b hk, by simp, ?_⟩
          intro i hi j hj
          have := hfresh k b hk i hi
          simp at hj
          omega
        · intro c hc i hi
          cases hc
          rw [List.map_append, fresh_fst, List.mem_append] at hi
          rcases hi with hi | hi
          · exact ⟨Nat.lt_succ_of_lt (hfresh k b hk i hi), fun _ => ⟨b, hk, hi⟩⟩
          · simp at hi
            exact ⟨by omega, fun hx => by omega⟩
        · intro i
          rw [alloc_iff]
          simp only [Option.some.injEq, exists_eq_left', List.map_append, fresh_fst, List.mem_append, hk]
          constructor
          · rintro (hl | hi)
            · by_cases hb : i ∈ b.map Prod.fst
              · exact .inl (.inl hb)
              · exact .inr ⟨hl, fun c0 hc0 => by cases hc0; exact hb⟩
            · exact .inl (.inr (by simp; omega))
          · rintro ((hb | hi) | ⟨hl, _⟩)
            · exact .inl (hlive k b hk i hb)
            · simp at hi
              exact .inr (by omega)
            · exact .inl hl
      · rw [vals_update]; simp [specStep, hv, fresh_snd]
  | insertAll k l =>
    cases hk : s.box k with
    | none =>
      have hv : s.vals k = none := by simp [St.vals, hk]
      simp [step, specStep, hk, hv]
    | some b =>
      have hv : s.vals k = some (b.map Prod.snd) := by simp [St.vals, hk]
      cases hl : s.box l with
      | none =>
        have hv' : s.vals l = none := by simp [St.vals, hl]
        simp [step, specStep, hk, hv, hl, hv']
      | some c =>
        have hv' : s.vals l = some (c.map Prod.snd) := by simp [St.vals, hl]
        by_cases hx : k = l ∧ c ≠ []
        · refine ⟨by simp [step, hk, hl, hx], ?_⟩
          have e1 : step s (.insertAll k l) = none := by simp only [step, hk, hl, Option.bind_some]; rw [if_pos hx]
          rw [e1]
          simp [specStep, hv, hv', Op.ok, hx]
        · have e1 : step s (.insertAll k l) = some (St.mk (Function.update s.box k (some (b ++ fresh s.next (c.map Prod.snd)))) (alloc s.live s.next c.length) (s.next + c.length)) := by
            simp only [step, hk, hl, Option.bind_some]
            rw [if_neg hx]
          refine ⟨?_, ?_⟩
          · intro s' hs'
            rw [e1, Option.some.injEq] at hs'
            subst hs'
            refine ⟨?_, ?_⟩
            · apply inv_update s h k _ _ _ (Nat.le_add_right _ _)
              · intro d hd
                cases hd
                rw [List.map_append, fresh_fst, List.nodup_append]
                refine ⟨h.nodup k b hk, List.nodup_range', ?_⟩
                intro i hi j hj
                have := hfresh k b hk i hi
                rw [List.mem_range'_1] at hj
                omega
              · intro d hd i hi
                cases hd
                rw [List.map_append, fresh_fst, List.mem_append] at hi
                rcases hi with hi | hi
                · exact ⟨Nat.lt_add_right _ (hfresh k b hk i hi), fun _ => ⟨b, hk, hi⟩⟩
                · rw [List.mem_range'_1, List.length_map] at hi
                  exact ⟨hi.2, fun hx => by omega⟩
              · intro i
                rw [alloc_iff]
                simp only [Option.some.injEq, exists_eq_left', List.map_append, fresh_fst, List.mem_append, hk, List.length_map, List.mem_range'_1]
                constructor
                · rintro (hl | hi)
                  · by_cases hb : i ∈ b.map Prod.fst
                    · exact .inl (.inl hb)
                    · exact .inr ⟨hl, fun c0 hc0 => by cases hc0; exact hb⟩
                  · exact .inl (.inr hi)
                · rintro ((hb | hi) | ⟨hl, _⟩)
                  · exact .inl (hlive k b hk i hb)
                  · exact .inr hi
                  · exact .inl hl
            · rw [vals_update]; simp only [specStep, hv, hv', Option.bind_some, Option.map_some, List.map_append, fresh_snd]
          · rw [e1]
            simp only [specStep, hv, hv', Option.bind_some, Option.map_some, Option.isSome_some, Op.ok, true_and, true_iff]
            intro e
            by_cases hc : c = []
            · exact .inl (by simp [hc])
            · exact absurd ⟨e, hc⟩ hx
  | copy k l =>
    by_cases hk : s.box k = none
    · have hv : s.vals k = none := by simp [St.vals, hk]
      cases hl : s.box l with
      | none =>
        have hv' : s.vals l = none := by simp [St.vals, hl]
        simp [step, specStep, hk, hv, hl, hv']
      | some c =>
        have hv' : s.vals l = some (c.map Prod.snd) := by simp [St.vals, hl]
        refine ⟨?_, by simp [step, specStep, hk, hv, hl, hv', Op.ok]⟩
        intro s' hs'
        simp only [step, hk, if_true, hl, Option.map_some, Option.some.injEq] at hs'
        subst hs'
        refine ⟨?_, ?_⟩
        · apply inv_update s h k _ _ _ (Nat.le_add_right _ _)
          · intro d hd
            cases hd
            rw [fresh_fst]
            exact List.nodup_range'
          · intro d hd i hi
            cases hd
            rw [fresh_fst, List.mem_range'_1, List.length_map] at hi
            exact ⟨hi.2, fun hx => by omega⟩
          · intro i
            rw [alloc_iff]
            simp only [Option.some.injEq, exists_eq_left', fresh_fst, hk, List.length_map, List.mem_range'_1]
            simp
            tauto
        · rw [vals_update]; simp only [specStep, hv, hv', if_true, Option.map_some, fresh_snd]
    · have hv : ¬ s.vals k = none := by simp [St.vals, hk]
      simp [step, specStep, hk, hv]
  | assign k l =>
    cases hk : s.box k with
    | none =>
      have hv : s.vals k = none := by simp [St.vals, hk]
      simp [step, specStep, hk, hv]
    | some b =>
      have hv : s.vals k = some (b.map Prod.snd) := by simp [St.vals, hk]
      cases hl : s.box l with
      | none =>
        have hv' : s.vals l = none := by simp [St.vals, hl]
        simp [step, specStep, hk, hv, hl, hv']
      | some c =>
        have hv' : s.vals l = some (c.map Prod.snd) := by simp [St.vals, hl]
        by_cases e : k = l
        · subst e
          refine ⟨?_, by simp [step, specStep, hk, hv, Op.ok]⟩
          intro s' hs'
          simp only [step, hk, Option.bind_some, if_true, Option.some.injEq] at hs'
          subst hs'
          refine ⟨h, ?_⟩
          simp only [specStep, hv, Option.bind_some, Option.map_some, Option.some.injEq]
          rw [← hv, Function.update_eq_self]
        · obtain ⟨L', h1, h2⟩ := free_some (b.map Prod.fst) s.live (h.nodup k b hk) (hlive k b hk)
          refine ⟨?_, by simp [step, specStep, hk, hl, hv, hv', Op.ok, e, h1]⟩
          intro s' hs'
          simp only [step, hk, hl, Option.bind_some, e, if_false, h1, Option.map_some, Option.some.injEq] at hs'
          subst hs'
          refine ⟨?_, ?_⟩
          · apply inv_update s h k _ _ _ (Nat.le_add_right _ _)
            · intro d hd
              cases hd
              rw [fresh_fst]
              exact List.nodup_range'
            · intro d hd i hi
              cases hd
              rw [fresh_fst, List.mem_range'_1, List.length_map] at hi
              exact ⟨hi.2, fun hx => by omega⟩
            · intro i
              rw [alloc_iff, h2]
              simp only [Option.some.injEq, exists_eq_left', fresh_fst, hk, List.length_map, List.mem_range'_1, forall_eq']
              tauto
          · rw [vals_update]; simp only [specStep, hv, hv', Option.bind_some, Option.map_some, fresh_snd]
  | erase k i =>
    cases hk : s.box k with
    | none =>
      have hv : s.vals k = none := by simp [St.vals, hk]
      simp [step, specStep, hk, hv]
    | some b =>
      have hv : s.vals k = some (b.map Prod.snd) := by simp [St.vals, hk]
      cases hi : b[i]? with
      | none =>
        have : ¬ i < b.length := by simpa using hi
        simp [step, specStep, hk, hv, hi, this]
      | some e =>
        obtain ⟨hlt, hget⟩ := List.getElem?_eq_some_iff.mp hi
        have hmem : e.1 ∈ b.map Prod.fst := List.mem_map.mpr ⟨e, hget ▸ List.getElem_mem hlt, rfl⟩
        obtain ⟨L', h1, h2⟩ := free_some [e.1] s.live (by simp) (by simpa using hlive k b hk _ hmem)
        refine ⟨?_, by simp [step, specStep, hk, hv, hi, hlt, hget, h1, Op.ok]⟩
        intro s' hs'
        simp only [step, hk, hi, Option.bind_some, h1, Option.map_some, Option.some.injEq] at hs'
        subst hs'
        have hnd := h.nodup k b hk
        have herase : (b.eraseIdx i).map Prod.fst = (b.map Prod.fst).eraseIdx i := by rw [List.eraseIdx_map]
        have hmem' : ∀ j, j ∈ (b.map Prod.fst).eraseIdx i ↔ j ∈ b.map Prod.fst ∧ j ≠ e.1 := by
          intro j
          have hi' : i < (b.map Prod.fst).length := by simpa using hlt
          have hget' : (b.map Prod.fst)[i] = e.1 := by simp [hget]
          rw [List.mem_eraseIdx_iff_getElem, List.mem_iff_getElem]
          constructor
          · rintro ⟨m, hm, h3, h4⟩
            refine ⟨⟨m, hm, h4⟩, fun h5 => h3 ?_⟩
            rw [← h4, ← hget'] at h5
            exact (hnd.getElem_inj_iff).mp h5
          · rintro ⟨⟨m, hm, h4⟩, h5⟩
            refine ⟨m, hm, fun h3 => h5 ?_, h4⟩
            subst h3
            rw [← h4, hget']
        refine ⟨?_, ?_⟩
        · apply inv_update s h k _ _ _ le_rfl
          · intro d hd
            cases hd
            rw [herase]
            exact hnd.sublist (List.eraseIdx_sublist _ _)
          · intro d hd j hj
            cases hd
            rw [herase, hmem'] at hj
            exact ⟨hfresh k b hk j hj.1, fun _ => ⟨b, hk, hj.1⟩⟩
          · intro j
            rw [h2]
            simp only [Option.some.injEq, exists_eq_left', herase, hmem', hk, forall_eq', List.mem_singleton]
            constructor
            · rintro ⟨hl, hne⟩
              by_cases hb : j ∈ b.map Prod.fst
              · exact .inl ⟨hb, hne⟩
              · exact .inr ⟨hl, hb⟩
            · rintro (⟨hb, hne⟩ | ⟨hl, hb⟩)
              · exact ⟨hlive k b hk j hb, hne⟩
              · exact ⟨hl, fun hx => hb (hx ▸ hmem)⟩
        · rw [vals_update]; simp only [specStep, hv, Option.bind_some, Option.map_some, List.length_map, hlt, if_true, List.eraseIdx_map]
  | set k i v =>
    cases hk : s.box k with
    | none =>
      have hv : s.vals k = none := by simp [St.vals, hk]
      simp [step, specStep, hk, hv]
    | some b =>
      have hv : s.vals k = some (b.map Prod.snd) := by simp [St.vals, hk]
      cases hi : b[i]? with
      | none =>
        have : ¬ i < b.length := by simpa using hi
        simp [step, specStep, hk, hv, hi, this]
      | some e =>
        obtain ⟨hlt, hget⟩ := List.getElem?_eq_some_iff.mp hi
        have hmem : e.1 ∈ b.map Prod.fst := List.mem_map.mpr ⟨e, hget ▸ List.getElem_mem hlt, rfl⟩
        have hl := hlive k b hk _ hmem
        refine ⟨?_, by simp [step, specStep, hk, hv, hi, hlt, hget, hl, Op.ok]⟩
        intro s' hs'
        simp only [step, hk, hi, Option.bind_some, hl, if_true, Option.some.injEq] at hs'
        subst hs'
        have hset : (b.set i (e.1, v)).map Prod.fst = b.map Prod.fst := by
          rw [List.map_set]
          apply List.ext_getElem
          · simp
          · intro j h1 h2
            by_cases hj : i = j
            · subst hj; simp [hget]
            · simp [hj]
        refine ⟨?_, ?_⟩
        · apply inv_update s h k _ _ _ le_rfl
          · intro d hd
            cases hd
            rw [hset]
            exact h.nodup k b hk
          · intro d hd j hj
            cases hd
            rw [hset] at hj
            exact ⟨hfresh k b hk j hj, fun _ => ⟨b, hk, hj⟩⟩
          · intro j
            simp only [Option.some.injEq, exists_eq_left', hset, hk, forall_eq']
            constructor
            · intro hj
              by_cases hb : j ∈ b.map Prod.fst
              · exact .inl hb
              · exact .inr ⟨hj, hb⟩
            · rintro (hb | ⟨hj, _⟩)
              · exact hlive k b hk j hb
              · exact hj
        · rw [vals_update]; simp only [specStep, hv, Option.bind_some, Option.map_some, List.length_map, hlt, if_true, List.map_set]
  | destroy k =>
    cases hk : s.box k with
    | none =>
      have hv : s.vals k = none := by simp [St.vals, hk]
      simp [step, specStep, hk, hv]
    | some b =>
      have hv : s.vals k = some (b.map Prod.snd) := by simp [St.vals, hk]
      obtain ⟨L', h1, h2⟩ := free_some (b.map Prod.fst) s.live (h.nodup k b hk) (hlive k b hk)
      refine ⟨?_, by simp [step, specStep, hk, hv, h1, Op.ok]⟩
      intro s' hs'
      simp only [step, hk, Option.bind_some, h1, Option.map_some, Option.some.injEq] at hs'
      subst hs'
      refine ⟨?_, ?_⟩
      · apply inv_update s h k _ _ _ le_rfl
        · intro d hd; cases hd
        · intro d hd; cases hd
        · intro j
          rw [h2]
          simp [hk]
      · rw [vals_update]; simp [specStep, hv]

theorem inv_init (α : Type) : Inv (St.init α) := ⟨by simp [St.init], by simp [St.init], by simp [St.init], by simp [St.init]⟩

/-- Values after a sequence of operations, on lists. -/
def specRun {α : Type} : (ℕ → Option (List α)) → List (Op α) → Option (ℕ → Option (List α))
  | b, [] => some b
  | b, o :: os => (specStep b o).bind fun b => specRun b os

/-- No operation of the sequence inserts a collection that is not empty into itself. -/
def okRun {α : Type} : (ℕ → Option (List α)) → List (Op α) → Prop
  | _, [] => True
  | b, o :: os => o.ok b ∧ ∀ b', specStep b o = some b' → okRun b' os

/-- After any sequence of operations the collections contain what lists of values would, every cut exists once, belongs to one collection, and is gone with it. -/
theorem collections_partial {α : Type} (os : List (Op α)) (b : ℕ → Option (List α)) (h : specRun (fun _ => none) os = some b) (hok : okRun (fun _ => none) os) :
    ∃ s, run (St.init α) os = some s ∧ s.vals = b ∧ Inv s := by
  suffices H : ∀ (os : List (Op α)) (s0 : St α), Inv s0 → specRun s0.vals os = some b → okRun s0.vals os → ∃ s, run s0 os = some s ∧ s.vals = b ∧ Inv s by
    have : (St.init α).vals = fun _ => none := by funext k; rfl
    exact H os (St.init α) (inv_init α) (this ▸ h) (this ▸ hok)
  intro os
  induction os with
  | nil =>
    intro s0 h0 h1 _
    exact ⟨s0, rfl, by simpa [specRun] using h1, h0⟩
  | cons o os ih =>
    intro s0 h0 h1 h2
    simp only [specRun] at h1
    cases hb : specStep s0.vals o with
    | none => simp [hb] at h1
    | some b1 =>
      simp only [hb, Option.bind_some] at h1
      obtain ⟨k1, k2⟩ := step_refines s0 h0 o
      have : (step s0 o).isSome := k2.mpr ⟨by simp [hb], h2.1⟩
      obtain ⟨s1, hs1⟩ := Option.isSome_iff_exists.mp this
      obtain ⟨i1, i2⟩ := k1 s1 hs1
      rw [hb, Option.some.injEq] at i2
      subst i2
      obtain ⟨s, r1, r2, r3⟩ := ih s1 i1 h1 (h2.2 _ hb)
      exact ⟨s, by simp [run, hs1, r1], r2, r3⟩

/-- Conversely, a sequence that runs does what it does on lists. -/
theorem collections_sound {α : Type} (os : List (Op α)) (s : St α) (h : run (St.init α) os = some s) : Inv s ∧ specRun (fun _ => none) os = some s.vals := by
  suffices H : ∀ (os : List (Op α)) (s0 : St α), Inv s0 → run s0 os = some s → Inv s ∧ specRun s0.vals os = some s.vals by
    exact H os (St.init α) (inv_init α) h
  intro os
  induction os with
  | nil => intro s0 h0 h1; simp [run] at h1; subst h1; exact ⟨h0, rfl⟩
  | cons o os ih =>
    intro s0 h0 h1
    simp only [run] at h1
    cases hs : step s0 o with
    | none => simp [hs] at h1
    | some s1 =>
      simp only [hs, Option.bind_some] at h1
      obtain ⟨i1, i2⟩ := (step_refines s0 h0 o).1 s1 hs
      obtain ⟨j1, j2⟩ := ih s1 i1 h1
      exact ⟨j1, by simp [specRun, i2, j2]⟩

/-- With all collections destroyed nothing is left. -/
theorem all_destroyed {α : Type} (s : St α) (h : Inv s) (hd : ∀ k, s.box k = none) (i : ℕ) : s.live i = false := by
  cases hl : s.live i
  · rfl
  · obtain ⟨k, b, hb, _⟩ := (h.live_iff i).mp hl
    rw [hd k] at hb
    cases hb

/-- Inserting a collection into itself does not end: its vector grows while it is read. -/
theorem self_insert_never : run (St.init ℕ) [.new 0, .insert 0 5, .insertAll 0 0] = none ∧ (specRun (α := ℕ) (fun _ => none) [.new 0, .insert 0 5, .insertAll 0 0]).isSome := by
  simp [run, step, St.init, specRun, specStep, Function.update, fresh]

example : ((run (St.init ℕ) [.new 0, .insert 0 5, .insert 0 6, .copy 1 0, .erase 0 0, .set 1 1 9, .insertAll 0 1, .assign 1 0, .destroy 0]).map fun s => (s.vals 0, s.vals 1, (List.range 12).filter s.live)) =
    some (none, some [6, 5, 9], [6, 7, 8]) := by decide +kernel
end Verif.Quad.Cut

import Mathlib.Algebra.Order.Field.Rat
import Mathlib.Data.List.Induction
import Mathlib.Data.List.Sort
import Mathlib.Tactic.Linarith
import Mathlib.Tactic.NormNum
/-! # C132: the list of candidates for branching on n-way objects

experimental/RobotBonmin/BonNWayChoose.cpp: `setupList` 193-343.

`list_` and `useful_` are one array of slots, `none` for index -1.  A failed assertion or an access out of range is `none`.  `huge` is `COIN_DBL_MAX`; `CoinSort_2` is any sort. -/
namespace Verif.Nway

/-- What is asked of an object: infeasibility, priority and — below the root — usefulness (242, 245, 264). -/
structure Cand where
  infeas : ℚ
  prio : ℤ
  useful : ℚ
deriving DecidableEq

/-- The value objects of the best priority are compared by (242, 263-265). -/
def Cand.value (c : Cand) (root : Bool) : ℚ := if root then c.infeas else c.useful

/-- Variables of the loop (223-229). -/
structure LSt where
  slots : List (Option (ℕ × ℚ))
  putOther : ℕ
  maxStrong : ℕ
  best : ℤ
  check : ℚ
  checkIndex : ℕ
deriving DecidableEq

/-- `COIN_INT_MAX` -/
def maxInt : ℤ := 2147483647

/-- Before the loop (223-233). -/
def LSt.init (huge : ℚ) (n : ℕ) : LSt := ⟨List.replicate n none, n, n, maxInt, -huge, 0⟩

/-- A better priority: the slots `j - 1, …, 0` are moved to the end (248-255).  `useful_` of an entry at the end is 0. -/
def lFlush : ℕ → LSt → Option LSt
  | 0, s => some s
  | j + 1, s => (s.slots[j]?).bind fun o => match o with
    | none => lFlush j s
    | some (x, _) => if s.putOther = 0 then none else lFlush j { s with slots := (s.slots.set j none).set (s.putOther - 1) (some (x, 0)), putOther := s.putOther - 1 }

/-- `assert (list_[putOther-1]<0); list_[--putOther]=x` (271-272, 296-297, 304-305). -/
def lEnd (s : LSt) (x : ℕ) : Option LSt :=
  if s.putOther = 0 then none
  else if s.slots[s.putOther - 1]? = some none then some { s with slots := s.slots.set (s.putOther - 1) (some (x, 0)), putOther := s.putOther - 1 }
  else none

/-- `maximumStrong = CoinMin(maximumStrong,putOther)` (279, 298, 306). -/
def lShrink (s : LSt) : LSt := { s with maxStrong := min s.maxStrong s.putOther }

/-- Search for the worst slot (280-292) from number `j` on. -/
def lWorst : List (Option (ℕ × ℚ)) → ℕ → ℚ → ℕ → ℚ × ℕ
  | [], _, c, k => (c, k)
  | none :: _, j, _, _ => (0, j)
  | some (_, u) :: l, j, c, k => if u < c then lWorst l (j + 1) u j else lWorst l (j + 1) c k

/-- An object is put in slot `checkIndex` (267-292). -/
def lPlace (huge : ℚ) (x : ℕ) (v : ℚ) (s : LSt) : Option LSt :=
  (s.slots[s.checkIndex]?).bind fun o =>
    (match o with | none => some s | some (y, _) => lEnd s y).bind fun t =>
      if t.checkIndex < t.putOther then
        let t := lShrink { t with slots := t.slots.set t.checkIndex (some (x, v)) }
        let w := lWorst (t.slots.take t.maxStrong) 0 huge t.checkIndex
        some { t with check := w.1, checkIndex := w.2 }
      else none

/-- One unsatisfied object (245-307) with number `x`. -/
def lStep (huge : ℚ) (root : Bool) (x : ℕ) (c : Cand) (s : LSt) : Option LSt :=
  (if c.prio < s.best then (lFlush s.maxStrong s).map fun t => { t with best := c.prio, check := -huge, checkIndex := 0 } else some s).bind fun s =>
    if c.prio = s.best then
      if s.check < c.value root then lPlace huge x (c.value root) s else (lEnd s x).map lShrink
    else (lEnd s x).map lShrink

/-- The loop (240-309) from number `x` on. -/
def lScan (huge : ℚ) (root : Bool) : List Cand → ℕ → LSt → Option LSt
  | [], _, s => some s
  | c :: cs, x, s => if 0 < c.infeas then (lStep huge root x c s).bind (lScan huge root cs (x + 1)) else lScan huge root cs (x + 1) s

/-- What the caller sees: `numberUnsatisfied_`, `numberOnList_`, and the first `numberUnsatisfied_` entries of `list_`. -/
structure LOut where
  unsat : ℕ
  onList : ℕ
  list : List ℕ
deriving DecidableEq

/-- End of `setupList` (311-332); `sort` orders the slots by `useful_`, which has been negated. -/
def lFinish (sort : List (ℕ × ℚ) → List (ℕ × ℚ)) (strong : ℕ) (unsat : ℕ) (s : LSt) : Option LOut :=
  let on := (s.slots.take (min s.maxStrong s.putOther)).filterMap id
  if on = [] then some ⟨unsat, 0, []⟩
  else
    let l := (sort (on.map fun p => (p.1, -p.2))).map Prod.fst ++ (s.slots.drop s.putOther).filterMap (Option.map Prod.fst)
    if l.length = unsat then some ⟨unsat, if strong = 0 then 0 else on.length, l⟩ else none

/-- `setupList` (193-343) for `start` = `start_nway_` and the n-way objects `cs`. -/
def setupList (huge : ℚ) (root : Bool) (strong start : ℕ) (sort : List (ℕ × ℚ) → List (ℕ × ℚ)) (cs : List Cand) : Option LOut :=
  (lScan huge root cs start (LSt.init huge cs.length)).bind (lFinish sort strong (cs.countP fun c => 0 < c.infeas))

/-! ## Specification -/

/-- `sort` orders by the second component. -/
structure IsSort (sort : List (ℕ × ℚ) → List (ℕ × ℚ)) : Prop where
  perm : ∀ l, (sort l).Perm l
  sorted : ∀ l, (sort l).Pairwise fun a b => a.2 ≤ b.2

/-- Object `x` is unsatisfied, `c` what it answers. -/
def Unsat (start : ℕ) (cs : List Cand) (x : ℕ) (c : Cand) : Prop := start ≤ x ∧ cs[x - start]? = some c ∧ 0 < c.infeas

/-- Unsatisfied and of the best priority. -/
def Top (start : ℕ) (cs : List Cand) (x : ℕ) (c : Cand) : Prop := Unsat start cs x c ∧ ∀ y d, Unsat start cs y d → c.prio ≤ d.prio

/-! ## Lemmas -/

/-- The state by its parts: objects in the first slots, free slots, objects at the end. -/
structure LInv (huge : ℚ) (n : ℕ) (S : List (ℕ × ℚ)) (free : ℕ) (E : List ℕ) (s : LSt) : Prop where
  slots : s.slots = S.map some ++ (List.replicate free none ++ E.map fun x => some (x, 0))
  put : s.putOther = S.length + free
  maxs : s.maxStrong = S.length + free
  idx : 0 < free → s.checkIndex = S.length ∧ s.check = if S = [] then -huge else 0

theorem lFlush_spec : ∀ (S : List (ℕ × ℚ)) (f : ℕ) (E : List ℕ) (s : LSt), s.slots = S.map some ++ (List.replicate f none ++ E.map fun x => some (x, 0)) → s.putOther = S.length + f →
    lFlush S.length s = some { s with slots := List.replicate (S.length + f - S.length) none ++ (S.map Prod.fst ++ E).map (fun x => some (x, 0)), putOther := f } := by
  intro S
  induction S using List.reverseRecOn with
  | nil => intro f E s hs hp; simp only [List.length_nil, lFlush]; simp only [List.map_nil, List.nil_append, List.length_nil, Nat.zero_add] at hs hp ⊢; cases s; simp_all
  | append_singleton S a ih =>
    intro f E s hs hp
    simp only [List.length_append, List.length_singleton] at hp ⊢
    rw [lFlush]
    have h1 : s.slots[S.length]? = some (some a) := by rw [hs]; simp
    simp only [h1, Option.bind_some]
    rw [if_neg (by omega)]
    have h2 : (s.slots.set S.length none).set (s.putOther - 1) (some (a.1, 0)) = S.map some ++ (List.replicate f none ++ (a.1 :: E).map fun x => some (x, 0)) := by
      rw [hs, hp]
      apply List.ext_getElem?
      intro i
      simp only [List.map_append, List.map_cons, List.map_nil, List.getElem?_set, List.length_set]
      by_cases hi : S.length + 1 + f - 1 = i
      · rw [if_pos hi, if_pos (by simp; omega)]
        rw [List.getElem?_append_right (by simp; omega), List.getElem?_append_right (by simp; omega)]
        simp only [List.length_map, List.length_replicate]
        have : i - S.length - f = 0 := by omega
        rw [this]; simp
      · rw [if_neg hi]
        by_cases hi2 : S.length = i
        · rw [if_pos hi2, if_pos (by simp)]
          subst hi2
          rw [List.getElem?_append_right (by simp), List.getElem?_append_left (by simp; omega)]
          simp only [List.length_map, Nat.sub_self, List.getElem?_replicate]
          rw [if_pos (by omega)]
        · rw [if_neg hi2]
          by_cases hi3 : i < S.length
          · rw [List.append_assoc, List.getElem?_append_left (by simpa using hi3), List.getElem?_append_left (by simpa using hi3)]
          · obtain ⟨m, rfl⟩ : ∃ m, i = S.length + (m + 1) := ⟨i - S.length - 1, by omega⟩
            have e1 : ((S.map some ++ [some a]) ++ (List.replicate f none ++ E.map fun x => some (x, (0 : ℚ))))[S.length + (m + 1)]? = (List.replicate f none ++ E.map fun x => some (x, (0 : ℚ)))[m]? := by
              rw [List.getElem?_append_right (by simp)]
              congr 1; simp; omega
            have e2 : (S.map some ++ (List.replicate f none ++ some (a.1, (0 : ℚ)) :: E.map fun x => some (x, (0 : ℚ))))[S.length + (m + 1)]? = (List.replicate f none ++ some (a.1, (0 : ℚ)) :: E.map fun x => some (x, (0 : ℚ)))[m + 1]? := by
              rw [List.getElem?_append_right (by simp)]
              congr 1; simp
            rw [e1, e2]
            by_cases hmf : m < f
            · rw [List.getElem?_append_left (by simpa using hmf), List.getElem?_append_left (by simp; omega)]
              simp only [List.getElem?_replicate]
              rw [if_pos hmf, if_pos (by omega)]
            · rw [List.getElem?_append_right (by simp; omega), List.getElem?_append_right (by simp; omega)]
              simp only [List.length_replicate]
              have : m + 1 - f = (m - f) + 1 := by omega
              rw [this, List.getElem?_cons_succ]
    rw [ih f (a.1 :: E) _ h2 (by simp only; omega)]
    simp

theorem lFlush_none : ∀ (j m : ℕ) (s : LSt), m ≤ j → j ≤ s.slots.length → (∀ i, m ≤ i → i < j → s.slots[i]? = some none) → lFlush j s = lFlush m s := by
  intro j
  induction j with
  | zero => intro m s hm _ _; have : m = 0 := by omega
            rw [this]
  | succ j ih =>
    intro m s hm hl h
    rcases Nat.eq_or_lt_of_le hm with rfl | hm
    · rfl
    · rw [lFlush, h j (by omega) (by omega)]
      simp only [Option.bind_some]
      exact ih m s (by omega) (by omega) fun i h1 h2 => h i h1 (by omega)

theorem lWorst_full : ∀ (S : List (ℕ × ℚ)) (l : List (Option (ℕ × ℚ))) (j : ℕ) (c : ℚ) (k : ℕ), lWorst (S.map some ++ none :: l) j c k = (0, j + S.length)
  | [], l, j, c, k => by simp [lWorst]
  | a :: S, l, j, c, k => by
    simp only [List.map_cons, List.cons_append, lWorst]
    split_ifs <;> (rw [lWorst_full S l (j + 1)]; simp; omega)

/-- Abstract state: objects in the slots, objects at the end, best priority. -/
structure ASt where
  S : List (ℕ × ℚ)
  E : List ℕ
  best : ℤ

/-- What one unsatisfied object does. -/
def aStep (root : Bool) (x : ℕ) (c : Cand) (a : ASt) : ASt :=
  if c.prio < a.best then ⟨[(x, c.value root)], a.S.map Prod.fst ++ a.E, c.prio⟩
  else if c.prio = a.best ∧ (a.S = [] ∨ 0 < c.value root) then ⟨a.S ++ [(x, c.value root)], a.E, a.best⟩
  else ⟨a.S, x :: a.E, a.best⟩

/-- The loop. -/
def aScan (root : Bool) : List Cand → ℕ → ASt → ASt
  | [], _, a => a
  | c :: cs, x, a => aScan root cs (x + 1) (if 0 < c.infeas then aStep root x c a else a)

theorem lEnd_spec (huge : ℚ) (n : ℕ) (S : List (ℕ × ℚ)) (free : ℕ) (E : List ℕ) (s : LSt) (h : LInv huge n S (free + 1) E s) (x : ℕ) :
    ∃ t, (lEnd s x).map lShrink = some t ∧ LInv huge n S free (x :: E) t ∧ t.best = s.best := by
  have h1 : s.putOther - 1 = S.length + free := by rw [h.put]; omega
  have h2 : s.slots[s.putOther - 1]? = some none := by
    rw [h1, h.slots, List.getElem?_append_right (by simp), List.getElem?_append_left (by simp)]
    simp
  have h3 : s.slots.set (s.putOther - 1) (some (x, 0)) = S.map some ++ (List.replicate free none ++ (x :: E).map fun x => some (x, 0)) := by
    rw [h1, h.slots, List.set_append_right _ _ (by simp)]
    congr 1
    rw [List.length_map, Nat.add_sub_cancel_left, List.replicate_succ', List.append_assoc, List.set_append_right _ _ (by simp)]
    simp
  refine ⟨lShrink { s with slots := s.slots.set (s.putOther - 1) (some (x, 0)), putOther := s.putOther - 1 }, ?_, ⟨h3, h1, ?_, ?_⟩, rfl⟩
  · unfold lEnd
    rw [if_neg (by rw [h.put]; omega), if_pos h2, Option.map_some]
  · show min s.maxStrong (s.putOther - 1) = _
    rw [h1, h.maxs]; omega
  · intro _
    exact h.idx (by omega)

theorem lPlace_spec (huge : ℚ) (n : ℕ) (S : List (ℕ × ℚ)) (free : ℕ) (E : List ℕ) (s : LSt) (hs : s.slots = S.map some ++ (List.replicate (free + 1) none ++ E.map fun x => some (x, 0)))
    (hp : s.putOther = S.length + (free + 1)) (hm : S.length + (free + 1) ≤ s.maxStrong) (hi : s.checkIndex = S.length) (x : ℕ) (v : ℚ) :
    ∃ t, lPlace huge x v s = some t ∧ LInv huge n (S ++ [(x, v)]) free E t ∧ t.best = s.best := by
  have h1 : s.slots[s.checkIndex]? = some none := by
    rw [hi, hs, List.getElem?_append_right (by simp), List.getElem?_append_left (by simp)]; simp
  have h2 : s.slots.set s.checkIndex (some (x, v)) = (S ++ [(x, v)]).map some ++ (List.replicate free none ++ E.map fun x => some (x, 0)) := by
    rw [hi, hs, List.set_append_right _ _ (by simp)]
    simp [List.replicate_succ]
  have hmin : min s.maxStrong s.putOther = S.length + 1 + free := by omega
  unfold lPlace
  rw [h1]
  simp only [Option.bind_some]
  rw [if_pos (by omega)]
  refine ⟨_, rfl, ⟨h2, by simp [lShrink, hp]; omega, ?_, ?_⟩, rfl⟩
  · show min s.maxStrong s.putOther = _
    simp [hmin]
  · intro hf
    have : lWorst ((lShrink { s with slots := s.slots.set s.checkIndex (some (x, v)) }).slots.take (lShrink { s with slots := s.slots.set s.checkIndex (some (x, v)) }).maxStrong) 0 huge s.checkIndex = (0, S.length + 1) := by
      show lWorst ((s.slots.set s.checkIndex (some (x, v))).take (min s.maxStrong s.putOther)) 0 huge s.checkIndex = _
      rw [h2, hmin]
      obtain ⟨f, rfl⟩ : ∃ f, free = f + 1 := ⟨free - 1, by omega⟩
      have : ((S ++ [(x, v)]).map some ++ (List.replicate (f + 1) none ++ E.map fun x => some (x, 0))).take (S.length + 1 + (f + 1)) = (S ++ [(x, v)]).map some ++ none :: List.replicate f none := by
        rw [← List.append_assoc, List.take_left' (by simp; omega)]
        simp [List.replicate_succ]
      rw [this, lWorst_full]
      simp
    constructor
    · show (lWorst _ 0 huge _).2 = _
      exact (congrArg Prod.snd this).trans (by simp)
    · rw [if_neg (by simp)]
      exact congrArg Prod.fst this

theorem lStep_spec (huge : ℚ) (root : Bool) (n : ℕ) (a : ASt) (free : ℕ) (s : LSt) (h : LInv huge n a.S (free + 1) a.E s) (hb : s.best = a.best) (x : ℕ) (c : Cand) (hv : -huge < c.value root) :
    ∃ t, lStep huge root x c s = some t ∧ LInv huge n (aStep root x c a).S free (aStep root x c a).E t ∧ t.best = (aStep root x c a).best := by
  unfold lStep aStep
  rw [hb]
  by_cases h1 : c.prio < a.best
  · rw [if_pos h1, if_pos h1]
    have hfl : lFlush s.maxStrong s = some { s with slots := List.replicate (a.S.length + (free + 1) - a.S.length) none ++ (a.S.map Prod.fst ++ a.E).map (fun x => some (x, 0)), putOther := free + 1 } := by
      rw [lFlush_none s.maxStrong a.S.length s (by rw [h.maxs]; omega) (by rw [h.maxs, h.slots]; simp) ?_]
      · exact lFlush_spec a.S (free + 1) a.E s h.slots h.put
      · intro i h2 h3
        rw [h.maxs] at h3
        rw [h.slots, List.getElem?_append_right (by simpa using h2), List.getElem?_append_left (by simp; omega)]
        rw [List.getElem?_replicate, if_pos (by simp; omega)]
    rw [hfl]
    simp only [Option.map_some, Option.bind_some, if_true]
    rw [if_pos hv]
    obtain ⟨t, e1, e2, e3⟩ := lPlace_spec huge n [] free (a.S.map Prod.fst ++ a.E)
      ⟨List.replicate (a.S.length + (free + 1) - a.S.length) none ++ (a.S.map Prod.fst ++ a.E).map (fun x => some (x, 0)), free + 1, s.maxStrong, c.prio, -huge, 0⟩
      (by rw [Nat.add_sub_cancel_left]; rfl) (by simp) (by simp [h.maxs]) (by simp) x (c.value root)
    exact ⟨t, e1, by simpa using e2, e3⟩
  · rw [if_neg h1, if_neg h1]
    simp only [Option.bind_some, hb]
    obtain ⟨hi1, hi2⟩ := h.idx (by omega)
    by_cases h2 : c.prio = a.best
    · rw [if_pos h2]
      by_cases h3 : a.S = [] ∨ 0 < c.value root
      · have h4 : s.check < c.value root := by
          rw [hi2]
          split_ifs with h5
          · exact hv
          · exact h3.resolve_left h5
        rw [if_pos h4, if_pos ⟨h2, h3⟩]
        obtain ⟨t, e1, e2, e3⟩ := lPlace_spec huge n a.S free a.E s h.slots h.put (le_of_eq h.maxs.symm) hi1 x (c.value root)
        exact ⟨t, e1, e2, by rw [e3, hb]⟩
      · have h3' := h3
        push Not at h3'
        rw [if_neg (by rw [hi2, if_neg h3'.1]; exact not_lt.2 h3'.2), if_neg (fun h => h3 h.2)]
        obtain ⟨t, e1, e2, e3⟩ := lEnd_spec huge n a.S free a.E s h x
        exact ⟨t, e1, e2, by rw [e3, hb]⟩
    · rw [if_neg h2, if_neg (fun h => h2 h.1)]
      obtain ⟨t, e1, e2, e3⟩ := lEnd_spec huge n a.S free a.E s h x
      exact ⟨t, e1, e2, by rw [e3, hb]⟩

theorem aStep_inv (root : Bool) (x : ℕ) (c : Cand) (a : ASt) (hp : c.prio ≤ maxInt) (h : a.S = [] → a.E = [] ∧ a.best = maxInt) : (aStep root x c a).S ≠ [] := by
  unfold aStep
  split_ifs with h1 h2
  · simp
  · simp
  · intro h3
    simp only at h3
    obtain ⟨-, h4⟩ := h h3
    exact h2 ⟨by rw [h4] at h1 ⊢; omega, Or.inl h3⟩

theorem aScan_inv (root : Bool) : ∀ (cs : List Cand) (x : ℕ) (a : ASt), (∀ c ∈ cs, c.prio ≤ maxInt) → (a.S = [] → a.E = [] ∧ a.best = maxInt) →
    ((aScan root cs x a).S = [] → (aScan root cs x a).E = [] ∧ (aScan root cs x a).best = maxInt)
  | [], x, a, hp, h => h
  | c :: cs, x, a, hp, h => by
    rw [aScan]
    apply aScan_inv root cs (x + 1) _ fun d hd => hp d (by simp [hd])
    by_cases h0 : 0 < c.infeas
    · rw [if_pos h0]; intro h1; exact absurd h1 (aStep_inv root x c a (hp c (by simp)) h)
    · rw [if_neg h0]; exact h

theorem lScan_spec (huge : ℚ) (root : Bool) (n : ℕ) : ∀ (cs : List Cand) (x : ℕ) (a : ASt) (free : ℕ) (s : LSt), LInv huge n a.S free a.E s → s.best = a.best → cs.length ≤ free →
    (∀ c ∈ cs, -huge < c.value root) → ∃ t f, lScan huge root cs x s = some t ∧ LInv huge n (aScan root cs x a).S f (aScan root cs x a).E t
  | [], x, a, free, s, h, hb, hl, hv => ⟨s, free, rfl, h⟩
  | c :: cs, x, a, free, s, h, hb, hl, hv => by
    rw [lScan, aScan]
    by_cases h0 : 0 < c.infeas
    · rw [if_pos h0, if_pos h0]
      obtain ⟨f, rfl⟩ : ∃ f, free = f + 1 := ⟨free - 1, by simp at hl; omega⟩
      obtain ⟨t, e1, e2, e3⟩ := lStep_spec huge root n a f s h hb x c (hv c (by simp))
      rw [e1, Option.bind_some]
      exact lScan_spec huge root n cs (x + 1) _ f t e2 e3 (by simp at hl; omega) fun d hd => hv d (by simp [hd])
    · rw [if_neg h0, if_neg h0]
      exact lScan_spec huge root n cs (x + 1) a free s h hb (by simp at hl; omega) fun d hd => hv d (by simp [hd])

/-- Objects put aside so far. -/
def ASt.all (a : ASt) : List ℕ := a.S.map Prod.fst ++ a.E

theorem aStep_all (root : Bool) (x : ℕ) (c : Cand) (a : ASt) : (aStep root x c a).all.Perm (x :: a.all) := by
  unfold aStep ASt.all
  split_ifs
  · simp
  · simp only [List.map_append, List.map_cons, List.map_nil, List.append_assoc, List.singleton_append]
    exact List.perm_middle
  · exact List.perm_middle

theorem aScan_all (root : Bool) : ∀ (cs : List Cand) (x : ℕ) (a : ASt), (aScan root cs x a).all.Perm (((List.range' x cs.length).zip cs).filterMap (fun p => if 0 < p.2.infeas then some p.1 else none) ++ a.all)
  | [], x, a => by simp [aScan]
  | c :: cs, x, a => by
    rw [aScan, List.length_cons, List.range'_succ, List.zip_cons_cons]
    refine (aScan_all root cs (x + 1) _).trans ?_
    by_cases h0 : 0 < c.infeas
    · simp only [h0, if_true, List.filterMap_cons]
      refine ((aStep_all root x c a).append_left _).trans ?_
      exact List.perm_middle
    · simp only [h0, if_false, List.filterMap_cons]
      exact List.Perm.refl _

/-- The unsatisfied objects of a list from number `x` on. -/
def unsatList (x : ℕ) (cs : List Cand) : List ℕ := ((List.range' x cs.length).zip cs).filterMap (fun p => if 0 < p.2.infeas then some p.1 else none)

theorem unsatList_cons (x : ℕ) (c : Cand) (cs : List Cand) : unsatList x (c :: cs) = if 0 < c.infeas then x :: unsatList (x + 1) cs else unsatList (x + 1) cs := by
  unfold unsatList
  rw [List.length_cons, List.range'_succ, List.zip_cons_cons, List.filterMap_cons]
  split_ifs <;> rfl

theorem unsatList_length : ∀ (cs : List Cand) (x : ℕ), (unsatList x cs).length = cs.countP fun c => 0 < c.infeas
  | [], x => by simp [unsatList]
  | c :: cs, x => by
    rw [unsatList_cons, List.countP_cons]
    by_cases h0 : 0 < c.infeas
    · simp [h0, unsatList_length cs (x + 1)]
    · simp [h0, unsatList_length cs (x + 1)]

theorem unsatList_mem : ∀ (cs : List Cand) (x y : ℕ), y ∈ unsatList x cs ↔ ∃ c, Unsat x cs y c
  | [], x, y => by simp [unsatList, Unsat]
  | c :: cs, x, y => by
    have ih := unsatList_mem cs (x + 1) y
    have key : (∃ d, Unsat x (c :: cs) y d) ↔ (y = x ∧ 0 < c.infeas) ∨ ∃ d, Unsat (x + 1) cs y d := by
      constructor
      · rintro ⟨d, h1, h2, h3⟩
        rcases Nat.eq_or_lt_of_le h1 with rfl | h1
        · simp only [Nat.sub_self, List.getElem?_cons_zero, Option.some.injEq] at h2
          subst h2; exact Or.inl ⟨rfl, h3⟩
        · right
          refine ⟨d, h1, ?_, h3⟩
          have : y - x = (y - (x + 1)) + 1 := by omega
          rw [this, List.getElem?_cons_succ] at h2; exact h2
      · rintro (⟨rfl, h3⟩ | ⟨d, h1, h2, h3⟩)
        · exact ⟨c, le_refl _, by simp, h3⟩
        · refine ⟨d, by omega, ?_, h3⟩
          have : y - x = (y - (x + 1)) + 1 := by omega
          rw [this, List.getElem?_cons_succ]; exact h2
    rw [unsatList_cons, key]
    by_cases h0 : 0 < c.infeas
    · simp [h0, ih]
    · simp [h0, ih]

theorem unsatList_nodup : ∀ (cs : List Cand) (x : ℕ), (unsatList x cs).Nodup
  | [], x => by simp [unsatList]
  | c :: cs, x => by
    rw [unsatList_cons]
    split_ifs
    · refine List.nodup_cons.2 ⟨?_, unsatList_nodup cs (x + 1)⟩
      rw [unsatList_mem]
      rintro ⟨d, h, -⟩
      omega
    · exact unsatList_nodup cs (x + 1)

/-- The result by the abstract loop. -/
theorem setupList_eq (huge : ℚ) (root : Bool) (strong start : ℕ) (sort : List (ℕ × ℚ) → List (ℕ × ℚ)) (hsort : IsSort sort) (cs : List Cand) (hv : ∀ c ∈ cs, -huge < c.value root) (hp : ∀ c ∈ cs, c.prio ≤ maxInt) :
    setupList huge root strong start sort cs = some ⟨(unsatList start cs).length, if strong = 0 then 0 else (aScan root cs start ⟨[], [], maxInt⟩).S.length,
      (sort ((aScan root cs start ⟨[], [], maxInt⟩).S.map fun p => (p.1, -p.2))).map Prod.fst ++ (aScan root cs start ⟨[], [], maxInt⟩).E⟩ := by
  obtain ⟨t, f, e1, e2⟩ := lScan_spec huge root cs.length cs start ⟨[], [], maxInt⟩ cs.length (LSt.init huge cs.length) ⟨by simp [LSt.init], by simp [LSt.init], by simp [LSt.init], by simp [LSt.init]⟩ rfl (le_refl _) hv
  have hinv := aScan_inv root cs start ⟨[], [], maxInt⟩ hp (fun _ => ⟨rfl, rfl⟩)
  have hall : (aScan root cs start ⟨[], [], maxInt⟩).all.Perm (unsatList start cs) := by simpa [ASt.all, unsatList] using aScan_all root cs start ⟨[], [], maxInt⟩
  generalize aScan root cs start ⟨[], [], maxInt⟩ = a at *
  unfold setupList
  rw [e1, Option.bind_some, ← unsatList_length cs start]
  unfold lFinish
  have h1 : (t.slots.take (min t.maxStrong t.putOther)).filterMap id = a.S := by
    rw [e2.maxs, e2.put, Nat.min_self, e2.slots, ← List.append_assoc, List.take_left' (by simp)]
    simp
  have h2 : (t.slots.drop t.putOther).filterMap (Option.map Prod.fst) = a.E := by
    rw [e2.put, e2.slots, ← List.append_assoc, List.drop_left' (by simp)]
    simp [List.filterMap_map]
  simp only [h1, h2]
  have hlen : (unsatList start cs).length = a.S.length + a.E.length := by
    rw [← hall.length_eq]; simp [ASt.all]
  by_cases hS : a.S = []
  · obtain ⟨hE, -⟩ := hinv hS
    rw [if_pos hS, hS, hE]
    have : sort [] = [] := (hsort.perm []).eq_nil
    simp [this]
  · rw [if_neg hS]
    have hl : ((sort (a.S.map fun p => (p.1, -p.2))).map Prod.fst ++ a.E).length = (unsatList start cs).length := by
      rw [hlen]; simp [(hsort.perm _).length_eq]
    rw [if_pos hl]

/-- What is in the slots: unsatisfied objects of the best priority with their values; the first of them, and those of positive value. -/
structure AInv (root : Bool) (start : ℕ) (cs : List Cand) (a : ASt) : Prop where
  val : ∀ x v, (x, v) ∈ a.S → ∃ c, Unsat start cs x c ∧ c.prio = a.best ∧ v = c.value root
  bestle : ∀ y d, Unsat start cs y d → a.best ≤ d.prio
  pos : ∀ y d, Unsat start cs y d → d.prio = a.best → 0 < d.value root → (y, d.value root) ∈ a.S
  first : ∀ x v, (x, v) ∈ a.S → v ≤ 0 → ∀ y d, Unsat start cs y d → d.prio = a.best → x ≤ y
  firstIn : ∀ x c, Unsat start cs x c → c.prio = a.best → (∀ y d, Unsat start cs y d → d.prio = a.best → x ≤ y) → (x, c.value root) ∈ a.S

theorem unsat_append (start : ℕ) (cs : List Cand) (c : Cand) (x : ℕ) (d : Cand) : Unsat start (cs ++ [c]) x d ↔ Unsat start cs x d ∨ (x = start + cs.length ∧ d = c ∧ 0 < c.infeas) := by
  unfold Unsat
  constructor
  · rintro ⟨h1, h2, h3⟩
    by_cases h : x - start < cs.length
    · rw [List.getElem?_append_left h] at h2; exact Or.inl ⟨h1, h2, h3⟩
    · rw [List.getElem?_append_right (by omega)] at h2
      have h4 : x - start - cs.length = 0 := by
        have := (List.getElem?_eq_some_iff.1 h2).1
        simp at this; omega
      rw [h4] at h2
      simp at h2
      exact Or.inr ⟨by omega, h2.symm, by rw [h2]; exact h3⟩
  · rintro (⟨h1, h2, h3⟩ | ⟨rfl, rfl, h3⟩)
    · exact ⟨h1, by rw [List.getElem?_append_left (List.getElem?_eq_some_iff.1 h2).1]; exact h2, h3⟩
    · exact ⟨by omega, by simp, h3⟩

theorem unsat_lt (start : ℕ) (cs : List Cand) (x : ℕ) (d : Cand) (h : Unsat start cs x d) : x < start + cs.length := by
  have := (List.getElem?_eq_some_iff.1 h.2.1).1
  have := h.1
  omega

theorem aScan_append (root : Bool) : ∀ (cs : List Cand) (c : Cand) (x : ℕ) (a : ASt), aScan root (cs ++ [c]) x a = if 0 < c.infeas then aStep root (x + cs.length) c (aScan root cs x a) else aScan root cs x a
  | [], c, x, a => by simp [aScan]
  | d :: cs, c, x, a => by
    rw [List.cons_append, aScan, aScan_append root cs c (x + 1), aScan]
    have : x + 1 + cs.length = x + (d :: cs).length := by simp; omega
    rw [this]

theorem aScan_AInv (root : Bool) (start : ℕ) (cs : List Cand) (hp : ∀ c ∈ cs, c.prio ≤ maxInt) : AInv root start cs (aScan root cs start ⟨[], [], maxInt⟩) := by
  induction cs using List.reverseRecOn with
  | nil => refine ⟨?_, ?_, ?_, ?_, ?_⟩ <;> simp [aScan, Unsat]
  | append_singleton cs c ih =>
    have ih := ih (fun d hd => hp d (by simp [hd]))
    have hin := aScan_inv root cs start ⟨[], [], maxInt⟩ (fun d hd => hp d (by simp [hd])) (fun _ => ⟨rfl, rfl⟩)
    have hall : (aScan root cs start ⟨[], [], maxInt⟩).all.Perm (unsatList start cs) := by simpa [ASt.all, unsatList] using aScan_all root cs start ⟨[], [], maxInt⟩
    rw [aScan_append]
    generalize aScan root cs start ⟨[], [], maxInt⟩ = a at *
    have hcp := hp c (by simp)
    by_cases h0 : 0 < c.infeas
    · rw [if_pos h0]
      have hu := unsat_append start cs c
      have hself : Unsat start (cs ++ [c]) (start + cs.length) c := (hu _ _).2 (Or.inr ⟨rfl, rfl, h0⟩)
      have hempty : a.S = [] → ∀ y d, ¬ Unsat start cs y d := by
        intro hS y d hd
        have : y ∈ unsatList start cs := (unsatList_mem cs start y).2 ⟨d, hd⟩
        rw [← hall.mem_iff, ASt.all, hS, (hin hS).1] at this
        simp at this
      unfold aStep
      by_cases h1 : c.prio < a.best
      · rw [if_pos h1]
        refine ⟨?_, ?_, ?_, ?_, ?_⟩
        · intro x v hx
          simp only [List.mem_singleton, Prod.mk.injEq] at hx
          obtain ⟨rfl, rfl⟩ := hx
          exact ⟨c, hself, rfl, rfl⟩
        · intro y d hd
          rcases (hu y d).1 hd with hd | ⟨-, rfl, -⟩
          · exact le_trans (le_of_lt h1) (ih.bestle y d hd)
          · exact le_refl _
        · intro y d hd hdp hd0
          rcases (hu y d).1 hd with hd | ⟨rfl, rfl, -⟩
          · have := ih.bestle y d hd
            simp only at hdp; omega
          · simp
        · intro x v hx hv y d hd hdp
          simp only [List.mem_singleton, Prod.mk.injEq] at hx
          obtain ⟨rfl, rfl⟩ := hx
          rcases (hu y d).1 hd with hd | ⟨rfl, rfl, -⟩
          · have := ih.bestle y d hd
            simp only at hdp; omega
          · exact le_refl _
        · intro x d hd hdp _
          rcases (hu x d).1 hd with hd | ⟨rfl, rfl, -⟩
          · have := ih.bestle x d hd
            simp only at hdp; omega
          · simp
      · rw [if_neg h1]
        by_cases h2 : c.prio = a.best ∧ (a.S = [] ∨ 0 < c.value root)
        · rw [if_pos h2]
          refine ⟨?_, ?_, ?_, ?_, ?_⟩
          · intro x v hx
            simp only [List.mem_append, List.mem_singleton, Prod.mk.injEq] at hx
            rcases hx with hx | ⟨rfl, rfl⟩
            · obtain ⟨d, e1, e2, e3⟩ := ih.val x v hx
              exact ⟨d, (hu x d).2 (Or.inl e1), e2, e3⟩
            · exact ⟨c, hself, h2.1, rfl⟩
          · intro y d hd
            rcases (hu y d).1 hd with hd | ⟨-, rfl, -⟩
            · exact ih.bestle y d hd
            · exact le_of_eq h2.1.symm
          · intro y d hd hdp hd0
            rcases (hu y d).1 hd with hd | ⟨rfl, rfl, -⟩
            · exact List.mem_append_left _ (ih.pos y d hd hdp hd0)
            · simp
          · intro x v hx hv y d hd hdp
            simp only [List.mem_append, List.mem_singleton, Prod.mk.injEq] at hx
            rcases hx with hx | ⟨rfl, rfl⟩
            · rcases (hu y d).1 hd with hd | ⟨rfl, rfl, -⟩
              · exact ih.first x v hx hv y d hd hdp
              · obtain ⟨e, he, -⟩ := ih.val x v hx
                exact le_of_lt (unsat_lt start cs x e he)
            · rcases h2.2 with hS | hpos
              · rcases (hu y d).1 hd with hd | ⟨rfl, rfl, -⟩
                · exact absurd hd (hempty hS y d)
                · exact le_refl _
              · exact absurd hpos (not_lt.2 hv)
          · intro x d hd hdp hf
            rcases (hu x d).1 hd with hd | ⟨rfl, rfl, -⟩
            · exact List.mem_append_left _ (ih.firstIn x d hd hdp fun y e he hep => hf y e ((hu y e).2 (Or.inl he)) hep)
            · simp
        · rw [if_neg h2]
          have hS : c.prio = a.best → a.S ≠ [] ∧ c.value root ≤ 0 := by
            intro h3
            have := h2
            push Not at this
            exact this h3
          refine ⟨?_, ?_, ?_, ?_, ?_⟩
          · intro x v hx
            obtain ⟨d, e1, e2, e3⟩ := ih.val x v hx
            exact ⟨d, (hu x d).2 (Or.inl e1), e2, e3⟩
          · intro y d hd
            rcases (hu y d).1 hd with hd | ⟨-, rfl, -⟩
            · exact ih.bestle y d hd
            · exact not_lt.1 h1
          · intro y d hd hdp hd0
            rcases (hu y d).1 hd with hd | ⟨rfl, rfl, -⟩
            · exact ih.pos y d hd hdp hd0
            · exact absurd hd0 (not_lt.2 (hS hdp).2)
          · intro x v hx hv y d hd hdp
            rcases (hu y d).1 hd with hd | ⟨rfl, rfl, -⟩
            · exact ih.first x v hx hv y d hd hdp
            · obtain ⟨e, he, -⟩ := ih.val x v hx
              exact le_of_lt (unsat_lt start cs x e he)
          · intro x d hd hdp hf
            rcases (hu x d).1 hd with hd | ⟨rfl, rfl, -⟩
            · exact ih.firstIn x d hd hdp fun y e he hep => hf y e ((hu y e).2 (Or.inl he)) hep
            · obtain ⟨p, hp'⟩ := List.exists_mem_of_ne_nil _ (hS hdp).1
              obtain ⟨e, he, hep, -⟩ := ih.val p.1 p.2 hp'
              have := hf p.1 e ((hu _ _).2 (Or.inl he)) hep
              have := unsat_lt start cs p.1 e he
              omega
    · rw [if_neg h0]
      have hu : ∀ x d, Unsat start (cs ++ [c]) x d ↔ Unsat start cs x d := fun x d => by rw [unsat_append]; simp [h0]
      exact ⟨fun x v hx => by obtain ⟨d, e1, e2⟩ := ih.val x v hx; exact ⟨d, (hu x d).2 e1, e2⟩, fun y d hd => ih.bestle y d ((hu y d).1 hd), fun y d hd => ih.pos y d ((hu y d).1 hd),
        fun x v hx hv y d hd => ih.first x v hx hv y d ((hu y d).1 hd), fun x d hd hdp hf => ih.firstIn x d ((hu x d).1 hd) hdp fun y e he => hf y e ((hu y e).2 he)⟩

/-! ## Properties -/

/-- **C132 (part).** The list has every unsatisfied object exactly once and nothing else; the number returned is theirs; no assertion fails. -/
theorem list_exact (huge : ℚ) (root : Bool) (strong start : ℕ) (sort : List (ℕ × ℚ) → List (ℕ × ℚ)) (hsort : IsSort sort) (cs : List Cand) (hv : ∀ c ∈ cs, -huge < c.value root) (hp : ∀ c ∈ cs, c.prio ≤ maxInt) :
    ∃ o, setupList huge root strong start sort cs = some o ∧ o.list.Nodup ∧ (∀ x, x ∈ o.list ↔ ∃ c, Unsat start cs x c) ∧ o.unsat = o.list.length ∧ o.onList ≤ o.unsat := by
  have hall : (aScan root cs start ⟨[], [], maxInt⟩).all.Perm (unsatList start cs) := by simpa [ASt.all, unsatList] using aScan_all root cs start ⟨[], [], maxInt⟩
  refine ⟨_, setupList_eq huge root strong start sort hsort cs hv hp, ?_⟩
  generalize aScan root cs start ⟨[], [], maxInt⟩ = a at *
  have hperm : ((sort (a.S.map fun p => (p.1, -p.2))).map Prod.fst ++ a.E).Perm (unsatList start cs) := by
    refine (((hsort.perm _).map Prod.fst).append_right a.E).trans ?_
    have : (a.S.map fun p => (p.1, -p.2)).map Prod.fst = a.S.map Prod.fst := by simp
    rw [this]; exact hall
  refine ⟨hperm.nodup_iff.2 (unsatList_nodup cs start), fun x => ?_, hperm.length_eq.symm, ?_⟩
  · show x ∈ _ ↔ _
    rw [hperm.mem_iff, unsatList_mem]
  · show (if strong = 0 then 0 else a.S.length) ≤ (unsatList start cs).length
    rw [← hall.length_eq]
    split_ifs
    · omega
    · simp [ASt.all]

/-- **C132 (part).** The objects offered for strong branching are the first ones of the list, best value first, and they are exactly the unsatisfied objects of the best priority that have a positive value or the
least number among these. -/
theorem candidates_exact (huge : ℚ) (root : Bool) (strong start : ℕ) (sort : List (ℕ × ℚ) → List (ℕ × ℚ)) (hsort : IsSort sort) (cs : List Cand) (hv : ∀ c ∈ cs, -huge < c.value root) (hp : ∀ c ∈ cs, c.prio ≤ maxInt)
    (hstrong : strong ≠ 0) (o : LOut) (h : setupList huge root strong start sort cs = some o) :
    (∀ x, x ∈ o.list.take o.onList ↔ ∃ c, Top start cs x c ∧ (0 < c.value root ∨ ∀ y d, Top start cs y d → x ≤ y)) ∧
    (o.list.take o.onList).Pairwise (fun x y => ∀ c d, Unsat start cs x c → Unsat start cs y d → d.value root ≤ c.value root) := by
  rw [setupList_eq huge root strong start sort hsort cs hv hp, Option.some.injEq] at h
  have hA := aScan_AInv root start cs hp
  have hall : (aScan root cs start ⟨[], [], maxInt⟩).all.Perm (unsatList start cs) := by simpa [ASt.all, unsatList] using aScan_all root cs start ⟨[], [], maxInt⟩
  have hin := aScan_inv root cs start ⟨[], [], maxInt⟩ hp (fun _ => ⟨rfl, rfl⟩)
  subst h
  generalize aScan root cs start ⟨[], [], maxInt⟩ = a at *
  simp only [if_neg hstrong]
  have hlen : ((sort (a.S.map fun p => (p.1, -p.2))).map Prod.fst).length = a.S.length := by simp [(hsort.perm _).length_eq]
  rw [List.take_left' hlen]
  have hmem : ∀ p, p ∈ sort (a.S.map fun p => (p.1, -p.2)) ↔ (p.1, -p.2) ∈ a.S := by
    intro p
    rw [(hsort.perm _).mem_iff, List.mem_map]
    constructor
    · rintro ⟨q, hq, rfl⟩; simpa using hq
    · intro hq; exact ⟨_, hq, by simp⟩
  have htop : ∀ x c, Top start cs x c ↔ Unsat start cs x c ∧ c.prio = a.best := by
    intro x c
    constructor
    · rintro ⟨h1, h2⟩
      have hS : a.S ≠ [] := by
        intro hS
        have : x ∈ unsatList start cs := (unsatList_mem cs start x).2 ⟨c, h1⟩
        rw [← hall.mem_iff, ASt.all, hS, (hin hS).1] at this
        simp at this
      obtain ⟨p, hp'⟩ := List.exists_mem_of_ne_nil _ hS
      obtain ⟨e, he, hep, -⟩ := hA.val p.1 p.2 hp'
      have e1 := h2 p.1 e he
      have e2 := hA.bestle x c h1
      exact ⟨h1, by omega⟩
    · rintro ⟨h1, h2⟩
      exact ⟨h1, fun y d hd => by rw [h2]; exact hA.bestle y d hd⟩
  have huniq : ∀ x c d, Unsat start cs x c → Unsat start cs x d → c = d := by
    rintro x c d ⟨-, h1, -⟩ ⟨-, h2, -⟩
    rw [h1] at h2; exact Option.some.inj h2
  constructor
  · intro x
    rw [List.mem_map]
    constructor
    · rintro ⟨p, hp', rfl⟩
      rw [hmem] at hp'
      obtain ⟨c, e1, e2, e3⟩ := hA.val _ _ hp'
      refine ⟨c, (htop _ _).2 ⟨e1, e2⟩, ?_⟩
      by_cases h0 : 0 < c.value root
      · exact Or.inl h0
      · right
        intro y d hd
        exact hA.first _ _ hp' (by rw [e3]; exact not_lt.1 h0) y d ((htop _ _).1 hd).1 ((htop _ _).1 hd).2
    · rintro ⟨c, hc, h0 | h0⟩
      · obtain ⟨h1, h2⟩ := (htop _ _).1 hc
        exact ⟨(x, -c.value root), (hmem _).2 (by simpa using hA.pos x c h1 h2 h0), rfl⟩
      · obtain ⟨h1, h2⟩ := (htop _ _).1 hc
        exact ⟨(x, -c.value root), (hmem _).2 (by simpa using hA.firstIn x c h1 h2 fun y d hd hdp => h0 y d ((htop _ _).2 ⟨hd, hdp⟩)), rfl⟩
  · rw [List.pairwise_map]
    refine List.Pairwise.imp_of_mem ?_ (hsort.sorted _)
    intro p q hp' hq' hpq c d hc hd
    obtain ⟨c', e1, -, e3⟩ := hA.val _ _ ((hmem _).1 hp')
    obtain ⟨d', e1', -, e3'⟩ := hA.val _ _ ((hmem _).1 hq')
    rw [huniq _ _ _ hc e1, huniq _ _ _ hd e1', ← e3, ← e3']
    linarith

/-- **C132 (partial).** At the root the objects offered for strong branching are exactly the unsatisfied ones of the best priority, the most infeasible first.  Missing: below the root, where objects of the best
priority that have no positive value are not offered. -/
theorem candidates_partial (huge : ℚ) (strong start : ℕ) (sort : List (ℕ × ℚ) → List (ℕ × ℚ)) (hsort : IsSort sort) (cs : List Cand) (hv : ∀ c ∈ cs, -huge < c.infeas) (hp : ∀ c ∈ cs, c.prio ≤ maxInt)
    (hstrong : strong ≠ 0) (o : LOut) (h : setupList huge true strong start sort cs = some o) :
    (∀ x, x ∈ o.list.take o.onList ↔ ∃ c, Top start cs x c) ∧
    (o.list.take o.onList).Pairwise (fun x y => ∀ c d, Unsat start cs x c → Unsat start cs y d → d.infeas ≤ c.infeas) := by
  obtain ⟨h1, h2⟩ := candidates_exact huge true strong start sort hsort cs (by simpa [Cand.value] using hv) hp hstrong o h
  refine ⟨fun x => ?_, by simpa [Cand.value] using h2⟩
  rw [h1]
  constructor
  · rintro ⟨c, hc, -⟩; exact ⟨c, hc⟩
  · rintro ⟨c, hc⟩; exact ⟨c, hc, Or.inl (by simpa [Cand.value] using hc.1.2.2)⟩

/-- Without strong branching no object is offered, though the list is the same. -/
theorem no_strong (huge : ℚ) (root : Bool) (start : ℕ) (sort : List (ℕ × ℚ) → List (ℕ × ℚ)) (hsort : IsSort sort) (cs : List Cand) (hv : ∀ c ∈ cs, -huge < c.value root) (hp : ∀ c ∈ cs, c.prio ≤ maxInt) (strong : ℕ)
    (o o' : LOut) (h : setupList huge root 0 start sort cs = some o) (h' : setupList huge root strong start sort cs = some o') : o.onList = 0 ∧ o.list = o'.list ∧ o.unsat = o'.unsat := by
  rw [setupList_eq huge root _ start sort hsort cs hv hp, Option.some.injEq] at h h'
  subst h; subst h'
  simp

/-- **C132 (refuted).** If no unsatisfied object of the best priority has a positive usefulness, a single one is offered, that with the least number — however many there are. -/
theorem one_candidate (huge : ℚ) (strong start : ℕ) (sort : List (ℕ × ℚ) → List (ℕ × ℚ)) (hsort : IsSort sort) (cs : List Cand) (hv : ∀ c ∈ cs, -huge < c.useful) (hp : ∀ c ∈ cs, c.prio ≤ maxInt)
    (hstrong : strong ≠ 0) (x : ℕ) (c : Cand) (hx : Top start cs x c) (hleast : ∀ y d, Top start cs y d → x ≤ y) (hneg : ∀ y d, Top start cs y d → d.useful ≤ 0)
    (o : LOut) (h : setupList huge false strong start sort cs = some o) : o.onList = 1 ∧ o.list.take o.onList = [x] := by
  obtain ⟨o', h0, hnd, hall, hlen, hle⟩ := list_exact huge false strong start sort hsort cs (by simpa [Cand.value] using hv) hp
  rw [h, Option.some.injEq] at h0
  subst h0
  obtain ⟨h1, -⟩ := candidates_exact huge false strong start sort hsort cs (by simpa [Cand.value] using hv) hp hstrong o h
  have hmem : ∀ y, y ∈ o.list.take o.onList ↔ y = x := by
    intro y
    rw [h1]
    constructor
    · rintro ⟨d, hd, h2 | h2⟩
      · exact absurd h2 (not_lt.2 (by simpa [Cand.value] using hneg y d hd))
      · exact le_antisymm (h2 x c hx) (hleast y d hd)
    · rintro rfl; exact ⟨c, hx, Or.inr hleast⟩
  have hnd' : (o.list.take o.onList).Nodup := hnd.sublist (List.take_sublist _ _)
  have hl : o.list.take o.onList = [x] := by
    have hx' := (hmem x).2 rfl
    match hm : o.list.take o.onList with
    | [] => rw [hm] at hx'; simp at hx'
    | [y] => rw [(hmem y).1 (by rw [hm]; simp)]
    | y :: z :: l =>
      have e1 := (hmem y).1 (by rw [hm]; simp)
      have e2 := (hmem z).1 (by rw [hm]; simp)
      rw [hm, e1, e2] at hnd'
      simp at hnd'
  refine ⟨?_, hl⟩
  have := congrArg List.length hl
  rw [List.length_take, List.length_singleton, Nat.min_eq_left (by omega)] at this
  exact this

/-- Insertion sort is such a sort. -/
theorem isSort_insertion : IsSort (List.insertionSort fun a b : ℕ × ℚ => a.2 ≤ b.2) := by
  haveI : Std.Total fun a b : ℕ × ℚ => a.2 ≤ b.2 := ⟨fun a b => le_total _ _⟩
  haveI : IsTrans (ℕ × ℚ) fun a b => a.2 ≤ b.2 := ⟨fun _ _ _ => le_trans⟩
  exact ⟨fun l => List.perm_insertionSort _ l, fun l => List.pairwise_insertionSort _ l⟩

/-- Four objects from number 5 on, the second satisfied: the two of priority 1 come first, the more infeasible one before. -/
example : setupList 1000 true 3 5 (List.insertionSort fun a b => a.2 ≤ b.2) [⟨1 / 3, 2, 0⟩, ⟨0, 0, 0⟩, ⟨1 / 4, 1, 0⟩, ⟨1 / 2, 1, 0⟩] = some ⟨3, 2, [8, 7, 5]⟩ := by decide +kernel

/-- Below the root, usefulness negative: one candidate of three, and not the most useful one. -/
example : setupList 1000 false 3 5 (List.insertionSort fun a b => a.2 ≤ b.2) [⟨1 / 3, 1, -7⟩, ⟨1 / 2, 1, -1⟩, ⟨1 / 4, 1, -2⟩] = some ⟨3, 1, [5, 7, 6]⟩ := by decide +kernel

/-- **C132 (refuted).** Of two objects of the same priority the less useful one is offered. -/
theorem less_useful_offered : ∃ (cs : List Cand) (o : LOut), setupList 1000 false 3 0 (List.insertionSort fun a b => a.2 ≤ b.2) cs = some o ∧ o.list.take o.onList = [0] ∧
    ∃ c d, Top 0 cs 0 c ∧ Top 0 cs 1 d ∧ c.useful < d.useful := by
  refine ⟨[⟨1 / 3, 1, -7⟩, ⟨1 / 2, 1, -1⟩], ⟨2, 1, [0, 1]⟩, by decide +kernel, rfl, _, _, ⟨⟨le_refl _, rfl, by norm_num⟩, ?_⟩, ⟨⟨by omega, rfl, by norm_num⟩, ?_⟩, by norm_num⟩
  all_goals
    rintro y d ⟨-, h2, -⟩
    match y, h2 with
    | 0, h2 => simp at h2; subst h2; simp
    | 1, h2 => simp at h2; subst h2; simp
    | n + 2, h2 => simp at h2

end Verif.Nway

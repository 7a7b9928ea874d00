import Verif.Branch.Setup
import Mathlib.Tactic.Linarith
import Mathlib.Data.List.Perm.Basic

/-! Helper lemmas for the candidate list: the arrays as "front, gap, others". -/
namespace Verif.Branch

/-- Front entries, empty slots, entries put at the end. -/
def arr (n : Nat) (F : List (Nat × ℚ)) (T : List Nat) : List Slot :=
  F.map some ++ List.replicate (n - F.length - T.length) none ++ T.map fun t => some (t, 0)

theorem arr_gap {n : Nat} {F T} {j : Nat} (h1 : F.length ≤ j) (h2 : j < n - T.length) : (arr n F T)[j]? = some none := by
  unfold arr
  rw [List.append_assoc, List.getElem?_append_right (by simpa using h1)]
  rw [List.getElem?_append_left (by simp only [List.length_replicate, List.length_map]; omega), List.getElem?_replicate, if_pos]
  simp only [List.length_map]; omega

theorem arr_front {n : Nat} {F T} {j : Nat} (h1 : j < F.length) : (arr n F T)[j]? = (F[j]?).map some := by
  unfold arr
  rw [List.append_assoc, List.getElem?_append_left (by simpa using h1), List.getElem?_map]

theorem arr_set_end {n : Nat} {F T} (i : Nat) (h : F.length + T.length < n) :
    (arr n F T).set (n - T.length - 1) (some (i, 0)) = arr n F (i :: T) := by
  obtain ⟨g, hg⟩ : ∃ g, n - F.length - T.length = g + 1 := ⟨n - F.length - T.length - 1, by omega⟩
  have hg' : n - F.length - (T.length + 1) = g := by omega
  unfold arr
  rw [List.length_cons, hg, hg', List.replicate_succ', List.append_assoc, List.append_assoc, List.append_assoc,
    List.set_append_right _ _ (by simp; omega), List.set_append_right _ _ (by simp; omega)]
  have : n - T.length - 1 - (List.map some F).length - (List.replicate g (none : Slot)).length = 0 := by simp; omega
  rw [this]
  simp

theorem arr_set_new {n : Nat} {F T} (x : Nat × ℚ) (h : F.length + T.length < n) :
    (arr n F T).set F.length (some x) = arr n (F ++ [x]) T := by
  obtain ⟨g, hg⟩ : ∃ g, n - F.length - T.length = g + 1 := ⟨n - F.length - T.length - 1, by omega⟩
  have hg' : n - (F.length + 1) - T.length = g := by omega
  unfold arr
  rw [List.length_append, List.length_singleton, hg, hg', List.replicate_succ, List.append_assoc,
    List.set_append_right _ _ (by simp)]
  simp

theorem arr_set_front {n : Nat} {F T} (x : Nat × ℚ) {j : Nat} (h : j < F.length) :
    (arr n F T).set j (some x) = arr n (F.set j x) T := by
  unfold arr
  rw [List.append_assoc, List.set_append_left _ _ (by simpa using h), List.length_set, List.map_set, List.append_assoc]

theorem arr_drop_last {n : Nat} {F T} {x : Nat × ℚ} (h : F.length + 1 + T.length ≤ n) :
    (arr n (F ++ [x]) T).set F.length none = arr n F T := by
  obtain ⟨g, hg⟩ : ∃ g, n - F.length - T.length = g + 1 := ⟨n - F.length - T.length - 1, by omega⟩
  have hg' : n - (F.length + 1) - T.length = g := by omega
  unfold arr
  rw [List.length_append, List.length_singleton, hg, hg', List.replicate_succ, List.map_append, List.append_assoc, List.append_assoc,
    List.set_append_right _ _ (by simp)]
  simp

theorem arr_take {n : Nat} {F T} {m : Nat} (h1 : F.length ≤ m) (h2 : m ≤ n - T.length) (h3 : F.length + T.length ≤ n) :
    (arr n F T).take m = F.map some ++ List.replicate (m - F.length) none := by
  unfold arr
  rw [List.take_append_of_le_length (by simp; omega), List.take_append, List.take_of_length_le (by simpa using h1), List.take_replicate]
  congr 2
  simp; omega

theorem arr_drop_front {n : Nat} {F T} : (arr n F T).drop F.length =
    List.replicate (n - F.length - T.length) none ++ T.map fun t => some (t, 0) := by
  unfold arr
  rw [List.append_assoc, List.drop_append_of_le_length (by simp)]
  simp

theorem toEnd_arr {n : Nat} {F T} {s : St} (i : Nat) (hs : s.slots = arr n F T) (hp : s.putOther = n - T.length)
    (h : F.length + T.length < n) :
    toEnd s i = some { s with slots := arr n F (i :: T), putOther := n - (i :: T).length } := by
  unfold toEnd
  rw [if_neg (by omega), hs, hp, if_pos (arr_gap (by omega) (by omega)), arr_set_end i h]
  simp only [List.length_cons]
  congr 2

theorem flush_arr {n : Nat} : ∀ (m : Nat) (F : List (Nat × ℚ)) (T : List Nat) (s : St), s.slots = arr n F T → s.putOther = n - T.length →
    F.length ≤ m → m ≤ n - T.length → F.length + T.length ≤ n →
    flush m s = some { s with slots := arr n [] (F.map Prod.fst ++ T), putOther := n - (F.map Prod.fst ++ T).length } := by
  intro m
  induction m with
  | zero =>
    intro F T s hs hp hF _ _
    have : F = [] := List.length_eq_zero_iff.mp (by omega)
    subst this
    simp only [flush, List.map_nil, List.nil_append]
    rw [← hs, ← hp]
  | succ m ih =>
    intro F T s hs hp hF hm hn
    by_cases hl : F.length ≤ m
    · have : s.slots[m]? = some none := by rw [hs]; exact arr_gap hl (by omega)
      rw [flush, this]
      exact ih F T s hs hp hl (by omega) hn
    · have hlen : F.length = m + 1 := by omega
      obtain ⟨G, x, rfl⟩ := (List.eq_nil_or_concat F).resolve_left (by rintro rfl; simp at hlen)
      rw [List.concat_eq_append] at *
      have hG : G.length = m := by simpa using hlen
      have hx : s.slots[m]? = some (some (x.1, x.2)) := by
        rw [hs, arr_front (by omega)]; simp [← hG]
      rw [flush, hx]
      simp only [List.length_append, List.length_singleton] at hn
      dsimp only
      rw [if_neg (by omega)]
      have hset : (s.slots.set m none).set (s.putOther - 1) (some (x.1, 0)) = arr n G (x.1 :: T) := by
        rw [hs, hp, ← hG, arr_drop_last (by omega), arr_set_end _ (by omega)]
      rw [hset, ih G (x.1 :: T) _ rfl (by simp only [List.length_cons]; omega) (by omega) (by simp only [List.length_cons]; omega)
        (by simp only [List.length_cons]; omega)]
      simp

theorem worst_gap (F : List (Nat × ℚ)) (l : List Slot) : ∀ (j : Nat) (c : ℚ) (k : Nat),
    worst (F.map some ++ none :: l) j c k = (0, j + F.length) := by
  induction F with
  | nil => intro j c k; simp [worst]
  | cons f F ih =>
    intro j c k
    obtain ⟨a, u⟩ := f
    simp only [List.map_cons, List.cons_append, worst, List.length_cons]
    split <;> rw [ih] <;> congr 1 <;> omega

theorem worst_full (F : List (Nat × ℚ)) : ∀ (j : Nat) (c : ℚ) (k : Nat),
    (worst (F.map some) j c k).1 ≤ c ∧ (∀ f ∈ F, (worst (F.map some) j c k).1 ≤ f.2) ∧
    (worst (F.map some) j c k = (c, k) ∨ ∃ (i : Nat) (x : Nat), F[i]? = some (x, (worst (F.map some) j c k).1) ∧ (worst (F.map some) j c k).2 = j + i) := by
  induction F with
  | nil => intro j c k; simp [worst]
  | cons f F ih =>
    intro j c k
    obtain ⟨a, u⟩ := f
    simp only [List.map_cons, worst]
    by_cases h : u < c
    · rw [if_pos h]
      obtain ⟨h1, h2, h3⟩ := ih (j + 1) u j
      refine ⟨by linarith, ?_, Or.inr ?_⟩
      · intro f hf
        rcases List.mem_cons.mp hf with rfl | hf
        · exact h1
        · exact h2 f hf
      · rcases h3 with h3 | ⟨i, x, h3, h4⟩
        · exact ⟨0, a, by rw [h3]; simp, by rw [h3]; simp⟩
        · exact ⟨i + 1, x, by simpa using h3, by rw [h4]; omega⟩
    · rw [if_neg h]
      obtain ⟨h1, h2, h3⟩ := ih (j + 1) c k
      refine ⟨h1, ?_, ?_⟩
      · intro f hf
        rcases List.mem_cons.mp hf with rfl | hf
        · exact le_trans h1 (not_lt.mp h)
        · exact h2 f hf
      · rcases h3 with h3 | ⟨i, x, h3, h4⟩
        · exact Or.inl h3
        · exact Or.inr ⟨i + 1, x, by simpa using h3, by rw [h4]; omega⟩

/-- The invariant of the loop: `V` are the violated objects seen so far, `F` the front entries and `T` the entries at the end. -/
structure Rep (c : Cfg) (n M : Nat) (O : Nat → Cand) (V : List Nat) (s : St) (F : List (Nat × ℚ)) (T : List Nat) : Prop where
  slots : s.slots = arr n F T
  put : s.putOther = n - T.length
  fit : F.length + T.length ≤ n
  perm : (F.map Prod.fst ++ T).Perm V
  front : ∀ f ∈ F, f.2 = (O f.1).useful ∧ (O f.1).prio = s.best
  best : ∀ i ∈ V, s.best ≤ (O i).prio
  empty : F = [] → s.check = -c.huge ∧ s.checkIndex = 0
  maxS : s.maxStrong = min M (n - T.length)
  lenM : F.length ≤ M
  room : F ≠ [] → F.length < M → F.length + T.length < n → s.check = 0 ∧ s.checkIndex = F.length
  full : F.length = M → (∀ f ∈ F, s.check ≤ f.2) ∧ ∃ x, F[s.checkIndex]? = some (x, s.check)
  others : F.length < M → ∀ t ∈ T, s.best < (O t).prio
  top : ∀ t ∈ T, (O t).prio = s.best → ∀ f ∈ F, (O t).useful ≤ f.2
  two : (∀ x ∈ s.list2, x = none) ∧ (s.list2 = [] ∨ s.check2 = -c.huge)

theorem Rep.init (c : Cfg) (n M : Nat) (O : Nat → Cand) (hM : M = c.maxStrong n) (h1 : 1 ≤ M) (_hn : M ≤ n) :
    Rep c n M O [] (St.init c n) [] [] := by
  constructor <;> simp [St.init, arr]
  · rw [← hM]; omega
  · omega

/-- A worse priority, or an equal one that is not useful enough: the object goes to the end. -/
theorem Rep.end {c : Cfg} {n M : Nat} {O V s F T} (h : Rep c n M O V s F T) (hF : F ≠ []) (i : Nat) (hn : F.length + T.length < n)
    (hb : s.best ≤ (O i).prio) (hw : (O i).prio = s.best → F.length = M ∧ (O i).useful ≤ s.check) :
    ∃ t, (toEnd s i).map shrink = some t ∧ Rep c n M O (V ++ [i]) t F (i :: T) ∧ t.unsat = s.unsat := by
  have he := toEnd_arr (s := s) i h.slots h.put hn
  rw [he, Option.map_some]
  refine ⟨_, rfl, ?_, rfl⟩
  constructor
  · rfl
  · rfl
  · simp only [List.length_cons]; omega
  · rw [List.perm_iff_count]
    intro a
    have := (List.perm_iff_count.mp h.perm) a
    simp only [List.count_append, List.count_cons, List.count_nil] at *
    omega
  · exact h.front
  · intro j hj
    rcases List.mem_append.mp hj with hj | hj
    · exact h.best j hj
    · rw [List.mem_singleton.mp hj]; exact hb
  · exact fun e => absurd e hF
  · simp only [shrink, h.maxS, List.length_cons]; omega
  · exact h.lenM
  · intro _ h1 _
    exact h.room hF h1 hn
  · exact h.full
  · intro h1 t ht
    rcases List.mem_cons.mp ht with rfl | ht
    · rcases lt_or_eq_of_le hb with hb | hb
      · exact hb
      · exact absurd (hw hb.symm).1 (by omega)
    · exact h.others h1 t ht
  · intro t ht hp f hf
    rcases List.mem_cons.mp ht with rfl | ht
    · exact le_trans (hw hp).2 ((h.full (hw hp).1).1 f hf)
    · exact h.top t ht hp f hf
  · exact h.two

/-- The search for the worst entry re-establishes the two cases of the invariant. -/
theorem worst_cases {c : Cfg} {n M : Nat} {F : List (Nat × ℚ)} {T : List Nat} (k : Nat) (h0 : F ≠ []) (hfit : F.length + T.length ≤ n)
    (hM : F.length ≤ M) (hu : ∀ f ∈ F, f.2 < c.huge) :
    let w := worst ((arr n F T).take (min M (n - T.length))) 0 c.huge k
    (F.length < M → F.length + T.length < n → w.1 = 0 ∧ w.2 = F.length) ∧
    (F.length = M → (∀ f ∈ F, w.1 ≤ f.2) ∧ ∃ x, F[w.2]? = some (x, w.1)) := by
  intro w
  have hw : w = worst (F.map some ++ List.replicate (min M (n - T.length) - F.length) none) 0 c.huge k := by
    show worst _ _ _ _ = _
    rw [arr_take (by omega) (by omega) hfit]
  constructor
  · intro h1 h2
    obtain ⟨g, hg⟩ : ∃ g, min M (n - T.length) - F.length = g + 1 := ⟨min M (n - T.length) - F.length - 1, by omega⟩
    rw [hg, List.replicate_succ, worst_gap] at hw
    rw [hw]; simp
  · intro h1
    rw [show min M (n - T.length) - F.length = 0 by omega, List.replicate_zero, List.append_nil] at hw
    obtain ⟨_, h3, h4⟩ := worst_full F 0 c.huge k
    rw [← hw] at h3 h4
    refine ⟨h3, ?_⟩
    rcases h4 with h4 | ⟨i, x, h4, h5⟩
    · obtain ⟨f, hf⟩ := List.exists_mem_of_ne_nil F h0
      have := h3 f hf
      rw [h4] at this
      exact absurd (hu f hf) (not_lt.mpr this)
    · rw [Nat.zero_add] at h5
      exact ⟨x, by rw [h5]; exact h4⟩

theorem count_set_fst (F : List (Nat × ℚ)) (j : Nat) (x : Nat) (v : ℚ) (y : Nat × ℚ) (h : F[j]? = some (x, v)) (a : Nat) :
    ((F.set j y).map Prod.fst).count a + (if x = a then 1 else 0) = (F.map Prod.fst).count a + (if y.1 = a then 1 else 0) := by
  induction F generalizing j with
  | nil => simp at h
  | cons f F ih =>
    cases j with
    | zero =>
      simp only [List.getElem?_cons_zero, Option.some.injEq] at h
      subst h
      simp only [List.set_cons_zero, List.map_cons, List.count_cons, beq_iff_eq]
      omega
    | succ j =>
      simp only [List.getElem?_cons_succ] at h
      have := ih j h
      simp only [List.set_cons_succ, List.map_cons, List.count_cons]
      omega

/-- An object of the best priority that is put in a slot. -/
theorem Rep.place {c : Cfg} {n M : Nat} {O V s F T} (h : Rep c n M O V s F T) (hM : 1 ≤ M) (i : Nat) (hn : F.length + T.length < n)
    (hb : (O i).prio = s.best) (hu : s.check < (O i).useful) (hh : ∀ j ∈ V ++ [i], (O j).useful < c.huge) :
    ∃ t F' T', place c i (O i).useful s = some t ∧ Rep c n M O (V ++ [i]) t F' T' ∧ F' ≠ [] ∧ t.unsat = s.unsat := by
  have hhF : ∀ f ∈ F, f.2 < c.huge := by
    intro f hf
    rw [(h.front f hf).1]
    apply hh
    apply List.mem_append_left
    rw [← h.perm.mem_iff]
    exact List.mem_append_left _ (List.mem_map_of_mem hf)
  have hbV : ∀ j ∈ V ++ [i], s.best ≤ (O j).prio := by
    intro j hj
    rcases List.mem_append.mp hj with hj | hj
    · exact h.best j hj
    · rw [List.mem_singleton.mp hj, hb]
  by_cases hl : F.length < M
  · -- a free slot
    have hci : s.checkIndex = F.length := by
      by_cases hF : F = []
      · rw [(h.empty hF).2, hF]; rfl
      · exact (h.room hF hl hn).2
    have hslot : s.slots[s.checkIndex]? = some none := by rw [h.slots, hci]; exact arr_gap (le_refl _) (by omega)
    have hs' : s.slots.set s.checkIndex (some (i, (O i).useful)) = arr n (F ++ [(i, (O i).useful)]) T := by
      rw [h.slots, hci, arr_set_new _ hn]
    have hms : min s.maxStrong s.putOther = min M (n - T.length) := by rw [h.maxS, h.put]; omega
    have hw := worst_cases (c := c) (n := n) (M := M) (F := F ++ [(i, (O i).useful)]) (T := T) s.checkIndex (by simp)
      (by simp only [List.length_append, List.length_singleton]; omega)
      (by simp only [List.length_append, List.length_singleton]; omega)
      (by
        intro f hf
        rcases List.mem_append.mp hf with hf | hf
        · exact hhF f hf
        · rw [List.mem_singleton.mp hf]; exact hh i (by simp))
    unfold Branch.place
    simp only [hslot, Option.bind_some]
    rw [if_pos (by rw [hci, h.put]; omega)]
    refine ⟨_, F ++ [(i, (O i).useful)], T, rfl, ?_, by simp, rfl⟩
    simp only [shrink, hs', hms]
    constructor
    · rfl
    · exact h.put
    · simp only [List.length_append, List.length_singleton]; omega
    · rw [List.perm_iff_count]
      intro a
      have := (List.perm_iff_count.mp h.perm) a
      simp only [List.map_append, List.map_cons, List.map_nil, List.count_append, List.count_cons, List.count_nil] at *
      omega
    · intro f hf
      rcases List.mem_append.mp hf with hf | hf
      · exact h.front f hf
      · rw [List.mem_singleton.mp hf]; exact ⟨rfl, hb⟩
    · exact hbV
    · intro e; simp at e
    · rfl
    · simp only [List.length_append, List.length_singleton]; omega
    · exact fun _ => hw.1
    · exact hw.2
    · intro _; exact h.others hl
    · intro t ht hp
      exact absurd (h.others hl t ht) (by rw [hp]; exact lt_irrefl _)
    · exact h.two
  · -- the worst entry is replaced
    have hlM : F.length = M := le_antisymm h.lenM (not_lt.mp hl)
    have hF0 : F ≠ [] := by rintro rfl; simp at hlM; omega
    obtain ⟨hmin, x, hx⟩ := h.full hlM
    have hci : s.checkIndex < F.length := (List.getElem?_eq_some_iff.mp hx).1
    have hslot : s.slots[s.checkIndex]? = some (some (x, s.check)) := by rw [h.slots, arr_front hci, hx]; rfl
    have hxF : (x, s.check) ∈ F := List.mem_of_getElem? hx
    have hend := toEnd_arr (s := s) x h.slots h.put hn
    have hs' : (arr n F (x :: T)).set s.checkIndex (some (i, (O i).useful)) = arr n (F.set s.checkIndex (i, (O i).useful)) (x :: T) :=
      arr_set_front _ hci
    have hms : min s.maxStrong (n - (x :: T).length) = min M (n - (x :: T).length) := by
      rw [h.maxS]; simp only [List.length_cons]; omega
    have hw := worst_cases (c := c) (n := n) (M := M) (F := F.set s.checkIndex (i, (O i).useful)) (T := x :: T) s.checkIndex
      (by intro e; apply hF0; apply List.length_eq_zero_iff.mp; rw [← List.length_set (as := F), e]; rfl)
      (by simp only [List.length_set, List.length_cons]; omega)
      (by simp only [List.length_set]; omega)
      (by
        intro f hf
        rcases List.mem_or_eq_of_mem_set hf with hf | hf
        · exact hhF f hf
        · rw [hf]; exact hh i (by simp))
    unfold Branch.place
    simp only [hslot, hend, Option.bind_some]
    rw [if_pos (by simp only [List.length_cons]; omega)]
    refine ⟨_, F.set s.checkIndex (i, (O i).useful), x :: T, rfl, ?_, by intro e; apply hF0; apply List.length_eq_zero_iff.mp; rw [← List.length_set (as := F), e]; rfl, rfl⟩
    simp only [shrink, hs', hms]
    constructor
    · rfl
    · rfl
    · simp only [List.length_set, List.length_cons]; omega
    · rw [List.perm_iff_count]
      intro a
      have h1 := (List.perm_iff_count.mp h.perm) a
      have h2 := count_set_fst F s.checkIndex x s.check (i, (O i).useful) hx a
      simp only [List.count_append, List.count_cons, List.count_nil, beq_iff_eq] at *
      omega
    · intro f hf
      rcases List.mem_or_eq_of_mem_set hf with hf | hf
      · exact h.front f hf
      · rw [hf]; exact ⟨rfl, hb⟩
    · exact hbV
    · intro e
      exfalso; apply hF0; apply List.length_eq_zero_iff.mp; rw [← List.length_set (as := F), e]; rfl
    · rfl
    · simp only [List.length_set]; omega
    · intro _ h1; simp only [List.length_set] at h1; omega
    · exact hw.2
    · intro h1; simp only [List.length_set] at h1; omega
    · intro t ht hp f hf
      have hcu : ∀ f ∈ F.set s.checkIndex (i, (O i).useful), s.check ≤ f.2 := by
        intro f hf
        rcases List.mem_or_eq_of_mem_set hf with hf | hf
        · exact hmin f hf
        · rw [hf]; exact le_of_lt hu
      have ht' : (O t).useful ≤ s.check := by
        rcases List.mem_cons.mp ht with rfl | ht
        · rw [← (h.front _ hxF).1]
        · exact h.top t ht hp _ hxF
      exact le_trans ht' (hcu f hf)
    · exact h.two

/-- Finding a better priority empties the front. -/
theorem Rep.better {c : Cfg} {n M : Nat} {O V s F T} (h : Rep c n M O V s F T) (hM : 1 ≤ M) (p : Int) (hp : p < s.best) :
    ∃ t, Branch.better c p s = some t ∧ t.best = p ∧ t.unsat = s.unsat ∧ Rep c n M O V t [] (F.map Prod.fst ++ T) := by
  have hl := h.lenM
  have hf := h.fit
  unfold Branch.better
  rw [flush_arr s.maxStrong F T s h.slots h.put (by rw [h.maxS]; omega) (by rw [h.maxS]; omega) h.fit, Option.map_some]
  refine ⟨_, rfl, rfl, rfl, ?_⟩
  constructor
  · rfl
  · rfl
  · simpa using hf
  · simpa using h.perm
  · simp
  · intro i hi; exact le_of_lt (lt_of_lt_of_le hp (h.best i hi))
  · exact fun _ => ⟨rfl, rfl⟩
  · simp only [shrink, h.maxS, List.length_append, List.length_map]; omega
  · simp
  · simp
  · intro e; simp at e; omega
  · intro _ t ht
    exact lt_of_lt_of_le hp (h.best t (h.perm.mem_iff.mp ht))
  · simp
  · refine ⟨?_, Or.inr rfl⟩
    intro x hx
    simp only [shrink, List.mem_map] at hx
    obtain ⟨_, _, rfl⟩ := hx
    rfl

theorem place2_skip {c : Cfg} {s : St} (i : Nat) (v : ℚ) (h : s.list2 = [] ∨ s.check2 = -c.huge) (hv : s.list2 = [] ∨ v = -c.huge) :
    place2 c i v s = some s := by
  unfold place2
  rw [if_neg]
  rintro ⟨h1, h2⟩
  have h0 : s.list2 ≠ [] := by rintro e; rw [e] at h1; simp at h1
  rw [hv.resolve_left h0, h.resolve_left h0] at h2
  exact lt_irrefl _ h2

theorem toEnd_list2 {s t : St} {i : Nat} (h : toEnd s i = some t) : t.list2 = s.list2 := by
  unfold toEnd at h
  split at h
  · simp at h
  · split at h
    · rw [← Option.some.inj h]
    · simp at h

theorem end_list2 {s t : St} {i : Nat} (h : (toEnd s i).map shrink = some t) : t.list2 = s.list2 := by
  obtain ⟨r, hr, rfl⟩ := Option.map_eq_some_iff.mp h
  have : (shrink r).list2 = r.list2 := rfl
  rw [this]; exact toEnd_list2 hr

theorem place_list2 {c : Cfg} {s t : St} {i : Nat} {u : ℚ} (h : place c i u s = some t) : t.list2 = s.list2 := by
  unfold place at h
  split at h
  · simp at h
  · obtain ⟨r, hr, h⟩ := Option.bind_eq_some_iff.mp h
    have h2 : r.list2 = s.list2 := by
      split at hr
      · rw [← Option.some.inj hr]
      · exact toEnd_list2 hr
    split at h
    · rw [← Option.some.inj h]; exact h2
    · simp at h

theorem better_list2 {c : Cfg} {s t : St} {p : Int} (h : better c p s = some t) : t.list2 = s.list2.map fun _ => none := by
  obtain ⟨r, _, rfl⟩ := Option.map_eq_some_iff.mp h
  rfl

theorem step_list2 {c : Cfg} {s t : St} {i : Nat} {o : Cand} (h : step c i o s = some t) (h0 : s.list2 = []) : t.list2 = [] := by
  unfold step at h
  obtain ⟨r, hr, h⟩ := Option.bind_eq_some_iff.mp h
  have h2 : r.list2 = [] := by
    split at hr
    · rw [better_list2 hr, h0]; rfl
    · rw [← Option.some.inj hr]; exact h0
  split at h
  · obtain ⟨q, hq, h⟩ := Option.bind_eq_some_iff.mp h
    have h3 : q.list2 = [] := by
      split at hq
      · rw [place_list2 hq]; exact h2
      · rw [end_list2 hq]; exact h2
    unfold place2 at h
    rw [h3] at h
    simp at h
    rw [← h]; exact h3
  · rw [end_list2 h]; exact h2

theorem Rep.step {c : Cfg} {n M : Nat} {O V s F T} (h : Rep c n M O V s F T) (hM : 1 ≤ M) (hne : V ≠ [] → F ≠ [])
    (h0 : V = [] → s.best = intMax) (i : Nat) (hn : V.length < n) (hpr : (O i).prio ≤ intMax)
    (hu : 0 < (O i).useful) (hh : ∀ j ∈ V ++ [i], (O j).useful < c.huge) (htr : c.frac ≤ 0 ∨ (O i).untrusted = false)
    (hfr : c.frac ≤ 0 → s.list2 = []) :
    ∃ t F' T', Branch.step c i (O i) s = some t ∧ Rep c n M O (V ++ [i]) t F' T' ∧ F' ≠ [] ∧ t.unsat = s.unsat := by
  have hlen : F.length + T.length = V.length := by
    have := h.perm.length_eq
    simpa using this
  have hhi := hh i (by simp)
  have hskip : ∀ t : St, (t.list2 = [] ∨ t.check2 = -c.huge) → (c.frac ≤ 0 → t.list2 = []) →
      place2 c i (if (O i).untrusted then (O i).infeas else -c.huge) t = some t := by
    intro t h1 h2
    apply place2_skip i _ h1
    rcases htr with h3 | h3
    · exact Or.inl (h2 h3)
    · right; rw [h3]; simp
  -- an object of the best priority
  have key : ∀ (t : St) (F1 : List (Nat × ℚ)) (T1 : List Nat), Rep c n M O V t F1 T1 → (O i).prio = t.best → (c.frac ≤ 0 → t.list2 = []) →
      ∃ r F' T', equalPrio c i (O i) t = some r ∧ Rep c n M O (V ++ [i]) r F' T' ∧ F' ≠ [] ∧ r.unsat = t.unsat := by
    intro t F1 T1 ht hb hl2
    have hlen1 : F1.length + T1.length = V.length := by
      have := ht.perm.length_eq
      simpa using this
    unfold equalPrio
    by_cases hc : t.check < (O i).useful
    · rw [if_pos hc]
      obtain ⟨r, F', T', hr, hrep, hF', hun⟩ := ht.place hM i (by omega) hb hc hh
      refine ⟨r, F', T', ?_, hrep, hF', hun⟩
      rw [hr, Option.bind_some]
      apply hskip r hrep.two.2
      intro hf
      have h2 : r.list2 = t.list2 := place_list2 hr
      rw [h2]; exact hl2 hf
    · rw [if_neg hc]
      have hF1 : F1 ≠ [] := by
        intro e
        rw [(ht.empty e).1] at hc
        linarith
      have hfull : F1.length = M := by
        by_contra hne'
        have := ht.room hF1 (lt_of_le_of_ne ht.lenM hne') (by omega)
        rw [this.1] at hc
        exact hc hu
      obtain ⟨r, hr, hrep, hun⟩ := ht.end hF1 i (by omega) (le_of_eq hb.symm) (fun _ => ⟨hfull, not_lt.mp hc⟩)
      refine ⟨r, F1, i :: T1, ?_, hrep, hF1, hun⟩
      rw [hr, Option.bind_some]
      apply hskip r hrep.two.2
      intro hf
      rw [end_list2 hr]; exact hl2 hf
  unfold Branch.step
  by_cases hlt : (O i).prio < s.best
  · rw [if_pos hlt]
    obtain ⟨t, ht, htb, htu, hrep⟩ := h.better hM (O i).prio hlt
    rw [ht, Option.bind_some, if_pos htb.symm]
    obtain ⟨r, F', T', h1, h2, h3, h4⟩ := key t _ _ hrep htb.symm (by intro hf; rw [better_list2 ht, hfr hf]; rfl)
    exact ⟨r, F', T', h1, h2, h3, by rw [h4, htu]⟩
  · rw [if_neg hlt, Option.bind_some]
    by_cases heq : (O i).prio = s.best
    · rw [if_pos heq]
      exact key s F T h heq hfr
    · rw [if_neg heq]
      have hV : V ≠ [] := by
        intro e
        apply heq
        rw [h0 e] at hlt ⊢
        omega
      obtain ⟨r, hr, hrep, hun⟩ := h.end (hne hV) i (by omega) (not_lt.mp hlt) (fun e => absurd e heq)
      exact ⟨r, F, i :: T, hr, hrep, hne hV, hun⟩

end Verif.Branch

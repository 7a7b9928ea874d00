import Verif.Bcp.Search
import Mathlib.Algebra.Order.BigOperators.Group.List
/-!
# The whole search by BCP finds the best solution
-/
namespace Verif.Bcp.Search

/-! ## Lemmas -/

theorem fixInf_cases (ov : ℚ → Bool) (sb : ℕ → SbRes) : ∀ (os : List Obj) (B B' : Box) (g g' : Bool), fixInf ov sb os (B, g) = .ok (B', g') → ∀ c,
    (B'.lo c = B.lo c ∨ ∃ o ∈ os, o.col = c ∧ B'.lo c = ⌈o.v⌉) ∧ (B'.up c = B.up c ∨ ∃ o ∈ os, o.col = c ∧ B'.up c = ⌊o.v⌋)
  | [], B, B', g, g', h, c => by
    simp only [fixInf, Except.ok.injEq, Prod.mk.injEq] at h
    rw [h.1]; simp
  | o :: os, B, B', g, g', h, c => by
    rw [fixInf] at h
    by_cases he : evaluated (sb o.ind) = false
    · rw [if_pos he] at h
      have := fixInf_cases ov sb os _ _ _ _ h c
      exact ⟨this.1.imp_right (fun ⟨o', h1, h2⟩ => ⟨o', by simp [h1], h2⟩), this.2.imp_right (fun ⟨o', h1, h2⟩ => ⟨o', by simp [h1], h2⟩)⟩
    · rw [if_neg he] at h
      cases hD : (sb o.ind).rD with
      | none => rw [hD] at h; cases h
      | some d =>
        cases hU : (sb o.ind).rU with
        | none => rw [hD, hU] at h; cases h
        | some u =>
          rw [hD, hU] at h
          have := fixInf_cases ov sb os _ _ _ _ h c
          have key : ∀ a b : Bool, ((if b then setUp (if a then setLo B o.col ⌈o.v⌉ else B) o.col ⌊o.v⌋ else if a then setLo B o.col ⌈o.v⌉ else B).lo c = B.lo c ∨
              (o.col = c ∧ (if b then setUp (if a then setLo B o.col ⌈o.v⌉ else B) o.col ⌊o.v⌋ else if a then setLo B o.col ⌈o.v⌉ else B).lo c = ⌈o.v⌉)) ∧
              ((if b then setUp (if a then setLo B o.col ⌈o.v⌉ else B) o.col ⌊o.v⌋ else if a then setLo B o.col ⌈o.v⌉ else B).up c = B.up c ∨
              (o.col = c ∧ (if b then setUp (if a then setLo B o.col ⌈o.v⌉ else B) o.col ⌊o.v⌋ else if a then setLo B o.col ⌈o.v⌉ else B).up c = ⌊o.v⌋)) := by
            intro a b
            by_cases hc : o.col = c
            · subst hc
              cases a <;> cases b <;> simp [setLo, setUp]
            · have hc' : c ≠ o.col := fun e => hc e.symm
              cases a <;> cases b <;> simp [setLo, setUp, Function.update_of_ne hc']
          have k := key (fath ov d) (fath ov u)
          refine ⟨?_, ?_⟩
          · rcases this.1 with e | ⟨o', h1, h2⟩
            · rcases k.1 with e' | e'
              · exact Or.inl (e.trans e')
              · exact Or.inr ⟨o, by simp, e'.1, e.trans e'.2⟩
            · exact Or.inr ⟨o', by simp [h1], h2⟩
          · rcases this.2 with e | ⟨o', h1, h2⟩
            · rcases k.2 with e' | e'
              · exact Or.inl (e.trans e')
              · exact Or.inr ⟨o, by simp, e'.1, e.trans e'.2⟩
            · exact Or.inr ⟨o', by simp [h1], h2⟩

theorem fixFeas_cases (ov : ℚ → Bool) (sb : ℕ → SbRes) : ∀ (os : List Obj) (B B' : Box) (g g' : Bool), fixFeas ov sb os (B, g) = .ok (B', g') → ∀ c,
    (B'.lo c = B.lo c ∨ ∃ o ∈ os, o.col = c ∧ B'.lo c = ⌈o.v - 1 / 2⌉) ∧ (B'.up c = B.up c ∨ ∃ o ∈ os, o.col = c ∧ B'.up c = ⌊o.v + 1 / 2⌋)
  | [], B, B', g, g', h, c => by
    simp only [fixFeas, Except.ok.injEq, Prod.mk.injEq] at h
    rw [h.1]; simp
  | o :: os, B, B', g, g', h, c => by
    rw [fixFeas] at h
    cases hD : (if (sb o.ind).evD then (rd (sb o.ind).rD).map (fath ov) else Except.ok false) with
    | error e => rw [hD] at h; cases h
    | ok a =>
      cases hU : (if (sb o.ind).evU then (rd (sb o.ind).rU).map (fath ov) else Except.ok false) with
      | error e => rw [hD, hU] at h; cases h
      | ok b =>
        rw [hD, hU] at h
        have := fixFeas_cases ov sb os _ _ _ _ h c
        have k : ((if b then setUp (if a then setLo B o.col ⌈o.v - 1 / 2⌉ else B) o.col ⌊o.v + 1 / 2⌋ else if a then setLo B o.col ⌈o.v - 1 / 2⌉ else B).lo c = B.lo c ∨
            (o.col = c ∧ (if b then setUp (if a then setLo B o.col ⌈o.v - 1 / 2⌉ else B) o.col ⌊o.v + 1 / 2⌋ else if a then setLo B o.col ⌈o.v - 1 / 2⌉ else B).lo c = ⌈o.v - 1 / 2⌉)) ∧
            ((if b then setUp (if a then setLo B o.col ⌈o.v - 1 / 2⌉ else B) o.col ⌊o.v + 1 / 2⌋ else if a then setLo B o.col ⌈o.v - 1 / 2⌉ else B).up c = B.up c ∨
            (o.col = c ∧ (if b then setUp (if a then setLo B o.col ⌈o.v - 1 / 2⌉ else B) o.col ⌊o.v + 1 / 2⌋ else if a then setLo B o.col ⌈o.v - 1 / 2⌉ else B).up c = ⌊o.v + 1 / 2⌋)) := by
          by_cases hc : o.col = c
          · subst hc
            cases a <;> cases b <;> simp [setLo, setUp]
          · have hc' : c ≠ o.col := fun e => hc e.symm
            cases a <;> cases b <;> simp [setLo, setUp, Function.update_of_ne hc']
        refine ⟨?_, ?_⟩
        · rcases this.1 with e | ⟨o', h1, h2⟩
          · rcases k.1 with e' | e'
            · exact Or.inl (e.trans e')
            · exact Or.inr ⟨o, by simp, e'.1, e.trans e'.2⟩
          · exact Or.inr ⟨o', by simp [h1], h2⟩
        · rcases this.2 with e | ⟨o', h1, h2⟩
          · rcases k.2 with e' | e'
            · exact Or.inl (e.trans e')
            · exact Or.inr ⟨o, by simp, e'.1, e.trans e'.2⟩
          · exact Or.inr ⟨o', by simp [h1], h2⟩

theorem best_mem (P : Sel) (sb : ℕ → SbRes) : ∀ (os : List Obj) (v v' : ℚ) (b : Option (Obj × Bool)) (b' : Obj × Bool),
    best P sb os (v, b) = .ok (v', some b') → b = some b' ∨ b'.1 ∈ os
  | [], v, v', b, b', h => by
    simp only [best, Except.ok.injEq, Prod.mk.injEq] at h
    exact Or.inl h.2
  | o :: os, v, v', b, b', h => by
    rw [best] at h
    have ih := fun v b => best_mem P sb os v v' b b'
    by_cases he : evaluated (sb o.ind) = false
    · rw [if_pos he] at h
      exact (ih _ _ h).imp_right (by intro h; simp [h])
    · rw [if_neg he] at h
      cases hD : (sb o.ind).rD with
      | none => rw [hD] at h; cases h
      | some d =>
        cases hU : (sb o.ind).rU with
        | none => rw [hD, hU] at h; cases h
        | some u =>
          rw [hD, hU] at h
          dsimp only at h
          by_cases ha : (d.aband || u.aband) = true
          · rw [if_pos ha] at h
            exact (ih _ _ h).imp_right (by intro h; simp [h])
          · rw [if_neg ha] at h
            by_cases hp : (if P.high then v < score P.maxmin P.objv d u else score P.maxmin P.objv d u < v)
            · rw [if_pos hp] at h
              rcases ih _ _ h with e | e
              · injection e with e
                exact Or.inr (by rw [← e]; simp)
              · exact Or.inr (by simp [e])
            · rw [if_neg hp] at h
              exact (ih _ _ h).imp_right (by intro h; simp [h])

theorem firstHalf_mem (sb : ℕ → SbRes) : ∀ (os : List Obj) (o : Obj), firstHalf sb os = .ok (some o) → o ∈ os
  | [], o, h => by cases h
  | a :: os, o, h => by
    rw [firstHalf] at h
    cases hD : (sb a.ind).rD with
    | none => rw [hD] at h; cases h
    | some d =>
      cases hU : (sb a.ind).rU with
      | none => rw [hD, hU] at h; cases h
      | some u =>
        rw [hD, hU] at h
        dsimp only at h
        by_cases hh : d.aband = false ∨ u.aband = false
        · rw [if_pos hh] at h
          injection h with h; injection h with h
          simp [h]
        · rw [if_neg hh] at h
          cases hr : firstHalf sb os with
          | error e => rw [hr] at h; cases h
          | ok r =>
            cases r with
            | none => rw [hr] at h; injection h with h; injection h with h; simp [h]
            | some q =>
              rw [hr] at h
              injection h with h; injection h with h
              have := firstHalf_mem sb os q hr
              rw [h] at this
              simp [this]

theorem choose_mem (P : Sel) (sb : ℕ → SbRes) (os : List Obj) (b : Obj × Bool) (h : choose P sb os = .ok b) : b.1 ∈ os := by
  unfold choose at h
  cases hb : best P sb os (if P.high then -P.big else P.big, none) with
  | error e => rw [hb] at h; cases h
  | ok q =>
    obtain ⟨v, b0⟩ := q
    cases b0 with
    | some b0 =>
      rw [hb] at h
      injection h with h
      rw [← h]
      rcases best_mem P sb os _ _ _ _ hb with e | e
      · cases e
      · exact e
    | none =>
      rw [hb] at h
      dsimp only at h
      cases hn : firstNew sb os with
      | some o =>
        rw [hn] at h
        injection h with h
        rw [← h]
        exact List.mem_of_find?_eq_some hn
      | none =>
        rw [hn] at h
        dsimp only at h
        cases hf : firstHalf sb os with
        | error e => rw [hf] at h; cases h
        | ok r =>
          cases r with
          | none => rw [hf] at h; cases h
          | some o =>
            rw [hf] at h
            injection h with h
            rw [← h]
            exact firstHalf_mem sb os o hf

theorem process_cases (dbg : Bool) (ov : ℚ → Bool) (P : Sel) (sb : ℕ → SbRes) (inf feas : List Obj) (B : Box) (r : Out)
    (hr : process dbg ov P sb inf feas B = .ok r) :
    (∀ b, r.brObj = some b → b.1 ∈ inf) ∧ ∀ c,
      (r.box.lo c = B.lo c ∨ (∃ o ∈ inf, o.col = c ∧ r.box.lo c = ⌈o.v⌉) ∨ ∃ o ∈ feas, o.col = c ∧ r.box.lo c = ⌈o.v - 1 / 2⌉) ∧
      (r.box.up c = B.up c ∨ (∃ o ∈ inf, o.col = c ∧ r.box.up c = ⌊o.v⌋) ∨ ∃ o ∈ feas, o.col = c ∧ r.box.up c = ⌊o.v + 1 / 2⌋) := by
  unfold process at hr
  cases hs : scan dbg ov sb inf with
  | error e => rw [hs] at hr; cases hr
  | ok o =>
    cases o with
    | none =>
      rw [hs] at hr
      injection hr with hr
      rw [← hr]
      exact ⟨by simp, fun c => ⟨Or.inl rfl, Or.inl rfl⟩⟩
    | some n =>
      rw [hs] at hr
      dsimp only at hr
      cases h1 : fixInf ov sb inf (B, false) with
      | error e => rw [h1] at hr; cases hr
      | ok q =>
        obtain ⟨B1, f2⟩ := q
        rw [h1] at hr
        dsimp only at hr
        cases h3 : fixFeas ov sb feas (B1, false) with
        | error e => rw [h3] at hr; cases hr
        | ok q =>
          obtain ⟨B2, f1⟩ := q
          rw [h3] at hr
          dsimp only at hr
          have k1 := fixInf_cases ov sb inf B B1 _ _ h1
          have k2 := fixFeas_cases ov sb feas B1 B2 _ _ h3
          have box : ∀ c, (B2.lo c = B.lo c ∨ (∃ o ∈ inf, o.col = c ∧ B2.lo c = ⌈o.v⌉) ∨ ∃ o ∈ feas, o.col = c ∧ B2.lo c = ⌈o.v - 1 / 2⌉) ∧
              (B2.up c = B.up c ∨ (∃ o ∈ inf, o.col = c ∧ B2.up c = ⌊o.v⌋) ∨ ∃ o ∈ feas, o.col = c ∧ B2.up c = ⌊o.v + 1 / 2⌋) := by
            intro c
            refine ⟨?_, ?_⟩
            · rcases (k2 c).1 with e | e
              · rw [e]; exact (k1 c).1.imp_right Or.inl
              · exact Or.inr (Or.inr e)
            · rcases (k2 c).2 with e | e
              · rw [e]; exact (k1 c).2.imp_right Or.inl
              · exact Or.inr (Or.inr e)
          cases f2 with
          | true =>
            rw [if_pos rfl] at hr
            injection hr with hr
            rw [← hr]
            exact ⟨by simp, box⟩
          | false =>
            rw [if_neg (by simp)] at hr
            cases h4 : choose P sb inf with
            | error e => rw [h4] at hr; cases hr
            | ok b =>
              rw [h4] at hr
              injection hr with hr
              rw [← hr]
              refine ⟨?_, box⟩
              intro b' hb'
              injection hb' with hb'
              rw [← hb']
              exact choose_mem P sb inf b h4

theorem dist_le (v : ℚ) : dist v ≤ 1 / 2 := by
  unfold dist
  have h1 := Int.floor_le (v + 1 / 2)
  have h2 := Int.lt_floor_add_one (v + 1 / 2)
  rw [abs_le]
  constructor <;> linarith

theorem dist_half (k : ℤ) : dist ((k : ℚ) + 1 / 2) = 1 / 2 := by
  unfold dist
  have : ⌊(k : ℚ) + 1 / 2 + 1 / 2⌋ = k + 1 := by
    rw [Int.floor_eq_iff]; push_cast; constructor <;> linarith
  rw [this]
  push_cast
  rw [show (k : ℚ) + 1 / 2 - (k + 1) = -(1 / 2) by ring, abs_neg, abs_of_pos (by norm_num)]

theorem objs_mem (w : World) (B : Box) (o : Obj) (ho : o ∈ objs w B) :
    o.col ∈ w.ints ∧ o.v = shown w B o.col ∧ o.lo = B.lo o.col ∧ o.up = B.up o.col ∧ (0 < o.infeas ↔ w.prim < dist o.v ∧ 0 < dist o.v) ∧ o.infeas < 10 ^ 50 := by
  unfold objs at ho
  obtain ⟨⟨c, i⟩, hp, rfl⟩ := List.mem_map.1 ho
  have hc : c ∈ w.ints := by
    have := (List.mem_zipIdx_iff_getElem?.1 hp)
    exact List.mem_of_getElem? this
  refine ⟨hc, rfl, rfl, rfl, ?_, ?_⟩
  · dsimp only
    by_cases h : w.prim < dist (shown w B c)
    · rw [if_pos h]; exact ⟨fun h' => ⟨h, h'⟩, fun h' => h'.2⟩
    · rw [if_neg h]; exact ⟨fun h' => absurd h' (lt_irrefl _), fun h' => absurd h'.1 h⟩
  · dsimp only
    have := dist_le (shown w B c)
    split_ifs
    · exact lt_of_le_of_lt this (by norm_num)
    · norm_num

theorem objs_ind (w : World) (B : Box) : ((objs w B).map Obj.ind).Nodup := by
  unfold objs
  rw [List.map_map]
  have : (Obj.ind ∘ fun p : ℕ × ℕ => (⟨p.2, p.1, w.prio p.2, if w.prim < dist (shown w B p.1) then dist (shown w B p.1) else 0, shown w B p.1, B.lo p.1, B.up p.1,
      w.useI B p.2, w.useF B p.2⟩ : Obj)) = Prod.snd := rfl
  rw [this, List.zipIdx_map_snd]
  exact List.nodup_range'

theorem objs_nil (w : World) (B : Box) : objs w B = [] ↔ w.ints = [] := by
  unfold objs
  cases w.ints <;> simp

theorem two_inf (os : List Obj) : 2 * (infs os).length ≤ (os.map cnt).sum := by
  induction os with
  | nil => simp [infs]
  | cons o os ih =>
    rw [List.map_cons, List.sum_cons]
    unfold infs at ih ⊢
    by_cases h : 0 < o.infeas
    · rw [List.filter_cons_of_pos (by simpa using h), List.length_cons]
      have : cnt o = 2 := by unfold cnt; rw [if_pos h]
      omega
    · rw [List.filter_cons_of_neg (by simpa using h)]
      omega

/-- What the lists of a node are. -/
structure Listed (w : World) (B : Box) (s : St) : Prop where
  inf : ∀ o, o ∈ s.inf ↔ o ∈ objs w B ∧ 0 < o.infeas
  feas : ∀ o ∈ s.feas, o ∈ objs w B ∧ ¬ 0 < o.infeas
  ind : ((s.inf ++ s.feas).map Obj.ind).Nodup
  num : 2 * s.inf.length ≤ s.num

theorem sorted (w : World) (hs : Sorts w) (B : Box) (hne : w.ints ≠ []) : ∃ s, sortObjects w.C (objs w B) = some (true, s) ∧ Listed w B s := by
  obtain ⟨di, df, h1, h2⟩ := hs
  obtain ⟨s, k1, k2, k3, k4, _⟩ := lists_exact w.C di df h1 h2 (objs w B) (fun h => hne ((objs_nil w B).1 h)) (fun o ho => (objs_mem w B o ho).2.2.2.2.2)
  have m1 : ∀ o, o ∈ s.inf ↔ o ∈ objs w B ∧ 0 < o.infeas := by
    intro o; rw [k2.mem_iff]; simp [infs]
  have m2 : ∀ o ∈ s.feas, o ∈ objs w B ∧ ¬ 0 < o.infeas := by
    intro o ho
    rw [k3.mem_iff] at ho
    simp only [feass, List.mem_filter, decide_eq_true_eq] at ho
    exact ⟨ho.1, ho.2.1⟩
  refine ⟨s, k1, m1, m2, ?_, ?_⟩
  · rw [List.map_append, List.nodup_append]
    refine ⟨?_, ?_, ?_⟩
    · exact ((k2.map Obj.ind).nodup_iff).2 ((List.filter_sublist.map Obj.ind).nodup (objs_ind w B))
    · exact ((k3.map Obj.ind).nodup_iff).2 ((List.filter_sublist.map Obj.ind).nodup (objs_ind w B))
    · intro i hi j hj hij
      obtain ⟨o, ho, rfl⟩ := List.mem_map.1 hi
      obtain ⟨o', ho', rfl⟩ := List.mem_map.1 hj
      have e : o = o' := List.inj_on_of_nodup_map (objs_ind w B) ((m1 o).1 ho).1 (m2 o' ho').1 hij
      exact (m2 o' ho').2 (e ▸ ((m1 o).1 ho).2)
  · rw [k4, k2.length_eq]
    exact two_inf _

theorem over_mono (w : World) (best : Option (ℚ × (ℕ → ℚ))) (a b : ℚ) (h : a ≤ b) (ha : over w best a = true) : over w best b = true := by
  unfold over at *
  cases best with
  | none => cases ha
  | some u =>
    simp only [decide_eq_true_eq] at *
    linarith

theorem newBest_over (w : World) (best : Option (ℚ × (ℕ → ℚ))) (B : Box) (v : ℚ) (h : over w best v = true) : over w (newBest w best B) v = true := by
  unfold newBest
  split_ifs with h1
  · cases best with
    | none => cases h
    | some u =>
      dsimp only
      split_ifs with h2
      · unfold over at *
        simp only [decide_eq_true_eq] at *
        linarith
      · exact h
  · exact h

/-- What is asked of a node: whole bounds, and a lower bound that is one. -/
def NodeOk (w : World) (F : (ℕ → ℚ) → Prop) (f : (ℕ → ℚ) → ℚ) (nd : Nd) : Prop :=
  Whole w.ints nd.box ∧ ∀ x, Sol F w.ints x → nd.box.has x → nd.bound ≤ f x

theorem inf_bounds (w : World) (B : Box) (hB : Whole w.ints B) (hin : ∀ c ∈ w.ints, B.lo c ≤ w.pt B c ∧ w.pt B c ≤ B.up c) (o : Obj) (ho : o ∈ objs w B) :
    B.lo o.col ≤ ⌈o.v⌉ ∧ (⌊o.v⌋ : ℚ) ≤ B.up o.col := by
  obtain ⟨h1, h2, _⟩ := objs_mem w B o ho
  obtain ⟨⟨k, hk⟩, l, hl⟩ := hB o.col h1
  have hp := hin o.col h1
  rw [h2]
  unfold shown
  by_cases hf : (w.S B).aband = true ∧ B.lo o.col < B.up o.col + 1 / 2
  · rw [if_pos hf, hk, Int.ceil_intCast]
    have e1 : ⌈(k : ℚ) + 1 / 2⌉ = k + 1 := by rw [Int.ceil_eq_iff]; push_cast; constructor <;> linarith
    have e2 : ⌊(k : ℚ) + 1 / 2⌋ = k := by rw [Int.floor_eq_iff]; constructor <;> linarith
    rw [e1, e2]
    push_cast
    constructor
    · linarith
    · rw [← hk]; linarith
  · rw [if_neg hf]
    exact ⟨hp.1.trans (Int.le_ceil _), (Int.floor_le _).trans hp.2⟩

theorem feas_bounds (w : World) (hpr : w.prim < 1 / 2) (B : Box) (hB : Whole w.ints B) (hin : ∀ c ∈ w.ints, B.lo c ≤ w.pt B c ∧ w.pt B c ≤ B.up c) (o : Obj)
    (ho : o ∈ objs w B) (hf : ¬ 0 < o.infeas) : B.lo o.col ≤ ⌈o.v - 1 / 2⌉ ∧ (⌊o.v + 1 / 2⌋ : ℚ) ≤ B.up o.col := by
  obtain ⟨h1, h2, _, _, h5, _⟩ := objs_mem w B o ho
  obtain ⟨⟨k, hk⟩, l, hl⟩ := hB o.col h1
  have hp := hin o.col h1
  have hv : o.v = w.pt B o.col := by
    rw [h2]
    unfold shown
    by_cases hfo : (w.S B).aband = true ∧ B.lo o.col < B.up o.col + 1 / 2
    · exfalso
      have : o.v = (⌈B.lo o.col⌉ : ℚ) + 1 / 2 := by rw [h2]; unfold shown; rw [if_pos hfo]
      refine hf (h5.2 ?_)
      rw [this, dist_half]
      exact ⟨hpr, by norm_num⟩
    · rw [if_neg hfo]
  rw [hv]
  constructor
  · rw [hk]
    have : k ≤ ⌈w.pt B o.col - 1 / 2⌉ := by
      have : k - 1 < ⌈w.pt B o.col - 1 / 2⌉ := by
        rw [Int.lt_ceil]; push_cast; rw [hk] at hp; linarith [hp.1]
      omega
    exact_mod_cast this
  · rw [hl]
    have : ⌊w.pt B o.col + 1 / 2⌋ ≤ l := by
      have : ⌊w.pt B o.col + 1 / 2⌋ < l + 1 := by
        rw [Int.floor_lt]; push_cast; rw [hl] at hp; linarith [hp.2]
      omega
    exact_mod_cast this

theorem has_eq (A B : Box) (h : ∀ c, A.lo c = B.lo c ∧ A.up c = B.up c) : A = B := by
  cases A; cases B
  simp only [Box.mk.injEq]
  exact ⟨funext fun c => (h c).1, funext fun c => (h c).2⟩

/-- What `try_to_branch` does to a node. -/
theorem tryAt_facts (w : World) (F : (ℕ → ℚ) → Prop) (f : (ℕ → ℚ) → ℚ) (H : Hyp w F f) (bst : Option (ℚ × (ℕ → ℚ))) (idx : ℕ) (sb : ℕ → SbRes) (s : St) (B : Box)
    (hB : Whole w.ints B) (hinf : (w.S B).inf = false) (hl : Listed w B s) (o : Out) (sb' : ℕ → SbRes) (h : tryAt w bst idx sb s B = .ok (o, sb')) :
    (∀ x, Sol F w.ints x → B.has x → over w bst (f x) = false → o.ret ≠ -2 ∧ (propagate o.ret B o.box B).has x) ∧
    Whole w.ints (propagate o.ret B o.box B) ∧ (∀ c, B.lo c ≤ (propagate o.ret B o.box B).lo c ∧ (propagate o.ret B o.box B).up c ≤ B.up c) ∧
    ∀ b, o.brObj = some b → b.1 ∈ s.inf := by
  unfold tryAt at h
  by_cases hi : s.inf = []
  · rw [if_pos hi] at h
    simp only [Except.ok.injEq, Prod.mk.injEq] at h
    obtain ⟨rfl, -⟩ := h
    have : propagate 0 B B B = B := by simp [propagate]
    dsimp only
    rw [this]
    exact ⟨fun x _ hx _ => ⟨by decide, hx⟩, hB, fun c => ⟨le_refl _, le_refl _⟩, by simp⟩
  · rw [if_neg hi] at h
    by_cases hn : 0 < w.num idx s.num
    · rw [if_pos hn] at h
      cases hp : process w.dbg (over w bst) (w.sel B) (records w.S B (w.num idx s.num).toNat s sb) s.inf s.feas B with
      | error e => rw [hp] at h; cases h
      | ok r =>
        rw [hp] at h
        simp only [Except.map, Except.ok.injEq, Prod.mk.injEq] at h
        obtain ⟨rfl, -⟩ := h
        have hprop : propagate r.ret B r.box B = r.box := has_eq _ _ (bounds_propagated _ _ _ _ _ _ B r hp)
        rw [hprop]
        obtain ⟨c1, c2⟩ := process_cases _ _ _ _ _ _ B r hp
        have hin := H.inBox B hinf
        refine ⟨?_, ?_, ?_, c1⟩
        · intro x hx hbx hov
          have hpair : (w.num idx s.num).toNat % 2 = 0 ∨ 2 * s.inf.length ≤ (w.num idx s.num).toNat := by
            have := hl.num
            rcases H.paired idx s.num hn with e | e
            · left; omega
            · right; omega
          refine node_sound_partial w.dbg (over w bst) (over_mono w bst) (w.sel B) F f w.S H.honest B _ (by omega) s hpair hl.ind sb r hp x ⟨hx.1, hbx, ?_, hov⟩
          intro c hc
          obtain ⟨o', ho', rfl⟩ := List.mem_map.1 hc
          rw [List.mem_append] at ho'
          refine hx.2 _ ?_
          rcases ho' with e | e
          · exact (objs_mem w B o' ((hl.inf o').1 e).1).1
          · exact (objs_mem w B o' (hl.feas o' e).1).1
        · intro c hc
          obtain ⟨d1, d2⟩ := c2 c
          obtain ⟨b1, b2⟩ := hB c hc
          refine ⟨?_, ?_⟩
          · rcases d1 with e | ⟨o', _, _, e⟩ | ⟨o', _, _, e⟩
            · rw [e]; exact b1
            · exact ⟨_, e⟩
            · exact ⟨_, e⟩
          · rcases d2 with e | ⟨o', _, _, e⟩ | ⟨o', _, _, e⟩
            · rw [e]; exact b2
            · exact ⟨_, e⟩
            · exact ⟨_, e⟩
        · intro c
          obtain ⟨d1, d2⟩ := c2 c
          refine ⟨?_, ?_⟩
          · rcases d1 with e | ⟨o', k1, k2, e⟩ | ⟨o', k1, k2, e⟩
            · rw [e]
            · rw [e, ← k2]
              exact (inf_bounds w B hB hin o' ((hl.inf o').1 k1).1).1
            · rw [e, ← k2]
              exact (feas_bounds w H.prim B hB hin o' (hl.feas o' k1).1 (hl.feas o' k1).2).1
          · rcases d2 with e | ⟨o', k1, k2, e⟩ | ⟨o', k1, k2, e⟩
            · rw [e]
            · rw [e, ← k2]
              exact (inf_bounds w B hB hin o' ((hl.inf o').1 k1).1).2
            · rw [e, ← k2]
              exact (feas_bounds w H.prim B hB hin o' (hl.feas o' k1).1 (hl.feas o' k1).2).2
    · rw [if_neg hn] at h
      cases hp : w.base s B with
      | error e => rw [hp] at h; cases h
      | ok r =>
        rw [hp] at h
        simp only [Except.map, Except.ok.injEq, Prod.mk.injEq] at h
        obtain ⟨rfl, -⟩ := h
        obtain ⟨k1, k2, k3, k4⟩ := H.base s B r hp
        exact ⟨fun x hx hb _ => k1 x hx hb, k2 hB, k3, k4⟩

/-- One box lies within another. -/
def Narrow (A B : Box) : Prop := ∀ c, B.lo c ≤ A.lo c ∧ A.up c ≤ B.up c

theorem Narrow.has {A B : Box} (h : Narrow A B) {x : ℕ → ℚ} (hx : A.has x) : B.has x :=
  fun j => ⟨(h j).1.trans (hx j).1, (hx j).2.trans (h j).2⟩

theorem Narrow.trans {A B C : Box} (h : Narrow A B) (h' : Narrow B C) : Narrow A C :=
  fun j => ⟨(h' j).1.trans (h j).1, (h j).2.trans (h' j).2⟩

/-- The two children with the way spelt out. -/
theorem children_mem (B : Box) (next fails : ℕ) (bound : ℚ) (b : Obj × Bool) (n : Nd) (hn : n ∈ children B next fails bound b) :
    n.fails = fails ∧ n.bound = bound ∧ (n.box = ⟨B.lo, fun j => if j = b.1.col then ⌊b.1.v⌋ else B.up j⟩ ∨
      n.box = ⟨fun j => if j = b.1.col then ⌈b.1.v⌉ else B.lo j, B.up⟩) := by
  obtain ⟨o, w⟩ := b
  cases w <;> simp only [children, branchBox, List.mem_cons, List.not_mem_nil, or_false] at hn <;> rcases hn with rfl | rfl <;> simp

theorem children_has (B : Box) (next fails : ℕ) (bound : ℚ) (b : Obj × Bool) (x : ℕ → ℚ) (hx : B.has x) (k : ℤ) (hk : x b.1.col = k) :
    ∃ n ∈ children B next fails bound b, n.box.has x := by
  obtain ⟨o, w⟩ := b
  have hd : x o.col ≤ ⌊o.v⌋ → ∀ i c, (branchBox B ⟨false, i, o.col, c, ⌊o.v⌋⟩).has x := by
    intro h i c j
    simp only [branchBox]
    refine ⟨by simpa using (hx j).1, ?_⟩
    split_ifs with e
    · rw [e.2]; exact h
    · exact (hx j).2
  have hu : (⌈o.v⌉ : ℚ) ≤ x o.col → ∀ i c, (branchBox B ⟨true, i, o.col, c, ⌈o.v⌉⟩).has x := by
    intro h i c j
    simp only [branchBox]
    refine ⟨?_, by simpa using (hx j).2⟩
    split_ifs with e
    · rw [e.2]; exact h
    · exact (hx j).1
  rcases le_or_gt (x o.col) ⌊o.v⌋ with h | h
  · cases w
    · exact ⟨_, List.mem_cons_self, hd h _ _⟩
    · exact ⟨_, List.mem_cons_of_mem _ List.mem_cons_self, hd h _ _⟩
  · have h' := int_above_floor o.v (x o.col) k hk h
    cases w
    · exact ⟨_, List.mem_cons_of_mem _ List.mem_cons_self, hu h' _ _⟩
    · exact ⟨_, List.mem_cons_self, hu h' _ _⟩

/-- What a solve does to the state. -/
structure Step (w : World) (F : (ℕ → ℚ) → Prop) (f : (ℕ → ℚ) → ℚ) (st : Sr) (nd : Nd) (st' : Sr) (add : List Nd) : Prop where
  nodes : st'.nodes = add ++ st.nodes
  best : st'.best = if (w.S nd.box).inf then st.best else newBest w st.best nd.box
  lost : st'.lost = st.lost ∨ (st'.lost = nd.box :: st.lost ∧ (w.S nd.box).aband = true)
  whole : ∀ n ∈ add, Whole w.ints n.box ∧ Narrow n.box nd.box ∧ (w.S nd.box).inf = false ∧ n.bound = newBound w nd
  keeps : ∀ x, Sol F w.ints x → nd.box.has x → over w st'.best (f x) = true ∨ (∃ n ∈ add, n.box.has x) ∨ ∃ T ∈ st'.lost, T.has x

theorem newBound_le (w : World) (F : (ℕ → ℚ) → Prop) (f : (ℕ → ℚ) → ℚ) (H : Hyp w F f) (nd : Nd) (hi : (w.S nd.box).inf = false) (hn : NodeOk w F f nd) (x : ℕ → ℚ)
    (hx : Sol F w.ints x) (hb : nd.box.has x) : newBound w nd ≤ f x := by
  unfold newBound
  split_ifs with h
  · exact max_le (H.bound _ hi h x hx.1 hb) (hn.2 x hx hb)
  · exact hn.2 x hx hb

theorem solve_step (w : World) (F : (ℕ → ℚ) → Prop) (f : (ℕ → ℚ) → ℚ) (H : Hyp w F f) (st : Sr) (nd : Nd) (hn : NodeOk w F f nd) (st' : Sr)
    (h : solve w st nd = .ok st') : ∃ add, Step w F f st nd st' add := by
  unfold solve at h
  cases hi : (w.S nd.box).inf with
  | true =>
    rw [hi, if_pos rfl] at h
    injection h with h
    subst h
    exact ⟨[], rfl, by rw [hi]; rfl, Or.inl rfl, by simp, fun x hx hb => absurd hb ((H.honest nd.box).1 hi x hx.1)⟩
  | false =>
    rw [hi, if_neg (by decide)] at h
    have hnb := newBound_le w F f H nd hi hn
    by_cases ho : over w (newBest w st.best nd.box) (newBound w nd) = true
    · rw [if_pos ho] at h
      injection h with h
      subst h
      exact ⟨[], rfl, by rw [hi]; rfl, Or.inl rfl, by simp, fun x hx hb => Or.inl (over_mono w _ _ _ (hnb x hx hb) ho)⟩
    · rw [if_neg ho] at h
      unfold branchAt at h
      by_cases hf : (failStep w.maxFail nd.fails (w.S nd.box).aband).2 = true
      · rw [if_pos hf] at h
        injection h with h
        subst h
        refine ⟨[], rfl, by rw [hi]; rfl, Or.inr ⟨rfl, ?_⟩, by simp, fun x hx hb => Or.inr (Or.inr ⟨nd.box, List.mem_cons_self, hb⟩)⟩
        rcases Bool.eq_false_or_eq_true (w.S nd.box).aband with e | e
        · exact e
        · rw [e] at hf; simp [failStep] at hf
      · rw [if_neg hf] at h
        by_cases hne : w.ints = []
        · have : sortObjects w.C (objs w nd.box) = none := by rw [(objs_nil w nd.box).2 hne]; rfl
          rw [this] at h
          cases h
        · obtain ⟨s, hs, hl⟩ := sorted w H.sorts nd.box hne
          rw [hs] at h
          dsimp only at h
          cases ht : tryAt w (newBest w st.best nd.box) nd.idx st.sb s nd.box with
          | error e => rw [ht] at h; cases h
          | ok r =>
            obtain ⟨o, sb'⟩ := r
            rw [ht] at h
            dsimp only at h
            obtain ⟨t1, t2, t3, t4⟩ := tryAt_facts w F f H _ nd.idx st.sb s nd.box hn.1 hi hl o sb' ht
            have hin := H.inBox nd.box hi
            unfold follow at h
            cases hd : decision o.ret o.brObj.isSome with
            | error e => rw [hd] at h; cases h
            | ok d =>
              rw [hd] at h
              cases d with
              | fathomed =>
                injection h with h
                subst h
                refine ⟨[], rfl, by rw [hi]; rfl, Or.inl rfl, by simp, fun x hx hb => Or.inl ?_⟩
                by_contra hov
                exact (t1 x hx hb (by simpa using hov)).1 ((decision_exact _ _).1.1 hd)
              | resolve =>
                injection h with h
                subst h
                refine ⟨[_], rfl, by rw [hi]; rfl, Or.inl rfl, ?_, ?_⟩
                · intro n hn'
                  rw [List.mem_singleton] at hn'
                  subst hn'
                  exact ⟨t2, t3, hi, rfl⟩
                · intro x hx hb
                  by_cases hov : over w (newBest w st.best nd.box) (f x) = true
                  · exact Or.inl hov
                  · exact Or.inr (Or.inl ⟨_, List.mem_singleton_self _, (t1 x hx hb (by simpa using hov)).2⟩)
              | branch =>
                cases hb : o.brObj with
                | none => rw [hb] at h; cases h
                | some b =>
                  rw [hb] at h
                  injection h with h
                  subst h
                  have hob := ((hl.inf _).1 (t4 b hb)).1
                  have hib := inf_bounds w nd.box hn.1 hin b.1 hob
                  refine ⟨_, rfl, by rw [hi]; rfl, Or.inl rfl, ?_, ?_⟩
                  · intro n hn'
                    obtain ⟨_, c2, c3⟩ := children_mem _ _ _ _ _ n hn'
                    refine ⟨?_, ?_, hi, c2⟩
                    · intro c hc
                      obtain ⟨e1, e2⟩ := t2 c hc
                      rcases c3 with e | e
                      · rw [e]
                        refine ⟨e1, ?_⟩
                        dsimp only
                        split_ifs
                        · exact ⟨_, rfl⟩
                        · exact e2
                      · rw [e]
                        refine ⟨?_, e2⟩
                        dsimp only
                        split_ifs
                        · exact ⟨_, rfl⟩
                        · exact e1
                    · intro c
                      rcases c3 with e | e
                      · rw [e]
                        refine ⟨(t3 c).1, ?_⟩
                        dsimp only
                        split_ifs with ec
                        · rw [ec]; exact hib.2
                        · exact (t3 c).2
                      · rw [e]
                        refine ⟨?_, (t3 c).2⟩
                        dsimp only
                        split_ifs with ec
                        · rw [ec]; exact hib.1
                        · exact (t3 c).1
                  · intro x hx hbx
                    by_cases hov : over w (newBest w st.best nd.box) (f x) = true
                    · exact Or.inl hov
                    · right; left
                      obtain ⟨k, hk⟩ := hx.2 b.1.col (objs_mem w nd.box b.1 hob).1
                      exact children_has _ _ _ _ b x (t1 x hx hbx (by simpa using hov)).2 k hk

/-- What holds throughout. -/
structure Inv (w : World) (F : (ℕ → ℚ) → Prop) (f : (ℕ → ℚ) → ℚ) (R : Box) (st : Sr) : Prop where
  nodes : ∀ n ∈ st.nodes, NodeOk w F f n ∧ Narrow n.box R
  keeps : ∀ x, Sol F w.ints x → R.has x → over w st.best (f x) = true ∨ (∃ n ∈ st.nodes, n.box.has x) ∨ ∃ T ∈ st.lost, T.has x
  lost : ∀ T ∈ st.lost, (w.S T).aband = true ∧ Narrow T R
  best : ∀ u, st.best = some u → ∃ T, Narrow T R ∧ (w.S T).inf = false ∧ ((w.S T).aband = false ∨ w.late = true) ∧ u = ((w.S T).obj, w.pt T) ∧
    ∀ c ∈ w.ints, ∃ k : ℤ, |u.2 c - k| ≤ w.tol

theorem mem_erase {α : Type} (l : List α) (k : ℕ) (a b : α) (hk : l[k]? = some a) (hb : b ∈ l) : b = a ∨ b ∈ l.eraseIdx k := by
  obtain ⟨j, hj⟩ := List.mem_iff_getElem?.1 hb
  by_cases e : j = k
  · subst e; rw [hk] at hj; injection hj with hj; exact Or.inl hj.symm
  · refine Or.inr (List.mem_eraseIdx_iff_getElem?.2 ⟨j, e, hj⟩)

theorem visit_inv (w : World) (F : (ℕ → ℚ) → Prop) (f : (ℕ → ℚ) → ℚ) (H : Hyp w F f) (R : Box) (st : Sr) (k : ℕ) (st' : Sr) (hI : Inv w F f R st)
    (h : visit w st k = .ok st') : Inv w F f R st' := by
  unfold visit at h
  cases hk : st.nodes[k]? with
  | none => rw [hk] at h; injection h with h; subst h; exact hI
  | some nd =>
    rw [hk] at h
    dsimp only at h
    obtain ⟨hnd, hnR⟩ := hI.nodes nd (List.mem_of_getElem? hk)
    obtain ⟨add, S⟩ := solve_step w F f H _ nd hnd st' h
    have hbest : ∀ v, over w st.best v = true → over w st'.best v = true := by
      intro v hv
      rw [S.best]
      split_ifs
      · exact hv
      · exact newBest_over w _ _ _ hv
    refine ⟨?_, ?_, ?_, ?_⟩
    · intro n hn
      rw [S.nodes, List.mem_append] at hn
      rcases hn with hn | hn
      · obtain ⟨a, b, c, d⟩ := S.whole n hn
        refine ⟨⟨a, fun x hx hb => ?_⟩, b.trans hnR⟩
        rw [d]
        exact newBound_le w F f H nd c hnd x hx (b.has hb)
      · exact hI.nodes n (List.mem_of_mem_eraseIdx hn)
    · intro x hx hR
      have hlost : ∀ T ∈ st.lost, T ∈ st'.lost := by
        intro T hT
        rcases S.lost with e | e
        · rw [e]; exact hT
        · rw [e.1]; exact List.mem_cons_of_mem _ hT
      rcases hI.keeps x hx hR with e | ⟨n, hn, e⟩ | ⟨T, hT, e⟩
      · exact Or.inl (hbest _ e)
      · rcases mem_erase _ k nd n hk hn with rfl | hn'
        · rcases S.keeps x hx e with e | ⟨m, hm, e⟩ | e
          · exact Or.inl e
          · exact Or.inr (Or.inl ⟨m, by rw [S.nodes]; exact List.mem_append_left _ hm, e⟩)
          · exact Or.inr (Or.inr e)
        · exact Or.inr (Or.inl ⟨n, by rw [S.nodes]; exact List.mem_append_right _ hn', e⟩)
      · exact Or.inr (Or.inr ⟨T, hlost T hT, e⟩)
    · intro T hT
      rcases S.lost with e | e
      · rw [e] at hT; exact hI.lost T hT
      · rw [e.1] at hT
        rcases List.mem_cons.1 hT with rfl | hT
        · exact ⟨e.2, hnR⟩
        · exact hI.lost T hT
    · intro u hu
      rw [S.best] at hu
      cases hi : (w.S nd.box).inf with
      | true => rw [hi, if_pos rfl] at hu; exact hI.best u hu
      | false =>
        rw [hi, if_neg (by decide)] at hu
        unfold newBest at hu
        by_cases hc : ((w.S nd.box).aband = false ∨ w.late = true) ∧ integral w (w.pt nd.box) = true
        · rw [if_pos hc] at hu
          have hnew : ∃ T, Narrow T R ∧ (w.S T).inf = false ∧ ((w.S T).aband = false ∨ w.late = true) ∧
              ((w.S nd.box).obj, w.pt nd.box) = ((w.S T).obj, w.pt T) ∧ ∀ c ∈ w.ints, ∃ k : ℤ, |w.pt nd.box c - k| ≤ w.tol := by
            refine ⟨nd.box, hnR, hi, hc.1, rfl, fun c hcc => ⟨⌊w.pt nd.box c + 1 / 2⌋, ?_⟩⟩
            have := List.all_eq_true.1 hc.2 c hcc
            simpa [dist] using this
          cases hb : st.best with
          | none =>
            rw [hb] at hu
            injection hu with hu
            subst hu
            exact hnew
          | some u0 =>
            rw [hb] at hu
            dsimp only at hu
            split_ifs at hu with h2
            · injection hu with hu
              subst hu
              exact hnew
            · injection hu with hu
              subst hu
              exact hI.best _ hb
        · rw [if_neg hc] at hu
          exact hI.best u hu

theorem run_inv (w : World) (F : (ℕ → ℚ) → Prop) (f : (ℕ → ℚ) → ℚ) (H : Hyp w F f) (R : Box) : ∀ (ks : List ℕ) (st st' : Sr), Inv w F f R st →
    run w st ks = .ok st' → Inv w F f R st'
  | [], st, st', hI, h => by injection h with h; subst h; exact hI
  | k :: ks, st, st', hI, h => by
    rw [run] at h
    cases hv : visit w st k with
    | error e => rw [hv] at h; cases h
    | ok s =>
      rw [hv] at h
      exact run_inv w F f H R ks s st' (visit_inv w F f H R st k s hI hv) h

theorem root_inv (w : World) (F : (ℕ → ℚ) → Prop) (f : (ℕ → ℚ) → ℚ) (R : Box) (hR : Whole w.ints R) (bound : ℚ) (hb : ∀ x, Sol F w.ints x → R.has x → bound ≤ f x)
    (sb : ℕ → SbRes) : Inv w F f R (root R bound sb) := by
  refine ⟨?_, ?_, ?_, ?_⟩
  · intro n hn
    simp only [root, List.mem_singleton] at hn
    subst hn
    exact ⟨⟨hR, hb⟩, fun c => ⟨le_refl _, le_refl _⟩⟩
  · intro x _ hx
    exact Or.inr (Or.inl ⟨_, List.mem_singleton_self _, hx⟩)
  · simp [root]
  · simp [root]

theorem over_some (w : World) (bst : Option (ℚ × (ℕ → ℚ))) (v : ℚ) : over w bst v = true ↔ ∃ u, bst = some u ∧ u.1 - w.gran ≤ v := by
  cases bst <;> simp [over]

/-- **C302 (partial).** In whatever order nodes are taken, at any moment every solution of the problem is no better than the best one found, up to the granularity, or within
the bounds of an open node whose lower bound is not above its value, or within those of a node dropped after too many failures, whose solve was abandoned. -/
theorem nothing_lost_partial (w : World) (F : (ℕ → ℚ) → Prop) (f : (ℕ → ℚ) → ℚ) (H : Hyp w F f) (R : Box) (hR : Whole w.ints R) (bound : ℚ)
    (hb : ∀ x, Sol F w.ints x → R.has x → bound ≤ f x) (sb : ℕ → SbRes) (ks : List ℕ) (st : Sr) (h : run w (root R bound sb) ks = .ok st) (x : ℕ → ℚ)
    (hx : Sol F w.ints x) (hxR : R.has x) :
    (∃ u, st.best = some u ∧ u.1 - w.gran ≤ f x) ∨ (∃ n ∈ st.nodes, n.box.has x ∧ n.bound ≤ f x) ∨ ∃ T ∈ st.lost, T.has x ∧ (w.S T).aband = true := by
  have hI := run_inv w F f H R ks _ st (root_inv w F f R hR bound hb sb) h
  rcases hI.keeps x hx hxR with e | ⟨n, hn, e⟩ | ⟨T, hT, e⟩
  · exact Or.inl ((over_some w _ _).1 e)
  · exact Or.inr (Or.inl ⟨n, hn, e, (hI.nodes n hn).1.2 x hx e⟩)
  · exact Or.inr (Or.inr ⟨T, hT, e, (hI.lost T hT).1⟩)

/-- **C303.** The best solution is the point of some solve within the bounds of the root, not infeasible, with the value of this solve, whole up to the tolerance in the
integer columns, and within their bounds. -/
theorem incumbent_exact (w : World) (F : (ℕ → ℚ) → Prop) (f : (ℕ → ℚ) → ℚ) (H : Hyp w F f) (R : Box) (hR : Whole w.ints R) (bound : ℚ)
    (hb : ∀ x, Sol F w.ints x → R.has x → bound ≤ f x) (sb : ℕ → SbRes) (ks : List ℕ) (st : Sr) (h : run w (root R bound sb) ks = .ok st) (v : ℚ) (x : ℕ → ℚ)
    (hu : st.best = some (v, x)) :
    (∃ T, Narrow T R ∧ (w.S T).inf = false ∧ ((w.S T).aband = false ∨ w.late = true) ∧ v = (w.S T).obj ∧ x = w.pt T) ∧
    ∀ c ∈ w.ints, R.lo c ≤ x c ∧ x c ≤ R.up c ∧ ∃ k : ℤ, |x c - k| ≤ w.tol := by
  have hI := run_inv w F f H R ks _ st (root_inv w F f R hR bound hb sb) h
  obtain ⟨T, t1, t2, t3, t4, t5⟩ := hI.best _ hu
  rw [Prod.mk.injEq] at t4
  refine ⟨⟨T, t1, t2, t3, t4.1, t4.2⟩, fun c hc => ?_⟩
  have := H.inBox T t2 c hc
  rw [t4.2]
  exact ⟨(t1 c).1.trans this.1, this.2.trans (t1 c).2, by simpa [t4.2] using t5 c hc⟩

/-- **C302 (partial).** If no solve within the bounds of the root is abandoned and the solver reports feasible points with their values, a search that has come to its end has
an optimal solution, up to the granularity and the integer tolerance, or there is none. -/
theorem search_optimal_partial (w : World) (F : (ℕ → ℚ) → Prop) (f : (ℕ → ℚ) → ℚ) (H : Hyp w F f) (hp : PointOk w F f) (R : Box) (hR : Whole w.ints R) (bound : ℚ)
    (hb : ∀ x, Sol F w.ints x → R.has x → bound ≤ f x) (hna : ∀ T, Narrow T R → (w.S T).aband = false) (sb : ℕ → SbRes) (ks : List ℕ) (st : Sr)
    (h : run w (root R bound sb) ks = .ok st) (hend : st.nodes = []) :
    (st.best = none → ∀ x, Sol F w.ints x → ¬ R.has x) ∧
    ∀ v x, st.best = some (v, x) → F x ∧ f x = v ∧ (∀ c ∈ w.ints, ∃ k : ℤ, |x c - k| ≤ w.tol) ∧ ∀ y, Sol F w.ints y → R.has y → v - w.gran ≤ f y := by
  have hI := run_inv w F f H R ks _ st (root_inv w F f R hR bound hb sb) h
  have hall : ∀ y, Sol F w.ints y → R.has y → ∃ u, st.best = some u ∧ u.1 - w.gran ≤ f y := by
    intro y hy hyR
    rcases hI.keeps y hy hyR with e | ⟨n, hn, _⟩ | ⟨T, hT, _⟩
    · exact (over_some w _ _).1 e
    · rw [hend] at hn; simp at hn
    · have := hI.lost T hT
      rw [hna T this.2] at this
      cases this.1
  refine ⟨?_, ?_⟩
  · intro hn x hx hxR
    obtain ⟨u, hu, _⟩ := hall x hx hxR
    rw [hn] at hu
    cases hu
  · intro v x hu
    obtain ⟨T, t1, t2, t3, t4, t5⟩ := hI.best _ hu
    rw [Prod.mk.injEq] at t4
    obtain ⟨p1, p2⟩ := hp T t2 t3
    refine ⟨by rw [t4.2]; exact p1, by rw [t4.2, t4.1]; exact p2, t5, ?_⟩
    intro y hy hyR
    obtain ⟨u, hu', hv⟩ := hall y hy hyR
    rw [hu] at hu'
    injection hu' with hu'
    subst hu'
    exact hv

/-! ## No errors -/

theorem firstHalf_ok (sb : ℕ → SbRes) : ∀ os : List Obj, os ≠ [] → (∀ o ∈ os, ∃ d u, (sb o.ind).rD = some d ∧ (sb o.ind).rU = some u) →
    ∃ o, firstHalf sb os = .ok (some o)
  | [], h, _ => absurd rfl h
  | o :: os, _, h => by
    obtain ⟨d, u, e1, e2⟩ := h o List.mem_cons_self
    rw [firstHalf, e1, e2]
    dsimp only
    split_ifs
    · exact ⟨o, rfl⟩
    · by_cases hn : os = []
      · subst hn; exact ⟨o, rfl⟩
      · obtain ⟨o', ho'⟩ := firstHalf_ok sb os hn (fun o ho => h o (List.mem_cons_of_mem _ ho))
        rw [ho']
        exact ⟨o', rfl⟩

theorem choose_ok (P : Sel) (sb : ℕ → SbRes) (os : List Obj) (hne : os ≠ []) (hc : Complete sb os) : ∃ b, choose P sb os = .ok b := by
  have h : ∀ o ∈ os, evaluated (sb o.ind) = true → ∃ d u, (sb o.ind).rD = some d ∧ (sb o.ind).rU = some u := fun o ho he => (hc o ho he).2.2
  rcases best_exact P sb os (if P.high then -P.big else P.big) none h with ⟨e1, _⟩ | ⟨l1, o, l2, d, u, _, _, _, e4, _, _⟩
  · rw [choose, e1]
    dsimp only
    cases hn : firstNew sb os with
    | some o => exact ⟨_, rfl⟩
    | none =>
      dsimp only
      unfold firstNew at hn
      rw [List.find?_eq_none] at hn
      obtain ⟨o, ho⟩ := firstHalf_ok sb os hne (fun o ho => h o ho (by simpa using hn o ho))
      rw [ho]
      exact ⟨_, rfl⟩
  · rw [choose, e4]
    exact ⟨_, rfl⟩

theorem process_ok (dbg : Bool) (ov : ℚ → Bool) (P : Sel) (sb : ℕ → SbRes) (inf feas : List Obj) (B : Box) (hc : Complete sb inf)
    (hf : ∀ o ∈ feas, ((sb o.ind).evD = true → ∃ d, (sb o.ind).rD = some d) ∧ ((sb o.ind).evU = true → ∃ u, (sb o.ind).rU = some u))
    (hn1 : (inf.map Obj.col).Nodup) (hn2 : (feas.map Obj.col).Nodup) (hne : inf ≠ []) : ∃ r, process dbg ov P sb inf feas B = .ok r := by
  obtain ⟨c1, c2⟩ := return_code dbg ov P sb inf feas B hc hf hn1 hn2
  by_cases h1 : ∃ o ∈ inf, Drop ov (sb o.ind) false ∧ Drop ov (sb o.ind) true
  · exact ⟨_, c1 h1⟩
  · obtain ⟨d1, d2⟩ := c2 h1
    by_cases h2 : ∃ o ∈ inf, Drop ov (sb o.ind) false ∨ Drop ov (sb o.ind) true
    · obtain ⟨B', e⟩ := d1 h2; exact ⟨_, e⟩
    · obtain ⟨b, hb⟩ := choose_ok P sb inf hne hc
      obtain ⟨e1, e2⟩ := d2 h2 b hb
      by_cases h3 : ∃ o ∈ feas, Drop ov (sb o.ind) false ∨ Drop ov (sb o.ind) true
      · obtain ⟨B', e⟩ := e1 h3; exact ⟨_, e⟩
      · obtain ⟨B', e⟩ := e2 h3; exact ⟨_, e⟩

theorem objs_col (w : World) (B : Box) : (objs w B).map Obj.col = w.ints := by
  unfold objs
  rw [List.map_map]
  have : (Obj.col ∘ fun p : ℕ × ℕ => (⟨p.2, p.1, w.prio p.2, if w.prim < dist (shown w B p.1) then dist (shown w B p.1) else 0, shown w B p.1, B.lo p.1, B.up p.1,
      w.useI B p.2, w.useF B p.2⟩ : Obj)) = Prod.fst := rfl
  rw [this, List.zipIdx_map_fst]

theorem listed_cols (w : World) (hn : w.ints.Nodup) (B : Box) (s : St) (hl : Listed w B s) : ((s.inf ++ s.feas).map Obj.col).Nodup := by
  have hcol : ((objs w B).map Obj.col).Nodup := by rw [objs_col]; exact hn
  have hmem : ∀ o ∈ s.inf ++ s.feas, o ∈ objs w B := by
    intro o ho
    rcases List.mem_append.1 ho with e | e
    · exact ((hl.inf o).1 e).1
    · exact (hl.feas o e).1
  refine List.Nodup.map_on ?_ (List.Nodup.of_map _ hl.ind)
  intro a ha b hb e
  exact List.inj_on_of_nodup_map hcol (hmem a ha) (hmem b hb) e

/-- At a node that is branched on some object is infeasible. -/
theorem some_inf (w : World) (F : (ℕ → ℚ) → Prop) (f : (ℕ → ℚ) → ℚ) (H : Hyp w F f) (Q : Quiet w) (bst : Option (ℚ × (ℕ → ℚ))) (nd : Nd) (hi : (w.S nd.box).inf = false)
    (ho : ¬ over w (newBest w bst nd.box) (newBound w nd) = true) (s : St) (hl : Listed w nd.box s) : s.inf ≠ [] := by
  have hex : ∀ c ∈ w.ints, w.prim < dist (shown w nd.box c) → 0 < dist (shown w nd.box c) → s.inf ≠ [] := by
    intro c hc h1 h2 hnil
    have hc' : c ∈ (objs w nd.box).map Obj.col := by rw [objs_col]; exact hc
    obtain ⟨o, ho, rfl⟩ := List.mem_map.1 hc'
    obtain ⟨_, e2, _, _, e5, _⟩ := objs_mem w nd.box o ho
    have := (hl.inf o).2 ⟨ho, e5.2 (by rw [e2]; exact ⟨h1, h2⟩)⟩
    rw [hnil] at this
    simp at this
  have hin := H.inBox nd.box hi
  rcases Bool.eq_false_or_eq_true (w.S nd.box).aband with ha | ha
  · obtain ⟨c, hc⟩ := List.exists_mem_of_ne_nil _ Q.some
    have hb := hin c hc
    have : shown w nd.box c = (⌈nd.box.lo c⌉ : ℚ) + 1 / 2 := by
      unfold shown
      rw [if_pos ⟨ha, by linarith⟩]
    refine hex c hc ?_ ?_
    · rw [this, dist_half]; exact H.prim
    · rw [this, dist_half]; norm_num
  · have hint : integral w (w.pt nd.box) = false := by
      by_contra hcon
      rw [Bool.not_eq_false] at hcon
      refine ho ((over_some w _ _).2 ?_)
      have hob : (w.S nd.box).obj ≤ newBound w nd := by
        unfold newBound
        rw [if_pos (Or.inl ha)]
        exact le_max_left _ _
      have hg := Q.gran
      unfold newBest
      rw [if_pos ⟨Or.inl ha, hcon⟩]
      cases bst with
      | none => exact ⟨_, rfl, by dsimp only; linarith⟩
      | some u =>
        dsimp only
        split_ifs with h2
        · exact ⟨_, rfl, by dsimp only; linarith⟩
        · exact ⟨_, rfl, by linarith⟩
    unfold integral at hint
    rw [List.all_eq_false] at hint
    obtain ⟨c, hc, hd⟩ := hint
    have hd' : w.tol < dist (w.pt nd.box c) := by simpa using hd
    have hs : shown w nd.box c = w.pt nd.box c := by
      unfold shown
      rw [if_neg (by rw [ha]; simp)]
    refine hex c hc ?_ ?_
    · rw [hs]; exact lt_of_le_of_lt Q.tols.2 hd'
    · rw [hs]
      exact lt_of_le_of_lt (Q.tols.1.trans Q.tols.2) hd'

theorem tryAt_ok (w : World) (F : (ℕ → ℚ) → Prop) (f : (ℕ → ℚ) → ℚ) (H : Hyp w F f) (Q : Quiet w) (bst : Option (ℚ × (ℕ → ℚ))) (idx : ℕ) (sb : ℕ → SbRes) (s : St) (B : Box)
    (hl : Listed w B s) (hne : s.inf ≠ []) : ∃ o sb' d, tryAt w bst idx sb s B = .ok (o, sb') ∧ decision o.ret o.brObj.isSome = .ok d := by
  unfold tryAt
  rw [if_neg hne]
  by_cases hn : 0 < w.num idx s.num
  · rw [if_pos hn]
    have hpair : (w.num idx s.num).toNat % 2 = 0 ∨ 2 * s.inf.length ≤ (w.num idx s.num).toNat := by
      have := hl.num
      rcases H.paired idx s.num hn with e | e
      · left; omega
      · right; omega
    obtain ⟨r1, r2⟩ := records_are_complete w.S B (w.num idx s.num).toNat (by omega) s hpair hl.ind sb
    have hcol := listed_cols w Q.once B s hl
    rw [List.map_append, List.nodup_append] at hcol
    obtain ⟨r, hr⟩ := process_ok w.dbg (over w bst) (w.sel B) _ s.inf s.feas B r1 r2 hcol.1 hcol.2.1 hne
    obtain ⟨d, hd⟩ := no_fatal _ _ _ _ _ _ _ _ hr
    exact ⟨r, _, d, by rw [hr]; rfl, hd⟩
  · rw [if_neg hn]
    obtain ⟨o, d, h1, h2⟩ := Q.base s B hne
    exact ⟨o, _, d, by rw [h1]; rfl, h2⟩

theorem solve_ok (w : World) (F : (ℕ → ℚ) → Prop) (f : (ℕ → ℚ) → ℚ) (H : Hyp w F f) (Q : Quiet w) (st : Sr) (nd : Nd) : ∃ st', solve w st nd = .ok st' := by
  unfold solve
  cases hi : (w.S nd.box).inf with
  | true => rw [if_pos rfl]; exact ⟨_, rfl⟩
  | false =>
    rw [if_neg (by decide)]
    by_cases ho : over w (newBest w st.best nd.box) (newBound w nd) = true
    · rw [if_pos ho]; exact ⟨_, rfl⟩
    · rw [if_neg ho]
      unfold branchAt
      by_cases hf : (failStep w.maxFail nd.fails (w.S nd.box).aband).2 = true
      · rw [if_pos hf]; exact ⟨_, rfl⟩
      · rw [if_neg hf]
        obtain ⟨s, hs, hl⟩ := sorted w H.sorts nd.box Q.some
        rw [hs]
        dsimp only
        have hne := some_inf w F f H Q st.best nd hi ho s hl
        obtain ⟨o, sb', d, h1, h2⟩ := tryAt_ok w F f H Q (newBest w st.best nd.box) nd.idx st.sb s nd.box hl hne
        rw [h1]
        dsimp only
        unfold follow
        rw [h2]
        cases d with
        | fathomed => exact ⟨_, rfl⟩
        | resolve => exact ⟨_, rfl⟩
        | branch =>
          have := ((decision_exact o.ret o.brObj.isSome).2.2.1.1 h2).2
          obtain ⟨b, hb⟩ := Option.isSome_iff_exists.1 this
          rw [hb]
          exact ⟨_, rfl⟩

/-- **C304 (partial).** With a primal tolerance not above the integer tolerance no run ends with an error: neither with the fatal one for nothing to branch on, nor with a
failed assertion, nor with the reading of a field never written. -/
theorem no_error_partial (w : World) (F : (ℕ → ℚ) → Prop) (f : (ℕ → ℚ) → ℚ) (H : Hyp w F f) (Q : Quiet w) : ∀ (ks : List ℕ) (st : Sr), ∃ st', run w st ks = .ok st'
  | [], st => ⟨st, rfl⟩
  | k :: ks, st => by
    have hv : ∃ s, visit w st k = .ok s := by
      unfold visit
      cases st.nodes[k]? with
      | none => exact ⟨_, rfl⟩
      | some nd => exact solve_ok w F f H Q _ nd
    obtain ⟨s, hs⟩ := hv
    rw [run, hs]
    exact no_error_partial w F f H Q ks s

/-! ## The end -/

/-- What a new node is. -/
theorem solve_new (w : World) (hs0 : Sorts w) (st : Sr) (nd : Nd) (st' : Sr) (h : solve w st nd = .ok st') : ∃ add, st'.nodes = add ++ st.nodes ∧ add.length ≤ 2 ∧
    ∀ n ∈ add, (w.S nd.box).inf = false ∧ (failStep w.maxFail nd.fails (w.S nd.box).aband).2 = false ∧ n.fails = (failStep w.maxFail nd.fails (w.S nd.box).aband).1 ∧
      ∃ s o sb', Listed w nd.box s ∧ tryAt w (newBest w st.best nd.box) nd.idx st.sb s nd.box = .ok (o, sb') ∧
        ((decision o.ret o.brObj.isSome = .ok .resolve ∧ n.box = propagate o.ret nd.box o.box nd.box) ∨
          ∃ b i, o.brObj = some b ∧ n ∈ children (propagate o.ret nd.box o.box nd.box) i n.fails n.bound b) := by
  unfold solve at h
  cases hi : (w.S nd.box).inf with
  | true =>
    rw [hi, if_pos rfl] at h
    injection h with h
    subst h
    exact ⟨[], rfl, by simp, by simp⟩
  | false =>
    rw [hi, if_neg (by decide)] at h
    by_cases ho : over w (newBest w st.best nd.box) (newBound w nd) = true
    · rw [if_pos ho] at h
      injection h with h
      subst h
      exact ⟨[], rfl, by simp, by simp⟩
    · rw [if_neg ho] at h
      unfold branchAt at h
      by_cases hf : (failStep w.maxFail nd.fails (w.S nd.box).aband).2 = true
      · rw [if_pos hf] at h
        injection h with h
        subst h
        exact ⟨[], rfl, by simp, by simp⟩
      · rw [if_neg hf] at h
        rw [Bool.not_eq_true] at hf
        by_cases hne : w.ints = []
        · have : sortObjects w.C (objs w nd.box) = none := by rw [(objs_nil w nd.box).2 hne]; rfl
          rw [this] at h
          cases h
        · obtain ⟨s, hs, hl⟩ := sorted w hs0 nd.box hne
          rw [hs] at h
          dsimp only at h
          cases ht : tryAt w (newBest w st.best nd.box) nd.idx st.sb s nd.box with
          | error e => rw [ht] at h; cases h
          | ok r =>
            obtain ⟨o, sb'⟩ := r
            rw [ht] at h
            dsimp only at h
            unfold follow at h
            cases hd : decision o.ret o.brObj.isSome with
            | error e => rw [hd] at h; cases h
            | ok d =>
              rw [hd] at h
              cases d with
              | fathomed =>
                injection h with h
                subst h
                exact ⟨[], rfl, by simp, by simp⟩
              | resolve =>
                injection h with h
                subst h
                refine ⟨[_], rfl, by simp, ?_⟩
                intro n hn'
                rw [List.mem_singleton] at hn'
                subst hn'
                exact ⟨rfl, hf, rfl, s, o, sb', hl, ht, Or.inl ⟨hd, rfl⟩⟩
              | branch =>
                cases hb : o.brObj with
                | none => rw [hb] at h; cases h
                | some b =>
                  rw [hb] at h
                  injection h with h
                  subst h
                  refine ⟨_, rfl, by simp [children], ?_⟩
                  intro n hn'
                  obtain ⟨c1, c2, _⟩ := children_mem _ _ _ _ _ n hn'
                  refine ⟨rfl, hf, c1, s, o, sb', hl, ht, Or.inr ⟨b, st.next, hb, ?_⟩⟩
                  rw [c1, c2]
                  exact hn'

theorem size_le (w : World) (A B : Box) (h : Narrow A B) : size w A ≤ size w B := by
  unfold size
  refine List.sum_le_sum fun c _ => ?_
  have h1 := Int.floor_le_floor (h c).1
  have h2 := Int.floor_le_floor (h c).2
  omega

theorem size_lt (w : World) (A B : Box) (h : Narrow A B) (hA : Whole w.ints A) (hB : Whole w.ints B) (c : ℕ) (hc : c ∈ w.ints)
    (h1 : A.up c - A.lo c + 1 ≤ B.up c - B.lo c) (h2 : B.lo c + 1 ≤ B.up c) : size w A < size w B := by
  unfold size
  refine List.sum_lt_sum _ _ (fun c _ => ?_) ⟨c, hc, ?_⟩
  · have h1 := Int.floor_le_floor (h c).1
    have h2 := Int.floor_le_floor (h c).2
    omega
  · obtain ⟨⟨a, ha⟩, b, hb⟩ := hA c hc
    obtain ⟨⟨a', ha'⟩, b', hb'⟩ := hB c hc
    rw [ha, hb, ha', hb'] at h1
    rw [ha', hb'] at h2
    rw [ha, hb, ha', hb']
    simp only [Int.floor_intCast]
    have e1 : b - a + 1 ≤ b' - a' := by exact_mod_cast h1
    have e2 : a' + 1 ≤ b' := by exact_mod_cast h2
    omega

/-- The value of an infeasible object after a solve not abandoned. -/
theorem inf_strict (w : World) (B : Box) (hB : Whole w.ints B) (hin : ∀ c ∈ w.ints, B.lo c ≤ w.pt B c ∧ w.pt B c ≤ B.up c) (ha : (w.S B).aband = false) (o : Obj)
    (ho : o ∈ objs w B) (hpos : 0 < o.infeas) : (⌊o.v⌋ : ℚ) < o.v ∧ o.v < ⌈o.v⌉ ∧ B.lo o.col ≤ ⌊o.v⌋ ∧ (⌊o.v⌋ : ℚ) + 1 ≤ B.up o.col ∧ (⌈o.v⌉ : ℚ) = ⌊o.v⌋ + 1 := by
  obtain ⟨h1, h2, _, _, h5, _⟩ := objs_mem w B o ho
  obtain ⟨⟨k, hk⟩, l, hl⟩ := hB o.col h1
  have hp := hin o.col h1
  have hv : o.v = w.pt B o.col := by
    rw [h2]; unfold shown; rw [if_neg (by rw [ha]; simp)]
  have hd := (h5.1 hpos).2
  have hnw : (⌊o.v⌋ : ℚ) ≠ o.v := by
    intro e
    rw [← e] at hd
    unfold dist at hd
    have : ⌊((⌊o.v⌋ : ℤ) : ℚ) + 1 / 2⌋ = ⌊o.v⌋ := by rw [Int.floor_eq_iff]; constructor <;> linarith
    rw [this, sub_self, abs_zero] at hd
    exact lt_irrefl _ hd
  have hlt : (⌊o.v⌋ : ℚ) < o.v := lt_of_le_of_ne (Int.floor_le _) hnw
  have hce : ⌈o.v⌉ = ⌊o.v⌋ + 1 := by
    rw [Int.ceil_eq_iff]
    push_cast
    exact ⟨by linarith, (Int.lt_floor_add_one _).le⟩
  rw [← hv] at hp
  refine ⟨hlt, ?_, ?_, ?_, by rw [hce]; push_cast; rfl⟩
  · rw [hce]; push_cast; exact Int.lt_floor_add_one _
  · rw [hk] at hp ⊢
    exact_mod_cast Int.le_floor.2 hp.1
  · rw [hl] at hp ⊢
    have : ⌊o.v⌋ < l := by
      have : (⌊o.v⌋ : ℚ) < l := lt_of_lt_of_le hlt hp.2
      exact_mod_cast this
    exact_mod_cast this

theorem cut_size (w : World) (A B : Box) (h : Narrow A B) (hA : Whole w.ints A) (hB : Whole w.ints B) (o : Obj) (hc : o.col ∈ w.ints)
    (hv : (⌊o.v⌋ : ℚ) < o.v ∧ o.v < ⌈o.v⌉ ∧ B.lo o.col ≤ ⌊o.v⌋ ∧ (⌊o.v⌋ : ℚ) + 1 ≤ B.up o.col ∧ (⌈o.v⌉ : ℚ) = ⌊o.v⌋ + 1)
    (hcut : o.v < A.lo o.col ∨ A.up o.col < o.v) : size w A < size w B := by
  obtain ⟨v1, v2, v3, v4, v5⟩ := hv
  obtain ⟨⟨a, ha⟩, b, hb⟩ := hA o.col hc
  have hn := h o.col
  refine size_lt w A B h hA hB o.col hc ?_ (by linarith)
  rcases hcut with e | e
  · rw [ha] at e
    have : ⌈o.v⌉ ≤ a := Int.ceil_le.2 e.le
    have : (⌈o.v⌉ : ℚ) ≤ a := by exact_mod_cast this
    rw [ha]
    linarith [hn.2]
  · rw [hb] at e
    have : b ≤ ⌊o.v⌋ := Int.le_floor.2 e.le
    have : (b : ℚ) ≤ ⌊o.v⌋ := by exact_mod_cast this
    rw [hb]
    linarith [hn.1]

/-- How much is left to do below a node. -/
def rank (w : World) (n : Nd) : ℕ := size w n.box * cap w + (cap w - n.fails)

theorem cap_pos (w : World) : 1 ≤ cap w := by unfold cap; omega

theorem solve_rank (w : World) (F : (ℕ → ℚ) → Prop) (f : (ℕ → ℚ) → ℚ) (H : Hyp w F f) (hn : w.ints.Nodup) (hm : BaseMoves w) (st : Sr) (nd : Nd) (hnd : NodeOk w F f nd)
    (hf : nd.fails < cap w) (st' : Sr) (h : solve w st nd = .ok st') :
    ∃ add, st'.nodes = add ++ st.nodes ∧ add.length ≤ 2 ∧ ∀ n ∈ add, n.fails < cap w ∧ rank w n < rank w nd := by
  obtain ⟨add, a1, a2, a3⟩ := solve_new w H.sorts st nd st' h
  obtain ⟨add', S⟩ := solve_step w F f H st nd hnd st' h
  have he : add' = add := by
    have := S.nodes
    rw [a1] at this
    exact (List.append_cancel_right this).symm
  subst he
  refine ⟨add', a1, a2, ?_⟩
  intro n hna
  obtain ⟨hw, hnar, hi, _⟩ := S.whole n hna
  obtain ⟨_, f1, f2, s, o, sb', hl, ht, hc⟩ := a3 n hna
  have hsz := size_le w _ _ hnar
  have hcp := cap_pos w
  rcases Bool.eq_false_or_eq_true (w.S nd.box).aband with ha | ha
  · rw [ha] at f1 f2
    simp only [failStep, if_pos] at f1 f2
    have f1' : ¬ w.maxFail ≤ ((nd.fails + 1 : ℕ) : Int) := by simpa using f1
    have hlt : n.fails < cap w := by rw [f2]; unfold cap; omega
    refine ⟨hlt, ?_⟩
    unfold rank
    have := Nat.mul_le_mul_right (cap w) hsz
    omega
  · rw [ha] at f2
    simp only [failStep] at f2
    have f2' : n.fails = 0 := by simpa using f2
    refine ⟨by omega, ?_⟩
    have hin := H.inBox nd.box hi
    have hstr := fun (o : Obj) (ho : o ∈ s.inf) => inf_strict w nd.box hnd.1 hin ha o ((hl.inf o).1 ho).1 ((hl.inf o).1 ho).2
    have hcol := fun (o : Obj) (ho : o ∈ s.inf) => (objs_mem w nd.box o ((hl.inf o).1 ho).1).1
    have hlt : size w n.box < size w nd.box := by
      rcases hc with ⟨hd, hb⟩ | ⟨b, i, hb, hch⟩
      · unfold tryAt at ht
        by_cases hni : s.inf = []
        · rw [if_pos hni] at ht
          injection ht with ht
          rw [Prod.mk.injEq] at ht
          rw [← ht.1] at hd
          simp [decision] at hd
        · rw [if_neg hni] at ht
          by_cases hnum : 0 < w.num nd.idx s.num
          · rw [if_pos hnum] at ht
            cases hp : process w.dbg (over w (newBest w st.best nd.box)) (w.sel nd.box) (records w.S nd.box (w.num nd.idx s.num).toNat s st.sb) s.inf s.feas nd.box with
            | error e => rw [hp] at ht; cases ht
            | ok r =>
              rw [hp] at ht
              simp only [Except.map, Except.ok.injEq, Prod.mk.injEq] at ht
              obtain ⟨rfl, -⟩ := ht
              have hpair : (w.num nd.idx s.num).toNat % 2 = 0 ∨ 2 * s.inf.length ≤ (w.num nd.idx s.num).toNat := by
                have := hl.num
                rcases H.paired nd.idx s.num hnum with e | e
                · left; omega
                · right; omega
              obtain ⟨r1, r2⟩ := records_are_complete w.S nd.box (w.num nd.idx s.num).toNat (by omega) s hpair hl.ind st.sb
              obtain ⟨o, ho, hcut⟩ := resolve_cuts _ _ _ _ _ _ _ r1 r2 (listed_cols w hn _ s hl) (fun o ho => ⟨(hstr o ho).1, (hstr o ho).2.1⟩) r hp hd
              have hprop : propagate r.ret nd.box r.box nd.box = r.box := has_eq _ _ (bounds_propagated _ _ _ _ _ _ nd.box r hp)
              rw [hprop] at hb
              exact cut_size w _ _ hnar hw hnd.1 o (hcol o ho) (hstr o ho) (by rw [hb]; exact hcut)
          · rw [if_neg hnum] at ht
            cases hp : w.base s nd.box with
            | error e => rw [hp] at ht; cases ht
            | ok r =>
              rw [hp] at ht
              simp only [Except.map, Except.ok.injEq, Prod.mk.injEq] at ht
              obtain ⟨rfl, -⟩ := ht
              exact absurd hd (hm s nd.box r hp)
      · obtain ⟨_, _, c3⟩ := children_mem _ _ _ _ _ n hch
        have hbi := (tryAt_facts w F f H _ nd.idx st.sb s nd.box hnd.1 hi hl o sb' ht).2.2.2 b hb
        refine cut_size w _ _ hnar hw hnd.1 b.1 (hcol _ hbi) (hstr _ hbi) ?_
        rcases c3 with e | e
        · right; rw [e]; simpa using (hstr _ hbi).1
        · left; rw [e]; simpa using (hstr _ hbi).2.1
    unfold rank
    have := Nat.mul_le_mul_right (cap w) (Nat.succ_le_of_lt hlt)
    rw [Nat.succ_mul] at this
    omega

/-- The weight of the open nodes. -/
def weight (w : World) (st : Sr) : ℕ := (st.nodes.map fun n => 3 ^ rank w n).sum

theorem sum_le_two (r : ℕ) : ∀ l : List ℕ, l.length ≤ 2 → (∀ a ∈ l, a < r) → (l.map fun a => 3 ^ a).sum < 3 ^ r
  | [], _, _ => by simp
  | [a], _, h => by
    have := h a (by simp)
    simpa using Nat.pow_lt_pow_right (by norm_num : 1 < 3) this
  | [a, b], _, h => by
    have ha := h a (by simp)
    have hb := h b (by simp)
    obtain ⟨k, rfl⟩ : ∃ k, r = k + 1 := ⟨r - 1, by omega⟩
    have h1 : 3 ^ a ≤ 3 ^ k := Nat.pow_le_pow_right (by norm_num) (by omega)
    have h2 : 3 ^ b ≤ 3 ^ k := Nat.pow_le_pow_right (by norm_num) (by omega)
    have h3 : 0 < 3 ^ k := Nat.pos_of_ne_zero (by simp)
    simp only [List.map_cons, List.map_nil, List.sum_cons, List.sum_nil]
    rw [Nat.pow_succ]
    omega
  | _ :: _ :: _ :: _, h, _ => by simp at h

theorem sum_erase (g : Nd → ℕ) : ∀ (l : List Nd) (k : ℕ) (a : Nd), l[k]? = some a → (l.map g).sum = g a + ((l.eraseIdx k).map g).sum
  | [], k, a, h => by simp at h
  | b :: l, 0, a, h => by
    simp only [List.getElem?_cons_zero, Option.some.injEq] at h
    subst h
    simp
  | b :: l, k + 1, a, h => by
    simp only [List.getElem?_cons_succ] at h
    have := sum_erase g l k a h
    simp only [List.map_cons, List.sum_cons, List.eraseIdx_cons_succ]
    omega

theorem visit_weight (w : World) (F : (ℕ → ℚ) → Prop) (f : (ℕ → ℚ) → ℚ) (H : Hyp w F f) (hn : w.ints.Nodup) (hm : BaseMoves w) (R : Box) (st : Sr) (k : ℕ) (st' : Sr)
    (hI : Inv w F f R st) (hF : ∀ n ∈ st.nodes, n.fails < cap w) (hk : k < st.nodes.length) (h : visit w st k = .ok st') :
    (∀ n ∈ st'.nodes, n.fails < cap w) ∧ weight w st' < weight w st := by
  unfold visit at h
  have hk' : st.nodes[k]? = some st.nodes[k] := List.getElem?_eq_getElem hk
  rw [hk'] at h
  dsimp only at h
  have hmem := List.getElem_mem hk
  obtain ⟨add, a1, a2, a3⟩ := solve_rank w F f H hn hm _ _ (hI.nodes _ hmem).1 (hF _ hmem) st' h
  refine ⟨?_, ?_⟩
  · intro n hn'
    rw [a1] at hn'
    rcases List.mem_append.1 hn' with e | e
    · exact (a3 n e).1
    · exact hF n (List.mem_of_mem_eraseIdx e)
  · unfold weight
    rw [a1, List.map_append, List.sum_append, sum_erase _ _ k _ hk']
    dsimp only
    have := sum_le_two (rank w st.nodes[k]) (add.map (rank w)) (by simpa using a2) (by
      intro a ha
      obtain ⟨n, hn', rfl⟩ := List.mem_map.1 ha
      exact (a3 n hn').2)
    rw [List.map_map] at this
    have e : ((fun a => 3 ^ a) ∘ rank w) = fun n => 3 ^ rank w n := rfl
    rw [e] at this
    omega

/-- Every pick hits an open node. -/
def Busy (w : World) : Sr → List ℕ → Prop
  | _, [] => True
  | st, k :: ks => k < st.nodes.length ∧ ∀ st', visit w st k = .ok st' → Busy w st' ks

theorem run_bound (w : World) (F : (ℕ → ℚ) → Prop) (f : (ℕ → ℚ) → ℚ) (H : Hyp w F f) (hn : w.ints.Nodup) (hm : BaseMoves w) (R : Box) : ∀ (ks : List ℕ) (st st' : Sr),
    Inv w F f R st → (∀ n ∈ st.nodes, n.fails < cap w) → Busy w st ks → run w st ks = .ok st' → ks.length + weight w st' ≤ weight w st
  | [], st, st', _, _, _, h => by injection h with h; subst h; simp
  | k :: ks, st, st', hI, hF, hb, h => by
    rw [run] at h
    cases hv : visit w st k with
    | error e => rw [hv] at h; cases h
    | ok s =>
      rw [hv] at h
      obtain ⟨v1, v2⟩ := visit_weight w F f H hn hm R st k s hI hF hb.1 hv
      have := run_bound w F f H hn hm R ks s st' (visit_inv w F f H R st k s hI hv) v1 (hb.2 s hv) h
      rw [List.length_cons]
      omega

/-- **C305.** The search comes to an end: however nodes are picked, there are at most `3 ^ ((s + 1) * m)` solves, where `s` is the sum of the widths of the integer columns at the
root and `m` the number of failures in a row at which a node is dropped. -/
theorem search_ends (w : World) (F : (ℕ → ℚ) → Prop) (f : (ℕ → ℚ) → ℚ) (H : Hyp w F f) (hn : w.ints.Nodup) (hm : BaseMoves w) (R : Box) (hR : Whole w.ints R) (bound : ℚ)
    (hb : ∀ x, Sol F w.ints x → R.has x → bound ≤ f x) (sb : ℕ → SbRes) (ks : List ℕ) (st : Sr) (hbusy : Busy w (root R bound sb) ks)
    (h : run w (root R bound sb) ks = .ok st) :
    ks.length ≤ 3 ^ (((w.ints.map fun c => (⌊R.up c⌋ - ⌊R.lo c⌋).toNat).sum + 1) * (max 1 w.maxFail).toNat) := by
  have := run_bound w F f H hn hm R ks _ st (root_inv w F f R hR bound hb sb) (by
    intro n hn'
    simp only [root, List.mem_singleton] at hn'
    subst hn'
    exact cap_pos w) hbusy h
  have hw : weight w (root R bound sb) = 3 ^ (((w.ints.map fun c => (⌊R.up c⌋ - ⌊R.lo c⌋).toNat).sum + 1) * (max 1 w.maxFail).toNat) := by
    simp only [weight, root, List.map_cons, List.map_nil, List.sum_cons, List.sum_nil, rank, size, cap, Nat.add_mul, Nat.one_mul, Nat.sub_zero, Nat.add_zero]
  omega

/-- **C305.** … and a run taking open nodes until there is none exists. -/
theorem end_reached (w : World) (F : (ℕ → ℚ) → Prop) (f : (ℕ → ℚ) → ℚ) (H : Hyp w F f) (Q : Quiet w) (hm : BaseMoves w) (R : Box) (hR : Whole w.ints R) (bound : ℚ)
    (hb : ∀ x, Sol F w.ints x → R.has x → bound ≤ f x) (sb : ℕ → SbRes) :
    ∃ ks st, run w (root R bound sb) ks = .ok st ∧ st.nodes = [] ∧ Busy w (root R bound sb) ks := by
  have key : ∀ (m : ℕ) (s : Sr), weight w s ≤ m → Inv w F f R s → (∀ n ∈ s.nodes, n.fails < cap w) → ∃ ks st, run w s ks = .ok st ∧ st.nodes = [] ∧ Busy w s ks := by
    intro m
    induction m with
    | zero =>
      intro s hw _ _
      refine ⟨[], s, rfl, ?_, trivial⟩
      cases hs : s.nodes with
      | nil => rfl
      | cons a l =>
        exfalso
        unfold weight at hw
        rw [hs, List.map_cons, List.sum_cons] at hw
        have : 0 < 3 ^ rank w a := Nat.pos_of_ne_zero (by simp)
        omega
    | succ m ih =>
      intro s hw hI hF
      cases hs : s.nodes with
      | nil => exact ⟨[], s, rfl, hs, trivial⟩
      | cons a l =>
        have hk : 0 < s.nodes.length := by rw [hs]; simp
        have hv : ∃ s', visit w s 0 = .ok s' := by
          unfold visit
          cases s.nodes[0]? with
          | none => exact ⟨_, rfl⟩
          | some nd => exact solve_ok w F f H Q _ nd
        obtain ⟨s', hv⟩ := hv
        obtain ⟨v1, v2⟩ := visit_weight w F f H Q.once hm R s 0 s' hI hF hk hv
        obtain ⟨ks, st, h1, h2, h3⟩ := ih s' (by omega) (visit_inv w F f H R s 0 s' hI hv) v1
        refine ⟨0 :: ks, st, by rw [run, hv]; exact h1, h2, hk, ?_⟩
        intro t ht
        rw [hv] at ht
        injection ht with ht
        subst ht
        exact h3
  exact key _ _ le_rfl (root_inv w F f R hR bound hb sb) (by
    intro n hn'
    simp only [root, List.mem_singleton] at hn'
    subst hn'
    exact cap_pos w)

/-! ## Examples and what goes wrong -/

/-- Minimise column 0, which is to be whole and at least `a`; if `ab` is set, every solve is abandoned and reports 10. -/
def exW (a tol : ℚ) (ab late : Bool) (maxFail : Int) (n : Int) : World where
  S T := if T.up 0 < a ∨ T.up 0 < T.lo 0 then ⟨false, false, true, 0, 1, 0⟩ else ⟨ab, !ab, false, if ab then 10 else max a (T.lo 0), 1, 0⟩
  pt T j := if j = 0 then max a (T.lo 0) else T.lo j
  ints := [0]
  tol := tol
  prim := 1 / 10 ^ 7
  gran := 0
  maxFail := maxFail
  late := late
  dbg := true
  C := ⟨true, byUse Obj.useI, byUse Obj.useF⟩
  prio _ := 1
  useI _ _ := 0
  useF _ _ := 0
  sel _ := exP
  num _ _ := n
  base s B := .ok ⟨0, B, s.inf.head?.map fun o => (o, true)⟩

/-- Where to look. -/
def exF (a : ℚ) (x : ℕ → ℚ) : Prop := a ≤ x 0

/-- The root. -/
def exR : Box := ⟨fun _ => 0, fun _ => 3⟩

/-- What is seen of a state: open nodes, the best value with column 0 of its point, nodes dropped. -/
def seen (r : Except Err Sr) : Except Err (ℕ × Option (ℚ × ℚ) × ℕ) := r.map fun st => (st.nodes.length, st.best.map fun u => (u.1, u.2 0), st.lost.length)

theorem exHonest (a tol : ℚ) (ab late : Bool) (m n : Int) : Honest (exF a) (fun x => x 0) (exW a tol ab late m n).S := by
  intro T
  simp only [exW]
  by_cases h : T.up 0 < a ∨ T.up 0 < T.lo 0
  · rw [if_pos h]
    refine ⟨fun _ x hx hT => ?_, by simp⟩
    have := hT 0
    unfold exF at hx
    rcases h with h | h <;> linarith [this.1, this.2]
  · rw [if_neg h]
    refine ⟨by simp, fun ho x hx hT => ?_⟩
    have hab : ab = false := by simpa using ho
    subst hab
    simpa using ⟨hx, (hT 0).1⟩

theorem exHyp (a tol : ℚ) (ab : Bool) (m n : Int) (hn : n % 2 = 0) : Hyp (exW a tol ab false m n) (exF a) (fun x => x 0) := by
  refine ⟨exHonest a tol ab false m n, ?_, ?_, ⟨true, true, ?_, ?_⟩, fun _ _ _ => Or.inl hn, ?_, by norm_num [exW]⟩
  · intro T hi hc x hx hT
    simp only [exW] at hi hc ⊢
    by_cases h : T.up 0 < a ∨ T.up 0 < T.lo 0
    · rw [if_pos h] at hi; cases hi
    · rw [if_neg h] at hc ⊢
      have hab : ab = false := by simpa using hc
      subst hab
      simpa using ⟨hx, (hT 0).1⟩
  · intro s B o ho
    simp only [exW, Except.ok.injEq] at ho
    subst ho
    have hp : propagate 0 B B B = B := by simp [propagate]
    dsimp only
    rw [hp]
    refine ⟨fun x _ hx => ⟨by decide, hx⟩, fun h => h, fun c => ⟨le_rfl, le_rfl⟩, fun b hb => ?_⟩
    cases hs : s.inf with
    | nil => rw [hs] at hb; cases hb
    | cons o os =>
      rw [hs] at hb
      simp only [List.head?_cons, Option.map_some, Option.some.injEq] at hb
      subst hb
      exact List.mem_cons_self
  · exact byUse_ok Obj.useI
  · exact byUse_ok Obj.useF
  · intro T hi c hc
    simp only [exW, List.mem_singleton] at hi hc ⊢
    subst hc
    by_cases h : T.up 0 < a ∨ T.up 0 < T.lo 0
    · rw [if_pos h] at hi; cases hi
    · push Not at h
      simp [h.1, h.2]

theorem exWhole (a tol : ℚ) (ab late : Bool) (m n : Int) : Whole (exW a tol ab late m n).ints exR := fun _ _ => ⟨⟨0, by simp [exR]⟩, 3, by simp [exR]⟩

theorem exQuiet (a tol : ℚ) (ht : 1 / 10 ^ 7 ≤ tol) (ab late : Bool) (m n : Int) : Quiet (exW a tol ab late m n) ∧ BaseMoves (exW a tol ab late m n) := by
  refine ⟨⟨by simp [exW], by simp [exW], ⟨by norm_num [exW], by simpa [exW] using ht⟩, by simp [exW], ?_⟩, ?_⟩
  · intro s B hne
    obtain ⟨o, os, e⟩ := List.exists_cons_of_ne_nil hne
    exact ⟨_, .branch, rfl, by simp [exW, e, decision]⟩
  · intro s B o ho
    simp only [exW, Except.ok.injEq] at ho
    subst ho
    cases s.inf <;> simp [decision]

theorem exPoint (a tol : ℚ) (m n : Int) : PointOk (exW a tol false false m n) (exF a) (fun x => x 0) := by
  intro T hi _
  simp only [exW] at hi ⊢
  by_cases h : T.up 0 < a ∨ T.up 0 < T.lo 0
  · rw [if_pos h] at hi; cases hi
  · rw [if_neg h]
    simp [exF]

theorem exNoAband (a tol : ℚ) (m n : Int) (T : Box) : ((exW a tol false false m n).S T).aband = false := by
  simp only [exW]
  split_ifs <;> rfl

/-- The hypotheses of the theorems above are met, with strong branching and without; the searches end with the optimum. -/
example : Hyp (exW (1 / 2) (1 / 10 ^ 6) false false 5 2) (exF (1 / 2)) (fun x => x 0) ∧
    seen (run (exW (1 / 2) (1 / 10 ^ 6) false false 5 2) (root exR 0 (fun _ => noRec)) [0, 0]) = .ok (0, some (1, 1), 0) :=
  ⟨exHyp _ _ _ _ _ (by decide), by decide +kernel⟩

example : Hyp (exW (1 / 2) (1 / 10 ^ 6) false false 5 0) (exF (1 / 2)) (fun x => x 0) ∧
    seen (run (exW (1 / 2) (1 / 10 ^ 6) false false 5 0) (root exR 0 (fun _ => noRec)) [0, 1, 0]) = .ok (0, some (1, 1), 0) :=
  ⟨exHyp _ _ _ _ _ (by decide), by decide +kernel⟩

/-- In this search nothing better than 1 is overlooked. -/
example (ks : List ℕ) (st : Sr) (h : run (exW (1 / 2) (1 / 10 ^ 6) false false 5 2) (root exR 0 (fun _ => noRec)) ks = .ok st) (hend : st.nodes = []) (v : ℚ) (x : ℕ → ℚ)
    (hb : st.best = some (v, x)) : v ≤ 1 := by
  have := (search_optimal_partial _ _ _ (exHyp (1 / 2) (1 / 10 ^ 6) false 5 2 (by decide)) (exPoint _ _ _ _) exR (exWhole _ _ _ _ _ _) 0
    (fun x _ hx => (hx 0).1) (fun T _ => exNoAband _ _ _ _ T) _ ks st h hend).2 v x hb
  have := this.2.2.2 (fun _ => 1) ⟨by norm_num [exF], fun c _ => ⟨1, by simp⟩⟩ (fun j => by norm_num [exR])
  simpa [exW] using this

example (ks : List ℕ) (st : Sr) (hb : Busy (exW (1 / 2) (1 / 10 ^ 6) false false 5 2) (root exR 0 (fun _ => noRec)) ks)
    (h : run (exW (1 / 2) (1 / 10 ^ 6) false false 5 2) (root exR 0 (fun _ => noRec)) ks = .ok st) : ks.length ≤ 3 ^ 20 := by
  have := search_ends _ _ _ (exHyp (1 / 2) (1 / 10 ^ 6) false 5 2 (by decide)) (exQuiet _ _ (by norm_num) _ _ _ _).1.once (exQuiet _ _ (by norm_num) _ _ _ _).2 exR
    (exWhole _ _ _ _ _ _) 0 (fun x _ hx => (hx 0).1) _ ks st hb h
  simpa [exW, exR] using this

/-- **C302 (refuted).** After `BM_NumNlpFailureMax` failures in a row the node is dropped as if it were infeasible: here the search ends without a solution though there is one. -/
theorem dropped_optimum : Hyp (exW 1 (1 / 10 ^ 6) true false 2 2) (exF 1) (fun x => x 0) ∧ Sol (exF 1) (exW 1 (1 / 10 ^ 6) true false 2 2).ints (fun _ => 1) ∧
    exR.has (fun _ => 1) ∧ seen (run (exW 1 (1 / 10 ^ 6) true false 2 2) (root exR 0 (fun _ => noRec)) [0, 0]) = .ok (0, none, 1) :=
  ⟨exHyp _ _ _ _ _ (by decide), ⟨by norm_num [exF], fun c _ => ⟨1, by simp⟩⟩, fun j => by norm_num [exR], by decide +kernel⟩

/-- **C302 (refuted).** If the framework asks for the value of an abandoned solve, it is taken as the value of a solution: here the search ends with 10 though the optimum is 1 (`test_feasibility`
and `compute_lower_bound` do not look at how the solve ended). -/
theorem abandoned_accepted : Honest (exF 1) (fun x => x 0) (exW 1 (1 / 10 ^ 6) true true 2 2).S ∧
    seen (run (exW 1 (1 / 10 ^ 6) true true 2 2) (root exR 0 (fun _ => noRec)) [0]) = .ok (0, some (10, 1), 0) :=
  ⟨exHonest _ _ _ _ _ _, by decide +kernel⟩

/-- **C304 (refuted).** With an integer tolerance below the primal tolerance a point can be too far from whole to be a solution and too near to be branched on; the run ends
with an error. -/
theorem tolerance_gap_fatal : Hyp (exW (1 + 1 / 10 ^ 8) (1 / 10 ^ 9) false false 5 2) (exF (1 + 1 / 10 ^ 8)) (fun x => x 0) ∧
    seen (run (exW (1 + 1 / 10 ^ 8) (1 / 10 ^ 9) false false 5 2) (root exR 0 (fun _ => noRec)) [0]) = .error .fatal :=
  ⟨exHyp _ _ _ _ _ (by decide), by decide +kernel⟩

theorem follow_idx (st : Sr) (nd : Nd) (fails : ℕ) (bound : ℚ) (o : Out) (st' : Sr) (h : follow st nd fails bound o = .ok st') :
    (st'.nodes = st.nodes ∧ st'.next = st.next) ∨ (∃ n, st'.nodes = n :: st.nodes ∧ n.idx = nd.idx ∧ st'.next = st.next) ∨
    ∃ a b, st'.nodes = a :: b :: st.nodes ∧ a.idx = st.next ∧ b.idx = st.next + 1 ∧ st'.next = st.next + 2 := by
  unfold follow at h
  split at h
  · cases h
  · cases h; exact Or.inl ⟨rfl, rfl⟩
  · cases h; exact Or.inr (Or.inl ⟨_, rfl, rfl, rfl⟩)
  · split at h
    · cases h
    · cases h; exact Or.inr (Or.inr ⟨_, _, rfl, rfl, rfl, rfl⟩)

theorem solve_idx (w : World) (st : Sr) (nd : Nd) (st' : Sr) (h : solve w st nd = .ok st') :
    (st'.nodes = st.nodes ∧ st'.next = st.next) ∨ (∃ n, st'.nodes = n :: st.nodes ∧ n.idx = nd.idx ∧ st'.next = st.next) ∨
    ∃ a b, st'.nodes = a :: b :: st.nodes ∧ a.idx = st.next ∧ b.idx = st.next + 1 ∧ st'.next = st.next + 2 := by
  unfold solve at h
  split at h
  · cases h; exact Or.inl ⟨rfl, rfl⟩
  · split at h
    · cases h; exact Or.inl ⟨rfl, rfl⟩
    · unfold branchAt at h
      split at h
      · cases h; exact Or.inl ⟨rfl, rfl⟩
      · split at h
        · cases h
        · split at h
          · cases h
          · have := follow_idx _ _ _ _ _ _ h
            exact this

/-- **C305.**  Whatever the solvers answer: the open nodes of a run have different numbers, all given out before; a node solved again keeps its number. -/
theorem numbers_unique (w : World) (R : Box) (bound : ℚ) (sb : ℕ → SbRes) : ∀ (ks : List ℕ) (st : Sr), run w (root R bound sb) ks = .ok st →
    (st.nodes.map Nd.idx).Nodup ∧ ∀ n ∈ st.nodes, n.idx < st.next := by
  have key : ∀ (ks : List ℕ) (st st' : Sr), (st.nodes.map Nd.idx).Nodup → (∀ n ∈ st.nodes, n.idx < st.next) → run w st ks = .ok st' →
      (st'.nodes.map Nd.idx).Nodup ∧ ∀ n ∈ st'.nodes, n.idx < st'.next := by
    intro ks
    induction ks with
    | nil => intro st st' h1 h2 h; cases h; exact ⟨h1, h2⟩
    | cons k ks ih =>
      intro st st' h1 h2 h
      unfold run at h
      split at h
      · cases h
      · rename_i q hq
        refine ih q st' ?_ ?_ h
        all_goals
          unfold visit at hq
          split at hq
          · cases hq; assumption
          · rename_i nd hnd
            have e1 : ((st.nodes.eraseIdx k).map Nd.idx).Nodup := h1.sublist ((List.eraseIdx_sublist _ _).map _)
            have e2 : ∀ n ∈ st.nodes.eraseIdx k, n.idx < st.next := fun n hn => h2 n (List.mem_of_mem_eraseIdx hn)
            have e3 : nd.idx < st.next := h2 nd (List.mem_of_getElem? hnd)
            have e4 : nd.idx ∉ (st.nodes.eraseIdx k).map Nd.idx := by
              obtain ⟨hk, hke⟩ := List.getElem?_eq_some_iff.mp hnd
              have hp := (List.getElem_cons_eraseIdx_perm hk).map Nd.idx
              have := hp.nodup_iff.mpr h1
              rw [List.map_cons, List.nodup_cons, hke] at this
              exact this.1
            have e5 : ∀ j, st.next ≤ j → j ∉ (st.nodes.eraseIdx k).map Nd.idx := by
              intro j hj hm
              obtain ⟨n, hn, rfl⟩ := List.mem_map.mp hm
              exact absurd (e2 n hn) (by omega)
            rcases solve_idx w _ nd q hq with ⟨f1, f2⟩ | ⟨n, f1, f2, f3⟩ | ⟨a, b, f1, f2, f3, f4⟩
            · rw [f1]
              first
              | exact e1
              | (intro n hn; rw [f2]; exact e2 n hn)
            · rw [f1]
              first
              | (rw [List.map_cons, List.nodup_cons, f2]; exact ⟨e4, e1⟩)
              | (intro m hm
                 rw [f3]
                 rcases List.mem_cons.mp hm with rfl | hm
                 · rw [f2]; exact e3
                 · exact e2 m hm)
            · rw [f1]
              first
              | (rw [List.map_cons, List.map_cons, List.nodup_cons, List.nodup_cons, f2, f3]
                 refine ⟨?_, e5 _ (by dsimp only; omega), e1⟩
                 intro hm
                 rcases List.mem_cons.mp hm with hm | hm
                 · dsimp only at hm; omega
                 · exact e5 _ le_rfl hm)
              | (intro m hm
                 rw [f4]
                 dsimp only
                 rcases List.mem_cons.mp hm with rfl | hm
                 · rw [f2]; dsimp only; omega
                 · rcases List.mem_cons.mp hm with rfl | hm
                   · rw [f3]; dsimp only; omega
                   · have := e2 m hm; omega)
  intro ks st h
  exact key ks _ st (by simp [root]) (by simp [root]) h

/-- After the root was branched, its children are open under the numbers 1 and 2. -/
example : (run (exW (1 / 2) (1 / 10 ^ 6) false false 5 0) (root exR 0 (fun _ => noRec)) [0]).map (fun st => st.nodes.map Nd.idx) = .ok [1, 2] := by decide +kernel

/-- **C304 (refuted).** Without integer columns a node whose solve was given up, if the failures do not stop it and it is not over the upper bound, is branched on all the same: `sort_objects` reads the priority of the first
object, and there is none. -/
theorem no_integers_undef (w : World) (st : Sr) (k : ℕ) (nd : Nd) (hn : st.nodes[k]? = some nd) (hi : w.ints = []) (hinf : (w.S nd.box).inf = false) (ha : (w.S nd.box).aband = true)
    (hl : w.late = false) (hf : ((nd.fails + 1 : ℕ) : Int) < w.maxFail) (ho : ∀ u, st.best = some u → nd.bound < u.1 - w.gran) : visit w st k = .error .undef := by
  have hb : newBest w st.best nd.box = st.best := by
    unfold newBest
    rw [if_neg (by simp [ha, hl])]
  have hv : newBound w nd = nd.bound := by
    unfold newBound
    rw [if_neg (by simp [ha, hl])]
  have hov : over w st.best nd.bound = false := by
    unfold over
    cases hu : st.best with
    | none => rfl
    | some u => exact decide_eq_false (not_le.mpr (ho u hu))
  have hfs : (failStep w.maxFail nd.fails true).2 = false := by
    simp only [failStep, if_true]
    exact decide_eq_false (not_le.mpr hf)
  have hs : sortObjects w.C (objs w nd.box) = none := by simp [objs, hi, sortObjects]
  unfold visit
  rw [hn]
  simp only [solve, hinf, hb, hv, hov, branchAt, ha, hfs, hs, Bool.false_eq_true, if_false]

example : visit { exW (3 / 2) (1 / 10 ^ 6) true false 5 2 with ints := [] } (root exR 0 (fun _ => noRec)) 0 = .error .undef :=
  no_integers_undef _ _ 0 ⟨0, exR, 0, 0⟩ rfl rfl (by norm_num [exW, exR]) (by norm_num [exW, exR]) rfl (by norm_num [exW]) (by intro u h; cases h)

end Verif.Bcp.Search

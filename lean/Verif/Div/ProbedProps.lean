import Verif.Div.DiverProps

/-!
# C22: the probed dive tree `CbcProbedDiver`
-/
namespace Verif.Div

theorem heapBest_pack (pick : Pick) (c : ℚ) (n : Nat) (l : List Node) (h : l.length ≤ n) :
    (∀ a, (heapBest pick c n l).2.1.count a + (heapBest pick c n l).1.toList.count a
      + (heapBest pick c n l).2.2.count a = l.count a) ∧
    (∀ y ∈ (heapBest pick c n l).2.2, c ≤ y.obj) ∧
    (∀ y, (heapBest pick c n l).1 = some y → y.obj < c) ∧
    ((heapBest pick c n l).1 = none → (heapBest pick c n l).2.1 = []) := by
  obtain ⟨-, h2, h3, h4⟩ := heapBest_spec pick c n l h
  refine ⟨fun a => ?_, h2, h3, h4⟩
  have := heapBest_count pick c n l h a
  omega

/-- What `bestNode` of the probed tree guarantees whenever it returns: nothing is lost, only nodes that reached the cutoff are
deleted, the returned node is below the cutoff; when NULL is returned all that can remain is a waiting candidate that
reached the cutoff. -/
theorem Probed.best_spec {s s' : Probed} {c : ℚ} {pick : Pick} {r : Option Node} {del : List Node}
    (h : s.best c pick = some (s', r, del)) :
    (∀ a, s'.inside.count a + r.toList.count a + del.count a = s.inside.count a) ∧
    (∀ x ∈ del, c ≤ x.obj) ∧ (∀ x, r = some x → x.obj < c) ∧
    (r = none → s'.nodes = [] ∧ s'.next = none ∧ s'.cand = s.cand ∧ ∀ x ∈ s.next, c ≤ x.obj) := by
  obtain ⟨nodes, next, cand, stop⟩ := s
  cases next with
  | some x =>
    by_cases hx : x.obj < c
    · by_cases hg : (stop && decide (x.guess ≥ c)) = true
      · cases cand with
        | none =>
          simp only [Probed.best] at h
          rw [if_pos hx, if_pos hg] at h
          exact absurd h (by simp)
        | some y =>
          simp only [Probed.best] at h
          rw [if_pos hx, if_pos hg] at h
          simp only [Option.some.injEq, Prod.mk.injEq] at h
          obtain ⟨rfl, rfl, rfl⟩ := h
          obtain ⟨h1, h2, h3, h4⟩ := heapBest_pack pick c (nodes.length + 2) (y :: x :: nodes) (by simp)
          refine ⟨fun a => ?_, h2, h3, fun hn => ?_⟩
          · have := h1 a
            simp only [List.count_cons] at this
            simp only [Probed.inside, Option.toList_none, Option.toList_some, List.count_append, List.count_nil,
              List.count_cons]
            omega
          · exfalso
            have h1x := h1 x
            rw [hn, h4 hn] at h1x
            simp only [Option.toList_none, List.count_nil, List.count_cons_self, List.count_cons] at h1x
            have : x ∈ (heapBest pick c (nodes.length + 2) (y :: x :: nodes)).2.2 :=
              List.count_pos_iff.mp (by simp at h1x; omega)
            exact absurd hx (not_lt.mpr (h2 x this))
      · simp only [Probed.best] at h
        rw [if_pos hx, if_neg hg] at h
        simp only [Option.some.injEq, Prod.mk.injEq] at h
        obtain ⟨rfl, rfl, rfl⟩ := h
        refine ⟨fun a => ?_, by simp, ?_, by simp⟩
        · simp only [Probed.inside, Option.toList_none, Option.toList_some, List.count_append, List.count_nil]
          omega
        · intro y hy; cases hy; exact hx
    · simp only [Probed.best] at h
      rw [if_neg hx] at h
      simp only [Option.some.injEq, Prod.mk.injEq] at h
      obtain ⟨rfl, rfl, rfl⟩ := h
      obtain ⟨h1, h2, h3, h4⟩ := heapBest_pack pick c (nodes.length + 1) (x :: nodes) (by simp)
      refine ⟨fun a => ?_, h2, h3, fun hn => ⟨h4 hn, rfl, rfl, ?_⟩⟩
      · have := h1 a
        simp only [List.count_cons] at this
        simp only [Probed.inside, Option.toList_none, Option.toList_some, List.count_append, List.count_nil,
          List.count_cons]
        omega
      · intro y hy
        simp only [Option.mem_def, Option.some.injEq] at hy
        subst hy
        exact not_lt.mp hx
  | none =>
    have base : ∀ cd, (some (⟨(heapBest pick c nodes.length nodes).2.1, none, cd, stop⟩,
        (heapBest pick c nodes.length nodes).1, (heapBest pick c nodes.length nodes).2.2) = some (s', r, del)) →
        cd = cand →
        (∀ a, s'.inside.count a + r.toList.count a + del.count a = (Probed.inside ⟨nodes, none, cand, stop⟩).count a) ∧
        (∀ x ∈ del, c ≤ x.obj) ∧ (∀ x, r = some x → x.obj < c) ∧
        (r = none → s'.nodes = [] ∧ s'.next = none ∧ s'.cand = cand ∧ ∀ x ∈ (none : Option Node), c ≤ x.obj) := by
      intro cd h0 hcd
      simp only [Option.some.injEq, Prod.mk.injEq] at h0
      obtain ⟨rfl, rfl, rfl⟩ := h0
      subst hcd
      obtain ⟨h1, h2, h3, h4⟩ := heapBest_pack pick c nodes.length nodes le_rfl
      refine ⟨fun a => ?_, h2, h3, fun hn => ⟨h4 hn, rfl, rfl, by simp⟩⟩
      have := h1 a
      simp only [Probed.inside, List.count_append]
      omega
    cases cand with
    | none => exact base none (by simpa only [Probed.best] using h) rfl
    | some y =>
      by_cases hy : y.obj < c
      · by_cases hg : (stop && decide (y.guess ≥ c)) = true
        · simp only [Probed.best] at h
          rw [if_pos hy, if_pos hg] at h
          simp only [Option.some.injEq, Prod.mk.injEq] at h
          obtain ⟨rfl, rfl, rfl⟩ := h
          obtain ⟨h1, h2, h3, h4⟩ := heapBest_pack pick c (nodes.length + 1) (y :: nodes) (by simp)
          refine ⟨fun a => ?_, h2, h3, fun hn => ?_⟩
          · have := h1 a
            simp only [List.count_cons] at this
            simp only [Probed.inside, Option.toList_none, Option.toList_some, List.count_append, List.count_nil,
              List.count_cons]
            omega
          · exfalso
            have h1x := h1 y
            rw [hn, h4 hn] at h1x
            simp only [Option.toList_none, List.count_nil, List.count_cons_self] at h1x
            have : y ∈ (heapBest pick c (nodes.length + 1) (y :: nodes)).2.2 :=
              List.count_pos_iff.mp (by omega)
            exact absurd hy (not_lt.mpr (h2 y this))
        · simp only [Probed.best] at h
          rw [if_pos hy, if_neg hg] at h
          simp only [Option.some.injEq, Prod.mk.injEq] at h
          obtain ⟨rfl, rfl, rfl⟩ := h
          refine ⟨fun a => ?_, by simp, ?_, by simp⟩
          · simp only [Probed.inside, Option.toList_none, Option.toList_some, List.count_append, List.count_nil]
            omega
          · intro z hz; cases hz; exact hy
      · simp only [Probed.best] at h
        rw [if_neg hy] at h
        exact base (some y) h rfl

theorem Probed.pop_spec {s s' : Probed} {pick : Pick} {x : Node} (h : s.pop pick = some (s', x)) :
    ∀ a, s'.inside.count a + [x].count a = s.inside.count a := by
  obtain ⟨nodes, next, cand, stop⟩ := s
  intro a
  cases next with
  | some y =>
    simp only [Probed.pop, Option.some.injEq, Prod.mk.injEq] at h
    obtain ⟨rfl, rfl⟩ := h
    simp only [Probed.inside, Option.toList_none, Option.toList_some, List.count_append, List.count_nil]
    omega
  | none =>
    cases cand with
    | some y =>
      simp only [Probed.pop, Option.some.injEq, Prod.mk.injEq] at h
      obtain ⟨rfl, rfl⟩ := h
      simp only [Probed.inside, Option.toList_none, Option.toList_some, List.count_append, List.count_nil]
      omega
    | none =>
      simp only [Probed.pop] at h
      cases ht : heapTake pick nodes with
      | none => rw [ht] at h; exact absurd h (by simp)
      | some p =>
        obtain ⟨y, l⟩ := p
        rw [ht] at h
        simp only [Option.some.injEq, Prod.mk.injEq] at h
        obtain ⟨rfl, rfl⟩ := h
        have := (heapTake_perm ht).count_eq a
        simp only [List.count_cons] at this
        simp only [Probed.inside, Option.toList_none, List.count_append, List.count_nil, List.count_cons]
        omega

/-- Both slots of the probed tree are taken. -/
def Probed.full (s : Probed) : Prop := s.next ≠ none ∧ s.cand ≠ none

/-- The step law: a step loses nothing, except a push while both slots are taken. -/
theorem Probed.step_conserves (s : Probed) (o : Op) (s' : Probed) (l : Log)
    (hfull : ∀ x cmp, o = .push x cmp → ¬ s.full)
    (h : s.step true o = some (s', l)) :
    (∀ a, s'.inside.count a + l.handed.count a + l.deleted.count a
        = s.inside.count a + (o.pushed).count a) ∧
      ∀ x ∈ l.deleted, ∃ c ∈ o.cutoffs, c ≤ x.obj := by
  cases o with
  | push x cmp =>
    have hnf := hfull x cmp rfl
    obtain ⟨nodes, next, cand, stop⟩ := s
    simp only [Probed.step] at h
    cases hp : Probed.push true ⟨nodes, next, cand, stop⟩ x cmp with
    | none => rw [hp] at h; exact absurd h (by simp)
    | some t =>
      rw [hp] at h
      simp only [Option.map_some, Option.some.injEq, Prod.mk.injEq] at h
      obtain ⟨rfl, rfl⟩ := h
      refine ⟨fun a => ?_, by simp⟩
      simp only [Probed.push] at hp
      by_cases hf : x.fresh = true
      · rw [if_pos hf] at hp
        cases next with
        | none =>
          cases cand with
          | none =>
            simp only [Option.some.injEq] at hp
            subst hp
            simp only [Probed.inside, Op.pushed, Option.toList_none, Option.toList_some, List.count_append, List.count_nil]
            omega
          | some y =>
            dsimp only at hp
            by_cases hc : cmp x y = true
            · rw [if_pos hc] at hp
              simp only [Option.some.injEq] at hp
              subst hp
              simp only [Probed.inside, Op.pushed, Option.toList_none, Option.toList_some, List.count_append,
                List.count_nil, List.count_cons]
              omega
            · rw [if_neg hc] at hp
              simp only [Option.some.injEq] at hp
              subst hp
              simp only [Probed.inside, Op.pushed, Option.toList_none, Option.toList_some, List.count_append,
                List.count_nil, List.count_cons]
              omega
        | some z =>
          cases cand with
          | none =>
            simp only [Option.some.injEq] at hp
            subst hp
            simp only [Probed.inside, Op.pushed, Option.toList_none, Option.toList_some, List.count_append, List.count_nil]
            omega
          | some y => exact absurd ⟨by simp, by simp⟩ hnf
      · rw [if_neg hf] at hp
        cases next with
        | none =>
          simp only [Option.some.injEq] at hp
          subst hp
          simp only [Probed.inside, Op.pushed, Option.toList_none, Option.toList_some, List.count_append, List.count_nil]
          omega
        | some z =>
          cases cand with
          | none =>
            simp only [Option.isSome_none, Bool.and_false, Bool.false_eq_true, if_false, Option.some.injEq] at hp
            subst hp
            simp only [Probed.inside, Op.pushed, Option.toList_none, Option.toList_some, List.count_append, List.count_nil]
            omega
          | some y => exact absurd ⟨by simp, by simp⟩ hnf
  | best c pick =>
    simp only [Probed.step] at h
    cases hp : s.best c pick with
    | none => rw [hp] at h; exact absurd h (by simp)
    | some p =>
      obtain ⟨t, r, del⟩ := p
      rw [hp] at h
      simp only [Option.map_some, Option.some.injEq, Prod.mk.injEq] at h
      obtain ⟨rfl, rfl⟩ := h
      obtain ⟨h1, h2, -, -⟩ := Probed.best_spec hp
      exact ⟨fun a => by have := h1 a; simp only [Op.pushed, List.count_nil]; omega,
        fun x hx => ⟨c, by simp [Op.cutoffs], h2 x hx⟩⟩
  | pop pick =>
    simp only [Probed.step] at h
    cases hp : s.pop pick with
    | none => rw [hp] at h; exact absurd h (by simp)
    | some p =>
      obtain ⟨t, x⟩ := p
      rw [hp] at h
      simp only [Option.map_some, Option.some.injEq, Prod.mk.injEq] at h
      obtain ⟨rfl, rfl⟩ := h
      refine ⟨fun a => ?_, by simp⟩
      have := Probed.pop_spec hp a
      simp only [Op.pushed, List.count_nil]
      omega
  | clean c =>
    obtain ⟨nodes, next, cand, stop⟩ := s
    simp only [Probed.step, Probed.clean, Option.some.injEq, Prod.mk.injEq] at h
    obtain ⟨rfl, rfl⟩ := h
    constructor
    · intro a
      cases next with
      | none =>
        cases cand with
        | none =>
          have := filter_count nodes c a
          simp only [Probed.inside, Op.pushed, Option.toList_none, List.nil_append, List.count_nil]
          omega
        | some y =>
          have := filter_count (y :: nodes) c a
          rw [List.count_cons (l := nodes)] at this
          simp only [Probed.inside, Op.pushed, Option.toList_none, Option.toList_some, List.nil_append,
            List.count_nil, List.cons_append, List.count_append, List.count_cons]
          omega
      | some x =>
        cases cand with
        | none =>
          have := filter_count (x :: nodes) c a
          rw [List.count_cons (l := nodes)] at this
          simp only [Probed.inside, Op.pushed, Option.toList_none, Option.toList_some, List.nil_append,
            List.count_nil, List.cons_append, List.count_append, List.count_cons]
          omega
        | some y =>
          have := filter_count (y :: x :: nodes) c a
          rw [List.count_cons (l := x :: nodes), List.count_cons (l := nodes)] at this
          simp only [Probed.inside, Op.pushed, Option.toList_none, Option.toList_some, List.nil_append,
            List.count_nil, List.cons_append, List.count_append, List.count_cons]
          omega
    · intro x hx
      refine ⟨c, by simp [Op.cutoffs], ?_⟩
      have := (List.mem_filter.mp hx).2
      simpa using this

/-! ## C22 -/

/-- A history never pushes while both slots of the tree are taken. -/
def NeverFull (dbg : Bool) : Probed → List Op → Prop
  | _, [] => True
  | s, o :: os => (∀ x cmp, o = .push x cmp → ¬ s.full) ∧ ∀ s' l, s.step dbg o = some (s', l) → NeverFull dbg s' os

/-- C22 (partial): every history that never pushes while both slots are taken, and does not run into undefined behaviour,
conserves the open nodes.  Missing: pushes while both slots are taken lose a node (`probed_full_loses`). -/
theorem probed_conserves_partial : ∀ (ops : List Op) (s s' : Probed) (log : Log), NeverFull true s ops →
    run (Probed.step true) s ops = some (s', log) → Conserved s.inside ops s'.inside log := by
  suffices H : ∀ (ops : List Op) (s s' : Probed) (log : Log), NeverFull true s ops →
      run (Probed.step true) s ops = some (s', log) →
      (∀ a, s'.inside.count a + log.handed.count a + log.deleted.count a
        = s.inside.count a + (ops.flatMap Op.pushed).count a) ∧
      ∀ x ∈ log.deleted, ∃ c ∈ ops.flatMap Op.cutoffs, c ≤ x.obj from
    fun ops s s' log hn h => conserved_of_count (H ops s s' log hn h)
  intro ops
  induction ops with
  | nil =>
    intro s s' log _ h
    simp only [run, Option.some.injEq, Prod.mk.injEq] at h
    obtain ⟨rfl, rfl⟩ := h
    simp
  | cons o os ih =>
    intro s s' log hn h
    simp only [run] at h
    cases hs : s.step true o with
    | none => rw [hs] at h; exact absurd h (by simp)
    | some p =>
      obtain ⟨s1, l1⟩ := p
      rw [hs] at h
      dsimp only at h
      cases hr : run (Probed.step true) s1 os with
      | none => rw [hr] at h; exact absurd h (by simp)
      | some q =>
        obtain ⟨s2, l2⟩ := q
        rw [hr] at h
        simp only [Option.some.injEq, Prod.mk.injEq] at h
        obtain ⟨rfl, rfl⟩ := h
        obtain ⟨a1, a2⟩ := Probed.step_conserves s o s1 l1 hn.1 hs
        obtain ⟨b1, b2⟩ := ih _ _ _ (hn.2 _ _ hs) hr
        constructor
        · intro a
          have := a1 a
          have := b1 a
          simp only [List.count_append, List.flatMap_cons]
          omega
        · intro x hx
          rcases List.mem_append.mp hx with hx | hx
          · obtain ⟨c, hc, hle⟩ := a2 x hx
            exact ⟨c, by simp [hc], hle⟩
          · obtain ⟨c, hc, hle⟩ := b2 x hx
            exact ⟨c, by rw [List.flatMap_cons]; exact List.mem_append_right _ hc, hle⟩

/-- The calls Cbc makes for one node of a depth-first step: take a node, push the children of the branch just explored and put
the parent back when it has branches left. -/
structure Visit where
  c : ℚ
  pick : Pick
  cmp : Node → Node → Bool
  child : Option Node
  parent : Option Node

def Visit.ops (v : Visit) : List Op :=
  .best v.c v.pick :: ((v.child.toList.map (fun x => .push x v.cmp)) ++ v.parent.toList.map (fun x => .push x v.cmp))

/-- C22: the probed tree is never full after `bestNode`, whatever happened before. -/
theorem probed_not_full_after_best {s s' : Probed} {c : ℚ} {pick : Pick} {r : Option Node} {del : List Node}
    (h : s.best c pick = some (s', r, del)) : s'.next = none := by
  obtain ⟨nodes, next, cand, stop⟩ := s
  simp only [Probed.best] at h
  split at h
  · split at h
    · split at h
      · split at h
        · exact absurd h (by simp)
        · simp only [Option.some.injEq, Prod.mk.injEq] at h
          obtain ⟨rfl, -, -⟩ := h; rfl
      · simp only [Option.some.injEq, Prod.mk.injEq] at h
        obtain ⟨rfl, -, -⟩ := h; rfl
    · simp only [Option.some.injEq, Prod.mk.injEq] at h
      obtain ⟨rfl, -, -⟩ := h; rfl
  · split at h
    · split at h
      · split at h <;>
        · simp only [Option.some.injEq, Prod.mk.injEq] at h
          obtain ⟨rfl, -, -⟩ := h; rfl
      · simp only [Option.some.injEq, Prod.mk.injEq] at h
        obtain ⟨rfl, -, -⟩ := h; rfl
    · simp only [Option.some.injEq, Prod.mk.injEq] at h
      obtain ⟨rfl, -, -⟩ := h; rfl

theorem Probed.push_cases {s s' : Probed} {x : Node} {cmp : Node → Node → Bool} (hs : s.next = none)
    (hf : x.fresh = true) (h : s.push true x cmp = some s') : s'.cand = none := by
  obtain ⟨nodes, next, cand, stop⟩ := s
  subst hs
  simp only [Probed.push] at h
  rw [if_pos hf] at h
  cases cand with
  | none => simp only [Option.some.injEq] at h; subst h; rfl
  | some y =>
    dsimp only at h
    split at h <;> (simp only [Option.some.injEq] at h; subst h; rfl)

/-- C22: the histories of Cbc's search loop never push on a full tree: after each `bestNode`, at most one unexplored child is
pushed, followed by the parent. -/
theorem probed_visits_never_full (vs : List Visit) (s : Probed)
    (hfresh : ∀ v ∈ vs, ∀ x ∈ v.child, x.left = x.total) :
    NeverFull true s (vs.flatMap Visit.ops) := by
  induction vs generalizing s with
  | nil => simp [NeverFull]
  | cons v vs ih =>
    have ih' := fun t => ih t (fun w hw => hfresh w (List.mem_cons_of_mem _ hw))
    have hv := hfresh v (by simp)
    obtain ⟨c, pick, cmp, child, parent⟩ := v
    simp only [List.flatMap_cons, Visit.ops, List.cons_append, NeverFull]
    refine ⟨by simp, fun s1 l1 h1 => ?_⟩
    have hn1 : s1.next = none := by
      simp only [Probed.step] at h1
      cases hb : s.best c pick with
      | none => rw [hb] at h1; exact absurd h1 (by simp)
      | some p =>
        obtain ⟨t, r, d⟩ := p
        rw [hb] at h1
        simp only [Option.map_some, Option.some.injEq, Prod.mk.injEq] at h1
        obtain ⟨rfl, -⟩ := h1
        exact probed_not_full_after_best hb
    have tail : ∀ t : Probed, ¬ t.full →
        NeverFull true t (parent.toList.map (fun x => Op.push x cmp) ++ vs.flatMap Visit.ops) := by
      intro t ht
      cases parent with
      | none => simpa using ih' t
      | some y =>
        simp only [Option.toList_some, List.map_cons, List.map_nil, List.cons_append, List.nil_append, NeverFull]
        exact ⟨fun _ _ _ => ht, fun t' _ _ => ih' t'⟩
    cases child with
    | none =>
      simp only [Option.toList_none, List.map_nil, List.nil_append]
      exact tail s1 (fun hf => hf.1 hn1)
    | some x =>
      simp only [Option.toList_some, List.map_cons, List.map_nil, List.cons_append, List.nil_append, NeverFull]
      refine ⟨fun _ _ _ hf => hf.1 hn1, fun s2 l2 h2 => tail s2 ?_⟩
      simp only [Probed.step] at h2
      cases hb : s1.push true x cmp with
      | none => rw [hb] at h2; exact absurd h2 (by simp)
      | some t =>
        rw [hb] at h2
        simp only [Option.map_some, Option.some.injEq, Prod.mk.injEq] at h2
        obtain ⟨rfl, -⟩ := h2
        have := Probed.push_cases hn1 (by simp [Node.fresh, hv x rfl]) hb
        exact fun hf => hf.2 this

/-- C22: when the search loop of Cbc runs on the probed tree, nothing is lost. -/
theorem probed_search_conserves (vs : List Visit) (s s' : Probed) (log : Log)
    (hfresh : ∀ v ∈ vs, ∀ x ∈ v.child, x.left = x.total)
    (h : run (Probed.step true) s (vs.flatMap Visit.ops) = some (s', log)) :
    Conserved s.inside (vs.flatMap Visit.ops) s'.inside log :=
  probed_conserves_partial _ _ _ _ (probed_visits_never_full vs s hfresh) h

/-- C22: `size()` and `empty()` agree with the content. -/
theorem probed_size_empty (s : Probed) :
    s.size = s.inside.length ∧ (s.empty = true ↔ s.inside = []) := by
  obtain ⟨nodes, next, cand, stop⟩ := s
  cases next <;> cases cand <;> simp [Probed.size, Probed.empty, Probed.inside]

/-- C22: `bestNode` is undefined (a null pointer is pushed) exactly when the dive is stopped without a waiting child. -/
theorem probed_best_undefined_iff (s : Probed) (c : ℚ) (pick : Pick) :
    s.best c pick = none ↔
      s.stop = true ∧ s.cand = none ∧ ∃ x, s.next = some x ∧ x.obj < c ∧ c ≤ x.guess := by
  obtain ⟨nodes, next, cand, stop⟩ := s
  cases next with
  | none =>
    simp only [Probed.best]
    cases cand with
    | none => simp
    | some y =>
      dsimp only
      split
      · split <;> simp
      · simp
  | some x =>
    simp only [Probed.best]
    by_cases hx : x.obj < c
    · by_cases hg : (stop && decide (x.guess ≥ c)) = true
      · rw [if_pos hx, if_pos hg]
        simp only [Bool.and_eq_true, decide_eq_true_eq] at hg
        cases cand <;> simp [hg.1, hx, hg.2]
      · rw [if_pos hx, if_neg hg]
        simp only [Bool.and_eq_true, decide_eq_true_eq, not_and] at hg
        simp only [reduceCtorEq, false_iff]
        rintro ⟨h1, -, z, hz, -, h3⟩
        simp only [Option.some.injEq] at hz
        subst hz
        exact hg h1 h3
    · rw [if_neg hx]
      simp [hx]

/-- C22: with two unexplored children in hand, the dive continues with the one the comparison prefers, and the other one
goes to the heap. -/
theorem probed_follows_better (s : Probed) (x y : Node) (cmp : Node → Node → Bool) (hc : s.cand = some y)
    (hf : x.left = x.total) :
    ∃ s', s.push true x cmp = some s' ∧ s'.cand = none ∧
      (cmp x y = true → s'.next = some y ∧ s'.nodes = x :: s.nodes) ∧
      (cmp x y = false → s'.next = some x ∧ s'.nodes = y :: s.nodes) := by
  obtain ⟨nodes, next, cand, stop⟩ := s
  subst hc
  have hf' : x.fresh = true := by simp [Node.fresh, hf]
  cases h : cmp x y <;> cases next <;> simp [Probed.push, hf', h]

/-- C22, refutation: pushing an unexplored node while both slots are taken loses the node waiting in `nextOnBranch_` (with or
without asserts). -/
theorem probed_full_loses :
    ∃ (s s' : Probed) (x y : Node), x ∈ s.inside ∧ s.push true y (fun _ _ => false) = some s' ∧ x ∉ s'.inside :=
  ⟨⟨[], some ⟨0, 1, 1, 0, 1, 2⟩, some ⟨1, 2, 2, 1, 2, 2⟩, false⟩,
   ⟨[⟨1, 2, 2, 1, 2, 2⟩], some ⟨2, 3, 3, 1, 2, 2⟩, none, false⟩, ⟨0, 1, 1, 0, 1, 2⟩, ⟨2, 3, 3, 1, 2, 2⟩,
   by decide +kernel, by decide +kernel, by decide +kernel⟩

/-- C22, refutation: stopping the dive on a node without a waiting brother is undefined behaviour.  The history is the first two
calls of a search with `stop_diving_on_cutoff` set. -/
theorem probed_stop_crashes :
    ∃ (x : Node), run (Probed.step true) ({ stop := true } : Probed)
      [.push x (fun _ _ => false), .best 10 (fun _ => 0)] = none :=
  ⟨⟨0, 1, 20, 0, 2, 2⟩, by decide +kernel⟩

/-- C22, refutation: a waiting candidate that reached the cutoff is never handed out nor deleted by `bestNode`: the tree stays
non-empty and returns NULL forever. -/
theorem probed_stuck (y : Node) (c : ℚ) (hy : c ≤ y.obj) (stop : Bool) (n : Nat) :
    run (Probed.step true) (⟨[], none, some y, stop⟩ : Probed) (List.replicate n (.best c (fun _ => 0)))
      = some (⟨[], none, some y, stop⟩, {}) ∧
    (⟨[], none, some y, stop⟩ : Probed).empty = false := by
  constructor
  · induction n with
    | zero => simp [run]
    | succ n ih =>
      have hstep : Probed.step true (⟨[], none, some y, stop⟩ : Probed) (.best c (fun _ => 0))
          = some (⟨[], none, some y, stop⟩, {}) := by
        simp only [Probed.step, Probed.best]
        rw [if_neg (not_lt.mpr hy)]
        simp [heapBest]
      simp only [List.replicate_succ, run]
      rw [hstep]
      dsimp only
      rw [ih]
      simp
  · simp [Probed.empty]

/-- A concrete search: root, two children; the better child is followed and the other is kept. -/
example :
    let root : Node := ⟨0, 1, 1, 0, 2, 2⟩
    let root' : Node := ⟨1, 1, 1, 0, 1, 2⟩
    let a : Node := ⟨2, 5, 5, 1, 2, 2⟩
    let b : Node := ⟨3, 3, 3, 1, 2, 2⟩
    let cmp : Node → Node → Bool := fun x y => decide (y.obj < x.obj)
    run (Probed.step true) ({} : Probed)
      ([.push root cmp] ++ [(⟨10, fun _ => 0, cmp, some a, some root'⟩ : Visit),
        ⟨10, fun _ => 0, cmp, some b, none⟩].flatMap Visit.ops)
    = some (⟨[a], some b, none, false⟩, ⟨[root, root'], []⟩) := by decide +kernel

/-- **C22.**  `pop` removes the node shown by `top`, also in the probed dive. -/
theorem probed_top_pop (s : Probed) (pick : Pick) : s.top pick = (s.pop pick).map (·.2) ∧
    ((∀ x, s.next = some x → s.top pick = some x) ∧ (∀ y, s.next = none → s.cand = some y → s.top pick = some y)) := by
  obtain ⟨nodes, next, cand, stop⟩ := s
  cases next with
  | some x => simp [Probed.top, Probed.pop]
  | none =>
    cases cand with
    | some y => simp [Probed.top, Probed.pop]
    | none =>
      simp only [Probed.top, Probed.pop]
      cases heapTake pick nodes <;> simp

example : ({ nodes := [], next := none, cand := some ⟨7, 1, 1, 0, 2, 2⟩ } : Probed).top (fun _ => 0) = some ⟨7, 1, 1, 0, 2, 2⟩ := rfl

end Verif.Div

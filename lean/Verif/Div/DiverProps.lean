import Verif.Div.Lemmas

/-!
# C21: the depth-first dive tree `CbcDiver`
-/
namespace Verif.Div

theorem conserved_of_count {before after : List Node} {ops : List Op} {log : Log}
    (h : (∀ a, after.count a + log.handed.count a + log.deleted.count a
        = before.count a + (ops.flatMap Op.pushed).count a) ∧
      ∀ x ∈ log.deleted, ∃ c ∈ ops.flatMap Op.cutoffs, c ≤ x.obj) :
    Conserved before ops after log := by
  refine ⟨List.perm_iff_count.mpr ?_, h.2⟩
  intro a
  have := h.1 a
  simp only [List.count_append]
  omega

theorem Diver.best_spec (s : Diver) (c : ℚ) (pick : Pick) :
    (∀ a, (s.best c pick).1.inside.count a + (s.best c pick).2.1.toList.count a
        + (s.best c pick).2.2.count a = s.inside.count a) ∧
    (∀ x ∈ (s.best c pick).2.2, c ≤ x.obj) ∧
    (∀ x, (s.best c pick).2.1 = some x → x.obj < c) ∧
    ((s.best c pick).2.1 = none → (s.best c pick).1.inside = []) := by
  obtain ⟨nodes, next, stop⟩ := s
  have key : ∀ x, let r := heapBest pick c (nodes.length + 1) (x :: nodes)
      (∀ a, r.2.1.count a + r.1.toList.count a + r.2.2.count a = (x :: nodes).count a) ∧
      (∀ y ∈ r.2.2, c ≤ y.obj) ∧ (∀ y, r.1 = some y → y.obj < c) ∧ (r.1 = none → r.2.1 = []) := by
    intro x
    obtain ⟨-, h2, h3, h4⟩ := heapBest_spec pick c (nodes.length + 1) (x :: nodes) (by simp)
    refine ⟨fun a => ?_, h2, h3, h4⟩
    have := heapBest_count pick c (nodes.length + 1) (x :: nodes) (by simp) a
    omega
  cases next with
  | none =>
    obtain ⟨-, h2, h3, h4⟩ := heapBest_spec pick c nodes.length nodes le_rfl
    refine ⟨fun a => ?_, h2, h3, fun h => ?_⟩
    · have := heapBest_count pick c nodes.length nodes le_rfl a
      simp only [Diver.best, Diver.inside, Option.toList_none, List.nil_append]
      omega
    · simpa [Diver.best, Diver.inside] using h4 h
  | some x =>
    by_cases hx : x.obj < c
    · by_cases hg : (stop && decide (x.guess ≥ c)) = true
      · have e : Diver.best ⟨nodes, some x, stop⟩ c pick
            = (⟨(heapBest pick c (nodes.length + 1) (x :: nodes)).2.1, none, stop⟩,
               (heapBest pick c (nodes.length + 1) (x :: nodes)).1,
               (heapBest pick c (nodes.length + 1) (x :: nodes)).2.2) := by
          simp only [Diver.best]; rw [if_pos hx, if_pos hg]
        rw [e]
        simpa [Diver.inside] using key x
      · have e : Diver.best ⟨nodes, some x, stop⟩ c pick = (⟨nodes, none, stop⟩, some x, []) := by
          simp only [Diver.best]; rw [if_pos hx, if_neg hg]
        rw [e]
        refine ⟨fun a => ?_, by simp, ?_, by simp⟩
        · simp [Diver.inside, List.count_cons]
        · intro y hy; cases hy; exact hx
    · have e : Diver.best ⟨nodes, some x, stop⟩ c pick
            = (⟨(heapBest pick c (nodes.length + 1) (x :: nodes)).2.1, none, stop⟩,
               (heapBest pick c (nodes.length + 1) (x :: nodes)).1,
               (heapBest pick c (nodes.length + 1) (x :: nodes)).2.2) := by
        simp only [Diver.best]; rw [if_neg hx]
      rw [e]
      simpa [Diver.inside] using key x

theorem Diver.pop_spec {s s' : Diver} {pick : Pick} {x : Node} (h : s.pop pick = some (s', x)) :
    (x :: s'.inside).Perm s.inside := by
  obtain ⟨nodes, next, stop⟩ := s
  cases next with
  | some y =>
    simp only [Diver.pop, Option.some.injEq, Prod.mk.injEq] at h
    obtain ⟨rfl, rfl⟩ := h
    simp [Diver.inside]
  | none =>
    simp only [Diver.pop] at h
    cases ht : heapTake pick nodes with
    | none => rw [ht] at h; exact absurd h (by simp)
    | some p =>
      obtain ⟨y, l⟩ := p
      rw [ht] at h
      simp only [Option.some.injEq, Prod.mk.injEq] at h
      obtain ⟨rfl, rfl⟩ := h
      simpa [Diver.inside] using heapTake_perm ht

/-- The step law of the depth-first dive tree (asserts on). -/
theorem Diver.step_conserves (s : Diver) (o : Op) (s' : Diver) (l : Log)
    (h : s.step true o = some (s', l)) :
    (∀ a, s'.inside.count a + l.handed.count a + l.deleted.count a
        = s.inside.count a + (o.pushed).count a) ∧
      ∀ x ∈ l.deleted, ∃ c ∈ o.cutoffs, c ≤ x.obj := by
  cases o with
  | push x cmp =>
    obtain ⟨nodes, next, stop⟩ := s
    simp only [Diver.step, Diver.push] at h
    by_cases hf : x.fresh = true
    · rw [if_pos hf] at h
      cases next with
      | some y => simp at h
      | none =>
        simp only [Option.isSome_none, Bool.and_false, Bool.false_eq_true, if_false, Option.map_some,
          Option.some.injEq, Prod.mk.injEq] at h
        obtain ⟨rfl, rfl⟩ := h
        refine ⟨fun a => ?_, by simp⟩
        simp only [Diver.inside, Op.pushed, Option.toList_some, Option.toList_none, List.count_append,
          List.count_nil]
        omega
    · rw [if_neg hf] at h
      simp only [Option.map_some, Option.some.injEq, Prod.mk.injEq] at h
      obtain ⟨rfl, rfl⟩ := h
      refine ⟨fun a => ?_, by simp⟩
      simp only [Diver.inside, Op.pushed, List.count_append, List.count_nil, List.count_cons]
      omega
  | best c pick =>
    simp only [Diver.step, Option.some.injEq, Prod.mk.injEq] at h
    obtain ⟨rfl, rfl⟩ := h
    obtain ⟨h1, h2, -, -⟩ := s.best_spec c pick
    exact ⟨fun a => by have := h1 a; simp only [Op.pushed, List.count_nil]; omega,
      fun x hx => ⟨c, by simp [Op.cutoffs], h2 x hx⟩⟩
  | pop pick =>
    simp only [Diver.step] at h
    cases hp : s.pop pick with
    | none => rw [hp] at h; exact absurd h (by simp)
    | some p =>
      obtain ⟨t, x⟩ := p
      rw [hp] at h
      simp only [Option.map_some, Option.some.injEq, Prod.mk.injEq] at h
      obtain ⟨rfl, rfl⟩ := h
      refine ⟨fun a => ?_, by simp⟩
      have := (Diver.pop_spec hp).count_eq a
      simp only [List.count_cons] at this
      simp only [Op.pushed, List.count_nil, List.count_cons]
      omega
  | clean c =>
    obtain ⟨nodes, next, stop⟩ := s
    simp only [Diver.step, Diver.clean, Option.some.injEq, Prod.mk.injEq] at h
    obtain ⟨rfl, rfl⟩ := h
    constructor
    · intro a
      cases next with
      | none =>
        have := filter_count nodes c a
        simp only [Diver.inside, Op.pushed, Option.toList_none, List.nil_append, List.count_nil]
        omega
      | some x =>
        have := filter_count (x :: nodes) c a
        simp only [Diver.inside, Op.pushed, Option.toList_none, Option.toList_some, List.nil_append,
          List.count_nil, List.cons_append]
        omega
    · intro x hx
      refine ⟨c, by simp [Op.cutoffs], ?_⟩
      have := (List.mem_filter.mp hx).2
      simpa using this

/-! ## C21 -/

/-- C21: for every history that does not run into an assert, the depth-first dive tree conserves the open nodes. -/
theorem diver_conserves (ops : List Op) (s s' : Diver) (log : Log)
    (h : run (Diver.step true) s ops = some (s', log)) : Conserved s.inside ops s'.inside log :=
  conserved_of_count (run_conserves Diver.inside (Diver.step true) Diver.step_conserves ops s s' log h)

/-- C21: the histories that are stopped by an assert (or an invalid `pop`) are exactly those that push a second unexplored
node while one is waiting, or pop from an empty tree. -/
theorem diver_stops_iff (s : Diver) (o : Op) :
    s.step true o = none ↔
      (∃ x cmp, o = .push x cmp ∧ x.left = x.total ∧ s.next ≠ none) ∨
      (∃ pick, o = .pop pick ∧ s.inside = []) := by
  obtain ⟨nodes, next, stop⟩ := s
  cases o with
  | push x cmp =>
    simp only [Diver.step, Diver.push, Node.fresh, beq_iff_eq]
    by_cases hf : x.left = x.total
    · cases next <;> simp [hf]
    · simp [hf]
  | best c pick => simp [Diver.step]
  | pop pick =>
    cases next with
    | some y => simp [Diver.step, Diver.pop, Diver.inside]
    | none =>
      simp only [Diver.step, Diver.pop, Diver.inside, Option.map_eq_none_iff]
      cases ht : heapTake pick nodes with
      | none => simp [heapTake_none.mp ht]
      | some p =>
        have : nodes ≠ [] := fun hn => by
          rw [heapTake_none.mpr hn] at ht; exact absurd ht (by simp)
        simp [this]
  | clean c => simp [Diver.step]

/-- C21: `size()` and `empty()` agree with the content. -/
theorem diver_size_empty (s : Diver) :
    s.size = s.inside.length ∧ (s.empty = true ↔ s.inside = []) := by
  obtain ⟨nodes, next, stop⟩ := s
  cases next <;> simp [Diver.size, Diver.empty, Diver.inside]

/-- C21: `bestNode(cutoff)` returns a node below the cutoff; it returns none exactly when no node is below the cutoff, and then
the tree is empty afterwards. -/
theorem diver_best (s : Diver) (c : ℚ) (pick : Pick) :
    (∀ x, (s.best c pick).2.1 = some x → x ∈ s.inside ∧ x.obj < c) ∧
    ((s.best c pick).2.1 = none ↔ ∀ x ∈ s.inside, c ≤ x.obj) ∧
    ((s.best c pick).2.1 = none → (s.best c pick).1.inside = []) := by
  obtain ⟨h1, h2, h3, h4⟩ := s.best_spec c pick
  have hperm : ((s.best c pick).1.inside ++ (s.best c pick).2.1.toList ++ (s.best c pick).2.2).Perm s.inside :=
    List.perm_iff_count.mpr (fun a => by simp only [List.count_append]; exact h1 a)
  refine ⟨fun x hx => ⟨hperm.mem_iff.mp (by simp [hx]), h3 x hx⟩, ⟨fun hn x hx => ?_, fun hall => ?_⟩, h4⟩
  · have := hperm.mem_iff.mpr hx
    rw [h4 hn, hn] at this
    exact h2 x (by simpa using this)
  · cases hb : (s.best c pick).2.1 with
    | none => rfl
    | some y =>
      have hm : y ∈ s.inside := hperm.mem_iff.mp (by simp [hb])
      exact absurd (h3 y hb) (not_lt.mpr (hall y hm))

/-- C21: while diving, the child just created is the next node explored, unless diving is stopped because its guessed value
reaches the cutoff. -/
theorem diver_dives (s : Diver) (x : Node) (c : ℚ) (pick : Pick) (hn : s.next = some x) (hx : x.obj < c)
    (hg : s.stop = true → x.guess < c) : (s.best c pick).2.1 = some x := by
  obtain ⟨nodes, next, stop⟩ := s
  subst hn
  simp only [Diver.best]
  rw [if_pos hx, if_neg]
  rintro h
  rw [Bool.and_eq_true] at h
  have := hg h.1
  simp at h
  exact absurd h.2 (not_le.mpr this)

/-- C21: `pop` removes the node shown by `top`. -/
theorem diver_top_pop (s : Diver) (pick : Pick) : s.top pick = (s.pop pick).map (·.2) := by
  obtain ⟨nodes, next, stop⟩ := s
  cases next with
  | some x => simp [Diver.top, Diver.pop]
  | none =>
    simp only [Diver.top, Diver.pop]
    cases heapTake pick nodes <;> simp

/-- Call `bestNode(c)` `n` times; the nodes handed out. -/
def Diver.drain (c : ℚ) (pick : Pick) : Nat → Diver → List Node
  | 0, _ => []
  | n + 1, s => (s.best c pick).2.1.toList ++ Diver.drain c pick n (s.best c pick).1

/-- C21: a search that keeps asking for nodes is handed every open node below the cutoff, exactly once. -/
theorem diver_drain (c : ℚ) (pick : Pick) : ∀ (n : Nat) (s : Diver), s.inside.length ≤ n →
    (s.drain c pick n).Perm (s.inside.filter (fun x => decide (x.obj < c)))
  | 0, s, h => by
    have : s.inside = [] := by simpa using h
    simp [Diver.drain, this]
  | n + 1, s, h => by
    obtain ⟨h1, h2, h3, h4⟩ := s.best_spec c pick
    have hperm : ((s.best c pick).2.1.toList ++ (s.best c pick).1.inside ++ (s.best c pick).2.2).Perm s.inside :=
      List.perm_iff_count.mpr (fun a => by
        have := h1 a
        simp only [List.count_append]; omega)
    have hf := hperm.filter (fun x => decide (x.obj < c))
    have hd : (s.best c pick).2.2.filter (fun x => decide (x.obj < c)) = [] :=
      List.filter_eq_nil_iff.mpr (fun x hx => by simpa using h2 x hx)
    rw [List.filter_append, List.filter_append, hd, List.append_nil] at hf
    have hfr : (s.best c pick).2.1.toList.filter (fun x => decide (x.obj < c)) = (s.best c pick).2.1.toList := by
      cases hb : (s.best c pick).2.1 with
      | none => rfl
      | some y => simp [h3 y hb]
    rw [hfr] at hf
    refine List.Perm.trans (List.Perm.append_left _ ?_) hf
    apply diver_drain
    cases hb : (s.best c pick).2.1 with
    | none => rw [h4 hb]; simp
    | some y =>
      have := hperm.length_eq
      rw [hb] at this
      simp at this; omega

/-- C21, refutation: with asserts compiled out, pushing a second unexplored node while one is waiting loses the first one:
it is neither in the tree, nor handed out, nor deleted. -/
theorem diver_ndebug_loses :
    ∃ (x y : Node) (s' : Diver) (log : Log), x ≠ y ∧
      run (Diver.step false) {} [.push x (fun _ _ => false), .push y (fun _ _ => false)] = some (s', log) ∧
      x ∉ s'.inside ∧ x ∉ log.handed ∧ x ∉ log.deleted :=
  ⟨⟨0, 1, 1, 0, 2, 2⟩, ⟨1, 2, 2, 0, 2, 2⟩, ⟨[], some ⟨1, 2, 2, 0, 2, 2⟩, false⟩, {}, by decide +kernel,
    by decide +kernel, by decide +kernel, by decide +kernel, by decide +kernel⟩

/-- C21, refutation: `endSearch` drops the waiting node; the best possible objective computed afterwards is then above the
bound of an open node. -/
theorem diver_endSearch_drops :
    ∃ (s : Diver) (x : Node), x ∈ s.inside ∧ x ∉ s.endSearch.inside ∧ x.obj < s.endSearch.bestPossible 100 :=
  ⟨⟨[⟨1, 2, 2, 0, 1, 2⟩], some ⟨0, 1, 1, 0, 2, 2⟩, false⟩, ⟨0, 1, 1, 0, 2, 2⟩, by decide +kernel,
    by decide +kernel, by decide +kernel⟩

/-- A concrete history: push the root, take it, push a child (dive) and the parent again, take the child, prune. -/
example :
    let root : Node := ⟨0, 1, 1, 0, 2, 2⟩
    let root' : Node := ⟨1, 1, 1, 0, 1, 2⟩
    let child : Node := ⟨2, 3, 3, 1, 2, 2⟩
    run (Diver.step true) {}
      [.push root (fun _ _ => false), .best 10 (fun _ => 0), .push child (fun _ _ => false),
       .push root' (fun _ _ => false), .clean 2, .best 10 (fun _ => 0)]
    = some (⟨[], none, false⟩, ⟨[root, root'], [child]⟩) := by decide +kernel

end Verif.Div

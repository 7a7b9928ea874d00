import Verif.Div.Lemmas

/-!
# C24: the best possible objective reported by the dive trees
-/
namespace Verif.Div

theorem fold_min : ∀ (l : List Node) (b : ℚ),
    (l.foldl (fun b x => if x.obj < b then x.obj else b) b ≤ b) ∧
    (∀ x ∈ l, l.foldl (fun b x => if x.obj < b then x.obj else b) b ≤ x.obj) ∧
    (l.foldl (fun b x => if x.obj < b then x.obj else b) b = b ∨
      ∃ x ∈ l, l.foldl (fun b x => if x.obj < b then x.obj else b) b = x.obj)
  | [], b => by simp
  | y :: l, b => by
    simp only [List.foldl_cons]
    obtain ⟨h1, h2, h3⟩ := fold_min l (if y.obj < b then y.obj else b)
    have hb : (if y.obj < b then y.obj else b) ≤ b := by split <;> linarith
    have hy : (if y.obj < b then y.obj else b) ≤ y.obj := by split <;> linarith
    refine ⟨h1.trans hb, ?_, ?_⟩
    · intro x hx
      rcases List.mem_cons.mp hx with rfl | hx
      · exact h1.trans hy
      · exact h2 x hx
    · rcases h3 with h | ⟨x, hx, h⟩
      · by_cases hlt : y.obj < b
        · rw [if_pos hlt] at h ⊢
          exact Or.inr ⟨y, by simp, h⟩
        · rw [if_neg hlt] at h ⊢
          exact Or.inl h
      · exact Or.inr ⟨x, List.mem_cons_of_mem _ hx, h⟩

/-- `v` is the smallest bound of the nodes in `l`, or `big` when every bound is at least `big` (in particular when there is no
node). -/
def IsBest (l : List Node) (big v : ℚ) : Prop :=
  (∀ x ∈ l, v ≤ x.obj) ∧ ((∃ x ∈ l, v = x.obj) ∨ (v = big ∧ ∀ x ∈ l, big ≤ x.obj))

/-- C24, `CbcDiver`: the reported bound is a lower bound of every open node and is attained, unless all open nodes are at
least 1e100. -/
theorem diver_bestPossible (s : Diver) (big : ℚ) : IsBest s.inside big (s.bestPossible big) := by
  obtain ⟨nodes, next, stop⟩ := s
  cases next with
  | none =>
    obtain ⟨h1, h2, h3⟩ := fold_min nodes big
    refine ⟨by simpa [Diver.inside, Diver.bestPossible] using h2, ?_⟩
    rcases h3 with h | h
    · right
      exact ⟨h, fun x hx => by rw [← h]; exact h2 x (by simpa [Diver.inside] using hx)⟩
    · left; simpa [Diver.inside, Diver.bestPossible] using h
  | some y =>
    obtain ⟨h1, h2, h3⟩ := fold_min nodes y.obj
    refine ⟨?_, Or.inl ?_⟩
    · intro x hx
      rcases List.mem_cons.mp (by simpa [Diver.inside] using hx : x ∈ y :: nodes) with rfl | hx
      · exact h1
      · exact h2 x hx
    · rcases h3 with h | ⟨x, hx, h⟩
      · exact ⟨y, by simp [Diver.inside], h⟩
      · exact ⟨x, by simp [Diver.inside, hx], h⟩

/-- C24, `CbcProbedDiver`. -/
theorem probed_bestPossible (s : Probed) (big : ℚ) : IsBest s.inside big (s.bestPossible big) := by
  obtain ⟨nodes, next, cand, stop⟩ := s
  cases next with
  | none =>
    cases cand with
    | none =>
      obtain ⟨h1, h2, h3⟩ := fold_min nodes big
      refine ⟨by simpa [Probed.inside, Probed.bestPossible] using h2, ?_⟩
      rcases h3 with h | h
      · right
        exact ⟨h, fun x hx => by rw [← h]; exact h2 x (by simpa [Probed.inside] using hx)⟩
      · left; simpa [Probed.inside, Probed.bestPossible] using h
    | some z =>
      obtain ⟨h1, h2, h3⟩ := fold_min (z :: nodes) big
      simp only [List.foldl_cons] at h1 h2 h3
      refine ⟨?_, ?_⟩
      · intro x hx
        exact h2 x (by simpa [Probed.inside] using hx)
      · rcases h3 with h | ⟨x, hx, h⟩
        · right
          refine ⟨h, fun x hx => ?_⟩
          have := h2 x (by simpa [Probed.inside] using hx)
          rwa [h] at this
        · exact Or.inl ⟨x, by simpa [Probed.inside] using hx, h⟩
  | some y =>
    cases cand with
    | none =>
      obtain ⟨h1, h2, h3⟩ := fold_min nodes y.obj
      refine ⟨?_, Or.inl ?_⟩
      · intro x hx
        rcases List.mem_cons.mp (by simpa [Probed.inside] using hx : x ∈ y :: nodes) with rfl | hx
        · exact h1
        · exact h2 x hx
      · rcases h3 with h | ⟨x, hx, h⟩
        · exact ⟨y, by simp [Probed.inside], h⟩
        · exact ⟨x, by simp [Probed.inside, hx], h⟩
    | some z =>
      obtain ⟨h1, h2, h3⟩ := fold_min (z :: nodes) y.obj
      simp only [List.foldl_cons] at h1 h2 h3
      refine ⟨?_, Or.inl ?_⟩
      · intro x hx
        rcases List.mem_cons.mp (by simpa [Probed.inside] using hx : x ∈ y :: z :: nodes) with rfl | hx
        · exact h1
        · exact h2 x hx
      · rcases h3 with h | ⟨x, hx, h⟩
        · exact ⟨y, by simp [Probed.inside], h⟩
        · exact ⟨x, by simpa [Probed.inside] using Or.inr hx, h⟩

/-- C24, `CbcDfsDiver`: the same, for trees whose bounds are at most 1e100 (`big`) and below the largest double (`huge`). -/
theorem dfs_bestPossible (s : Dfs) (big huge : ℚ) (hbig : ∀ x ∈ s.inside, x.obj ≤ big) (hle : big ≤ huge) :
    (∀ x ∈ s.inside, s.bestPossible big huge ≤ x.obj) ∧
    (s.inside ≠ [] → ∃ x ∈ s.inside, s.bestPossible big huge = x.obj) ∧
    (s.inside = [] → s.bestPossible big huge = huge) := by
  unfold Dfs.bestPossible
  cases hn : s.nodes with
  | nil =>
    obtain ⟨h1, h2, h3⟩ := fold_min s.dive huge
    simp only [List.isEmpty_nil, if_true]
    refine ⟨fun x hx => h2 x (by simpa [Dfs.inside, hn] using hx), fun hne => ?_, fun he => ?_⟩
    · rcases h3 with h | ⟨x, hx, h⟩
      · rw [h]
        obtain ⟨y, hy⟩ := List.exists_mem_of_ne_nil _ hne
        refine ⟨y, hy, le_antisymm ?_ ((hbig y hy).trans hle)⟩
        rw [← h]; exact h2 y (by simpa [Dfs.inside, hn] using hy)
      · exact ⟨x, by simp [Dfs.inside, hx], h⟩
    · have : s.dive = [] := by simpa [Dfs.inside, hn] using he
      rw [this]; simp
  | cons y l =>
    obtain ⟨h1, h2, h3⟩ := fold_min (y :: l) big
    simp only [List.isEmpty_cons, Bool.false_eq_true, if_false]
    obtain ⟨g1, g2, g3⟩ := fold_min s.dive ((y :: l).foldl (fun b x => if x.obj < b then x.obj else b) big)
    refine ⟨fun x hx => ?_, fun _ => ?_, fun he => ?_⟩
    · rcases List.mem_append.mp hx with hx | hx
      · exact g2 x hx
      · rw [hn] at hx; exact g1.trans (h2 x hx)
    · rcases g3 with g | ⟨x, hx, g⟩
      · rw [g]
        rcases h3 with h | ⟨x, hx, h⟩
        · rw [h]
          have hy : y ∈ s.inside := by simp [Dfs.inside, hn]
          refine ⟨y, hy, le_antisymm ?_ (hbig y hy)⟩
          rw [← h]; exact h2 y (by simp)
        · exact ⟨x, by simp only [Dfs.inside, hn]; exact List.mem_append_right _ hx, h⟩
      · exact ⟨x, by simp [Dfs.inside, hx], g⟩
    · simp [Dfs.inside, hn] at he

/-- Without the assumption on the size of the bounds the reported value is still a lower bound (dfs tree). -/
theorem dfs_bestPossible_lower (s : Dfs) (big huge : ℚ) : ∀ x ∈ s.inside, s.bestPossible big huge ≤ x.obj := by
  intro x hx
  unfold Dfs.bestPossible
  cases hn : s.nodes with
  | nil =>
    exact (fold_min s.dive _).2.1 x (by simpa [Dfs.inside, hn] using hx)
  | cons y l =>
    rcases List.mem_append.mp hx with hx | hx
    · exact (fold_min s.dive _).2.1 x hx
    · rw [hn] at hx
      refine (fold_min s.dive _).1.trans ?_
      simp only [List.isEmpty_cons, Bool.false_eq_true, if_false]
      exact (fold_min (y :: l) big).2.1 x hx

/-- Non-trivial trees: the minimum sits in the waiting node, in the candidate, in the heap. -/
example : (⟨[⟨1, 5, 5, 0, 1, 2⟩], some ⟨0, 3, 3, 0, 2, 2⟩, false⟩ : Diver).bestPossible 100 = 3 := by decide +kernel
example : (⟨[⟨1, 5, 5, 0, 1, 2⟩], some ⟨0, 3, 3, 0, 2, 2⟩, some ⟨2, 2, 2, 0, 2, 2⟩, false⟩ : Probed).bestPossible 100
    = 2 := by decide +kernel
example : ({ nodes := [⟨1, 1, 5, 0, 1, 2⟩], dive := [⟨0, 3, 3, 0, 2, 2⟩] } : Dfs).bestPossible 100 200 = 1 := by
  decide +kernel

/-- C24, refutation for unusual bounds: when every open node has a bound above 1e100 the value 1e100 is reported, which is a lower
bound but is attained by no node. -/
theorem diver_bestPossible_capped :
    ∃ s : Diver, s.inside ≠ [] ∧ ∀ x ∈ s.inside, s.bestPossible 100 < x.obj :=
  ⟨⟨[⟨1, 500, 500, 0, 1, 2⟩], none, false⟩, by decide +kernel, by decide +kernel⟩

end Verif.Div

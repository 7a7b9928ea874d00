import Verif.Div.Spec
import Mathlib.Tactic.Linarith

/-! Helper lemmas for the dive trees. -/
namespace Verif.Div

theorem heapTake_perm {pick : Pick} {l l' : List Node} {x : Node}
    (h : heapTake pick l = some (x, l')) : (x :: l').Perm l := by
  unfold heapTake at h
  split at h
  · rename_i y hy
    obtain ⟨hlt, he⟩ := List.getElem?_eq_some_iff.mp hy
    simp only [Option.some.injEq, Prod.mk.injEq] at h
    obtain ⟨rfl, rfl⟩ := h
    rw [← he]
    exact List.getElem_cons_eraseIdx_perm hlt
  · exact absurd h (by simp)

theorem heapTake_none {pick : Pick} {l : List Node} : heapTake pick l = none ↔ l = [] := by
  unfold heapTake
  constructor
  · intro h
    split at h
    · exact absurd h (by simp)
    · rename_i hn
      rw [List.getElem?_eq_none_iff] at hn
      rcases l with _ | ⟨a, l⟩
      · rfl
      · have : pick (a :: l) % (a :: l).length < (a :: l).length := Nat.mod_lt _ (by simp)
        omega
  · rintro rfl; simp

theorem heapBest_spec (pick : Pick) (c : ℚ) : ∀ (n : Nat) (l : List Node), l.length ≤ n →
    ((heapBest pick c n l).1.toList ++ (heapBest pick c n l).2.1 ++ (heapBest pick c n l).2.2).Perm l ∧
    (∀ x ∈ (heapBest pick c n l).2.2, c ≤ x.obj) ∧
    (∀ x, (heapBest pick c n l).1 = some x → x.obj < c) ∧
    ((heapBest pick c n l).1 = none → (heapBest pick c n l).2.1 = [])
  | 0, l, h => by
    have : l = [] := by simpa using h
    subst this; simp [heapBest]
  | n + 1, l, h => by
    unfold heapBest
    cases ht : heapTake pick l with
    | none =>
      rw [heapTake_none] at ht
      subst ht; simp
    | some p =>
      obtain ⟨x, l'⟩ := p
      have hp := heapTake_perm ht
      have hl : l'.length ≤ n := by
        have := hp.length_eq
        simp at this; omega
      dsimp only
      by_cases hx : x.obj < c
      · rw [if_pos hx]
        refine ⟨?_, by simp, ?_, by simp⟩
        · simpa using hp
        · intro y hy
          cases hy
          exact hx
      · rw [if_neg hx]
        obtain ⟨h1, h2, h3, h4⟩ := heapBest_spec pick c n l' hl
        refine ⟨?_, ?_, h3, h4⟩
        · refine List.Perm.trans ?_ hp
          refine List.Perm.trans ?_ (List.Perm.cons x h1)
          exact List.perm_middle
        · intro y hy
          rcases List.mem_cons.mp hy with rfl | hy
          · exact not_lt.mp hx
          · exact h2 y hy

/-- Count form of `heapBest_spec`. -/
theorem heapBest_count (pick : Pick) (c : ℚ) (n : Nat) (l : List Node) (h : l.length ≤ n) (a : Node) :
    (heapBest pick c n l).1.toList.count a + (heapBest pick c n l).2.1.count a +
      (heapBest pick c n l).2.2.count a = l.count a := by
  have := (heapBest_spec pick c n l h).1.count_eq a
  rw [List.count_append, List.count_append] at this
  exact this

theorem filter_count (l : List Node) (c : ℚ) (a : Node) :
    (l.filter (fun x => decide (x.obj < c))).count a + (l.filter (fun x => !decide (x.obj < c))).count a
      = l.count a := by
  induction l with
  | nil => simp
  | cons x l ih =>
    by_cases hx : x.obj < c
    · have hd : (decide (x.obj < c)) = true := by simpa using hx
      rw [List.filter_cons_of_pos (by simpa using hx), List.filter_cons_of_neg (by simp [hx])]
      rw [List.count_cons, List.count_cons]; omega
    · rw [List.filter_cons_of_neg (by simpa using hx), List.filter_cons_of_pos (by simp [hx])]
      rw [List.count_cons, List.count_cons]; omega

theorem run_conserves {σ : Type} (inside : σ → List Node) (step : σ → Op → Option (σ × Log))
    (hstep : ∀ s o s' l, step s o = some (s', l) →
      (∀ a, (inside s').count a + l.handed.count a + l.deleted.count a
        = (inside s).count a + (o.pushed).count a) ∧
      ∀ x ∈ l.deleted, ∃ c ∈ o.cutoffs, c ≤ x.obj) :
    ∀ (ops : List Op) (s s' : σ) (l : Log), run step s ops = some (s', l) →
      (∀ a, (inside s').count a + l.handed.count a + l.deleted.count a
        = (inside s).count a + (ops.flatMap Op.pushed).count a) ∧
      ∀ x ∈ l.deleted, ∃ c ∈ ops.flatMap Op.cutoffs, c ≤ x.obj
  | [], s, s', l, h => by
    simp only [run, Option.some.injEq, Prod.mk.injEq] at h
    obtain ⟨rfl, rfl⟩ := h
    simp
  | o :: os, s, s', l, h => by
    simp only [run] at h
    cases hs : step s o with
    | none => rw [hs] at h; exact absurd h (by simp)
    | some p =>
      obtain ⟨s1, l1⟩ := p
      rw [hs] at h
      dsimp only at h
      cases hr : run step s1 os with
      | none => rw [hr] at h; exact absurd h (by simp)
      | some q =>
        obtain ⟨s2, l2⟩ := q
        rw [hr] at h
        simp only [Option.some.injEq, Prod.mk.injEq] at h
        obtain ⟨rfl, rfl⟩ := h
        obtain ⟨a1, a2⟩ := hstep _ _ _ _ hs
        obtain ⟨b1, b2⟩ := run_conserves inside step hstep os _ _ _ hr
        constructor
        · intro a
          have := a1 a
          have := b1 a
          simp only [List.count_append, List.flatMap_cons]
          omega
        · intro x hx
          rcases List.mem_append.mp hx with hx | hx
          · obtain ⟨c, hc, hle⟩ := a2 x hx
            exact ⟨c, by simp [hc], hle⟩
          · obtain ⟨c, hc, hle⟩ := b2 x hx
            exact ⟨c, by rw [List.flatMap_cons]; exact List.mem_append_right _ hc, hle⟩

end Verif.Div

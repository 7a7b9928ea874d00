import Verif.Div.DiverProps

/-!
# C23: the dfs dive tree `CbcDfsDiver`
-/
namespace Verif.Div

theorem chk_some {α : Type} {dbg c : Bool} {k : Option α} {v : α} (h : chk dbg c k = some v) :
    k = some v ∧ (dbg = true → c = true) := by
  unfold chk at h
  cases dbg <;> cases c <;> simp_all

theorem chk_true {α : Type} {dbg : Bool} {k : Option α} : chk dbg true k = k := by
  unfold chk; simp

theorem Dfs.fromHeap_spec {s s' : Dfs} {c : ℚ} {pick : Pick} {r : Option Node} {del : List Node}
    (h : s.fromHeap c pick = some (s', r, del)) :
    (∀ a, s'.nodes.count a + r.toList.count a + del.count a = s.nodes.count a) ∧
    (∀ x ∈ del, c ≤ x.obj) ∧ (∃ x, r = some x ∧ x.obj < c ∧
      s' = { s with nodes := s'.nodes, board := x.depth, nBack := 0 }) := by
  unfold Dfs.fromHeap at h
  obtain ⟨-, h2, h3, -⟩ := heapBest_spec pick c s.nodes.length s.nodes le_rfl
  have h1 := heapBest_count pick c s.nodes.length s.nodes le_rfl
  dsimp only at h
  cases hb : (heapBest pick c s.nodes.length s.nodes).1 with
  | none => rw [hb] at h; exact absurd h (by simp)
  | some x =>
    rw [hb] at h
    simp only [Option.some.injEq, Prod.mk.injEq] at h
    obtain ⟨rfl, rfl, rfl⟩ := h
    refine ⟨fun a => ?_, h2, x, rfl, h3 x hb, rfl⟩
    have := h1 a
    rw [hb] at this
    dsimp only
    omega

theorem Dfs.fromHeap_none {s : Dfs} {c : ℚ} {pick : Pick} :
    s.fromHeap c pick = none ↔ ∀ x ∈ s.nodes, c ≤ x.obj := by
  unfold Dfs.fromHeap
  obtain ⟨h1, h2, h3, h4⟩ := heapBest_spec pick c s.nodes.length s.nodes le_rfl
  dsimp only
  cases hb : (heapBest pick c s.nodes.length s.nodes).1 with
  | none =>
    refine ⟨fun _ x hx => ?_, fun _ => rfl⟩
    have := h1.mem_iff.mpr hx
    rw [hb, h4 hb] at this
    exact h2 x (by simpa using this)
  | some x =>
    refine ⟨fun h => absurd h (by simp), fun h => ?_⟩
    have : x ∈ s.nodes := h1.mem_iff.mp (by simp [hb])
    exact absurd (h3 x hb) (not_lt.mpr (h x this))

/-- The two possible results of examining the front node. -/
theorem Dfs.examine_spec (s : Dfs) (x : Node) (c : ℚ) :
    (∀ a, (s.examine x c).1.inside.count a + (s.examine x c).2.toList.count a
      = s.inside.count a + [x].count a) ∧
    (∀ y, (s.examine x c).2 = some y → y = x ∧ x.obj ≤ c ∧ (s.examine x c).1.dive = s.dive ∧
      (s.examine x c).1.diveSize = s.diveSize ∧ (s.examine x c).1.nBack < s.maxBack) ∧
    ((s.examine x c).1.maxBack = s.maxBack ∧ (s.examine x c).1.mode = s.mode ∧
      (s.examine x c).1.maxDepth = s.maxDepth ∧ (s.examine x c).1.board = s.board ∧
      (s.examine x c).1.maxBFS = s.maxBFS) ∧
    ((s.examine x c).1.diveSize - (s.examine x c).1.dive.length = s.diveSize - s.dive.length) ∧
    ((s.examine x c).2 = none →
      (s.examine x c).1.dive = [] ∨ ((s.examine x c).1.dive = s.dive ∧ (s.examine x c).1.nBack < s.maxBack)) := by
  unfold Dfs.examine
  by_cases h1 : x.obj > c
  · rw [if_pos h1]
    dsimp only
    by_cases hb : s.nBack + 1 ≥ s.maxBack
    · rw [if_pos hb]
      refine ⟨fun a => ?_, by simp, by simp [Dfs.diveToHeap], by simp [Dfs.diveToHeap], fun _ => Or.inl rfl⟩
      simp only [Dfs.inside, Dfs.diveToHeap, List.count_append, List.count_nil, List.count_cons,
        List.count_reverse, Option.toList_none]
      omega
    · rw [if_neg hb]
      refine ⟨fun a => ?_, by simp, by simp, by simp, fun _ => Or.inr ⟨rfl, by dsimp only; omega⟩⟩
      simp only [Dfs.inside, List.count_append, List.count_nil, List.count_cons, Option.toList_none]
      omega
  · rw [if_neg h1]
    by_cases h2 : x.depth - s.board > s.maxDepth
    · rw [if_pos h2]
      dsimp only
      by_cases hb : s.nBack + 1 ≥ s.maxBack
      · rw [if_pos hb]
        refine ⟨fun a => ?_, by simp, by simp [Dfs.diveToHeap], by simp [Dfs.diveToHeap], fun _ => Or.inl rfl⟩
        simp only [Dfs.inside, Dfs.diveToHeap, List.count_append, List.count_nil, List.count_cons,
          List.count_reverse, Option.toList_none]
        omega
      · rw [if_neg hb]
        refine ⟨fun a => ?_, by simp, by simp, by simp, fun _ => Or.inr ⟨rfl, by dsimp only; omega⟩⟩
        simp only [Dfs.inside, List.count_append, List.count_nil, List.count_cons, Option.toList_none]
        omega
    · rw [if_neg h2]
      have hle : x.obj ≤ c := not_lt.mp h1
      by_cases h3 : x.left < x.total
      · rw [if_pos h3]
        dsimp only
        by_cases hb : s.nBack + 1 ≥ s.maxBack
        · rw [if_pos hb]
          refine ⟨fun a => ?_, by simp, by simp [Dfs.diveToHeap], by simp [Dfs.diveToHeap], fun _ => Or.inl rfl⟩
          simp only [Dfs.inside, Dfs.diveToHeap, List.count_append, List.count_nil, List.count_cons,
            List.count_reverse, Option.toList_none]
          omega
        · rw [if_neg hb]
          refine ⟨fun a => ?_, ?_, by simp, by simp, by simp⟩
          · simp only [Dfs.inside, List.count_append, Option.toList_some]
          · intro y hy
            simp only [Option.some.injEq] at hy
            exact ⟨hy.symm, hle, rfl, rfl, by dsimp only; omega⟩
      · rw [if_neg h3]
        dsimp only
        by_cases hb : s.nBack ≥ s.maxBack
        · rw [if_pos hb]
          refine ⟨fun a => ?_, by simp, by simp [Dfs.diveToHeap], by simp [Dfs.diveToHeap], fun _ => Or.inl rfl⟩
          simp only [Dfs.inside, Dfs.diveToHeap, List.count_append, List.count_nil, List.count_cons,
            List.count_reverse, Option.toList_none]
          omega
        · rw [if_neg hb]
          refine ⟨fun a => ?_, ?_, by simp, by simp, by simp⟩
          · simp only [Dfs.inside, List.count_append, Option.toList_some]
          · intro y hy
            simp only [Option.some.injEq] at hy
            exact ⟨hy.symm, hle, rfl, rfl, by dsimp only; omega⟩

/-- The state invariant: the recorded dive size is right, outside the two first phases the dive is empty, and the
backtrack counter is below its limit. -/
structure Dfs.Inv (s : Dfs) : Prop where
  size : s.diveSize = s.dive.length
  bound : s.mode.bound = true → s.dive = []
  back : s.nBack < s.maxBack
  pos : 0 < s.maxBack

theorem Dfs.loop_spec (dbg : Bool) (c : ℚ) (pick : Pick) : ∀ (n : Nat) (s s' : Dfs) (r : Option Node) (del : List Node),
    Dfs.loop dbg c pick n s = some (s', r, del) →
    (∀ a, s'.inside.count a + r.toList.count a + del.count a = s.inside.count a) ∧
    (∀ x ∈ del, c ≤ x.obj) ∧ (∃ x, r = some x ∧ x.obj ≤ c) ∧
    (s'.mode = s.mode ∧ s'.maxBack = s.maxBack ∧ s'.maxDepth = s.maxDepth) ∧
    (s.diveSize = s.dive.length → 0 < s.maxBack →
      s'.diveSize = s'.dive.length ∧ s'.nBack < s'.maxBack ∧ (s.dive = [] → s'.dive = []))
  | 0, s, s', r, del, h => by
    simp only [Dfs.loop] at h
    by_cases hd : s.diveSize > 0
    · rw [if_pos hd] at h; exact absurd h (by simp)
    · rw [if_neg hd] at h
      obtain ⟨h1, h2, x, rfl, h3, h4⟩ := Dfs.fromHeap_spec h
      refine ⟨fun a => ?_, h2, ⟨x, rfl, h3.le⟩, by rw [h4]; simp, fun hs hm => by rw [h4]; exact ⟨hs, hm, id⟩⟩
      have := h1 a
      rw [h4]
      simp only [Dfs.inside, List.count_append]
      omega
  | n + 1, s, s', r, del, h => by
    simp only [Dfs.loop] at h
    by_cases hd : s.diveSize > 0
    · rw [if_pos hd] at h
      cases hdv : s.dive with
      | nil => rw [hdv] at h; exact absurd h (by simp)
      | cons x d =>
        rw [hdv] at h
        dsimp only at h
        obtain ⟨h, -⟩ := chk_some h
        obtain ⟨e1, e2, e3, e4, e5⟩ := Dfs.examine_spec { s with dive := d, diveSize := s.diveSize - 1 } x c
        cases hex : ({ s with dive := d, diveSize := s.diveSize - 1 } : Dfs).examine x c with
        | mk t o =>
          rw [hex] at h e1 e2 e3 e4 e5
          dsimp only at e1 e2 e3 e4 e5
          have hin : ∀ a, ({ s with dive := d, diveSize := s.diveSize - 1 } : Dfs).inside.count a + [x].count a
              = s.inside.count a := by
            intro a
            simp only [Dfs.inside, hdv, List.count_append, List.count_cons, List.count_nil]
            omega
          cases o with
          | some y =>
            simp only [Option.some.injEq, Prod.mk.injEq] at h
            obtain ⟨rfl, rfl, rfl⟩ := h
            obtain ⟨rfl, hle, f1, f2, f3⟩ := e2 y rfl
            refine ⟨fun a => ?_, by simp, ⟨y, rfl, hle⟩, ⟨e3.2.1, e3.1, e3.2.2.1⟩, fun hs hm => ?_⟩
            · rw [← hin a, ← e1 a]
              simp
            · refine ⟨?_, by rw [e3.1]; exact f3, by simp⟩
              rw [f1, f2, hs]
              simp
          | none =>
            dsimp only at h
            obtain ⟨g1, g2, g3, g4, g5⟩ := Dfs.loop_spec dbg c pick n t s' r del h
            refine ⟨fun a => ?_, g2, g3, ⟨g4.1.trans e3.2.1, g4.2.1.trans e3.1, g4.2.2.trans e3.2.2.1⟩,
              fun hs hm => ?_⟩
            · have := e1 a
              have := g1 a
              have := hin a
              simp only [Option.toList_none, List.count_nil] at *
              omega
            · have ht : t.diveSize = t.dive.length := by
                rw [hs] at e4
                simp at e4
                omega
              obtain ⟨k1, k2, -⟩ := g5 ht (by rw [e3.1]; exact hm)
              exact ⟨k1, k2, by simp⟩
    · rw [if_neg hd] at h
      obtain ⟨h1, h2, x, rfl, h3, h4⟩ := Dfs.fromHeap_spec h
      refine ⟨fun a => ?_, h2, ⟨x, rfl, h3.le⟩, by rw [h4]; simp, fun hs hm => by rw [h4]; exact ⟨hs, hm, id⟩⟩
      have := h1 a
      rw [h4]
      simp only [Dfs.inside, List.count_append]
      omega

theorem Dfs.bestRest_spec {dbg : Bool} {s s' : Dfs} {c : ℚ} {pick : Pick} {r : Option Node} {del : List Node}
    (hm : s.mode = .findSolutions) (h : s.bestRest dbg c pick = some (s', r, del)) :
    (∀ a, s'.inside.count a + r.toList.count a + del.count a = s.inside.count a) ∧
    (∀ x ∈ del, c ≤ x.obj) ∧ (∃ x, r = some x ∧ x.obj ≤ c) ∧ s'.mode = .findSolutions ∧
    s'.maxBack = s.maxBack ∧
    (s.diveSize = s.dive.length → 0 < s.maxBack → s'.diveSize = s'.dive.length ∧ s'.nBack < s'.maxBack) := by
  unfold Dfs.bestRest at h
  obtain ⟨h, -⟩ := chk_some h
  have hms : s.misstep c pick = (s, [], none) := by unfold Dfs.misstep; rw [if_pos hm]
  rw [hms] at h
  dsimp only at h
  obtain ⟨h, -⟩ := chk_some h
  cases hl : Dfs.loop dbg c pick s.dive.length s with
  | none => rw [hl] at h; exact absurd h (by simp)
  | some p =>
    obtain ⟨t, o, d⟩ := p
    rw [hl] at h
    simp only [Option.some.injEq, Prod.mk.injEq, List.nil_append] at h
    obtain ⟨rfl, rfl, rfl⟩ := h
    obtain ⟨g1, g2, g3, g4, g5⟩ := Dfs.loop_spec dbg c pick _ s _ _ _ hl
    exact ⟨g1, g2, g3, g4.1.trans hm, g4.2.1, fun a b => ⟨(g5 a b).1, (g5 a b).2.1⟩⟩

theorem Dfs.setMode_inside (s : Dfs) (m : Mode) (a : Node) : (s.setMode m).inside.count a = s.inside.count a := by
  unfold Dfs.setMode
  split
  · rfl
  · simp only [Dfs.inside, Dfs.diveToHeap, List.count_append, List.count_nil, List.count_reverse]
    omega

/-- What `bestNode` guarantees in the two first phases. -/
theorem Dfs.best_spec {dbg : Bool} {s s' : Dfs} {c : ℚ} {pick : Pick} {r : Option Node} {del : List Node}
    (hm : s.mode.bound = false) (h : s.best dbg c pick = some (s', r, del)) :
    (∀ a, s'.inside.count a + r.toList.count a + del.count a = s.inside.count a) ∧
    (∀ x ∈ del, c ≤ x.obj) ∧ (∃ x, r = some x ∧ (s.mode = .findSolutions → x.obj ≤ c)) ∧ s'.mode.bound = false ∧
    (s.Inv → s'.Inv) := by
  unfold Dfs.best at h
  by_cases he : s.mode = .enlarge
  · rw [if_pos he] at h
    by_cases hz : s.diveSize = 0
    · rw [if_pos hz] at h
      obtain ⟨g1, g2, ⟨x, rfl, g3⟩, g4, g5, g6⟩ := Dfs.bestRest_spec rfl h
      refine ⟨g1, g2, ⟨x, rfl, fun _ => g3⟩, by rw [g4]; rfl, fun hi => ?_⟩
      obtain ⟨k1, k2⟩ := g6 hi.size hi.pos
      exact ⟨k1, fun hb => by rw [g4] at hb; exact absurd hb (by simp [Mode.bound]), k2, by rw [g5]; exact hi.pos⟩
    · rw [if_neg hz] at h
      cases hl : s.dive.getLast? with
      | none => rw [hl] at h; exact absurd h (by simp)
      | some x =>
        rw [hl] at h
        dsimp only at h
        by_cases hx : x.depth > s.maxBFS
        · rw [if_pos hx] at h
          have hsm : (s.setMode .findSolutions).mode = .findSolutions := by
            unfold Dfs.setMode; rw [if_neg (by rw [he]; decide)]; rfl
          obtain ⟨g1, g2, ⟨x, rfl, g3⟩, g4, g5, g6⟩ := Dfs.bestRest_spec hsm h
          refine ⟨fun a => (g1 a).trans (s.setMode_inside _ a), g2, ⟨x, rfl, fun _ => g3⟩, by rw [g4]; rfl, fun hi => ?_⟩
          have hs1 : (s.setMode .findSolutions).diveSize = (s.setMode .findSolutions).dive.length := by
            unfold Dfs.setMode; rw [if_neg (by rw [he]; decide)]; simp [Dfs.diveToHeap, hi.size]
          have hs2 : (s.setMode .findSolutions).maxBack = s.maxBack := by
            unfold Dfs.setMode; rw [if_neg (by rw [he]; decide)]; rfl
          obtain ⟨k1, k2⟩ := g6 hs1 (by rw [hs2]; exact hi.pos)
          exact ⟨k1, fun hb => by rw [g4] at hb; exact absurd hb (by simp [Mode.bound]), k2,
            by rw [g5, hs2]; exact hi.pos⟩
        · rw [if_neg hx] at h
          simp only [Option.some.injEq, Prod.mk.injEq] at h
          obtain ⟨rfl, rfl, rfl⟩ := h
          have hne : s.dive ≠ [] := fun e => by rw [e] at hl; exact absurd hl (by simp)
          have hg : s.dive.getLast hne = x := by
            rw [List.getLast?_eq_some_getLast hne] at hl
            exact Option.some.inj hl
          have hd : s.dive = s.dive.dropLast ++ [x] := by
            rw [← hg]; exact (List.dropLast_append_getLast hne).symm
          refine ⟨fun a => ?_, by simp, ⟨x, rfl, fun hf => by rw [he] at hf; exact absurd hf (by decide)⟩, hm, fun hi => ?_⟩
          · have : s.dive.count a = s.dive.dropLast.count a + [x].count a := by
              conv_lhs => rw [hd]
              rw [List.count_append]
            simp only [Dfs.inside, List.count_append, Option.toList_some, List.count_nil]
            omega
          · refine ⟨?_, fun hb => ?_, hi.back, hi.pos⟩
            · have hl' : s.dive.length ≠ 0 := by simpa using hne
              dsimp only
              rw [hi.size, List.length_dropLast]
              omega
            · dsimp only at hb ⊢
              rw [hi.bound hb]; rfl
  · rw [if_neg he] at h
    have hf : s.mode = .findSolutions := by
      cases hmm : s.mode <;> simp_all [Mode.bound]
    obtain ⟨g1, g2, ⟨x, rfl, g3⟩, g4, g5, g6⟩ := Dfs.bestRest_spec hf h
    refine ⟨g1, g2, ⟨x, rfl, fun _ => g3⟩, by rw [g4]; rfl, fun hi => ?_⟩
    obtain ⟨k1, k2⟩ := g6 hi.size hi.pos
    exact ⟨k1, fun hb => by rw [g4] at hb; exact absurd hb (by simp [Mode.bound]), k2, by rw [g5]; exact hi.pos⟩

/-- What `bestNode` does in the two last phases: a node taken from the heap is dropped first. -/
theorem Dfs.best_bound {dbg : Bool} {s s' : Dfs} {c : ℚ} {pick : Pick} {r : Option Node} {del : List Node}
    (hd : s.dive = []) (hm : s.mode.bound = true) (h : s.best dbg c pick = some (s', r, del)) :
    ∃ lost : Node, lost.obj < c ∧
    (∀ a, s'.inside.count a + r.toList.count a + del.count a + [lost].count a = s.inside.count a) ∧
    (∀ x ∈ del, c ≤ x.obj) ∧ s'.mode = s.mode ∧ s'.maxBack = s.maxBack ∧ (s.Inv → s'.Inv) := by
  have he : s.mode ≠ .enlarge := fun e => by rw [e] at hm; exact absurd hm (by simp [Mode.bound])
  have hf : s.mode ≠ .findSolutions := fun e => by rw [e] at hm; exact absurd hm (by simp [Mode.bound])
  unfold Dfs.best at h
  rw [if_neg he] at h
  unfold Dfs.bestRest at h
  obtain ⟨h, -⟩ := chk_some h
  have hms : s.misstep c pick = ({ s with nodes := (heapBest pick c s.nodes.length s.nodes).2.1 },
      (heapBest pick c s.nodes.length s.nodes).2.2, (heapBest pick c s.nodes.length s.nodes).1) := by
    unfold Dfs.misstep; rw [if_neg hf]
  rw [hms] at h
  dsimp only at h
  obtain ⟨h, -⟩ := chk_some h
  obtain ⟨-, b2, b3, b4⟩ := heapBest_spec pick c s.nodes.length s.nodes le_rfl
  have b1 := heapBest_count pick c s.nodes.length s.nodes le_rfl
  cases hl : Dfs.loop dbg c pick s.dive.length { s with nodes := (heapBest pick c s.nodes.length s.nodes).2.1 } with
  | none => rw [hl] at h; exact absurd h (by simp)
  | some p =>
    obtain ⟨t, o, d⟩ := p
    rw [hl] at h
    simp only [Option.some.injEq, Prod.mk.injEq] at h
    obtain ⟨rfl, rfl, rfl⟩ := h
    obtain ⟨g1, g2, ⟨x, rfl, g3⟩, g4, g5⟩ := Dfs.loop_spec dbg c pick _ _ _ _ _ hl
    dsimp only at g4 g5
    cases hb : (heapBest pick c s.nodes.length s.nodes).1 with
    | none =>
      exfalso
      have hn := b4 hb
      rw [hd, hn] at hl
      simp only [List.length_nil, Dfs.loop] at hl
      split at hl
      · exact absurd hl (by simp)
      · obtain ⟨-, -, y, -, -, -⟩ := Dfs.fromHeap_spec hl
        have : Dfs.fromHeap { s with nodes := [], dive := [] } c pick = none :=
          Dfs.fromHeap_none.mpr (by simp)
        rw [this] at hl
        exact absurd hl (by simp)
    | some y =>
      refine ⟨y, b3 y hb, fun a => ?_, ?_, g4.1, g4.2.1, fun hi => ?_⟩
      · have := b1 a
        rw [hb] at this
        have := g1 a
        simp only [Dfs.inside, List.count_append, Option.toList_some] at *
        omega
      · intro z hz
        rcases List.mem_append.mp hz with hz | hz
        · exact b2 z hz
        · exact g2 z hz
      · obtain ⟨k1, k2, k3⟩ := g5 hi.size hi.pos
        exact ⟨k1, fun _ => k3 (hi.bound hm), k2, by rw [g4.2.1]; exact hi.pos⟩

/-- `DOp`s as the operations of the conservation law; a mode change puts nothing in. -/
def DOp.pushed : DOp → List Node
  | .tree o => o.pushed
  | .mode _ => []

def DOp.cutoffs : DOp → List ℚ
  | .tree o => o.cutoffs
  | .mode _ => []

theorem Dfs.pop_spec {dbg : Bool} {s s' : Dfs} {pick : Pick} {x : Node} (h : s.pop dbg pick = some (s', x)) :
    (∀ a, s'.inside.count a + [x].count a = s.inside.count a) ∧ s'.mode = s.mode ∧ (s.Inv → s'.Inv) := by
  unfold Dfs.pop at h
  obtain ⟨h, -⟩ := chk_some h
  cases hd : s.dive with
  | cons y d =>
    rw [hd] at h
    simp only [Option.some.injEq, Prod.mk.injEq] at h
    obtain ⟨rfl, rfl⟩ := h
    refine ⟨fun a => ?_, rfl, fun hi => ⟨?_, fun hb => ?_, hi.back, hi.pos⟩⟩
    · simp only [Dfs.inside, hd, List.count_append, List.count_cons, List.count_nil]
      omega
    · have := hi.size
      rw [hd] at this
      simp at this ⊢
      omega
    · have := hi.bound hb
      rw [hd] at this
      exact absurd this (by simp)
  | nil =>
    rw [hd] at h
    dsimp only at h
    cases ht : heapTake pick s.nodes with
    | none => rw [ht] at h; exact absurd h (by simp)
    | some p =>
      obtain ⟨y, l⟩ := p
      rw [ht] at h
      simp only [Option.some.injEq, Prod.mk.injEq] at h
      obtain ⟨rfl, rfl⟩ := h
      refine ⟨fun a => ?_, rfl, fun hi => ⟨by have := hi.size; rw [hd] at this; exact this, fun _ => rfl, hi.back, hi.pos⟩⟩
      have := (heapTake_perm ht).count_eq a
      simp only [List.count_cons] at this
      simp only [Dfs.inside, hd, List.count_append, List.count_cons, List.count_nil]
      omega

theorem Dfs.clean_spec (s : Dfs) (c : ℚ) :
    (∀ a, (s.clean c).1.inside.count a + (s.clean c).2.count a = s.inside.count a) ∧
    (∀ x ∈ (s.clean c).2, c ≤ x.obj) ∧ (∀ x ∈ (s.clean c).1.inside, x.obj < c) ∧
    (s.clean c).1.mode = s.mode ∧ (s.Inv → (s.clean c).1.Inv) := by
  refine ⟨fun a => ?_, fun x hx => ?_, fun x hx => ?_, rfl, fun hi => ⟨?_, fun _ => rfl, hi.back, hi.pos⟩⟩
  · have := filter_count (s.dive.reverse ++ s.nodes) c a
    simp only [Dfs.clean, Dfs.diveToHeap, Dfs.inside, List.nil_append, List.count_append (l₁ := s.dive)]
    rw [List.count_append, List.count_reverse] at this
    omega
  · have := (List.mem_filter.mp hx).2
    simpa using this
  · have hx' : x ∈ (s.dive.reverse ++ s.nodes).filter (fun x => decide (x.obj < c)) := by
      simpa [Dfs.clean, Dfs.diveToHeap, Dfs.inside] using hx
    simpa using (List.mem_filter.mp hx').2
  · simp [Dfs.clean, Dfs.diveToHeap, hi.size]

theorem Dfs.push_spec {dbg : Bool} {s s' : Dfs} {x : Node} (h : s.push dbg x = some s') :
    (∀ a, s'.inside.count a = s.inside.count a + [x].count a) ∧ s'.mode = s.mode ∧ (s.Inv → s'.Inv) := by
  unfold Dfs.push at h
  by_cases hb : s.mode.bound = true
  · rw [if_pos hb] at h
    obtain ⟨h, -⟩ := chk_some h
    simp only [Option.some.injEq] at h
    subst h
    refine ⟨fun a => ?_, rfl, fun hi => ⟨hi.size, hi.bound, hi.back, hi.pos⟩⟩
    simp only [Dfs.inside, List.count_append, List.count_cons, List.count_nil]
    omega
  · rw [if_neg hb] at h
    simp only [Option.some.injEq] at h
    subst h
    refine ⟨fun a => ?_, rfl, fun hi => ⟨?_, fun hb' => absurd hb' hb, hi.back, hi.pos⟩⟩
    · simp only [Dfs.inside, List.count_append, List.count_cons, List.count_nil]
      omega
    · have := hi.size
      simp; omega

theorem Dfs.setMode_inv (s : Dfs) (m : Mode) (hi : s.Inv) : (s.setMode m).Inv := by
  unfold Dfs.setMode
  split
  · exact hi
  · refine ⟨by simp [Dfs.diveToHeap, hi.size], fun _ => rfl, ?_, hi.pos⟩
    simp only [Dfs.diveToHeap]
    omega

/-- The step law. -/
theorem Dfs.step_spec {dbg : Bool} {s s' : Dfs} {o : DOp} {l : Log} (hi : s.Inv) (h : s.step dbg o = some (s', l)) :
    s'.Inv ∧ (∀ x ∈ l.deleted, ∃ c ∈ o.cutoffs, c ≤ x.obj) ∧
    (((∃ c pick, o = .tree (.best c pick)) → s.mode.bound = false) →
      ∀ a, s'.inside.count a + l.handed.count a + l.deleted.count a = s.inside.count a + o.pushed.count a) := by
  cases o with
  | mode m =>
    simp only [Dfs.step, Option.some.injEq, Prod.mk.injEq] at h
    obtain ⟨rfl, rfl⟩ := h
    refine ⟨s.setMode_inv m hi, by simp, fun _ a => ?_⟩
    have := s.setMode_inside m a
    simp only [DOp.pushed, List.count_nil]
    omega
  | tree o =>
    cases o with
    | push x cmp =>
      simp only [Dfs.step] at h
      cases hp : s.push dbg x with
      | none => rw [hp] at h; exact absurd h (by simp)
      | some t =>
        rw [hp] at h
        simp only [Option.map_some, Option.some.injEq, Prod.mk.injEq] at h
        obtain ⟨rfl, rfl⟩ := h
        obtain ⟨p1, p2, p3⟩ := Dfs.push_spec hp
        exact ⟨p3 hi, by simp, fun _ a => by have := p1 a; simp only [DOp.pushed, Op.pushed, List.count_nil]; omega⟩
    | pop pick =>
      simp only [Dfs.step] at h
      cases hp : s.pop dbg pick with
      | none => rw [hp] at h; exact absurd h (by simp)
      | some p =>
        obtain ⟨t, x⟩ := p
        rw [hp] at h
        simp only [Option.map_some, Option.some.injEq, Prod.mk.injEq] at h
        obtain ⟨rfl, rfl⟩ := h
        obtain ⟨p1, p2, p3⟩ := Dfs.pop_spec hp
        exact ⟨p3 hi, by simp, fun _ a => by have := p1 a; simp only [DOp.pushed, Op.pushed, List.count_nil]; omega⟩
    | clean c =>
      simp only [Dfs.step, Option.some.injEq, Prod.mk.injEq] at h
      obtain ⟨rfl, rfl⟩ := h
      obtain ⟨p1, p2, -, -, p3⟩ := s.clean_spec c
      exact ⟨p3 hi, fun x hx => ⟨c, by simp [DOp.cutoffs, Op.cutoffs], p2 x hx⟩,
        fun _ a => by have := p1 a; simp only [DOp.pushed, Op.pushed, List.count_nil]; omega⟩
    | best c pick =>
      simp only [Dfs.step] at h
      cases hp : s.best dbg c pick with
      | none => rw [hp] at h; exact absurd h (by simp)
      | some p =>
        obtain ⟨t, r, del⟩ := p
        rw [hp] at h
        simp only [Option.map_some, Option.some.injEq, Prod.mk.injEq] at h
        obtain ⟨rfl, rfl⟩ := h
        cases hb : s.mode.bound with
        | false =>
          obtain ⟨p1, p2, -, -, p3⟩ := Dfs.best_spec hb hp
          exact ⟨p3 hi, fun x hx => ⟨c, by simp [DOp.cutoffs, Op.cutoffs], p2 x hx⟩,
            fun _ a => by have := p1 a; simp only [DOp.pushed, Op.pushed, List.count_nil]; omega⟩
        | true =>
          obtain ⟨_, -, -, p2, -, -, p3⟩ := Dfs.best_bound (hi.bound hb) hb hp
          exact ⟨p3 hi, fun x hx => ⟨c, by simp [DOp.cutoffs, Op.cutoffs], p2 x hx⟩,
            fun hq => absurd (hq ⟨c, pick, rfl⟩) (by simp)⟩

/-! ## C23 -/

/-- The history never asks for a node in the phases CloseBound and LimitTreeSize. -/
def Early (dbg : Bool) : Dfs → List DOp → Prop
  | _, [] => True
  | s, o :: os => ((∃ c pick, o = .tree (.best c pick)) → s.mode = .enlarge ∨ s.mode = .findSolutions) ∧
      ∀ s' l, s.step dbg o = some (s', l) → Early dbg s' os

/-- C23: over all histories, the recorded size of the dive is right, the dive is empty outside the two first phases, and the
backtrack counter stays below its limit. -/
theorem dfs_invariant (dbg : Bool) : ∀ (ops : List DOp) (s s' : Dfs) (log : Log), s.Inv →
    Dfs.run dbg s ops = some (s', log) → s'.Inv
  | [], s, s', log, hi, h => by
    simp only [Dfs.run, Option.some.injEq, Prod.mk.injEq] at h
    obtain ⟨rfl, -⟩ := h
    exact hi
  | o :: os, s, s', log, hi, h => by
    simp only [Dfs.run] at h
    cases hs : s.step dbg o with
    | none => rw [hs] at h; exact absurd h (by simp)
    | some p =>
      obtain ⟨s1, l1⟩ := p
      rw [hs] at h
      dsimp only at h
      cases hr : Dfs.run dbg s1 os with
      | none => rw [hr] at h; exact absurd h (by simp)
      | some q =>
        obtain ⟨s2, l2⟩ := q
        rw [hr] at h
        simp only [Option.some.injEq, Prod.mk.injEq] at h
        obtain ⟨rfl, -⟩ := h
        exact dfs_invariant dbg os s1 s2 l2 (Dfs.step_spec hi hs).1 hr

/-- The tree as built, with any admissible limits, satisfies the invariant. -/
theorem dfs_initial (bfs depth back : Int) (hb : 0 < back) :
    Dfs.Inv { maxBFS := bfs, maxDepth := depth, maxBack := back } :=
  ⟨rfl, fun h => absurd h (by simp [Mode.bound]), hb, hb⟩

/-- C23 (partial): every history that asks for nodes only in the phases Enlarge and FindSolutions, and does not stop, conserves
the open nodes, with any mode changes in between.  Missing: in the phases CloseBound and LimitTreeSize every call of `bestNode`
loses a node (`dfs_bound_best_loses`). -/
theorem dfs_conserves_partial (dbg : Bool) : ∀ (ops : List DOp) (s s' : Dfs) (log : Log), s.Inv → Early dbg s ops →
    Dfs.run dbg s ops = some (s', log) →
    (s'.inside ++ log.handed ++ log.deleted).Perm (s.inside ++ ops.flatMap DOp.pushed) ∧
    ∀ x ∈ log.deleted, ∃ c ∈ ops.flatMap DOp.cutoffs, c ≤ x.obj := by
  suffices H : ∀ (ops : List DOp) (s s' : Dfs) (log : Log), s.Inv → Early dbg s ops →
      Dfs.run dbg s ops = some (s', log) →
      (∀ a, s'.inside.count a + log.handed.count a + log.deleted.count a
        = s.inside.count a + (ops.flatMap DOp.pushed).count a) ∧
      ∀ x ∈ log.deleted, ∃ c ∈ ops.flatMap DOp.cutoffs, c ≤ x.obj by
    intro ops s s' log hi he h
    obtain ⟨h1, h2⟩ := H ops s s' log hi he h
    refine ⟨List.perm_iff_count.mpr (fun a => ?_), h2⟩
    have := h1 a
    simp only [List.count_append]
    omega
  intro ops
  induction ops with
  | nil =>
    intro s s' log _ _ h
    simp only [Dfs.run, Option.some.injEq, Prod.mk.injEq] at h
    obtain ⟨rfl, rfl⟩ := h
    simp
  | cons o os ih =>
    intro s s' log hi he h
    simp only [Dfs.run] at h
    cases hs : s.step dbg o with
    | none => rw [hs] at h; exact absurd h (by simp)
    | some p =>
      obtain ⟨s1, l1⟩ := p
      rw [hs] at h
      dsimp only at h
      cases hr : Dfs.run dbg s1 os with
      | none => rw [hr] at h; exact absurd h (by simp)
      | some q =>
        obtain ⟨s2, l2⟩ := q
        rw [hr] at h
        simp only [Option.some.injEq, Prod.mk.injEq] at h
        obtain ⟨rfl, rfl⟩ := h
        obtain ⟨a0, a2, a1⟩ := Dfs.step_spec hi hs
        have a1' := a1 (fun hq => by rcases he.1 hq with e | e <;> rw [e] <;> rfl)
        obtain ⟨b1, b2⟩ := ih _ _ _ a0 (he.2 _ _ hs) hr
        constructor
        · intro a
          have := a1' a
          have := b1 a
          simp only [List.count_append, List.flatMap_cons]
          omega
        · intro x hx
          rcases List.mem_append.mp hx with hx | hx
          · obtain ⟨c, hc, hle⟩ := a2 x hx
            exact ⟨c, by simp [hc], hle⟩
          · obtain ⟨c, hc, hle⟩ := b2 x hx
            exact ⟨c, by rw [List.flatMap_cons]; exact List.mem_append_right _ hc, hle⟩

/-- C23, refutation, for every state: in the phases CloseBound and LimitTreeSize every successful call of `bestNode` loses exactly
one open node that is below the cutoff. -/
theorem dfs_bound_best_loses (dbg : Bool) (s s' : Dfs) (c : ℚ) (pick : Pick) (r : Option Node) (del : List Node)
    (hi : s.Inv) (hm : s.mode = .closeBound ∨ s.mode = .limitTreeSize)
    (h : s.best dbg c pick = some (s', r, del)) :
    ∃ lost : Node, lost.obj < c ∧ (lost :: (s'.inside ++ r.toList ++ del)).Perm s.inside := by
  have hb : s.mode.bound = true := by rcases hm with e | e <;> rw [e] <;> rfl
  obtain ⟨y, h1, h2, -⟩ := Dfs.best_bound (hi.bound hb) hb h
  refine ⟨y, h1, List.perm_iff_count.mpr (fun a => ?_)⟩
  have := h2 a
  simp only [List.count_cons, List.count_append, List.count_nil] at *
  omega

/-- A run that meets the hypotheses of `dfs_bound_best_loses`: of three open nodes one is handed out and one remains. -/
theorem dfs_closeBound_example :
    let a : Node := ⟨0, 1, 1, 0, 2, 2⟩
    let b : Node := ⟨1, 2, 2, 0, 2, 2⟩
    let d : Node := ⟨2, 3, 3, 0, 2, 2⟩
    Dfs.run true {} [.mode .closeBound, .tree (.push a (fun _ _ => false)), .tree (.push b (fun _ _ => false)),
      .tree (.push d (fun _ _ => false)), .tree (.best 10 (fun _ => 0))]
    = some ({ nodes := [a], mode := .closeBound, board := 0 }, ⟨[b], []⟩) := by decide +kernel

/-- C23: `size()` and `empty()` agree with the content. -/
theorem dfs_size_empty (s : Dfs) (hi : s.Inv) :
    s.size = s.inside.length ∧ (s.empty = true ↔ s.inside = []) := by
  refine ⟨?_, ?_⟩
  · simp only [Dfs.size, Dfs.inside, List.length_append, hi.size]
    push_cast; omega
  · simp only [Dfs.empty, Dfs.inside, Bool.and_eq_true, List.isEmpty_iff, List.append_eq_nil_iff]
    exact And.comm

/-- C23: `top` shows the front node of the dive if there is one, otherwise the top of the heap; in a build with asserts it aborts on a
non-empty dive outside FindSolutions. -/
theorem dfs_top_exact (dbg : Bool) (s : Dfs) (pick : Pick) (hi : s.Inv) :
    s.top dbg pick = if dbg = true ∧ s.mode ≠ .findSolutions ∧ s.dive ≠ [] then none
      else some (match s.dive with | x :: _ => some x | [] => (heapTake pick s.nodes).map (·.1)) := by
  have hz : s.diveSize ≠ 0 ↔ s.dive ≠ [] := by
    rw [hi.size]
    cases s.dive <;> simp
    omega
  unfold Dfs.top chk
  cases hd : s.dive with
  | nil => rw [hd] at hz; simp_all
  | cons x d => rw [hd] at hz; cases dbg <;> by_cases hm : s.mode = .findSolutions <;> simp_all

/-- C23: `pop` removes the node `top` shows, and nothing else. -/
theorem dfs_pop_top (dbg : Bool) (s : Dfs) (pick : Pick) (hi : s.Inv) (x : Node) (h : s.top dbg pick = some (some x)) :
    ∃ s', s.pop dbg pick = some (s', x) ∧ (x :: s'.inside).Perm s.inside := by
  rw [dfs_top_exact dbg s pick hi] at h
  split at h
  · cases h
  · rename_i hc
    cases hd : s.dive with
    | cons y d =>
      rw [hd] at h hc
      simp only [Option.some.injEq] at h
      subst h
      have : (dbg && !(!s.mode.bound || s.dive.isEmpty)) = false := by
        cases hdb : dbg
        · rfl
        · have hm : s.mode = .findSolutions := by
            by_contra hm; exact hc ⟨hdb, hm, by simp⟩
          simp [hm, Mode.bound]
      refine ⟨{ s with dive := d, diveSize := s.diveSize - 1 }, ?_, ?_⟩
      · unfold Dfs.pop chk
        rw [this]; simp [hd]
      · simp [Dfs.inside, hd]
    | nil =>
      rw [hd] at h
      simp only [Option.some.injEq, Option.map_eq_some_iff] at h
      obtain ⟨⟨y, l⟩, h1, h2⟩ := h
      simp only at h2
      subst h2
      refine ⟨{ s with nodes := l }, ?_, ?_⟩
      · unfold Dfs.pop chk
        simp [hd, h1]
      · unfold heapTake at h1
        split at h1
        · rename_i z hz
          simp only [Option.some.injEq, Prod.mk.injEq] at h1
          obtain ⟨rfl, rfl⟩ := h1
          obtain ⟨hlt, rfl⟩ := List.getElem?_eq_some_iff.1 hz
          simp only [Dfs.inside, hd, List.nil_append]
          exact (List.getElem_cons_eraseIdx_perm hlt)
        · cases h1

/-- C23: in phase Enlarge, which fills the dive, `top` aborts as soon as the dive has a node, where `pop` works. -/
theorem dfs_top_enlarge_aborts (s : Dfs) (pick : Pick) (x : Node) (d : List Node) (hd : s.dive = x :: d) (hm : s.mode = .enlarge) :
    s.top true pick = none ∧ (s.pop true pick).isSome = true := by
  constructor
  · simp [Dfs.top, chk, hd, hm]
  · simp [Dfs.pop, chk, hd, hm, Mode.bound]

theorem Dfs.loop_none_iff (dbg : Bool) (c : ℚ) (pick : Pick) : ∀ (n : Nat) (s : Dfs), s.diveSize = s.dive.length →
    s.dive.length ≤ n → (∀ x ∈ s.dive, x.depth - s.board ≤ s.maxDepth) →
    (Dfs.loop dbg c pick n s = none → ∀ x ∈ s.inside, c ≤ x.obj)
  | 0, s, hs, hn, _, h => by
    have hd : s.dive = [] := by simpa using hn
    have hz : ¬ s.diveSize > 0 := by rw [hs, hd]; simp
    simp only [Dfs.loop] at h
    rw [if_neg hz] at h
    intro x hx
    have := Dfs.fromHeap_none.mp h x
    exact this (by simpa [Dfs.inside, hd] using hx)
  | n + 1, s, hs, hn, hdep, h => by
    simp only [Dfs.loop] at h
    cases hdv : s.dive with
    | nil =>
      have hz : ¬ s.diveSize > 0 := by rw [hs, hdv]; simp
      rw [if_neg hz] at h
      intro x hx
      have := Dfs.fromHeap_none.mp h x
      exact this (by simpa [Dfs.inside, hdv] using hx)
    | cons x d =>
      have hz : s.diveSize > 0 := by rw [hs, hdv]; simp
      rw [if_pos hz, hdv] at h
      dsimp only at h
      have hx : x.depth - s.board ≤ s.maxDepth := hdep x (by simp [hdv])
      rw [decide_eq_true hx, chk_true] at h
      obtain ⟨e1, e2, e3, e4, e5⟩ := Dfs.examine_spec { s with dive := d, diveSize := s.diveSize - 1 } x c
      cases hex : ({ s with dive := d, diveSize := s.diveSize - 1 } : Dfs).examine x c with
      | mk t o =>
        rw [hex] at h e1 e2 e3 e4 e5
        dsimp only at e1 e2 e3 e4 e5
        cases o with
        | some y => exact absurd h (by simp)
        | none =>
          dsimp only at h
          have hsub : t.dive = [] ∨ t.dive = d := by
            rcases e5 rfl with e | e
            · exact Or.inl e
            · exact Or.inr e.1
          have hts : t.diveSize = t.dive.length := by
            rw [hs] at e4
            rw [hdv] at e4
            simp at e4; omega
          have htn : t.dive.length ≤ n := by
            rw [hdv] at hn
            rcases hsub with e | e <;> rw [e] <;> simp at hn ⊢; omega
          have htd : ∀ z ∈ t.dive, z.depth - t.board ≤ t.maxDepth := by
            intro z hz
            rw [e3.2.2.1, e3.2.2.2.1]
            rcases hsub with e | e
            · rw [e] at hz; exact absurd hz (by simp)
            · rw [e] at hz; exact hdep z (by rw [hdv]; exact List.mem_cons_of_mem _ hz)
          have ih := Dfs.loop_none_iff dbg c pick n t hts htn htd h
          intro z hz
          apply ih
          apply List.count_pos_iff.mp
          have hpz : 0 < s.inside.count z := List.count_pos_iff.mpr hz
          have := e1 z
          simp only [Dfs.inside, hdv, Option.toList_none, List.count_nil, List.count_append, List.count_cons] at *
          omega

/-- C23: in the phase FindSolutions, as long as some open node is below the cutoff and the dive is not too deep, `bestNode` hands
out a node whose bound does not exceed the cutoff. -/
theorem dfs_progress (dbg : Bool) (s : Dfs) (c : ℚ) (pick : Pick) (hi : s.Inv) (hm : s.mode = .findSolutions)
    (hdep : ∀ x ∈ s.dive, x.depth - s.board ≤ s.maxDepth) (hex : ∃ x ∈ s.inside, x.obj < c) :
    ∃ s' x del, s.best dbg c pick = some (s', some x, del) ∧ x ∈ s.inside ∧ x.obj ≤ c := by
  cases hb : s.best dbg c pick with
  | none =>
    exfalso
    unfold Dfs.best at hb
    rw [if_neg (by rw [hm]; decide)] at hb
    unfold Dfs.bestRest at hb
    have hms : s.misstep c pick = (s, [], none) := by unfold Dfs.misstep; rw [if_pos hm]
    rw [hms, hm] at hb
    dsimp only at hb
    rw [decide_eq_true hi.back, chk_true] at hb
    simp only [decide_true, Bool.true_or, chk_true] at hb
    cases hl : Dfs.loop dbg c pick s.dive.length s with
    | some p => rw [hl] at hb; exact absurd hb (by simp)
    | none =>
      obtain ⟨x, hx, hlt⟩ := hex
      exact absurd hlt (not_lt.mpr (Dfs.loop_none_iff dbg c pick _ s hi.size le_rfl hdep hl x hx))
  | some p =>
    obtain ⟨s', r, del⟩ := p
    obtain ⟨h1, -, ⟨x, rfl, h3⟩, -, -⟩ := Dfs.best_spec (by rw [hm]; rfl) hb
    refine ⟨s', x, del, rfl, ?_, h3 hm⟩
    apply List.count_pos_iff.mp
    have := h1 x
    simp at this
    omega

theorem Dfs.examine_above (s : Dfs) (x : Node) (c : ℚ) (h : c < x.obj) : (s.examine x c).2 = none := by
  unfold Dfs.examine
  rw [if_pos h]
  dsimp only
  split <;> rfl

theorem Dfs.loop_exhausted (dbg : Bool) (c : ℚ) (pick : Pick) : ∀ (n : Nat) (s : Dfs),
    (∀ x ∈ s.dive, c < x.obj) → (∀ x ∈ s.nodes, c ≤ x.obj) → Dfs.loop dbg c pick n s = none
  | 0, s, _, hnod => by
    simp only [Dfs.loop]
    split
    · rfl
    · exact Dfs.fromHeap_none.mpr hnod
  | n + 1, s, hdiv, hnod => by
    simp only [Dfs.loop]
    split
    · cases hdv : s.dive with
      | nil => rfl
      | cons x d =>
        have hx : c < x.obj := hdiv x (by simp [hdv])
        dsimp only
        obtain ⟨e1, -, -, -, e5⟩ := Dfs.examine_spec { s with dive := d, diveSize := s.diveSize - 1 } x c
        have e0 := Dfs.examine_above { s with dive := d, diveSize := s.diveSize - 1 } x c hx
        cases hex : ({ s with dive := d, diveSize := s.diveSize - 1 } : Dfs).examine x c with
        | mk t o =>
          rw [hex] at e0 e1 e5
          dsimp only at e0 e1 e5
          subst e0
          dsimp only
          have : Dfs.loop dbg c pick n t = none := by
            apply Dfs.loop_exhausted dbg c pick n t
            · intro z hz
              rcases e5 rfl with e | e
              · rw [e] at hz; exact absurd hz (by simp)
              · rw [e.1] at hz; exact hdiv z (by rw [hdv]; exact List.mem_cons_of_mem _ hz)
            · intro z hz
              have hz' : 0 < t.inside.count z := List.count_pos_iff.mpr (by simp [Dfs.inside, hz])
              have h1 := e1 z
              have : 0 < s.inside.count z := by
                simp only [Dfs.inside, hdv, Option.toList_none, List.count_nil, List.count_append,
                  List.count_cons] at *
                omega
              have hm := List.count_pos_iff.mp this
              rcases List.mem_append.mp hm with hm | hm
              · exact (hdiv z hm).le
              · exact hnod z hm
          rw [this]
          unfold chk
          split <;> rfl
    · exact Dfs.fromHeap_none.mpr hnod

/-- C23, refutation, for every state of the phase FindSolutions (or before it with an empty dive): when no open node is below the
cutoff, `bestNode` does not return NULL as the tree of Cbc does; it dereferences the null pointer. -/
theorem dfs_exhausted_crashes (dbg : Bool) (s : Dfs) (c : ℚ) (pick : Pick)
    (hm : s.mode = .findSolutions ∨ (s.mode = .enlarge ∧ s.diveSize = 0))
    (hdiv : ∀ x ∈ s.dive, c < x.obj) (hnod : ∀ x ∈ s.nodes, c ≤ x.obj) : s.best dbg c pick = none := by
  have rest : ∀ t : Dfs, t.mode = .findSolutions → t.dive = s.dive → t.nodes = s.nodes →
      t.bestRest dbg c pick = none := by
    intro t h1 h2 h3
    unfold Dfs.bestRest
    have hms : t.misstep c pick = (t, [], none) := by unfold Dfs.misstep; rw [if_pos h1]
    rw [hms]
    dsimp only
    rw [Dfs.loop_exhausted dbg c pick _ t (by rw [h2]; exact hdiv) (by rw [h3]; exact hnod)]
    unfold chk
    split
    · rfl
    · split <;> rfl
  unfold Dfs.best
  rcases hm with hm | ⟨hm, hz⟩
  · rw [if_neg (by rw [hm]; decide)]
    exact rest s hm rfl rfl
  · rw [if_pos hm, if_pos hz]
    exact rest _ rfl rfl rfl

/-- A complete search on a tree with one node ends in that crash: the root is handed out, it has no children, and the next request
is undefined although Cbc's tree would answer NULL. -/
example :
    let a : Node := ⟨0, 1, 1, 0, 2, 2⟩
    Dfs.run true {} [.tree (.push a (fun _ _ => false)), .tree (.best 10 (fun _ => 0))]
      = some ({}, ⟨[a], []⟩) ∧
    Dfs.run true {} [.tree (.push a (fun _ _ => false)), .tree (.best 10 (fun _ => 0)),
      .tree (.best 10 (fun _ => 0))] = none := by decide +kernel

/-- C23, refutation: with `max_backtracks_in_dive = 0`, a value the option admits, the second node of the phase FindSolutions
stops the program. -/
theorem dfs_zero_backtracks_aborts :
    let a : Node := ⟨0, 1, 1, 9, 2, 2⟩
    let b : Node := ⟨1, 2, 2, 9, 2, 2⟩
    Dfs.run true { maxBack := 0 } [.tree (.push a (fun _ _ => false)), .tree (.push b (fun _ _ => false)),
      .tree (.best 10 (fun _ => 0)), .tree (.best 10 (fun _ => 0))] = none ∧
    (Dfs.run true { maxBack := 1 } [.tree (.push a (fun _ _ => false)), .tree (.push b (fun _ _ => false)),
      .tree (.best 10 (fun _ => 0)), .tree (.best 10 (fun _ => 0))]).isSome = true := by decide +kernel

/-- C23, refutation: a node deeper than `max_dive_depth` stops the program (asserts on) instead of being put back on the heap,
which is what happens with asserts off. -/
theorem dfs_too_deep_aborts (s : Dfs) (c : ℚ) (pick : Pick) (x : Node) (d : List Node) (hm : s.mode = .findSolutions)
    (hi : s.Inv) (hd : s.dive = x :: d) (hx : s.maxDepth < x.depth - s.board) : s.best true c pick = none := by
  unfold Dfs.best
  rw [if_neg (by rw [hm]; decide)]
  unfold Dfs.bestRest
  have hms : s.misstep c pick = (s, [], none) := by unfold Dfs.misstep; rw [if_pos hm]
  rw [hms]
  dsimp only
  have hl : Dfs.loop true c pick s.dive.length s = none := by
    have hz : s.diveSize > 0 := by rw [hi.size, hd]; simp
    rw [hd, List.length_cons]
    simp only [Dfs.loop]
    rw [if_pos hz, hd]
    dsimp only
    rw [decide_eq_false (by omega)]
    simp [chk]
  rw [hl]
  unfold chk
  split
  · rfl
  · split <;> rfl

/-- C23 / C44, refutation: assigning a dfs tree does not copy its depth limit. -/
theorem dfs_assign_depth (s rhs : Dfs) :
    s.assign rhs = rhs ↔ s.maxDepth = rhs.maxDepth := by
  obtain ⟨_, _, _, _, _, _, _, d, _⟩ := s
  obtain ⟨_, _, _, _, _, _, _, d', _⟩ := rhs
  simp [Dfs.assign]

/-- A concrete run of the hypotheses of `dfs_conserves_partial` and `dfs_progress`: enlarge, then dive, with pruning. -/
example :
    let root : Node := ⟨0, 1, 1, 0, 2, 2⟩
    let a : Node := ⟨1, 2, 2, 5, 2, 2⟩
    let b : Node := ⟨2, 7, 7, 5, 2, 2⟩
    Dfs.run true {} [.tree (.push root (fun _ _ => false)), .tree (.best 10 (fun _ => 0)),
      .tree (.push a (fun _ _ => false)), .tree (.push b (fun _ _ => false)), .tree (.best 10 (fun _ => 0)),
      .tree (.clean 5)]
    = some ({ nodes := [], mode := .findSolutions, nBack := 0, board := 5 }, ⟨[root, a], [b]⟩) := by decide +kernel

end Verif.Div

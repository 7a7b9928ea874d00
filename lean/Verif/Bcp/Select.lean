import Verif.Bcp.Process
import Mathlib.Data.List.Nodup
/-!
# From the list of branches to the decision on a node
(experimental/Bcp/BM_lp_branch.cpp:545-741, 745-819, 880-981)

Composition of the collection of branches (`Sort`), solving them (`Strong`) and the use of the results (`Process`), and the object
branched on.
-/
namespace Verif.Bcp

/-! ## The branches collected -/

/-- Object and way of a branch. -/
def bkey (b : Branch) : ℕ × Bool := (b.obj, b.up)

theorem infBr_mem (o : Obj) (b : Branch) (h : b ∈ infBr o) : b.obj = o.ind := by
  unfold infBr at h
  simp only [List.mem_cons, List.not_mem_nil, or_false] at h
  rcases h with h | h <;> rw [h]

theorem feasBr_mem (o : Obj) (b : Branch) (h : b ∈ feasBr o) : b.obj = o.ind := by
  unfold feasBr at h
  rw [List.mem_append] at h
  rcases h with h | h
  · split_ifs at h
    · rw [List.mem_singleton] at h; rw [h]
    · cases h
  · split_ifs at h
    · rw [List.mem_singleton] at h; rw [h]
    · cases h

theorem infBr_nodup (o : Obj) : ((infBr o).map bkey).Nodup := by simp [infBr, bkey]

theorem feasBr_nodup (o : Obj) : ((feasBr o).map bkey).Nodup := by
  unfold feasBr
  split_ifs <;> simp [bkey]

theorem flat_nodup (g : Obj → List Branch) (hg : ∀ o, ((g o).map bkey).Nodup) (hm : ∀ o, ∀ b ∈ g o, b.obj = o.ind) :
    ∀ os : List Obj, (os.map Obj.ind).Nodup → ((os.flatMap g).map bkey).Nodup
  | [], _ => by simp
  | o :: os, h => by
    rw [List.map_cons, List.nodup_cons] at h
    rw [List.flatMap_cons, List.map_append, List.nodup_append]
    refine ⟨hg o, flat_nodup g hg hm os h.2, ?_⟩
    intro a ha b hb hab
    obtain ⟨x, hx, rfl⟩ := List.mem_map.1 ha
    obtain ⟨y, hy, rfl⟩ := List.mem_map.1 hb
    obtain ⟨o', ho', hy'⟩ := List.mem_flatMap.1 hy
    refine h.1 (List.mem_map.2 ⟨o', ho', ?_⟩)
    have := congrArg Prod.fst hab
    simp only [bkey] at this
    rw [hm o x hx, hm o' y hy'] at this
    exact this.symm

/-- **C152.** The branches collected belong to different objects or ways, so that the order of answers does not matter for them. -/
theorem collect_nodup (n : ℕ) (hn : 1 ≤ n) (s : St) (hd : ((s.inf ++ s.feas).map Obj.ind).Nodup) :
    ((collect n s).map fun b => (b.obj, b.up)).Nodup := by
  rw [collect, fill_take n _ [] (by simp; omega)]
  rw [List.map_append, List.nodup_append] at hd
  have : ((s.inf.flatMap infBr ++ s.feas.flatMap feasBr).map bkey).Nodup := by
    rw [List.map_append, List.nodup_append]
    refine ⟨flat_nodup infBr infBr_nodup infBr_mem _ hd.1, flat_nodup feasBr feasBr_nodup feasBr_mem _ hd.2.1, ?_⟩
    intro a ha b hb hab
    obtain ⟨x, hx, rfl⟩ := List.mem_map.1 ha
    obtain ⟨y, hy, rfl⟩ := List.mem_map.1 hb
    obtain ⟨o, ho, hx'⟩ := List.mem_flatMap.1 hx
    obtain ⟨o', ho', hy'⟩ := List.mem_flatMap.1 hy
    have := congrArg Prod.fst hab
    simp only [bkey] at this
    rw [infBr_mem o x hx', feasBr_mem o' y hy'] at this
    exact hd.2.2 _ (List.mem_map.2 ⟨o, ho, rfl⟩) _ (List.mem_map.2 ⟨o', ho', rfl⟩) this
  refine this.sublist ?_
  simp only [List.nil_append, List.length_nil, Nat.sub_zero]
  exact (List.take_sublist _ _).map _

theorem take_flat (n : ℕ) : ∀ os : List Obj, (os.flatMap infBr).take (2 * n) = (os.take n).flatMap infBr
  | [] => by simp
  | o :: os => by
    cases n with
    | zero => simp
    | succ n =>
      have := take_flat n os
      rw [List.flatMap_cons, List.take_succ_cons, List.flatMap_cons, ← this]
      rfl

theorem flat_length : ∀ os : List Obj, (os.flatMap infBr).length = 2 * os.length
  | [] => rfl
  | o :: os => by
    rw [List.flatMap_cons, List.length_append, flat_length os, List.length_cons]
    simp [infBr]
    omega

theorem collect_take (n : ℕ) (hn : 1 ≤ n) (s : St) : collect n s = (s.inf.flatMap infBr ++ s.feas.flatMap feasBr).take n := by
  rw [collect, fill_take n _ [] (by simp; omega)]
  simp

theorem pairs_in (n : ℕ) (hn : 1 ≤ n) (s : St) (hp : n % 2 = 0 ∨ 2 * s.inf.length ≤ n) (hd : ((s.inf ++ s.feas).map Obj.ind).Nodup)
    (o : Obj) (ho : o ∈ s.inf) (b : Branch) (hb : b ∈ collect n s) (hbo : b.obj = o.ind) : ∀ c ∈ infBr o, c ∈ collect n s := by
  intro c hc
  rw [collect_take n hn] at hb ⊢
  rw [List.map_append, List.nodup_append] at hd
  by_cases hl : 2 * s.inf.length ≤ n
  · rw [List.take_append, List.mem_append]
    left
    rw [List.take_of_length_le (by rw [flat_length]; exact hl)]
    exact List.mem_flatMap.2 ⟨o, ho, hc⟩
  · have he : n % 2 = 0 := by omega
    obtain ⟨k, rfl⟩ : ∃ k, n = 2 * k := ⟨n / 2, by omega⟩
    rw [List.take_append_of_le_length (by rw [flat_length]; omega), take_flat] at hb ⊢
    obtain ⟨o', ho', hb'⟩ := List.mem_flatMap.1 hb
    have e : o'.ind = o.ind := by rw [← infBr_mem o' b hb']; exact hbo
    have : o' = o := List.inj_on_of_nodup_map hd.1 (List.mem_of_mem_take ho') ho e
    rw [this] at ho'
    exact List.mem_flatMap.2 ⟨o, ho', hc⟩

/-! ## Soundness of the whole step -/

/-- The records after strong branching on the branches collected, alone or with other processes (`distribution_irrelevant`). -/
def records (S : Box → Raw) (B : Box) (n : ℕ) (s : St) (sb : ℕ → SbRes) : ℕ → SbRes :=
  register ((collect n s).map fun b => (b, ansOf (S (branchBox B b)))) (clear sb)

/-- **C152.** … as `do_distributed_SB` leaves them. -/
theorem records_exact (S : Box → Raw) (B : Box) (n : ℕ) (hn : 1 ≤ n) (s : St) (hd : ((s.inf ++ s.feas).map Obj.ind).Nodup)
    (p : ℕ) (order : List (ℕ × ℕ × List Branch)) (ho : order.Perm (send p 0 (collect n s)).1) (sb : ℕ → SbRes) :
    doSB false S B (collect n s) p order (clear sb) = some (records S B n s sb) :=
  distribution_irrelevant S B _ p order _ (collect_nodup n hn s hd) ho

theorem records_mem (S : Box → Raw) (B : Box) (n : ℕ) (hn : 1 ≤ n) (s : St) (hd : ((s.inf ++ s.feas).map Obj.ind).Nodup) (sb : ℕ → SbRes)
    (b : Branch) (hb : b ∈ collect n s) :
    ((records S B n s sb b.obj).way b.up).1 = true ∧ ((records S B n s sb b.obj).way b.up).2.1 = some (ansOf (S (branchBox B b))) := by
  have hk : (((collect n s).map fun b => (b, ansOf (S (branchBox B b)))).map key).Nodup := by
    rw [List.map_map]; exact collect_nodup n hn s hd
  have := (register_exact _ hk (clear sb)).1 (b, ansOf (S (branchBox B b))) (List.mem_map.2 ⟨b, hb, rfl⟩)
  dsimp only at this
  unfold records
  rw [this]
  exact ⟨rfl, rfl⟩

theorem records_ev (S : Box → Raw) (B : Box) (n : ℕ) (hn : 1 ≤ n) (s : St) (hd : ((s.inf ++ s.feas).map Obj.ind).Nodup) (sb : ℕ → SbRes)
    (i : ℕ) (w : Bool) (h : ((records S B n s sb i).way w).1 = true) : ∃ b ∈ collect n s, b.obj = i ∧ b.up = w := by
  by_contra hc
  have hk : (((collect n s).map fun b => (b, ansOf (S (branchBox B b)))).map key).Nodup := by
    rw [List.map_map]; exact collect_nodup n hn s hd
  have := (register_exact _ hk (clear sb)).2 i w (by
    intro q hq hqk
    obtain ⟨b, hb, rfl⟩ := List.mem_map.1 hq
    refine hc ⟨b, hb, ?_, ?_⟩
    · exact congrArg Prod.fst hqk
    · exact congrArg Prod.snd hqk)
  unfold records at h
  rw [this, (clear_exact sb i w).1] at h
  cases h

theorem way_false (r : SbRes) : r.way false = (r.evD, r.rD, r.chD) := by simp [SbRes.way]
theorem way_true (r : SbRes) : r.way true = (r.evU, r.rU, r.chU) := by simp [SbRes.way]

/-- An oracle for nodes that tells the truth: an infeasible box has no feasible point, the optimal value bounds the objective. -/
def Honest (F : (ℕ → ℚ) → Prop) (f : (ℕ → ℚ) → ℚ) (S : Box → Raw) : Prop :=
  ∀ T : Box, ((S T).inf = true → ∀ x, F x → ¬ T.has x) ∧ ((S T).opt = true → ∀ x, F x → T.has x → (S T).obj ≤ f x)

theorem ans_truthful (F : (ℕ → ℚ) → Prop) (f : (ℕ → ℚ) → ℚ) (S : Box → Raw) (hS : Honest F f S) (T : Box) :
    Truthful F f T (ansOf (S T)) := by
  refine ⟨(hS T).1, ?_⟩
  intro h x hx hT
  have h' : (S T).opt = true := h
  show (if (S T).opt then (S T).obj else 0) ≤ f x
  rw [if_pos h']
  exact (hS T).2 h' x hx hT

theorem records_complete (S : Box → Raw) (B : Box) (n : ℕ) (hn : 1 ≤ n) (s : St) (hp : n % 2 = 0 ∨ 2 * s.inf.length ≤ n)
    (hd : ((s.inf ++ s.feas).map Obj.ind).Nodup) (sb : ℕ → SbRes) (o : Obj) (ho : o ∈ s.inf)
    (he : evaluated (records S B n s sb o.ind) = true) :
    (records S B n s sb o.ind).evD = true ∧ (records S B n s sb o.ind).evU = true ∧
    (records S B n s sb o.ind).rD = some (ansOf (S (branchBox B ⟨false, o.ind, o.col, o.v, ⌊o.v⌋⟩))) ∧
    (records S B n s sb o.ind).rU = some (ansOf (S (branchBox B ⟨true, o.ind, o.col, o.v, ⌈o.v⌉⟩))) := by
  have hb : ∃ b ∈ collect n s, b.obj = o.ind := by
    unfold evaluated at he
    rw [Bool.or_eq_true] at he
    rcases he with he | he
    · obtain ⟨b, hb, h1, _⟩ := records_ev S B n hn s hd sb o.ind false (by rw [way_false]; exact he)
      exact ⟨b, hb, h1⟩
    · obtain ⟨b, hb, h1, _⟩ := records_ev S B n hn s hd sb o.ind true (by rw [way_true]; exact he)
      exact ⟨b, hb, h1⟩
  obtain ⟨b, hb, hbo⟩ := hb
  have hin := pairs_in n hn s hp hd o ho b hb hbo
  have h1 := records_mem S B n hn s hd sb ⟨false, o.ind, o.col, o.v, ⌊o.v⌋⟩ (hin _ (by simp [infBr]))
  have h2 := records_mem S B n hn s hd sb ⟨true, o.ind, o.col, o.v, ⌈o.v⌉⟩ (hin _ (by simp [infBr]))
  dsimp only at h1 h2
  rw [way_false] at h1
  rw [way_true] at h2
  exact ⟨h1.1, h2.1, h1.2, h2.2⟩

/-- The branch of a feasible object evaluated is the one of the object. -/
theorem records_feas (S : Box → Raw) (B : Box) (n : ℕ) (hn : 1 ≤ n) (s : St) (hd : ((s.inf ++ s.feas).map Obj.ind).Nodup) (sb : ℕ → SbRes)
    (o : Obj) (ho : o ∈ s.feas) :
    ((records S B n s sb o.ind).evD = true →
      (records S B n s sb o.ind).rD = some (ansOf (S (branchBox B ⟨false, o.ind, o.col, o.v, ⌊o.v - 1 / 2⌋⟩)))) ∧
    ((records S B n s sb o.ind).evU = true →
      (records S B n s sb o.ind).rU = some (ansOf (S (branchBox B ⟨true, o.ind, o.col, o.v, ⌈o.v + 1 / 2⌉⟩)))) := by
  have hd' := hd
  rw [List.map_append, List.nodup_append] at hd'
  have main : ∀ (b : Branch), b ∈ collect n s → b.obj = o.ind → b ∈ feasBr o := by
    intro b hb hbo
    rw [collect_take n hn] at hb
    have hb := List.mem_of_mem_take hb
    rw [List.mem_append] at hb
    rcases hb with hb | hb
    · obtain ⟨o', ho', hb'⟩ := List.mem_flatMap.1 hb
      exact absurd ((infBr_mem o' b hb').symm.trans hbo)
        (hd'.2.2 _ (List.mem_map.2 ⟨o', ho', rfl⟩) _ (List.mem_map.2 ⟨o, ho, rfl⟩))
    · obtain ⟨o', ho', hb'⟩ := List.mem_flatMap.1 hb
      have : o' = o := List.inj_on_of_nodup_map hd'.2.1 ho' ho ((feasBr_mem o' b hb').symm.trans hbo)
      rw [this] at hb'
      exact hb'
  have sides : ∀ b ∈ feasBr o, (b.up = false → b = ⟨false, o.ind, o.col, o.v, ⌊o.v - 1 / 2⌋⟩) ∧
      (b.up = true → b = ⟨true, o.ind, o.col, o.v, ⌈o.v + 1 / 2⌉⟩) := by
    intro b hb
    unfold feasBr at hb
    rw [List.mem_append] at hb
    rcases hb with hb | hb
    · split_ifs at hb
      · rw [List.mem_singleton] at hb; subst hb; exact ⟨fun _ => rfl, fun c => (by cases c)⟩
      · cases hb
    · split_ifs at hb
      · rw [List.mem_singleton] at hb; subst hb; exact ⟨fun c => (by cases c), fun _ => rfl⟩
      · cases hb
  refine ⟨?_, ?_⟩
  · intro he
    obtain ⟨b, hb, h1, h2⟩ := records_ev S B n hn s hd sb o.ind false (by rw [way_false]; exact he)
    have e := (sides b (main b hb h1)).1 h2
    have h3 := records_mem S B n hn s hd sb b hb
    rw [e] at h3
    dsimp only at h3
    rw [way_false] at h3
    exact h3.2
  · intro he
    obtain ⟨b, hb, h1, h2⟩ := records_ev S B n hn s hd sb o.ind true (by rw [way_true]; exact he)
    have e := (sides b (main b hb h1)).2 h2
    have h3 := records_mem S B n hn s hd sb b hb
    rw [e] at h3
    dsimp only at h3
    rw [way_true] at h3
    exact h3.2

theorem records_truth (F : (ℕ → ℚ) → Prop) (f : (ℕ → ℚ) → ℚ) (S : Box → Raw) (hS : Honest F f S) (B : Box) (n : ℕ) (hn : 1 ≤ n) (s : St)
    (hp : n % 2 = 0 ∨ 2 * s.inf.length ≤ n) (hd : ((s.inf ++ s.feas).map Obj.ind).Nodup) (sb : ℕ → SbRes) :
    Truth F f B (records S B n s sb) s.inf s.feas := by
  refine ⟨?_, ?_, ?_, ?_⟩
  · intro o ho a he ha
    rw [(records_complete S B n hn s hp hd sb o ho he).2.2.1] at ha
    injection ha with ha
    rw [← ha]
    exact ans_truthful F f S hS _
  · intro o ho a he ha
    rw [(records_complete S B n hn s hp hd sb o ho he).2.2.2] at ha
    injection ha with ha
    rw [← ha]
    exact ans_truthful F f S hS _
  · intro o ho a he ha
    rw [(records_feas S B n hn s hd sb o ho).1 he] at ha
    injection ha with ha
    rw [← ha]
    exact ans_truthful F f S hS _
  · intro o ho a he ha
    rw [(records_feas S B n hn s hd sb o ho).2 he] at ha
    injection ha with ha
    rw [← ha]
    exact ans_truthful F f S hS _

/-- **C153 (partial).** Whatever the records of earlier nodes hold, strong branching with an honest solver on an even number of branches, or
on both branches of all infeasible objects, loses no point looked for: if the node is fathomed there is none, else all lie within the new
bounds. -/
theorem node_sound_partial (dbg : Bool) (over : ℚ → Bool) (hm : ∀ a b, a ≤ b → over a = true → over b = true) (P : Sel) (F : (ℕ → ℚ) → Prop)
    (f : (ℕ → ℚ) → ℚ) (S : Box → Raw) (hS : Honest F f S) (B : Box) (n : ℕ) (hn : 1 ≤ n) (s : St)
    (hp : n % 2 = 0 ∨ 2 * s.inf.length ≤ n) (hd : ((s.inf ++ s.feas).map Obj.ind).Nodup)
    (sb : ℕ → SbRes) (r : Out) (hr : process dbg over P (records S B n s sb) s.inf s.feas B = .ok r) (x : ℕ → ℚ)
    (hx : Wanted F f over ((s.inf ++ s.feas).map Obj.col) B x) : r.ret ≠ -2 ∧ r.box.has x := by
  have ht := records_truth F f S hS B n hn s hp hd sb
  have h2 : r.ret ≠ -2 := fun h => fathom_sound dbg over hm P _ s.inf s.feas B F f ht r hr h x hx
  exact ⟨h2, (fix_sound dbg over hm P _ s.inf s.feas B F f ht r hr x hx).box⟩

/-- **C154.** Under the same condition the assertion never fails and no field never written is read before the object is chosen. -/
theorem records_are_complete (S : Box → Raw) (B : Box) (n : ℕ) (hn : 1 ≤ n) (s : St) (hp : n % 2 = 0 ∨ 2 * s.inf.length ≤ n)
    (hd : ((s.inf ++ s.feas).map Obj.ind).Nodup) (sb : ℕ → SbRes) : Complete (records S B n s sb) s.inf ∧
    ∀ o ∈ s.feas, ((records S B n s sb o.ind).evD = true → ∃ d, (records S B n s sb o.ind).rD = some d) ∧
      ((records S B n s sb o.ind).evU = true → ∃ u, (records S B n s sb o.ind).rU = some u) := by
  refine ⟨?_, ?_⟩
  · intro o ho he
    have := records_complete S B n hn s hp hd sb o ho he
    exact ⟨this.1, this.2.1, _, _, this.2.2.1, this.2.2.2⟩
  · intro o ho
    have := records_feas S B n hn s hd sb o ho
    exact ⟨fun h => ⟨_, this.1 h⟩, fun h => ⟨_, this.2 h⟩⟩

/-! ## The object branched on -/

/-- A candidate with answers on both sides. -/
def Trusted (sb : ℕ → SbRes) (o : Obj) (d u : Ans) : Prop :=
  ((sb o.ind).evD = true ∨ (sb o.ind).evU = true) ∧ (sb o.ind).rD = some d ∧ (sb o.ind).rU = some u ∧ d.aband = false ∧ u.aband = false

/-- Value `x` is preferred to `y`: the larger one if `high`, else the smaller one. -/
def Pre (high : Bool) (x y : ℚ) : Prop := if high then y < x else x < y

/-- Weighted sum of the smaller and the larger degradation. -/
def val (P : Sel) (d u : Ans) : ℚ :=
  P.maxmin * (if d.obj ≤ u.obj then d.obj else u.obj) + (1 - P.maxmin) * (if d.obj ≤ u.obj then u.obj else d.obj) - P.objv

theorem score_val (P : Sel) (d u : Ans) : score P.maxmin P.objv d u = val P d u := by
  unfold score val
  by_cases h : d.obj ≤ u.obj
  · rw [min_eq_right (by linarith), max_eq_left (by linarith), if_pos h, if_pos h]
    ring
  · have h' := not_le.1 h
    rw [min_eq_left (by linarith), max_eq_right (by linarith), if_neg h, if_neg h]
    ring

theorem pre_trans (h : Bool) (x y z : ℚ) (h1 : Pre h x y) (h2 : Pre h y z) : Pre h x z := by
  unfold Pre at *
  cases h <;> simp only [Bool.false_eq_true, if_false, if_true] at * <;> linarith

theorem pre_not (h : Bool) (x y z : ℚ) (h1 : Pre h x y) (h2 : ¬ Pre h z y) : Pre h x z := by
  unfold Pre at *
  cases h <;> simp only [Bool.false_eq_true, if_false, if_true] at * <;> linarith

/-- The way: the preferred one if there is one, else up unless the down branch degrades less. -/
def wayOf (P : Sel) (o : Obj) (d u : Ans) : Bool :=
  match P.pref o.ind with
  | some w => w
  | none => if d.obj < u.obj then false else true

theorem trusted_unique (sb : ℕ → SbRes) (o : Obj) (d u d' u' : Ans) (h : Trusted sb o d u) (h' : Trusted sb o d' u') : d = d' ∧ u = u' := by
  have h1 := h.2.1.symm.trans h'.2.1
  have h2 := h.2.2.1.symm.trans h'.2.2.1
  injection h1 with h1; injection h2 with h2
  exact ⟨h1, h2⟩

theorem best_exact (P : Sel) (sb : ℕ → SbRes) : ∀ (os : List Obj) (v : ℚ) (b : Option (Obj × Bool)),
    (∀ o ∈ os, evaluated (sb o.ind) = true → ∃ d u, (sb o.ind).rD = some d ∧ (sb o.ind).rU = some u) →
    (best P sb os (v, b) = .ok (v, b) ∧ ∀ o ∈ os, ∀ d u, Trusted sb o d u → ¬ Pre P.high (val P d u) v) ∨
    (∃ l1 o l2 d u, os = l1 ++ o :: l2 ∧ Trusted sb o d u ∧ Pre P.high (val P d u) v ∧
      best P sb os (v, b) = .ok (val P d u, some (o, wayOf P o d u)) ∧
      (∀ o' ∈ l1, ∀ d' u', Trusted sb o' d' u' → Pre P.high (val P d u) (val P d' u')) ∧
      ∀ o' ∈ l2, ∀ d' u', Trusted sb o' d' u' → ¬ Pre P.high (val P d' u') (val P d u))
  | [], v, b, _ => Or.inl ⟨rfl, by simp⟩
  | o :: os, v, b, h => by
    have h' : ∀ o ∈ os, evaluated (sb o.ind) = true → ∃ d u, (sb o.ind).rD = some d ∧ (sb o.ind).rU = some u :=
      fun o' ho' => h o' (by simp [ho'])
    have skip : (∀ d u, ¬ Trusted sb o d u ∨ ¬ Pre P.high (val P d u) v) → best P sb (o :: os) (v, b) = best P sb os (v, b) →
        (best P sb (o :: os) (v, b) = .ok (v, b) ∧ ∀ o' ∈ o :: os, ∀ d u, Trusted sb o' d u → ¬ Pre P.high (val P d u) v) ∨
        (∃ l1 o' l2 d u, o :: os = l1 ++ o' :: l2 ∧ Trusted sb o' d u ∧ Pre P.high (val P d u) v ∧
          best P sb (o :: os) (v, b) = .ok (val P d u, some (o', wayOf P o' d u)) ∧
          (∀ o'' ∈ l1, ∀ d' u', Trusted sb o'' d' u' → Pre P.high (val P d u) (val P d' u')) ∧
          ∀ o'' ∈ l2, ∀ d' u', Trusted sb o'' d' u' → ¬ Pre P.high (val P d' u') (val P d u)) := by
      intro hno he
      rw [he]
      rcases best_exact P sb os v b h' with ⟨e1, e2⟩ | ⟨l1, o', l2, d, u, e1, e2, e3, e4, e5, e6⟩
      · left
        refine ⟨e1, ?_⟩
        intro o' ho' d u ht
        rcases List.mem_cons.1 ho' with c | c
        · subst c
          rcases hno d u with k | k
          · exact absurd ht k
          · exact k
        · exact e2 o' c d u ht
      · right
        refine ⟨o :: l1, o', l2, d, u, by rw [e1]; rfl, e2, e3, e4, ?_, e6⟩
        intro o'' ho'' d' u' ht
        rcases List.mem_cons.1 ho'' with c | c
        · subst c
          rcases hno d' u' with k | k
          · exact absurd ht k
          · exact pre_not _ _ _ _ e3 k
        · exact e5 o'' c d' u' ht
    by_cases he : evaluated (sb o.ind) = false
    · refine skip ?_ ?_
      · intro d u
        left
        intro ht
        unfold evaluated at he
        rcases ht.1 with c | c <;> simp [c] at he
      · rw [best, if_pos he]
    · have he' : evaluated (sb o.ind) = true := by simpa using he
      obtain ⟨d, u, hd, hu⟩ := h o (by simp) he'
      by_cases ha : (d.aband || u.aband) = true
      · refine skip ?_ ?_
        · intro d' u'
          left
          intro ht
          have e1 := hd.symm.trans ht.2.1
          have e2 := hu.symm.trans ht.2.2.1
          injection e1 with e1; injection e2 with e2
          rw [e1, e2, ht.2.2.2.1, ht.2.2.2.2] at ha
          simp at ha
        · rw [best, if_neg he, hd, hu]
          dsimp only
          rw [if_pos ha]
      · have ht : Trusted sb o d u := by
          refine ⟨by simpa [evaluated] using he', hd, hu, ?_, ?_⟩ <;> simp at ha <;> simp [ha]
        have hpre : (if P.high then v < score P.maxmin P.objv d u else score P.maxmin P.objv d u < v) ↔ Pre P.high (val P d u) v := by
          rw [score_val]; rfl
        by_cases hb : Pre P.high (val P d u) v
        · have hw : (match P.pref o.ind with | some w => w | none => (decide ¬ (d.obj - P.objv < u.obj - P.objv) : Bool)) = wayOf P o d u := by
            unfold wayOf
            cases P.pref o.ind with
            | some w => rfl
            | none =>
              dsimp only
              by_cases hlt : d.obj < u.obj
              · rw [if_pos hlt]
                simpa using hlt
              · rw [if_neg hlt]
                simpa using hlt
          have hstep : best P sb (o :: os) (v, b) = best P sb os (val P d u, some (o, wayOf P o d u)) := by
            rw [best, if_neg he, hd, hu]
            dsimp only
            rw [if_neg ha, if_pos (hpre.2 hb), score_val, ← hw]
            rfl
          right
          rcases best_exact P sb os (val P d u) (some (o, wayOf P o d u)) h' with ⟨e1, e2⟩ | ⟨l1, o', l2, d', u', e1, e2, e3, e4, e5, e6⟩
          · exact ⟨[], o, os, d, u, rfl, ht, hb, by rw [hstep, e1], by simp, e2⟩
          · refine ⟨o :: l1, o', l2, d', u', by rw [e1]; rfl, e2, pre_trans _ _ _ _ e3 hb, by rw [hstep, e4], ?_, e6⟩
            intro o'' ho'' d'' u'' ht''
            rcases List.mem_cons.1 ho'' with c | c
            · subst c
              obtain ⟨k1, k2⟩ := trusted_unique sb o'' d u d'' u'' ht ht''
              rw [← k1, ← k2]
              exact e3
            · exact e5 o'' c d'' u'' ht''
        · refine skip ?_ ?_
          · intro d' u'
            by_cases ht' : Trusted sb o d' u'
            · right
              obtain ⟨k1, k2⟩ := trusted_unique sb o d u d' u' ht ht'
              rw [← k1, ← k2]
              exact hb
            · exact Or.inl ht'
          · rw [best, if_neg he, hd, hu]
            dsimp only
            rw [if_neg ha, if_neg (fun c => hb (hpre.1 c))]

/-- **C155.** If some candidate has answers on both sides (and values below `COIN_DBL_MAX`), the object branched on is the first of
those with the preferred value of the weighted sum, and the first child is the up branch unless the down branch degrades less or the
object has a preferred way. -/
theorem chosen_exact (P : Sel) (sb : ℕ → SbRes) (os : List Obj)
    (h : ∀ o ∈ os, evaluated (sb o.ind) = true → ∃ d u, (sb o.ind).rD = some d ∧ (sb o.ind).rU = some u)
    (hv : ∀ o ∈ os, ∀ d u, Trusted sb o d u → -P.big < val P d u ∧ val P d u < P.big)
    (hex : ∃ o ∈ os, ∃ d u, Trusted sb o d u) :
    ∃ l1 o l2 d u, os = l1 ++ o :: l2 ∧ Trusted sb o d u ∧ choose P sb os = .ok (o, wayOf P o d u) ∧
      (∀ o' ∈ l1, ∀ d' u', Trusted sb o' d' u' → Pre P.high (val P d u) (val P d' u')) ∧
      ∀ o' ∈ l2, ∀ d' u', Trusted sb o' d' u' → ¬ Pre P.high (val P d' u') (val P d u) := by
  rcases best_exact P sb os (if P.high then -P.big else P.big) none h with ⟨_, e2⟩ | ⟨l1, o, l2, d, u, e1, e2, _, e4, e5, e6⟩
  · obtain ⟨o, ho, d, u, ht⟩ := hex
    refine absurd ?_ (e2 o ho d u ht)
    have := hv o ho d u ht
    unfold Pre
    cases P.high
    · simpa using this.2
    · simpa using this.1
  · exact ⟨l1, o, l2, d, u, e1, e2, by rw [choose, e4], e5, e6⟩

theorem firstHalf_exact (sb : ℕ → SbRes) : ∀ (os : List Obj), (∀ o ∈ os, ∃ d u, (sb o.ind).rD = some d ∧ (sb o.ind).rU = some u) →
    (∀ l1 o l2 d u, os = l1 ++ o :: l2 → (sb o.ind).rD = some d → (sb o.ind).rU = some u → (d.aband = false ∨ u.aband = false) →
      (∀ o' ∈ l1, ∀ d' u', (sb o'.ind).rD = some d' → (sb o'.ind).rU = some u' → d'.aband = true ∧ u'.aband = true) →
      firstHalf sb os = .ok (some o)) ∧
    ((∀ o' ∈ os, ∀ d' u', (sb o'.ind).rD = some d' → (sb o'.ind).rU = some u' → d'.aband = true ∧ u'.aband = true) →
      firstHalf sb os = .ok os.getLast?)
  | [], _ => ⟨by intro l1 o l2 d u e; simp at e, fun _ => rfl⟩
  | o :: os, h => by
    obtain ⟨i1, i2⟩ := firstHalf_exact sb os (fun o' ho' => h o' (by simp [ho']))
    obtain ⟨d0, u0, hd0, hu0⟩ := h o (by simp)
    refine ⟨?_, ?_⟩
    · intro l1 o' l2 d u e hd hu hh hl
      cases l1 with
      | nil =>
        simp only [List.nil_append, List.cons.injEq] at e
        obtain ⟨rfl, rfl⟩ := e
        rw [firstHalf, hd, hu]
        exact if_pos hh
      | cons a l1 =>
        simp only [List.cons_append, List.cons.injEq] at e
        obtain ⟨rfl, rfl⟩ := e
        have := hl o (by simp) d0 u0 hd0 hu0
        rw [firstHalf, hd0, hu0]
        dsimp only
        rw [if_neg (by rw [this.1, this.2]; simp), i1 l1 o' l2 d u rfl hd hu hh (fun x hx => hl x (by simp [hx]))]
    · intro hl
      have := hl o (by simp) d0 u0 hd0 hu0
      rw [firstHalf, hd0, hu0]
      dsimp only
      rw [if_neg (by rw [this.1, this.2]; simp), i2 (fun x hx => hl x (by simp [hx]))]
      cases os with
      | nil => rfl
      | cons a os => simp

/-- **C155.** If no candidate has answers on both sides, the first one not evaluated is taken, up branch first … -/
theorem fallback_new (P : Sel) (sb : ℕ → SbRes) (l1 : List Obj) (o : Obj) (l2 : List Obj)
    (h : ∀ o' ∈ l1 ++ o :: l2, evaluated (sb o'.ind) = true → ∃ d u, (sb o'.ind).rD = some d ∧ (sb o'.ind).rU = some u)
    (hno : ∀ o' ∈ l1 ++ o :: l2, ∀ d u, ¬ Trusted sb o' d u) (hl : ∀ o' ∈ l1, evaluated (sb o'.ind) = true)
    (ho : evaluated (sb o.ind) = false) : choose P sb (l1 ++ o :: l2) = .ok (o, true) := by
  rcases best_exact P sb _ (if P.high then -P.big else P.big) none h with ⟨e1, _⟩ | ⟨k1, o', k2, d, u, e1, e2, _⟩
  · have : firstNew sb (l1 ++ o :: l2) = some o := by
      unfold firstNew
      rw [List.find?_append, List.find?_eq_none.2 (by intro x hx; simp [hl x hx])]
      simp [ho]
    rw [choose, e1]
    dsimp only
    rw [this]
  · exact absurd e2 (hno o' (by rw [e1]; simp) d u)

/-- … if there is none, the first with a side not abandoned, or else the last one. -/
theorem fallback_half (P : Sel) (sb : ℕ → SbRes) (os : List Obj) (hne : os ≠ []) (hall : ∀ o ∈ os, evaluated (sb o.ind) = true)
    (h : ∀ o ∈ os, ∃ d u, (sb o.ind).rD = some d ∧ (sb o.ind).rU = some u) (hno : ∀ o ∈ os, ∀ d u, ¬ Trusted sb o d u) :
    (∀ l1 o l2 d u, os = l1 ++ o :: l2 → (sb o.ind).rD = some d → (sb o.ind).rU = some u → (d.aband = false ∨ u.aband = false) →
      (∀ o' ∈ l1, ∀ d' u', (sb o'.ind).rD = some d' → (sb o'.ind).rU = some u' → d'.aband = true ∧ u'.aband = true) →
      choose P sb os = .ok (o, true)) ∧
    ((∀ o' ∈ os, ∀ d' u', (sb o'.ind).rD = some d' → (sb o'.ind).rU = some u' → d'.aband = true ∧ u'.aband = true) →
      choose P sb os = .ok (os.getLast hne, true)) := by
  rcases best_exact P sb os (if P.high then -P.big else P.big) none (fun o ho _ => h o ho) with
    ⟨e1, _⟩ | ⟨k1, o', k2, d, u, e1, e2, _⟩
  · have hn : firstNew sb os = none := by
      unfold firstNew
      rw [List.find?_eq_none]
      intro x hx
      simp [hall x hx]
    obtain ⟨i1, i2⟩ := firstHalf_exact sb os h
    refine ⟨?_, ?_⟩
    · intro l1 o l2 d u e hd hu hh hl
      rw [choose, e1]
      dsimp only
      rw [hn]
      dsimp only
      rw [i1 l1 o l2 d u e hd hu hh hl]
    · intro hl
      rw [choose, e1]
      dsimp only
      rw [hn]
      dsimp only
      rw [i2 hl, List.getLast?_eq_getLast_of_ne_nil hne]
  · exact absurd e2 (hno o' (by rw [e1]; simp) d u)

/-! ## What is decided -/

/-- `try_to_branch` (BM_lp_branch.cpp:745-819) when some branches are tried, with the records after solving them: nothing is done if no
object is infeasible (757-759). -/
def tryBranch (dbg : Bool) (over : ℚ → Bool) (P : Sel) (sb : ℕ → SbRes) (s : St) (B : Box) : Except Err Out :=
  if s.inf = [] then .ok ⟨0, B, none⟩ else process dbg over P sb s.inf s.feas B

/-- **C156.** The decision: fathomed for −2; solved again for −1 without an object; branched on in the other cases with an object; the
run ends with an error for 0 without an object and for any other code. -/
theorem decision_exact (ret : Int) (obj : Bool) :
    (decision ret obj = .ok .fathomed ↔ ret = -2) ∧
    (decision ret obj = .ok .resolve ↔ ret = -1 ∧ obj = false) ∧
    (decision ret obj = .ok .branch ↔ (ret = -1 ∨ ret = 0) ∧ obj = true) ∧
    (decision ret obj = .error .fatal ↔ (ret = 0 ∧ obj = false) ∨ (ret ≠ -2 ∧ ret ≠ -1 ∧ ret ≠ 0)) := by
  unfold decision
  by_cases h2 : ret = -2
  · subst h2; simp
  · by_cases h1 : ret = -1
    · subst h1; cases obj <;> simp
    · by_cases h0 : ret = 0
      · subst h0; cases obj <;> simp
      · simp [h2, h1, h0]

/-- What `process_SB_results` returns never makes the run end with an error. -/
theorem no_fatal (dbg : Bool) (over : ℚ → Bool) (P : Sel) (sb : ℕ → SbRes) (inf feas : List Obj) (B : Box) (r : Out)
    (hr : process dbg over P sb inf feas B = .ok r) : ∃ d, decision r.ret r.brObj.isSome = .ok d := by
  unfold process at hr
  cases hs : scan dbg over sb inf with
  | error e => rw [hs] at hr; cases hr
  | ok o =>
    cases o with
    | none =>
      rw [hs] at hr
      injection hr with hr
      rw [← hr]
      exact ⟨.fathomed, rfl⟩
    | some n =>
      rw [hs] at hr
      dsimp only at hr
      cases h1 : fixInf over sb inf (B, false) with
      | error e => rw [h1] at hr; cases hr
      | ok q =>
        obtain ⟨B1, f2⟩ := q
        rw [h1] at hr
        dsimp only at hr
        cases h3 : fixFeas over sb feas (B1, false) with
        | error e => rw [h3] at hr; cases hr
        | ok q =>
          obtain ⟨B2, f1⟩ := q
          rw [h3] at hr
          dsimp only at hr
          cases f2 with
          | true =>
            rw [if_pos rfl] at hr
            injection hr with hr
            rw [← hr]
            exact ⟨.resolve, rfl⟩
          | false =>
            rw [if_neg (by simp)] at hr
            cases h4 : choose P sb inf with
            | error e => rw [h4] at hr; cases hr
            | ok b =>
              rw [h4] at hr
              injection hr with hr
              rw [← hr]
              cases f1
              · exact ⟨.branch, rfl⟩
              · exact ⟨.branch, rfl⟩

/-- **C156.** If some object is infeasible, what is returned never makes the run end with an error. -/
theorem try_no_fatal (dbg : Bool) (over : ℚ → Bool) (P : Sel) (sb : ℕ → SbRes) (s : St) (B : Box) (h : s.inf ≠ []) (r : Out)
    (hr : tryBranch dbg over P sb s B = .ok r) : ∃ d, decision r.ret r.brObj.isSome = .ok d := by
  unfold tryBranch at hr
  rw [if_neg h] at hr
  exact no_fatal dbg over P sb s.inf s.feas B r hr

/-- **C156.** Whenever the node is solved again, its solution has been cut off: some fractional column's new bound excludes its value. -/
theorem resolve_cuts (dbg : Bool) (over : ℚ → Bool) (P : Sel) (sb : ℕ → SbRes) (inf feas : List Obj) (B : Box) (hc : Complete sb inf)
    (hf : ∀ o ∈ feas, ((sb o.ind).evD = true → ∃ d, (sb o.ind).rD = some d) ∧ ((sb o.ind).evU = true → ∃ u, (sb o.ind).rU = some u))
    (hn : ((inf ++ feas).map Obj.col).Nodup) (hfrac : ∀ o ∈ inf, (⌊o.v⌋ : ℚ) < o.v ∧ o.v < ⌈o.v⌉) (r : Out)
    (hr : process dbg over P sb inf feas B = .ok r) (hres : decision r.ret r.brObj.isSome = .ok .resolve) :
    ∃ o ∈ inf, o.v < r.box.lo o.col ∨ r.box.up o.col < o.v := by
  have hd := (decision_exact r.ret r.brObj.isSome).2.1.1 hres
  have hn' := hn
  rw [List.map_append, List.nodup_append] at hn'
  obtain ⟨c1, c2⟩ := return_code dbg over P sb inf feas B hc hf hn'.1 hn'.2.1
  have hb := (fixed_bounds dbg over P sb inf feas B hc hf hn r hr (by rw [hd.1]; decide)).1
  by_cases h2 : ∃ o ∈ inf, Drop over (sb o.ind) false ∧ Drop over (sb o.ind) true
  · rw [c1 h2] at hr
    injection hr with hr
    have := hd.1
    rw [← hr] at this
    cases this
  · by_cases h1 : ∃ o ∈ inf, Drop over (sb o.ind) false ∨ Drop over (sb o.ind) true
    · obtain ⟨o, ho, h | h⟩ := h1
      · exact ⟨o, ho, Or.inl (by rw [(hb o ho).1 h]; exact (hfrac o ho).2)⟩
      · exact ⟨o, ho, Or.inr (by rw [(hb o ho).2.2.1 h]; exact (hfrac o ho).1)⟩
    · exfalso
      cases h4 : choose P sb inf with
      | error e =>
        obtain ⟨q, hq, hiff⟩ := scan_complete dbg over sb inf hc
        obtain ⟨B1, g2, e1, _, _, e4⟩ := fixInf_exact over sb inf B false hn'.1 (fun o ho he => (hc o ho he).2.2)
        obtain ⟨B2, g1, f1, _⟩ := fixFeas_exact over sb feas B1 false hn'.2.1 hf
        unfold process at hr
        rw [hq] at hr
        cases q with
        | none =>
          injection hr with hr
          have := hd.1
          rw [← hr] at this
          cases this
        | some n =>
          dsimp only at hr
          rw [e1] at hr
          dsimp only at hr
          rw [f1] at hr
          dsimp only at hr
          cases g2 with
          | true =>
            rcases e4.1 rfl with c | ⟨o, ho, he, c⟩
            · cases c
            · obtain ⟨hD, hU, _⟩ := hc o ho he
              refine h1 ⟨o, ho, ?_⟩
              rcases c with c | c
              · exact Or.inl (by simpa [Drop] using ⟨hD, c⟩)
              · exact Or.inr (by simpa [Drop] using ⟨hU, c⟩)
          | false =>
            rw [if_neg (by simp), h4] at hr
            cases hr
      | ok b =>
        obtain ⟨k1, k2⟩ := (c2 h2).2 h1 b h4
        by_cases h3 : ∃ o ∈ feas, Drop over (sb o.ind) false ∨ Drop over (sb o.ind) true
        · obtain ⟨B', hB'⟩ := k1 h3
          rw [hB'] at hr
          injection hr with hr
          have := hd.2
          rw [← hr] at this
          cases this
        · obtain ⟨B', hB'⟩ := k2 h3
          rw [hB'] at hr
          injection hr with hr
          have := hd.2
          rw [← hr] at this
          cases this

/-- **C157 (partial).** If both sides of the object branched on were solved to optimality at this node with an honest solver, the values
handed over bound the objective on the children, first the up branch if so chosen. -/
theorem child_bounds_partial (F : (ℕ → ℚ) → Prop) (f : (ℕ → ℚ) → ℚ) (B B' : Box) (hB : ∀ x, B'.has x → B.has x) (sb : ℕ → SbRes) (o : Obj)
    (w : Bool) (d u : Ans) (hd : (sb o.ind).rD = some d) (hu : (sb o.ind).rU = some u) (hod : d.opt = true) (hou : u.opt = true)
    (htd : Truthful F f (branchBox B ⟨false, o.ind, o.col, o.v, ⌊o.v⌋⟩) d)
    (htu : Truthful F f (branchBox B ⟨true, o.ind, o.col, o.v, ⌈o.v⌉⟩) u) :
    ∃ c1 c2, childBounds sb (o, w) = .ok (c1, c2) ∧
      (∀ x, F x → B'.has x → (if w then (⌈o.v⌉ : ℚ) ≤ x o.col else x o.col ≤ ⌊o.v⌋) → c1 ≤ f x) ∧
      (∀ x, F x → B'.has x → (if w then x o.col ≤ (⌊o.v⌋ : ℚ) else (⌈o.v⌉ : ℚ) ≤ x o.col) → c2 ≤ f x) := by
  have down : ∀ x, F x → B'.has x → x o.col ≤ (⌊o.v⌋ : ℚ) → d.obj ≤ f x := by
    intro x hx hx' hc
    refine htd.2 hod x hx ?_
    intro j
    have := hB x hx' j
    by_cases hj : j = o.col
    · subst hj
      simp only [branchBox, Bool.false_eq_true, false_and, if_false, true_and, if_true]
      exact ⟨this.1, hc⟩
    · simp only [branchBox, Bool.false_eq_true, false_and, if_false, true_and, hj]
      exact this
  have up : ∀ x, F x → B'.has x → (⌈o.v⌉ : ℚ) ≤ x o.col → u.obj ≤ f x := by
    intro x hx hx' hc
    refine htu.2 hou x hx ?_
    intro j
    have := hB x hx' j
    by_cases hj : j = o.col
    · subst hj
      simp only [branchBox, Bool.true_eq_false, false_and, if_false, true_and, if_true]
      exact ⟨hc, this.2⟩
    · simp only [branchBox, Bool.true_eq_false, false_and, if_false, true_and, hj]
      exact this
  cases w
  · exact ⟨d.obj, u.obj, by rw [childBounds, hd, hu]; rfl, by simpa using down, by simpa using up⟩
  · exact ⟨u.obj, d.obj, by rw [childBounds, hd, hu]; rfl, by simpa using up, by simpa using down⟩

/-! ## Refutations -/

/-- A record never used. -/
def noRec : SbRes := ⟨false, false, none, none, none, none⟩

/-- Variable 0 at 1/2, variable 1 at 1/2. -/
def exA : Obj := ⟨0, 0, 1, 1 / 2, 1 / 2, 0, 1, 1, 0⟩

/-- Variable 1 at 1/2. -/
def exB : Obj := ⟨1, 1, 1, 1 / 2, 1 / 2, 0, 1, 0, 0⟩

/-- The unit square. -/
def sq : Box := ⟨fun _ => 0, fun _ => 1⟩

/-- A solver answering by the upper bound of column 0: infeasible if it is 0, else optimal with value 1. -/
def exS (T : Box) : Raw := if T.up 0 = 0 then ⟨false, false, true, 0, 1, 0⟩ else ⟨false, true, false, 1, 1, 0⟩

/-- Selection with the defaults. -/
def exP : Sel := ⟨false, 7 / 10, 1, 10 ^ 300, fun _ => none⟩

/-- Records of an earlier node: the up branch of object 0 was infeasible there. -/
def oldRec : ℕ → SbRes := fun i => if i = 0 then { noRec with rU := some ⟨false, false, true, 0, 1, 0⟩ } else noRec

/-- What of the outcome can be compared. -/
def code (r : Except Err Out) : Except Err Int := r.map Out.ret

/-- Comparison of outcomes. -/
instance {α β : Type} [DecidableEq α] [DecidableEq β] : DecidableEq (Except α β) := fun a b =>
  match a, b with
  | .error x, .error y => if h : x = y then isTrue (by rw [h]) else isFalse (by intro c; injection c; contradiction)
  | .ok x, .ok y => if h : x = y then isTrue (by rw [h]) else isFalse (by intro c; injection c; contradiction)
  | .error _, .ok _ => isFalse (by intro c; cases c)
  | .ok _, .error _ => isFalse (by intro c; cases c)

/-- **C153 (refuted).** With an odd number of branches one side of an infeasible object is not solved; the answer of an earlier node is used
for it.  Here one branch is tried, the up branch was infeasible at another node: the node is fathomed, though (1, 0) is feasible. -/
theorem odd_number_fathoms : code (process false (fun _ => false) exP (records exS sq 1 ⟨1, [exA], 0, [], 2⟩ oldRec) [exA] [] sq) = .ok (-2) ∧
    Honest (fun x => x 0 = 1) (fun _ => 1) exS ∧ Wanted (fun x => x 0 = 1) (fun _ => 1) (fun _ => false) [0] sq (fun _ => 1) := by
  refine ⟨by decide +kernel, ?_, ?_⟩
  · intro T
    unfold exS
    by_cases h : T.up 0 = 0
    · rw [if_pos h]
      refine ⟨?_, by simp⟩
      intro _ x hx hT
      have := (hT 0).2
      rw [h, hx] at this
      norm_num at this
    · rw [if_neg h]
      refine ⟨by simp, ?_⟩
      intro _ x _ _
      exact le_refl _
  · refine ⟨rfl, ?_, ?_, rfl⟩
    · intro j
      simp [sq]
    · intro c _
      exact ⟨1, by norm_num⟩

/-- **C154 (refuted).** With an odd number of branches the assertion that both sides have been evaluated fails. -/
theorem odd_number_asserts :
    code (process true (fun _ => false) exP (records exS sq 1 ⟨1, [exA], 0, [], 2⟩ fun _ => noRec) [exA] [] sq) = .error .assertion := by
  decide +kernel

/-- **C154 (refuted).** Without assertions, at the first such node a status never written is read. -/
theorem odd_number_reads_unwritten :
    code (process false (fun _ => false) exP (records exS sq 1 ⟨1, [exA], 0, [], 2⟩ fun _ => noRec) [exA] [] sq) = .error .undef := by
  decide +kernel

/-- **C155 (refuted).** "Abandoned, optimal, infeasible" need not cover an answer: a solve stopped at the iteration limit has none of the three
flags, its value 0 is used like an optimal one.  Here object 1 is preferred for its two values 0 to object 0 with true values 6 and 7. -/
theorem unsolved_preferred :
    (choose exP (fun i => if i = 0 then ⟨true, true, some ⟨false, true, false, 6, 1, 0⟩, some ⟨false, true, false, 7, 1, 0⟩, none, none⟩
      else ⟨true, true, some ⟨false, false, false, 0, 1, 0⟩, some ⟨false, false, false, 0, 1, 0⟩, none, none⟩) [exA, exB]).map (·.1) =
      .ok exB := by decide +kernel

/-- **C155 (refuted).** With the default of `PreferHighCombinationInBranching` the candidate that improves the bound least is branched
on: object 1 with improvements 0 and 0 instead of object 0 with 9 and 9. -/
theorem least_improvement_chosen :
    (choose exP (fun i => if i = 0 then ⟨true, true, some ⟨false, true, false, 10, 1, 0⟩, some ⟨false, true, false, 10, 1, 0⟩, none, none⟩
      else ⟨true, true, some ⟨false, true, false, 1, 1, 0⟩, some ⟨false, true, false, 1, 1, 0⟩, none, none⟩) [exA, exB]).map (·.1) =
      .ok exB := by decide +kernel

/-- **C156 (refuted).** When no object is infeasible, the run ends with an error, whatever was solved. -/
theorem nothing_infeasible_fatal (dbg : Bool) (over : ℚ → Bool) (P : Sel) (sb : ℕ → SbRes) (s : St) (B : Box) (h : s.inf = []) :
    (tryBranch dbg over P sb s B).map (fun r => decision r.ret r.brObj.isSome) = .ok (.error .fatal) := by
  unfold tryBranch
  rw [if_pos h]
  rfl

/-- **C157 (refuted).** For a side abandoned the bound handed over is 0, above the value −5 of a feasible point of that child. -/
theorem abandoned_child_bound :
    childBounds (fun _ => ⟨true, true, some (ansOf ⟨true, false, false, -7, 9, 0⟩), some (ansOf ⟨false, true, false, -6, 9, 0⟩), none, none⟩)
      (exA, true) = .ok (-6, 0) := by decide +kernel

/-- **C157 (refuted).** An object taken because it was not evaluated hands over what an earlier node left, or what was never written. -/
theorem unevaluated_child_bound (d u : Ans) :
    choose exP (clear fun _ => ⟨true, true, some d, some u, none, none⟩) [exA] = .ok (exA, true) ∧
    childBounds (clear fun _ => ⟨true, true, some d, some u, none, none⟩) (exA, true) = .ok (u.obj, d.obj) ∧
    choose exP (clear fun _ => noRec) [exA] = .ok (exA, true) ∧
    childBounds (clear fun _ => noRec) (exA, true) = .error .undef := ⟨rfl, rfl, rfl, rfl⟩

/-! ## Examples -/

/-- Both branches of both objects, hypotheses of the soundness theorem. -/
example : (4 % 2 = 0 ∨ 2 * [exA, exB].length ≤ 4) ∧ (([exA, exB] ++ []).map Obj.ind).Nodup ∧ (([exA, exB] ++ []).map Obj.col).Nodup := by
  decide

/-- The down branch of object 0 is infeasible: variable 0 is fixed at 1 and the node solved again. -/
example : code (process true (fun _ => false) exP (records exS sq 4 ⟨1, [exA, exB], 0, [], 4⟩ oldRec) [exA, exB] [] sq) = .ok (-1) ∧
    (process true (fun _ => false) exP (records exS sq 4 ⟨1, [exA, exB], 0, [], 4⟩ oldRec) [exA, exB] [] sq).map (fun r => (r.box.lo 0, r.box.up 0)) =
      .ok (1, 1) := by decide +kernel

/-- Nothing to drop: object 0 is branched on, its down branch first. -/
example : (process true (fun _ => false) exP (fun i => if i = 0 then
      ⟨true, true, some ⟨false, true, false, 2, 1, 0⟩, some ⟨false, true, false, 3, 1, 0⟩, none, none⟩ else noRec) [exA, exB] [] sq).map
      (fun r => (r.ret, r.brObj)) = .ok (0, some (exA, false)) := by decide +kernel

/-- **C156** nothing is changed and the code is 0 when no object is infeasible; otherwise the records decide. -/
theorem tryBranch_exact (dbg : Bool) (over : ℚ → Bool) (P : Sel) (sb : ℕ → SbRes) (s : St) (B : Box) :
    (s.inf = [] → tryBranch dbg over P sb s B = .ok ⟨0, B, none⟩) ∧
    (s.inf ≠ [] → tryBranch dbg over P sb s B = process dbg over P sb s.inf s.feas B) := by
  constructor <;> intro h <;> simp [tryBranch, h]

end Verif.Bcp

import Verif.Dec.BoaConvex
import Verif.Dec.FpMinlp
/-!
# C315: B-iFP on convex problems

The search of `Dec/Quesada.lean` with the feasibility pump for MINLP (`Dec/FpMinlp.lean`) in front of the feasibility checker.  It is called at the root only (frequency -99,
src/Algorithms/BonBonminSetup.cpp:763-775), before the checker (789-800).
-/
namespace Verif.Dec.Ifp
open Verif.Oa Verif.Div Verif.Bab.Search Verif.Dec.Cvx

variable {X κ : Type}

/-- `MinlpFeasPump::performOa` (BonFpForMinlp.cpp:62-245) with at most `n` passes; `p` is the solution of the relaxation. -/
def fpRun (o : FpO X κ) (c : FpCfg) (n : ℕ) (cuts : List κ) (cut0 : ℚ) (p : X) (nLocal nSols : ℕ) : Option (FpSt X κ ⊕ FpSt X κ) := fpIter o c n (fpInit o cuts cut0 p nLocal nSols)

/-- What the pump leaves behind when it returns. -/
def fpEnd : Option (FpSt X κ ⊕ FpSt X κ) → Option (FpSt X κ)
  | some (.inr t) => some t
  | _ => none

/-- The solution stored last (BonOaDecBase.cpp:378-386), with its value. -/
def fpSol (f : X → ℚ) (t : FpSt X κ) : Option (ℚ × X) := t.found.getLast?.map fun x => (f x, x)

/-- The cuts added by the call at the root. -/
def fpCuts (b0 : Box) (pool : List κ) (e : Option (FpSt X κ)) (b : Box) : List κ := if b = b0 then e.elim [] fun t => t.cuts.drop pool.length else []

/-- The root is given up when the pump returns `DBL_MAX` (BonFpForMinlp.cpp:238-244; the bound is set at BonOaDecBase.cpp:329-334 and is above the 1e50 of `OsiBabSolver::mipFeasible`). -/
def fpQuit (f : X → ℚ) (c : FpCfg) (b0 : Box) (cut0 : ℚ) (e : Option (FpSt X κ)) (b : Box) (v : ℚ) : Option (Option (ℚ × X)) :=
  if b = b0 ∧ v = cut0 then e.bind fun t => if fpClaim c t = true then some (fpSol f t) else none else none

/-- Otherwise the solution is handed over after the node. -/
def fpHeur (f : X → ℚ) (b0 : Box) (e : Option (FpSt X κ)) (b : Box) : Option (ℚ × X) := if b = b0 then e.bind (fpSol f) else none

/-! ## The loop: solutions and cuts -/

/-- The three ways through the NLPs of a pass: a new solution, none, or no point with the integers. -/
theorem fpNlp_cases {o : FpO X κ} {c : FpCfg} {s : FpSt X κ} {x : X} {r : X × FpSt X κ} (h : fpNlp o c s x = some r) :
    (r.2.cuts = s.cuts ∧ r.2.pass = s.pass ∧ r.2.nLocal = s.nLocal ∧ r.2.milpOpt = s.milpOpt) ∧
    (((o.dist x s.pass).1 < 1 / 10 ^ 6 ∧ (o.nlp x s.pass).optimal = true ∧ (o.nlp x s.pass).obj < s.cutoff ∧ r.1 = (o.nlp x s.pass).pt ∧
        r.2.ub = min s.ub (o.nlp x s.pass).obj ∧ r.2.cutoff = newCutoff c.eps r.2.ub ∧ r.2.cutoff < r.2.ub ∧ r.2.found = s.found ++ [r.1] ∧ r.2.nSols = s.nSols + 1) ∨
      ((o.dist x s.pass).1 < 1 / 10 ^ 6 ∧ ¬ ((o.nlp x s.pass).optimal = true ∧ (o.nlp x s.pass).obj < s.cutoff) ∧ r.1 = (o.nlp x s.pass).pt ∧
        r.2.ub = s.ub ∧ r.2.cutoff = s.cutoff ∧ r.2.found = s.found ∧ r.2.nSols = s.nSols) ∨
      (1 / 10 ^ 6 ≤ (o.dist x s.pass).1 ∧ r.1 = (o.dist x s.pass).2 ∧ r.2.ub = s.ub ∧ r.2.cutoff = s.cutoff ∧ r.2.found = s.found ∧ r.2.nSols = s.nSols)) := by
  unfold fpNlp at h
  simp only at h
  split at h
  · rename_i hd
    split at h
    · rename_i ho
      split at h
      · rename_i hn
        rw [← Option.some.inj h]
        exact ⟨⟨rfl, rfl, rfl, rfl⟩, Or.inl ⟨hd, ho.1, ho.2, rfl, rfl, rfl, hn, rfl, rfl⟩⟩
      · simp at h
    · rename_i ho
      rw [← Option.some.inj h]
      exact ⟨⟨rfl, rfl, rfl, rfl⟩, Or.inr (Or.inl ⟨hd, ho, rfl, rfl, rfl, rfl, rfl⟩)⟩
  · rename_i hd
    rw [← Option.some.inj h]
    exact ⟨⟨rfl, rfl, rfl, rfl⟩, Or.inr (Or.inr ⟨not_lt.mp hd, rfl, rfl, rfl, rfl, rfl⟩)⟩

/-- A pass is its NLPs, the cuts at the point they give, and the next MILP. -/
theorem fpPass_split {o : FpO X κ} {c : FpCfg} {s t : FpSt X κ} {x : X} (h : fpPass o c s x = some t) :
    ∃ r, fpNlp o c s x = some r ∧ t = fpNext o c { r.2 with cuts := r.2.cuts ++ o.cuts r.1 s.pass } := by
  unfold fpPass at h
  split at h
  · obtain ⟨r, hr, h2⟩ := Option.bind_eq_some_iff.1 h
    split at h2
    · simp at h2
    · exact ⟨r, hr, (Option.some.inj h2).symm⟩
  · simp at h

/-- What holds at each moment of the loop: the cuts are those at the beginning and cuts made at answers of the NLP solver; the last point stored is the best one, and the cutoff belongs to it. -/
structure FpTrail (o : FpO X κ) (c : FpCfg) (cuts : List κ) (cut0 : ℚ) (f : X → ℚ) (s : FpSt X κ) : Prop where
  cuts : ∃ l, s.cuts = cuts ++ l ∧ ∀ k ∈ l, ∃ x j, k ∈ o.cuts (o.nlp x j).pt j ∨ k ∈ o.cuts (o.dist x j).2 j
  last : (s.found = [] ∧ s.ub = cut0 ∧ s.cutoff = cut0) ∨
    (∃ l x, s.found = l ++ [x] ∧ f x = s.ub ∧ s.cutoff = newCutoff c.eps s.ub ∧ newCutoff c.eps s.ub < s.ub ∧ s.ub < cut0)
  found : ∀ z ∈ s.found, ∃ x j, (o.nlp x j).optimal = true ∧ z = (o.nlp x j).pt

theorem trail_pass {o : FpO X κ} {c : FpCfg} {cuts : List κ} {cut0 : ℚ} {f : X → ℚ} (hf : ∀ x k, (o.nlp x k).optimal = true → f (o.nlp x k).pt = (o.nlp x k).obj)
    {s t : FpSt X κ} {x : X} (h : FpTrail o c cuts cut0 f s) (he : fpPass o c s x = some t) : FpTrail o c cuts cut0 f t := by
  obtain ⟨r, hr, rfl⟩ := fpPass_split he
  obtain ⟨⟨a1, -, -, -⟩, hcase⟩ := fpNlp_cases hr
  obtain ⟨k1, k2, k3, k4, -⟩ := fpNext_keeps o c { r.2 with cuts := r.2.cuts ++ o.cuts r.1 s.pass }
  obtain ⟨l, hl1, hl2⟩ := h.cuts
  refine ⟨⟨l ++ o.cuts r.1 s.pass, ?_, fun k hk => ?_⟩, ?_, ?_⟩
  · rw [k1]; dsimp only; rw [a1, hl1, List.append_assoc]
  · rcases List.mem_append.mp hk with hk | hk
    · exact hl2 k hk
    · refine ⟨x, s.pass, ?_⟩
      rcases hcase with ⟨_, _, _, e, _⟩ | ⟨_, _, e, _⟩ | ⟨_, e, _⟩
      · exact Or.inl (e ▸ hk)
      · exact Or.inl (e ▸ hk)
      · exact Or.inr (e ▸ hk)
  · rw [k2, k3, k4]
    dsimp only
    rcases hcase with ⟨_, ho, hlt, e1, e2, e3, e4, e5, _⟩ | ⟨_, _, _, e2, e3, e4, _⟩ | ⟨_, _, e2, e3, e4, _⟩
    · have hub : (o.nlp x s.pass).obj < s.ub ∧ s.ub ≤ cut0 := by
        rcases h.last with ⟨_, g2, g3⟩ | ⟨_, _, _, _, g3, g4, g5⟩
        · rw [g2]; rw [g3] at hlt; exact ⟨hlt, le_rfl⟩
        · exact ⟨by rw [g3] at hlt; exact hlt.trans g4, g5.le⟩
      have hm : r.2.ub = (o.nlp x s.pass).obj := by rw [e2]; exact min_eq_right hub.1.le
      refine Or.inr ⟨s.found, r.1, e5, ?_, e3, by rw [← e3]; exact e4, ?_⟩
      · rw [e1, hm]; exact hf x s.pass ho
      · rw [hm]; exact lt_of_lt_of_le hub.1 hub.2
    · rw [e2, e3, e4]; exact h.last
    · rw [e2, e3, e4]; exact h.last
  · rw [k4]
    dsimp only
    rcases hcase with ⟨_, ho, _, e1, _, _, _, e5, _⟩ | ⟨_, _, _, _, _, e4, _⟩ | ⟨_, _, _, _, e4, _⟩
    · rw [e5]
      intro z hz
      rcases List.mem_append.mp hz with hz | hz
      · exact h.found z hz
      · exact ⟨x, s.pass, ho, by rw [List.mem_singleton.mp hz, e1]⟩
    · rw [e4]; exact h.found
    · rw [e4]; exact h.found

/-- **C315.**  Whenever the pump is looked at: its cuts are the given ones followed by cuts made at answers of the NLP solver, the points stored are optimal solutions of NLPs,
the last one has the value of the upper bound, which is below the start cutoff, and the cutoff lies the increment below it; without a solution both are the start cutoff. -/
theorem fp_trail (o : FpO X κ) (c : FpCfg) (f : X → ℚ) (hf : ∀ x k, (o.nlp x k).optimal = true → f (o.nlp x k).pt = (o.nlp x k).obj) (n : ℕ) (cuts : List κ) (cut0 : ℚ) (p : X)
    (nLocal nSols : ℕ) (r : FpSt X κ ⊕ FpSt X κ) (h : fpRun o c n cuts cut0 p nLocal nSols = some r) : FpTrail o c cuts cut0 f (r.elim id id) := by
  have key : ∀ (n : ℕ) (s : FpSt X κ) r, FpTrail o c cuts cut0 f s → fpIter o c n s = some r → FpTrail o c cuts cut0 f (r.elim id id) := by
    intro n
    induction n with
    | zero => intro s r hs he; rw [← Option.some.inj he]; exact hs
    | succ n ih =>
      intro s r hs he
      unfold fpIter at he
      split at he
      · rw [← Option.some.inj he]; exact hs
      · obtain ⟨q, hq, he⟩ := Option.bind_eq_some_iff.1 he
        exact ih _ _ (trail_pass hf hs hq) he
  exact key n _ r ⟨⟨[], by simp [fpInit], by simp⟩, Or.inl ⟨rfl, rfl, rfl⟩, by simp [fpInit]⟩ h

/-! ## The loop: when it returns -/

/-- Finitely many integer assignments, and no MILP with the cuts of a pass proposes the assignment of that pass again: after an NLP with the integers fixed only when its cutoff is below the value. -/
structure FpFinite {α : Type} (o : FpO X κ) (y : X → α) (Y : List α) : Prop where
  inY : ∀ cs v q k z, (o.milp cs v q k).2 = some z → y z ∈ Y
  newNlp : ∀ cs v q k z, (o.milp cs v q k).2 = some z → ∀ x j, (o.dist x j).1 < 1 / 10 ^ 6 → ((o.nlp x j).optimal = true → v < (o.nlp x j).obj) →
    (∀ k ∈ o.cuts (o.nlp x j).pt j, k ∈ cs) → y z ≠ y x
  newDist : ∀ cs v q k z, (o.milp cs v q k).2 = some z → ∀ x j, 1 / 10 ^ 6 ≤ (o.dist x j).1 → (∃ cs v q k, (o.milp cs v q k).2 = some x) → (∀ k ∈ o.cuts (o.dist x j).2 j, k ∈ cs) → y z ≠ y x

/-- No solution of an NLP has a cutoff as its value: not the start cutoff, and not one that lies the increment below another solution. -/
def NoTies (o : FpO X κ) (eps cut0 : ℚ) : Prop :=
  ∀ x j, (o.nlp x j).optimal = true → (o.nlp x j).obj ≠ cut0 ∧ ∀ x' j', (o.nlp x' j').optimal = true → (o.nlp x j).obj ≠ newCutoff eps (o.nlp x' j').obj

/-- The assignment of pass `x`, `j` is cut off by `cs` and the cutoff `v`. -/
def Spent (o : FpO X κ) (cs : List κ) (v : ℚ) (x : X) (j : ℕ) : Prop :=
  ((o.dist x j).1 < 1 / 10 ^ 6 ∧ ((o.nlp x j).optimal = true → v < (o.nlp x j).obj) ∧ ∀ k ∈ o.cuts (o.nlp x j).pt j, k ∈ cs) ∨
    (1 / 10 ^ 6 ≤ (o.dist x j).1 ∧ (∃ cs v q k, (o.milp cs v q k).2 = some x) ∧ ∀ k ∈ o.cuts (o.dist x j).2 j, k ∈ cs)

/-- **C315.**  With finitely many assignments, no ties and no limit reached the pump does not run for ever, and it is left by its MILP: after at most as many passes as there are assignments. -/
theorem fp_passes {α : Type} [DecidableEq α] (o : FpO X κ) (c : FpCfg) (y : X → α) (Y : List α) (hF : FpFinite o y Y) (cuts : List κ) (cut0 : ℚ) (p : X) (nLocal nSols : ℕ) (ht : NoTies o c.eps cut0)
    (hlate : ∀ k, o.late k = false) (h1 : nLocal + Y.length < c.maxLocal) (h2 : nSols + Y.length < c.maxSols) (r : FpSt X κ ⊕ FpSt X κ)
    (h : fpRun o c (Y.length + 1) cuts cut0 p nLocal nSols = some r) : ∃ t, r = .inr t ∧ t.sol = none ∧ LeftByMilp o t := by
  have key : ∀ (n : ℕ) (s : FpSt X κ) (seen : List α), seen.Nodup → (∀ a ∈ seen, a ∈ Y) →
      (∀ a ∈ seen, ∃ x j, y x = a ∧ Spent o s.cuts s.cutoff x j) → (∀ z, s.sol = some z → y z ∈ Y ∧ y z ∉ seen) → LeftByMilp o s →
      (s.cutoff ≤ s.ub) → (s.cutoff = cut0 ∨ ∃ x j, (o.nlp x j).optimal = true ∧ s.cutoff = newCutoff c.eps (o.nlp x j).obj) →
      seen.length + n = Y.length + 1 → s.nLocal ≤ nLocal + 1 + seen.length → s.nSols ≤ nSols + seen.length →
      ∀ r, fpIter o c n s = some r → ∃ t, r = .inr t ∧ t.sol = none ∧ LeftByMilp o t := by
    intro n
    induction n with
    | zero =>
      intro s seen hnd hY _ _ _ _ _ hlen _ _ r _
      have : seen.length ≤ Y.length := (List.subperm_of_subset hnd hY).length_le
      omega
    | succ n ih =>
      intro s seen hnd hY hsp hnew hleft hcu hco hlen hl hs r he
      unfold fpIter at he
      split at he
      · rename_i hsol
        exact ⟨s, (Option.some.inj he).symm, hsol, hleft⟩
      · rename_i x hsol
        obtain ⟨hxY, hxn⟩ := hnew x hsol
        obtain ⟨t, hq, he⟩ := Option.bind_eq_some_iff.1 he
        obtain ⟨u, hu, htt⟩ := fpPass_split hq
        obtain ⟨⟨a1, a2, a3, a4⟩, hcase⟩ := fpNlp_cases hu
        have hnd' : (y x :: seen).Nodup := List.nodup_cons.mpr ⟨hxn, hnd⟩
        have hY' : ∀ a ∈ y x :: seen, a ∈ Y := by
          intro a ha
          rcases List.mem_cons.mp ha with rfl | ha
          · exact hxY
          · exact hY a ha
        have hle : (y x :: seen).length ≤ Y.length := (List.subperm_of_subset hnd' hY').length_le
        simp only [List.length_cons] at hle
        have hns : u.2.nSols ≤ s.nSols + 1 := by
          rcases hcase with ⟨_, _, _, _, _, _, _, _, e⟩ | ⟨_, _, _, _, _, _, e⟩ | ⟨_, _, _, _, _, e⟩ <;> omega
        have hdown : u.2.cutoff ≤ s.cutoff := by
          rcases hcase with ⟨_, _, e3, _, e5, _, e7, _, _⟩ | ⟨_, _, _, _, e, _⟩ | ⟨_, _, _, e, _⟩
          · rw [e5] at e7
            exact (e7.le.trans (min_le_right _ _)).trans e3.le
          · exact e.le
          · exact e.le
        have hcu' : u.2.cutoff ≤ u.2.ub := by
          rcases hcase with ⟨_, _, _, _, _, _, e7, _, _⟩ | ⟨_, _, _, e1, e, _⟩ | ⟨_, _, e1, e, _⟩
          · exact e7.le
          · rw [e1, e]; exact hcu
          · rw [e1, e]; exact hcu
        have hco' : u.2.cutoff = cut0 ∨ ∃ x j, (o.nlp x j).optimal = true ∧ u.2.cutoff = newCutoff c.eps (o.nlp x j).obj := by
          rcases hcase with ⟨_, e2, e3, _, e5, e6, _, _, _⟩ | ⟨_, _, _, _, e, _⟩ | ⟨_, _, _, e, _⟩
          · refine Or.inr ⟨x, s.pass, e2, ?_⟩
            rw [e6, e5, min_eq_right (e3.le.trans hcu)]
          · rw [e]; exact hco
          · rw [e]; exact hco
        have hnext : t = ⟨u.2.cuts ++ o.cuts u.1 s.pass, u.2.cutoff, u.2.ub, (o.milp (u.2.cuts ++ o.cuts u.1 s.pass) u.2.cutoff u.2.cur (u.2.pass + 1)).2,
            (o.milp (u.2.cuts ++ o.cuts u.1 s.pass) u.2.cutoff u.2.cur (u.2.pass + 1)).1, u.2.nLocal + 1, u.2.nSols, u.2.pass + 1, u.2.found, u.2.cur⟩ := by
          rw [htt]
          unfold fpNext
          dsimp only
          rw [hlate, if_neg (by simp), if_pos ⟨by omega, by omega⟩]
        have hsp' : ∀ a ∈ y x :: seen, ∃ x' j, y x' = a ∧ Spent o t.cuts t.cutoff x' j := by
          intro a ha
          rw [hnext]
          dsimp only
          rcases List.mem_cons.mp ha with rfl | ha
          · refine ⟨x, s.pass, rfl, ?_⟩
            rcases hcase with ⟨e1, e2, e3, e4, e5, e6, e7, _⟩ | ⟨e1, e2, e3, _, e5, _⟩ | ⟨e1, e2, _⟩
            · refine Or.inl ⟨e1, fun _ => ?_, fun k hk => by rw [e4]; exact List.mem_append_right _ hk⟩
              rw [e5] at e7
              exact e7.trans_le (min_le_right _ _)
            · refine Or.inl ⟨e1, fun ho => ?_, fun k hk => by rw [e3]; exact List.mem_append_right _ hk⟩
              rw [e5]
              have hge : s.cutoff ≤ (o.nlp x s.pass).obj := by
                by_contra hcon
                exact e2 ⟨ho, not_le.mp hcon⟩
              refine lt_of_le_of_ne hge fun heq => ?_
              rcases hco with hco | ⟨x', j', g1, g2⟩
              · exact (ht x s.pass ho).1 (by rw [← heq, hco])
              · exact (ht x s.pass ho).2 x' j' g1 (by rw [← heq, g2])
            · obtain ⟨q', k', hm⟩ := hleft
              exact Or.inr ⟨e1, ⟨_, _, q', k', by rw [hm]; exact hsol⟩, fun k hk => by rw [e2]; exact List.mem_append_right _ hk⟩
          · obtain ⟨x', j, e1, hsp1⟩ := hsp a ha
            refine ⟨x', j, e1, ?_⟩
            rcases hsp1 with ⟨g1, g2, g3⟩ | ⟨g1, g2, g3⟩
            · exact Or.inl ⟨g1, fun ho => lt_of_le_of_lt hdown (g2 ho), fun k hk => List.mem_append_left _ (by rw [a1]; exact g3 k hk)⟩
            · exact Or.inr ⟨g1, g2, fun k hk => List.mem_append_left _ (by rw [a1]; exact g3 k hk)⟩
        refine ih t (y x :: seen) hnd' hY' hsp' ?_ ?_ ?_ ?_ (by simp; omega) ?_ ?_ r he
        · intro z hz
          have hz' : (o.milp t.cuts t.cutoff u.2.cur (u.2.pass + 1)).2 = some z := by rw [hnext] at hz ⊢; exact hz
          refine ⟨hF.inY _ _ _ _ _ hz', fun hmem => ?_⟩
          obtain ⟨x', j, e1, hsp1⟩ := hsp' _ hmem
          rcases hsp1 with ⟨g1, g2, g3⟩ | ⟨g1, g2, g3⟩
          · exact hF.newNlp _ _ _ _ z hz' x' j g1 g2 g3 e1.symm
          · exact hF.newDist _ _ _ _ z hz' x' j g1 g2 g3 e1.symm
        · rw [hnext]; exact ⟨_, _, rfl⟩
        · rw [hnext]; exact hcu'
        · rw [hnext]; exact hco'
        · rw [hnext]; simp only [List.length_cons]; omega
        · rw [hnext]; simp only [List.length_cons]; omega
  refine key _ _ [] List.nodup_nil (by simp) (by simp) ?_ ⟨p, 0, rfl⟩ le_rfl (Or.inl rfl) (by simp) (by simp [fpInit]) (by simp [fpInit]) r h
  intro z hz
  exact ⟨hF.inY _ _ _ _ z hz, by simp⟩

/-- Two assignments, of values 3 and 2.97; the MILP proposes one of value at most the cutoff, the worse one first. -/
def exTie : FpO Bool ℕ where
  milp := fun _ v _ _ => (true, if 3 ≤ v then some false else if 297 / 100 ≤ v then some true else none)
  dist := fun x _ => (0, x)
  nlp := fun x _ => ⟨true, if x then 297 / 100 else 3, x⟩
  resolve := fun _ => true
  cuts := fun _ _ => [0]
  near := fun _ => true
  late := fun _ => false

/-- **C315 (refuted).** The pump does not end in case of a tie: with solutions of values 3 and 2.97 and an increment of 1/100 the second one is proposed again in every pass, until the limit on local
searches (`INT_MAX`, BonFpForMinlp.cpp:39) is reached. -/
theorem fp_tie_loops : FpFinite exTie id [false, true] ∧ ∀ M n, n < M → ∃ s, fpRun exTie ⟨1 / 100, M, M, true⟩ n [] 10 true 0 0 = some (.inl s) := by
  refine ⟨⟨fun _ _ _ _ z _ => by cases z <;> simp, fun cs v q k z h x j _ hv _ he => ?_, fun cs v q k z _ x j hd => ?_⟩, fun M n hn => ?_⟩
  · have hv' := hv rfl
    change (if 3 ≤ v then some false else if 297 / 100 ≤ v then some true else none) = some z at h
    change v < (if x = true then 297 / 100 else 3) at hv'
    have he' : z = x := he
    subst he'
    cases z
    · split_ifs at h with g1 g2
      · simp at hv'
        linarith
      · simp at h
    · split_ifs at h with g1 g2
      · simp at h
      · simp at hv'
        linarith
  · change (1 / 10 ^ 6 : ℚ) ≤ 0 at hd
    norm_num at hd
  · have key : ∀ n (s : FpSt Bool ℕ), s.sol = some true → s.cutoff = 297 / 100 → s.nLocal + n ≤ M → s.nSols < M → ∃ r, fpIter exTie ⟨1 / 100, M, M, true⟩ n s = some (.inl r) := by
      intro n
      induction n with
      | zero => intro s _ _ _ _; exact ⟨s, rfl⟩
      | succ n ih =>
        intro s h1 h2 h3 h4
        have hp : fpPass exTie ⟨1 / 100, M, M, true⟩ s true = some ⟨s.cuts ++ [0], s.cutoff, s.ub, some true, true, s.nLocal + 1, s.nSols, s.pass + 1, s.found, true⟩ := by
          have hn : fpNlp exTie ⟨1 / 100, M, M, true⟩ s true = some (true, { s with cur := true }) := by
            simp [fpNlp, exTie, h2]
          have hl : s.nLocal < M := by omega
          unfold fpPass
          rw [hn]
          norm_num [exTie, fpNext, h2, hl, h4]
        unfold fpIter
        rw [h1]
        simp only [hp, Option.bind_some]
        exact ih _ rfl h2 (by simp only; omega) h4
    cases n with
    | zero => exact ⟨_, rfl⟩
    | succ n =>
      have hp : fpPass exTie ⟨1 / 100, M, M, true⟩ (fpInit exTie [] 10 true 0 0) false = some
          (if 1 < M then ⟨[0], 297 / 100, 3, some true, true, 2, 1, 1, [false], true⟩ else ⟨[0], 297 / 100, 3, none, true, 1, 1, 0, [false], true⟩) := by
        unfold fpPass fpNlp fpNext fpInit
        norm_num [exTie, newCutoff]
      have hi : (fpInit exTie [] 10 true 0 0).sol = some false := by norm_num [fpInit, exTie]
      unfold fpRun fpIter
      rw [hi]
      simp only [hp, Option.bind_some]
      rw [if_pos (by omega)]
      cases n with
      | zero => exact ⟨_, rfl⟩
      | succ n => exact key (n + 1) _ rfl rfl (by simp only; omega) (by simp only; omega)

/-- **C315.**  With a positive increment, cuts at every answer of the NLP solver, no solution of value 0 and MILP solutions near integers, the pump runs into no assert. -/
theorem fp_runs (o : FpO X κ) (c : FpCfg) (he : 0 < c.eps) (hz : ∀ x k, (o.nlp x k).optimal = true → (o.nlp x k).obj ≠ 0) (hc : ∀ x k, o.cuts (o.nlp x k).pt k ≠ [] ∧ o.cuts (o.dist x k).2 k ≠ [])
    (hnear : ∀ cs v q k z, (o.milp cs v q k).2 = some z → o.near z = true) (n : ℕ) (cuts : List κ) (cut0 : ℚ) (p : X) (nLocal nSols : ℕ) : fpRun o c n cuts cut0 p nLocal nSols ≠ none := by
  have key : ∀ (n : ℕ) (s : FpSt X κ), (∀ z, s.sol = some z → o.near z = true) → s.cutoff ≤ s.ub → fpIter o c n s ≠ none := by
    intro n
    induction n with
    | zero => intro s _ _ h; simp [fpIter] at h
    | succ n ih =>
      intro s h1 h2
      unfold fpIter
      split
      · simp
      · rename_i x hx
        have hr : ∃ r, fpNlp o c s x = some r := by
          unfold fpNlp
          dsimp only
          by_cases hd : (o.dist x s.pass).1 < 1 / 10 ^ 6
          · rw [if_pos hd]
            by_cases hb : (o.nlp x s.pass).optimal = true ∧ (o.nlp x s.pass).obj < s.cutoff
            · have hm : min s.ub (o.nlp x s.pass).obj = (o.nlp x s.pass).obj := min_eq_right (hb.2.le.trans h2)
              have : newCutoff c.eps (o.nlp x s.pass).obj < (o.nlp x s.pass).obj := by
                rw [newCutoff_eq]
                have := mul_pos he (abs_pos.mpr (hz x _ hb.1))
                linarith
              rw [if_pos hb, hm, if_pos this]
              exact ⟨_, rfl⟩
            · rw [if_neg hb]; exact ⟨_, rfl⟩
          · rw [if_neg hd]; exact ⟨_, rfl⟩
        obtain ⟨r, hr⟩ := hr
        obtain ⟨-, hcase⟩ := fpNlp_cases hr
        have hne : o.cuts r.1 s.pass ≠ [] := by
          rcases hcase with ⟨_, _, _, e, _⟩ | ⟨_, _, e, _⟩ | ⟨_, e, _⟩ <;> rw [e]
          · exact (hc x _).1
          · exact (hc x _).1
          · exact (hc x _).2
        have hcu : r.2.cutoff ≤ r.2.ub := by
          rcases hcase with ⟨_, _, _, _, _, _, e7, _, _⟩ | ⟨_, _, _, e1, e, _⟩ | ⟨_, _, e1, e, _⟩
          · exact e7.le
          · rw [e1, e]; exact h2
          · rw [e1, e]; exact h2
        have hp : fpPass o c s x = some (fpNext o c { r.2 with cuts := r.2.cuts ++ o.cuts r.1 s.pass }) := by
          unfold fpPass
          rw [if_pos (h1 x hx), hr, Option.bind_some, if_neg hne]
        rw [hp, Option.bind_some]
        refine ih _ ?_ ?_
        · intro z hzz
          unfold fpNext at hzz
          dsimp only at hzz
          split_ifs at hzz
          exact hnear _ _ _ _ z hzz
        · obtain ⟨-, k2, k3, -, -⟩ := fpNext_keeps o c { r.2 with cuts := r.2.cuts ++ o.cuts r.1 s.pass }
          rw [k2, k3]
          exact hcu
  exact key n _ (fun z hz => hnear _ _ _ _ z hz) le_rfl

/-! ## Convex problems -/

/-- What is assumed of the call at the root: it is the one of the code with the cuts of the interface and an NLP solver that is right; a MILP that is proved to have no solution has none; the increment
is the one of the checker. -/
structure FpCall (P : Prob) (ints : Pt P → List ℚ) (b0 : Box) (eps : ℚ) (L : Pt P → Prop) (o : FpO (Pt P) Cut) (c : FpCfg) (dual : Pt P → ℕ → ℕ → ℚ) (theta : ℚ) (lp : Bool) : Prop where
  cuts : o.cuts = fun q k => cutsAt P (dual q k) none theta lp q
  pts : ∀ x k, L (o.nlp x k).pt ∧ L (o.dist x k).2
  nlp : ∀ x k, (o.nlp x k).optimal = true → (Feas P (o.nlp x k).pt ∧ Whole (ints (o.nlp x k).pt)) ∧ P.F (o.nlp x k).pt.1 = (o.nlp x k).obj
  milp : ∀ cs v q k, o.milp cs v q k = (true, none) → ∀ z, Feas P z → Whole (ints z) → (∀ c ∈ cs, Sat P.T.inf c z.1) → v ≤ P.F z.1
  box : ∀ y, Feas P y → InBox b0 (ints y)
  eps : c.eps = eps

/-- **C315.**  On convex problems everything the pump hands over is right: its cuts, and its solution, which is below the start cutoff.  If it gives the root up after a MILP without solution (and not
at a limit), no solution is missed: the one it stored last is the best one up to the increment. -/
theorem ifp_root {P : Prob} {L : Pt P → Prop} (hP : Convex P L) (ints : Pt P → List ℚ) (b0 : Box) (pool : List Cut) (cut0 eps : ℚ) (o : FpO (Pt P) Cut) (c : FpCfg)
    (dual : Pt P → ℕ → ℕ → ℚ) (theta : ℚ) (lp : Bool) (hc : FpCall P ints b0 eps L o c dual theta lp) (n : ℕ) (p : Pt P) (nLocal nSols : ℕ)
    (hpool : ∀ k ∈ pool, ∀ y, Feas P y → Sat P.T.inf k y.1) (t : FpSt (Pt P) Cut) (h : fpRun o c n pool cut0 p nLocal nSols = some (.inr t)) :
    (∀ k ∈ t.cuts, ∀ y, Feas P y → Sat P.T.inf k y.1) ∧
    (∀ u x, fpSol (fun y => P.F y.1) t = some (u, x) → u = P.F x.1 ∧ Sol ints (minlp P) b0 x ∧ u < cut0) ∧
    (fpClaim c t = true → LeftByMilp o t → ∀ y, Feas P y → Whole (ints y) → Qg.kept eps cut0 (fpSol (fun y => P.F y.1) t) ≤ P.F y.1) := by
  have hf : ∀ x k, (o.nlp x k).optimal = true → P.F (o.nlp x k).pt.1 = (o.nlp x k).obj := fun x k ho => (hc.nlp x k ho).2
  have htr := fp_trail o c (fun y : Pt P => P.F y.1) hf n pool cut0 p nLocal nSols _ h
  change FpTrail o c pool cut0 _ t at htr
  have hcuts : ∀ k ∈ t.cuts, ∀ y, Feas P y → Sat P.T.inf k y.1 := by
    obtain ⟨l, hl1, hl2⟩ := htr.cuts
    intro k hk y hy
    rw [hl1] at hk
    rcases List.mem_append.mp hk with hk | hk
    · exact hpool k hk y hy
    · obtain ⟨x, j, hk⟩ := hl2 k hk
      rw [hc.cuts] at hk
      rcases hk with hk | hk
      · exact (cuts_hold hP _ _ _ _ _ y (hc.pts x j).1 hy).2 k hk
      · exact (cuts_hold hP _ _ _ _ _ y (hc.pts x j).2 hy).2 k hk
  refine ⟨hcuts, ?_, ?_⟩
  · intro u x hux
    rcases htr.last with ⟨e1, _, _⟩ | ⟨l, z, e1, e2, _, _, e5⟩
    · simp [fpSol, e1] at hux
    · simp only [fpSol, e1, List.getLast?_append, List.getLast?_singleton, Option.some_or, Option.map_some, Option.some.injEq, Prod.mk.injEq] at hux
      obtain ⟨rfl, rfl⟩ := hux
      obtain ⟨x', j, ho, hz⟩ := htr.found z (by rw [e1]; simp)
      obtain ⟨⟨f1, f2⟩, _⟩ := hc.nlp x' j ho
      rw [← hz] at f1 f2
      exact ⟨rfl, ⟨f1, hc.box z f1, f2⟩, by rw [e2]; exact e5⟩
  · intro hcl hleft y hy hw
    obtain ⟨q', k, hm⟩ := hleft
    have : t.milpOpt = true ∧ t.sol = none := by
      unfold fpClaim at hcl
      cases hs : t.sol <;> cases hmo : t.milpOpt <;> simp [hs, hmo] at hcl ⊢
    rw [this.1, this.2] at hm
    have hv := hc.milp _ _ _ _ hm y hy hw fun k hk => hcuts k hk y hy
    rcases htr.last with ⟨e1, e2, e3⟩ | ⟨l, z, e1, e2, e3, e4, e5⟩
    · have : fpSol (fun y : Pt P => P.F y.1) t = none := by simp [fpSol, e1]
      rw [this]
      change cut0 ≤ P.F y.1
      rw [← e3]; exact hv
    · have hs : fpSol (fun y : Pt P => P.F y.1) t = some (P.F z.1, z) := by simp [fpSol, e1]
      have hz : P.F z.1 = t.ub := e2
      rw [hs]
      change P.F z.1 - eps * |P.F z.1| ≤ P.F y.1
      rw [hz, ← hc.eps, ← newCutoff_eq, ← e3]
      exact hv

/-- Squared distance of two lists of integer variables. -/
def sqDist (a b : List ℚ) : ℚ := (List.zipWith (fun u v => (u - v) ^ 2) a b).sum

/-- The directional derivative of half the squared distance to `a`, at `p` towards `z`. -/
def towards : List ℚ → List ℚ → List ℚ → ℚ
  | p :: ps, a :: as, z :: zs => (p - a) * (z - p) + towards ps as zs
  | _, _, _ => 0

theorem towards_self : ∀ p a : List ℚ, towards p a a = - sqDist p a
  | [], a => by simp [towards, sqDist]
  | p :: ps, [] => by simp [towards, sqDist]
  | p :: ps, a :: as => by
    have := towards_self ps as
    simp only [towards, sqDist, List.zipWith_cons_cons, List.sum_cons] at this ⊢
    rw [this]
    ring

/-- What more is assumed so that the pump ends: MILP solutions satisfy the cuts, the linear rows and the bound on the objective variable, with whole integers in the box; the NLP with the integers
fixed keeps them; its answers and those of the NLP of the distance (the squared distance times a factor, src/Interfaces/BonTNLP2FPNLP.cpp:165) satisfy first-order conditions. -/
structure FpExact (P : Prob) (ints : Pt P → List ℚ) (b0 : Box) (o : FpO (Pt P) Cut) (dual : Pt P → ℕ → ℕ → ℚ) (scale : ℚ) : Prop where
  milpSol : ∀ cs v q k z, (o.milp cs v q k).2 = some z → (∀ c ∈ cs, Sat P.T.inf c z.1) ∧
    (∀ i < P.m, P.nonlin i = false → (P.ru i < P.T.infM → P.G i z.1 ≤ P.ru i) ∧ (-P.T.infM < P.rl i → P.rl i ≤ P.G i z.1)) ∧ z.1 P.n ≤ v ∧ InBox b0 (ints z) ∧ Whole (ints z)
  nlpInts : ∀ x k, ints (o.nlp x k).pt = (ints x).map (fun a => ((round a : ℤ) : ℚ))
  first : ∀ x k, FirstOrder P ints (o.nlp x k) (dual (o.nlp x k).pt k)
  distVal : ∀ x k, Whole (ints x) → (o.dist x k).1 = scale * sqDist (ints (o.dist x k).2) (ints x)
  distFirst : ∀ x k, Whole (ints x) → ∀ z, Linearised P (dual (o.dist x k).2 k) (o.dist x k).2 z → 0 ≤ towards (ints (o.dist x k).2) (ints x) (ints z)
  near : ∀ z, Whole (ints z) → o.near z = true

/-- **C315.**  On convex problems with finitely many integer assignments the pump returns, after a MILP without solution: with a positive increment, no solution of value 0, no solution whose value is a
cutoff, and limits that are not reached. -/
theorem ifp_returns {P : Prob} {L : Pt P → Prop} (hP : Convex P L) (hE : Exact P L) (ints : Pt P → List ℚ) (b0 : Box) (eps : ℚ) (o : FpO (Pt P) Cut) (c : FpCfg) (dual : Pt P → ℕ → ℕ → ℚ)
    (theta : ℚ) (lp : Bool) (hc : FpCall P ints b0 eps L o c dual theta lp) (scale : ℚ) (hx : FpExact P ints b0 o dual scale) (hs : 0 ≤ scale) (he : 0 < eps)
    (hz : ∀ x k, (o.nlp x k).optimal = true → (o.nlp x k).obj ≠ 0) (cut0 : ℚ) (ht : NoTies o eps cut0) (hlate : ∀ k, o.late k = false) (pool : List Cut) (p : Pt P) (n nLocal nSols : ℕ)
    (hn : n = (b0.map (fun p => (p.2 - p.1 + 1).toNat)).prod) (h1 : nLocal + n < c.maxLocal) (h2 : nSols + n < c.maxSols) :
    ∃ t, fpRun o c (n + 1) pool cut0 p nLocal nSols = some (.inr t) ∧ t.sol = none ∧ LeftByMilp o t := by
  have hround : ∀ z x : Pt P, Whole (ints z) → (ints z).map (fun a => (round a : ℤ)) = (ints x).map (fun a => (round a : ℤ)) → ints z = (ints x).map (fun a => ((round a : ℤ) : ℚ)) := by
    intro z x hw heq
    calc ints z = (ints z).map (fun a => ((round a : ℤ) : ℚ)) := by
          conv_lhs => rw [← List.map_id (ints z)]
          refine List.map_congr_left fun a ha => ?_
          obtain ⟨m, rfl⟩ := hw a ha
          simp
      _ = ((ints z).map (fun a => (round a : ℤ))).map (fun m : ℤ => (m : ℚ)) := by rw [List.map_map]; rfl
      _ = ((ints x).map (fun a => (round a : ℤ))).map (fun m : ℤ => (m : ℚ)) := by rw [heq]
      _ = _ := by rw [List.map_map]; rfl
  have hfin : FpFinite o (fun z => (ints z).map (fun a => (round a : ℤ))) (Qg.assign b0) := by
    refine ⟨fun cs v q k z h => Qg.mem_assign b0 _ (hx.milpSol cs v q k z h).2.2.2.1, fun cs v q k z h x j _ hv hin heq => ?_, fun cs v q k z h x j hd hx' hin heq => ?_⟩
    · obtain ⟨m1, m2, m3, _, m5⟩ := hx.milpSol cs v q k z h
      have e : ints z = ints (o.nlp x j).pt := by rw [hx.nlpInts]; exact hround z x m5 heq
      cases hopt : (o.nlp x j).optimal with
      | true =>
        have := no_return hP.toShape hE ints (o.nlp x j) _ theta lp (hx.first x j) (hc.pts x j).1 (fun ho => (hc.nlp x j ho).2.symm) (o.nlp x j).obj (fun _ => le_rfl) z e
          (fun k hk => m1 k (hin k (by rw [hc.cuts]; exact hk))) m2
        exact absurd (hv hopt) (not_lt.mpr (this.trans m3))
      | false =>
        have := no_return hP.toShape hE ints (o.nlp x j) _ theta lp (hx.first x j) (hc.pts x j).1 (fun ho => (hc.nlp x j ho).2.symm) (z.1 P.n + 1) (by simp [hopt]) z e
          (fun k hk => m1 k (hin k (by rw [hc.cuts]; exact hk))) m2
        linarith
    · obtain ⟨m1, m2, _, _, m5⟩ := hx.milpSol cs v q k z h
      obtain ⟨cs', v', q', k', hx'⟩ := hx'
      have hwx := (hx.milpSol cs' v' q' k' x hx').2.2.2.2
      have e : ints z = ints x := (hround z x m5 heq).trans (hround x x hwx rfl).symm
      obtain ⟨l1, -⟩ := cuts_mean hP.toShape hE (dual (o.dist x j).2 j) theta lp (o.dist x j).2 z (hc.pts x j).2 (fun k hk => m1 k (hin k (by rw [hc.cuts]; exact hk)))
      have hL : Linearised P (dual (o.dist x j).2 j) (o.dist x j).2 z := fun i hi' => ⟨fun hn => m2 i hi' hn, fun hn => l1 i hi' hn⟩
      have h3 := hx.distFirst x j hwx z hL
      rw [e, towards_self] at h3
      have h4 := mul_nonneg hs h3
      have h5 := hx.distVal x j hwx
      rw [h5] at hd
      linarith
  have hlen := Qg.assign_length b0
  rw [← hn] at hlen
  have hr := fp_runs o c (by rw [hc.eps]; exact he) hz (fun x k => by rw [hc.cuts]; exact ⟨cutsAt_ne hP.toShape _ _ _ _, cutsAt_ne hP.toShape _ _ _ _⟩)
    (fun cs v q k z h => hx.near z (hx.milpSol cs v q k z h).2.2.2.2) (n + 1) pool cut0 p nLocal nSols
  cases hp : fpRun o c (n + 1) pool cut0 p nLocal nSols with
  | none => exact absurd hp hr
  | some r =>
    rw [← hlen] at hp
    obtain ⟨t, rfl, e2, e3⟩ := fp_passes o c _ _ hfin pool cut0 p nLocal nSols (by rw [hc.eps]; exact ht) hlate (by rw [hlen]; exact h1) (by rw [hlen]; exact h2) r hp
    exact ⟨t, rfl, e2, e3⟩

/-! ## The whole run -/

/-- **C315.**  B-iFP on a convex problem, with the cuts of the interface: if the pump at the root returns and gives the root up only after a MILP without solution, the search ends; the best solution is
one below the start cutoff; and every solution is no better than the best one by more than decrement, increment or gap (not below the start cutoff if there is none), or lies in a box that the checker
dropped because the LP with valid rows came within 1/10 of the integers of an NLP it has the cuts of.  Missing for the full claim: what is missing in C306, and a pump stopped by a limit
(`ifp_limit_wrong`). -/
theorem ifp_convex_partial {σ : Type} {T : Bab.Search.Tree σ} {ready : σ → Prop} (hT : Lawful T ready) {P : Prob} {L : Pt P → Prop} (hP : Convex P L) (hE : Exact P L)
    (w : Qg.World (Pt P) Cut) (dual : Pt P → ℕ → ℚ) (theta : ℚ) (lp : Bool) (hw : w.oa = fun xh x => cutsAt P (dual x) none theta lp xh) (hL : ∀ x, L (w.nlp x).pt)
    (b0 : Box) (cut0 : ℚ) (opt : Qg.Opt) (pool : List Cut) (hpool : ∀ c ∈ pool, ∀ y, Feas P y → Sat P.T.inf c y.1)
    (o : FpO (Pt P) Cut) (c : FpCfg) (dual' : Pt P → ℕ → ℕ → ℚ) (hc : FpCall P w.ints b0 opt.eps L o c dual' theta lp) (m : ℕ) (p : Pt P) (nLocal nSols : ℕ) (t : FpSt (Pt P) Cut)
    (hrun : fpRun o c m pool cut0 p nLocal nSols = some (.inr t)) (hleft : fpClaim c t = true → LeftByMilp o t)
    (hex : w.extra = fun b _ => fpCuts b0 pool (fpEnd (fpRun o c m pool cut0 p nLocal nSols)) b)
    (hhe : w.heur = fun b _ _ => fpHeur (fun y => P.F y.1) b0 (fpEnd (fpRun o c m pool cut0 p nLocal nSols)) b)
    (hqu : w.quit = fun b _ v => fpQuit (fun y => P.F y.1) c b0 cut0 (fpEnd (fpRun o c m pool cut0 p nLocal nSols)) b v)
    (lpNone : ∀ b rows v, ¬ ((w.lp b rows v).optimal = true ∧ (w.lp b rows v).limit = false) → ∀ y, Feas P y → InBox b (w.ints y) → (∀ c ∈ rows, Sat P.T.inf c y.1) → v ≤ P.F y.1)
    (lpBound : ∀ b rows v, (w.lp b rows v).optimal = true → (w.lp b rows v).limit = false →
      ∀ y, Feas P y → InBox b (w.ints y) → (∀ c ∈ rows, Sat P.T.inf c y.1) → (w.lp b rows v).obj ≤ P.F y.1)
    (lpBox : ∀ b rows v, (w.lp b rows v).optimal = true → (w.lp b rows v).limit = false → InBox b (w.ints (w.lp b rows v).pt))
    (benders : ∀ x y, Feas P y → ∀ c ∈ w.benders (w.nlp x).pt, Sat P.T.inf c y.1)
    (nlpInts : ∀ x, w.ints (w.nlp x).pt = (w.ints x).map (fun a => ((round a : ℤ) : ℚ)))
    (nlpOpt : ∀ x, (w.nlp x).optimal = true → Feas P (w.nlp x).pt ∧ (w.nlp x).obj = P.F (w.nlp x).pt.1)
    (hx : LpExact P w) (ht : w.tol = 0) (hF : ∀ x, FirstOrder P w.ints (w.nlp x) (dual x))
    (hben : ∀ b rows v x, (∀ c ∈ w.benders (w.nlp x).pt, c ∈ rows) → ((w.nlp x).optimal = true → v ≤ (w.nlp x).obj) → Qg.Below w b rows v →
      w.ints (w.lp b rows v).pt ≠ w.ints (w.nlp x).pt)
    (hd : 0 ≤ opt.decr) (h0 : 0 ≤ opt.eps) (h1 : opt.eps ≤ 1) (gap : Gaps) (n : ℕ)
    (hp : (b0.map (fun p => (p.2 - p.1 + 1).toNat)).prod ≤ opt.passes) (hn : 2 * (2 ^ width b0 - 1) ≤ n) :
    ∃ st, Qg.search T w opt cut0 gap n pool b0 = .done st ∧
      (∀ v x, st.inc = some (v, x) → v = P.F x.1 ∧ Feas P x ∧ InBox b0 (w.ints x) ∧ Whole (w.ints x) ∧ v < cut0) ∧
      (∀ b ∈ st.lost, Qg.Repeats w (minlp P) (fun c y => Sat P.T.inf c y.1) b) ∧
      (fpClaim c t = true → st.inc = fpSol (fun y => P.F y.1) t ∧ st.lost = []) ∧
      ∀ y, Feas P y → InBox b0 (w.ints y) → Whole (w.ints y) → (∃ b ∈ st.lost, InBox b (w.ints y)) ∨
        (∀ v x, st.inc = some (v, x) → v - opt.decr ≤ P.F y.1 ∨ v - opt.eps * |v| ≤ P.F y.1 ∨ v - P.F y.1 < testGap gap v (T.bound st.tree)) ∧ (st.inc = none → cut0 ≤ P.F y.1) := by
  obtain ⟨r1, r2, r3⟩ := ifp_root hP w.ints b0 pool cut0 opt.eps o c dual' theta lp hc m p nLocal nSols hpool t hrun
  rw [hrun] at hex hhe hqu
  have hs : QgSolvers P w := by
    refine ⟨lpNone, lpBound, lpBox, benders, fun b rows _ => ?_, nlpInts, nlpOpt⟩
    intro k hk y hy
    rw [hex] at hk
    simp only [fpCuts, fpEnd, Option.elim_some] at hk
    split at hk
    · exact r1 k (List.mem_of_mem_drop hk) y hy
    · simp at hk
  have hfound : Qg.Found w (minlp P) (fun c y => Sat P.T.inf c y.1) opt.eps b0 := by
    refine ⟨fun b rows v u x h => ?_, fun b rows v s _ h => ?_⟩
    · rw [hhe] at h
      simp only [fpHeur, fpEnd, Option.bind_some] at h
      split at h
      · obtain ⟨e1, e2, _⟩ := r2 u x h
        exact ⟨e1, e2⟩
      · simp at h
    · rw [hqu] at h
      simp only [fpQuit, fpEnd, Option.bind_some] at h
      split at h
      · rename_i hbv
        obtain ⟨rfl, rfl⟩ := hbv
        split at h
        · rename_i hb
          simp only [Option.some.injEq] at h
          subst h
          exact ⟨r2, fun y hy => r3 hb (hleft hb) y hy.1 hy.2.2⟩
        · simp at h
      · simp at h
  obtain ⟨st, e1, e2, e3, e4⟩ := qg_convex_partial hT hP hE w dual theta lp hw hL hs hx ht hF hben b0 cut0 opt hfound hd h0 h1 gap n pool hpool hp hn
  refine ⟨st, e1, e2, e3, fun hb => ?_, e4⟩
  have hq : w.quit b0 pool cut0 = some (fpSol (fun y => P.F y.1) t) := by rw [hqu]; simp [fpQuit, fpEnd, hb]
  have hh : ∀ rows v, w.heur b0 rows v = fpSol (fun y => P.F y.1) t := by intro rows v; rw [hhe]; simp [fpHeur, fpEnd]
  obtain ⟨st', f1, f2, f3⟩ := quit_root hT w opt cut0 gap n pool b0 _ hq hh hd
  rw [f1] at e1
  cases e1
  exact ⟨f2, f3⟩

/-- **C315.**  When the option `fp_pass_infeasible yes` reaches the pump (the preset of B-iFP does not, C316), no limit is reached and the MILPs are solved to the end, the whole run is the call at the root: the search ends with the
solution of the pump, which is the best one up to the increment. -/
theorem ifp_ends {σ : Type} {T : Bab.Search.Tree σ} {ready : σ → Prop} (hT : Lawful T ready) {P : Prob} {L : Pt P → Prop} (hP : Convex P L) (hE : Exact P L)
    (w : Qg.World (Pt P) Cut) (theta : ℚ) (lp : Bool) (b0 : Box) (cut0 : ℚ) (opt : Qg.Opt) (pool : List Cut) (hpool : ∀ c ∈ pool, ∀ y, Feas P y → Sat P.T.inf c y.1)
    (o : FpO (Pt P) Cut) (c : FpCfg) (dual : Pt P → ℕ → ℕ → ℚ) (hc : FpCall P w.ints b0 opt.eps L o c dual theta lp) (scale : ℚ) (hx : FpExact P w.ints b0 o dual scale) (hs : 0 ≤ scale)
    (he : 0 < opt.eps) (hz : ∀ x k, (o.nlp x k).optimal = true → (o.nlp x k).obj ≠ 0) (ht : NoTies o opt.eps cut0) (hlate : ∀ k, o.late k = false)
    (hmo : ∀ cs v q k, (o.milp cs v q k).1 = true) (hpass : c.pass = true) (p : Pt P) (m nLocal nSols : ℕ)
    (hm : m = (b0.map (fun p => (p.2 - p.1 + 1).toNat)).prod) (h1 : nLocal + m < c.maxLocal) (h2 : nSols + m < c.maxSols)
    (hhe : w.heur = fun b _ _ => fpHeur (fun y => P.F y.1) b0 (fpEnd (fpRun o c (m + 1) pool cut0 p nLocal nSols)) b)
    (hqu : w.quit = fun b _ v => fpQuit (fun y => P.F y.1) c b0 cut0 (fpEnd (fpRun o c (m + 1) pool cut0 p nLocal nSols)) b v) (hd : 0 ≤ opt.decr) (gap : Gaps) (n : ℕ) :
    ∃ st, Qg.search T w opt cut0 gap n pool b0 = .done st ∧ st.lost = [] ∧
      (∀ v x, st.inc = some (v, x) → v = P.F x.1 ∧ Feas P x ∧ Whole (w.ints x) ∧ v < cut0 ∧ ∀ y, Feas P y → Whole (w.ints y) → v - opt.eps * |v| ≤ P.F y.1) ∧
      (st.inc = none → ∀ y, Feas P y → Whole (w.ints y) → cut0 ≤ P.F y.1) := by
  obtain ⟨t, hrun, hsol, hleft⟩ := ifp_returns hP hE w.ints b0 opt.eps o c dual theta lp hc scale hx hs he hz cut0 ht hlate pool p m nLocal nSols hm h1 h2
  obtain ⟨r1, r2, r3⟩ := ifp_root hP w.ints b0 pool cut0 opt.eps o c dual theta lp hc (m + 1) p nLocal nSols hpool t hrun
  have hcl : fpClaim c t = true := by
    obtain ⟨q, k, hq⟩ := hleft
    have := hmo t.cuts t.cutoff q k
    rw [hq] at this
    simp only at this
    simp [fpClaim, hpass, hsol, this]
  have hq : w.quit b0 pool cut0 = some (fpSol (fun y => P.F y.1) t) := by rw [hqu, hrun]; simp [fpQuit, fpEnd, hcl]
  have hh : ∀ rows v, w.heur b0 rows v = fpSol (fun y => P.F y.1) t := by intro rows v; rw [hhe, hrun]; simp [fpHeur, fpEnd]
  obtain ⟨st, f1, f2, f3⟩ := quit_root hT w opt cut0 gap n pool b0 _ hq hh hd
  have h3 := r3 hcl hleft
  refine ⟨st, f1, f3, fun v x hi => ?_, fun hi y hy hw => ?_⟩
  · rw [f2] at hi
    obtain ⟨a1, a2, a3⟩ := r2 v x hi
    refine ⟨a1, a2.1, a2.2.2, a3, fun y hy hw => ?_⟩
    have := h3 y hy hw
    rw [hi] at this
    exact this
  · rw [f2] at hi
    have := h3 y hy hw
    rw [hi] at this
    exact this

/-! ## Example: the problem of `Dec/Convex.lean` -/

open Classical in
/-- The whole `t` in `[0, 5]` that satisfy the rows and are at most `v`. -/
noncomputable def exCand (cs : List Cut) (v : ℚ) : List ℕ := (List.range 6).filter fun k => decide ((∀ c ∈ cs, Sat exP.T.inf c (exPt k).1) ∧ (k : ℚ) ≤ v)

theorem ex_cand {cs : List Cut} {v : ℚ} {k : ℕ} : k ∈ exCand cs v ↔ k < 6 ∧ (∀ c ∈ cs, Sat exP.T.inf c (exPt k).1) ∧ (k : ℚ) ≤ v := by
  simp [exCand]

/-- The projection onto the relaxation, `1 ≤ y ≤ 5`. -/
def exProj (x : Pt exP) : ℚ := max 1 ((round (x.1 0) : ℤ) : ℚ)

/-- The oracles of the pump: the MILP minimises or maximises `y`, according to the coefficient at `q`. -/
noncomputable def exF : FpO (Pt exP) Cut where
  milp := fun cs v q _ => (true, (if fpCoef (q.1 0) = -1 then (exCand cs v).getLast? else (exCand cs v).head?).map fun k : ℕ => exPt k)
  dist := fun x _ => (100 * (exProj x - ((round (x.1 0) : ℤ) : ℚ)) ^ 2, exPt (exProj x))
  nlp := fun x _ => Cvx.exNlp x
  resolve := fun _ => exPt 1
  cuts := fun q _ => cutsAt exP (fun _ => 0) none 0 false q
  near := fun x => decide (|x.1 0 - ((round (x.1 0) : ℤ) : ℚ)| < 1 / 10 ^ 5)
  late := fun _ => false

theorem ex_fmilp {cs : List Cut} {v : ℚ} {q : Pt exP} {j : ℕ} {z : Pt exP} (h : (exF.milp cs v q j).2 = some z) :
    ∃ k : ℕ, k < 6 ∧ z = exPt k ∧ z.1 0 = k ∧ z.1 1 = k ∧ (∀ c ∈ cs, Sat exP.T.inf c z.1) ∧ (k : ℚ) ≤ v := by
  change (if fpCoef (q.1 0) = -1 then (exCand cs v).getLast? else (exCand cs v).head?).map (fun k : ℕ => exPt k) = some z at h
  rw [Option.map_eq_some_iff] at h
  obtain ⟨k, hk, rfl⟩ := h
  have hm : k ∈ exCand cs v := by
    split_ifs at hk
    · exact List.mem_of_getLast? hk
    · exact List.mem_of_head? hk
  obtain ⟨a1, a2, a3⟩ := ex_cand.mp hm
  have h5 : (k : ℚ) ≤ 5 := by exact_mod_cast Nat.lt_succ_iff.mp a1
  have e : exClamp k = k := exClamp_eq (by positivity) h5
  exact ⟨k, a1, rfl, e, e, a2, a3⟩

theorem ex_proj (x : Pt exP) : (exPt (exProj x)).1 0 = exProj x ∧ exL (exPt (exProj x)) := by
  obtain ⟨_, r1, r2⟩ := ex_round x
  have e : (exPt (exProj x)).1 0 = exProj x := exClamp_eq (by unfold exProj; exact le_trans (by norm_num) (le_max_left _ _)) (by unfold exProj; exact max_le (by norm_num) r2)
  refine ⟨e, max 1 (round (x.1 0)), ?_⟩
  rw [e]
  unfold exProj
  push_cast
  rfl

theorem ex_whole {x : Pt exP} (h : Whole (exW.ints x)) : ((round (x.1 0) : ℤ) : ℚ) = x.1 0 := by
  obtain ⟨m, hm⟩ := h (x.1 0) (by simp [exW])
  rw [hm]
  simp

theorem ex_fcall (c : FpCfg) (hc : c.eps = 1 / 10 ^ 5) : FpCall exP exW.ints [(0, 5)] (1 / 10 ^ 5) exL exF c (fun _ _ _ => 0) 0 false where
  cuts := rfl
  pts := fun x _ => ⟨⟨_, (ex_round x).1⟩, (ex_proj x).2⟩
  nlp := fun x k h => ex_oa_solvers.nlp x k h
  milp := by
    intro cs v q k h z hz hw hs
    by_contra hlt
    have hmem : (round (z.1 0)).toNat ∈ exCand cs v := by
      have e := ex_whole hw
      obtain ⟨c0, c5⟩ := ex_cols z
      have h0 : 0 ≤ round (z.1 0) := by rw [← e] at c0; exact_mod_cast c0
      have h5 : round (z.1 0) ≤ 5 := by rw [← e] at c5; exact_mod_cast c5
      have en : (((round (z.1 0)).toNat : ℕ) : ℚ) = z.1 0 := by
        have h' : (((round (z.1 0)).toNat : ℤ)) = round (z.1 0) := Int.toNat_of_nonneg h0
        have h'' : ((((round (z.1 0)).toNat : ℤ)) : ℚ) = ((round (z.1 0) : ℤ) : ℚ) := by rw [h']
        rw [e] at h''
        exact_mod_cast h''
      refine ex_cand.mpr ⟨by omega, ?_, ?_⟩
      · rw [en, ← ((ex_feas z).mp hz).2]; exact hs
      · rw [en]; exact (not_le.mp hlt).le
    have h' : (if fpCoef (q.1 0) = -1 then (exCand cs v).getLast? else (exCand cs v).head?) = none := by
      have := (Prod.mk.inj h).2
      simpa using this
    split_ifs at h'
    · rw [List.getLast?_eq_none_iff] at h'; rw [h'] at hmem; simp at hmem
    · rw [List.head?_eq_none_iff] at h'; rw [h'] at hmem; simp at hmem
  box := fun y _ => (Qg.inBox_one 0 5 _).mpr (by simpa using ex_cols y)
  eps := hc

theorem ex_fexact : FpExact exP exW.ints [(0, 5)] exF (fun _ _ _ => 0) 100 where
  milpSol := by
    intro cs v q j z h
    obtain ⟨k, k1, k2, k3, k4, k5, k6⟩ := ex_fmilp h
    have h5 : (k : ℚ) ≤ 5 := by exact_mod_cast Nat.lt_succ_iff.mp k1
    refine ⟨k5, fun i _ hn => absurd hn (by simp [exP]), by change z.1 1 ≤ v; rw [k4]; exact k6, ?_, ?_⟩
    · change InBox [(0, 5)] [z.1 0]
      rw [k3]
      exact (Qg.inBox_one 0 5 _).mpr ⟨by positivity, by exact_mod_cast h5⟩
    · intro a ha
      have : a = z.1 0 := by simpa [exW] using ha
      exact ⟨(k : ℤ), by rw [this, k3]; simp⟩
  nlpInts := fun x _ => ex_solvers.nlpInts x
  first := fun x _ => ex_first x
  distVal := by
    intro x k hw
    change 100 * (exProj x - ((round (x.1 0) : ℤ) : ℚ)) ^ 2 = 100 * sqDist [(exPt (exProj x)).1 0] [x.1 0]
    rw [(ex_proj x).1, ex_whole hw]
    simp [sqDist]
  distFirst := by
    intro x k hw z hl
    have := ((hl 0 (by norm_num [exP])).2 rfl).1 ⟨by norm_num [exP, rowAt], fun hh => absurd hh.1 (by norm_num [exP, rowAt])⟩
    rw [ex_lin] at this
    change ((exPt (exProj x)).1 0 - 3) ^ 2 + 2 * ((exPt (exProj x)).1 0 - 3) * (z.1 0 - (exPt (exProj x)).1 0) ≤ 4 at this
    change 0 ≤ towards [(exPt (exProj x)).1 0] [x.1 0] [z.1 0]
    rw [(ex_proj x).1] at this ⊢
    simp only [towards, add_zero]
    rcases le_total 1 (x.1 0) with h | h
    · have : exProj x = x.1 0 := by unfold exProj; rw [ex_whole hw]; exact max_eq_right h
      rw [this]; simp
    · have e : exProj x = 1 := by unfold exProj; rw [ex_whole hw]; exact max_eq_left h
      rw [e] at this ⊢
      nlinarith
  near := by
    intro z hw
    simp [exF, ex_whole hw]

theorem ex_noties : NoTies exF (1 / 10 ^ 5) (10 ^ 50) := by
  intro x j ho
  obtain ⟨_, r1, r2⟩ := ex_round x
  refine ⟨?_, fun x' j' ho' heq => ?_⟩
  · change ((round (x.1 0) : ℤ) : ℚ) ≠ 10 ^ 50
    intro h
    rw [h] at r2
    norm_num at r2
  · change ((round (x.1 0) : ℤ) : ℚ) = newCutoff (1 / 10 ^ 5) ((round (x'.1 0) : ℤ) : ℚ) at heq
    obtain ⟨_, q1, q2⟩ := ex_round x'
    have hq : (((round (x'.1 0) : ℤ) : ℚ) - 3) ^ 2 ≤ 4 := by simpa [exF, Cvx.exNlp] using ho'
    rw [newCutoff_eq, abs_of_nonneg q1] at heq
    have h1 : (1 : ℚ) ≤ ((round (x'.1 0) : ℤ) : ℚ) := by nlinarith
    have h2 : ((round (x.1 0) : ℤ) : ℚ) < ((round (x'.1 0) : ℤ) : ℚ) := by rw [heq]; linarith
    have h3 : ((round (x'.1 0) : ℤ) : ℚ) < ((round (x.1 0) : ℤ) : ℚ) + 1 := by rw [heq]; linarith
    have h2' : round (x.1 0) < round (x'.1 0) := by exact_mod_cast h2
    have h3' : round (x'.1 0) < round (x.1 0) + 1 := by exact_mod_cast h3
    omega

/-- B-iFP in the example, with limits `c` and the relaxation solved at `p`. -/
noncomputable def exI (c : FpCfg) (p : Pt exP) : Qg.World (Pt exP) Cut :=
  { exW with
    extra := fun b _ => fpCuts [(0, 5)] [] (fpEnd (fpRun exF c 7 [] (10 ^ 50) p 0 0)) b
    heur := fun b _ _ => fpHeur (fun y => exP.F y.1) [(0, 5)] (fpEnd (fpRun exF c 7 [] (10 ^ 50) p 0 0)) b
    quit := fun b _ v => fpQuit (fun y => exP.F y.1) c [(0, 5)] (10 ^ 50) (fpEnd (fpRun exF c 7 [] (10 ^ 50) p 0 0)) b v }

/-- The example meets all assumptions of `ifp_ends`; B-iFP ends at the root with the optimum `y = 1`. -/
example (p : Pt exP) (n : ℕ) : ∃ st, Qg.search (diveTree false (10 ^ 50)) (exI ⟨1 / 10 ^ 5, 100, 100, true⟩ p) ⟨1 / 10 ^ 5, 0, 100, true, 6⟩ (10 ^ 50) ⟨0, 0⟩ n [] [(0, 5)] = .done st ∧ st.lost = [] ∧
    ∃ x, st.inc = some (1, x) ∧ x.1 0 = 1 := by
  obtain ⟨st, h1, h2, h3, h4⟩ := ifp_ends (diveTree_lawful false (10 ^ 50)) ex_convex ex_exact (exI ⟨1 / 10 ^ 5, 100, 100, true⟩ p) 0 false [(0, 5)] (10 ^ 50) ⟨1 / 10 ^ 5, 0, 100, true, 6⟩ [] (by simp)
    exF ⟨1 / 10 ^ 5, 100, 100, true⟩ (fun _ _ _ => 0) (ex_fcall _ rfl) 100 ex_fexact (by norm_num) (by norm_num) (by
      intro x k h h0
      have h' : (((round (x.1 0) : ℤ) : ℚ) - 3) ^ 2 ≤ 4 := by simpa [exF, Cvx.exNlp] using h
      change ((round (x.1 0) : ℤ) : ℚ) = 0 at h0
      rw [h0] at h'
      norm_num at h') ex_noties (fun _ => rfl) (fun _ _ _ _ => rfl) rfl p 6 0 0 (by decide +kernel) (by norm_num) (by norm_num) rfl rfl le_rfl ⟨0, 0⟩ n
  refine ⟨st, h1, h2, ?_⟩
  have e1 : (exPt 1).1 0 = 1 := exClamp_eq (t := 1) (by norm_num) (by norm_num)
  have hf1 : Feas exP (exPt 1) := (ex_feas _).mpr ⟨by rw [e1]; norm_num, by rw [e1]⟩
  have hw1 : Whole ((exI ⟨1 / 10 ^ 5, 100, 100, true⟩ p).ints (exPt 1)) := by
    intro a ha
    have : a = 1 := by simpa [exI, exW, e1] using ha
    exact ⟨1, by rw [this]; simp⟩
  cases hi : st.inc with
  | none =>
    have := h4 hi (exPt 1) hf1 hw1
    change (10 : ℚ) ^ 50 ≤ (exPt 1).1 0 at this
    rw [e1] at this
    norm_num at this
  | some e =>
    obtain ⟨v, x⟩ := e
    obtain ⟨a1, a2, a3, _, a5⟩ := h3 v x hi
    have a6 := a5 (exPt 1) hf1 hw1
    change v = x.1 0 at a1
    change v - 1 / 10 ^ 5 * |v| ≤ (exPt 1).1 0 at a6
    have a7 := ((ex_feas x).mp a2).1
    obtain ⟨c0, c5⟩ := ex_cols x
    have hw := ex_whole a3
    rw [← a1] at a7 c0 c5 hw
    rw [e1, abs_of_nonneg c0] at a6
    have l1 : (1 : ℚ) ≤ v := by nlinarith
    have l2 : v < 2 := by linarith
    rw [← hw] at l1 l2
    have l3 : round v = 1 := by
      have m1 : 1 ≤ round v := by exact_mod_cast l1
      have m2 : round v < 2 := by exact_mod_cast l2
      omega
    rw [l3] at hw
    have hv : v = 1 := by rw [← hw]; simp
    exact ⟨x, by rw [hv], by rw [← a1, hv]⟩

/-- **C315 (refuted).** With `solution_limit 1` for the pump, B-iFP gives the root up with the solution of value 5 and nothing is left of the tree, although there is one of value 1: the relaxation is
solved at 0.99999999, so the MILP maximises `y`; its solution is the first one found, the pump stops and claims that there is no better one. -/
theorem ifp_limit_wrong (n : ℕ) : ∃ st, Qg.search (diveTree false (10 ^ 50)) (exI ⟨1 / 10 ^ 5, 100, 1, true⟩ (exPt (99999999 / 100000000))) ⟨1 / 10 ^ 5, 0, 100, true, 6⟩ (10 ^ 50) ⟨0, 0⟩ n [] [(0, 5)] =
      .done st ∧ st.inc = some (5, exPt 5) ∧ st.lost = [] ∧ Feas exP (exPt 1) ∧ Whole (exW.ints (exPt 1)) ∧ exP.F (exPt 1).1 = 1 := by
  have e1 : (exPt 1).1 0 = 1 := exClamp_eq (t := 1) (by norm_num) (by norm_num)
  have e5 : (exPt 5).1 0 = 5 := exClamp_eq (t := 5) (by norm_num) (by norm_num)
  have ep : (exPt (99999999 / 100000000)).1 0 = 99999999 / 100000000 := exClamp_eq (by norm_num) (by norm_num)
  have hcand : exCand [] (10 ^ 50) = [0, 1, 2, 3, 4, 5] := by
    unfold exCand
    norm_num [List.range, List.range.loop]
  have hco : fpCoef (99999999 / 100000000) = -1 := (fpCoef_iff _).1.2 (by
    have : ⌊(99999999 / 100000000 : ℚ)⌋ = 0 := by rw [Int.floor_eq_iff]; norm_num
    rw [this]; norm_num)
  have hm : exF.milp [] (10 ^ 50) (exPt (99999999 / 100000000)) 0 = (true, some (exPt 5)) := by
    change (true, (if fpCoef ((exPt (99999999 / 100000000)).1 0) = -1 then (exCand [] (10 ^ 50)).getLast? else (exCand [] (10 ^ 50)).head?).map fun k : ℕ => exPt k) = _
    rw [ep, if_pos hco, hcand]
    simp
  have h0 : fpInit exF [] (10 ^ 50) (exPt (99999999 / 100000000)) 0 0 = ⟨[], 10 ^ 50, 10 ^ 50, some (exPt 5), true, 1, 0, 0, [], exPt (99999999 / 100000000)⟩ := by
    unfold fpInit
    rw [hm]
  have hr5 : ((round ((exPt 5).1 0) : ℤ) : ℚ) = 5 := by rw [e5]; norm_num
  have hn5 : Cvx.exNlp (exPt 5) = ⟨true, 5, exPt 5⟩ := by
    unfold Cvx.exNlp
    rw [hr5]
    norm_num
  have hd5 : (exF.dist (exPt 5) 0).1 < 1 / 10 ^ 6 := by
    change 100 * (exProj (exPt 5) - ((round ((exPt 5).1 0) : ℤ) : ℚ)) ^ 2 < 1 / 10 ^ 6
    unfold exProj
    rw [hr5]
    norm_num
  have hp : fpPass exF ⟨1 / 10 ^ 5, 100, 1, true⟩ ⟨[], 10 ^ 50, 10 ^ 50, some (exPt 5), true, 1, 0, 0, [], exPt (99999999 / 100000000)⟩ (exPt 5) =
      some ⟨cutsAt exP (fun _ => 0) none 0 false (exPt 5), newCutoff (1 / 10 ^ 5) 5, 5, none, true, 1, 1, 0, [exPt 5], exPt 1⟩ := by
    have hnl : fpNlp exF ⟨1 / 10 ^ 5, 100, 1, true⟩ ⟨[], 10 ^ 50, 10 ^ 50, some (exPt 5), true, 1, 0, 0, [], exPt (99999999 / 100000000)⟩ (exPt 5) =
        some (exPt 5, ⟨[], newCutoff (1 / 10 ^ 5) 5, 5, some (exPt 5), true, 1, 1, 0, [exPt 5], exPt 1⟩) := by
      have hn : exF.nlp (exPt 5) 0 = ⟨true, 5, exPt 5⟩ := hn5
      unfold fpNlp
      dsimp only
      rw [if_pos hd5, hn]
      norm_num [newCutoff, exF]
    have hnear : exF.near (exPt 5) = true := ex_fexact.near _ (by
      intro a ha
      have : a = 5 := by simpa [exW, e5] using ha
      exact ⟨5, by rw [this]; simp⟩)
    have hne : exF.cuts (exPt 5) 0 ≠ [] := cutsAt_ne ex_convex.toShape _ _ _ _
    unfold fpPass
    rw [if_pos hnear, hnl, Option.bind_some]
    dsimp only
    rw [if_neg hne]
    simp [fpNext, exF]
  have hrun : fpRun exF ⟨1 / 10 ^ 5, 100, 1, true⟩ 7 [] (10 ^ 50) (exPt (99999999 / 100000000)) 0 0 =
      some (.inr ⟨cutsAt exP (fun _ => 0) none 0 false (exPt 5), newCutoff (1 / 10 ^ 5) 5, 5, none, true, 1, 1, 0, [exPt 5], exPt 1⟩) := by
    unfold fpRun
    rw [h0]
    unfold fpIter
    simp only [hp, Option.bind_some]
    rfl
  have hsol : ∀ t : FpSt (Pt exP) Cut, t.found = [exPt 5] → fpSol (fun y : Pt exP => exP.F y.1) t = some (5, exPt 5) := by
    intro t ht
    have : exP.F (exPt 5).1 = 5 := e5
    simp [fpSol, ht, this]
  obtain ⟨st, f1, f2, f3⟩ := quit_root (diveTree_lawful false (10 ^ 50)) (exI ⟨1 / 10 ^ 5, 100, 1, true⟩ (exPt (99999999 / 100000000))) ⟨1 / 10 ^ 5, 0, 100, true, 6⟩ (10 ^ 50) ⟨0, 0⟩ n [] [(0, 5)]
    (some (5, exPt 5)) (by
      change fpQuit (fun y : Pt exP => exP.F y.1) ⟨1 / 10 ^ 5, 100, 1, true⟩ [(0, 5)] (10 ^ 50) (fpEnd (fpRun exF ⟨1 / 10 ^ 5, 100, 1, true⟩ 7 [] (10 ^ 50) (exPt (99999999 / 100000000)) 0 0)) [(0, 5)] (10 ^ 50) = _
      rw [hrun]
      simp only [fpQuit, fpEnd, and_self, if_true, Option.bind_some]
      rw [if_pos (by rfl), hsol _ rfl]) (by
      intro rows v
      change fpHeur (fun y : Pt exP => exP.F y.1) [(0, 5)] (fpEnd (fpRun exF ⟨1 / 10 ^ 5, 100, 1, true⟩ 7 [] (10 ^ 50) (exPt (99999999 / 100000000)) 0 0)) [(0, 5)] = _
      rw [hrun]
      simp only [fpHeur, fpEnd, if_true, Option.bind_some]
      exact hsol _ rfl) le_rfl
  refine ⟨st, f1, f2, f3, (ex_feas _).mpr ⟨by rw [e1]; norm_num, by rw [e1]⟩, ?_, e1⟩
  intro a ha
  have : a = 1 := by simpa [exW, e1] using ha
  exact ⟨1, by rw [this]; simp⟩

/-- **C315.** The counters of the pump: every solution found and every MILP is counted, beginning with what was spent before the call; the limits are exceeded only by the first pass, which is always made. -/
theorem fp_limits (o : FpO X κ) (c : FpCfg) (cuts : List κ) (cutoff : ℚ) (p : X) (nLocal nSols n : ℕ) (r : FpSt X κ ⊕ FpSt X κ) (h : fpIter o c n (fpInit o cuts cutoff p nLocal nSols) = some r) :
    (r.elim id id).nSols = nSols + (r.elim id id).found.length ∧ (r.elim id id).nLocal = nLocal + 1 + (r.elim id id).pass ∧
    (r.elim id id).nSols ≤ max (nSols + 1) c.maxSols ∧ (r.elim id id).nLocal ≤ max (nLocal + 1) c.maxLocal ∧ (r.elim id id).found.length ≤ (r.elim id id).pass + 1 := by
  let I : FpSt X κ → Prop := fun s => s.nSols = nSols + s.found.length ∧ s.nLocal = nLocal + 1 + s.pass ∧ s.nSols ≤ max (nSols + 1) c.maxSols ∧ s.nLocal ≤ max (nLocal + 1) c.maxLocal ∧
    s.found.length ≤ s.pass + 1 ∧ (s.sol.isSome → s.found.length ≤ s.pass ∧ (s.found.length = 0 ∨ s.nSols < c.maxSols))
  have pass : ∀ (s t : FpSt X κ) (x : X), I s → s.sol.isSome → fpPass o c s x = some t → I t := by
    intro s t x hs hx he
    obtain ⟨q, hq, rfl⟩ := fpPass_split he
    obtain ⟨⟨-, a2, a3, -⟩, hcase⟩ := fpNlp_cases hq
    obtain ⟨i1, i2, i3, i4, i5, i6⟩ := hs
    obtain ⟨i7, i8⟩ := i6 hx
    have b : q.2.nSols = nSols + q.2.found.length ∧ q.2.nSols ≤ max (nSols + 1) c.maxSols ∧ q.2.found.length ≤ s.pass + 1 := by
      rcases hcase with ⟨_, _, _, _, _, _, _, e1, e2⟩ | ⟨_, _, _, _, _, e1, e2⟩ | ⟨_, _, _, _, e1, e2⟩
      · rw [e1, e2, List.length_append, List.length_singleton]
        rcases i8 with i8 | i8 <;> omega
      · rw [e1, e2]; omega
      · rw [e1, e2]; omega
    obtain ⟨b1, b2, b3⟩ := b
    unfold fpNext
    split
    · exact ⟨b1, by simp only [a2, a3]; omega, b2, by simp only [a3]; omega, by simp only [a2]; omega, by simp⟩
    · split
      · rename_i hl
        simp only at hl
        exact ⟨b1, by simp only [a2, a3]; omega, b2, by simp only; omega, by simp only [a2]; omega, fun _ => ⟨by simp only [a2]; omega, Or.inr hl.2⟩⟩
      · exact ⟨b1, by simp only [a2, a3]; omega, b2, by simp only [a3]; omega, by simp only [a2]; omega, by simp⟩
  have key : ∀ (n : ℕ) (s : FpSt X κ) (r : FpSt X κ ⊕ FpSt X κ), I s → fpIter o c n s = some r → I (r.elim id id) := by
    intro n
    induction n with
    | zero => intro s r hs h; simp only [fpIter, Option.some.injEq] at h; subst h; exact hs
    | succ n ih =>
      intro s r hs h
      unfold fpIter at h
      cases hx : s.sol with
      | none => rw [hx] at h; simp only [Option.some.injEq] at h; subst h; exact hs
      | some x =>
        rw [hx] at h
        obtain ⟨t, ht, h⟩ := Option.bind_eq_some_iff.1 h
        exact ih t r (pass s t x hs (by simp [hx]) ht) h
  have := key n _ r ⟨by simp [fpInit], by simp [fpInit], by simp [fpInit], by simp [fpInit], by simp [fpInit], by simp [fpInit]⟩ h
  exact ⟨this.1, this.2.1, this.2.2.1, this.2.2.2.1, this.2.2.2.2.1⟩

end Verif.Dec.Ifp

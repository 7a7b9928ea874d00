import Verif.Dec.Convex
/-!
# C310: B-OA on convex problems

The search of `Dec/Quesada.lean` with the OA decomposition (`Dec/OaLoop.lean`) in front of the feasibility checker.  It is called at the root only (frequency -99, src/Algorithms/BonBonminSetup.cpp:776-787),
before the checker, which is called at all nodes (789-800).
-/
namespace Verif.Dec.Cvx
open Verif.Oa Verif.Div Verif.Bab.Search

variable {X κ : Type}

/-- What `performOa` leaves behind when it returns (BonOaDecBase.cpp:317-334). -/
def oaEnd : Option (OaSt X κ ⊕ OaSt X κ) → Option (OaSt X κ)
  | some (.inr t) => some t
  | _ => none

/-- The solution stored last (BonOaDecBase.cpp:378-386), with its value. -/
def oaSol (f : X → ℚ) (t : OaSt X κ) : Option (ℚ × X) := t.found.getLast?.map fun x => (f x, x)

/-- The cuts added by the call at the root: what is behind the rows the LP had before. -/
def oaCuts (b0 : Box) (pool : List κ) (e : Option (OaSt X κ)) (b : Box) : List κ := if b = b0 then e.elim [] fun t => t.cuts.drop pool.length else []

/-- The root is given up when the bound is 1e50 or more (`OsiBabSolver::mipFeasible`; set at BonOaDecBase.cpp:329-334). -/
def oaQuit (f : X → ℚ) (b0 : Box) (cut0 : ℚ) (e : Option (OaSt X κ)) (b : Box) (v : ℚ) : Option (Option (ℚ × X)) :=
  if b = b0 ∧ v = cut0 then e.bind fun t => if 10 ^ 50 ≤ t.bound then some (oaSol f t) else none else none

/-- Otherwise the solution is handed over after the node. -/
def oaHeur (f : X → ℚ) (b0 : Box) (e : Option (OaSt X κ)) (b : Box) : Option (ℚ × X) := if b = b0 then e.bind (oaSol f) else none

/-! ## The loop: solutions and cuts -/

/-- What holds at each moment of the loop: the cuts are those at the beginning and cuts made at NLP solutions; the last point stored is the best one, and the cutoff belongs to it. -/
structure Trail (o : Oracles X κ) (c : OaCfg) (cuts : List κ) (cut0 : ℚ) (f : X → ℚ) (s : OaSt X κ) : Prop where
  cuts : ∃ l, s.cuts = cuts ++ l ∧ ∀ k ∈ l, ∃ x j, k ∈ o.cuts (o.nlp x j).pt x j
  last : (s.found = [] ∧ s.ub = cut0 ∧ s.cutoff = cut0) ∨
    (∃ l x, s.found = l ++ [x] ∧ f x = s.ub ∧ s.cutoff = newCutoff c.eps s.ub ∧ newCutoff c.eps s.ub < s.ub ∧ s.ub < cut0)

theorem trail_pass {o : Oracles X κ} {c : OaCfg} {cuts : List κ} {cut0 : ℚ} {f : X → ℚ} (hf : ∀ x k, (o.nlp x k).optimal = true → f (o.nlp x k).pt = (o.nlp x k).obj)
    {s : OaSt X κ} {r : Bool × OaSt X κ} (h : Trail o c cuts cut0 f s) (he : oaPass o c s = some r) : Trail o c cuts cut0 f r.2 := by
  unfold oaPass at he
  split at he
  · simp at he
  · rename_i x hx
    dsimp only at he
    rw [Option.bind_eq_some_iff] at he
    obtain ⟨s1, h1, he⟩ := he
    rw [Option.map_eq_some_iff] at he
    obtain ⟨s2, h2, he⟩ := he
    have t1 : Trail o c cuts cut0 f s1 := by
      unfold afterNlp at h1
      split at h1
      · rename_i hopt
        dsimp only at h1
        split at h1
        · rename_i hlt
          rw [← Option.some.inj h1]
          have hub : (o.nlp x s.pass).obj < s.ub ∧ s.ub ≤ cut0 := by
            rcases h.last with ⟨_, e2, e3⟩ | ⟨_, _, _, _, e3, e4, e5⟩
            · rw [e2]; rw [e3] at hopt; exact ⟨hopt.2, le_rfl⟩
            · exact ⟨by rw [e3] at hopt; exact hopt.2.trans e4, e5.le⟩
          have hm : min (o.nlp x s.pass).obj s.ub = (o.nlp x s.pass).obj := min_eq_left hub.1.le
          refine ⟨h.cuts, Or.inr ⟨s.found, (o.nlp x s.pass).pt, rfl, ?_, rfl, hlt, ?_⟩⟩
          · rw [hf x s.pass hopt.1]; exact hm.symm
          · dsimp only; rw [hm]; exact lt_of_lt_of_le hub.1 hub.2
        · simp at h1
      · rw [← Option.some.inj h1]; exact h
    have t2 : Trail o c cuts cut0 f s2 := by
      unfold afterLp at h2
      dsimp only at h2
      obtain ⟨l, hl1, hl2⟩ := t1.cuts
      have hp : s1.pass = s.pass := by
        unfold afterNlp at h1
        split at h1
        · dsimp only at h1
          split at h1
          · rw [← Option.some.inj h1]
          · simp at h1
        · rw [← Option.some.inj h1]
      have hnew : ∃ l', s1.cuts ++ o.cuts (o.nlp x s.pass).pt x s1.pass = cuts ++ l' ∧ ∀ k ∈ l', ∃ x j, k ∈ o.cuts (o.nlp x j).pt x j := by
        refine ⟨l ++ o.cuts (o.nlp x s.pass).pt x s1.pass, by rw [hl1, List.append_assoc], fun k hk => ?_⟩
        rcases List.mem_append.mp hk with hk | hk
        · exact hl2 k hk
        · rw [hp] at hk; exact ⟨x, s.pass, hk⟩
      split at h2
      · simp at h2
      · split at h2 <;> (rw [← Option.some.inj h2]; exact ⟨hnew, t1.last⟩)
    have t3 : ∀ t : OaSt X κ, t.cuts = s2.cuts → t.found = s2.found → t.ub = s2.ub → t.cutoff = s2.cutoff → Trail o c cuts cut0 f t := by
      intro t e1 e2 e3 e4
      exact ⟨by rw [e1]; exact t2.cuts, by rw [e2, e3, e4]; exact t2.last⟩
    have hg : (afterGap c s2).cuts = s2.cuts ∧ (afterGap c s2).found = s2.found ∧ (afterGap c s2).ub = s2.ub ∧ (afterGap c s2).cutoff = s2.cutoff := by
      unfold afterGap; split <;> exact ⟨rfl, rfl, rfl, rfl⟩
    have hl : ∀ (q : OaSt X κ) p, (localSearch o c q p).cuts = q.cuts ∧ (localSearch o c q p).found = q.found ∧ (localSearch o c q p).ub = q.ub ∧ (localSearch o c q p).cutoff = q.cutoff := by
      intro q p
      unfold localSearch
      dsimp only
      split_ifs <;> exact ⟨rfl, rfl, rfl, rfl⟩
    split at he
    · rw [← he]; exact t3 _ rfl rfl rfl rfl
    · rw [← he]
      obtain ⟨a1, a2, a3, a4⟩ := hl (afterGap c s2) (o.nlp x s.pass).pt
      obtain ⟨b1, b2, b3, b4⟩ := hg
      exact t3 _ (a1.trans b1) (a2.trans b2) (a3.trans b3) (a4.trans b4)

/-- **C310.**  Whenever the OA decomposition is looked at: its cuts are the given ones followed by cuts made at NLP solutions, the solution stored last has the value of the upper bound, which is below
the start cutoff, and the cutoff lies the increment below it; without a solution both are the start cutoff. -/
theorem oa_trail (o : Oracles X κ) (c : OaCfg) (f : X → ℚ) (hf : ∀ x k, (o.nlp x k).optimal = true → f (o.nlp x k).pt = (o.nlp x k).obj) (dmax : ℚ) (n : ℕ) (cuts : List κ) (cut0 : ℚ)
    (nLocal nSols : ℕ) (r : OaSt X κ ⊕ OaSt X κ) (h : performOa o c dmax n cuts cut0 nLocal nSols = some r) : Trail o c cuts cut0 f (r.elim id id) := by
  have key : ∀ (n : ℕ) (s : OaSt X κ) r, Trail o c cuts cut0 f s → oaIter o c n s = some r → Trail o c cuts cut0 f (r.elim id id) := by
    intro n
    induction n with
    | zero => intro s r hs he; rw [← Option.some.inj he]; exact hs
    | succ n ih =>
      intro s r hs he
      unfold oaIter at he
      split at he
      · rw [Option.bind_eq_some_iff] at he
        obtain ⟨q, hq, he⟩ := he
        have hi := trail_pass hf hs hq
        split at he
        · exact ih _ _ hi he
        · rw [← Option.some.inj he]; exact hi
      · rw [← Option.some.inj he]; exact hs
  exact key n _ r ⟨⟨[], by simp [oaInit], by simp⟩, Or.inl ⟨rfl, rfl, rfl⟩⟩ h

/-! ## The loop: when it returns -/

theorem runs_pass {o : Oracles X κ} {c : OaCfg} (he : 0 < c.eps) (hz : ∀ x k, (o.nlp x k).optimal = true → (o.nlp x k).obj ≠ 0) (hc : ∀ x k, o.cuts (o.nlp x k).pt x k ≠ [])
    {s : OaSt X κ} (h1 : s.sol.isSome = true) (h2 : s.cutoff ≤ s.ub) :
    ∃ r, oaPass o c s = some r ∧ (r.2.isInt = true → r.2.sol.isSome = true) ∧ r.2.cutoff ≤ r.2.ub := by
  obtain ⟨x, hx⟩ := Option.isSome_iff_exists.mp h1
  obtain ⟨a1, a2, -⟩ := afterNlp_iff c s (o.nlp x s.pass) h2
  have hn : ∃ s1, afterNlp c s (o.nlp x s.pass) = some s1 ∧ s1.sol = s.sol ∧ s1.pass = s.pass ∧ s1.cutoff ≤ s1.ub := by
    by_cases hb : (o.nlp x s.pass).optimal = true ∧ (o.nlp x s.pass).obj < s.cutoff
    · refine ⟨_, a2 hb.1 hb.2 he (hz x _ hb.1), rfl, rfl, ?_⟩
      have := mul_nonneg he.le (abs_nonneg (o.nlp x s.pass).obj)
      dsimp only
      linarith
    · exact ⟨s, a1 hb, rfl, rfl, h2⟩
  obtain ⟨s1, e1, e2, e3, e4⟩ := hn
  have hl : ∃ s2, afterLp o s1 x (o.nlp x s.pass).pt = some s2 ∧ s2.sol = s1.sol ∧ s2.cutoff = s1.cutoff ∧ s2.ub = s1.ub := by
    have hne : o.cuts (o.nlp x s.pass).pt x s1.pass ≠ [] := by rw [e3]; exact hc x s.pass
    unfold afterLp
    simp only [if_neg hne]
    split <;> exact ⟨_, rfl, rfl, rfl, rfl⟩
  obtain ⟨s2, f1, f2, f3, f4⟩ := hl
  have hs2 : s2.sol.isSome = true := by rw [f2, e2]; exact h1
  have hg : (afterGap c s2).sol = s2.sol ∧ (afterGap c s2).cutoff = s2.cutoff ∧ (afterGap c s2).ub = s2.ub := by
    unfold afterGap; split <;> exact ⟨rfl, rfl, rfl⟩
  unfold oaPass
  simp only [hx, e1, Option.bind_some, f1, Option.map_some]
  split
  · exact ⟨_, rfl, fun _ => hs2, by dsimp only; rw [f3, f4]; exact e4⟩
  · refine ⟨_, rfl, ?_, ?_⟩
    · dsimp only
      unfold localSearch
      dsimp only
      split_ifs with g1 g2 g3
      · intro _
        dsimp only
        have := g2.2
        unfold sameInts at this
        split at this
        · simp at this
        · simp_all
      · exact fun h => h
      · exact fun h => h
      · intro _; rw [hg.1]; exact hs2
    · dsimp only
      have : (localSearch o c (afterGap c s2) (o.nlp x s.pass).pt).cutoff = s2.cutoff ∧ (localSearch o c (afterGap c s2) (o.nlp x s.pass).pt).ub = s2.ub := by
        unfold localSearch
        dsimp only
        split_ifs <;> exact ⟨hg.2.1, hg.2.2⟩
      rw [this.1, this.2, f3, f4]
      exact e4

/-- **C310.**  With a positive increment, cuts at every NLP solution and no NLP with the value 0, the OA decomposition runs into no assert. -/
theorem oa_runs (o : Oracles X κ) (c : OaCfg) (he : 0 < c.eps) (hz : ∀ x k, (o.nlp x k).optimal = true → (o.nlp x k).obj ≠ 0) (hc : ∀ x k, o.cuts (o.nlp x k).pt x k ≠ []) (dmax : ℚ) (n : ℕ)
    (cuts : List κ) (cut0 : ℚ) (nLocal nSols : ℕ) : performOa o c dmax n cuts cut0 nLocal nSols ≠ none := by
  have key : ∀ (n : ℕ) (s : OaSt X κ), (s.isInt = true → s.sol.isSome = true) → s.cutoff ≤ s.ub → oaIter o c n s ≠ none := by
    intro n
    induction n with
    | zero => intro s _ _ h; simp [oaIter] at h
    | succ n ih =>
      intro s h1 h2
      unfold oaIter
      split
      · rename_i hw
        simp only [Bool.and_eq_true] at hw
        obtain ⟨r, e1, e2, e3⟩ := runs_pass he hz hc (h1 hw.1) h2
        rw [e1, Option.bind_some]
        split
        · exact ih _ e2 e3
        · simp
      · simp
  exact key n _ (fun h => h) le_rfl

/-- There is always a cut: the one of the objective. -/
theorem cutsAt_ne {P : Prob} (hS : Shape P) (dual : ℕ → ℚ) (theta : ℚ) (lp : Bool) (x : Pt P) : cutsAt P dual none theta lp x ≠ [] := by
  have hj : ∀ t ∈ P.jac x.1, t.1 < ((List.range P.m).map (rowAt P dual x)).length := by simpa using hS.rows x
  have hrows := oa_rows_exact (T := P.T) (cl := P.cl) (cu := P.cu) (x := x.1) hj theta lp
  have hall := (oa_exact (T := P.T) (cl := P.cl) (cu := P.cu) (x := x.1) (rows := (List.range P.m).map (rowAt P dual x)) (jac := P.jac x.1) none theta lp).2 P.n (P.F x.1)
    (P.grad x.1) P.vt _ hrows
  unfold cutsAt
  rw [Option.map_none, hall]
  simp

/-- **C310.**  On convex problems with finitely many integer assignments the OA decomposition returns, with a positive increment, no NLP with the value 0, MILP solutions in the box, NLPs that keep
the integers, and limits on local searches and solutions that are above the number of assignments. -/
theorem oa_returns {P : Prob} {L : Pt P → Prop} (hP : Convex P L) (hE : Exact P L) (ints : Pt P → List ℚ) (o : Oracles (Pt P) Cut) (dual : Pt P → ℕ → ℕ → ℚ) (theta : ℚ) (lp : Bool)
    (hc : o.cuts = fun xh x k => cutsAt P (dual x k) none theta lp xh) (hL : ∀ x k, L (o.nlp x k).pt) (hs : OaSolvers P ints o) (hF : ∀ x k, FirstOrder P ints (o.nlp x k) (dual x k))
    (b0 : Box) (hm : ∀ cs v k z, (o.milp cs v k).sol = some z → InBox b0 (ints z) ∧ Whole (ints z)) (hi : ∀ x k, ints (o.nlp x k).pt = (ints x).map (fun a => ((round a : ℤ) : ℚ)))
    (c : OaCfg) (he : 0 < c.eps) (hz : ∀ x k, (o.nlp x k).optimal = true → (o.nlp x k).obj ≠ 0) (dmax : ℚ) (n : ℕ) (cuts : List Cut) (cut0 : ℚ) (nLocal nSols : ℕ)
    (hn : n = (b0.map (fun p => (p.2 - p.1 + 1).toNat)).prod) (h1 : nLocal + n + 1 < c.maxLocal) (h2 : nSols + n + 1 < c.maxSols) :
    ∃ t, performOa o c dmax (n + 1) cuts cut0 nLocal nSols = some (.inr t) := by
  have hfin : Verif.Dec.Finite o (fun z => (ints z).map (fun a => (round a : ℤ))) (Qg.assign b0) := by
    refine ⟨fun cs v k z h => Qg.mem_assign b0 _ (hm cs v k z h).1, fun cs v k z h hlt x j hv hin heq => ?_⟩
    have e : ints z = ints (o.nlp x j).pt := by
      rw [hi]
      have hw := (hm cs v k z h).2
      calc ints z = (ints z).map (fun a => ((round a : ℤ) : ℚ)) := by
            conv_lhs => rw [← List.map_id (ints z)]
            refine List.map_congr_left fun a ha => ?_
            obtain ⟨m, rfl⟩ := hw a ha
            simp
        _ = ((ints z).map (fun a => (round a : ℤ))).map (fun m : ℤ => (m : ℚ)) := by rw [List.map_map]; rfl
        _ = ((ints x).map (fun a => (round a : ℤ))).map (fun m : ℤ => (m : ℚ)) := by rw [heq]
        _ = _ := by rw [List.map_map]; rfl
    obtain ⟨m1, m2, m3⟩ := hs.milpSol cs v k z h
    have := no_return hP.toShape hE ints (o.nlp x j) (dual x j) theta lp (hF x j) (hL x j) (fun ho => (hs.nlp x j ho).2.symm) v hv z e
      (fun k hk => m1 k (hin k (by rw [hc]; exact hk))) m2
    exact absurd (m3 hlt) (not_lt.mpr this)
  have hlen := Qg.assign_length b0
  rw [← hn] at hlen
  have ht := oa_terminates o c _ _ hfin dmax cuts cut0 nLocal nSols (by rw [hlen]; exact h1) (by rw [hlen]; exact h2)
  rw [hlen] at ht
  have hr := oa_runs o c he hz (fun x k => by rw [hc]; exact cutsAt_ne hP.toShape _ _ _ _) dmax (n + 1) cuts cut0 nLocal nSols
  cases hp : performOa o c dmax (n + 1) cuts cut0 nLocal nSols with
  | none => exact absurd hp hr
  | some r =>
    cases r with
    | inl s => exact absurd hp (ht s)
    | inr t => exact ⟨t, rfl⟩

/-! ## The whole run -/

/-- What is assumed of the call at the root: it is the one of the code with the cuts of the interface and solvers that are right; the increment is the one of the checker, the gap tolerance is not
larger; the start cutoff is at most 1e50, and no solution lies within the gap below it. -/
structure OaCall (P : Prob) (ints : Pt P → List ℚ) (b0 : Box) (pool : List Cut) (cut0 eps : ℚ) (L : Pt P → Prop) (o : Oracles (Pt P) Cut) (c : OaCfg) (dmax : ℚ) (dual : Pt P → ℕ → ℕ → ℚ)
    (theta : ℚ) (lp : Bool) : Prop where
  cuts : o.cuts = fun xh x k => cutsAt P (dual x k) none theta lp xh
  pts : ∀ x k, L (o.nlp x k).pt
  solvers : OaSolvers P ints o
  first : ∀ x k, FirstOrder P ints (o.nlp x k) (dual x k)
  box : ∀ y, Feas P y → InBox b0 (ints y)
  low : ∀ y, Feas P y → Whole (ints y) → -dmax ≤ P.F y.1
  eps : c.eps = eps
  gap : c.gapTol ≤ c.eps
  big : cut0 ≤ 10 ^ 50
  apart : ∀ y, Feas P y → Whole (ints y) → P.F y.1 ≤ cut0 - slack c.gapTol cut0 ∨ cut0 ≤ P.F y.1

/-- **C310.**  On convex problems the OA decomposition gives the root up only when no solution is missed: the solution it stored last is the best one up to the increment; and the solution and all cuts
handed over are right in any case. -/
theorem boa_root {P : Prob} {L : Pt P → Prop} (hP : Convex P L) (hE : Exact P L) (ints : Pt P → List ℚ) (b0 : Box) (pool : List Cut) (cut0 eps : ℚ) (o : Oracles (Pt P) Cut) (c : OaCfg)
    (dmax : ℚ) (dual : Pt P → ℕ → ℕ → ℚ) (theta : ℚ) (lp : Bool) (hc : OaCall P ints b0 pool cut0 eps L o c dmax dual theta lp) (n nLocal nSols : ℕ)
    (hpool : ∀ k ∈ pool, ∀ y, Feas P y → Sat P.T.inf k y.1) (t : OaSt (Pt P) Cut) (h : performOa o c dmax n pool cut0 nLocal nSols = some (.inr t)) :
    (∀ k ∈ t.cuts, ∀ y, Feas P y → Sat P.T.inf k y.1) ∧
    (∀ u x, oaSol (fun y => P.F y.1) t = some (u, x) → u = P.F x.1 ∧ Sol ints (minlp P) b0 x ∧ u < cut0) ∧
    (10 ^ 50 ≤ t.bound → ∀ y, Feas P y → Whole (ints y) → Qg.kept eps cut0 (oaSol (fun y => P.F y.1) t) ≤ P.F y.1) := by
  have hf : ∀ x k, (o.nlp x k).optimal = true → P.F (o.nlp x k).pt.1 = (o.nlp x k).obj := fun x k ho => (hc.solvers.nlp x k ho).2
  have htr := oa_trail o c (fun y : Pt P => P.F y.1) hf dmax n pool cut0 nLocal nSols _ h
  change Trail o c pool cut0 _ t at htr
  obtain ⟨c1, c2, -, -, c5⟩ := oa_convex_partial hP hE ints o dual theta lp hc.cuts hc.pts hc.solvers hc.first c dmax n pool cut0 nLocal nSols (fun k hk y hy _ => hpool k hk y hy) hc.low _ t h rfl
  refine ⟨?_, ?_, ?_⟩
  · obtain ⟨l, hl1, hl2⟩ := htr.cuts
    intro k hk y hy
    rw [hl1] at hk
    rcases List.mem_append.mp hk with hk | hk
    · exact hpool k hk y hy
    · obtain ⟨x, j, hk⟩ := hl2 k hk
      rw [hc.cuts] at hk
      exact (cuts_hold hP _ _ _ _ _ y (hc.pts x j) hy).2 k hk
  · intro u x hux
    rcases htr.last with ⟨e1, _, _⟩ | ⟨l, z, e1, e2, _, _, e5⟩
    · simp [oaSol, e1] at hux
    · simp only [oaSol, e1, List.getLast?_append, List.getLast?_singleton, Option.some_or, Option.map_some, Option.some.injEq, Prod.mk.injEq] at hux
      obtain ⟨rfl, rfl⟩ := hux
      obtain ⟨⟨f1, f2⟩, _⟩ := c2 z (by rw [e1]; simp)
      exact ⟨rfl, ⟨f1, hc.box z f1, f2⟩, by rw [e2]; exact e5⟩
  · intro hb y hy hw
    rcases htr.last with ⟨e1, e2, e3⟩ | ⟨l, z, e1, e2, e3, e4, e5⟩
    · have : oaSol (fun y : Pt P => P.F y.1) t = none := by simp [oaSol, e1]
      rw [this]
      change cut0 ≤ P.F y.1
      rcases c5 (by rw [e3]; exact hc.big.trans hb) y hy hw with h' | h'
      · rw [← e3]; exact h'
      · rw [e2] at h'
        rcases hc.apart y hy hw with h'' | h''
        · linarith
        · exact h''
    · have hs : oaSol (fun y : Pt P => P.F y.1) t = some (P.F z.1, z) := by simp [oaSol, e1]
      have hz : P.F z.1 = t.ub := e2
      rw [hs]
      change P.F z.1 - eps * |P.F z.1| ≤ P.F y.1
      rw [hz]
      rw [newCutoff_eq, hc.eps] at e3 e4
      rcases c5 (by linarith [hc.big]) y hy hw with h' | h'
      · rw [← e3]; exact h'
      · have hne : t.ub ≠ 0 := by
          intro h0
          rw [h0] at e4
          simp at e4
        have hsl : slack c.gapTol t.ub ≤ eps * |t.ub| := by
          unfold slack
          rw [if_pos hne, ← hc.eps]
          exact mul_le_mul_of_nonneg_right hc.gap (abs_nonneg _)
        linarith

/-- When a generator gives the root up, the search is over: the best solution is the one handed over, nothing is lost. -/
theorem quit_root {σ : Type} {T : Bab.Search.Tree σ} {ready : σ → Prop} (hT : Lawful T ready) (w : Qg.World X κ) (opt : Qg.Opt) (cut0 : ℚ) (g : Gaps) (n : ℕ) (pool : List κ) (b0 : Box)
    (s : Option (ℚ × X)) (hq : w.quit b0 pool cut0 = some s) (hh : ∀ rows v, w.heur b0 rows v = s) (hd : 0 ≤ opt.decr) :
    ∃ st, Qg.search T w opt cut0 g n pool b0 = .done st ∧ st.inc = s ∧ st.lost = [] := by
  have hdone : ∀ st : Qg.St σ X κ, T.inside st.tree = [] → Qg.loop T w opt g n st = .done st := by
    intro st h
    have : T.empty st.tree = true := (hT.empty _).mpr h
    cases n <;> simp [Qg.loop, this]
  unfold Qg.search Qg.start Qg.handle Qg.treat
  simp only [hq]
  cases s with
  | none =>
    simp only [Qg.settle, Qg.St.take, Qg.place, Option.isSome_none, Bool.false_eq_true, if_false, hh, Qg.improve]
    exact ⟨_, hdone _ hT.init.1, rfl, rfl⟩
  | some e =>
    obtain ⟨v, x⟩ := e
    simp only [Qg.settle, Qg.St.take, Qg.place, Option.isSome_some, if_true]
    cases hc : T.step T.init (.clean (v - opt.decr)) with
    | none => exact absurd hc (hT.cleanRuns _ _)
    | some r =>
      obtain ⟨t, l⟩ := r
      have hin : T.inside t = [] := by
        have := (hT.conserve _ _ _ _ hc).1
        rw [hT.init.1] at this
        simp only [List.flatMap_cons, List.flatMap_nil, Op.pushed, List.append_nil] at this
        have := this.eq_nil
        simp only [List.append_eq_nil_iff] at this
        exact this.1.1
      simp only [hh, Qg.improve, not_lt.mpr (sub_le_self v hd), if_false]
      exact ⟨_, hdone _ hin, rfl, rfl⟩

/-- **C310.**  B-OA on a convex problem, with the cuts of the interface: if the OA decomposition at the root returns, the search ends; the best solution is one below the start cutoff; and every
solution is no better than the best one by more than decrement, increment or gap (not below the start cutoff if there is none), or lies in a box that the checker dropped because the LP with valid rows
came within 1/10 of the integers of an NLP it has the cuts of.  Missing for the full claim is the same as in C306 and C307. -/
theorem boa_convex_partial {σ : Type} {T : Bab.Search.Tree σ} {ready : σ → Prop} (hT : Lawful T ready) {P : Prob} {L : Pt P → Prop} (hP : Convex P L) (hE : Exact P L)
    (w : Qg.World (Pt P) Cut) (dual : Pt P → ℕ → ℚ) (theta : ℚ) (lp : Bool) (hw : w.oa = fun xh x => cutsAt P (dual x) none theta lp xh) (hL : ∀ x, L (w.nlp x).pt)
    (b0 : Box) (cut0 : ℚ) (opt : Qg.Opt) (pool : List Cut) (hpool : ∀ c ∈ pool, ∀ y, Feas P y → Sat P.T.inf c y.1)
    (o : Oracles (Pt P) Cut) (c : OaCfg) (dmax : ℚ) (dual' : Pt P → ℕ → ℕ → ℚ) (hc : OaCall P w.ints b0 pool cut0 opt.eps L o c dmax dual' theta lp) (m nLocal nSols : ℕ) (t : OaSt (Pt P) Cut)
    (hrun : performOa o c dmax m pool cut0 nLocal nSols = some (.inr t))
    (hex : w.extra = fun b _ => oaCuts b0 pool (oaEnd (performOa o c dmax m pool cut0 nLocal nSols)) b)
    (hhe : w.heur = fun b _ _ => oaHeur (fun y => P.F y.1) b0 (oaEnd (performOa o c dmax m pool cut0 nLocal nSols)) b)
    (hqu : w.quit = fun b _ v => oaQuit (fun y => P.F y.1) b0 cut0 (oaEnd (performOa o c dmax m pool cut0 nLocal nSols)) b v)
    (lpNone : ∀ b rows v, ¬ ((w.lp b rows v).optimal = true ∧ (w.lp b rows v).limit = false) → ∀ y, Feas P y → InBox b (w.ints y) → (∀ c ∈ rows, Sat P.T.inf c y.1) → v ≤ P.F y.1)
    (lpBound : ∀ b rows v, (w.lp b rows v).optimal = true → (w.lp b rows v).limit = false →
      ∀ y, Feas P y → InBox b (w.ints y) → (∀ c ∈ rows, Sat P.T.inf c y.1) → (w.lp b rows v).obj ≤ P.F y.1)
    (lpBox : ∀ b rows v, (w.lp b rows v).optimal = true → (w.lp b rows v).limit = false → InBox b (w.ints (w.lp b rows v).pt))
    (benders : ∀ x y, Feas P y → ∀ c ∈ w.benders (w.nlp x).pt, Sat P.T.inf c y.1)
    (nlpInts : ∀ x, w.ints (w.nlp x).pt = (w.ints x).map (fun a => ((round a : ℤ) : ℚ)))
    (nlpOpt : ∀ x, (w.nlp x).optimal = true → Feas P (w.nlp x).pt ∧ (w.nlp x).obj = P.F (w.nlp x).pt.1)
    (hx : LpExact P w) (ht : w.tol = 0) (hF : ∀ x, FirstOrder P w.ints (w.nlp x) (dual x))
    (hben : ∀ b rows v x, (∀ c ∈ w.benders (w.nlp x).pt, c ∈ rows) → ((w.nlp x).optimal = true → v ≤ (w.nlp x).obj) → Qg.Below w b rows v →
      w.ints (w.lp b rows v).pt ≠ w.ints (w.nlp x).pt)
    (hd : 0 ≤ opt.decr) (h0 : 0 ≤ opt.eps) (h1 : opt.eps ≤ 1) (gap : Gaps) (n : ℕ)
    (hp : (b0.map (fun p => (p.2 - p.1 + 1).toNat)).prod ≤ opt.passes) (hn : 2 * (2 ^ width b0 - 1) ≤ n) :
    ∃ st, Qg.search T w opt cut0 gap n pool b0 = .done st ∧
      (∀ v x, st.inc = some (v, x) → v = P.F x.1 ∧ Feas P x ∧ InBox b0 (w.ints x) ∧ Whole (w.ints x) ∧ v < cut0) ∧
      (∀ b ∈ st.lost, Qg.Repeats w (minlp P) (fun c y => Sat P.T.inf c y.1) b) ∧
      (10 ^ 50 ≤ t.bound → st.inc = oaSol (fun y => P.F y.1) t ∧ st.lost = []) ∧
      ∀ y, Feas P y → InBox b0 (w.ints y) → Whole (w.ints y) → (∃ b ∈ st.lost, InBox b (w.ints y)) ∨
        (∀ v x, st.inc = some (v, x) → v - opt.decr ≤ P.F y.1 ∨ v - opt.eps * |v| ≤ P.F y.1 ∨ v - P.F y.1 < testGap gap v (T.bound st.tree)) ∧ (st.inc = none → cut0 ≤ P.F y.1) := by
  obtain ⟨r1, r2, r3⟩ := boa_root hP hE w.ints b0 pool cut0 opt.eps o c dmax dual' theta lp hc m nLocal nSols hpool t hrun
  rw [hrun] at hex hhe hqu
  have hs : QgSolvers P w := by
    refine ⟨lpNone, lpBound, lpBox, benders, fun b rows _ => ?_, nlpInts, nlpOpt⟩
    intro k hk y hy
    rw [hex] at hk
    simp only [oaCuts, oaEnd, Option.elim_some] at hk
    split at hk
    · exact r1 k (List.mem_of_mem_drop hk) y hy
    · simp at hk
  have hfound : Qg.Found w (minlp P) (fun c y => Sat P.T.inf c y.1) opt.eps b0 := by
    refine ⟨fun b rows v u x h => ?_, fun b rows v s _ h => ?_⟩
    · rw [hhe] at h
      simp only [oaHeur, oaEnd, Option.bind_some] at h
      split at h
      · obtain ⟨e1, e2, _⟩ := r2 u x h
        exact ⟨e1, e2⟩
      · simp at h
    · rw [hqu] at h
      simp only [oaQuit, oaEnd, Option.bind_some] at h
      split at h
      · rename_i hbv
        obtain ⟨rfl, rfl⟩ := hbv
        split at h
        · rename_i hb
          simp only [Option.some.injEq] at h
          subst h
          exact ⟨r2, fun y hy => r3 hb y hy.1 hy.2.2⟩
        · simp at h
      · simp at h
  obtain ⟨st, e1, e2, e3, e4⟩ := qg_convex_partial hT hP hE w dual theta lp hw hL hs hx ht hF hben b0 cut0 opt hfound hd h0 h1 gap n pool hpool hp hn
  refine ⟨st, e1, e2, e3, fun hb => ?_, e4⟩
  have hq : w.quit b0 pool cut0 = some (oaSol (fun y => P.F y.1) t) := by rw [hqu]; simp [oaQuit, oaEnd, hb]
  have hh : ∀ rows v, w.heur b0 rows v = oaSol (fun y => P.F y.1) t := by intro rows v; rw [hhe]; simp [oaHeur, oaEnd]
  obtain ⟨st', f1, f2, f3⟩ := quit_root hT w opt cut0 gap n pool b0 _ hq hh hd
  rw [f1] at e1
  cases e1
  exact ⟨f2, f3⟩

/-! ## Example: the problem of `Dec/Convex.lean` -/

theorem ex_milp_start (v : ℚ) : exMilp [] v = ⟨1, some (exPt 1)⟩ := by
  have h1 : exS [(0, 5)] [] ((1 : ℕ) : ℚ) := ⟨by norm_num, (Qg.inBox_one 0 5 _).mpr (by norm_num), by norm_num, by simp⟩
  have hex : ∃ k : ℕ, exS [(0, 5)] [] k := ⟨1, h1⟩
  unfold exMilp
  rw [dif_pos hex]
  classical
  have hf : Nat.find hex = 1 := by
    rw [Nat.find_eq_iff]
    refine ⟨h1, fun n hn h => ?_⟩
    have : n = 0 := by omega
    subst this
    have := h.2.2.1
    norm_num at this
  rw [hf]
  simp

theorem ex_nlp_one : exNlp (exPt 1) = ⟨true, 1, exPt 1⟩ := by
  have e1 : (exPt 1).1 0 = 1 := exClamp_eq (t := 1) (by norm_num) (by norm_num)
  unfold exNlp
  rw [e1]
  norm_num

def exC : OaCfg := ⟨1 / 10 ^ 5, 1 / 10 ^ 5, 100, 100⟩

/-- The run of the OA decomposition: one pass, the gap is closed. -/
theorem ex_run : ∃ t, performOa exO exC (10 ^ 200) 2 [] (10 ^ 50) 0 0 = some (.inr t) ∧ 10 ^ 50 ≤ t.bound ∧ oaSol (fun y : Pt exP => exP.F y.1) t = some (1, exPt 1) := by
  have h0 : oaInit exO (10 ^ 200) [] (10 ^ 50) 0 0 = ⟨[], 10 ^ 50, 10 ^ 50, 1, true, true, some (exPt 1), 1, 0, 0, []⟩ := by
    have hm : exO.milp [] (10 ^ 50) 0 = ⟨1, some (exPt 1)⟩ := ex_milp_start _
    unfold oaInit
    rw [hm]
    norm_num
  have h1 : afterNlp exC (⟨[], 10 ^ 50, 10 ^ 50, 1, true, true, some (exPt 1), 1, 0, 0, []⟩ : OaSt (Pt exP) Cut) ⟨true, 1, exPt 1⟩ =
      some ⟨[], newCutoff exC.eps 1, 1, 1, true, true, some (exPt 1), 1, 1, 0, [exPt 1]⟩ := by
    norm_num [afterNlp, newCutoff, exC]
  have hne : exO.cuts (exPt 1) (exPt 1) 0 ≠ [] := by
    change cutsAt exP (fun _ => 0) none 0 false (exPt 1) ≠ []
    decide +kernel
  obtain ⟨co, hco⟩ : ∃ co, co = newCutoff exC.eps 1 := ⟨_, rfl⟩
  have h2 : ∃ cs fe ii bd, afterLp exO (⟨[], co, 1, 1, true, true, some (exPt 1), 1, 1, 0, [exPt 1]⟩ : OaSt (Pt exP) Cut) (exPt 1) (exPt 1) =
      some ⟨cs, co, 1, bd, ii, fe, some (exPt 1), 1, 1, 0, [exPt 1]⟩ ∧ 1 ≤ bd := by
    unfold afterLp
    dsimp only
    simp only [if_neg hne]
    split
    · exact ⟨_, _, _, _, rfl, le_rfl⟩
    · exact ⟨_, _, _, _, rfl, by norm_num⟩
  obtain ⟨cs, fe, ii, bd, h2, hbd⟩ := h2
  have h3 : ∀ q : OaSt (Pt exP) Cut, q = ⟨cs, co, 1, bd, ii, fe, some (exPt 1), 1, 1, 0, [exPt 1]⟩ → localSearch exO exC (afterGap exC q) (exPt 1) =
      ⟨cs, co, 1, 10 ^ 50, ii, false, some (exPt 1), 1, 1, 0, [exPt 1]⟩ := by
    rintro q rfl
    have : gapOf 1 bd < exC.gapTol := by
      simp only [gapOf, exC]
      norm_num
      linarith
    unfold afterGap
    rw [if_pos this]
    simp [localSearch]
  have hp : oaPass exO exC ⟨[], 10 ^ 50, 10 ^ 50, 1, true, true, some (exPt 1), 1, 0, 0, []⟩ =
      some (true, ⟨cs, co, 1, 10 ^ 50, ii, false, some (exPt 1), 1, 1, 1, [exPt 1]⟩) := by
    have hn : exO.nlp (exPt 1) 0 = ⟨true, 1, exPt 1⟩ := ex_nlp_one
    unfold oaPass
    dsimp only
    rw [hn, h1, Option.bind_some, ← hco]
    dsimp only
    rw [h2, Option.map_some]
    have hl : exO.late 0 = false := rfl
    simp only [hl, Bool.false_eq_true, if_false]
    rw [h3 _ rfl]
  refine ⟨⟨cs, co, 1, 10 ^ 50, ii, false, some (exPt 1), 1, 1, 1, [exPt 1]⟩, ?_, le_rfl, ?_⟩
  · unfold performOa
    rw [h0]
    simp [oaIter, hp]
  · have e1 : exP.F (exPt 1).1 = 1 := exClamp_eq (t := 1) (by norm_num) (by norm_num)
    change some (exP.F (exPt 1).1, exPt 1) = _
    rw [e1]

/-- The example meets all assumptions of `oa_returns`. -/
example (cuts : List Cut) (cut0 : ℚ) : ∃ t, performOa exO exC (10 ^ 200) 7 cuts cut0 0 0 = some (.inr t) := by
  refine oa_returns ex_convex ex_exact exW.ints exO (fun _ _ _ => 0) 0 false rfl (fun x _ => ⟨_, (ex_round x).1⟩) ex_oa_solvers (fun x _ => ex_first x) [(0, 5)] ?_
    (fun x _ => ex_solvers.nlpInts x) exC (by norm_num [exC]) ?_ (10 ^ 200) 6 cuts cut0 0 0 (by decide +kernel) (by norm_num [exC]) (by norm_num [exC])
  · intro cs v k z h
    change (exMilp cs v).sol = some z at h
    unfold exMilp at h
    by_cases hex : ∃ k : ℕ, exS [(0, 5)] cs k
    · rw [dif_pos hex] at h
      classical
      have hS := Nat.find_spec hex
      simp only [Option.some.injEq] at h
      subst h
      have e : (exPt (Nat.find hex)).1 0 = Nat.find hex := exClamp_eq hS.1.1 hS.1.2
      refine ⟨?_, ?_⟩
      · change InBox [(0, 5)] [(exPt (Nat.find hex)).1 0]
        rw [e]; exact hS.2.1
      · intro a ha
        have : a = (exPt (Nat.find hex)).1 0 := by simpa [exW] using ha
        exact ⟨(Nat.find hex : ℤ), by rw [this, e]; simp⟩
    · rw [dif_neg hex] at h
      simp at h
  · intro x k h h0
    have h' : (((round (x.1 0) : ℤ) : ℚ) - 3) ^ 2 ≤ 4 := by simpa [exO, exNlp] using h
    change ((round (x.1 0) : ℤ) : ℚ) = 0 at h0
    rw [h0] at h'
    norm_num at h'

/-- B-OA in the example. -/
noncomputable def exB : Qg.World (Pt exP) Cut :=
  { exW with
    extra := fun b _ => oaCuts [(0, 5)] [] (oaEnd (performOa exO exC (10 ^ 200) 2 [] (10 ^ 50) 0 0)) b
    heur := fun b _ _ => oaHeur (fun y => exP.F y.1) [(0, 5)] (oaEnd (performOa exO exC (10 ^ 200) 2 [] (10 ^ 50) 0 0)) b
    quit := fun b _ v => oaQuit (fun y => exP.F y.1) [(0, 5)] (10 ^ 50) (oaEnd (performOa exO exC (10 ^ 200) 2 [] (10 ^ 50) 0 0)) b v }

theorem ex_call : OaCall exP exB.ints [(0, 5)] [] (10 ^ 50) (1 / 10 ^ 5) exL exO exC (10 ^ 200) (fun _ _ _ => 0) 0 false where
  cuts := rfl
  pts := fun x _ => ⟨_, (ex_round x).1⟩
  solvers := ex_oa_solvers
  first := fun x _ => ex_first x
  box := fun y _ => (Qg.inBox_one 0 5 _).mpr (by simpa using ex_cols y)
  low := fun y _ _ => by
    have := (ex_cols y).1
    change -10 ^ 200 ≤ y.1 0
    have h200 : (0 : ℚ) ≤ 10 ^ 200 := by positivity
    linarith
  eps := rfl
  gap := le_rfl
  big := le_rfl
  apart := fun y _ _ => Or.inl (by
    have := (ex_cols y).2
    change y.1 0 ≤ _
    norm_num [slack, exC]
    linarith)

/-- The example meets all assumptions of `boa_convex_partial`; B-OA ends at the root with the optimum `y = 1`. -/
example : ∃ st, Qg.search (diveTree false (10 ^ 50)) exB ⟨1 / 10 ^ 5, 0, 100, true, 6⟩ (10 ^ 50) ⟨0, 0⟩ 62 [] [(0, 5)] = .done st ∧ st.inc = some (1, exPt 1) ∧ st.lost = [] := by
  obtain ⟨t, h1, h2, h3⟩ := ex_run
  obtain ⟨st, e1, _, _, e4, _⟩ := boa_convex_partial (diveTree_lawful false (10 ^ 50)) ex_convex ex_exact exB (fun _ _ => 0) 0 false rfl (fun x => ⟨_, (ex_round x).1⟩)
    [(0, 5)] (10 ^ 50) ⟨1 / 10 ^ 5, 0, 100, true, 6⟩ [] (by simp) exO exC (10 ^ 200) (fun _ _ _ => 0) ex_call 2 0 0 t h1 rfl rfl rfl ex_solvers.lpNone ex_solvers.lpBound ex_solvers.lpBox
    ex_solvers.benders ex_solvers.nlpInts ex_solvers.nlpOpt ex_lpExact rfl ex_first (by
      intro b rows v x hb hv hbel hi
      obtain ⟨a1, a2, a3⟩ := ex_lpExact b rows v hbel.1 hbel.2.1
      have := no_return ex_convex.toShape ex_exact exW.ints (exW.nlp x) (fun _ => 0) 0 false (ex_first x) ⟨_, (ex_round x).1⟩ (fun ho => (ex_solvers.nlpOpt x ho).2) v hv _ hi
        (fun c hc => a1 c (hb c hc)) a2
      exact absurd (lt_of_lt_of_le hbel.2.2 (le_of_le_of_eq this a3.symm)) (lt_irrefl _)) le_rfl (by norm_num) (by norm_num) ⟨0, 0⟩ 62 (by simp) (by decide +kernel)
  exact ⟨st, e1, (e4 h2).1.trans h3, (e4 h2).2⟩

end Verif.Dec.Cvx

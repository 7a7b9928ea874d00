import Verif.Itf.Status
/-! # C17, C19: retries keep the best solution; truthfulness of the reported status -/
namespace Verif.Itf

/-! ### C17 -/

/-- The attempts made: the initial state seen as an outcome, then `k` oracle answers. -/
def attempts (o : Nat → Outcome) (s : S) (k : Nat) : List Outcome :=
  ⟨s.st, s.obj, s.x, s.duals, s.g⟩ :: (List.range k).map (fun i => o (s.calls + i))

theorem range_map_succ {α : Type} (f : Nat → α) (k : Nat) : (List.range (k + 1)).map f = f 0 :: (List.range k).map (fun i => f (i + 1)) := by
  rw [List.range_succ_eq_map, List.map_cons, List.map_map]; rfl

/-- What "keeping the best" means: among the attempts `as`, `b` is the first optimal one of least objective below `cap`, else the default. -/
def Keeps (b0 : Best) (as : List Outcome) (b : Best) : Prop :=
  (b = b0 ∧ ∀ a ∈ as, isOptSt a.st = true → b0.obj ≤ a.obj) ∨
  (∃ pre a post, as = pre ++ a :: post ∧ isOptSt a.st = true ∧ b = ⟨a.st, a.obj, a.x, a.duals⟩ ∧ a.obj < b0.obj ∧
    (∀ p ∈ pre, isOptSt p.st = true → a.obj < p.obj) ∧ ∀ p ∈ post, isOptSt p.st = true → a.obj ≤ p.obj)

theorem costLoop_ok (o : Nat → Outcome) (k : Nat) : ∀ (s : S) (b : Best),
    (∀ i < k, isRecoverable (o (s.calls + i)).st = true) →
    ∃ s' b', costLoop o k s b = .inr (s', b') ∧ Keeps b ((List.range k).map (fun i => o (s.calls + i))) b' ∧
      s'.calls = s.calls + k ∧ s'.sticky = s.sticky ∧ s'.warm = s.warm ∧
      (s'.g = if k = 0 then s.g else (o (s.calls + (k - 1))).g) := by
  induction k with
  | zero => intro s b _; exact ⟨s, b, rfl, Or.inl ⟨rfl, by simp⟩, by simp, rfl, rfl, by simp⟩
  | succ k ih =>
    intro s b h
    have h0 := h 0 (Nat.succ_pos _)
    simp only [Nat.add_zero] at h0
    simp only [costLoop, solve, h0, if_true]
    set s1 : S := { s with st := (o s.calls).st, obj := (o s.calls).obj, x := (o s.calls).x, duals := (o s.calls).duals, g := (o s.calls).g, calls := s.calls + 1 } with hs1
    obtain ⟨s', b', he, hk, hc, hst, hw, hg⟩ := ih s1
      (if isProvenOptimal s1 = true ∧ s1.obj < b.obj then ⟨s1.st, s1.obj, s1.x, s1.duals⟩ else b)
      (by intro i hi; have := h (i + 1) (by omega); simpa [hs1, Nat.add_assoc, Nat.add_comm 1] using this)
    refine ⟨s', b', he, ?_, by rw [hc]; simp [hs1]; omega, by rw [hst], by rw [hw], ?_⟩
    · have hl : (List.range (k + 1)).map (fun i => o (s.calls + i)) = o s.calls :: (List.range k).map (fun i => o (s1.calls + i)) := by
        rw [range_map_succ]
        simp only [Nat.add_zero, hs1]
        congr 1
        apply List.map_congr_left
        intro i _
        congr 1
        omega
      rw [hl]
      by_cases hc1 : isProvenOptimal s1 = true ∧ s1.obj < b.obj
      · rw [if_pos hc1] at hk
        obtain ⟨ho, hlt⟩ := hc1
        rcases hk with ⟨hb', hall⟩ | ⟨pre, a, post, hsplit, ha, hb', hlt', hpre, hpost⟩
        · right
          exact ⟨[], o s.calls, _, rfl, ho, hb', hlt, by simp, hall⟩
        · right
          refine ⟨o s.calls :: pre, a, post, by rw [hsplit]; rfl, ha, hb', lt_trans hlt' hlt, ?_, hpost⟩
          intro p hp hop
          rcases List.mem_cons.mp hp with rfl | hp
          · exact hlt'
          · exact hpre p hp hop
      · rw [if_neg hc1] at hk
        have hfirst : isOptSt (o s.calls).st = true → b.obj ≤ (o s.calls).obj := by
          intro ho; by_contra hlt; exact hc1 ⟨ho, not_le.mp hlt⟩
        rcases hk with ⟨hb', hall⟩ | ⟨pre, a, post, hsplit, ha, hb', hlt', hpre, hpost⟩
        · left
          refine ⟨hb', ?_⟩
          intro a ha hoa
          rcases List.mem_cons.mp ha with rfl | ha
          · exact hfirst hoa
          · exact hall a ha hoa
        · right
          refine ⟨o s.calls :: pre, a, post, by rw [hsplit]; rfl, ha, hb', hlt', ?_, hpost⟩
          intro p hp hop
          rcases List.mem_cons.mp hp with rfl | hp
          · exact lt_of_lt_of_le hlt' (hfirst hop)
          · exact hpre p hp hop
    · rw [hg]
      by_cases hk0 : k = 0
      · subst hk0; simp [hs1]
      · rw [if_neg hk0]; simp only [hs1, Nat.succ_ne_zero, if_false]; congr 2; omega

theorem costLoop_throws (o : Nat → Outcome) (k : Nat) : ∀ (s : S) (b : Best) (i : Nat), i < k →
    isRecoverable (o (s.calls + i)).st = false → ∃ s', costLoop o k s b = .inl s' := by
  induction k with
  | zero => intro s b i hi; omega
  | succ k ih =>
    intro s b i hi h
    simp only [costLoop, solve]
    by_cases h0 : isRecoverable (o s.calls).st = true
    · simp only [h0, if_true]
      cases i with
      | zero => rw [Nat.add_zero] at h; rw [h] at h0; simp at h0
      | succ i => exact ih _ _ i (by omega) (by simpa [Nat.add_assoc, Nat.add_comm 1] using h)
    · simp only [h0]; exact ⟨_, rfl⟩

/-- **C17**.  The multi-start resolve returns normally iff no attempt ends with an unrecoverable error, and then, over the initial solve and all
retries: if some attempt succeeded (with an objective below the sentinel `DBL_MAX`), status, objective, point and duals are those of the first successful attempt of least objective, and the result is
reported as solved; otherwise the initial status, point and duals are kept and the objective is the sentinel. -/
theorem resolveForCost_best (c : Cfg) (o : Nat → Outcome) (k : Nat) (s : S)
    (hr : ∀ i < k, isRecoverable (o (s.calls + i)).st = true)
    (hd : ∀ a ∈ attempts o s k, isOptSt a.st = true → a.obj < c.dmax) :
    ∃ s', resolveForCost c o k s = .ok s' ∧
      ((∃ pre a post, attempts o s k = pre ++ a :: post ∧ isOptSt a.st = true ∧
          s'.st = a.st ∧ s'.obj = a.obj ∧ s'.x = a.x ∧ s'.duals = a.duals ∧ isProvenOptimal s' = true ∧
          (∀ p ∈ pre, isOptSt p.st = true → a.obj < p.obj) ∧ ∀ p ∈ post, isOptSt p.st = true → a.obj ≤ p.obj) ∨
       ((∀ a ∈ attempts o s k, isOptSt a.st = false) ∧ s'.st = s.st ∧ s'.obj = c.dmax ∧ s'.x = s.x ∧ s'.duals = s.duals)) := by
  unfold resolveForCost
  simp only
  obtain ⟨s1, b, he, hk, -⟩ := costLoop_ok o k { s with warm := false }
    ⟨s.st, if isProvenOptimal s then s.obj else c.dmax, s.x, s.duals⟩ hr
  rw [show isProvenOptimal { s with warm := false } = isProvenOptimal s from rfl, he]
  refine ⟨_, rfl, ?_⟩
  simp only at hk
  have hd0 := hd ⟨s.st, s.obj, s.x, s.duals, s.g⟩ List.mem_cons_self
  by_cases h0 : isProvenOptimal s = true
  · rw [if_pos h0] at hk
    left
    rcases hk with ⟨rfl, hall⟩ | ⟨pre, a, post, hsplit, ha, rfl, hlt, hpre, hpost⟩
    · exact ⟨[], _, _, rfl, h0, rfl, rfl, rfl, rfl, h0, by simp, hall⟩
    · refine ⟨_ :: pre, a, post, by rw [attempts, hsplit]; rfl, ha, rfl, rfl, rfl, rfl, ha, ?_, hpost⟩
      intro p hp hop
      rcases List.mem_cons.mp hp with rfl | hp
      · exact hlt
      · exact hpre p hp hop
  · rw [if_neg h0] at hk
    rcases hk with ⟨rfl, hall⟩ | ⟨pre, a, post, hsplit, ha, rfl, hlt, hpre, hpost⟩
    · right
      refine ⟨?_, rfl, rfl, rfl, rfl⟩
      intro a ha
      by_contra hcon
      have hcon : isOptSt a.st = true := by simpa using hcon
      have hlt := hd a ha hcon
      rcases List.mem_cons.mp ha with rfl | ha
      · exact h0 hcon
      · exact absurd (hall a ha hcon) (not_le.mpr hlt)
    · left
      refine ⟨_ :: pre, a, post, by rw [attempts, hsplit]; rfl, ha, rfl, rfl, rfl, rfl, ha, ?_, hpost⟩
      intro p hp hop
      rcases List.mem_cons.mp hp with rfl | hp
      · exact absurd hop h0
      · exact hpre p hp hop

theorem resolveForCost_throws (c : Cfg) (o : Nat → Outcome) (k : Nat) (s : S) (i : Nat) (hi : i < k)
    (h : isRecoverable (o (s.calls + i)).st = false) : ∃ s', resolveForCost c o k s = .thrown s' := by
  unfold resolveForCost
  simp only
  obtain ⟨s', he⟩ := costLoop_throws o k { s with warm := false } _ i hi h
  rw [he]
  exact ⟨s', rfl⟩

/-- **C17** refuted for the row activities: they are those of the *last* attempt, whichever attempt was kept. -/
theorem resolveForCost_rows_stale (c : Cfg) (o : Nat → Outcome) (k : Nat) (s s' : S) (hk : 0 < k)
    (h : resolveForCost c o k s = .ok s') : s'.g = (o (s.calls + (k - 1))).g := by
  have hr : ∀ i < k, isRecoverable (o (s.calls + i)).st = true := by
    intro i hi
    by_contra hcon
    obtain ⟨s'', he⟩ := resolveForCost_throws c o k s i hi (by simpa using hcon)
    rw [he] at h; cases h
  unfold resolveForCost at h
  simp only at h
  obtain ⟨s1, b, he, -, -, -, -, hg⟩ := costLoop_ok o k { s with warm := false }
    ⟨s.st, if isProvenOptimal s then s.obj else c.dmax, s.x, s.duals⟩ hr
  rw [show isProvenOptimal { s with warm := false } = isProvenOptimal s from rfl, he] at h
  cases h
  rw [if_neg (by omega)] at hg
  exact hg

/-! ### C19 -/

/-- **C19** (Ipopt).  Unless an abort was requested, the solve is reported optimal iff Ipopt converged (fully, to the acceptable level, or to a feasible
point of a square problem) or the fixed point was feasible, and infeasible iff Ipopt detected local infeasibility or the fixed point was infeasible. -/
theorem ipopt_truth (zd : Option Bool) (ip : IpStatus) :
    (isOptSt (optimizeTNLP zd ip false) = true ↔
      zd = some true ∨ (zd = none ∧ (ip = .succeeded ∨ ip = .acceptable ∨ ip = .feasiblePoint))) ∧
    (optimizeTNLP zd ip false = .provenInfeasible ↔ zd = some false ∨ (zd = none ∧ ip = .infeasible)) ∧
    (optimizeTNLP zd ip false = .unbounded ↔ zd = none ∧ ip = .diverging) := by
  cases zd with
  | none => cases ip <;> decide
  | some b => cases b <;> cases ip <;> decide

/-- …but after an abort request every solve is reported as proven infeasible. -/
theorem ipopt_abort_untruthful (zd : Option Bool) (ip : IpStatus) : optimizeTNLP zd ip true = .provenInfeasible := by
  cases zd with
  | none => rfl
  | some b => cases b <;> rfl

/-- The status of the last recorded solve. -/
def Recorded (o : Nat → Outcome) (s s' : S) : Prop := ∃ i, s.calls ≤ i ∧ i < s'.calls ∧ (o i).st = s'.st ∧ (o i).x = s'.x ∧ (o i).duals = s'.duals ∧
  (isProvenOptimal s' = true → s'.obj = (o i).obj)

theorem solve_ok {o : Nat → Outcome} {s s' : S} (h : solve o s = .ok s') :
    isRecoverable s'.st = true ∧ s'.calls = s.calls + 1 ∧ s'.st = (o s.calls).st ∧ s'.obj = (o s.calls).obj ∧ s'.x = (o s.calls).x ∧
    s'.duals = (o s.calls).duals ∧ s'.sticky = s.sticky ∧ s'.warm = s.warm ∧ s'.retryInitial = s.retryInitial ∧ s'.first = s.first := by
  unfold solve at h
  simp only at h
  split at h
  · rename_i hr; cases h; exact ⟨hr, rfl, rfl, rfl, rfl, rfl, rfl, rfl, rfl, rfl⟩
  · cases h

theorem costLoop_inr {o : Nat → Outcome} (k : Nat) : ∀ {s s' : S} {b b' : Best}, costLoop o k s b = .inr (s', b') →
    s.calls ≤ s'.calls ∧ s'.sticky = s.sticky ∧ s'.warm = s.warm ∧
    (b' = b ∨ ∃ i, s.calls ≤ i ∧ i < s'.calls ∧ b' = ⟨(o i).st, (o i).obj, (o i).x, (o i).duals⟩ ∧ isOptSt (o i).st = true) := by
  induction k with
  | zero => intro s s' b b' h; simp only [costLoop, Sum.inr.injEq, Prod.mk.injEq] at h; obtain ⟨rfl, rfl⟩ := h; exact ⟨le_refl _, rfl, rfl, Or.inl rfl⟩
  | succ k ih =>
    intro s s' b b' h
    simp only [costLoop] at h
    cases hs : solve o s with
    | thrown s1 => rw [hs] at h; cases h
    | ok s1 =>
      rw [hs] at h
      simp only at h
      obtain ⟨hrec, hc, h1, h2, h3, h4, h5, h6, -, -⟩ := solve_ok hs
      obtain ⟨q1, q2, q3, q4⟩ := ih h
      refine ⟨by omega, q2.trans h5, q3.trans h6, ?_⟩
      rcases q4 with q4 | ⟨i, i1, i2, i3, i4⟩
      · by_cases hcond : isProvenOptimal s1 = true ∧ s1.obj < b.obj
        · rw [if_pos hcond] at q4
          right
          refine ⟨s.calls, le_refl _, by omega, ?_, ?_⟩
          · rw [q4, h1, h2, h3, h4]
          · rw [← h1]; exact hcond.1
        · rw [if_neg hcond] at q4; exact Or.inl q4
      · right; exact ⟨i, by omega, i2, i3, i4⟩

theorem resolveForCost_recorded {c : Cfg} {o : Nat → Outcome} {k : Nat} {s0 s s' : S} (h : resolveForCost c o k s = .ok s')
    (h0 : Recorded o s0 s) : Recorded o s0 s' ∧ s'.sticky = s.sticky ∧ (s'.st = s.st ∨ isProvenOptimal s' = true) := by
  unfold resolveForCost at h
  simp only at h
  cases hl : costLoop o k { s with warm := false } ⟨s.st, if isProvenOptimal s then s.obj else c.dmax, s.x, s.duals⟩ with
  | inl s1 =>
    rw [show isProvenOptimal { s with warm := false } = isProvenOptimal s from rfl, hl] at h; cases h
  | inr p =>
    obtain ⟨s1, b⟩ := p
    rw [show isProvenOptimal { s with warm := false } = isProvenOptimal s from rfl, hl] at h
    cases h
    obtain ⟨q1, q2, -, q4⟩ := costLoop_inr k hl
    simp only at q1 q2
    obtain ⟨i, i1, i2, i3, i4, i5, i6⟩ := h0
    rcases q4 with rfl | ⟨j, j1, j2, rfl, j4⟩
    · refine ⟨⟨i, i1, lt_of_lt_of_le i2 q1, i3, i4, i5, ?_⟩, q2, Or.inl rfl⟩
      intro hopt
      have : isProvenOptimal s = true := hopt
      simp only [this, if_true]
      exact i6 this
    · refine ⟨⟨j, by simp only at j1; omega, j2, rfl, rfl, rfl, fun _ => rfl⟩, q2, Or.inr j4⟩

theorem robustLoop_inr {o : Nat → Outcome} (k : Nat) : ∀ {s s' : S} {b : Bool}, robustLoop o k s = .inr (s', b) →
    s.calls ≤ s'.calls ∧ s'.sticky = s.sticky ∧ (0 < k → Recorded o s s') ∧ (b = true → isAbandoned s' = false) ∧
    (b = false → 0 < k → isAbandoned s' = true ∧ isRecoverable s'.st = true) ∧ (b = true → 0 < k → isRecoverable s'.st = true) := by
  induction k with
  | zero =>
    intro s s' b h
    simp only [robustLoop, Sum.inr.injEq, Prod.mk.injEq] at h; obtain ⟨rfl, rfl⟩ := h
    exact ⟨le_refl _, rfl, by simp, by simp, by simp, by simp⟩
  | succ k ih =>
    intro s s' b h
    simp only [robustLoop] at h
    cases hs : solve o s with
    | thrown s1 => rw [hs] at h; cases h
    | ok s1 =>
      rw [hs] at h
      simp only at h
      obtain ⟨hrec, hc, h1, h2, h3, h4, h5, h6, -, -⟩ := solve_ok hs
      by_cases ha : isAbandoned s1 = true
      · rw [if_pos ha] at h
        obtain ⟨q1, q2, q3, q4, q5, q6⟩ := ih h
        by_cases hk : 0 < k
        · refine ⟨by omega, q2.trans h5, ?_, q4, fun hb _ => q5 hb hk, fun hb _ => q6 hb hk⟩
          intro _
          obtain ⟨i, i1, i2, i3⟩ := q3 hk
          exact ⟨i, by omega, i2, i3⟩
        · have : k = 0 := by omega
          subst this
          simp only [robustLoop, Sum.inr.injEq, Prod.mk.injEq] at h
          obtain ⟨rfl, rfl⟩ := h
          exact ⟨by omega, h5, fun _ => ⟨s.calls, le_refl _, by omega, h1.symm, h3.symm, h4.symm, fun _ => h2⟩, by simp, fun _ _ => ⟨ha, hrec⟩, by simp⟩
      · rw [if_neg ha] at h
        simp only [Sum.inr.injEq, Prod.mk.injEq] at h
        obtain ⟨rfl, rfl⟩ := h
        exact ⟨by omega, h5, fun _ => ⟨s.calls, le_refl _, by omega, h1.symm, h3.symm, h4.symm, fun _ => h2⟩,
          fun _ => by simpa using ha, by simp, fun _ _ => hrec⟩

theorem resolveForRobustness_ok {c : Cfg} {o : Nat → Outcome} {k : Nat} {s0 s s' : S} (h : resolveForRobustness c o k s = .ok s')
    (hle : s0.calls ≤ s.calls) : Recorded o s0 s' ∧ (s'.sticky = s.sticky ∧ isAbandoned s' = false ∨ (s'.sticky = true ∧ c.pretendFail ≠ 0)) ∧
      isRecoverable s'.st = true := by
  unfold resolveForRobustness at h
  cases hl : robustLoop o (k + 1) { s with warm := false } with
  | inl s1 => rw [hl] at h; cases h
  | inr p =>
    obtain ⟨s1, b⟩ := p
    rw [hl] at h
    obtain ⟨q1, q2, q3, q4, q5, q6⟩ := robustLoop_inr (k + 1) hl
    obtain ⟨i, i1, i2, i3⟩ := q3 (Nat.succ_pos _)
    cases b with
    | true =>
      simp only at h
      cases h
      exact ⟨⟨i, by simp only at i1; omega, i2, i3⟩, Or.inl ⟨q2, q4 rfl⟩, q6 rfl (Nat.succ_pos _)⟩
    | false =>
      simp only at h
      split at h
      · rename_i hp
        cases h
        exact ⟨⟨i, by simp only at i1; omega, i2, i3⟩, Or.inr ⟨rfl, hp⟩, (q5 rfl (Nat.succ_pos _)).2⟩
      · cases h

/-- What a normal return of a solve function guarantees. -/
structure Truthful (c : Cfg) (o : Nat → Outcome) (s s' : S) : Prop where
  /-- status, point and (when optimal) objective are those of one of the NLP solves of this very call -/
  recorded : Recorded o s s'
  /-- an abandoned solve never returns normally, unless failures are to be ignored -/
  notAbandoned : isAbandoned s' = false
  /-- the "pretend success" flag is raised only if the user asked failures to be ignored -/
  sticky : s'.sticky = true → s.sticky = true ∨ c.pretendFail ≠ 0
  /-- unrecoverable errors never return normally -/
  recoverable : isRecoverable s'.st = true

theorem finish_same (c : Cfg) (s : S) : (finish c s).st = s.st ∧ (finish c s).obj = s.obj ∧ (finish c s).x = s.x ∧ (finish c s).duals = s.duals ∧
    (finish c s).sticky = s.sticky ∧ (finish c s).calls = s.calls := by
  unfold finish; split <;> exact ⟨rfl, rfl, rfl, rfl, rfl, rfl⟩

theorem truthful_finish {c : Cfg} {o : Nat → Outcome} {s s' : S} (h : Truthful c o s s') : Truthful c o s (finish c s') := by
  obtain ⟨e1, e2, e3, e4, e5, e6⟩ := finish_same c s'
  obtain ⟨⟨i, i1, i2, i3, i4, i5, i6⟩, h2, h3, h4⟩ := h
  refine ⟨⟨i, i1, by omega, by rw [e1]; exact i3, by rw [e3]; exact i4, by rw [e4]; exact i5, ?_⟩, ?_, by rw [e5]; exact h3, by rw [e1]; exact h4⟩
  · intro ho; rw [e2]; apply i6; simpa [isProvenOptimal, e1] using ho
  · simpa [isAbandoned, e1, e5] using h2

theorem solved_recorded {o : Nat → Outcome} {s s1 : S} (hs : solve o s = .ok s1) : Recorded o s s1 := by
  obtain ⟨-, hc, h1, h2, h3, h4, -⟩ := solve_ok hs
  exact ⟨s.calls, le_refl _, by omega, h1.symm, h3.symm, h4.symm, fun _ => h2⟩

theorem truthful_after_cost {c : Cfg} {o : Nat → Outcome} {k : Nat} {s s1 s' : S} (h0 : Truthful c o s s1) (h : resolveForCost c o k s1 = .ok s') :
    Truthful c o s s' := by
  obtain ⟨q1, q2, q3⟩ := resolveForCost_recorded h h0.recorded
  refine ⟨q1, ?_, by rw [q2]; exact h0.sticky, ?_⟩
  · rcases q3 with q3 | q3
    · have := h0.notAbandoned
      simpa [isAbandoned, q2, q3] using this
    · simp only [isProvenOptimal, isOptSt, Bool.or_eq_true, decide_eq_true_eq] at q3
      rcases q3 with q3 | q3 <;> simp [isAbandoned, q3]
  · rcases q3 with q3 | q3
    · rw [q3]; exact h0.recoverable
    · simp only [isProvenOptimal, isOptSt, Bool.or_eq_true, decide_eq_true_eq] at q3
      rcases q3 with q3 | q3 <;> rw [q3] <;> decide

theorem truthful_after_robust {c : Cfg} {o : Nat → Outcome} {k : Nat} {s s1 s' : S} (hle : s.calls ≤ s1.calls) (hst : s1.sticky = s.sticky)
    (h : resolveForRobustness c o k s1 = .ok s') : Truthful c o s s' := by
  obtain ⟨q1, q2, q3⟩ := resolveForRobustness_ok h hle
  refine ⟨q1, ?_, ?_, q3⟩
  · rcases q2 with q2 | q2
    · exact q2.2
    · simp [isAbandoned, q2.1]
  · intro h'
    rcases q2 with q2 | q2
    · left; rw [← hst, ← q2.1]; exact h'
    · exact Or.inr q2.2

theorem truthful_solve {c : Cfg} {o : Nat → Outcome} {s s1 : S} (hs : solve o s = .ok s1) (ha : isAbandoned s1 = false) : Truthful c o s s1 := by
  have := solve_ok hs
  exact ⟨solved_recorded hs, ha, fun h => Or.inl (by rw [← this.2.2.2.2.2.2.1]; exact h), this.1⟩

/-- **C19**: every normal return of `initialSolve` is truthful. -/
theorem initialSolve_truthful (c : Cfg) (o : Nat → Outcome) (s s' : S) (h : initialSolve c o s = .ok s') : Truthful c o s s' := by
  unfold initialSolve at h
  cases hs : solve o { s with warm := false } with
  | thrown s1 => rw [hs] at h; cases h
  | ok s1 =>
    rw [hs] at h
    simp only [Res.bind] at h
    have hsol := solve_ok hs
    have fix : ∀ t, Truthful c o { s with warm := false } t → Truthful c o s t := fun t ht => ⟨ht.recorded, ht.notAbandoned, ht.sticky, ht.recoverable⟩
    have fin : ∀ t, Truthful c o s t → Truthful c o s (finish c { t with first := false }) := fun t ht => by
      exact truthful_finish ⟨ht.recorded, ht.notAbandoned, ht.sticky, ht.recoverable⟩
    by_cases hA : isAbandoned s1 = true ∨ (isProvenPrimalInfeasible s1 = true ∧ s1.obj < c.infeasEps)
    · rw [if_pos hA] at h
      cases hr : resolveForRobustness c o c.retryUnsolved s1 with
      | thrown s2 => rw [hr] at h; cases h
      | ok s2 =>
        rw [hr] at h
        cases h
        exact fin _ (truthful_after_robust (by rw [hsol.2.1]; simp) hsol.2.2.2.2.2.2.1 hr)
    · rw [if_neg hA] at h
      push Not at hA
      have ht : Truthful c o s s1 := fix _ (truthful_solve hs (by simpa using hA.1))
      split at h
      · rename_i s2 hm
        split at hm
        · split at hm
          · rename_i s3 hcost
            cases hm
            cases h
            exact fin _ ⟨(truthful_after_cost ht hcost).recorded, (truthful_after_cost ht hcost).notAbandoned,
              (truthful_after_cost ht hcost).sticky, (truthful_after_cost ht hcost).recoverable⟩
          · cases hm
        · cases hm; cases h; exact fin _ ht
      · cases h

/-- **C19**: every normal return of `resolve` is truthful. -/
theorem resolve_truthful (c : Cfg) (o : Nat → Outcome) (s s' : S) (h : resolve c o s = .ok s') : Truthful c o s s' := by
  unfold resolve at h
  by_cases hw : s.warm = true
  · rw [if_neg (by simp [hw])] at h
    cases hs : solve o { s with warm := false } with
    | thrown s1 => rw [hs] at h; cases h
    | ok s1 =>
      rw [hs] at h
      simp only [Res.bind] at h
      have hsol := solve_ok hs
      have fix : ∀ t, Truthful c o { s with warm := false } t → Truthful c o s t := fun t ht => ⟨ht.recorded, ht.notAbandoned, ht.sticky, ht.recoverable⟩
      by_cases hA : isAbandoned s1 = true ∨ (s1.obj < 1 / 10 ^ 6 ∧ isProvenPrimalInfeasible s1 = true)
      · rw [if_pos hA] at h
        cases hr : resolveForRobustness c o c.retryUnsolved s1 with
        | thrown s2 => rw [hr] at h; cases h
        | ok s2 =>
          rw [hr] at h
          cases h
          exact truthful_finish (truthful_after_robust (by rw [hsol.2.1]; simp) hsol.2.2.2.2.2.2.1 hr)
      · rw [if_neg hA] at h
        push Not at hA
        have ht : Truthful c o s s1 := fix _ (truthful_solve hs (by simpa using hA.1))
        split at h
        · rename_i s2 hm
          split at hm
          · cases h; exact truthful_finish (truthful_after_cost ht hm)
          · cases hm; cases h; exact truthful_finish ht
        · cases h
  · rw [if_pos (by simpa using hw)] at h
    exact initialSolve_truthful c o s s' h

/-- Operations of a history. -/
inductive Op | init | res

def run (c : Cfg) (o : Nat → Outcome) (s : S) : List Op → Res
  | [] => .ok s
  | .init :: l => (initialSolve c o s).bind (fun s => run c o s l)
  | .res :: l => (resolve c o s).bind (fun s => run c o s l)

/-- The status describes the last call to the NLP solver made by some solve of the history. -/
theorem sticky_mono_solve {o : Nat → Outcome} {s s1 : S} (hs : solve o s = .ok s1) (h : s.sticky = true) : s1.sticky = true := by
  rw [(solve_ok hs).2.2.2.2.2.2.1]; exact h

theorem sticky_after (c : Cfg) (o : Nat → Outcome) (s s' : S) (op : Op) (hst : s.sticky = true) (h : run c o s [op] = .ok s') :
    s'.sticky = true := by
  have hcost : ∀ k t t', resolveForCost c o k t = .ok t' → t.sticky = true → t'.sticky = true := by
    intro k t t' h ht
    unfold resolveForCost at h
    simp only at h
    split at h
    · cases h
    · rename_i hl; cases h; rw [(costLoop_inr k hl).2.1]; exact ht
  have hrob : ∀ k t t', resolveForRobustness c o k t = .ok t' → t.sticky = true → t'.sticky = true := by
    intro k t t' h ht
    rcases (resolveForRobustness_ok h (le_refl _)).2.1 with q | q
    · rw [q.1]; exact ht
    · exact q.1
  have hfin : ∀ t, t.sticky = true → (finish c t).sticky = true := fun t ht => by rw [(finish_same c t).2.2.2.2.1]; exact ht
  have hinit : ∀ t t', initialSolve c o t = .ok t' → t.sticky = true → t'.sticky = true := by
    intro t t' h ht
    unfold initialSolve at h
    cases hs : solve o { t with warm := false } with
    | thrown s1 => rw [hs] at h; cases h
    | ok s1 =>
      have h1 := sticky_mono_solve hs ht
      rw [hs] at h
      simp only [Res.bind] at h
      split at h
      · rename_i s2 hm
        cases h
        apply hfin
        show s2.sticky = true
        split at hm
        · exact hrob _ _ _ hm h1
        · split at hm
          · split at hm
            · rename_i s3 h3; cases hm; exact hcost _ _ s3 h3 h1
            · cases hm
          · cases hm; exact h1
      · cases h
  cases op with
  | init =>
    simp only [run, Res.bind] at h
    split at h
    · rename_i s1 h1; cases h; exact hinit _ _ h1 hst
    · cases h
  | res =>
    simp only [run, Res.bind] at h
    split at h
    · rename_i s1 h1
      cases h
      unfold resolve at h1
      split at h1
      · exact hinit _ _ h1 hst
      · cases hs : solve o { s with warm := false } with
        | thrown s1 => rw [hs] at h1; cases h1
        | ok s2 =>
          have h2 := sticky_mono_solve hs hst
          rw [hs] at h1
          simp only [Res.bind] at h1
          split at h1
          · rename_i s3 hm
            cases h1
            apply hfin
            split at hm
            · exact hrob _ _ _ hm h2
            · split at hm
              · exact hcost _ _ _ hm h2
              · cases hm; exact h2
          · cases h1
    · cases h

/-- **C19** refuted: once one failure was ignored, no later solve of any history is ever reported as abandoned, whatever the solver answers. -/
theorem sticky_forever (c : Cfg) (o : Nat → Outcome) (ops : List Op) : ∀ (s s' : S), s.sticky = true → run c o s ops = .ok s' →
    s'.sticky = true ∧ isAbandoned s' = false := by
  induction ops with
  | nil => intro s s' hst h; cases h; exact ⟨hst, by simp [isAbandoned, hst]⟩
  | cons op ops ih =>
    intro s s' hst h
    cases op with
    | init =>
      simp only [run] at h
      cases h1 : initialSolve c o s with
      | thrown s1 => rw [h1] at h; cases h
      | ok s1 =>
        rw [h1] at h
        exact ih s1 s' (sticky_after c o s s1 .init hst (by simp [run, h1, Res.bind])) h
    | res =>
      simp only [run] at h
      cases h1 : resolve c o s with
      | thrown s1 => rw [h1] at h; cases h
      | ok s1 =>
        rw [h1] at h
        exact ih s1 s' (sticky_after c o s s1 .res hst (by simp [run, h1, Res.bind])) h

/-- The operation returns normally and the final state satisfies a test. -/
def Res.okAnd (r : Res) (p : S → Bool) : Bool := match r with | .ok s => p s | .thrown _ => false

theorem Res.okAnd_iff (r : Res) (p : S → Bool) : r.okAnd p = true ↔ ∃ s, r = .ok s ∧ p s = true := by
  cases r <;> simp [Res.okAnd]

def s0 : S := ⟨.solvedOptimal, 0, [], [], [], false, false, true, 0, false, 0⟩
def cfg (pf : Nat) : Cfg := ⟨pf, 0, 0, 0, 0, 10^30, true⟩

/-- …and this happens: with failures treated as infeasible, an `initialSolve` hitting the iteration limit returns normally and is reported neither abandoned
nor infeasible nor optimal; all later failed solves too. -/
theorem failure_reported_as_nothing :
    ∃ s', run (cfg 1) (fun _ => ⟨.iterationLimit, 7, [1], [], []⟩) s0 [.init, .res, .init] = .ok s' ∧
      isAbandoned s' = false ∧ isProvenOptimal s' = false ∧ isProvenPrimalInfeasible s' = false ∧ isProvenDualInfeasible s' = false := by
  have := (Res.okAnd_iff (run (cfg 1) (fun _ => ⟨.iterationLimit, 7, [1], [], []⟩) s0 [.init, .res, .init])
    (fun s' => !isAbandoned s' && !isProvenOptimal s' && !isProvenPrimalInfeasible s' && !isProvenDualInfeasible s')).mp (by decide +kernel)
  obtain ⟨s', h, hp⟩ := this
  simp only [Bool.and_eq_true, Bool.not_eq_true'] at hp
  exact ⟨s', h, hp.1.1.1, hp.1.1.2, hp.1.2, hp.2⟩

/-- **C19** refuted: a solve that did not converge, or ran out of time, returns normally and none of the status queries reports it, whatever the options. -/
theorem unreported_failures (c : Cfg) (o : Nat → Outcome) (s : S) (hs : s.sticky = false) (hr : c.retryResolve = 0) (hf : s.first = false)
    (ho : (o s.calls).st = .doesNotConverge ∨ (o s.calls).st = .timeLimit) :
    ∃ s', initialSolve c o s = .ok s' ∧ s'.st = (o s.calls).st ∧ isAbandoned s' = false ∧ isProvenOptimal s' = false ∧
      isProvenPrimalInfeasible s' = false ∧ isProvenDualInfeasible s' = false ∧ isIterationLimitReached s' = false := by
  have hrec : isRecoverable (o s.calls).st = true := by rcases ho with h | h <;> rw [h] <;> decide
  have hfin : ∀ t : S, (finish c t).st = t.st ∧ (finish c t).sticky = t.sticky := fun t => ⟨(finish_same c t).1, (finish_same c t).2.2.2.2.1⟩
  unfold initialSolve solve
  simp only [hrec, if_true, Res.bind]
  rw [if_neg (by rcases ho with h | h <;> simp [isAbandoned, isProvenPrimalInfeasible, hs, h]), if_neg (by simp [numRetry, hf, hr])]
  refine ⟨_, rfl, by rw [(hfin _).1], ?_⟩
  simp only [isAbandoned, isProvenOptimal, isOptSt, isProvenPrimalInfeasible, isProvenDualInfeasible, isIterationLimitReached, (hfin _).1, (hfin _).2, hs]
  rcases ho with h | h <;> simp [h]

/-- The test for the time limit in `isRecoverable` has no effect, because the status code is positive: a run out of time is treated as recoverable. -/
theorem timeLimit_recoverable : isRecoverable .timeLimit = true ∧
    ∀ r, isRecoverable r = false ↔ r = .illDefinedProblem ∨ r = .notEnoughFreedom ∨ r = .illegalOption ∨ r = .computationError := by
  refine ⟨by decide, ?_⟩
  intro r; cases r <;> decide

/-! ### non-trivial instances -/

/-- Three retries: infeasible, optimal 5, optimal 3. -/
def exO : Nat → Outcome := fun i => if i = 1 then ⟨.provenInfeasible, 1, [1], [], [1]⟩ else if i = 2 then ⟨.solvedOptimal, 5, [2], [], [2]⟩
  else if i = 3 then ⟨.solvedOptimalTol, 3, [3], [], [3]⟩ else ⟨.solvedOptimal, 4, [4], [], [4]⟩

example : (resolveForCost (cfg 0) exO 4 { s0 with st := .provenInfeasible, calls := 1 }).okAnd
    (fun s' => s'.obj = 3 && s'.x = [3] && s'.st = .solvedOptimalTol && s'.g = [4]) = true := by decide +kernel

example : (run (cfg 0) exO s0 [.init, .res]).okAnd (fun s' => s'.st = .provenInfeasible) = true := by decide +kernel

end Verif.Itf

import Verif.Itf.StatusProps

/-!
# C19: exactly which NLP solves are made and what they leave behind
-/
namespace Verif.Itf

/-- C19: what "abandoned" means, for every status. -/
theorem isAbandoned_exact (s : S) : isAbandoned s = true ↔ s.sticky = false ∧
    s.st ∈ [Status.iterationLimit, .computationError, .illDefinedProblem, .illegalOption, .externalException, .exception] := by
  unfold isAbandoned
  cases s.sticky <;> cases s.st <;> decide

/-- A status that is reported as abandoned and that can be recovered from. -/
def Retry (t : Status) : Prop := t = .iterationLimit ∨ t = .externalException ∨ t = .exception

/-- A status after which the robust resolve is satisfied. -/
def Settled (t : Status) : Prop := t = .solvedOptimal ∨ t = .solvedOptimalTol ∨ t = .provenInfeasible ∨ t = .unbounded ∨ t = .doesNotConverge ∨ t = .timeLimit

/-- A status after which solving stops with an exception. -/
def Fatal (t : Status) : Prop := t = .computationError ∨ t = .illDefinedProblem ∨ t = .illegalOption ∨ t = .notEnoughFreedom

/-- Every status is of exactly one of the three kinds. -/
theorem status_kinds (t : Status) : (Retry t ∧ ¬ Settled t ∧ ¬ Fatal t) ∨ (¬ Retry t ∧ Settled t ∧ ¬ Fatal t) ∨ (¬ Retry t ∧ ¬ Settled t ∧ Fatal t) := by
  cases t <;> simp [Retry, Settled, Fatal]

/-- The state after the solve number `i`. -/
def after (o : Nat → Outcome) (s : S) (i : Nat) : S :=
  { s with st := (o i).st, obj := (o i).obj, x := (o i).x, duals := (o i).duals, g := (o i).g, calls := i + 1 }

theorem solve_exact (o : Nat → Outcome) (s : S) : (¬ Fatal (o s.calls).st → solve o s = .ok (after o s s.calls)) ∧ (Fatal (o s.calls).st → solve o s = .thrown (after o s s.calls)) := by
  have hk : isRecoverable (o s.calls).st = true ↔ ¬ Fatal (o s.calls).st := by
    have := timeLimit_recoverable.2 (o s.calls).st
    rw [← Bool.not_eq_false, this]; unfold Fatal; tauto
  unfold solve after
  refine ⟨fun h => ?_, fun h => ?_⟩
  · simp only [hk.2 h, if_true]
  · have : isRecoverable (o s.calls).st = false := by rw [← Bool.not_eq_true, hk]; exact not_not.2 h
    simp only [this, Bool.false_eq_true, if_false]

theorem robustLoop_settles (o : Nat → Outcome) : ∀ (i k : Nat) (s : S), i < k → s.sticky = false → (∀ j < i, Retry (o (s.calls + j)).st) → Settled (o (s.calls + i)).st →
    robustLoop o k s = .inr (after o s (s.calls + i), true)
  | i, 0, _, hi, _, _, _ => by omega
  | 0, k + 1, s, _, _, _, h => by
    have hf : ¬ Fatal (o s.calls).st := by have := status_kinds (o s.calls).st; simp only [Nat.add_zero] at h; tauto
    rw [robustLoop, (solve_exact o s).1 hf]
    have : isAbandoned (after o s s.calls) = false := by
      rw [← Bool.not_eq_true, isAbandoned_exact]
      simp only [Nat.add_zero] at h
      rintro ⟨-, hm⟩
      simp only [after] at hm
      rcases h with h | h | h | h | h | h <;> rw [h] at hm <;> revert hm <;> decide
    simp [this]
  | i + 1, k + 1, s, hi, hs, hr, h => by
    have h0 := hr 0 (by omega)
    simp only [Nat.add_zero] at h0
    have hf : ¬ Fatal (o s.calls).st := by have := status_kinds (o s.calls).st; tauto
    rw [robustLoop, (solve_exact o s).1 hf]
    have : isAbandoned (after o s s.calls) = true := by
      rw [isAbandoned_exact]
      refine ⟨hs, ?_⟩
      simp only [after]
      rcases h0 with h | h | h <;> rw [h] <;> decide
    simp only [this, if_true]
    have e : (after o s s.calls).calls = s.calls + 1 := rfl
    rw [robustLoop_settles o i k (after o s s.calls) (by omega) hs
      (by intro j hj; rw [e, Nat.add_assoc, Nat.add_comm 1 j]; exact hr (j + 1) (by omega))
      (by rw [e, Nat.add_assoc, Nat.add_comm 1 i]; exact h)]
    simp only [after, Nat.add_assoc, Nat.add_comm 1 i]

theorem robustLoop_fatal (o : Nat → Outcome) : ∀ (i k : Nat) (s : S), i < k → s.sticky = false → (∀ j < i, Retry (o (s.calls + j)).st) → Fatal (o (s.calls + i)).st →
    robustLoop o k s = .inl (after o s (s.calls + i))
  | i, 0, _, hi, _, _, _ => by omega
  | 0, k + 1, s, _, _, _, h => by
    rw [robustLoop, (solve_exact o s).2 h]; rfl
  | i + 1, k + 1, s, hi, hs, hr, h => by
    have h0 := hr 0 (by omega)
    simp only [Nat.add_zero] at h0
    have hf : ¬ Fatal (o s.calls).st := by have := status_kinds (o s.calls).st; tauto
    rw [robustLoop, (solve_exact o s).1 hf]
    have : isAbandoned (after o s s.calls) = true := by
      rw [isAbandoned_exact]
      refine ⟨hs, ?_⟩
      simp only [after]
      rcases h0 with h | h | h <;> rw [h] <;> decide
    simp only [this, if_true]
    have e : (after o s s.calls).calls = s.calls + 1 := rfl
    rw [robustLoop_fatal o i k (after o s s.calls) (by omega) hs
      (by intro j hj; rw [e, Nat.add_assoc, Nat.add_comm 1 j]; exact hr (j + 1) (by omega))
      (by rw [e, Nat.add_assoc, Nat.add_comm 1 i]; exact h)]
    simp only [after, Nat.add_assoc, Nat.add_comm 1 i]

theorem robustLoop_exhausted (o : Nat → Outcome) : ∀ (k : Nat) (s : S), s.sticky = false → (∀ j < k + 1, Retry (o (s.calls + j)).st) →
    robustLoop o (k + 1) s = .inr (after o s (s.calls + k), false)
  | k, s, hs, hr => by
    have h0 := hr 0 (by omega)
    simp only [Nat.add_zero] at h0
    have hf : ¬ Fatal (o s.calls).st := by have := status_kinds (o s.calls).st; tauto
    rw [robustLoop, (solve_exact o s).1 hf]
    have : isAbandoned (after o s s.calls) = true := by
      rw [isAbandoned_exact]
      refine ⟨hs, ?_⟩
      simp only [after]
      rcases h0 with h | h | h <;> rw [h] <;> decide
    simp only [this, if_true]
    have e : (after o s s.calls).calls = s.calls + 1 := rfl
    cases k with
    | zero => rfl
    | succ k =>
      rw [robustLoop_exhausted o k (after o s s.calls) hs (by intro j hj; rw [e, Nat.add_assoc, Nat.add_comm 1 j]; exact hr (j + 1) (by omega))]
      simp only [after, Nat.add_assoc, Nat.add_comm 1 k]

/-- C19: restarts after a failure end at the first solve whose status is settled; its data are what is reported, and no failure is recorded. -/
theorem robust_settles (c : Cfg) (o : Nat → Outcome) (k i : Nat) (s : S) (hi : i ≤ k) (hs : s.sticky = false) (hr : ∀ j < i, Retry (o (s.calls + j)).st)
    (h : Settled (o (s.calls + i)).st) :
    resolveForRobustness c o k s = .ok ⟨(o (s.calls + i)).st, (o (s.calls + i)).obj, (o (s.calls + i)).x, (o (s.calls + i)).duals, (o (s.calls + i)).g, false,
      s.hasContinued, s.first, s.retryInitial, false, s.calls + i + 1⟩ := by
  unfold resolveForRobustness
  rw [robustLoop_settles o i (k + 1) { s with warm := false } (by omega) hs hr h]
  simp [after, hs]

/-- C19: …or with an exception at the first fatal status. -/
theorem robust_fatal (c : Cfg) (o : Nat → Outcome) (k i : Nat) (s : S) (hi : i ≤ k) (hs : s.sticky = false) (hr : ∀ j < i, Retry (o (s.calls + j)).st)
    (h : Fatal (o (s.calls + i)).st) :
    resolveForRobustness c o k s = .thrown ⟨(o (s.calls + i)).st, (o (s.calls + i)).obj, (o (s.calls + i)).x, (o (s.calls + i)).duals, (o (s.calls + i)).g, false,
      s.hasContinued, s.first, s.retryInitial, false, s.calls + i + 1⟩ := by
  unfold resolveForRobustness
  rw [robustLoop_fatal o i (k + 1) { s with warm := false } (by omega) hs hr h]
  simp [after, hs]

/-- C19: …or after `k + 1` solves, none of them settled: the option `nlp_failure_behavior` decides between an exception and going on; going on is recorded for
good, and the flag for the user is raised only when the option asks for fathoming. -/
theorem robust_exhausted (c : Cfg) (o : Nat → Outcome) (k : Nat) (s : S) (hs : s.sticky = false) (hr : ∀ j < k + 1, Retry (o (s.calls + j)).st) :
    resolveForRobustness c o k s =
      if c.pretendFail = 0 then .thrown ⟨(o (s.calls + k)).st, (o (s.calls + k)).obj, (o (s.calls + k)).x, (o (s.calls + k)).duals, (o (s.calls + k)).g, false,
        s.hasContinued, s.first, s.retryInitial, false, s.calls + k + 1⟩
      else .ok ⟨(o (s.calls + k)).st, (o (s.calls + k)).obj, (o (s.calls + k)).x, (o (s.calls + k)).duals, (o (s.calls + k)).g, true,
        s.hasContinued || c.pretendFail == 1, s.first, s.retryInitial, false, s.calls + k + 1⟩ := by
  unfold resolveForRobustness
  rw [robustLoop_exhausted o k { s with warm := false } hs hr]
  by_cases h : c.pretendFail = 0
  · simp [after, hs, h]
  · simp only [h, ne_eq, not_false_eq_true, if_true, if_false, after]
    congr 2

example : ∃ (o : Nat → Outcome) (s : S), s.sticky = false ∧ (∀ j < 2, Retry (o (s.calls + j)).st) ∧ Settled (o (s.calls + 2)).st :=
  ⟨fun k => ⟨if k < 2 then .iterationLimit else .solvedOptimal, 0, [], [], []⟩, s0, rfl, by intro j hj; simp [s0, hj, Retry], by simp [s0, Settled]⟩

theorem finish_exact (c : Cfg) (s : S) (h : s.warm = false) : (finish c s).warm = (c.exposeWarm && !isAbandoned s) := by
  unfold finish
  cases ha : isAbandoned s <;> simp [h]

theorem finish_keeps (c : Cfg) (s : S) : s.warm = true → finish c s = s := by
  intro h; simp [finish, h]

theorem cost_warm {o : Nat → Outcome} {c : Cfg} {k : Nat} {s s' : S} (h : resolveForCost c o k s = .ok s') : s'.warm = false := by
  unfold resolveForCost at h
  simp only at h
  split at h
  · cases h
  · rename_i hl
    cases h
    exact (costLoop_inr k hl).2.2.1

theorem robustLoop_warm {o : Nat → Outcome} (k : Nat) : ∀ {s s' : S} {b : Bool}, robustLoop o k s = .inr (s', b) → s'.warm = s.warm := by
  induction k with
  | zero => intro s s' b h; simp only [robustLoop, Sum.inr.injEq, Prod.mk.injEq] at h; rw [h.1]
  | succ k ih =>
    intro s s' b h
    rw [robustLoop] at h
    cases hs : solve o s with
    | thrown t => rw [hs] at h; cases h
    | ok t =>
      rw [hs] at h
      have e := (solve_ok hs).2.2.2.2.2.2.2.1
      simp only at h
      split at h
      · rw [ih h, e]
      · simp only [Sum.inr.injEq, Prod.mk.injEq] at h; rw [← h.1, e]

theorem robust_warm {c : Cfg} {o : Nat → Outcome} {k : Nat} {s s' : S} (h : resolveForRobustness c o k s = .ok s') : s'.warm = false := by
  unfold resolveForRobustness at h
  cases hl : robustLoop o (k + 1) { s with warm := false } with
  | inl t => rw [hl] at h; cases h
  | inr p =>
    obtain ⟨t, b⟩ := p
    have e := robustLoop_warm (k + 1) hl
    rw [hl] at h
    cases b with
    | true => cases h; exact e
    | false =>
      simp only at h
      split at h
      · cases h; exact e
      · cases h

/-- C19: after any normal return of `initialSolve` the stored warm start is there exactly when the options expose one: abandoned solves never return normally. -/
theorem initialSolve_warm (c : Cfg) (o : Nat → Outcome) (s s' : S) (h : initialSolve c o s = .ok s') : s'.warm = c.exposeWarm ∧ s'.first = false := by
  have ht := (initialSolve_truthful c o s s' h).notAbandoned
  have hfirst : ∀ t : S, (finish c t).first = t.first := fun t => by unfold finish; split <;> rfl
  have key : ∀ t : S, t.warm = false → s' = finish c { t with first := false } → s'.warm = c.exposeWarm ∧ s'.first = false := by
    intro t hw e
    have h1 := finish_exact c { t with first := false } hw
    have h2 := finish_same c { t with first := false }
    have h3 : isAbandoned { t with first := false } = isAbandoned s' := by
      rw [e]; unfold isAbandoned; rw [h2.1, h2.2.2.2.2.1]
    rw [← e, h3, ht] at h1
    exact ⟨by simpa using h1, by rw [e, hfirst]⟩
  unfold initialSolve at h
  cases hs : solve o { s with warm := false } with
  | thrown t => rw [hs] at h; cases h
  | ok t =>
    rw [hs] at h
    have e := (solve_ok hs).2.2.2.2.2.2.2.1
    simp only [Res.bind] at h
    split_ifs at h with h1 h2
    · cases hr : resolveForRobustness c o c.retryUnsolved t with
      | thrown u => rw [hr] at h; cases h
      | ok u =>
        rw [hr] at h; simp only [Res.ok.injEq] at h
        exact key u (robust_warm hr) h.symm
    · cases hr : resolveForCost c o (numRetry c t) t with
      | thrown u => rw [hr] at h; cases h
      | ok u =>
        rw [hr] at h; simp only [Res.ok.injEq] at h
        exact key { u with retryInitial := 0 } (show u.warm = false from cost_warm hr) h.symm
    · simp only [Res.ok.injEq] at h
      exact key t e h.symm

theorem infeasible_after (o : Nat → Outcome) (s : S) (i : Nat) : isProvenPrimalInfeasible (after o s i) = true ↔ (o i).st = .provenInfeasible :=
  decide_eq_true_iff

theorem obj_after (o : Nat → Outcome) (s : S) (i : Nat) : (after o s i).obj = (o i).obj := rfl

/-- C19: when is a resolve repeated.  A first solve that is settled and not a doubtful infeasibility is the result, unless retries are asked for. -/
theorem resolve_once (c : Cfg) (o : Nat → Outcome) (s : S) (hw : s.warm = true) (hs : s.sticky = false) (h : Settled (o s.calls).st)
    (hd : ¬ ((o s.calls).st = .provenInfeasible ∧ (o s.calls).obj < 1 / 10 ^ 6)) (hr : c.retryResolve = 0)
    (hi : c.retryInfeasible = 0 ∨ (o s.calls).st ≠ .provenInfeasible) :
    resolve c o s = .ok ⟨(o s.calls).st, (o s.calls).obj, (o s.calls).x, (o s.calls).duals, (o s.calls).g, false, s.hasContinued, s.first, s.retryInitial,
      c.exposeWarm, s.calls + 1⟩ := by
  have hf : ¬ Fatal (o s.calls).st := by have := status_kinds (o s.calls).st; tauto
  have hna : isAbandoned (after o { s with warm := false } s.calls) = false := by
    rw [← Bool.not_eq_true, isAbandoned_exact]
    rintro ⟨-, hm⟩
    simp only [after] at hm
    rcases h with h | h | h | h | h | h <;> rw [h] at hm <;> revert hm <;> decide
  unfold resolve
  rw [if_neg (by simp [hw])]
  have e := (solve_exact o { s with warm := false }).1 hf
  simp only at e
  rw [e]
  simp only [Res.bind]
  rw [if_neg, if_neg]
  · simp only [finish, hna]
    simp [after, hs]
  · rw [hr]
    simp only [ne_eq, not_true_eq_false, false_or, infeasible_after]
    tauto
  · rw [hna]
    simp only [Bool.false_eq_true, false_or, infeasible_after, obj_after]
    tauto

example : resolve ⟨1, 0, 0, 3, 0, 10 ^ 30, true⟩ (fun _ => ⟨.solvedOptimal, 7, [1], [], []⟩) { s0 with warm := true } =
    .ok ⟨.solvedOptimal, 7, [1], [], [], false, false, true, 0, true, 1⟩ :=
  resolve_once _ _ _ rfl rfl (by simp [Settled]) (by simp) rfl (by simp)

/-- C19: …and with retries asked for, `max` of the two options further solves are made (the result is that of `resolveForCost`). -/
theorem resolve_repeats (c : Cfg) (o : Nat → Outcome) (s : S) (hw : s.warm = true) (h : Settled (o s.calls).st)
    (hd : ¬ ((o s.calls).st = .provenInfeasible ∧ (o s.calls).obj < 1 / 10 ^ 6))
    (hr : 0 < c.retryResolve ∨ (0 < c.retryInfeasible ∧ (o s.calls).st = .provenInfeasible)) :
    resolve c o s = (resolveForCost c o (max c.retryResolve c.retryInfeasible) (after o { s with warm := false } s.calls)).bind fun s => .ok (finish c s) := by
  have hf : ¬ Fatal (o s.calls).st := by have := status_kinds (o s.calls).st; tauto
  have hna : isAbandoned (after o { s with warm := false } s.calls) = false := by
    rw [← Bool.not_eq_true, isAbandoned_exact]
    rintro ⟨-, hm⟩
    simp only [after] at hm
    rcases h with h | h | h | h | h | h <;> rw [h] at hm <;> revert hm <;> decide
  unfold resolve
  rw [if_neg (by simp [hw])]
  have e := (solve_exact o { s with warm := false }).1 hf
  simp only at e
  rw [e]
  simp only [Res.bind]
  rw [if_neg, if_pos]
  · simp only [ne_eq, infeasible_after]
    rcases hr with h | h
    · exact Or.inl (by omega)
    · exact Or.inr ⟨by omega, h.2⟩
  · rw [hna]
    simp only [Bool.false_eq_true, false_or, infeasible_after, obj_after]
    tauto

end Verif.Itf

import Verif.Bab.NodeStatus

/-!
# C25: failure counting rules
-/
namespace Verif.Bab

/-- The length of the run of nodes satisfying `q` that ends with the last node of the path. -/
def lastRun (q : Flags → Bool) (path : List Flags) : Nat := (path.reverse.takeWhile q).length

def failed (f : Flags) : Bool := f.abandoned || f.iterLimit

/-- The rule: may the node `f` that follows the nodes `before` on a branch be explored? -/
def mayExplore (cfg : Cfg) (before : List Flags) (f : Flags) : Prop :=
  (f.abandoned = true → before ≠ [] ∧ lastRun failed (before ++ [f]) ≤ cfg.maxFailure) ∧
  (f.abandoned = false → f.infeasible = true →
    before ≠ [] ∧ lastRun Flags.infeasible (before ++ [f]) < cfg.maxInfeasible)

theorem lastRun_concat (q : Flags → Bool) (path : List Flags) (f : Flags) :
    lastRun q (path ++ [f]) = if q f then lastRun q path + 1 else 0 := by
  unfold lastRun
  rw [List.reverse_append]
  simp only [List.reverse_cons, List.reverse_nil, List.nil_append, List.cons_append, List.takeWhile_cons]
  cases q f <;> simp

/-- The parent information after a path. -/
def infoOf (path : List Flags) : Parent :=
  match path with
  | [] => .root
  | _ => .node ⟨lastRun Flags.infeasible path, lastRun failed path⟩

theorem infoOf_counts (path : List Flags) :
    (infoOf path).counts = ⟨lastRun Flags.infeasible path, lastRun failed path⟩ := by
  cases path with
  | nil => rfl
  | cons a l => rfl

theorem infoOf_concat (path : List Flags) (f : Flags) : infoOf (path ++ [f]) = .node (childInfo (infoOf path) f) := by
  have h1 : infoOf (path ++ [f])
      = .node ⟨lastRun Flags.infeasible (path ++ [f]), lastRun failed (path ++ [f])⟩ := by
    cases path <;> rfl
  rw [h1]
  simp only [childInfo, infoOf_counts, lastRun_concat]
  rfl

/-- C25: the counters kept in the tree are the lengths of the current runs, for every branch. -/
theorem counts_are_runs (path : List Flags) (f : Flags) :
    (childInfo (infoOf path) f).uns = lastRun failed (path ++ [f]) ∧
    (childInfo (infoOf path) f).inf = lastRun Flags.infeasible (path ++ [f]) := by
  simp only [childInfo, infoOf_counts, lastRun_concat]
  exact ⟨rfl, trivial⟩

/-- C25: the decision at one node. -/
theorem node_decision (cfg : Cfg) (hf : Bool) (before : List Flags) (f : Flags) :
    (proceeds (status cfg hf (infoOf before) f).1 f = true ↔ mayExplore cfg before f) := by
  unfold mayExplore
  cases hb : before with
  | nil =>
    simp only [infoOf, status, proceeds]
    cases f.abandoned <;> cases f.infeasible <;> simp
  | cons a l =>
    rw [← hb]
    have hne : before ≠ [] := by rw [hb]; simp
    have hinfo : infoOf before = .node ⟨lastRun Flags.infeasible before, lastRun failed before⟩ := by
      rw [hb]; rfl
    rw [hinfo]
    simp only [status, lastRun_concat]
    obtain ⟨a, i, t⟩ := f
    cases a with
    | true =>
      have hq : failed ⟨true, i, t⟩ = true := by simp [failed]
      by_cases hm : lastRun failed before + 1 ≤ cfg.maxFailure
      · have h3 : ¬ (lastRun failed before + 1 > cfg.maxFailure) := by omega
        simp [hm, h3, proceeds, hne, hq]
      · have h3 : (lastRun failed before + 1 > cfg.maxFailure) := by omega
        cases cfg.pretend <;> simp [h3, proceeds, hq]
    | false =>
      cases i with
      | true =>
        by_cases hm : lastRun Flags.infeasible before + 1 < cfg.maxInfeasible
        · simp [hm, proceeds, hne]
        · simp [hm, proceeds]
      | false => simp [proceeds]

/-- C25: a branch is followed to its end iff every node on it may be explored by the rule. -/
theorem branch_explored_iff (cfg : Cfg) : ∀ (path before : List Flags) (hf : Bool),
    (walk cfg hf (infoOf before) path).1 = true ↔
      ∀ k (h : k < path.length), mayExplore cfg (before ++ path.take k) path[k]
  | [], before, hf => by simp [walk]
  | f :: fs, before, hf => by
    simp only [walk]
    by_cases hp : proceeds (status cfg hf (infoOf before) f).1 f = true
    · rw [if_pos hp, ← infoOf_concat, branch_explored_iff cfg fs (before ++ [f])]
      have h0 := (node_decision cfg hf before f).mp hp
      constructor
      · intro h k hk
        cases k with
        | zero => simpa using h0
        | succ k =>
          have := h k (by simpa using hk)
          simpa using this
      · intro h k hk
        have := h (k + 1) (by simpa using hk)
        simpa using this
    · rw [if_neg hp]
      constructor
      · intro h; exact absurd h (by simp)
      · intro h
        have := h 0 (by simp)
        exact absurd ((node_decision cfg hf before f).mpr (by simpa using this)) hp

/-- C25: a node that is not explored because of failures is fathomed or raises an error, as configured, and this is recorded. -/
theorem failure_recorded (cfg : Cfg) (hf : Bool) (before : List Flags) (f : Flags) :
    ((status cfg hf (infoOf before) f).1 = .fathom ↔
      f.abandoned = true ∧ before ≠ [] ∧ cfg.maxFailure < lastRun failed (before ++ [f]) ∧ cfg.pretend = true) ∧
    ((status cfg hf (infoOf before) f).1 = .throws ↔
      f.abandoned = true ∧ before ≠ [] ∧ cfg.maxFailure < lastRun failed (before ++ [f]) ∧ cfg.pretend = false) ∧
    ((status cfg hf (infoOf before) f).2 = true ↔ hf = true ∨
      (f.abandoned = true ∧ before ≠ [] ∧ cfg.maxFailure < lastRun failed (before ++ [f]))) := by
  cases hb : before with
  | nil => simp [infoOf, status]
  | cons a l =>
    rw [← hb]
    have hne : before ≠ [] := by rw [hb]; simp
    have hinfo : infoOf before = .node ⟨lastRun Flags.infeasible before, lastRun failed before⟩ := by
      rw [hb]; rfl
    rw [hinfo]
    simp only [status, lastRun_concat]
    obtain ⟨a, i, t⟩ := f
    cases a with
    | true =>
      have hq : failed ⟨true, i, t⟩ = true := by simp [failed]
      by_cases hm : cfg.maxFailure < lastRun failed before + 1
      · have h2 : ¬ lastRun failed before + 1 ≤ cfg.maxFailure := by omega
        cases cfg.pretend <;> simp [hm, hne, hq]
      · have h2 : lastRun failed before + 1 ≤ cfg.maxFailure := by omega
        simp [hm, h2, hq]
    | false =>
      by_cases hc : lastRun Flags.infeasible before + 1 < cfg.maxInfeasible <;> cases i <;> simp [hc]

/-- C25, refutation: at depth 1 a failed node is never branched on, whatever the options: it is dropped silently, nothing is
recorded. -/
theorem depth_one_failure_silent (cfg : Cfg) (f : Flags) (h : f.abandoned = true ∨ f.infeasible = true)
    (rest : List Flags) : walk cfg false .root (f :: rest) = (false, false) := by
  simp only [walk, status, proceeds]
  rcases h with h | h <;> simp [h]

/-- The rule in the English claim would explore it (ten consecutive failures allowed, one failure seen). -/
example : let f : Flags := ⟨true, false, false⟩
    lastRun failed [f] ≤ 10 ∧ walk ⟨10, 0, false⟩ false .root [f] = (false, false) := by decide

/-- A branch with two failures in a row is followed with limit 2, not with limit 1. -/
example : let ok : Flags := ⟨false, false, false⟩
    let bad : Flags := ⟨true, false, false⟩
    walk ⟨2, 0, true⟩ false .root [ok, bad, bad, ok, bad] = (true, false) ∧
    walk ⟨1, 0, true⟩ false .root [ok, bad, bad, ok, bad] = (false, true) := by decide

/-- An infeasible node is branched on with limit 2, not with limit 1. -/
example : let ok : Flags := ⟨false, false, false⟩
    let inf : Flags := ⟨false, true, false⟩
    walk ⟨0, 2, true⟩ false .root [ok, inf, ok] = (true, false) ∧
    walk ⟨0, 1, true⟩ false .root [ok, inf, ok] = (false, false) ∧
    walk ⟨0, 2, true⟩ false .root [ok, inf, inf] = (false, false) := by decide

end Verif.Bab

import Verif.Branch.Pseudo

/-!
# C29: strong branching
`src/Algorithms/Branching/BonChooseVariable.cpp`, `doStrongBranching` (786-957).
A failed `assert` is `none`.  The debugging aid `getRowCutDebugger` (845-848, 892-895) is in `Branch/Debug.lean`.
-/
namespace Verif.Branch

/-- Column bounds of the solver. -/
abbrev Bounds := List (ℚ × ℚ)

/-- The answer for one side: the status stored in the `HotInfo` (0 solved, 1 infeasible, 2 unfinished), whether a solution was found and
saved (then `updateInformation` returns 3; Osi), its objective value `goodObjectiveValue_`, and the change of the objective. -/
structure Ans where
  st : Int
  sol : Bool
  good : ℚ
  change : ℚ
deriving DecidableEq

/-- The status returned for a side. -/
def Ans.ret (a : Ans) : Int := if a.sol then 3 else a.st

/-- `HotInfo::updateInformation` (1118-1145): the status of Osi is replaced by 2 when the solver proved neither optimality nor
infeasibility, and when it proved infeasibility with an objective value below `1e-6`. -/
def hotStatus (osi : Int) (infeasible optimal : Bool) (objValue : ℚ) : Int :=
  if !infeasible && !optimal then 2 else if infeasible && decide (|objValue| < 1 / 10 ^ 6) then 2 else osi

/-- A candidate: its branching object (`boundBranch()`, the two successive effects on the bounds; the first way is down), the answers of the two
solves and whether the time is up afterwards (924-925). -/
structure Probe where
  isBound : Bool
  way0 : Bounds → Bounds
  way1 : Bounds → Bounds
  ans0 : Ans
  ans1 : Ans
  late : Bool

/-- Options and node data: `info->depth_ == 0`, `numberLookAhead_`, `trustStrongForSolution_`, the maxmin criterion. -/
structure SCfg where
  isRoot : Bool
  lookAhead : Nat
  trustSol : Bool
  crit : ℚ
  huge : ℚ
deriving DecidableEq

/-- Restoring the bounds (853-858, 900-905): `lower`/`upper` point to the bounds of the solver itself. -/
def restore (save cur : Bounds) : Bounds :=
  (save.zip cur).map fun p => (if p.1.1 ≠ p.2.1 then p.1.1 else p.2.1, if p.1.2 ≠ p.2.2 then p.1.2 else p.2.2)

/-- Loop state: bounds of the solver, bounds of the problems solved so far (in order), cutoff, return code, candidates done, `numberStrongFixed_`,
look-ahead record. -/
structure SB where
  bounds : Bounds
  solved : List Bounds
  cutoff : ℚ
  code : Int
  done : Nat
  fixed : Nat
  bestLook : ℚ
  since : Nat
deriving DecidableEq

/-- One side: branch, solve, restore (817-858, 862-905).  A branch that is not a change of bounds is made on a clone. -/
def side (save : Bounds) (isBound : Bool) (way : Bounds → Bounds) (s : SB) : SB :=
  if isBound then { s with bounds := restore save (way s.bounds), solved := s.solved ++ [way s.bounds] }
  else { s with bounds := restore save s.bounds, solved := s.solved ++ [way s.bounds] }

/-- "new solution already saved" (838-844, 885-891): status after it, and the cutoff. -/
def seen (c : SCfg) (a : Ans) (cutoff : ℚ) : Int × ℚ :=
  if a.ret = 3 ∧ c.trustSol = true then (0, a.good) else (a.ret, cutoff)

/-- Code update (916-923). -/
def newCode (code s0 s1 : Int) : Int := if s0 = 1 ∧ s1 = 1 then -1 else if s0 = 1 ∨ s1 = 1 then 1 else code

/-- The loop over the candidates (807-948). -/
def sbLoop (c : SCfg) (save : Bounds) : List Probe → SB → Option SB
  | [], s => some s
  | p :: ps, s =>
    let s := side save p.isBound p.way0 s
    let r0 := seen c p.ans0 s.cutoff
    let s := side save p.isBound p.way1 { s with cutoff := r0.2 }
    let r1 := seen c p.ans1 s.cutoff
    let s := { s with cutoff := r1.2, done := s.done + 1, code := newCode s.code r0.1 r1.1,
                      fixed := if ¬ (r0.1 = 1 ∧ r1.1 = 1) ∧ (r0.1 = 1 ∨ r1.1 = 1) then s.fixed + 1 else s.fixed }
    if p.late then some { s with code := 3 }
    else if c.isRoot = false ∧ c.lookAhead ≠ 0 then
      if r0.1 = 0 ∧ r1.1 = 0 then
        let v := combine c.crit p.ans1.change p.ans0.change
        if s.bestLook < v then sbLoop c save ps { s with bestLook := v, since := 0 }
        else if c.lookAhead ≤ s.since + 1 then some { s with since := s.since + 1 }
        else sbLoop c save ps { s with since := s.since + 1 }
      else none
    else sbLoop c save ps s

/-- `doStrongBranching` (786-957); `results_` keeps the first `done` candidates. -/
def doStrong (c : SCfg) (bounds : Bounds) (cutoff : ℚ) (ps : List Probe) : Option SB :=
  sbLoop c bounds ps ⟨bounds, [], cutoff, 0, 0, 0, -c.huge, 0⟩

/-! ## Specification -/

/-- A side counts as infeasible when that is what was returned for it. -/
def Ans.infeasible (a : Ans) : Prop := a.sol = false ∧ a.st = 1

instance (a : Ans) : Decidable a.infeasible := by unfold Ans.infeasible; infer_instance

/-- Number of infeasible sides. -/
def Probe.bad (p : Probe) : Nat := (if p.ans0.infeasible then 1 else 0) + (if p.ans1.infeasible then 1 else 0)

/-- What the last candidate with an infeasible side says. -/
def lastVerdict (ps : List Probe) : Int :=
  match (ps.filter fun p => decide (p.bad ≠ 0)).getLast? with
  | none => 0
  | some p => if p.bad = 2 then -1 else 1

/-! ## Properties -/

theorem restore_self (save cur : Bounds) (h : save.length = cur.length) : restore save cur = save := by
  induction save generalizing cur with
  | nil => simp [restore]
  | cons b save ih =>
    cases cur with
    | nil => simp at h
    | cons d cur =>
      have := ih cur (by simpa using h)
      unfold restore at this ⊢
      simp only [List.zip_cons_cons, List.map_cons, this]
      congr 1
      obtain ⟨b1, b2⟩ := b
      obtain ⟨d1, d2⟩ := d
      by_cases h1 : b1 = d1 <;> by_cases h2 : b2 = d2 <;> simp [h1, h2]

theorem seen_one (c : SCfg) (a : Ans) (k : ℚ) : (seen c a k).1 = 1 ↔ a.infeasible := by
  unfold seen Ans.ret Ans.infeasible
  cases a.sol <;> cases c.trustSol <;> simp
  split <;> simp <;> omega

theorem newCode_bad (c : SCfg) (p : Probe) (code : Int) (k k' : ℚ) :
    newCode code (seen c p.ans0 k).1 (seen c p.ans1 k').1 = if p.bad = 2 then -1 else if p.bad ≠ 0 then 1 else code := by
  unfold newCode Probe.bad
  simp only [seen_one]
  by_cases h0 : p.ans0.infeasible <;> by_cases h1 : p.ans1.infeasible <;> simp [h0, h1]

theorem lastVerdict_append (ps : List Probe) (p : Probe) :
    lastVerdict (ps ++ [p]) = if p.bad = 2 then -1 else if p.bad ≠ 0 then 1 else lastVerdict ps := by
  unfold lastVerdict
  rw [List.filter_append]
  by_cases h : p.bad = 0
  · simp [h]
  · have : ([p].filter fun p => decide (p.bad ≠ 0)) = [p] := by simp [h]
    rw [this, List.getLast?_append]
    simp [h]

/-- Branching does not change the number of columns. -/
def Probe.Sized (n : Nat) (p : Probe) : Prop := ∀ b : Bounds, b.length = n → (p.way0 b).length = n ∧ (p.way1 b).length = n

theorem sbLoop_spec (c : SCfg) (save : Bounds) : ∀ (ps pre : List Probe) (s t : SB), (∀ p ∈ ps, p.Sized save.length) →
    s.bounds = save → s.solved = pre.flatMap (fun p => [p.way0 save, p.way1 save]) → s.done = pre.length → s.code = lastVerdict pre →
    sbLoop c save ps s = some t →
    ∃ ran, ran <+: ps ∧ t.bounds = save ∧ t.solved = (pre ++ ran).flatMap (fun p => [p.way0 save, p.way1 save]) ∧
      t.done = (pre ++ ran).length ∧ (t.code = 3 ∧ (∃ p ∈ ran.getLast?, p.late = true) ∨ (∀ p ∈ ran, p.late = false) ∧ t.code = lastVerdict (pre ++ ran)) ∧
      (ran ≠ ps → (∃ p ∈ ran.getLast?, p.late = true) ∨ (c.isRoot = false ∧ c.lookAhead ≠ 0)) := by
  intro ps
  induction ps with
  | nil =>
    intro pre s t _ hb hs hd hc h
    simp only [sbLoop, Option.some.injEq] at h
    subst h
    exact ⟨[], List.nil_prefix, hb, by simpa using hs, by simpa using hd, Or.inr ⟨by simp, by simpa using hc⟩, by simp⟩
  | cons p ps ih =>
    intro pre s t hsz hb hs hd hc h
    have hp := hsz p (by simp) save rfl
    have hside : ∀ (way : Bounds → Bounds) (s : SB), s.bounds = save → (way save).length = save.length →
        side save p.isBound way s = { s with bounds := save, solved := s.solved ++ [way save] } := by
      intro way s h1 h2
      unfold side
      rw [h1]
      split
      · rw [restore_self _ _ h2.symm]
      · rw [restore_self _ _ rfl]
    unfold sbLoop at h
    dsimp only at h
    rw [hside p.way0 s hb hp.1, hside p.way1 _ rfl hp.2] at h
    dsimp only at h
    rw [newCode_bad, hc, ← lastVerdict_append] at h
    have hflat : s.solved ++ [p.way0 save] ++ [p.way1 save] = (pre ++ [p]).flatMap (fun p => [p.way0 save, p.way1 save]) := by
      rw [hs]; simp
    have hstop : ∀ q : Probe, q ∈ [p].getLast? ↔ q = p := by intro q; simp [eq_comm]
    -- the tail of the loop
    have go : ∀ s' : SB, s'.bounds = save → s'.solved = (pre ++ [p]).flatMap (fun p => [p.way0 save, p.way1 save]) →
        s'.done = (pre ++ [p]).length → s'.code = lastVerdict (pre ++ [p]) → p.late = false → sbLoop c save ps s' = some t →
        ∃ ran, ran <+: p :: ps ∧ t.bounds = save ∧ t.solved = (pre ++ ran).flatMap (fun p => [p.way0 save, p.way1 save]) ∧
          t.done = (pre ++ ran).length ∧
          (t.code = 3 ∧ (∃ p ∈ ran.getLast?, p.late = true) ∨ (∀ p ∈ ran, p.late = false) ∧ t.code = lastVerdict (pre ++ ran)) ∧
          (ran ≠ p :: ps → (∃ p ∈ ran.getLast?, p.late = true) ∨ (c.isRoot = false ∧ c.lookAhead ≠ 0)) := by
      intro s' h1 h2 h3 h4 hl h5
      obtain ⟨ran, g1, g2, g3, g4, g5, g6⟩ := ih (pre ++ [p]) s' t (fun q hq => hsz q (List.mem_cons_of_mem _ hq)) h1 h2 h3 h4 h5
      have hlast : (∃ q ∈ ran.getLast?, q.late = true) → ∃ q ∈ (p :: ran).getLast?, q.late = true := by
        rintro ⟨q, hq, hq2⟩
        refine ⟨q, ?_, hq2⟩
        have hne : ran ≠ [] := by rintro rfl; simp at hq
        rw [show p :: ran = [p] ++ ran from rfl, List.getLast?_append_of_ne_nil _ hne]
        exact hq
      refine ⟨p :: ran, by simpa using g1, g2, by rw [g3]; simp, by rw [g4]; simp, ?_, ?_⟩
      · rcases g5 with ⟨g5, g7⟩ | ⟨g5, g7⟩
        · exact Or.inl ⟨g5, hlast g7⟩
        · refine Or.inr ⟨?_, by rw [g7]; simp⟩
          intro q hq
          rcases List.mem_cons.mp hq with rfl | hq
          · exact hl
          · exact g5 q hq
      · intro hne
        rcases g6 (by rintro rfl; exact hne rfl) with g | g
        · exact Or.inl (hlast g)
        · exact Or.inr g
    by_cases hl : p.late = true
    · rw [if_pos hl] at h
      rw [← Option.some.inj h]
      exact ⟨[p], by simp, rfl, hflat, by simp [hd], Or.inl ⟨rfl, p, by simp, hl⟩, fun _ => Or.inl ⟨p, by simp, hl⟩⟩
    · have hl' : p.late = false := by simpa using hl
      rw [if_neg hl] at h
      by_cases hla : c.isRoot = false ∧ c.lookAhead ≠ 0
      · rw [if_pos hla] at h
        split at h
        · split at h
          · exact go _ rfl hflat (by simp [hd]) rfl hl' h
          · split at h
            · rw [← Option.some.inj h]
              refine ⟨[p], by simp, rfl, hflat, by simp [hd], Or.inr ⟨by simpa using hl', rfl⟩, fun _ => Or.inr hla⟩
            · exact go _ rfl hflat (by simp [hd]) rfl hl' h
        · simp at h
      · rw [if_neg hla] at h
        exact go _ rfl hflat (by simp [hd]) rfl hl' h

/-- **C29** (bounds; holds).  Whatever the candidates and the answers of the solver, whenever the call returns the column bounds are those
before the call, and each of the two problems solved for a candidate is the original one with just that side's branch applied. -/
theorem strong_restores (c : SCfg) (bounds : Bounds) (cutoff : ℚ) (ps : List Probe) (hsz : ∀ p ∈ ps, p.Sized bounds.length) (t : SB)
    (h : doStrong c bounds cutoff ps = some t) :
    t.bounds = bounds ∧ t.done ≤ ps.length ∧ t.solved = (ps.take t.done).flatMap fun p => [p.way0 bounds, p.way1 bounds] := by
  obtain ⟨ran, h1, h2, h3, h4, _, _⟩ := sbLoop_spec c bounds ps [] _ t hsz rfl rfl rfl rfl h
  simp only [List.nil_append] at h3 h4
  have hp := List.prefix_iff_eq_take.mp h1
  exact ⟨h2, by rw [h4]; exact h1.length_le, by rw [h3, h4, ← hp]⟩

/-- **C29** (return code, exact).  With `ran` the candidates that were probed: the code is 3 iff the time ran out (after the last of them);
otherwise it is decided by the *last* candidate with an infeasible side alone: -1 if both its sides are infeasible, 1 if one is, 0 if there is
no such candidate. -/
theorem strong_code (c : SCfg) (bounds : Bounds) (cutoff : ℚ) (ps : List Probe) (hsz : ∀ p ∈ ps, p.Sized bounds.length) (t : SB)
    (h : doStrong c bounds cutoff ps = some t) :
    (t.code = 3 ↔ ∃ p ∈ (ps.take t.done).getLast?, p.late = true) ∧ (t.code ≠ 3 → t.code = lastVerdict (ps.take t.done)) ∧
    ((∀ p ∈ ps, p.late = false) → c.isRoot = true ∨ c.lookAhead = 0 → t.done = ps.length) := by
  obtain ⟨ran, h1, _, _, h4, h5, h6⟩ := sbLoop_spec c bounds ps [] _ t hsz rfl rfl rfl rfl h
  simp only [List.nil_append] at h4 h5
  have hp := List.prefix_iff_eq_take.mp h1
  rw [h4, ← hp]
  have h3 : ∀ l, lastVerdict l ≠ 3 := by
    intro l
    unfold lastVerdict
    split
    · omega
    · split <;> omega
  refine ⟨?_, ?_, ?_⟩
  · rcases h5 with ⟨g1, g2⟩ | ⟨g1, g2⟩
    · exact ⟨fun _ => g2, fun _ => g1⟩
    · constructor
      · intro e; rw [g2] at e; exact absurd e (h3 _)
      · rintro ⟨p, hp1, hp2⟩
        have := g1 p (List.mem_of_getLast? hp1)
        rw [this] at hp2
        simp at hp2
  · intro hne
    rcases h5 with ⟨g1, _⟩ | ⟨_, g2⟩
    · exact absurd g1 hne
    · exact g2
  · intro hl hc
    by_contra hne
    have : ran ≠ ps := by rintro rfl; exact hne rfl
    rcases h6 this with ⟨p, hp1, hp2⟩ | ⟨g1, g2⟩
    · rw [hl p (h1.subset (List.mem_of_getLast? hp1))] at hp2
      simp at hp2
    · rcases hc with hc | hc
      · rw [hc] at g1; simp at g1
      · exact g2 hc

/-- **C29** (what holds of the claim about infeasibility): code -1 is never wrong, code 0 means that no probed candidate has an infeasible side,
and a candidate with both sides infeasible is reported if no later candidate has exactly one infeasible side and the time did not run out.
(Missing: later candidates, see `strong_code_overwritten`, and time-outs.) -/
theorem strong_infeasible_partial (c : SCfg) (bounds : Bounds) (cutoff : ℚ) (ps : List Probe) (hsz : ∀ p ∈ ps, p.Sized bounds.length) (t : SB)
    (h : doStrong c bounds cutoff ps = some t) :
    (t.code = -1 → ∃ p ∈ ps.take t.done, p.bad = 2) ∧ (t.code = 0 → ∀ p ∈ ps.take t.done, p.bad = 0) ∧
    (t.code ≠ 3 → (∃ p ∈ ps.take t.done, p.bad = 2) → (∀ p ∈ ps.take t.done, p.bad ≠ 1) → t.code = -1) := by
  obtain ⟨_, h2, _⟩ := strong_code c bounds cutoff ps hsz t h
  have hbad : ∀ p : Probe, p.bad ≤ 2 := by
    intro p; unfold Probe.bad; split <;> split <;> omega
  have hv : ∀ l : List Probe, (lastVerdict l = -1 → ∃ p ∈ l, p.bad = 2) ∧ (lastVerdict l = 0 → ∀ p ∈ l, p.bad = 0) ∧
      ((∃ p ∈ l, p.bad = 2) → (∀ p ∈ l, p.bad ≠ 1) → lastVerdict l = -1) := by
    intro l
    have hnone : ((l.filter fun p => decide (p.bad ≠ 0)).getLast? = none) → ∀ p ∈ l, p.bad = 0 := by
      intro hn p hp
      rw [List.getLast?_eq_none_iff, List.filter_eq_nil_iff] at hn
      have := hn p hp
      simpa using this
    unfold lastVerdict
    split
    · rename_i hn
      refine ⟨by intro e; omega, fun _ => hnone hn, ?_⟩
      rintro ⟨p, hp, hp2⟩
      rw [hnone hn p hp] at hp2; omega
    · rename_i q hq
      have hq1 := List.mem_filter.mp (List.mem_of_getLast? hq)
      have hq2 : q.bad ≠ 0 := of_decide_eq_true hq1.2
      refine ⟨?_, ?_, ?_⟩
      · intro e
        split at e
        · exact ⟨q, hq1.1, by assumption⟩
        · omega
      · intro e
        split at e <;> omega
      · intro _ hn
        have h1 := hn q hq1.1
        have h2 := hbad q
        rw [if_pos (by omega)]
  obtain ⟨a, b, d⟩ := hv (ps.take t.done)
  refine ⟨fun e => a ?_, fun e => b ?_, fun e => ?_⟩
  · rw [← h2 (by omega), e]
  · rw [← h2 (by omega), e]
  · intro x y
    rw [h2 e]; exact d x y

/-- Down-branch and up-branch of variable 0 at value 1/2. -/
def probe01 (s0 s1 : Int) : Probe :=
  ⟨true, fun b => b.set 0 (((b.getD 0 (0, 0)).1, 0)), fun b => b.set 0 ((1, (b.getD 0 (0, 0)).2)), ⟨s0, false, 0, 1⟩, ⟨s1, false, 0, 1⟩, false⟩

theorem probe01_sized (s0 s1 : Int) (n : Nat) : (probe01 s0 s1).Sized n := by
  intro b hb; simp [probe01, hb]

example : ∃ t, doStrong ⟨true, 0, false, 7/10, 10^200⟩ [(0, 1), (0, 5)] 100 [probe01 0 0, probe01 0 1] = some t ∧
    t.bounds = [(0, 1), (0, 5)] ∧ t.solved = [[(0, 0), (0, 5)], [(1, 1), (0, 5)], [(0, 0), (0, 5)], [(1, 1), (0, 5)]] ∧ t.code = 1 := by
  exact ⟨_, rfl, by decide +kernel, by decide +kernel, by decide +kernel⟩

/-- **C29** refuted: a node proven infeasible by its first candidate is not reported as such when the next candidate has one infeasible side
(the `break` is commented out at line 919). -/
theorem strong_code_overwritten : ∃ t, doStrong ⟨true, 0, false, 7/10, 10^200⟩ [(0, 1), (0, 5)] 100 [probe01 1 1, probe01 0 1] = some t ∧
    t.code = 1 ∧ (probe01 1 1).bad = 2 := by
  exact ⟨_, rfl, by decide +kernel, by decide +kernel⟩

/-- Solved to optimality, or a solution that is trusted. -/
def Ans.fine (c : SCfg) (a : Ans) : Prop := a.ret = 0 ∨ (a.ret = 3 ∧ c.trustSol = true)

instance (c : SCfg) (a : Ans) : Decidable (a.fine c) := by unfold Ans.fine; infer_instance

/-- **C29**, refutation: with `number_look_ahead` set, below the root, a first candidate with a side that is not solved to optimality (infeasible,
unfinished, or a solution that is not trusted) stops the program: the assertion at line 932. -/
theorem strong_lookAhead_aborts (c : SCfg) (bounds : Bounds) (cutoff : ℚ) (p : Probe) (ps : List Probe) (hr : c.isRoot = false)
    (hla : c.lookAhead ≠ 0) (hl : p.late = false) (hbad : ¬ (p.ans0.fine c ∧ p.ans1.fine c)) :
    doStrong c bounds cutoff (p :: ps) = none := by
  have hz : ∀ (a : Ans) (k : ℚ), (seen c a k).1 = 0 ↔ a.fine c := by
    intro a k
    unfold seen Ans.fine
    by_cases h : a.ret = 3 ∧ c.trustSol = true
    · simp [h]
    · rw [if_neg h]; simp [h]
  unfold doStrong sbLoop
  dsimp only
  rw [if_neg (by rw [hl]; simp), if_pos ⟨hr, hla⟩, if_neg]
  rintro ⟨h, h'⟩
  exact hbad ⟨(hz _ _).mp h, (hz _ _).mp h'⟩

example : doStrong ⟨false, 5, false, 7/10, 10^200⟩ [(0, 1), (0, 5)] 100 [probe01 0 1] = none :=
  strong_lookAhead_aborts _ _ _ _ _ rfl (by decide) rfl (by decide +kernel)

/-- `HotInfo` never reports a side as infeasible unless the solver proved it so with an objective value of at least `1e-6`, and never as solved
unless the solver proved optimality or infeasibility. -/
theorem hotStatus_truth (osi : Int) (inf opt : Bool) (v : ℚ) :
    (hotStatus osi inf opt v = 1 ↔ osi = 1 ∧ ((inf = true ∧ 1 / 10 ^ 6 ≤ |v|) ∨ (inf = false ∧ opt = true))) ∧
    (hotStatus osi inf opt v = 0 → inf = true ∨ opt = true) := by
  unfold hotStatus
  by_cases hv : |v| < 1 / 10 ^ 6
  · have hv' := not_le.mpr hv
    cases inf <;> cases opt <;> simp only [hv, hv', decide_true] <;> simp
  · have hv' := not_lt.mp hv
    cases inf <;> cases opt <;> simp only [hv, hv', decide_false] <;> simp

/-- The three cases of `HotInfo::updateInformation`. -/
theorem hotStatus_cases (osi : Int) (inf opt : Bool) (v : ℚ) :
    (inf = false → opt = false → hotStatus osi inf opt v = 2) ∧ (inf = true → |v| < 1 / 10 ^ 6 → hotStatus osi inf opt v = 2) ∧
    (inf = true → 1 / 10 ^ 6 ≤ |v| → hotStatus osi inf opt v = osi) ∧ (inf = false → opt = true → hotStatus osi inf opt v = osi) := by
  unfold hotStatus
  refine ⟨?_, ?_, ?_, ?_⟩
  · rintro rfl rfl; simp
  · rintro rfl h; simp only [h, decide_true]; simp
  · rintro rfl h; simp only [not_lt.mpr h, decide_false]; simp
  · rintro rfl rfl; simp

theorem sbLoop_fixed (c : SCfg) (save : Bounds) : ∀ (ps : List Probe) (s t : SB), sbLoop c save ps s = some t →
    ∃ k, t.done = s.done + k ∧ t.fixed = s.fixed + ((ps.take k).filter fun p => decide (p.bad = 1)).length := by
  intro ps
  induction ps with
  | nil =>
    intro s t h
    simp only [sbLoop, Option.some.injEq] at h
    subst h
    exact ⟨0, by simp⟩
  | cons p ps ih =>
    intro s t h
    have hside : ∀ (b : Bool) (way : Bounds → Bounds) (s : SB), (side save b way s).fixed = s.fixed ∧ (side save b way s).done = s.done := by
      intro b way s; unfold side; split <;> exact ⟨rfl, rfl⟩
    have hbad : ∀ (k k' : ℚ) (n : Nat), (if ¬ ((seen c p.ans0 k).1 = 1 ∧ (seen c p.ans1 k').1 = 1) ∧ ((seen c p.ans0 k).1 = 1 ∨ (seen c p.ans1 k').1 = 1) then n + 1 else n) =
        n + ([p].filter fun p => decide (p.bad = 1)).length := by
      intro k k' n
      simp only [seen_one]
      unfold Probe.bad
      by_cases h0 : p.ans0.infeasible <;> by_cases h1 : p.ans1.infeasible <;> simp [h0, h1]
    unfold sbLoop at h
    dsimp only at h
    rw [hbad] at h
    have stop : ∀ s' : SB, s'.done = s.done + 1 → s'.fixed = s.fixed + ([p].filter fun p => decide (p.bad = 1)).length → s' = t →
        ∃ k, t.done = s.done + k ∧ t.fixed = s.fixed + (((p :: ps).take k).filter fun p => decide (p.bad = 1)).length := by
      rintro s' h1 h2 rfl
      exact ⟨1, h1, by simpa using h2⟩
    have go : ∀ s' : SB, s'.done = s.done + 1 → s'.fixed = s.fixed + ([p].filter fun p => decide (p.bad = 1)).length → sbLoop c save ps s' = some t →
        ∃ k, t.done = s.done + k ∧ t.fixed = s.fixed + (((p :: ps).take k).filter fun p => decide (p.bad = 1)).length := by
      intro s' h1 h2 h3
      obtain ⟨k, e1, e2⟩ := ih s' t h3
      refine ⟨k + 1, by omega, ?_⟩
      rw [e2, h2, List.take_succ_cons, show p :: ps.take k = [p] ++ ps.take k from rfl, List.filter_append, List.length_append]
      omega
    split at h
    · exact stop _ (by simp [hside]) (by simp [hside]) (Option.some.inj h)
    · split at h
      · split at h
        · split at h
          · exact go _ (by simp [hside]) (by simp [hside]) h
          · split at h
            · exact stop _ (by simp [hside]) (by simp [hside]) (Option.some.inj h)
            · exact go _ (by simp [hside]) (by simp [hside]) h
        · simp at h
      · exact go _ (by simp [hside]) (by simp [hside]) h

/-- **C29**: `numberStrongFixed_` counts the probed candidates with exactly one infeasible side. -/
theorem strong_fixed (c : SCfg) (bounds : Bounds) (cutoff : ℚ) (ps : List Probe) (t : SB) (h : doStrong c bounds cutoff ps = some t) :
    t.fixed = ((ps.take t.done).filter fun p => decide (p.bad = 1)).length := by
  obtain ⟨k, h1, h2⟩ := sbLoop_fixed c bounds ps _ t h
  simp at h1 h2
  rw [h2, h1]

/-- Score of a candidate in the look-ahead test: objective changes of the two sides combined. -/
def Probe.score (c : SCfg) (p : Probe) : ℚ := c.crit * min p.ans1.change p.ans0.change + (1 - c.crit) * max p.ans1.change p.ans0.change

/-- Some candidate among the first `m` has at least `L` successors among them and is as good as all of the first `m`. -/
def Stale (c : SCfg) (L : Nat) (l : List Probe) : Prop := ∃ a p b, l = a ++ p :: b ∧ L ≤ b.length ∧ (∀ q ∈ l, q.score c ≤ p.score c)

/-- Loop invariant of the look-ahead. -/
def LookInv (c : SCfg) (pre : List Probe) (s : SB) : Prop :=
  (pre = [] ∧ s.bestLook = -c.huge ∧ s.since = 0) ∨
  ∃ a p b, pre = a ++ p :: b ∧ s.since = b.length ∧ s.bestLook = p.score c ∧ (∀ q ∈ a, q.score c < p.score c) ∧ (∀ q ∈ b, q.score c ≤ p.score c)

theorem look_stale {c : SCfg} {L : Nat} {pre : List Probe} {s : SB} (h : LookInv c pre s) (hL : L ≠ 0) : Stale c L pre ↔ L ≤ s.since := by
  rcases h with ⟨rfl, _, h3⟩ | ⟨a, p, b, h1, h2, _, h4, h5⟩
  · rw [h3]
    constructor
    · rintro ⟨a, p, b, h, _⟩; simp at h
    · intro h; omega
  · constructor
    · rintro ⟨a', p', b', g1, g2, g3⟩
      rw [h2]
      by_contra hlt
      -- then p' comes before p, so its score is smaller
      have hlen : b.length < b'.length := by omega
      have hl : a'.length < a.length := by
        have := congrArg List.length (h1.symm.trans g1)
        simp at this
        omega
      have hmem : p' ∈ a := by
        have e : pre[a'.length]? = some p' := by rw [g1]; simp
        rw [h1, List.getElem?_append_left hl] at e
        exact List.mem_of_getElem? e
      have := h4 p' hmem
      have := g3 p (by rw [h1]; simp)
      linarith
    · intro h
      refine ⟨a, p, b, h1, by omega, ?_⟩
      intro q hq
      rw [h1] at hq
      rcases List.mem_append.mp hq with hq | hq
      · exact le_of_lt (h4 q hq)
      · rcases List.mem_cons.mp hq with rfl | hq
        · exact le_refl _
        · exact h5 q hq

theorem sbLoop_look (c : SCfg) (save : Bounds) (hr : c.isRoot = false) (hL : c.lookAhead ≠ 0) : ∀ (ps pre : List Probe) (s t : SB), (∀ p ∈ ps, p.late = false) →
    (∀ p ∈ ps, -c.huge < p.score c) → LookInv c pre s → s.done = pre.length → ¬ Stale c c.lookAhead pre → sbLoop c save ps s = some t →
    ∃ ran, ran <+: ps ∧ t.done = (pre ++ ran).length ∧ (ran ≠ ps → Stale c c.lookAhead (pre ++ ran)) ∧
      ∀ r, r <+: ran → r ≠ ran → ¬ Stale c c.lookAhead (pre ++ r) := by
  intro ps
  induction ps with
  | nil =>
    intro pre s t _ _ _ hd _ h
    simp only [sbLoop, Option.some.injEq] at h
    subst h
    refine ⟨[], List.nil_prefix, by simpa using hd, by simp, ?_⟩
    intro r hr hne
    exact absurd (List.prefix_nil.mp hr) hne
  | cons p ps ih =>
    intro pre s t hlate hhuge hinv hd hst h
    have hside : ∀ (b : Bool) (way : Bounds → Bounds) (s : SB), (side save b way s).bestLook = s.bestLook ∧ (side save b way s).since = s.since ∧
        (side save b way s).done = s.done := by
      intro b way s; unfold side; split <;> exact ⟨rfl, rfl, rfl⟩
    have hnl : ¬ (p.late = true) := by rw [hlate p (by simp)]; simp
    unfold sbLoop at h
    dsimp only at h
    rw [if_neg hnl, if_pos ⟨hr, hL⟩] at h
    split at h
    · have hsc : combine c.crit p.ans1.change p.ans0.change = p.score c := rfl
      simp only [hsc, hside] at h
      have go : ∀ s' : SB, LookInv c (pre ++ [p]) s' → s'.done = s.done + 1 → ¬ Stale c c.lookAhead (pre ++ [p]) → sbLoop c save ps s' = some t →
          ∃ ran, ran <+: p :: ps ∧ t.done = (pre ++ ran).length ∧ (ran ≠ p :: ps → Stale c c.lookAhead (pre ++ ran)) ∧
            ∀ r, r <+: ran → r ≠ ran → ¬ Stale c c.lookAhead (pre ++ r) := by
        intro s' h1 h2 h3 h4
        obtain ⟨ran, g1, g2, g3, g4⟩ := ih (pre ++ [p]) s' t (fun q hq => hlate q (List.mem_cons_of_mem _ hq)) (fun q hq => hhuge q (List.mem_cons_of_mem _ hq)) h1
          (by simp [h2, hd]) h3 h4
        refine ⟨p :: ran, by simpa using g1, by rw [g2]; simp, fun hne => ?_, ?_⟩
        · have := g3 (by rintro rfl; exact hne rfl)
          simpa using this
        · intro r hr1 hr2
          cases r with
          | nil => simpa using hst
          | cons q r =>
            obtain ⟨rfl, hr3⟩ := List.cons_prefix_cons.mp hr1
            have := g4 r hr3 (by rintro rfl; exact hr2 rfl)
            simpa using this
      split at h
      · rename_i hv
        have hinv' : ∀ s' : SB, s'.bestLook = p.score c → s'.since = 0 → LookInv c (pre ++ [p]) s' := by
          intro s' e1 e2
          refine Or.inr ⟨pre, p, [], rfl, by simpa using e2, e1, ?_, by simp⟩
          rcases hinv with ⟨rfl, _, _⟩ | ⟨a, q, b, g1, _, g3, g4, g5⟩
          · simp
          · intro x hx
            rw [g3] at hv
            rw [g1] at hx
            rcases List.mem_append.mp hx with hx | hx
            · exact lt_trans (g4 x hx) hv
            · rcases List.mem_cons.mp hx with rfl | hx
              · exact hv
              · exact lt_of_le_of_lt (g5 x hx) hv
        refine go _ (hinv' _ rfl rfl) (by simp) ?_ h
        rw [look_stale (s := ⟨[], [], 0, 0, 0, 0, p.score c, 0⟩) (hinv' _ rfl rfl) hL]
        simpa using hL
      · rename_i hv
        have hinv' : ∀ s' : SB, s'.bestLook = s.bestLook → s'.since = s.since + 1 → LookInv c (pre ++ [p]) s' := by
          intro s' e1 e2
          rcases hinv with ⟨_, g2, _⟩ | ⟨a, q, b, g1, g2, g3, g4, g5⟩
          · rw [g2] at hv
            exact absurd (hhuge p (by simp)) hv
          · refine Or.inr ⟨a, q, b ++ [p], by rw [g1]; simp, by simp [e2, g2], by rw [e1, g3], g4, ?_⟩
            intro x hx
            rcases List.mem_append.mp hx with hx | hx
            · exact g5 x hx
            · rw [List.mem_singleton.mp hx]
              rw [g3] at hv
              exact not_lt.mp hv
        split at h
        · rename_i hstop
          rw [← Option.some.inj h]
          refine ⟨[p], by simp, by simp [hd], fun _ => ?_, ?_⟩
          · rw [look_stale (s := ⟨[], [], 0, 0, 0, 0, s.bestLook, s.since + 1⟩) (hinv' _ rfl rfl) hL]
            exact hstop
          · intro r hr1 hr2
            cases r with
            | nil => simpa using hst
            | cons q r =>
              obtain ⟨rfl, hr3⟩ := List.cons_prefix_cons.mp hr1
              rw [List.prefix_nil.mp hr3] at hr2
              exact absurd rfl hr2
        · rename_i hstop
          refine go _ ?_ ?_ ?_ h
          · exact hinv' _ (by simp [hside]) (by simp [hside])
          · simp [hside]
          rw [look_stale (s := ⟨[], [], 0, 0, 0, 0, s.bestLook, s.since + 1⟩) (hinv' _ rfl rfl) hL]
          exact hstop
    · simp at h

/-- **C29** (look-ahead, exact).  Below the root with a look-ahead of `L` candidates, no time-out and all sides solved (otherwise the program stops at an assert): the candidates are probed until
the best of those probed was followed by `L` candidates that are not better, and no longer. -/
theorem strong_lookAhead (c : SCfg) (bounds : Bounds) (cutoff : ℚ) (ps : List Probe) (t : SB) (hr : c.isRoot = false) (hL : c.lookAhead ≠ 0)
    (hlate : ∀ p ∈ ps, p.late = false) (hhuge : ∀ p ∈ ps, -c.huge < p.score c) (h : doStrong c bounds cutoff ps = some t) :
    (t.done = ps.length ∨ (t.done < ps.length ∧ Stale c c.lookAhead (ps.take t.done))) ∧ ∀ m, m < t.done → ¬ Stale c c.lookAhead (ps.take m) := by
  obtain ⟨ran, h1, h2, h3, h4⟩ := sbLoop_look c bounds hr hL ps [] _ t hlate hhuge (Or.inl ⟨rfl, rfl, rfl⟩) rfl (by rintro ⟨a, p, b, e, _⟩; simp at e) h
  simp only [List.nil_append] at h2 h3 h4
  have hp := List.prefix_iff_eq_take.mp h1
  constructor
  · by_cases he : ran = ps
    · left; rw [h2, he]
    · right
      refine ⟨?_, by rw [h2, ← hp]; exact h3 he⟩
      rw [h2]
      rcases Nat.lt_or_ge ran.length ps.length with g | g
      · exact g
      · exact absurd (h1.eq_of_length (le_antisymm h1.length_le g)) he
  · intro m hm
    have hle : m ≤ ran.length := by omega
    have : ps.take m = ran.take m := by rw [hp, List.take_take]; congr 1; omega
    rw [this]
    apply h4 _ (List.take_prefix _ _)
    intro e
    have := congrArg List.length e
    simp at this
    omega

/-- A candidate with given changes. -/
def probeC (v : ℚ) : Probe := ⟨true, id, id, ⟨0, false, 0, v⟩, ⟨0, false, 0, v⟩, false⟩

/-- With a look-ahead of 2: the third candidate is the best so far, the two after it are not better, the last one is not probed. -/
example : (doStrong ⟨false, 2, false, 7/10, 10^200⟩ [] 100 [probeC 2, probeC 1, probeC 5, probeC 5, probeC 3, probeC 9]).map SB.done = some 5 := by
  decide +kernel

end Verif.Branch

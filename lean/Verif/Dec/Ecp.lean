import Verif.Dec.OaLoop
/-!
# C59: rounds of extended cutting planes, C60: the measure of violation
`src/Algorithms/OaGenerators/BonEcpCuts.cpp`: `doEcpRounds` (28-43), `generateCuts` (45-143);
`src/Interfaces/BonOsiTMINLPInterface.cpp`: `getConstraintsViolation` (1838-1865), `getNonLinearitiesViolation` (1867-1876).

The generator of outer approximation cuts and the LP solver are oracles.  `none` is a failed assertion; `dbg` says whether assertions are compiled in.
-/
namespace Verif.Dec

/-! ## The measure of violation -/

/-- A row: nonlinear or not, its two sides and its value. -/
structure VRow where
  nonlin : Bool
  lo : ℚ
  up : ℚ
  g : ℚ
deriving DecidableEq

/-- Violation of one row (1852-1857). -/
def rowViol (r : VRow) : ℚ :=
  let v := if r.lo > -10 ^ 10 then max 0 (r.lo - r.g) else 0
  if r.up < 10 ^ 10 then max v (r.g - r.up) else v

/-- `getConstraintsViolation` (1849-1861); `types` says whether the array of row types exists. -/
def consViol (types : Bool) (rows : List VRow) : ℚ :=
  rows.foldl (fun n r => if !types || r.nonlin then (if rowViol r > n then rowViol r else n) else n) 0

/-- `getNonLinearitiesViolation` (1867-1876); `f` is the value of the objective at the point, `obj` that of the LP. -/
def nlViol (dbg : Bool) (f cv obj : ℚ) : Option ℚ := if dbg && !decide (f - obj > -(1 / 10 ^ 8)) then none else some (if f - obj > cv then f - obj else cv)

/-! ## The rounds -/

/-- Answer of the LP solver. -/
structure EcpLp (P : Type) where
  inf : Bool
  obj : ℚ
  pt : P

/-- Oracles: violation of a point with its LP value, cuts at a point (with the point they must cut, if any), LP with installed cuts. -/
structure EcpO (P κ : Type) where
  viol : P → ℚ → Option ℚ
  cuts : Option P → P → List κ
  lp : List κ → EcpLp P

/-- Parameters: `numRounds_`, tolerances, `addOnlyViolated_`, `beta_`, whether an LP solver is assigned (`lp_ ≠ NULL`), assertions on. -/
structure EcpCfg where
  rounds : Nat
  absTol : ℚ
  relTol : ℚ
  only : Bool
  beta : ℚ
  own : Bool
  dbg : Bool
  dmax : ℚ
deriving DecidableEq

/-- Variables of the rounds: violation, cuts collected, cuts installed in the LP, answer of the LP (`none`: not created), infeasible. -/
structure EcpSt (P κ : Type) where
  viol : ℚ
  cs : List κ
  inst : List κ
  man : Option (EcpLp P)
  inf : Bool

/-- Point at which cuts are generated (83-85). -/
def curPt {P κ : Type} (x0 : P) (s : EcpSt P κ) : P := match s.man with | none => x0 | some a => a.pt

/-- Point the cuts have to cut off (81-82): the solution of `si`, which is the LP itself if an LP is assigned. -/
def toCut {P κ : Type} (c : EcpCfg) (x0 : P) (s : EcpSt P κ) : Option P := if c.only then some (if c.own then curPt x0 s else x0) else none

/-- Installing cuts and solving the LP (88-113): state and whether the rounds stop here. -/
def ecpInstall {P κ : Type} (c : EcpCfg) (o : EcpO P κ) (s : EcpSt P κ) (new : List κ) : Option (Bool × EcpSt P κ) :=
  if s.man.isNone && c.own && c.dbg then none
  else
    let a := o.lp (s.inst ++ new)
    let s1 : EcpSt P κ := ⟨s.viol, s.cs ++ new, s.inst ++ new, some a, s.inf⟩
    if a.inf then some (true, { s1 with inf := true })
    else (o.viol a.pt a.obj).map fun v => (false, { s1 with viol := v })

/-- The loop (77-121); the number is that of the rounds left. -/
def ecpLoop {P κ : Type} (c : EcpCfg) (o : EcpO P κ) (x0 : P) (orig : ℚ) : Nat → EcpSt P κ → Option (EcpSt P κ)
  | 0, s => some s
  | r + 1, s =>
    if s.viol > c.absTol ∧ s.viol > c.relTol * orig then
      let new := o.cuts (toCut c x0 s) (curPt x0 s)
      if new ≠ [] ∧ 0 < r then
        match ecpInstall c o s new with
        | none => none
        | some (true, t) => some t
        | some (false, t) => ecpLoop c o x0 orig r t
      else some { s with cs := s.cs ++ new }
    else some s

/-- The members `objValue_` and `violation_`; `none` = never written. -/
structure EcpMem where
  obj : Option ℚ
  viol : Option ℚ
deriving DecidableEq

/-- The value recorded at the end (122-131). -/
def ecpObj {P κ : Type} (c : EcpCfg) (o : EcpO P κ) (m : EcpMem) (s : EcpSt P κ) : Option ℚ :=
  if s.inf then some c.dmax else match s.man with | none => m.obj | some _ => if (o.lp s.inst).inf then some c.dmax else some (o.lp s.inst).obj

/-- The skipping rule (50-61); `level` is the depth of the node. -/
def ecpSkip (c : EcpCfg) (level : Nat) (rand : ℚ) : Bool := decide (0 ≤ c.beta ∧ (1 / 2) ^ level * c.beta ≤ rand)

/-- `generateCuts` (45-143): new members and cuts. -/
def ecpGen {P κ : Type} (c : EcpCfg) (o : EcpO P κ) (level : Nat) (rand : ℚ) (x0 : P) (obj0 : ℚ) (m : EcpMem) : Option (EcpMem × List κ) :=
  if ecpSkip c level rand then some (m, [])
  else match o.viol x0 obj0 with
    | none => none
    | some orig =>
      if orig ≤ c.absTol then some (m, [])
      else (ecpLoop c o x0 orig c.rounds ⟨orig, [], [], none, false⟩).map fun s => (⟨ecpObj c o m s, some s.viol⟩, s.cs)

/-- `doEcpRounds` (28-43): the returned objective value and violation. -/
def doEcp {P κ : Type} (c : EcpCfg) (o : EcpO P κ) (level : Nat) (rand : ℚ) (x0 : P) (obj0 : ℚ) (m : EcpMem) : Option (EcpMem × Option ℚ × Option ℚ) :=
  (ecpGen { c with own := true } o level rand x0 obj0 m).map fun r => (r.1, r.1.obj, r.1.viol)

/-! ## Specification -/

/-- The iterates of the method: point and cuts after `k` LPs. -/
def ecpIter {P κ : Type} (c : EcpCfg) (o : EcpO P κ) (x0 : P) : Nat → P × List κ
  | 0 => (x0, [])
  | k + 1 =>
    let q := ecpIter c o x0 k
    let cs := q.2 ++ o.cuts (if c.only then some (if c.own then q.1 else x0) else none) q.1
    ((o.lp cs).pt, cs)

/-- The cuts made at the `k`-th iterate. -/
def ecpCutsAt {P κ : Type} (c : EcpCfg) (o : EcpO P κ) (x0 : P) (k : Nat) : List κ :=
  o.cuts (if c.only then some (if c.own then (ecpIter c o x0 k).1 else x0) else none) (ecpIter c o x0 k).1

/-- A row violated by at most `t`. -/
def RowOk (t : ℚ) (r : VRow) : Prop := r.lo - t ≤ r.g ∧ r.g ≤ r.up + t

/-! ## Properties: violation -/

theorem rowViol_nonneg (r : VRow) : 0 ≤ rowViol r := by
  unfold rowViol
  simp only
  split_ifs
  · exact le_max_of_le_left (le_max_left _ _)
  · exact le_max_left _ _
  · exact le_max_left _ _
  · exact le_refl _

theorem rowViol_le (r : VRow) (t : ℚ) (ht : 0 ≤ t) : rowViol r ≤ t ↔ (-10 ^ 10 < r.lo → r.lo - t ≤ r.g) ∧ (r.up < 10 ^ 10 → r.g ≤ r.up + t) := by
  unfold rowViol
  simp only
  by_cases h1 : r.lo > -10 ^ 10
  · by_cases h2 : r.up < 10 ^ 10
    · rw [if_pos h1, if_pos h2, max_le_iff, max_le_iff]
      constructor
      · rintro ⟨⟨_, a⟩, b⟩; exact ⟨fun _ => by linarith, fun _ => by linarith⟩
      · rintro ⟨a, b⟩; have := a h1; have := b h2; exact ⟨⟨ht, by linarith⟩, by linarith⟩
    · rw [if_pos h1, if_neg h2, max_le_iff]
      constructor
      · rintro ⟨_, a⟩; exact ⟨fun _ => by linarith, fun h => absurd h h2⟩
      · rintro ⟨a, _⟩; have := a h1; exact ⟨ht, by linarith⟩
  · by_cases h2 : r.up < 10 ^ 10
    · rw [if_neg h1, if_pos h2, max_le_iff]
      constructor
      · rintro ⟨_, b⟩; exact ⟨fun h => absurd h h1, fun _ => by linarith⟩
      · rintro ⟨_, b⟩; have := b h2; exact ⟨ht, by linarith⟩
    · rw [if_neg h1, if_neg h2]
      exact ⟨fun _ => ⟨fun h => absurd h h1, fun h => absurd h h2⟩, fun _ => ht⟩

theorem foldViol (types : Bool) (rows : List VRow) (n t : ℚ) :
    rows.foldl (fun n r => if !types || r.nonlin then (if rowViol r > n then rowViol r else n) else n) n ≤ t ↔
      n ≤ t ∧ ∀ r ∈ rows, (types = false ∨ r.nonlin = true) → rowViol r ≤ t := by
  induction rows generalizing n with
  | nil => simp
  | cons r rows ih =>
    rw [List.foldl_cons, ih]
    simp only [List.mem_cons, forall_eq_or_imp]
    by_cases h : types = false ∨ r.nonlin = true
    · have hb : (!types || r.nonlin) = true := by rcases h with h | h <;> simp [h]
      rw [if_pos hb]
      by_cases hg : rowViol r > n
      · rw [if_pos hg]
        constructor
        · rintro ⟨a, b⟩; exact ⟨le_trans (le_of_lt hg) a, fun _ => a, b⟩
        · rintro ⟨_, b, d⟩; exact ⟨b h, d⟩
      · rw [if_neg hg]
        constructor
        · rintro ⟨a, b⟩; exact ⟨a, fun _ => le_trans (not_lt.1 hg) a, b⟩
        · rintro ⟨a, _, d⟩; exact ⟨a, d⟩
    · have hb : ¬ (!types || r.nonlin) = true := by
        intro hh
        apply h
        cases types <;> simp_all
      rw [if_neg hb]
      constructor
      · rintro ⟨a, b⟩; exact ⟨a, fun hh => absurd hh h, b⟩
      · rintro ⟨a, _, d⟩; exact ⟨a, d⟩

/-- **C60**: the measured violation is at most `t` iff every measured row (nonlinear, or any without type information) satisfies its sides up to `t`, sides beyond `±1e10` not
counting. -/
theorem consViol_le_iff (types : Bool) (rows : List VRow) (t : ℚ) (ht : 0 ≤ t) : consViol types rows ≤ t ↔
    ∀ r ∈ rows, (types = false ∨ r.nonlin = true) → (-10 ^ 10 < r.lo → r.lo - t ≤ r.g) ∧ (r.up < 10 ^ 10 → r.g ≤ r.up + t) := by
  unfold consViol
  rw [foldViol]
  constructor
  · rintro ⟨_, h⟩ r hr hn; exact (rowViol_le r t ht).1 (h r hr hn)
  · intro h; exact ⟨ht, fun r hr hn => (rowViol_le r t ht).2 (h r hr hn)⟩

theorem consViol_nonneg (types : Bool) (rows : List VRow) : 0 ≤ consViol types rows := by
  by_contra h
  have := (foldViol types rows 0 (consViol types rows)).1 (le_refl _)
  exact h this.1

/-- **C60**: for problems whose sides are infinite or within `1e10` and with no linear row, the measure is the infinity norm of the violation: at most `t` iff all rows hold up to `t`. -/
theorem consViol_norm_partial (inf : ℚ) (types : Bool) (rows : List VRow) (t : ℚ) (ht : 0 ≤ t) (hn : ∀ r ∈ rows, types = false ∨ r.nonlin = true)
    (hs : ∀ r ∈ rows, (r.lo ≤ -inf ∨ -10 ^ 10 < r.lo) ∧ (inf ≤ r.up ∨ r.up < 10 ^ 10)) (hg : ∀ r ∈ rows, -inf ≤ r.g ∧ r.g ≤ inf) : consViol types rows ≤ t ↔ ∀ r ∈ rows, RowOk t r := by
  rw [consViol_le_iff _ _ _ ht]
  constructor
  · intro h r hr
    obtain ⟨h1, h2⟩ := h r hr (hn r hr)
    obtain ⟨s1, s2⟩ := hs r hr
    obtain ⟨g1, g2⟩ := hg r hr
    constructor
    · rcases s1 with s | s
      · linarith
      · exact h1 s
    · rcases s2 with s | s
      · linarith
      · exact h2 s
  · intro h r hr _
    exact ⟨fun _ => (h r hr).1, fun _ => (h r hr).2⟩

example : consViol true [⟨true, 1, 10 ^ 20, -1⟩, ⟨true, -10 ^ 20, 3, 4⟩] = 2 := by decide +kernel

/-- **C60** refuted without the provisos: a linear row and a side of size `1e10` are not measured. -/
theorem consViol_misses : consViol true [⟨false, 1, 1, 5⟩] = 0 ∧ consViol true [⟨true, -10 ^ 20, 10 ^ 10, 2 * 10 ^ 10⟩] = 0 ∧ ¬ RowOk 1 ⟨false, 1, 1, 5⟩ ∧ ¬ RowOk 1 ⟨true, -10 ^ 20, 10 ^ 10, 2 * 10 ^ 10⟩ := by
  refine ⟨by decide +kernel, by decide +kernel, ?_, ?_⟩
  · rintro ⟨_, h⟩; norm_num at h
  · rintro ⟨_, h⟩; norm_num at h

/-- **C60**: the violation with the objective: at most `t` iff the rows are and the objective exceeds the LP value by at most `t`; with assertions it is undefined iff the LP value exceeds
the objective by `1e-8` or more. -/
theorem nlViol_exact (f cv obj t : ℚ) : (nlViol true f cv obj = none ↔ f + 1 / 10 ^ 8 ≤ obj) ∧ nlViol false f cv obj = some (max cv (f - obj)) ∧
    (∀ v, nlViol true f cv obj = some v → v = max cv (f - obj)) ∧ (max cv (f - obj) ≤ t ↔ cv ≤ t ∧ f ≤ obj + t) := by
  have hm : (if f - obj > cv then f - obj else cv) = max cv (f - obj) := by
    by_cases h : f - obj > cv
    · rw [if_pos h, max_eq_right (le_of_lt h)]
    · rw [if_neg h, max_eq_left (not_lt.1 h)]
  unfold nlViol
  rw [hm]
  refine ⟨?_, by simp, fun v h => ?_, ?_⟩
  · by_cases h : f - obj > -(1 / 10 ^ 8)
    · rw [if_neg (by simp; simpa using h)]
      simp only [reduceCtorEq, false_iff, not_le]; linarith
    · rw [if_pos (by simp; simpa using h)]
      simp only [true_iff]; linarith [not_lt.1 h]
  · split_ifs at h
    exact (Option.some.inj h).symm
  · rw [max_le_iff]
    exact ⟨fun ⟨a, b⟩ => ⟨a, by linarith⟩, fun ⟨a, b⟩ => ⟨a, by linarith⟩⟩

/-! ## Properties: rounds -/

/-- Invariant of the loop. -/
structure EcpInv {P κ : Type} (c : EcpCfg) (o : EcpO P κ) (x0 : P) (orig : ℚ) (k : Nat) (s : EcpSt P κ) : Prop where
  inst : s.inst = (ecpIter c o x0 k).2
  cs : s.cs = s.inst
  man : s.man = if k = 0 then none else some (o.lp s.inst)
  inf : s.inf = false
  viol : if k = 0 then s.viol = orig else o.viol (ecpIter c o x0 k).1 (o.lp s.inst).obj = some s.viol

theorem inv_cur {P κ : Type} {c : EcpCfg} {o : EcpO P κ} {x0 : P} {orig : ℚ} {k : Nat} {s : EcpSt P κ} (h : EcpInv c o x0 orig k s) : curPt x0 s = (ecpIter c o x0 k).1 := by
  unfold curPt
  rw [h.man]
  cases k with
  | zero => rfl
  | succ k => simp only [Nat.succ_ne_zero, if_false]; rw [h.inst]; rfl

theorem inv_new {P κ : Type} {c : EcpCfg} {o : EcpO P κ} {x0 : P} {orig : ℚ} {k : Nat} {s : EcpSt P κ} (h : EcpInv c o x0 orig k s) :
    o.cuts (toCut c x0 s) (curPt x0 s) = ecpCutsAt c o x0 k := by
  unfold toCut ecpCutsAt
  rw [inv_cur h]

/-- How the rounds can end after `k` LPs. -/
inductive EcpEnd {P κ : Type} (c : EcpCfg) (o : EcpO P κ) (x0 : P) (orig : ℚ) (k : Nat) (s : EcpSt P κ) : Prop
  | small (h : EcpInv c o x0 orig k s) (hv : s.viol ≤ c.absTol ∨ s.viol ≤ c.relTol * orig)
  | last (hi : s.inst = (ecpIter c o x0 k).2) (hc : s.cs = s.inst ++ ecpCutsAt c o x0 k) (hm : s.man = if k = 0 then none else some (o.lp s.inst)) (hf : s.inf = false)
      (hv : if k = 0 then s.viol = orig else o.viol (ecpIter c o x0 k).1 (o.lp s.inst).obj = some s.viol) (he : ecpCutsAt c o x0 k = [] ∨ k + 1 = c.rounds)
  | infeasible (hi : s.inst = (ecpIter c o x0 k).2) (hc : s.cs = s.inst) (hm : s.man = some (o.lp s.inst)) (hf : s.inf = true) (hl : (o.lp s.inst).inf = true)
  | none (h : EcpInv c o x0 orig k s) (hr : c.rounds = 0)

theorem ecpLoop_end {P κ : Type} (c : EcpCfg) (o : EcpO P κ) (x0 : P) (orig : ℚ) : ∀ (r k : Nat) (s t : EcpSt P κ), r + k = c.rounds → (r = 0 → k = 0) → EcpInv c o x0 orig k s →
    ecpLoop c o x0 orig r s = some t → ∃ j, (j < c.rounds ∨ j = 0) ∧ EcpEnd c o x0 orig j t
  | 0, k, s, t, hr, hk, hi, h => by
    have : k = 0 := hk rfl
    subst this
    rw [← Option.some.inj h]
    exact ⟨0, Or.inr rfl, .none hi (by omega)⟩
  | r + 1, k, s, t, hr, hk, hi, h => by
    unfold ecpLoop at h
    split at h
    · simp only at h
      rw [inv_new hi] at h
      split at h
      · rename_i hn
        unfold ecpInstall at h
        split at h
        · simp at h
        · rename_i t' he
          rw [← Option.some.inj h]
          split at he
          · simp at he
          · simp only at he
            split at he
            · rename_i hinf
              have := Option.some.inj he
              rw [← (Prod.mk.inj this).2]
              have e : s.inst ++ ecpCutsAt c o x0 k = (ecpIter c o x0 (k + 1)).2 := by rw [hi.inst]; rfl
              refine ⟨k + 1, Or.inl (by omega), .infeasible e ?_ rfl rfl hinf⟩
              simp only [hi.cs]
            · obtain ⟨v, _, hv⟩ := Option.map_eq_some_iff.1 he
              simp at hv
        · rename_i t' he
          split at he
          · simp at he
          · simp only at he
            split at he
            · simp at he
            · obtain ⟨v, hv1, hv⟩ := Option.map_eq_some_iff.1 he
              have ht' := (Prod.mk.inj hv).2
              have e : s.inst ++ ecpCutsAt c o x0 k = (ecpIter c o x0 (k + 1)).2 := by rw [hi.inst]; rfl
              have e1 : (o.lp (s.inst ++ ecpCutsAt c o x0 k)).pt = (ecpIter c o x0 (k + 1)).1 := by rw [hi.inst]; rfl
              refine ecpLoop_end c o x0 orig r (k + 1) t' t (by omega) (by omega) ?_ h
              rw [← ht']
              refine ⟨e, ?_, ?_, hi.inf, ?_⟩
              · simp only [hi.cs]
              · simp
              · simp only [Nat.succ_ne_zero, if_false]
                rw [← e1]
                exact hv1
      · rename_i hn
        have := Option.some.inj h
        rw [← this]
        refine ⟨k, Or.inl (by omega), .last hi.inst ?_ hi.man hi.inf hi.viol ?_⟩
        · simp only [hi.cs]
        · by_cases he : ecpCutsAt c o x0 k = []
          · exact Or.inl he
          · right
            have : ¬ 0 < r := fun hh => hn ⟨he, hh⟩
            omega
    · rename_i hn
      rw [← Option.some.inj h]
      refine ⟨k, Or.inl (by omega), .small hi ?_⟩
      by_contra hcon
      push Not at hcon
      exact hn hcon

/-- **C59**: exact description of a run that is not skipped: after `k` LPs, fewer than the allowed rounds, it ended because the violation was small, because no cut was found or the rounds
were used up (the last cuts are returned but not installed), or because the LP became infeasible. -/
theorem ecp_exact {P κ : Type} (c : EcpCfg) (o : EcpO P κ) (x0 : P) (orig : ℚ) (t : EcpSt P κ) (h : ecpLoop c o x0 orig c.rounds ⟨orig, [], [], none, false⟩ = some t) :
    ∃ k, (k < c.rounds ∨ k = 0) ∧ EcpEnd c o x0 orig k t := by
  by_cases hr : c.rounds = 0
  · rw [hr] at h
    rw [← Option.some.inj h]
    exact ⟨0, Or.inr rfl, .none ⟨rfl, rfl, rfl, rfl, by simp⟩ hr⟩
  · exact ecpLoop_end c o x0 orig c.rounds 0 _ t (by omega) (by omega) ⟨rfl, rfl, rfl, rfl, by simp⟩ h

theorem iter_valid {P κ : Type} (c : EcpCfg) (o : EcpO P κ) (x0 : P) (sat : κ → Prop) (hv : ∀ q p, ∀ k ∈ o.cuts q p, sat k) (k : Nat) : ∀ u ∈ (ecpIter c o x0 k).2, sat u := by
  induction k with
  | zero => simp [ecpIter]
  | succ k ih =>
    intro u hu
    rcases List.mem_append.1 hu with h | h
    · exact ih u h
    · exact hv _ _ u h

/-- **C59**: everything returned is valid, and the recorded objective value is a lower bound, if cut generation and LP are right: for a point `z` satisfying all generated cuts, every
returned cut holds at `z`, and a newly recorded value is at most `f z` (`dmax` is never recorded). -/
theorem ecp_sound {P κ Z : Type} (c : EcpCfg) (o : EcpO P κ) (level : Nat) (rand : ℚ) (x0 : P) (obj0 : ℚ) (m m' : EcpMem) (cs : List κ) (sat : κ → Z → Prop) (f : Z → ℚ) (z : Z)
    (hv : ∀ q p, ∀ k ∈ o.cuts q p, sat k z) (hlp : ∀ l, (∀ k ∈ l, sat k z) → (o.lp l).inf = false ∧ (o.lp l).obj ≤ f z)
    (h : ecpGen c o level rand x0 obj0 m = some (m', cs)) : (∀ k ∈ cs, sat k z) ∧ (m'.obj = m.obj ∨ ∃ v, m'.obj = some v ∧ v ≤ f z) := by
  unfold ecpGen at h
  split at h
  · have := Option.some.inj h
    rw [← (Prod.mk.inj this).1, ← (Prod.mk.inj this).2]
    exact ⟨by simp, Or.inl rfl⟩
  · split at h
    · simp at h
    · rename_i orig _
      split at h
      · have := Option.some.inj h
        rw [← (Prod.mk.inj this).1, ← (Prod.mk.inj this).2]
        exact ⟨by simp, Or.inl rfl⟩
      · obtain ⟨t, ht, he⟩ := Option.map_eq_some_iff.1 h
        obtain ⟨k, _, hend⟩ := ecp_exact c o x0 orig t ht
        rw [← (Prod.mk.inj he).1, ← (Prod.mk.inj he).2]
        have hI : t.inst = (ecpIter c o x0 k).2 := by cases hend <;> first | assumption | exact EcpInv.inst ‹_›
        have hval : ∀ u ∈ t.inst, sat u z := by rw [hI]; exact iter_valid c o x0 (fun u => sat u z) hv k
        obtain ⟨l1, l2⟩ := hlp t.inst hval
        have hnf : t.inf = false := by
          cases hend with
          | small h _ => exact h.inf
          | last _ _ _ hf => exact hf
          | infeasible _ _ _ _ hl => rw [l1] at hl; simp at hl
          | none h _ => exact h.inf
        refine ⟨?_, ?_⟩
        · intro u hu
          have : u ∈ t.inst ++ ecpCutsAt c o x0 k := by
            cases hend with
            | small h _ => rw [h.cs] at hu; exact List.mem_append_left _ hu
            | last _ hc => rw [hc] at hu; exact hu
            | infeasible _ hc => rw [hc] at hu; exact List.mem_append_left _ hu
            | none h _ => rw [h.cs] at hu; exact List.mem_append_left _ hu
          rcases List.mem_append.1 this with h | h
          · exact hval u h
          · exact hv _ _ u h
        · unfold ecpObj
          rw [hnf]
          simp only [Bool.false_eq_true, if_false]
          cases t.man with
          | none => exact Or.inl rfl
          | some a =>
            right
            simp only [l1, Bool.false_eq_true, if_false]
            exact ⟨_, rfl, l2⟩

/-- **C59**: the value recorded: that of the LP with all installed cuts if at least one LP was solved, `dmax` if that LP is infeasible; without an LP the old value stays. -/
theorem ecp_value {P κ : Type} (c : EcpCfg) (o : EcpO P κ) (x0 : P) (orig : ℚ) (k : Nat) (t : EcpSt P κ) (m : EcpMem) (h : EcpEnd c o x0 orig k t) (hk : c.rounds = 0 → k = 0) :
    ecpObj c o m t = if k = 0 ∧ t.inf = false then m.obj else if (o.lp (ecpIter c o x0 k).2).inf then some c.dmax else some (o.lp (ecpIter c o x0 k).2).obj := by
  unfold ecpObj
  cases h with
  | small h _ =>
    rw [h.inf, h.man, ← h.inst]
    by_cases h0 : k = 0 <;> simp [h0]
  | last hi hc hm hf =>
    rw [hf, hm, ← hi]
    by_cases h0 : k = 0 <;> simp [h0]
  | infeasible hi hc hm hf hl =>
    rw [hf, ← hi, hl]; simp
  | none h hr =>
    rw [h.inf, h.man]
    simp [hk hr]

/-- **C59**: cuts are skipped exactly when the factor is nonnegative and `beta / 2^level` does not exceed the random number. -/
theorem ecp_skip_iff (c : EcpCfg) (level : Nat) (rand : ℚ) : ecpSkip c level rand = true ↔ 0 ≤ c.beta ∧ c.beta ≤ rand * 2 ^ level := by
  unfold ecpSkip
  rw [decide_eq_true_iff]
  have h2 : (0 : ℚ) < 2 ^ level := by positivity
  have : (1 / 2 : ℚ) ^ level * c.beta ≤ rand ↔ c.beta ≤ rand * 2 ^ level := by
    rw [div_pow, one_pow, div_mul_eq_mul_div, one_mul, div_le_iff₀ h2]
  rw [this]

/-- **C64** refuted for the returned values: a point with a small violation returns the values of an earlier call (or uninitialised ones), and so do skipped calls. -/
theorem ecp_stale {P κ : Type} (c : EcpCfg) (o : EcpO P κ) (level : Nat) (rand : ℚ) (x0 : P) (obj0 v : ℚ) (m : EcpMem) (hv : o.viol x0 obj0 = some v) (h : v ≤ c.absTol) :
    doEcp c o level rand x0 obj0 m = some (m, m.obj, m.viol) := by
  unfold doEcp ecpGen
  by_cases hs : ecpSkip { c with own := true } level rand = true
  · rw [if_pos hs]; rfl
  · rw [if_neg hs, hv]
    simp only
    rw [if_pos h]; rfl

/-- **C64**: with a single round the value is never recorded, although cuts are returned. -/
theorem ecp_one_round {P κ : Type} (c : EcpCfg) (o : EcpO P κ) (level : Nat) (rand : ℚ) (x0 : P) (obj0 : ℚ) (m m' : EcpMem) (cs : List κ) (hr : c.rounds ≤ 1)
    (h : ecpGen c o level rand x0 obj0 m = some (m', cs)) : m'.obj = m.obj := by
  unfold ecpGen at h
  split at h
  · rw [← (Prod.mk.inj (Option.some.inj h)).1]
  · split at h
    · simp at h
    · rename_i orig _
      split at h
      · rw [← (Prod.mk.inj (Option.some.inj h)).1]
      · obtain ⟨t, ht, he⟩ := Option.map_eq_some_iff.1 h
        have : t.man = none ∧ t.inf = false := by
          match hc : c.rounds, hr with
          | 0, _ => rw [hc] at ht; rw [← Option.some.inj ht]; exact ⟨rfl, rfl⟩
          | 1, _ =>
            rw [hc] at ht
            unfold ecpLoop at ht
            split at ht
            · simp only at ht
              rw [if_neg (by simp)] at ht
              rw [← Option.some.inj ht]; exact ⟨rfl, rfl⟩
            · rw [← Option.some.inj ht]; exact ⟨rfl, rfl⟩
        rw [← (Prod.mk.inj he).1]
        unfold ecpObj
        rw [this.1, this.2]; rfl

/-- **C64** refuted for `doEcpRounds` with assertions: as soon as a second round is to be made, the assertion `lp_ == NULL` fails. -/
theorem ecp_own_aborts {P κ : Type} (c : EcpCfg) (o : EcpO P κ) (level : Nat) (rand : ℚ) (x0 : P) (obj0 v : ℚ) (m : EcpMem) (hd : c.dbg = true) (hs : ecpSkip c level rand = false)
    (hv : o.viol x0 obj0 = some v) (h1 : c.absTol < v) (h2 : c.relTol * v < v) (hr : 2 ≤ c.rounds) (hc : o.cuts (if c.only then some x0 else none) x0 ≠ []) :
    doEcp c o level rand x0 obj0 m = none := by
  unfold doEcp ecpGen
  have hs' : ecpSkip { c with own := true } level rand = false := hs
  rw [hs', hv]
  simp only [Bool.false_eq_true, if_false]
  rw [if_neg (not_le.2 h1)]
  obtain ⟨r, hr'⟩ : ∃ r, c.rounds = r + 1 + 1 := ⟨c.rounds - 2, by omega⟩
  rw [hr']
  unfold ecpLoop
  simp only
  rw [if_pos ⟨h1, h2⟩]
  have hnew : o.cuts (toCut { c with own := true } x0 (⟨v, [], [], none, false⟩ : EcpSt P κ)) (curPt x0 (⟨v, [], [], none, false⟩ : EcpSt P κ)) ≠ [] := by
    unfold toCut curPt
    simpa using hc
  rw [if_pos ⟨hnew, by omega⟩]
  unfold ecpInstall
  rw [if_pos (by simp [hd])]
  rfl

/-! ## A concrete case: `x² ≤ 4` seen as `x ≤ u` with tangents, objective `-x`, `x ≤ 10` -/

/-- Cuts are numbers `p`, standing for the tangent `2 p x ≤ 4 + p²`. -/
def exE : EcpO ℚ ℚ :=
  { viol := fun p _ => some (max 0 (p * p - 4)), cuts := fun _ p => [p], lp := fun l => let u := l.foldl (fun u p => min u ((4 + p * p) / (2 * p))) 10; ⟨false, -u, u⟩ }

example : (ecpGen ⟨3, 1 / 10, 0, false, -1, false, true, 10 ^ 300⟩ exE 0 0 10 (-10) ⟨none, none⟩) =
    some (⟨some (-(194 / 65)), some (max 0 ((194 / 65) * (194 / 65) - 4))⟩, [10, 26 / 5, 194 / 65]) := by decide +kernel

example : ecpGen ⟨1, 1 / 10, 0, false, -1, false, true, 10 ^ 300⟩ exE 0 0 10 (-10) ⟨none, none⟩ = some (⟨none, some 96⟩, [10]) := by decide +kernel

example : doEcp ⟨3, 1 / 10, 0, false, -1, false, true, 10 ^ 300⟩ exE 0 0 10 (-10) ⟨none, none⟩ = none := by decide +kernel

/-- **C59**: installing cuts fails exactly when assertions are on, an LP is assigned and none has been created yet, or the violation at the new LP solution cannot be computed; it stops exactly at an infeasible LP. -/
theorem ecp_install_iff {P κ : Type} (c : EcpCfg) (o : EcpO P κ) (s : EcpSt P κ) (new : List κ) (b : Bool) (t : EcpSt P κ) :
    ecpInstall c o s new = some (b, t) ↔ ¬ (s.man = none ∧ c.own = true ∧ c.dbg = true) ∧ t.cs = s.cs ++ new ∧ t.inst = s.inst ++ new ∧ t.man = some (o.lp (s.inst ++ new)) ∧
      (b = true ∧ (o.lp (s.inst ++ new)).inf = true ∧ t.inf = true ∧ t.viol = s.viol ∨
       b = false ∧ (o.lp (s.inst ++ new)).inf = false ∧ t.inf = s.inf ∧ o.viol (o.lp (s.inst ++ new)).pt (o.lp (s.inst ++ new)).obj = some t.viol) := by
  obtain ⟨tv, tc, ti, tm, tf⟩ := t
  unfold ecpInstall
  by_cases h : s.man = none ∧ c.own = true ∧ c.dbg = true
  · rw [if_pos (by simp [h])]; simp [h]
  · have h' : ¬ ((s.man.isNone && c.own && c.dbg) = true) := by
      simp only [Bool.and_eq_true, Option.isNone_iff_eq_none]; tauto
    rw [if_neg h']
    dsimp only
    cases hi : (o.lp (s.inst ++ new)).inf
    · simp only [Bool.false_eq_true, if_false, h, not_false_iff, true_and, false_and, and_false, false_or]
      cases hv : o.viol (o.lp (s.inst ++ new)).pt (o.lp (s.inst ++ new)).obj with
      | none => simp
      | some v => simp [eq_comm]; tauto
    · simp only [if_true, h, not_false_iff, true_and]
      simp [eq_comm]; tauto

end Verif.Dec

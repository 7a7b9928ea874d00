import Verif.Branch.SetupProps
import Mathlib.Algebra.Order.Field.Rat
import Mathlib.Algebra.Order.Field.Basic
import Mathlib.Algebra.Order.BigOperators.Group.List
import Mathlib.Tactic.Positivity
import Mathlib.Tactic.FieldSimp
import Mathlib.Tactic.Ring

/-!
# Pseudo-costs
`src/Algorithms/Branching/BonChooseVariable.cpp`.  The arrays belong to `OsiPseudoCosts` (Osi); `initialize(n)` allocates `n` zero
entries for each of them.
-/
namespace Verif.Branch

/-- `upTotalChange_[i]`, `upNumber_[i]` (or the ones for down). -/
structure Side where
  total : ℚ
  num : Nat
deriving DecidableEq

/-- The four arrays of `OsiPseudoCosts`. -/
structure PC where
  up : List Side
  down : List Side
deriving DecidableEq

/-- `OsiPseudoCosts::initialize`. -/
def PC.init (n : Nat) : PC := ⟨List.replicate n ⟨0, 0⟩, List.replicate n ⟨0, 0⟩⟩

/-- `trustStrongForPseudoCosts_` and whether `cbc_model_` is set. -/
structure PCfg where
  trustStrong : Bool
  haveModel : Bool
deriving DecidableEq

/-- One call that may change the pseudo-costs. -/
inductive Upd where
  /-- `updateInformation(info, branch, hotInfo)`: status and change of the probed side, estimates of the object, cutoff and objective of `info`. -/
  | strong (i : Nat) (up : Bool) (status : Int) (change upEst downEst cutoff obj : ℚ)
  /-- `updateInformation(index, branch, changeInObjective, changeInValue, status)`, with cutoff and objective of Cbc's model. -/
  | node (i : Nat) (up : Bool) (dobj dval : ℚ) (status : Int) (cutoff obj : ℚ)
  /-- `setupList` with this number of objects. -/
  | setup (n : Nat)
deriving DecidableEq

/-- "infeasible - just say expensive" (1003-1010, 1018-1025, 1055-1062, 1072-1079). -/
def expensive (cutoff obj : ℚ) : ℚ := if cutoff < 10 ^ 50 then 2 * (cutoff - obj) else 2 * |obj|

/-- Adding one observation to entry `i`; an index outside the array is undefined behaviour (or a failed assert, 986, 1036). -/
def bump (l : List Side) (i : Nat) (v : ℚ) : Option (List Side) :=
  match l[i]? with
  | none => none
  | some s => some (l.set i ⟨s.total + v, s.num + 1⟩)

/-- Adding an observation to one side. -/
def PC.add (p : PC) (i : Nat) (up : Bool) (v : ℚ) : Option PC :=
  if up then (bump p.up i v).map fun l => { p with up := l } else (bump p.down i v).map fun l => { p with down := l }

/-- `updateInformation` after strong branching (980-1027), after a branch (1030-1083), and the reallocation in `setupList` (330-340). -/
def PC.step (c : PCfg) (p : PC) : Upd → Option PC
  | .strong i up status change upEst downEst cutoff obj =>
    if !c.trustStrong then some p
    else if p.up.length ≤ i then none
    else if ¬ (0 < upEst ∧ 0 < downEst) then none
    else
      let est := if up then upEst else downEst
      if status = 0 then p.add i up (change / est)
      else if status = 1 then p.add i up (expensive cutoff obj / est)
      else some p
  | .node i up dobj dval status cutoff obj =>
    if !c.haveModel then some p
    else if p.up.length ≤ i then none
    else if |dval| < 1 / 10 ^ 6 then some p
    else if status ≠ 1 then (if status < 0 then none else p.add i up (dobj / dval))
    else p.add i up (expensive cutoff obj / dval)
  | .setup n => some (if p.up.length < n then PC.init n else p)

/-- A history of calls. -/
def PC.run (c : PCfg) : PC → List Upd → Option PC
  | p, [] => some p
  | p, u :: us => (p.step c u).bind fun q => PC.run c q us

/-- One side's cost in `computeUsefulness` (239-248). -/
def estSide (s : Side) (est mult : ℚ) : ℚ :=
  if s.num = 0 then est * mult else est * (s.total + 1 / 10 ^ 30) / s.num

/-- The combination used everywhere: `MAXMIN*min + (1-MAXMIN)*max` (250-251, 649, 735, 936). -/
def combine (crit a b : ℚ) : ℚ := crit * min a b + (1 - crit) * max a b

/-- `computeUsefulness`, the value returned (230-269, `OLD_USEFULLNESS`). -/
def usefulness (crit : ℚ) (u d : Side) (upEst downEst upMult downMult : ℚ) : ℚ :=
  combine crit (estSide u upEst upMult) (estSide d downEst downMult)

/-- `computeMultipliers`, one side (203-228). -/
def multiplier (l : List Side) : ℚ := (1 + (l.map Side.total).sum) / (1 + ((l.map Side.num).sum : ℚ))

/-- The estimate of a trusted candidate in `chooseVariable` (646-647); division by zero (NaN) is `none`. -/
def trustedEst (s : Side) (est : ℚ) : Option ℚ := if s.num = 0 then none else some (s.total * est / s.num)

/-! ## Specification -/

/-- The change of objective an infeasible branch is counted with: twice the gap to the incumbent, or twice the size of the objective if there is none. -/
def infCost (cutoff obj : ℚ) : ℚ := if 10 ^ 50 ≤ cutoff then 2 * |obj| else 2 * (cutoff - obj)

theorem expensive_eq (cutoff obj : ℚ) : expensive cutoff obj = infCost cutoff obj := by
  unfold expensive infCost
  by_cases h : cutoff < 10 ^ 50
  · rw [if_pos h, if_neg (not_le.2 h)]
  · rw [if_neg h, if_pos (not_lt.1 h)]

/-- The observation a call makes: object, side, change per unit. -/
def observed (c : PCfg) : Upd → Option (Nat × Bool × ℚ)
  | .strong i up status change upEst downEst cutoff obj =>
    if c.trustStrong ∧ (status = 0 ∨ status = 1) then
      some (i, up, (if status = 1 then infCost cutoff obj else change) / (if up then upEst else downEst))
    else none
  | .node i up dobj dval status cutoff obj =>
    if c.haveModel ∧ 1 / 10 ^ 6 ≤ |dval| then some (i, up, (if status = 1 then infCost cutoff obj else dobj) / dval) else none
  | .setup _ => none

/-- The observations about one side of one object, oldest first. -/
def observations (c : PCfg) (h : List Upd) (i : Nat) (up : Bool) : List ℚ :=
  h.filterMap fun u => (observed c u).bind fun o => if o.1 = i ∧ o.2.1 = up then some o.2.2 else none

/-- The record kept for a side. -/
def PC.side (p : PC) (i : Nat) (up : Bool) : Option Side := if up then p.up[i]? else p.down[i]?

/-! ## Properties -/

theorem bump_spec {l l' : List Side} {i : Nat} {v : ℚ} (h : bump l i v = some l') :
    l'.length = l.length ∧ ∀ j, l'[j]? = (l[j]?).map fun s => if j = i then ⟨s.total + v, s.num + 1⟩ else s := by
  unfold bump at h
  split at h
  · simp at h
  · rename_i s hs
    rw [← Option.some.inj h]
    refine ⟨by simp, fun j => ?_⟩
    by_cases hj : j = i
    · subst hj
      rw [List.getElem?_set_self (List.getElem?_eq_some_iff.mp hs).1, hs]
      simp
    · rw [List.getElem?_set_ne (Ne.symm hj)]
      cases l[j]? <;> simp [hj]

theorem add_spec {p q : PC} {i : Nat} {up : Bool} {v : ℚ} (h : p.add i up v = some q) :
    q.up.length = p.up.length ∧ q.down.length = p.down.length ∧
    ∀ j b, q.side j b = (p.side j b).map fun s => if j = i ∧ b = up then ⟨s.total + v, s.num + 1⟩ else s := by
  have hid : ∀ o : Option Side, o = o.map fun s => s := by intro o; cases o <;> rfl
  unfold PC.add at h
  cases up with
  | true =>
    simp only [if_true] at h
    obtain ⟨l, hl, rfl⟩ := Option.map_eq_some_iff.mp h
    obtain ⟨h1, h2⟩ := bump_spec hl
    refine ⟨h1, rfl, fun j b => ?_⟩
    cases b
    · simp only [PC.side, Bool.false_eq_true, if_false, and_false]; exact hid _
    · simp only [PC.side, if_true, and_true]; exact h2 j
  | false =>
    simp only [Bool.false_eq_true, if_false] at h
    obtain ⟨l, hl, rfl⟩ := Option.map_eq_some_iff.mp h
    obtain ⟨h1, h2⟩ := bump_spec hl
    refine ⟨rfl, h1, fun j b => ?_⟩
    cases b
    · simp only [PC.side, Bool.false_eq_true, if_false, and_true]; exact h2 j
    · simp only [PC.side, if_true, Bool.true_eq_false, and_false, if_false]; exact hid _

/-- **C30** (undefined calls): the calls that stop at an assert or leave the arrays, exactly. -/
theorem step_none_iff (c : PCfg) (p : PC) (h : p.down.length = p.up.length) :
    (∀ i up status change upEst downEst cutoff obj, p.step c (.strong i up status change upEst downEst cutoff obj) = none ↔
      c.trustStrong = true ∧ (p.up.length ≤ i ∨ upEst ≤ 0 ∨ downEst ≤ 0)) ∧
    (∀ i up dobj dval status cutoff obj, p.step c (.node i up dobj dval status cutoff obj) = none ↔
      c.haveModel = true ∧ (p.up.length ≤ i ∨ (status < 0 ∧ 1 / 10 ^ 6 ≤ |dval|))) ∧
    ∀ n, p.step c (.setup n) ≠ none := by
  have hadd : ∀ i up v, i < p.up.length → p.add i up v ≠ none := by
    intro i up v hi
    unfold PC.add bump
    cases up
    · have hi' : i < p.down.length := by omega
      simp [List.getElem?_eq_getElem hi']
    · simp [List.getElem?_eq_getElem hi]
  refine ⟨?_, ?_, by simp [PC.step]⟩
  · intro i up status change upEst downEst cutoff obj
    simp only [PC.step]
    cases c.trustStrong
    · simp
    · simp only [Bool.not_true, Bool.false_eq_true, if_false, true_and]
      by_cases hi : p.up.length ≤ i
      · simp [hi]
      · rw [if_neg hi]
        by_cases he : 0 < upEst ∧ 0 < downEst
        · rw [if_neg (not_not.mpr he)]
          constructor
          · intro hn
            exfalso
            split at hn <;> first | exact hadd _ _ _ (by omega) hn | skip
            split at hn <;> first | exact hadd _ _ _ (by omega) hn | simp at hn
          · rintro (h1 | h1 | h1)
            · exact absurd h1 hi
            · exact absurd he.1 (not_lt.mpr h1)
            · exact absurd he.2 (not_lt.mpr h1)
        · rw [if_pos he]
          simp only [true_iff]
          by_cases h1 : 0 < upEst
          · exact Or.inr (Or.inr (not_lt.mp fun h2 => he ⟨h1, h2⟩))
          · exact Or.inr (Or.inl (not_lt.mp h1))
  · intro i up dobj dval status cutoff obj
    simp only [PC.step]
    cases c.haveModel
    · simp
    · simp only [Bool.not_true, Bool.false_eq_true, if_false, true_and]
      by_cases hi : p.up.length ≤ i
      · simp [hi]
      · rw [if_neg hi]
        by_cases hv : |dval| < 1 / 10 ^ 6
        · rw [if_pos hv]
          simp only [reduceCtorEq, false_iff, not_or, not_and, not_le]
          exact ⟨by omega, fun _ => hv⟩
        · rw [if_neg hv]
          by_cases hs : status ≠ 1
          · rw [if_pos hs]
            by_cases h0 : status < 0
            · rw [if_pos h0]; simp only [true_iff]; exact Or.inr ⟨h0, not_lt.mp hv⟩
            · rw [if_neg h0]
              constructor
              · intro hn; exact absurd hn (hadd _ _ _ (by omega))
              · rintro (h1 | h1)
                · exact absurd h1 hi
                · exact absurd h1.1 h0
          · rw [if_neg hs]
            constructor
            · intro hn; exact absurd hn (hadd _ _ _ (by omega))
            · rintro (h1 | h1)
              · exact absurd h1 hi
              · omega

/-- One call that is not a reallocation: exactly the observation is added. -/
theorem step_spec {c : PCfg} {p q : PC} {u : Upd} (h : p.step c u = some q) (hs : ∀ n, u = .setup n → n ≤ p.up.length) :
    q.up.length = p.up.length ∧ q.down.length = p.down.length ∧
    ∀ j b, q.side j b = (p.side j b).map fun s =>
      match observed c u with
      | none => s
      | some o => if j = o.1 ∧ b = o.2.1 then ⟨s.total + o.2.2, s.num + 1⟩ else s := by
  have hid : ∀ o : Option Side, o = o.map fun s => s := by intro o; cases o <;> rfl
  have same : ∀ {q : PC}, p = q → observed c u = none → q.up.length = p.up.length ∧ q.down.length = p.down.length ∧
    ∀ j b, q.side j b = (p.side j b).map fun s =>
      match observed c u with
      | none => s
      | some o => if j = o.1 ∧ b = o.2.1 then ⟨s.total + o.2.2, s.num + 1⟩ else s := by
    rintro q rfl ho
    rw [ho]
    exact ⟨rfl, rfl, fun j b => hid _⟩
  cases u with
  | strong i up status change upEst downEst cutoff obj =>
    unfold PC.step at h; dsimp only at h
    by_cases h1 : c.trustStrong = true
    · rw [h1] at h
      simp only [Bool.not_true, Bool.false_eq_true, if_false] at h
      split at h
      · simp at h
      split at h
      · simp at h
      by_cases h0 : status = 0
      · rw [if_pos h0] at h
        have ho : observed c (.strong i up status change upEst downEst cutoff obj) = some (i, up, change / (if up then upEst else downEst)) := by
          simp [observed, h1, h0]
        rw [ho]; exact add_spec h
      rw [if_neg h0] at h
      by_cases h2 : status = 1
      · rw [if_pos h2] at h
        have ho : observed c (.strong i up status change upEst downEst cutoff obj) =
            some (i, up, expensive cutoff obj / (if up then upEst else downEst)) := by
          simp [observed, h1, h2, expensive_eq]
        rw [ho]; exact add_spec h
      · rw [if_neg h2] at h
        exact same (Option.some.inj h) (by simp [observed, h0, h2])
    · simp only [Bool.not_eq_true] at h1
      rw [h1] at h
      simp only [Bool.not_false, if_true] at h
      exact same (Option.some.inj h) (by simp [observed, h1])
  | node i up dobj dval status cutoff obj =>
    unfold PC.step at h; dsimp only at h
    by_cases h1 : c.haveModel = true
    · rw [h1] at h
      simp only [Bool.not_true, Bool.false_eq_true, if_false] at h
      split at h
      · simp at h
      by_cases hd : |dval| < 1 / 10 ^ 6
      · rw [if_pos hd] at h
        refine same (Option.some.inj h) ?_
        unfold observed; dsimp only
        rw [if_neg]
        rintro ⟨_, h3⟩
        exact absurd hd (not_lt.mpr h3)
      · rw [if_neg hd] at h
        by_cases h2 : status = 1
        · rw [if_neg (not_not.mpr h2)] at h
          have ho : observed c (.node i up dobj dval status cutoff obj) = some (i, up, expensive cutoff obj / dval) := by
            unfold observed; dsimp only
            rw [if_pos ⟨h1, not_lt.mp hd⟩, if_pos h2, expensive_eq]
          rw [ho]; exact add_spec h
        · rw [if_pos h2] at h
          split at h
          · simp at h
          have ho : observed c (.node i up dobj dval status cutoff obj) = some (i, up, dobj / dval) := by
            unfold observed; dsimp only
            rw [if_pos ⟨h1, not_lt.mp hd⟩, if_neg h2]
          rw [ho]; exact add_spec h
    · simp only [Bool.not_eq_true] at h1
      rw [h1] at h
      simp only [Bool.not_false, if_true] at h
      exact same (Option.some.inj h) (by simp [observed, h1])
  | setup n =>
    unfold PC.step at h; dsimp only at h
    rw [if_neg (by have := hs n rfl; omega)] at h
    exact same (Option.some.inj h) rfl

/-- **C30** (bookkeeping; what holds).  After any history of calls in which the number of objects does not grow, the record of each side
of each object is the sum and the number of its observations since the start: nothing else is recorded and nothing is lost.
(Missing: a growing number of objects, see `pseudo_reset`.) -/
theorem pseudo_history_partial (c : PCfg) (n : Nat) (h : List Upd) (hs : ∀ u ∈ h, ∀ m, u = .setup m → m ≤ n) (q : PC)
    (hq : (PC.init n).run c h = some q) (i : Nat) (hi : i < n) (up : Bool) :
    q.side i up = some ⟨(observations c h i up).sum, (observations c h i up).length⟩ := by
  have gen : ∀ (h : List Upd) (p q : PC) (t : ℚ) (k : Nat), p.up.length = n → (∀ u ∈ h, ∀ m, u = .setup m → m ≤ n) →
      p.run c h = some q → p.side i up = some ⟨t, k⟩ →
      q.side i up = some ⟨t + (observations c h i up).sum, k + (observations c h i up).length⟩ := by
    intro h
    induction h with
    | nil =>
      intro p q t k _ _ hr hp
      simp only [PC.run, Option.some.injEq] at hr
      subst hr
      simpa [observations] using hp
    | cons u us ih =>
      intro p q t k hl hs hr hp
      obtain ⟨r, hr1, hr2⟩ := Option.bind_eq_some_iff.mp hr
      obtain ⟨h1, h2, h3⟩ := step_spec hr1 (by intro m hm; rw [hl]; exact hs u (by simp) m hm)
      have h4 := h3 i up
      rw [hp, Option.map_some] at h4
      have hs' : ∀ u ∈ us, ∀ m, u = .setup m → m ≤ n := fun u hu => hs u (List.mem_cons_of_mem _ hu)
      cases ho : observed c u with
      | none =>
        rw [ho] at h4
        rw [ih r q t k (by rw [h1, hl]) hs' hr2 h4]
        simp [observations, ho]
      | some o =>
        rw [ho] at h4
        dsimp only at h4
        by_cases hio : i = o.1 ∧ up = o.2.1
        · rw [if_pos hio] at h4
          rw [ih r q _ _ (by rw [h1, hl]) hs' hr2 h4]
          have : observations c (u :: us) i up = o.2.2 :: observations c us i up := by
            simp [observations, ho, hio.1.symm, hio.2.symm]
          rw [this, List.sum_cons, List.length_cons]
          congr 2
          · ring
          · omega
        · rw [if_neg hio] at h4
          rw [ih r q t k (by rw [h1, hl]) hs' hr2 h4]
          have : observations c (u :: us) i up = observations c us i up := by
            have hio' : ¬ (o.1 = i ∧ o.2.1 = up) := fun e => hio ⟨e.1.symm, e.2.symm⟩
            simp [observations, ho, hio']
          rw [this]
  have h0 : (PC.init n).side i up = some ⟨0, 0⟩ := by
    cases up <;> simp [PC.side, PC.init, hi]
  have := gen h (PC.init n) q 0 0 (by simp [PC.init]) hs hq h0
  simpa using this

/-- **C30** (the average used).  The estimate of a trusted candidate is its distance times the mean of the observations; the score used for
the order of the list is the same up to `1e-30` added to the sum. -/
theorem pseudo_average (xs : List ℚ) (hx : xs ≠ []) (est mult : ℚ) :
    trustedEst ⟨xs.sum, xs.length⟩ est = some (est * (xs.sum / xs.length)) ∧
    estSide ⟨xs.sum, xs.length⟩ est mult = est * (xs.sum / xs.length) + est / (10 ^ 30 * xs.length) := by
  have hl : xs.length ≠ 0 := fun e => hx (List.length_eq_zero_iff.mp e)
  have hq : (xs.length : ℚ) ≠ 0 := by exact_mod_cast hl
  constructor
  · simp only [trustedEst, if_neg hl]
    congr 1; field_simp
  · simp only [estSide, if_neg hl]
    field_simp

/-- **C30** (no observation yet): the score is the distance times (1 + sum of everything recorded on that side)/(1 + number of observations). -/
theorem pseudo_unknown (l : List Side) (est : ℚ) (t : ℚ) :
    estSide ⟨t, 0⟩ est (multiplier l) = est * ((1 + (l.map Side.total).sum) / (1 + ((l.map Side.num).sum : ℚ))) := by
  simp [estSide, multiplier]

/-- **C30** (counts never decrease, small moves are ignored), for every call that is not a reallocation. -/
theorem pseudo_monotone (c : PCfg) (p q : PC) (u : Upd) (h : p.step c u = some q) (hs : ∀ n, u = .setup n → n ≤ p.up.length) :
    (∀ i up s, p.side i up = some s → ∃ s', q.side i up = some s' ∧ s.num ≤ s'.num) ∧
    (∀ i up dobj dval st cu ob, u = .node i up dobj dval st cu ob → |dval| < 1 / 10 ^ 6 → q = p) := by
  constructor
  · intro i up s hp
    obtain ⟨_, _, h3⟩ := step_spec h hs
    have := h3 i up
    rw [hp, Option.map_some] at this
    refine ⟨_, this, ?_⟩
    split
    · exact le_refl _
    · split
      · simp
      · exact le_refl _
  · rintro i up dobj dval st cu ob rfl hd
    unfold PC.step at h; dsimp only at h
    split at h
    · exact (Option.some.inj h).symm
    · split at h
      · simp at h
      · first
        | exact (Option.some.inj h).symm
        | (rw [if_pos hd] at h; exact (Option.some.inj h).symm)

example : ((PC.init 2).run ⟨true, true⟩ [.node 0 true 3 (1/2) 0 0 0, .node 0 true 1 (1/4) 0 0 0, .node 0 true 5 (1/10^7) 0 0 0,
    .strong 1 false 1 0 1 (1/2) 7 5, .node 0 false 1 1 1 (10^60) (-3), .setup 2]) =
    some ⟨[⟨10, 2⟩, ⟨0, 0⟩], [⟨6, 1⟩, ⟨8, 1⟩]⟩ := by decide +kernel

/-- **C30** refuted when the number of objects grows (SOS objects added later): all records are lost, whatever the history. -/
theorem pseudo_reset (c : PCfg) (p : PC) (n : Nat) (h : p.up.length < n) : p.step c (.setup n) = some (PC.init n) := by
  simp [PC.step, h]

/-- The score of a candidate lies between its two one-sided estimates. -/
theorem combine_between (crit a b : ℚ) (h0 : 0 ≤ crit) (h1 : crit ≤ 1) : min a b ≤ combine crit a b ∧ combine crit a b ≤ max a b := by
  unfold combine
  have hab : min a b ≤ max a b := le_trans (min_le_left _ _) (le_max_left _ _)
  constructor <;> nlinarith

/-- When every observation is nonnegative, as for a convex problem solved to optimality with a valid cutoff, every candidate's
usefulness is positive: this is the condition of `setupList_partial`. -/
theorem usefulness_pos (crit : ℚ) (h0 : 0 ≤ crit) (h1 : crit ≤ 1) (p : PC) (hu : ∀ s ∈ p.up, 0 ≤ s.total) (hd : ∀ s ∈ p.down, 0 ≤ s.total)
    (u d : Side) (hum : u ∈ p.up) (hdm : d ∈ p.down) (upEst downEst : ℚ) (he : 0 < upEst) (he' : 0 < downEst) :
    0 < usefulness crit u d upEst downEst (multiplier p.up) (multiplier p.down) := by
  have hmul : ∀ l : List Side, (∀ s ∈ l, 0 ≤ s.total) → 0 < multiplier l := by
    intro l hl
    unfold multiplier
    have h2 : 0 ≤ (l.map Side.total).sum := by
      apply List.sum_nonneg
      intro x hx
      obtain ⟨s, hs, rfl⟩ := List.mem_map.mp hx
      exact hl s hs
    have h3 : (0 : ℚ) ≤ ((l.map Side.num).sum : ℚ) := by exact_mod_cast Nat.zero_le _
    exact div_pos (by linarith) (by linarith)
  have hside : ∀ (s : Side) (est mult : ℚ), 0 ≤ s.total → 0 < est → 0 < mult → 0 < estSide s est mult := by
    intro s est mult hs hest hmult
    unfold estSide
    split
    · exact mul_pos hest hmult
    · rename_i hn
      have : (0 : ℚ) < s.num := by exact_mod_cast Nat.pos_of_ne_zero hn
      positivity
  exact lt_of_lt_of_le (lt_min (hside u upEst _ (hu u hum) he (hmul _ hu)) (hside d downEst _ (hd d hdm) he' (hmul _ hd)))
    (combine_between crit _ _ h0 h1).1

/-- Observations can be negative (the objective of a nonconvex relaxation may improve after branching): then the usefulness is negative. -/
theorem usefulness_negative : ∃ q, ((PC.init 1).run ⟨true, true⟩ [.node 0 true (-1) 1 0 0 0, .node 0 false (-1) 1 0 0 0]) = some q ∧
    q = ⟨[⟨-1, 1⟩], [⟨-1, 1⟩]⟩ ∧ usefulness (7/10) ⟨-1, 1⟩ ⟨-1, 1⟩ (1/2) (1/2) (multiplier q.up) (multiplier q.down) < 0 := by
  refine ⟨⟨[⟨-1, 1⟩], [⟨-1, 1⟩]⟩, by decide +kernel, rfl, by decide +kernel⟩

end Verif.Branch

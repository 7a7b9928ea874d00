import Verif.Nway.Object
import Verif.Nway.List
import Mathlib.Algebra.BigOperators.Group.List.Basic
import Mathlib.Algebra.Order.BigOperators.Group.List
/-! # C133–C134: pseudo-costs and usefulness of n-way objects

experimental/RobotBonmin/BonNWayChoose.cpp: `compute_usefulness` 141-191, rows set up at the root 210-217, rows recorded by `doStrongBranching` 510, 516-542, 554-575.

`none` stands for a failed assertion or an access out of range.  `root c m` is the `m`-th root of `c` as computed by `pow`; it is arbitrary. -/
namespace Verif.Nway

/-- `bounds_`, `unit_changes_` and `num_ps_costs_`: one row per n-way object. -/
structure Rows where
  bounds : List (List ℚ)
  changes : List (List ℚ)
  nums : List (List ℕ)
deriving DecidableEq

/-- Rows at the root (210-217) for `n` objects: `num_ps_costs_` is resized, not cleared. -/
def Rows.setup (R : Rows) (n : ℕ) (cutoff : ℚ) : Rows :=
  ⟨List.replicate n (List.replicate n cutoff), List.replicate n (List.replicate n 0), R.nums.take n ++ List.replicate (n - R.nums.length) (List.replicate n 0)⟩

/-- Change per unit found by a branch (532, 544). -/
def unitChange (val obj residual : ℚ) : ℚ := (val - obj) / residual

/-- Recording at the root (558-561); `none` in `us`: member not branched on, `-DBL_MAX` (510). -/
def recordRoot (huge : ℚ) (us : List (Option ℚ)) (nums : List ℕ) : Option (List ℚ × List ℕ) :=
  if us.length ≤ nums.length then some (us.map (·.getD (-huge)), List.replicate us.length 1 ++ nums.drop us.length) else none

/-- Recording below the root (566-574) of one change. -/
def recordOne (geo : Bool) (u : Option ℚ) (c : ℚ) (m : ℕ) : ℚ × ℕ :=
  match u with
  | none => (c, m)
  | some u => if 0 < u then (if geo then c * u else c + u, m + 1) else (c, m)

/-- Recording below the root (566-574). -/
def recordTree (geo : Bool) : List (Option ℚ) → List ℚ → List ℕ → Option (List ℚ × List ℕ)
  | [], cs, ms => some (cs, ms)
  | u :: us, c :: cs, m :: ms => (recordTree geo us cs ms).map fun r => ((recordOne geo u c m).1 :: r.1, (recordOne geo u c m).2 :: r.2)
  | _ :: _, _, _ => none

/-- The mean of a member (153, 156). -/
def mean (geo : Bool) (root : ℚ → ℕ → ℚ) (c : ℚ) (m : ℕ) : ℚ := if m ≠ 0 then (if geo then root c m else c / m) else c

/-- The means (151-157). -/
def means (geo : Bool) (root : ℚ → ℕ → ℚ) : List ℚ → List ℕ → Option (List ℚ)
  | [], _ => some []
  | c :: cs, m :: ms => (means geo root cs ms).map (mean geo root c m :: ·)
  | _ :: _, [] => none

/-- Score of a member (183-184). -/
def score (cut obj : ℚ) (s : Info) (c : ℕ) (u b : ℚ) : ℚ := min (cut - obj) (max ((s.box.up c - s.sol c) * u) (b - obj))

/-- The loop (176-189) from member `i` on; `cut` is the cutoff times its multiplier (173). -/
def usefulLoop (geo : Bool) (cut obj : ℚ) (s : Info) (bs us : List ℚ) : List ℕ → ℕ → ℚ → Option ℚ
  | [], _, r => some r
  | c :: cs, i, r =>
    if |s.box.lo c - s.box.up c| < s.tol then usefulLoop geo cut obj s bs us cs (i + 1) r
    else if s.box.lo c < s.box.up c then
      (us[i]?).bind fun u => (bs[i]?).bind fun b => usefulLoop geo cut obj s bs us cs (i + 1) (if geo then r * score cut obj s c u b else r + score cut obj s c u b)
    else none

/-- `compute_usefulness` (164-191). -/
def usefulOf (geo : Bool) (mult obj : ℚ) (s : Info) (members : List ℕ) (bs us : List ℚ) : Option ℚ :=
  usefulLoop geo (s.cutoff * mult) obj s bs us members 0 (if geo then 1 else 0)

/-- `compute_usefulness` (141-162) of object number `i` after the first n-way object. -/
def usefulness (geo : Bool) (root : ℚ → ℕ → ℚ) (mult obj : ℚ) (s : Info) (R : Rows) (i : ℕ) (members : List ℕ) : Option ℚ :=
  (R.changes[i]?).bind fun cs => (R.nums[i]?).bind fun ms => (means geo root cs ms).bind fun us => (R.bounds[i]?).bind fun bs => usefulOf geo mult obj s members bs us

/-! ## Specification -/

/-- Records about one member: at the root, below it. -/
inductive Rec
  | atRoot (u : Option ℚ)
  | below (u : Option ℚ)

/-- Changes to be averaged; those that are not positive do not count below the root. -/
def hist : List Rec → List ℚ
  | [] => []
  | .atRoot (some u) :: rs => u :: hist rs
  | .atRoot none :: rs => hist rs
  | .below (some u) :: rs => if 0 < u then u :: hist rs else hist rs
  | .below none :: rs => hist rs

/-- What the rows hold for one member after records. -/
def runRec (geo : Bool) (huge : ℚ) : List Rec → ℚ × ℕ → ℚ × ℕ
  | [], p => p
  | .atRoot u :: rs, _ => runRec geo huge rs (u.getD (-huge), 1)
  | .below u :: rs, p => runRec geo huge rs (recordOne geo u p.1 p.2)

/-- Members that are not fixed, with their numbers from `i` on. -/
def freeMembers (s : Info) : List ℕ → ℕ → List (ℕ × ℕ)
  | [], _ => []
  | c :: cs, i => if |s.box.lo c - s.box.up c| < s.tol then freeMembers s cs (i + 1) else (c, i) :: freeMembers s cs (i + 1)

/-! ## Lemmas -/

theorem usefulLoop_spec (geo : Bool) (cut obj : ℚ) (s : Info) (bs us : List ℚ) : ∀ (cs : List ℕ) (i : ℕ) (r : ℚ),
    (∀ p ∈ freeMembers s cs i, s.box.lo p.1 < s.box.up p.1) → i + cs.length ≤ bs.length → i + cs.length ≤ us.length →
    usefulLoop geo cut obj s bs us cs i r = some (if geo then r * ((freeMembers s cs i).map fun p => score cut obj s p.1 (us.getD p.2 0) (bs.getD p.2 0)).prod
      else r + ((freeMembers s cs i).map fun p => score cut obj s p.1 (us.getD p.2 0) (bs.getD p.2 0)).sum)
  | [], i, r, _, _, _ => by simp [usefulLoop, freeMembers]
  | c :: cs, i, r, h, hb, hu => by
    rw [usefulLoop]
    unfold freeMembers at h ⊢
    simp only [List.length_cons] at hb hu
    by_cases h1 : |s.box.lo c - s.box.up c| < s.tol
    · simp only [h1, if_true] at h ⊢
      exact usefulLoop_spec geo cut obj s bs us cs (i + 1) r h (by omega) (by omega)
    · simp only [h1, if_false] at h ⊢
      rw [if_pos (h (c, i) (by simp)), List.getElem?_eq_getElem (by omega : i < us.length), Option.bind_some, List.getElem?_eq_getElem (by omega : i < bs.length), Option.bind_some,
        usefulLoop_spec geo cut obj s bs us cs (i + 1) _ (fun p hp => h p (by simp [hp])) (by omega) (by omega)]
      have e1 : us.getD i 0 = us[i] := by simp [List.getD, List.getElem?_eq_getElem (by omega : i < us.length)]
      have e2 : bs.getD i 0 = bs[i] := by simp [List.getD, List.getElem?_eq_getElem (by omega : i < bs.length)]
      cases geo
      · simp only [Bool.false_eq_true, if_false, List.map_cons, List.sum_cons, e1, e2, add_assoc]
      · simp only [if_true, List.map_cons, List.prod_cons, e1, e2, mul_assoc]

theorem freeMembers_mem (s : Info) : ∀ (cs : List ℕ) (i c j : ℕ), (c, j) ∈ freeMembers s cs i ↔ i ≤ j ∧ cs[j - i]? = some c ∧ s.tol ≤ |s.box.lo c - s.box.up c|
  | [], i, c, j => by simp [freeMembers]
  | d :: cs, i, c, j => by
    have ih := freeMembers_mem s cs (i + 1) c j
    have key : (i ≤ j ∧ (d :: cs)[j - i]? = some c) ↔ (c = d ∧ j = i) ∨ (i + 1 ≤ j ∧ cs[j - (i + 1)]? = some c) := by
      constructor
      · rintro ⟨h1, h2⟩
        rcases Nat.eq_or_lt_of_le h1 with rfl | h1
        · simp at h2; exact Or.inl ⟨h2.symm, rfl⟩
        · have e : j - i = (j - (i + 1)) + 1 := by omega
          rw [e, List.getElem?_cons_succ] at h2; exact Or.inr ⟨h1, h2⟩
      · rintro (⟨rfl, rfl⟩ | ⟨h1, h2⟩)
        · simp
        · have e : j - i = (j - (i + 1)) + 1 := by omega
          exact ⟨by omega, by rw [e, List.getElem?_cons_succ]; exact h2⟩
    rw [← and_assoc, key, or_and_right]
    unfold freeMembers
    by_cases h1 : |s.box.lo d - s.box.up d| < s.tol
    · rw [if_pos h1, ih, ← and_assoc]
      constructor
      · exact Or.inr
      · rintro (⟨⟨rfl, rfl⟩, h⟩ | h)
        · exact absurd h1 (not_lt.2 h)
        · exact h
    · rw [if_neg h1, List.mem_cons, ih, ← and_assoc (c := s.tol ≤ _)]
      apply or_congr _ Iff.rfl
      simp only [Prod.mk.injEq]
      constructor
      · rintro ⟨rfl, rfl⟩; exact ⟨⟨rfl, rfl⟩, not_lt.1 h1⟩
      · exact And.left

theorem sum_nonneg' : ∀ (l : List ℚ), (∀ a ∈ l, 0 ≤ a) → 0 ≤ l.sum
  | [], _ => by simp
  | a :: l, h => by rw [List.sum_cons]; exact add_nonneg (h a (by simp)) (sum_nonneg' l fun b hb => h b (by simp [hb]))

theorem prod_nonneg' : ∀ (l : List ℚ), (∀ a ∈ l, 0 ≤ a) → 0 ≤ l.prod
  | [], _ => by simp
  | a :: l, h => by rw [List.prod_cons]; exact mul_nonneg (h a (by simp)) (prod_nonneg' l fun b hb => h b (by simp [hb]))

theorem sum_mono' {α : Type} (f g : α → ℚ) : ∀ (l : List α), (∀ a ∈ l, f a ≤ g a) → (l.map f).sum ≤ (l.map g).sum
  | [], _ => by simp
  | a :: l, h => by
    rw [List.map_cons, List.map_cons, List.sum_cons, List.sum_cons]
    exact add_le_add (h a (by simp)) (sum_mono' f g l fun b hb => h b (by simp [hb]))

theorem prod_mono' {α : Type} (f g : α → ℚ) : ∀ (l : List α), (∀ a ∈ l, 0 ≤ f a ∧ f a ≤ g a) → (l.map f).prod ≤ (l.map g).prod
  | [], _ => by simp
  | a :: l, h => by
    rw [List.map_cons, List.map_cons, List.prod_cons, List.prod_cons]
    obtain ⟨h1, h2⟩ := h a (by simp)
    refine mul_le_mul h2 (prod_mono' f g l fun b hb => h b (by simp [hb])) (prod_nonneg' _ ?_) (le_trans h1 h2)
    intro b hb
    obtain ⟨c, hc, rfl⟩ := List.mem_map.1 hb
    exact (h c (by simp [hc])).1

theorem score_nonneg (cut obj : ℚ) (s : Info) (c : ℕ) (u b : ℚ) (hc : obj ≤ cut) (hs : s.sol c ≤ s.box.up c) (hu : 0 ≤ u) : 0 ≤ score cut obj s c u b :=
  le_min (by linarith) (le_max_of_le_left (mul_nonneg (by linarith) hu))

theorem score_mono (cut obj : ℚ) (s : Info) (c : ℕ) (u b u' b' : ℚ) (hs : s.sol c ≤ s.box.up c) (hu : u ≤ u') (hb : b ≤ b') : score cut obj s c u b ≤ score cut obj s c u' b' :=
  min_le_min (le_refl _) (max_le_max (mul_le_mul_of_nonneg_left hu (by linarith)) (by linarith))

/-! ## Properties -/

/-- **C133.** The usefulness is the sum (the product with geometric means) over the members that are not fixed of the estimated change: the greater of pseudo-cost times the distance to the upper bound and the
recorded bound less the objective, but at most the multiplied cutoff less the objective. -/
theorem useful_exact (geo : Bool) (mult obj : ℚ) (s : Info) (members : List ℕ) (bs us : List ℚ) (hb : members.length ≤ bs.length) (hu : members.length ≤ us.length)
    (hbox : ∀ c ∈ members, s.tol ≤ |s.box.lo c - s.box.up c| → s.box.lo c < s.box.up c) :
    usefulOf geo mult obj s members bs us = some (if geo then ((freeMembers s members 0).map fun p => min (s.cutoff * mult - obj) (max ((s.box.up p.1 - s.sol p.1) * us.getD p.2 0) (bs.getD p.2 0 - obj))).prod
      else ((freeMembers s members 0).map fun p => min (s.cutoff * mult - obj) (max ((s.box.up p.1 - s.sol p.1) * us.getD p.2 0) (bs.getD p.2 0 - obj))).sum) := by
  unfold usefulOf
  rw [usefulLoop_spec geo (s.cutoff * mult) obj s bs us members 0 _ ?_ (by omega) (by omega)]
  · cases geo
    · simp only [Bool.false_eq_true, if_false, zero_add]; rfl
    · simp only [if_true, one_mul]; rfl
  · rintro ⟨c, j⟩ hp
    obtain ⟨-, h1, h2⟩ := (freeMembers_mem s members 0 c j).1 hp
    exact hbox c (List.mem_of_getElem? h1) h2

/-- **C133 (partial).** The usefulness is not negative, and it does not fall if pseudo-costs or recorded bounds rise, for nodes below the multiplied cutoff.  Missing: negative cutoffs. -/
theorem useful_mono_partial (geo : Bool) (mult obj : ℚ) (s : Info) (members : List ℕ) (bs us bs' us' : List ℚ) (hb : members.length ≤ bs.length) (hu : members.length ≤ us.length)
    (hb' : members.length ≤ bs'.length) (hu' : members.length ≤ us'.length) (hbox : ∀ c ∈ members, s.tol ≤ |s.box.lo c - s.box.up c| → s.box.lo c < s.box.up c)
    (hsol : ∀ c ∈ members, s.sol c ≤ s.box.up c) (hcut : obj ≤ s.cutoff) (hmult : 1 ≤ mult) (hcut0 : 0 ≤ s.cutoff) (hpos : ∀ j, 0 ≤ us.getD j 0)
    (hle : ∀ j, us.getD j 0 ≤ us'.getD j 0 ∧ bs.getD j 0 ≤ bs'.getD j 0) :
    ∃ r r', usefulOf geo mult obj s members bs us = some r ∧ usefulOf geo mult obj s members bs' us' = some r' ∧ 0 ≤ r ∧ r ≤ r' := by
  have hc : obj ≤ s.cutoff * mult := le_trans hcut (le_mul_of_one_le_right hcut0 hmult)
  have hin : ∀ p ∈ freeMembers s members 0, s.sol p.1 ≤ s.box.up p.1 := by
    rintro ⟨c, j⟩ hp
    obtain ⟨-, h1, -⟩ := (freeMembers_mem s members 0 c j).1 hp
    exact hsol c (List.mem_of_getElem? h1)
  have h0 : ∀ p ∈ freeMembers s members 0, 0 ≤ score (s.cutoff * mult) obj s p.1 (us.getD p.2 0) (bs.getD p.2 0) := fun p hp => score_nonneg _ _ s p.1 _ _ hc (hin p hp) (hpos p.2)
  have h1 : ∀ p ∈ freeMembers s members 0, score (s.cutoff * mult) obj s p.1 (us.getD p.2 0) (bs.getD p.2 0) ≤ score (s.cutoff * mult) obj s p.1 (us'.getD p.2 0) (bs'.getD p.2 0) :=
    fun p hp => score_mono _ _ s p.1 _ _ _ _ (hin p hp) (hle p.2).1 (hle p.2).2
  refine ⟨_, _, useful_exact geo mult obj s members bs us hb hu hbox, useful_exact geo mult obj s members bs' us' hb' hu' hbox, ?_, ?_⟩
  · cases geo
    · refine sum_nonneg' _ fun a ha => ?_
      obtain ⟨p, hp, rfl⟩ := List.mem_map.1 ha
      exact h0 p hp
    · refine prod_nonneg' _ fun a ha => ?_
      obtain ⟨p, hp, rfl⟩ := List.mem_map.1 ha
      exact h0 p hp
  · cases geo
    · exact sum_mono' _ _ _ h1
    · exact prod_mono' _ _ _ fun p hp => ⟨h0 p hp, h1 p hp⟩

/-- A node with the members 0 and 1 free and 2 fixed. -/
example : usefulOf false 3 4 ⟨⟨fun _ => 0, fun c => if c = 2 then 0 else 1⟩, fun c => if c = 2 then 0 else 1 / 2, 1 / 100, 5, 1⟩ [0, 1, 2] [5, 9, 0] [4, 4, 4] = some 7 := by
  norm_num [usefulOf, usefulLoop, score]

/-- **C133 (refuted).** With a negative cutoff every node with an objective above the multiplied cutoff — that is, any interesting node — gives a negative usefulness for every object with a free member, whatever the
pseudo-costs; so only one object is offered (`one_candidate`). -/
theorem negative_cutoff (mult obj : ℚ) (s : Info) (members : List ℕ) (bs us : List ℚ) (hb : members.length ≤ bs.length) (hu : members.length ≤ us.length)
    (hbox : ∀ c ∈ members, s.tol ≤ |s.box.lo c - s.box.up c| → s.box.lo c < s.box.up c) (hcut : s.cutoff * mult < obj) (hfree : ∃ c ∈ members, s.tol ≤ |s.box.lo c - s.box.up c|) :
    ∃ r, usefulOf false mult obj s members bs us = some r ∧ r < 0 := by
  refine ⟨_, useful_exact false mult obj s members bs us hb hu hbox, ?_⟩
  simp only [Bool.false_eq_true, if_false]
  have hneg : ∀ (l : List (ℕ × ℕ)), l ≠ [] → (l.map fun p => min (s.cutoff * mult - obj) (max ((s.box.up p.1 - s.sol p.1) * us.getD p.2 0) (bs.getD p.2 0 - obj))).sum < 0 := by
    intro l
    induction l with
    | nil => intro h; exact absurd rfl h
    | cons p l ih =>
      intro _
      rw [List.map_cons, List.sum_cons]
      have h1 : min (s.cutoff * mult - obj) (max ((s.box.up p.1 - s.sol p.1) * us.getD p.2 0) (bs.getD p.2 0 - obj)) < 0 := lt_of_le_of_lt (min_le_left _ _) (by linarith)
      by_cases hl : l = []
      · subst hl; simpa using h1
      · linarith [ih hl]
  apply hneg
  obtain ⟨c, hc, hc'⟩ := hfree
  obtain ⟨j, hj⟩ := List.mem_iff_getElem?.1 hc
  have : (c, j) ∈ freeMembers s members 0 := (freeMembers_mem s members 0 c j).2 ⟨Nat.zero_le _, by simpa using hj, hc'⟩
  intro h
  rw [h] at this
  simp at this

/-- A node with objective -6, cutoff -5 and multiplier 3. -/
example : ∃ r, usefulOf false 3 (-6) ⟨⟨fun _ => 0, fun _ => 1⟩, fun _ => 1 / 2, 1 / 100, -5, 1⟩ [0, 1] [-5, -4] [100, 7] = some r ∧ r < 0 :=
  negative_cutoff _ _ _ _ _ _ (by simp) (by simp) (by intro c _ _; norm_num) (by norm_num) ⟨0, by simp, by norm_num⟩

/-- **C134 (part).** Records of a row act on each member by itself. -/
theorem recordTree_entry (geo : Bool) : ∀ (us : List (Option ℚ)) (cs : List ℚ) (ms : List ℕ) (cs' : List ℚ) (ms' : List ℕ), recordTree geo us cs ms = some (cs', ms') →
    cs'.length = cs.length ∧ ms'.length = ms.length ∧ ∀ (k : ℕ) u c m, us[k]? = some u → cs[k]? = some c → ms[k]? = some m →
      cs'[k]? = some (recordOne geo u c m).1 ∧ ms'[k]? = some (recordOne geo u c m).2
  | [], cs, ms, cs', ms', h => by
    simp only [recordTree, Option.some.injEq, Prod.mk.injEq] at h
    obtain ⟨rfl, rfl⟩ := h
    simp
  | u :: us, [], ms, cs', ms', h => by simp [recordTree] at h
  | u :: us, c :: cs, [], cs', ms', h => by simp [recordTree] at h
  | u :: us, c :: cs, m :: ms, cs', ms', h => by
    rw [recordTree] at h
    cases hr : recordTree geo us cs ms with
    | none => simp [hr] at h
    | some r =>
      obtain ⟨rc, rm⟩ := r
      simp only [hr, Option.map_some, Option.some.injEq, Prod.mk.injEq] at h
      obtain ⟨rfl, rfl⟩ := h
      obtain ⟨h1, h2, h3⟩ := recordTree_entry geo us cs ms rc rm hr
      refine ⟨by simp [h1], by simp [h2], ?_⟩
      intro k u' c' m' e1 e2 e3
      cases k with
      | zero =>
        simp only [List.getElem?_cons_zero, Option.some.injEq] at e1 e2 e3
        subst e1; subst e2; subst e3
        simp
      | succ k => simpa using h3 k u' c' m' (by simpa using e1) (by simpa using e2) (by simpa using e3)

/-- **C134 (part).** What the root records. -/
theorem recordRoot_entry (huge : ℚ) (us : List (Option ℚ)) (ms : List ℕ) : (us.length ≤ ms.length → ∃ cs' ms', recordRoot huge us ms = some (cs', ms') ∧ cs'.length = us.length ∧ ms'.length = ms.length ∧
      ∀ (k : ℕ) u, us[k]? = some u → cs'[k]? = some (u.getD (-huge)) ∧ ms'[k]? = some 1) ∧ (ms.length < us.length → recordRoot huge us ms = none) := by
  constructor
  · intro h
    refine ⟨_, _, by unfold recordRoot; rw [if_pos h], by simp, by simp; omega, ?_⟩
    intro k u hk
    have hlt := (List.getElem?_eq_some_iff.1 hk).1
    refine ⟨by simp [hk], ?_⟩
    rw [List.getElem?_append_left (by simpa using hlt), List.getElem?_replicate, if_pos hlt]
  · intro h; unfold recordRoot; rw [if_neg (by omega)]

theorem runRec_below (geo : Bool) (huge : ℚ) : ∀ (rs : List Rec) (p : ℚ × ℕ), (∀ r ∈ rs, ∃ u, r = .below u) →
    runRec geo huge rs p = (if geo then p.1 * (hist rs).prod else p.1 + (hist rs).sum, p.2 + (hist rs).length)
  | [], p, _ => by cases geo <;> simp [runRec, hist]
  | .atRoot u :: rs, p, h => by obtain ⟨u', hu'⟩ := h (.atRoot u) (by simp); simp at hu'
  | .below none :: rs, p, h => by
    rw [runRec, runRec_below geo huge rs _ fun r hr => h r (by simp [hr])]
    simp [recordOne, hist]
  | .below (some u) :: rs, p, h => by
    rw [runRec, runRec_below geo huge rs _ fun r hr => h r (by simp [hr])]
    by_cases hu : 0 < u
    · simp only [recordOne, hu, if_true, hist]
      cases geo
      · simp only [Bool.false_eq_true, if_false, List.sum_cons, List.length_cons, Prod.mk.injEq]; exact ⟨by ring, by omega⟩
      · simp only [if_true, List.prod_cons, List.length_cons, Prod.mk.injEq]; exact ⟨by ring, by omega⟩
    · simp [recordOne, hist, hu]

/-- **C134 (partial).** After an evaluation at the root that branched on the member and any evaluations below it, the pseudo-cost is the mean of the changes found — the sum over the number, or the root of the product.
Missing: objects that were not evaluated at the root (geometric means) and members that were not branched on there. -/
theorem mean_partial (geo : Bool) (root : ℚ → ℕ → ℚ) (huge u0 : ℚ) (rs : List Rec) (hrs : ∀ r ∈ rs, ∃ u, r = .below u) (p : ℚ × ℕ) :
    let q := runRec geo huge (.atRoot (some u0) :: rs) p
    mean geo root q.1 q.2 = if geo then root (u0 :: hist rs).prod (u0 :: hist rs).length else (u0 :: hist rs).sum / (u0 :: hist rs).length := by
  intro q
  have hq : q = (if geo then u0 * (hist rs).prod else u0 + (hist rs).sum, 1 + (hist rs).length) := by
    show runRec geo huge (.atRoot (some u0) :: rs) p = _
    rw [runRec, runRec_below geo huge rs _ hrs]
    simp
  rw [hq]
  unfold mean
  simp only
  rw [if_pos (by omega)]
  cases geo
  · simp only [Bool.false_eq_true, if_false, List.sum_cons, List.length_cons]; push_cast; rw [add_comm (1 : ℚ)]
  · simp only [if_true, List.prod_cons, List.length_cons, Nat.add_comm]

/-- **C134 (part).** With arithmetic means, also objects not evaluated at the root get the mean of the changes found. -/
theorem mean_unevaluated (root : ℚ → ℕ → ℚ) (huge : ℚ) (rs : List Rec) (hrs : ∀ r ∈ rs, ∃ u, r = .below u) :
    let q := runRec false huge rs (0, 0)
    mean false root q.1 q.2 = if hist rs = [] then 0 else (hist rs).sum / (hist rs).length := by
  intro q
  have hq : q = ((hist rs).sum, (hist rs).length) := by
    show runRec false huge rs (0, 0) = _
    rw [runRec_below false huge rs _ hrs]; simp
  rw [hq]
  unfold mean
  by_cases h : hist rs = []
  · simp [h]
  · rw [if_neg h]
    have : (hist rs).length ≠ 0 := by simpa using h
    simp [this]

/-- **C134 (refuted).** With geometric means, the default, an object that was not evaluated at the root never gets a pseudo-cost: the product starts from 0. -/
theorem geometric_zero (huge : ℚ) (rs : List Rec) (hrs : ∀ r ∈ rs, ∃ u, r = .below u) : (runRec true huge rs (0, 0)).1 = 0 := by
  rw [runRec_below true huge rs _ hrs]; simp

example : runRec true 1000 [.below (some 4), .below (some 9)] (0, 0) = (0, 2) ∧ hist [.below (some 4), .below (some 9)] = [4, 9] := by norm_num [runRec, recordOne, hist]

/-- The root of order 2 of 36 is taken of two records, one at the root. -/
example : runRec true 1000 [.atRoot (some 4), .below (some (-2)), .below none, .below (some 9)] (7, 3) = (36, 2) := by norm_num [runRec, recordOne]

/-- **C134 (refuted).** A member that was not branched on at the root counts as one evaluation with the change `-DBL_MAX`; changes found later do not bring the mean back. -/
theorem unbranched_root (huge u : ℚ) (hu : 0 < u) (hh : u < huge) (root : ℚ → ℕ → ℚ) : let q := runRec false huge [.atRoot none, .below (some u)] (0, 0)
    hist [.atRoot none, .below (some u)] = [u] ∧ mean false root q.1 q.2 = (u - huge) / 2 ∧ mean false root q.1 q.2 < 0 := by
  have h : mean false root (runRec false huge [.atRoot none, .below (some u)] (0, 0)).1 (runRec false huge [.atRoot none, .below (some u)] (0, 0)).2 = (u - huge) / 2 := by
    simp only [runRec, recordOne, hu, if_true, Option.getD_none, mean]
    norm_num; ring
  refine ⟨by simp [hist, hu], h, ?_⟩
  rw [h]; linarith

/-- **C134 (partial).** Rows set up at the root for a fresh rule are those of `n` objects without any evaluation.  Missing: a rule used for a second search. -/
theorem fresh_partial (R : Rows) (n : ℕ) (cutoff : ℚ) (h : R.nums = []) : R.setup n cutoff = ⟨List.replicate n (List.replicate n cutoff), List.replicate n (List.replicate n 0), List.replicate n (List.replicate n 0)⟩ := by
  simp [Rows.setup, h]

/-- What the counts are at a second root: the old ones as far as there are any. -/
theorem setup_counts (R : Rows) (n : ℕ) (cutoff : ℚ) : (R.setup n cutoff).nums.length = n ∧ (∀ (i : ℕ) row, i < n → R.nums[i]? = some row → (R.setup n cutoff).nums[i]? = some row) ∧
    ∀ i : ℕ, R.nums.length ≤ i → i < n → (R.setup n cutoff).nums[i]? = some (List.replicate n 0) := by
  refine ⟨by simp [Rows.setup]; omega, ?_, ?_⟩
  · intro i row hi hrow
    have hlt := (List.getElem?_eq_some_iff.1 hrow).1
    simp only [Rows.setup]
    rw [List.getElem?_append_left (by simp; omega), List.getElem?_take, if_pos hi, hrow]
  · intro i hi hn
    simp only [Rows.setup]
    rw [List.getElem?_append_right (by simp; omega), List.getElem?_replicate, if_pos (by simp; omega)]

/-- **C134 (refuted).** A rule used for a second search keeps the counts of the first: here one change of 6 is recorded, below the root, and the pseudo-cost is 2. -/
theorem second_search : ∃ (R : Rows) (cs : List ℚ) (ms : List ℕ), let S := R.setup 1 10
    S.changes = [[0]] ∧ S.nums = [[2]] ∧ recordTree false [some 6] [0] [2] = some (cs, ms) ∧ means false (fun c _ => c) cs ms = some [2] :=
  ⟨⟨[[3]], [[8]], [[2]]⟩, [6], [3], by norm_num [Rows.setup, recordTree, recordOne, means, mean]⟩

/-- **C134 (refuted).** If the second problem has more n-way objects than the first, the old rows of counts are too short: the usefulness of an old object is an access out of range. -/
theorem second_search_larger (R : Rows) (n : ℕ) (cutoff : ℚ) (i : ℕ) (row : List ℕ) (hi : i < n) (hrow : R.nums[i]? = some row) (hs : row.length < n) (geo : Bool) (root : ℚ → ℕ → ℚ) (mult obj : ℚ) (s : Info) (members : List ℕ) :
    usefulness geo root mult obj s (R.setup n cutoff) i members = none := by
  have h1 : (R.setup n cutoff).changes[i]? = some (List.replicate n 0) := by simp [Rows.setup, hi]
  have h2 := (setup_counts R n cutoff).2.1 i row hi hrow
  have h3 : ∀ (cs : List ℚ) (ms : List ℕ), ms.length < cs.length → means geo root cs ms = none := by
    intro cs
    induction cs with
    | nil => intro ms h; simp at h
    | cons c cs ih =>
      intro ms h
      cases ms with
      | nil => rfl
      | cons m ms => rw [means, ih ms (by simpa using h)]; rfl
  unfold usefulness
  rw [h1, Option.bind_some, h2, Option.bind_some, h3 _ _ (by simpa using hs)]
  rfl

example : usefulness true (fun c _ => c) 3 1 ⟨⟨fun _ => 0, fun _ => 1⟩, fun _ => 1 / 2, 1 / 100, 5, 1⟩ ((⟨[[3]], [[8]], [[2]]⟩ : Rows).setup 2 5) 0 [0, 1] = none :=
  second_search_larger _ 2 5 0 [2] (by decide) rfl (by decide) _ _ _ _ _ _

/-- The usefulness of an object from its rows: the sum of the estimated changes with the pseudo-costs that are means. -/
theorem usefulness_rows (geo : Bool) (root : ℚ → ℕ → ℚ) (mult obj : ℚ) (s : Info) (R : Rows) (i : ℕ) (members : List ℕ) (cs bs : List ℚ) (ms : List ℕ) (h1 : R.changes[i]? = some cs) (h2 : R.nums[i]? = some ms)
    (h3 : R.bounds[i]? = some bs) (hl : cs.length = ms.length) : usefulness geo root mult obj s R i members = usefulOf geo mult obj s members bs (List.zipWith (mean geo root) cs ms) := by
  have h4 : ∀ (cs : List ℚ) (ms : List ℕ), cs.length = ms.length → means geo root cs ms = some (List.zipWith (mean geo root) cs ms) := by
    intro cs
    induction cs with
    | nil => intro ms _; simp [means]
    | cons c cs ih =>
      intro ms h
      cases ms with
      | nil => simp at h
      | cons m ms => rw [means, ih ms (by simpa using h)]; simp
  unfold usefulness
  rw [h1, Option.bind_some, h2, Option.bind_some, h4 cs ms hl, Option.bind_some, h3, Option.bind_some]

example : usefulness false (fun c _ => c) 3 4 ⟨⟨fun _ => 0, fun _ => 1⟩, fun _ => 1 / 2, 1 / 100, 5, 1⟩ ⟨[[5, 5]], [[8, 6]], [[2, 1]]⟩ 0 [0, 1] = some 5 := by
  norm_num [usefulness, means, mean, usefulOf, usefulLoop, score]

/-- **C134 (part).** The change recorded is the increase of the value per unit: times the distance it was found with it gives the increase back, and it is
positive exactly if the value rose. -/
theorem unit_change_recovers (val obj residual : ℚ) (h : 0 < residual) :
    obj + residual * unitChange val obj residual = val ∧ (0 < unitChange val obj residual ↔ obj < val) := by
  unfold unitChange
  constructor
  · rw [mul_div_cancel₀ _ h.ne']; ring
  · constructor
    · intro hp
      by_contra hn
      have := mul_pos h hp
      rw [mul_div_cancel₀ _ h.ne'] at this
      linarith
    · intro hv
      exact div_pos (by linarith) h

/-- A branch that moves a member by 1/2 and raises the value from 3 to 4. -/
example : unitChange 4 3 (1 / 2) = 2 := by norm_num [unitChange]

/-- **C133** A member whose bounds cross by at least the tolerance makes the assertion on its bounds fail, wherever it stands. -/
theorem crossed_bounds (geo : Bool) (mult obj : ℚ) (s : Info) (members : List ℕ) (bs us : List ℚ) (c : ℕ) (hc : c ∈ members) (h1 : s.tol ≤ |s.box.lo c - s.box.up c|) (h2 : s.box.up c ≤ s.box.lo c) :
    usefulOf geo mult obj s members bs us = none := by
  have key : ∀ (cs : List ℕ) (i : ℕ) (r : ℚ), c ∈ cs → usefulLoop geo (s.cutoff * mult) obj s bs us cs i r = none := by
    intro cs
    induction cs with
    | nil => intro i r h; cases h
    | cons d cs ih =>
      intro i r h
      rw [usefulLoop]
      by_cases hd : d = c
      · subst hd
        rw [if_neg (not_lt.2 h1), if_neg (not_lt.2 h2)]
      · have hm : c ∈ cs := by
          rcases List.mem_cons.1 h with h | h
          · exact absurd h.symm hd
          · exact h
        split
        · exact ih _ _ hm
        · split
          · cases us[i]? with
            | none => rfl
            | some u => cases bs[i]? with
              | none => rfl
              | some b => exact ih _ _ hm
          · rfl
  exact key members 0 _ hc

end Verif.Nway

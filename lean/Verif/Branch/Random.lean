import Verif.Branch.SetupProps

/-!
# C28: random branching
`src/Algorithms/Branching/BonRandomChoice.{cpp,hpp}`
-/
namespace Verif.Branch

/-- The loop of `BonRandomChoice::setupList` (BonRandomChoice.cpp:33-54): `best` is `bestPriority` and `acc` the first
`numberUnsatisfied_` entries of `list_`.  `bestPriority` is assigned (48) before the test for equality (49), which therefore always holds.
The list never overflows `list_`, since an index is added at most once. -/
def rndScan (huge : ℚ) : List Cand → Nat → Int → List Nat → List Nat
  | [], _, _, acc => acc
  | o :: os, i, best, acc =>
    if 0 < o.infeas then
      if o.infeas = huge then acc
      else rndScan huge os (i + 1) o.prio ((if o.prio < best then [] else acc) ++ [i])
    else rndScan huge os (i + 1) best acc

/-- `BonRandomChoice::setupList` (BonRandomChoice.cpp:13-56); without objects the assert at line 27 fails. -/
def rndSetup (huge : ℚ) (objs : List Cand) : Option (List Nat) :=
  if objs.length = 0 then none else some (rndScan huge objs 0 intMax [])

/-- What `BonRandomChoice::chooseVariable` does (BonRandomChoice.hpp:52-66): `done` is return code 1. -/
inductive Pick where
  | done | chosen (i : Nat)
deriving DecidableEq

/-- `BonRandomChoice::chooseVariable` with the random number `d` (BonRandomChoice.hpp:52-66); `none`: an entry beyond the filled part
of `list_` (index -1, or outside the array) is used. -/
def rndChoose (d : ℚ) (l : List Nat) : Option Pick :=
  if l.length = 0 then some .done
  else
    let k := ⌊d * (l.length : ℚ)⌋
    if k < 0 then none else (l[k.toNat]?).map .chosen

/-! ## Properties -/

theorem rndScan_run (huge : ℚ) (objs : List Cand) (hfe : ∀ o ∈ objs, o.infeas ≠ huge) (hp : ∀ o ∈ objs, o.prio ≤ intMax) :
    ∀ (os : List Cand) (i : Nat) (best : Int) (acc pre : List Nat), objs.drop i = os → i ≤ objs.length → upTo objs i = pre ++ acc →
      acc.Pairwise (fun a b => (obj objs a).prio ≤ (obj objs b).prio) → (∀ a ∈ acc.getLast?, (obj objs a).prio = best) →
      (upTo objs i = [] → best = intMax) → (upTo objs i ≠ [] → acc ≠ []) →
      (∀ a ∈ pre.getLast?, ∀ b ∈ acc.head?, (obj objs b).prio < (obj objs a).prio) →
      ∃ pre' acc', rndScan huge os i best acc = acc' ∧ violated objs = pre' ++ acc' ∧ (violated objs ≠ [] → acc' ≠ []) ∧
        acc'.Pairwise (fun a b => (obj objs a).prio ≤ (obj objs b).prio) ∧
        (∀ a ∈ pre'.getLast?, ∀ b ∈ acc'.head?, (obj objs b).prio < (obj objs a).prio) := by
  intro os
  induction os with
  | nil =>
    intro i best acc pre hos hi hup hs hl h0 hne hd
    have : i = objs.length := by
      have := List.drop_eq_nil_iff.mp hos
      omega
    subst this
    exact ⟨pre, acc, rfl, hup, hne, hs, hd⟩
  | cons o os ih =>
    intro i best acc pre hos hi hup hs hl h0 hne hd
    have hil : i < objs.length := by
      by_contra hc
      rw [List.drop_eq_nil_iff.mpr (not_lt.mp hc)] at hos
      exact absurd hos (by simp)
    have h2 : objs.drop i = objs[i] :: objs.drop (i + 1) := List.drop_eq_getElem_cons hil
    rw [hos] at h2
    have ho : obj objs i = o := by
      unfold obj
      rw [List.getD_eq_getElem?_getD, List.getElem?_eq_getElem hil]
      exact ((List.cons.inj h2).1).symm
    have hos' : objs.drop (i + 1) = os := ((List.cons.inj h2).2).symm
    have hmem : o ∈ objs := by rw [← ho]; exact obj_mem hil
    have hups := upTo_succ objs i
    rw [ho] at hups
    unfold rndScan
    by_cases hv : 0 < o.infeas
    · rw [if_pos hv] at hups
      rw [if_pos hv, if_neg (hfe o hmem)]
      by_cases hlt : o.prio < best
      · rw [if_pos hlt, List.nil_append]
        refine ih (i + 1) o.prio [i] (pre ++ acc) hos' hil (by rw [hups, hup]) (by simp) ?_ ?_ (by simp) ?_
        · intro a ha; simp at ha; rw [← ha, ho]
        · rw [hups]; intro e; simp at e
        · intro a ha b hb
          simp at hb
          rw [← hb, ho]
          by_cases hacc : acc = []
          · exfalso
            have : upTo objs i = [] := by
              by_contra hc; exact hne hc hacc
            rw [hup] at this
            rw [this] at ha
            simp at ha
          · rw [List.getLast?_append_of_ne_nil _ hacc] at ha
            rw [hl a ha]
            exact hlt
      · rw [if_neg hlt]
        refine ih (i + 1) o.prio (acc ++ [i]) pre hos' hil (by rw [hups, hup, List.append_assoc]) ?_ ?_ ?_ (by simp) ?_
        · rw [List.pairwise_append]
          refine ⟨hs, by simp, ?_⟩
          intro a ha b hb
          rw [List.mem_singleton.mp hb, ho]
          refine le_trans ?_ (not_lt.mp hlt)
          obtain ⟨l, x, rfl⟩ := (List.eq_nil_or_concat acc).resolve_left (List.ne_nil_of_mem ha)
          rw [List.concat_eq_append] at *
          have hx := hl x (by simp)
          rw [← hx]
          rcases List.mem_append.mp ha with ha | ha
          · rw [List.pairwise_append] at hs
            exact hs.2.2 a ha x (by simp)
          · rw [List.mem_singleton.mp ha]
        · intro a ha; simp at ha; rw [← ha, ho]
        · rw [hups]; intro e; simp at e
        · intro a ha b hb
          by_cases hacc : acc = []
          · exfalso
            have : upTo objs i = [] := by
              by_contra hc; exact hne hc hacc
            rw [hup, hacc, List.append_nil] at this
            rw [this] at ha
            simp at ha
          · rw [List.head?_append_of_ne_nil _ hacc] at hb
            exact hd a ha b hb
    · rw [if_neg hv] at hups
      rw [if_neg hv]
      exact ih (i + 1) best acc pre hos' hil (by rw [hups, hup]) hs hl (by rw [hups]; exact h0) (by rw [hups]; exact hne) hd

/-- **C28**, exactly what the list is: the violated objects (in index order) from the last place on where the priority got better than that of
the violated object *just before*. -/
theorem random_list (huge : ℚ) (objs : List Cand) (h0 : objs ≠ []) (hfe : ∀ o ∈ objs, o.infeas ≠ huge) (hp : ∀ o ∈ objs, o.prio ≤ intMax) :
    ∃ pre l, rndSetup huge objs = some l ∧ violated objs = pre ++ l ∧ (violated objs ≠ [] → l ≠ []) ∧
      l.Pairwise (fun a b => (obj objs a).prio ≤ (obj objs b).prio) ∧
      (∀ a ∈ pre.getLast?, ∀ b ∈ l.head?, (obj objs b).prio < (obj objs a).prio) := by
  obtain ⟨pre, l, h1, h2⟩ := rndScan_run huge objs hfe hp objs 0 intMax [] [] rfl (Nat.zero_le _) (by simp [upTo]) (by simp) (by simp)
    (by simp) (by simp [upTo]) (by simp)
  refine ⟨pre, l, ?_, h2⟩
  unfold rndSetup
  rw [if_neg (fun e => h0 (List.length_eq_zero_iff.mp e)), h1]

/-- Without objects the program stops at an assert. -/
theorem random_no_objects (huge : ℚ) : rndSetup huge [] = none := rfl

/-- **C28** (the draw).  For every random number in `[0,1)` an entry of the list is chosen, and each entry by an interval of draws of equal
length; with an empty list code 1 is returned. -/
theorem random_choose (l : List Nat) (d : ℚ) (h0 : 0 ≤ d) (h1 : d < 1) :
    (l = [] → rndChoose d l = some .done) ∧
    (l ≠ [] → ∃ i ∈ l, rndChoose d l = some (.chosen i)) ∧
    ∀ (k : Nat) (i : Nat), l[k]? = some i → (k : ℚ) / l.length ≤ d → d < ((k : ℚ) + 1) / l.length → rndChoose d l = some (.chosen i) := by
  refine ⟨?_, ?_, ?_⟩
  · rintro rfl; rfl
  · intro hl
    have hpos : 0 < l.length := List.length_pos_of_ne_nil hl
    have hq : (0 : ℚ) < l.length := by exact_mod_cast hpos
    unfold rndChoose
    rw [if_neg (by omega)]
    dsimp only
    have hk0 : 0 ≤ ⌊d * (l.length : ℚ)⌋ := Int.floor_nonneg.mpr (mul_nonneg h0 hq.le)
    rw [if_neg (not_lt.mpr hk0)]
    have hlt : ⌊d * (l.length : ℚ)⌋ < (l.length : ℤ) := by
      rw [Int.floor_lt]
      push_cast
      nlinarith
    have hlt' : ⌊d * (l.length : ℚ)⌋.toNat < l.length := by omega
    exact ⟨l[⌊d * (l.length : ℚ)⌋.toNat], List.getElem_mem hlt', by rw [List.getElem?_eq_getElem hlt']; rfl⟩
  · intro k i hk ha hb
    have hpos : 0 < l.length := by
      have := (List.getElem?_eq_some_iff.mp hk).1
      omega
    have hq : (0 : ℚ) < l.length := by exact_mod_cast hpos
    unfold rndChoose
    rw [if_neg (by omega)]
    dsimp only
    have : ⌊d * (l.length : ℚ)⌋ = (k : ℤ) := by
      rw [Int.floor_eq_iff]
      rw [div_le_iff₀ hq] at ha
      rw [lt_div_iff₀ hq] at hb
      push_cast
      exact ⟨ha, hb⟩
    rw [this, if_neg (by omega), Int.toNat_natCast, hk]
    rfl

/-- **C28** (what holds): when the violated objects all have the same priority, the object chosen is violated and of best priority, and there
is one whenever some object is violated.  (Missing: different priorities, see `random_mixes_priorities` and `random_loses_best`.) -/
theorem random_partial (huge : ℚ) (objs : List Cand) (h0 : objs ≠ []) (hfe : ∀ o ∈ objs, o.infeas ≠ huge) (hp : ∀ o ∈ objs, o.prio ≤ intMax)
    (hsame : ∀ i ∈ violated objs, ∀ j ∈ violated objs, (obj objs i).prio = (obj objs j).prio) (d : ℚ) (hd0 : 0 ≤ d) (hd1 : d < 1) :
    rndSetup huge objs = some (violated objs) ∧
    (violated objs = [] → rndChoose d (violated objs) = some .done) ∧
    (violated objs ≠ [] → ∃ i, rndChoose d (violated objs) = some (.chosen i) ∧ IsBest objs i) := by
  obtain ⟨pre, l, h1, h2, h3, _, h5⟩ := random_list huge objs h0 hfe hp
  have hpre : pre = [] := by
    by_contra hne
    obtain ⟨p, x, rfl⟩ := (List.eq_nil_or_concat pre).resolve_left hne
    rw [List.concat_eq_append] at *
    have hv : violated objs ≠ [] := by rw [h2]; simp
    obtain ⟨b, l', rfl⟩ := List.exists_cons_of_ne_nil (h3 hv)
    have hlt := h5 x (by simp) b (by simp)
    have := hsame x (by rw [h2]; simp) b (by rw [h2]; simp)
    omega
  have hl : violated objs = l := by rw [h2, hpre, List.nil_append]
  obtain ⟨c1, c2, _⟩ := random_choose (violated objs) d hd0 hd1
  refine ⟨by rw [h1, hl], c1, ?_⟩
  intro hv
  obtain ⟨i, hi, hc⟩ := c2 hv
  exact ⟨i, hc, hi, fun j hj => le_of_eq (hsame i hi j hj)⟩

example : let objs : List Cand := [⟨1/2, 1, 0, false⟩, ⟨0, 3, 0, false⟩, ⟨1/4, 1, 0, false⟩]
    rndSetup 1000 objs = some [0, 2] ∧ violated objs = [0, 2] ∧ rndChoose (3/4) [0, 2] = some (.chosen 2) := by decide +kernel

/-- **C28** refuted (1): an object of priority 2 is chosen although one of priority 1 is violated. -/
theorem random_mixes_priorities : let objs : List Cand := [⟨1/2, 1, 0, false⟩, ⟨1/2, 2, 0, false⟩]
    rndSetup 1000 objs = some [0, 1] ∧ rndChoose (1/2) [0, 1] = some (.chosen 1) ∧ ¬ IsBest objs 1 := by decide +kernel

/-- **C28** refuted (2): with priorities 1, 3, 2 the object of best priority is not even on the list, so it is never chosen. -/
theorem random_loses_best : let objs : List Cand := [⟨1/2, 1, 0, false⟩, ⟨1/2, 3, 0, false⟩, ⟨1/2, 2, 0, false⟩]
    rndSetup 1000 objs = some [2] ∧ IsBest objs 0 ∧ ¬ IsBest objs 2 := by decide +kernel

/-- **C28** refuted (3): an object that makes the node infeasible (infeasibility `COIN_DBL_MAX`) only ends the list; if it comes first, the
list is empty, which the caller reads as "all satisfied" (code 1). -/
theorem random_infeasible_satisfied (huge : ℚ) (hh : 0 < huge) (o : Cand) (os : List Cand) (h : o.infeas = huge) (d : ℚ) :
    rndSetup huge (o :: os) = some [] ∧ rndChoose d [] = some .done := by
  refine ⟨?_, rfl⟩
  simp [rndSetup, rndScan, h, hh]

end Verif.Branch

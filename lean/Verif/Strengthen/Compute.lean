import Verif.Strengthen.Nlp
import Mathlib.Algebra.Order.Ring.Rat
/-! # C120: which cuts a strengthened linearisation gives

src/Interfaces/BonCutStrengthener.cpp: `ComputeCuts` 136-219; the strengthener is created by the interface (BonOsiTMINLPInterface.cpp:3000-3024) and called for each linearisation (2027-2050).
The bounds found by the strengthening problem are an oracle `bnd` that depends on the coefficients of the cut. -/
namespace Verif.Strengthen.Compute
open Verif.Oa

/-- `CutStrengtheningType` (BonCutStrengthener.hpp:17-22). -/
inductive CsType
  | none | sglobal | uglobalSlocal | sglobalSlocal
  deriving DecidableEq

/-- Whether the cut is close to the constraint at the point (BonCutStrengthener.cpp:148-160); `gindex = none` is the objective. -/
def isTight (inf : ℚ) (gindex : Option ℕ) (c : Cut) (gval glb gub : ℚ) : Bool :=
  if gindex = none then true
  else if c.lb ≤ -inf ∧ gub - gval ≤ 1 / 10 ^ 8 then true
  else if c.ub ≥ inf ∧ gval - glb ≤ 1 / 10 ^ 8 then true
  else false

/-- Bounds of the variables: those of the problem and those at the node. -/
structure Boxes where
  origLo : ℕ → ℚ
  origUp : ℕ → ℚ
  lo : ℕ → ℚ
  up : ℕ → ℚ

/-- The part on the global cut (BonCutStrengthener.cpp:161-185): a cut whose strengthening failed is as before. -/
def globalPart (inf : ℚ) (bnd : List (ℕ × ℚ) → Bool → (ℕ → ℚ) → (ℕ → ℚ) → Option ℚ) (ty : CsType) (disj tight : Bool) (n : ℕ) (isInt : ℕ → Bool) (x : ℕ → ℚ) (b : Boxes) (c : Cut) : Option Cut :=
  if ty = .sglobal ∨ ty = .sglobalSlocal then (handleOneCut inf (bnd c.co) disj tight n isInt x b.origLo b.origUp c).map Prod.snd else some c

/-- The part on the local cut (BonCutStrengthener.cpp:186-217): the cut inserted, if any. -/
def localPart (inf : ℚ) (bnd : List (ℕ × ℚ) → Bool → (ℕ → ℚ) → (ℕ → ℚ) → Option ℚ) (ty : CsType) (disj tight : Bool) (n : ℕ) (isInt : ℕ → Bool) (x : ℕ → ℚ) (b : Boxes) (c : Cut) :
    Option (Option Cut) :=
  if ty = .uglobalSlocal ∨ ty = .sglobalSlocal then
    (handleOneCut inf (bnd c.co) disj tight n isInt x b.lo b.up c).map fun r =>
      if r.1 = true ∧ (|r.2.lb - c.lb| ≥ 1 / 10 ^ 4 ∨ |c.ub - r.2.ub| ≥ 1 / 10 ^ 4) then some r.2 else none
  else some none

/-- `ComputeCuts` (BonCutStrengthener.cpp:136-219): the cut as left for the caller and the cut inserted beside it; `none` = failed assertion. -/
def computeCuts (inf : ℚ) (bnd : List (ℕ × ℚ) → Bool → (ℕ → ℚ) → (ℕ → ℚ) → Option ℚ) (ty : CsType) (disj : Bool) (n : ℕ) (isInt : ℕ → Bool) (x : ℕ → ℚ) (b : Boxes) (gindex : Option ℕ)
    (gval glb gub : ℚ) (c : Cut) : Option (Cut × Option Cut) :=
  match globalPart inf bnd ty disj (isTight inf gindex c gval glb gub) n isInt x b c with
  | none => none
  | some c' => (localPart inf bnd ty disj (isTight inf gindex c gval glb gub) n isInt x b c').map fun l => (c', l)

/-- What the interface does with one linearisation (BonOsiTMINLPInterface.cpp:2027-2050, 3021-3024): without strengthener the cut goes in as it is.  The cuts inserted, with the flag "globally
valid".  Simplification: without the relaxation of right hand sides (`oa_rhs_relax`). -/
def insertCuts (inf : ℚ) (bnd : List (ℕ × ℚ) → Bool → (ℕ → ℚ) → (ℕ → ℚ) → Option ℚ) (ty : CsType) (disj : Bool) (n : ℕ) (isInt : ℕ → Bool) (x : ℕ → ℚ) (b : Boxes) (gindex : Option ℕ)
    (gval glb gub : ℚ) (glob : Bool) (c : Cut) : Option (List (Cut × Bool)) :=
  if ty = .none then some [(c, glob)]
  else (computeCuts inf bnd ty disj n isInt x b gindex gval glb gub c).map fun r => (r.2.toList.map fun l => (l, false)) ++ [(r.1, glob)]

/-! ## Lemmas -/

theorem handle_nodisj (inf : ℚ) (bnd : Bool → (ℕ → ℚ) → (ℕ → ℚ) → Option ℚ) (tight : Bool) (n : ℕ) (isInt isInt' : ℕ → Bool) (x lo up : ℕ → ℚ) (c : Cut) :
    handleOneCut inf bnd false tight n isInt x lo up c = handleOneCut inf bnd false tight n isInt' x lo up c := by
  simp [handleOneCut]

theorem compute_parts {inf : ℚ} {bnd : List (ℕ × ℚ) → Bool → (ℕ → ℚ) → (ℕ → ℚ) → Option ℚ} {ty : CsType} {disj : Bool} {n : ℕ} {isInt : ℕ → Bool} {x : ℕ → ℚ} {b : Boxes} {gindex : Option ℕ}
    {gval glb gub : ℚ} {c c' : Cut} {l : Option Cut} (h : computeCuts inf bnd ty disj n isInt x b gindex gval glb gub c = some (c', l)) :
    globalPart inf bnd ty disj (isTight inf gindex c gval glb gub) n isInt x b c = some c' ∧ localPart inf bnd ty disj (isTight inf gindex c gval glb gub) n isInt x b c' = some l := by
  unfold computeCuts at h
  cases hg : globalPart inf bnd ty disj (isTight inf gindex c gval glb gub) n isInt x b c with
  | none => rw [hg] at h; simp at h
  | some c1 =>
    rw [hg] at h
    simp only [Option.map_eq_some_iff, Prod.mk.injEq] at h
    obtain ⟨l', h1, rfl, rfl⟩ := h
    exact ⟨rfl, h1⟩

/-! ## C120 -/

/-- **C120**: cuts count as tight exactly for the objective and if the side of the constraint that gave the cut is within 1e-8 of being active. -/
theorem tight_exact (inf : ℚ) (gindex : Option ℕ) (c : Cut) (gval glb gub : ℚ) :
    isTight inf gindex c gval glb gub = true ↔ gindex = none ∨ (c.lb ≤ -inf ∧ gub - 1 / 10 ^ 8 ≤ gval) ∨ (inf ≤ c.ub ∧ gval ≤ glb + 1 / 10 ^ 8) := by
  unfold isTight
  have e1 : gub - gval ≤ 1 / 10 ^ 8 ↔ gub - 1 / 10 ^ 8 ≤ gval := by constructor <;> intro h <;> linarith
  have e2 : gval - glb ≤ 1 / 10 ^ 8 ↔ gval ≤ glb + 1 / 10 ^ 8 := by constructor <;> intro h <;> linarith
  simp only [e1, e2]
  by_cases h1 : gindex = none
  · simp [h1]
  · by_cases h2 : c.lb ≤ -inf ∧ gub - 1 / 10 ^ 8 ≤ gval
    · simp [h1, h2]
    · by_cases h3 : c.ub ≥ inf ∧ gval ≤ glb + 1 / 10 ^ 8
      · have h3' : inf ≤ c.ub ∧ gval ≤ glb + 1 / 10 ^ 8 := h3
        simp only [h1, h2, h3', if_false, false_or, iff_true, ge_iff_le]
        simp
      · have h3' : ¬ (inf ≤ c.ub ∧ gval ≤ glb + 1 / 10 ^ 8) := h3
        simp only [h1, h2, h3', if_false, false_or, iff_false, ge_iff_le]
        simp

/-- **C120**: the cut left for the caller, flagged global, holds at every point of the problem that satisfies the cut given, if there are no disjunctions. -/
theorem global_valid {inf : ℚ} {bnd : List (ℕ × ℚ) → Bool → (ℕ → ℚ) → (ℕ → ℚ) → Option ℚ} {ty : CsType} {n : ℕ} {isInt : ℕ → Bool} {x : ℕ → ℚ} {b : Boxes} {gindex : Option ℕ}
    {gval glb gub : ℚ} {c c' : Cut} {l : Option Cut} {P : (ℕ → ℚ) → Prop} (hs : ∀ co, Sound (bnd co) P co)
    (h : computeCuts inf bnd ty false n isInt x b gindex gval glb gub c = some (c', l)) (y : ℕ → ℚ) (hy : P y) (hsat : Sat inf c y) (hbox : ∀ j, b.origLo j ≤ y j ∧ y j ≤ b.origUp j) : Sat inf c' y := by
  obtain ⟨hg, -⟩ := compute_parts h
  unfold globalPart at hg
  by_cases ht : ty = .sglobal ∨ ty = .sglobalSlocal
  · rw [if_pos ht, Option.map_eq_some_iff] at hg
    obtain ⟨⟨ok, c1⟩, h1, rfl⟩ := hg
    rw [handle_nodisj _ _ _ _ isInt (fun _ => false)] at h1
    exact handleOneCut_valid_partial (hs c.co) h1 hy hsat hbox (by simp)
  · rw [if_neg ht] at hg
    obtain rfl := Option.some.inj hg
    exact hsat

/-- **C120**: the cut inserted beside it, not flagged global, holds at every point of the problem within the bounds of the node, if there are no disjunctions. -/
theorem local_valid {inf : ℚ} {bnd : List (ℕ × ℚ) → Bool → (ℕ → ℚ) → (ℕ → ℚ) → Option ℚ} {ty : CsType} {n : ℕ} {isInt : ℕ → Bool} {x : ℕ → ℚ} {b : Boxes} {gindex : Option ℕ}
    {gval glb gub : ℚ} {c c' l : Cut} {P : (ℕ → ℚ) → Prop} (hs : ∀ co, Sound (bnd co) P co)
    (h : computeCuts inf bnd ty false n isInt x b gindex gval glb gub c = some (c', some l)) (y : ℕ → ℚ) (hy : P y) (hsat : Sat inf c y)
    (hbox : ∀ j, b.lo j ≤ y j ∧ y j ≤ b.up j) (hsub : ∀ j, b.origLo j ≤ b.lo j ∧ b.up j ≤ b.origUp j) : Sat inf l y := by
  have hc' := global_valid hs h y hy hsat fun j => ⟨le_trans (hsub j).1 (hbox j).1, le_trans (hbox j).2 (hsub j).2⟩
  obtain ⟨-, hl⟩ := compute_parts h
  unfold localPart at hl
  split at hl
  · rw [Option.map_eq_some_iff] at hl
    obtain ⟨⟨ok, c1⟩, h1, h2⟩ := hl
    split at h2
    · obtain rfl := Option.some.inj h2
      rw [handle_nodisj _ _ _ _ isInt (fun _ => false)] at h1
      exact handleOneCut_valid_partial (hs c'.co) h1 hy hc' hbox (by simp)
    · exact absurd h2 (by simp)
  · simp at hl

/-- **C120** with disjunctions: both cuts hold at the points whose discrete variables take one of the two values next to `x`.  Missing: general integers (C13). -/
theorem valid_disjunction_partial {inf : ℚ} {bnd : List (ℕ × ℚ) → Bool → (ℕ → ℚ) → (ℕ → ℚ) → Option ℚ} {ty : CsType} {disj : Bool} {n : ℕ} {isInt : ℕ → Bool} {x : ℕ → ℚ} {b : Boxes}
    {gindex : Option ℕ} {gval glb gub : ℚ} {c c' : Cut} {l : Option Cut} {P : (ℕ → ℚ) → Prop} (hs : ∀ co, Sound (bnd co) P co)
    (h : computeCuts inf bnd ty disj n isInt x b gindex gval glb gub c = some (c', l)) (y : ℕ → ℚ) (hy : P y) (hsat : Sat inf c y)
    (hint : ∀ j, j < n → isInt j = true → y j = (⌊x j⌋ : ℚ) ∨ y j = (⌊x j⌋ : ℚ) + 1) (hbox : ∀ j, b.origLo j ≤ y j ∧ y j ≤ b.origUp j) :
    Sat inf c' y ∧ ((∀ j, b.lo j ≤ y j ∧ y j ≤ b.up j) → ∀ l', l = some l' → Sat inf l' y) := by
  obtain ⟨hg, hl⟩ := compute_parts h
  have hc' : Sat inf c' y := by
    unfold globalPart at hg
    split at hg
    · rw [Option.map_eq_some_iff] at hg
      obtain ⟨⟨ok, c1⟩, h1, rfl⟩ := hg
      exact handleOneCut_valid_partial (hs c.co) h1 hy hsat hbox hint
    · obtain rfl := Option.some.inj hg
      exact hsat
  refine ⟨hc', fun hb l' hl' => ?_⟩
  subst hl'
  unfold localPart at hl
  split at hl
  · rw [Option.map_eq_some_iff] at hl
    obtain ⟨⟨ok, c1⟩, h1, h2⟩ := hl
    split at h2
    · obtain rfl := Option.some.inj h2
      exact handleOneCut_valid_partial (hs c'.co) h1 hy hc' hb hint
    · exact absurd h2 (by simp)
  · simp at hl

/-- **C120**: a cut that is not to be strengthened globally, or a tight one without disjunctions, is left for the caller as it was. -/
theorem global_unchanged {inf : ℚ} {bnd : List (ℕ × ℚ) → Bool → (ℕ → ℚ) → (ℕ → ℚ) → Option ℚ} {ty : CsType} {disj : Bool} {n : ℕ} {isInt : ℕ → Bool} {x : ℕ → ℚ} {b : Boxes} {gindex : Option ℕ}
    {gval glb gub : ℚ} {c c' : Cut} {l : Option Cut} (h : computeCuts inf bnd ty disj n isInt x b gindex gval glb gub c = some (c', l))
    (ht : ty = .none ∨ ty = .uglobalSlocal ∨ (disj = false ∧ isTight inf gindex c gval glb gub = true)) : c' = c := by
  obtain ⟨hg, -⟩ := compute_parts h
  unfold globalPart at hg
  split at hg
  · rename_i hty
    rcases ht with rfl | rfl | ⟨rfl, ht⟩
    · simp at hty
    · simp at hty
    · rw [ht] at hg
      simpa [handleOneCut] using hg.symm
  · exact (Option.some.inj hg).symm

/-- **C120**: a cut is inserted beside it exactly if local cuts were asked for, the problem at the node was solved, and a side moved by 1e-4 or more against the cut left for the caller. -/
theorem local_inserted_iff {inf : ℚ} {bnd : List (ℕ × ℚ) → Bool → (ℕ → ℚ) → (ℕ → ℚ) → Option ℚ} {ty : CsType} {disj : Bool} {n : ℕ} {isInt : ℕ → Bool} {x : ℕ → ℚ} {b : Boxes} {gindex : Option ℕ}
    {gval glb gub : ℚ} {c c' : Cut} {l : Option Cut} (h : computeCuts inf bnd ty disj n isInt x b gindex gval glb gub c = some (c', l)) (c2 : Cut) :
    l = some c2 ↔ (ty = .uglobalSlocal ∨ ty = .sglobalSlocal) ∧ handleOneCut inf (bnd c'.co) disj (isTight inf gindex c gval glb gub) n isInt x b.lo b.up c' = some (true, c2) ∧
      (1 / 10 ^ 4 ≤ |c2.lb - c'.lb| ∨ 1 / 10 ^ 4 ≤ |c2.ub - c'.ub|) := by
  obtain ⟨-, hl⟩ := compute_parts h
  unfold localPart at hl
  split at hl
  · rename_i hty
    rw [Option.map_eq_some_iff] at hl
    obtain ⟨⟨ok, c1⟩, h1, h2⟩ := hl
    rw [h1]
    simp only [ge_iff_le] at h2
    rw [abs_sub_comm c'.ub c1.ub] at h2
    by_cases hc : ok = true ∧ (1 / 10 ^ 4 ≤ |c1.lb - c'.lb| ∨ 1 / 10 ^ 4 ≤ |c1.ub - c'.ub|)
    · rw [if_pos hc] at h2
      subst h2
      constructor
      · intro he
        obtain rfl := Option.some.inj he
        exact ⟨hty, by rw [hc.1], hc.2⟩
      · rintro ⟨-, he, -⟩
        simp only [Option.some.injEq, Prod.mk.injEq] at he
        rw [he.2]
    · rw [if_neg hc] at h2
      subst h2
      constructor
      · intro he; simp at he
      · rintro ⟨-, he, hm⟩
        simp only [Option.some.injEq, Prod.mk.injEq] at he
        obtain ⟨rfl, rfl⟩ := he
        exact absurd ⟨rfl, hm⟩ hc
  · rename_i hty
    obtain rfl := Option.some.inj hl
    simp [hty]

/-- **C120**: without disjunctions the cuts have the coefficients given, and the side that was open stays so: strengthening moves the one bound only. -/
theorem only_bound_moves {inf : ℚ} {bnd : List (ℕ × ℚ) → Bool → (ℕ → ℚ) → (ℕ → ℚ) → Option ℚ} {ty : CsType} {n : ℕ} {isInt : ℕ → Bool} {x : ℕ → ℚ} {b : Boxes} {gindex : Option ℕ}
    {gval glb gub : ℚ} {c c' : Cut} {l : Option Cut} (h : computeCuts inf bnd ty false n isInt x b gindex gval glb gub c = some (c', l)) :
    (c'.co = c.co ∧ (c.lb ≤ -inf → c'.lb = c.lb) ∧ (¬ c.lb ≤ -inf → c'.ub = c.ub)) ∧
    ∀ l', l = some l' → l'.co = c.co ∧ (c'.lb ≤ -inf → l'.lb = c'.lb) ∧ (¬ c'.lb ≤ -inf → l'.ub = c'.ub) := by
  have key : ∀ (bd : Bool → (ℕ → ℚ) → (ℕ → ℚ) → Option ℚ) (t : Bool) (lo up : ℕ → ℚ) (c0 c1 : Cut) (ok : Bool), handleOneCut inf bd false t n isInt x lo up c0 = some (ok, c1) →
      c1.co = c0.co ∧ (c0.lb ≤ -inf → c1.lb = c0.lb) ∧ (¬ c0.lb ≤ -inf → c1.ub = c0.ub) := by
    intro bd t lo up c0 c1 ok hh
    simp only [handleOneCut, Bool.false_eq_true, if_false] at hh
    cases t with
    | true => simp at hh; rw [← hh.2]; simp
    | false =>
      simp only [Bool.false_eq_true, if_false, Option.map_eq_some_iff, Prod.mk.injEq] at hh
      obtain ⟨⟨o, lb, ub⟩, h1, h2, rfl⟩ := hh
      refine ⟨rfl, ?_, ?_⟩
      · intro hle
        simp only [strengthenCut, if_pos hle] at h1
        split at h1
        · split at h1 <;> simp at h1 <;> simp [h1.2.1]
        · simp at h1
      · intro hle
        simp only [strengthenCut, if_neg hle] at h1
        split at h1
        · split at h1 <;> simp at h1 <;> simp [h1.2.2]
        · simp at h1
  obtain ⟨hg, hl⟩ := compute_parts h
  have hc' : c'.co = c.co ∧ (c.lb ≤ -inf → c'.lb = c.lb) ∧ (¬ c.lb ≤ -inf → c'.ub = c.ub) := by
    unfold globalPart at hg
    split at hg
    · rw [Option.map_eq_some_iff] at hg
      obtain ⟨⟨ok, c1⟩, h1, rfl⟩ := hg
      exact key _ _ _ _ _ _ _ h1
    · obtain rfl := Option.some.inj hg
      simp
  refine ⟨hc', ?_⟩
  rintro l' rfl
  obtain ⟨-, h2, -⟩ := (local_inserted_iff h l').1 rfl
  obtain ⟨h3, h4⟩ := key _ _ _ _ _ _ _ h2
  exact ⟨h3.trans hc'.1, h4⟩

/-- **C120**: what reaches the set of cuts: one cut flagged as the caller wishes, preceded by at most one that is not flagged global. -/
theorem inserted_shape {inf : ℚ} {bnd : List (ℕ × ℚ) → Bool → (ℕ → ℚ) → (ℕ → ℚ) → Option ℚ} {ty : CsType} {disj : Bool} {n : ℕ} {isInt : ℕ → Bool} {x : ℕ → ℚ} {b : Boxes} {gindex : Option ℕ}
    {gval glb gub : ℚ} {glob : Bool} {c : Cut} {cs : List (Cut × Bool)} (h : insertCuts inf bnd ty disj n isInt x b gindex gval glb gub glob c = some cs) :
    ∃ c', cs = [(c', glob)] ∨ ((ty = .uglobalSlocal ∨ ty = .sglobalSlocal) ∧ ∃ l, cs = [(l, false), (c', glob)]) := by
  unfold insertCuts at h
  split at h
  · exact ⟨c, Or.inl (Option.some.inj h).symm⟩
  · rw [Option.map_eq_some_iff] at h
    obtain ⟨⟨c', l⟩, h1, rfl⟩ := h
    refine ⟨c', ?_⟩
    cases l with
    | none => left; rfl
    | some l => right; exact ⟨((local_inserted_iff h1 l).1 rfl).1, l, rfl⟩

/-- **C120**: every cut flagged global holds on the whole problem and every cut inserted holds within the bounds of the node (no disjunctions). -/
theorem inserted_valid {inf : ℚ} {bnd : List (ℕ × ℚ) → Bool → (ℕ → ℚ) → (ℕ → ℚ) → Option ℚ} {ty : CsType} {n : ℕ} {isInt : ℕ → Bool} {x : ℕ → ℚ} {b : Boxes} {gindex : Option ℕ}
    {gval glb gub : ℚ} {glob : Bool} {c : Cut} {cs : List (Cut × Bool)} {P : (ℕ → ℚ) → Prop} (hs : ∀ co, Sound (bnd co) P co)
    (h : insertCuts inf bnd ty false n isInt x b gindex gval glb gub glob c = some cs) (hsub : ∀ j, b.origLo j ≤ b.lo j ∧ b.up j ≤ b.origUp j) (e : Cut × Bool) (he : e ∈ cs)
    (y : ℕ → ℚ) (hy : P y) (hsat : Sat inf c y) (hbox : ∀ j, b.origLo j ≤ y j ∧ y j ≤ b.origUp j) (hnode : e.2 = false → ∀ j, b.lo j ≤ y j ∧ y j ≤ b.up j) : Sat inf e.1 y := by
  unfold insertCuts at h
  split at h
  · obtain rfl := Option.some.inj h
    simp at he
    rw [he]; exact hsat
  · rw [Option.map_eq_some_iff] at h
    obtain ⟨⟨c', l⟩, h1, rfl⟩ := h
    rcases List.mem_append.1 he with he | he
    · obtain ⟨l', hl', rfl⟩ := List.mem_map.1 he
      simp only [Option.mem_toList, Option.mem_def] at hl'
      subst hl'
      exact local_valid hs h1 y hy hsat (hnode rfl) hsub
    · simp at he
      rw [he]
      exact global_valid hs h1 y hy hsat hbox

/-- **C120**: a strengthened bound is at least as strong as the bound given, if the bound found is attained at a point that satisfies the cut. -/
theorem at_least_as_strong {inf : ℚ} {bnd : List (ℕ × ℚ) → Bool → (ℕ → ℚ) → (ℕ → ℚ) → Option ℚ} {ty : CsType} {n : ℕ} {isInt : ℕ → Bool} {x : ℕ → ℚ} {b : Boxes} {gindex : Option ℕ}
    {gval glb gub : ℚ} {c c' : Cut} {l : Option Cut} (hinf : 0 < inf)
    (hatt : ∀ lower v, bnd c.co lower b.origLo b.origUp = some v → ∃ y, Sat inf c y ∧ act c.co y = v)
    (h : computeCuts inf bnd ty false n isInt x b gindex gval glb gub c = some (c', l)) : ∀ y, Sat inf c' y → Sat inf c y := by
  obtain ⟨hg, -⟩ := compute_parts h
  intro y hy
  unfold globalPart at hg
  split at hg
  · rw [Option.map_eq_some_iff] at hg
    obtain ⟨⟨ok, c1⟩, h1, rfl⟩ := hg
    simp only [handleOneCut, Bool.false_eq_true, if_false] at h1
    split at h1
    · simp at h1; rw [h1.2]; exact hy
    · simp only [Option.map_eq_some_iff, Prod.mk.injEq] at h1
      obtain ⟨⟨o, lb, ub⟩, h2, -, rfl⟩ := h1
      unfold strengthenCut at h2
      split at h2
      · rename_i hle
        split at h2
        · rename_i hub
          cases hb : bnd c.co false b.origLo b.origUp with
          | none => rw [hb] at h2; simp at h2; obtain ⟨-, rfl, rfl⟩ := h2; exact hy
          | some v =>
            rw [hb] at h2
            simp at h2
            obtain ⟨-, rfl, rfl⟩ := h2
            obtain ⟨ym, hm, hv⟩ := hatt _ _ hb
            refine ⟨Or.inl hle, Or.inr ?_⟩
            have hvu : v ≤ c.ub := by
              rcases hm.2 with h3 | h3
              · exact absurd hub (not_lt.2 h3)
              · rw [← hv]; exact h3
            rcases hy.2 with h3 | h3
            · simp only at h3
              exact absurd hub (not_lt.2 (le_trans h3 hvu))
            · exact le_trans h3 hvu
        · simp at h2
      · rename_i hle
        split at h2
        · rename_i hub
          cases hb : bnd c.co true b.origLo b.origUp with
          | none => rw [hb] at h2; simp at h2; obtain ⟨-, rfl, rfl⟩ := h2; exact hy
          | some v =>
            rw [hb] at h2
            simp at h2
            obtain ⟨-, rfl, rfl⟩ := h2
            obtain ⟨ym, hm, hv⟩ := hatt _ _ hb
            refine ⟨Or.inr ?_, Or.inl hub⟩
            have hvu : c.lb ≤ v := by
              rcases hm.1 with h3 | h3
              · exact absurd h3 hle
              · rw [← hv]; exact h3
            rcases hy.1 with h3 | h3
            · simp only at h3
              exact absurd (le_trans hvu h3) hle
            · exact le_trans hvu h3
        · simp at h2
  · obtain rfl := Option.some.inj hg
    exact hy

/-- **C120** refuted for disjunctions: a local cut strengthened in its coefficient only is not inserted, although it cuts off more: here `2y₀ + y₁ ≤ 2` is found from `y₀ + y₁ ≤ 2` and lost. -/
theorem coefficient_change_lost :
    let bnd : List (ℕ × ℚ) → Bool → (ℕ → ℚ) → (ℕ → ℚ) → Option ℚ := fun _ _ xl _ => if xl 0 = 1 then some 1 else some 2
    let b : Boxes := ⟨fun _ => 0, fun _ => 1, fun _ => 0, fun _ => 1⟩
    let c : Cut := ⟨[(0, 1), (1, 1)], -10 ^ 30, 2⟩
    handleOneCut (10 ^ 30) (bnd c.co) true false 2 (fun j => j == 0) (fun _ => 1 / 2) b.lo b.up c = some (true, ⟨[(0, 2), (1, 1)], -10 ^ 30, 2⟩) ∧
      computeCuts (10 ^ 30) bnd .uglobalSlocal true 2 (fun j => j == 0) (fun _ => 1 / 2) b (some 0) 0 (-10 ^ 30) 1 c = some (c, none) := by
  decide +kernel

/-- **C120** refuted for the option `disjunctive_cut_type`: with `cut_strengthening_type` at `none` there is no strengthener, and disjunctive cuts are not made though asked for. -/
theorem disjunction_alone_ignored (inf : ℚ) (bnd : List (ℕ × ℚ) → Bool → (ℕ → ℚ) → (ℕ → ℚ) → Option ℚ) (disj : Bool) (n : ℕ) (isInt : ℕ → Bool) (x : ℕ → ℚ) (b : Boxes) (gindex : Option ℕ)
    (gval glb gub : ℚ) (glob : Bool) (c : Cut) : insertCuts inf bnd .none disj n isInt x b gindex gval glb gub glob c = some [(c, glob)] := rfl

/-- Both a global and a local cut: `y₀ ≤ 3` becomes `y₀ ≤ 2` on the whole problem and `y₀ ≤ 1` at the node. -/
example : insertCuts (10 ^ 30) (fun _ _ _ xu => if xu 0 = 1 then some 1 else some 2) .sglobalSlocal false 1 (fun _ => false) (fun _ => 5 / 2) ⟨fun _ => 0, fun _ => 5, fun _ => 0, fun _ => 1⟩ (some 0)
    0 (-10 ^ 30) 4 true ⟨[(0, 1)], -10 ^ 30, 3⟩ = some [(⟨[(0, 1)], -10 ^ 30, 1⟩, false), (⟨[(0, 1)], -10 ^ 30, 2⟩, true)] := by
  decide +kernel

/-- A lower bound that stays: the cut is tight. -/
example : insertCuts (10 ^ 30) (fun _ _ _ _ => some 7) .sglobalSlocal false 1 (fun _ => false) (fun _ => 5 / 2) ⟨fun _ => 0, fun _ => 5, fun _ => 0, fun _ => 1⟩ (some 0)
    4 4 (10 ^ 30) true ⟨[(0, 1)], 3, 10 ^ 30⟩ = some [(⟨[(0, 1)], 3, 10 ^ 30⟩, true)] := by
  decide +kernel

/-- **C120** with C119: the problems of C119 are an oracle that meets the hypothesis `Sound` of the theorems above, for cuts on constraint `i`. -/
theorem nlp_sound_partial (p : Nlp.Prob) (I : ℚ) (solve : Nlp.Sub → Nlp.Answer) (n : ℕ) (x r : ℕ → ℚ) (i : ℕ) (cols : List ℕ) (co : List (ℕ × ℚ)) (hsol : Nlp.Solves p I solve)
    (hcols : p.cols i = some cols) (hnd : cols.Nodup) (hn : ∀ j ∈ cols, j < n) (hdep : Nlp.DependsOn (p.g i) cols) (hcut : ∀ e ∈ co, e.1 ∈ cols) (hcd : (co.map Prod.fst).Nodup) :
    Sound (fun lower xl xu => Nlp.bndOf (Nlp.strengthen p solve n x xl xu r (some i) lower co)) (fun y => Nlp.Within I (p.gl i) (p.gu i) (p.g i y)) co := by
  intro xl xu b
  have hb : ∀ {res : Nlp.Res}, Nlp.bndOf res = some b → res = .bound b := by
    intro res hres
    cases res <;> simp [Nlp.bndOf] at hres
    rw [hres]
  constructor
  · intro hbb y hy hbx
    have := (Nlp.row_bound_best_partial p I solve n x xl xu r i false co cols b hsol hcols hnd hn hdep hcut hcd (hb hbb)).1 y ⟨fun j _ => ⟨fun _ => (hbx j).1, fun _ => (hbx j).2⟩, hy⟩
    simpa using this
  · intro hbb y hy hbx
    have := (Nlp.row_bound_best_partial p I solve n x xl xu r i true co cols b hsol hcols hnd hn hdep hcut hcd (hb hbb)).1 y ⟨fun j _ => ⟨fun _ => (hbx j).1, fun _ => (hbx j).2⟩, hy⟩
    simpa using this

/-- **What is inserted, exactly.**  With a strengthener: the tightened local cut if there is one, as a local one, then the global one; both computed with the bounds of the row. -/
theorem inserted_exact (inf : ℚ) (bnd : List (ℕ × ℚ) → Bool → (ℕ → ℚ) → (ℕ → ℚ) → Option ℚ) (ty : CsType) (disj : Bool) (n : ℕ) (isInt : ℕ → Bool) (x : ℕ → ℚ) (b : Boxes) (gindex : Option ℕ)
    (gval glb gub : ℚ) (glob : Bool) (c : Cut) (hty : ty ≠ .none) (cs : List (Cut × Bool)) : insertCuts inf bnd ty disj n isInt x b gindex gval glb gub glob c = some cs ↔
    ∃ g l, computeCuts inf bnd ty disj n isInt x b gindex gval glb gub c = some (g, l) ∧ (l = none → cs = [(g, glob)]) ∧ (∀ d, l = some d → cs = [(d, false), (g, glob)]) := by
  unfold insertCuts
  rw [if_neg hty, Option.map_eq_some_iff]
  constructor
  · rintro ⟨⟨g, l⟩, h1, h2⟩
    refine ⟨g, l, h1, ?_, ?_⟩
    · rintro rfl; exact h2.symm
    · rintro d rfl; exact h2.symm
  · rintro ⟨g, l, h1, h2, h3⟩
    refine ⟨(g, l), h1, ?_⟩
    cases l with
    | none => exact (h2 rfl).symm
    | some d => exact (h3 d rfl).symm

end Verif.Strengthen.Compute

import Verif.Nway.Object
import Mathlib.Data.Rat.Floor
/-! # C131: n-way objects made from the SOS constraints

experimental/RobotBonmin/RobotSetup.cpp: `addNWays` 104-188.

`sos` has `num` sets; set `i` has the variables `indices[starts[i]], …, indices[starts[i+1]-1]`, and the weight of the variable at place `p` of `indices` is `weights[p]`.
An access out of range and the conversion of a weight that is at most -1 to an unsigned number are `none`; so is a set of negative length.  `addObjects` copies the objects,
which keeps all that is set here. -/
namespace Verif.Nway

deriving instance DecidableEq for Obj

/-- `TMINLP::SosInfo`; the priorities are optional (135). -/
structure Sos where
  num : ℕ
  starts : List ℕ
  indices : List ℕ
  weights : List ℚ
  prios : Option (List ℤ)

/-- `(size_t) weights[j]` (153), `(int) weights[j]` (166). -/
def truncIdx (w : ℚ) : Option ℕ := if -1 < w then some ⌊w⌋.toNat else none

/-- Variables of set `i` (150-151, 159-161). -/
def Sos.set (s : Sos) (i : ℕ) : Option (List ℕ) :=
  (s.starts[i]?).bind fun a => (s.starts[i + 1]?).bind fun b => if a ≤ b ∧ b ≤ s.indices.length then some ((s.indices.drop a).take (b - a)) else none

/-- The group of place `j` of a set (153, 166): read from `weights[j]`. -/
def Sos.group (s : Sos) (j : ℕ) : Option ℕ := (s.weights[j]?).bind truncIdx

/-- Loop over a set (152-154) from place `j` on. -/
def Sos.push (s : Sos) : List ℕ → ℕ → List (List ℕ) → Option (List (List ℕ))
  | [], _, gs => some gs
  | c :: cs, j, gs => (s.group j).bind fun k => (gs[k]?).bind fun g => s.push cs (j + 1) (gs.set k (g ++ [c]))

/-- Loop over the sets (148-155): `n` sets from number `i` on. -/
def Sos.groups (s : Sos) : ℕ → ℕ → List (List ℕ) → Option (List (List ℕ))
  | 0, _, gs => some gs
  | n + 1, i, gs => (s.set i).bind fun cs => (s.push cs 0 gs).bind (s.groups n (i + 1))

/-- Consequences of the members of a set (163-173) from place `j` on. -/
def Sos.conses (s : Sos) (gs : List (List ℕ)) : List ℕ → ℕ → Option (List (Option (List ℕ)))
  | [], _ => some []
  | c :: cs, j => (s.group j).bind fun k => (gs[k]?).bind fun g => (s.conses gs cs (j + 1)).map fun r => some (g.filter (· ≠ c)) :: r

/-- `hasPriorities` (123-144). -/
def Sos.hasPrios (s : Sos) (vars : Option (List ℤ)) : Bool :=
  (vars.elim false fun l => l.any (· ≠ 0)) || (s.prios.elim false fun l => (l.take s.num).any (· ≠ 0))

/-- Priority of set `i` (162, 179-181). -/
def Sos.prio (s : Sos) (vars : Option (List ℤ)) (i : ℕ) : Option ℤ :=
  if s.hasPrios vars then
    match s.prios with
    | none => some 1
    | some l => (l[i]?).map fun p => if p ≠ 0 then p else 1
  else some 1

/-- The object of set `i` (159-181) with its priority. -/
def Sos.object (s : Sos) (vars : Option (List ℤ)) (quick : Bool) (frac : ℤ) (gs : List (List ℕ)) (i : ℕ) : Option (Obj × ℤ) :=
  (s.set i).bind fun cs => (s.conses gs cs 0).bind fun r => (s.prio vars i).map fun p => (⟨cs, if cs = [] then none else some r, [], quick, frac⟩, p)

/-- Loop over the sets (157-182): `n` sets from number `i` on. -/
def Sos.objects (s : Sos) (vars : Option (List ℤ)) (quick : Bool) (frac : ℤ) (gs : List (List ℕ)) : ℕ → ℕ → Option (List (Obj × ℤ))
  | 0, _ => some []
  | n + 1, i => (s.object vars quick frac gs i).bind fun o => (s.objects vars quick frac gs n (i + 1)).map (o :: ·)

/-- `addNWays` (104-188): objects added with their priorities; `disabled` is the parameter `DisableSos`. -/
def addNWays (sos : Option Sos) (disabled : Bool) (vars : Option (List ℤ)) (quick : Bool) (frac : ℤ) : Option (List (Obj × ℤ)) :=
  match sos with
  | none => some []
  | some s => if disabled = false ∧ 0 < s.num then (s.groups s.num 0 (List.replicate (s.num + 1) [])).bind fun gs => s.objects vars quick frac gs s.num 0 else some []

/-! ## Specification -/

/-- Variable `c` is at place `j` of set `i`. -/
def Sos.At (s : Sos) (i j c : ℕ) : Prop := ∃ a b, s.starts[i]? = some a ∧ s.starts[i + 1]? = some b ∧ a + j < b ∧ s.indices[a + j]? = some c

/-- The weight of the variable at place `j` of set `i`, without its fraction. -/
def Sos.WeightIs (s : Sos) (i j k : ℕ) : Prop := ∃ a w, s.starts[i]? = some a ∧ s.weights[a + j]? = some w ∧ ((k : ℚ) ≤ w ∧ w < k + 1)

/-- Sets are given by rising starts within the indices. -/
structure Sos.Ok (s : Sos) : Prop where
  starts : ∀ i < s.num, ∃ a b, s.starts[i]? = some a ∧ s.starts[i + 1]? = some b ∧ a ≤ b ∧ b ≤ s.indices.length
  prios : ∀ l, s.prios = some l → s.num ≤ l.length

/-! ## Lemmas -/

theorem set_at (s : Sos) (i : ℕ) (cs : List ℕ) (h : s.set i = some cs) (j c : ℕ) : cs[j]? = some c ↔ s.At i j c := by
  unfold Sos.set at h
  cases ha : s.starts[i]? with
  | none => simp [ha] at h
  | some a =>
    cases hb : s.starts[i + 1]? with
    | none => simp [ha, hb] at h
    | some b =>
      simp only [ha, hb, Option.bind_some] at h
      by_cases hab : a ≤ b ∧ b ≤ s.indices.length
      · rw [if_pos hab, Option.some.injEq] at h
        subst h
        simp only [Sos.At, ha, hb, Option.some.injEq, List.getElem?_take, List.getElem?_drop]
        constructor
        · intro h
          split_ifs at h with h1
          exact ⟨a, b, rfl, rfl, by omega, h⟩
        · rintro ⟨a', b', rfl, rfl, h1, h2⟩
          rw [if_pos (by omega)]; exact h2
      · rw [if_neg hab] at h; simp at h

theorem push_length (s : Sos) : ∀ (cs : List ℕ) (j : ℕ) (gs gs' : List (List ℕ)), s.push cs j gs = some gs' → gs'.length = gs.length
  | [], j, gs, gs', h => by simp only [Sos.push, Option.some.injEq] at h; rw [h]
  | c :: cs, j, gs, gs', h => by
    rw [Sos.push] at h
    cases hk : s.group j with
    | none => simp [hk] at h
    | some k =>
      cases hg : gs[k]? with
      | none => simp [hk, hg] at h
      | some g =>
        simp only [hk, hg, Option.bind_some] at h
        rw [push_length s cs (j + 1) _ gs' h]; simp

/-- What is in group `k` after a set has been read. -/
theorem push_mem (s : Sos) : ∀ (cs : List ℕ) (j : ℕ) (gs gs' : List (List ℕ)), s.push cs j gs = some gs' → ∀ k < gs.length, ∀ v,
    (∃ g, gs'[k]? = some g ∧ v ∈ g) ↔ (∃ g, gs[k]? = some g ∧ v ∈ g) ∨ ∃ q, cs[q]? = some v ∧ s.group (j + q) = some k
  | [], j, gs, gs', h, k, hk, v => by simp only [Sos.push, Option.some.injEq] at h; subst h; simp
  | c :: cs, j, gs, gs', h, k, hk, v => by
    rw [Sos.push] at h
    cases hk0 : s.group j with
    | none => simp [hk0] at h
    | some k0 =>
      cases hg : gs[k0]? with
      | none => simp [hk0, hg] at h
      | some g0 =>
        simp only [hk0, hg, Option.bind_some] at h
        have hlt : k0 < gs.length := (List.getElem?_eq_some_iff.1 hg).1
        rw [push_mem s cs (j + 1) _ gs' h k (by simpa using hk) v]
        have e1 : (∃ g, (gs.set k0 (g0 ++ [c]))[k]? = some g ∧ v ∈ g) ↔ (∃ g, gs[k]? = some g ∧ v ∈ g) ∨ (v = c ∧ k0 = k) := by
          by_cases hkk : k0 = k
          · subst hkk
            have hg' : gs[k0] = g0 := by rw [List.getElem?_eq_getElem hlt, Option.some.injEq] at hg; exact hg
            simp [hlt, hg']
          · simp [List.getElem?_set, hkk]
        have e2 : (∃ q, (c :: cs)[q]? = some v ∧ s.group (j + q) = some k) ↔ (v = c ∧ k0 = k) ∨ ∃ q, cs[q]? = some v ∧ s.group (j + 1 + q) = some k := by
          constructor
          · rintro ⟨q, h1, h2⟩
            cases q with
            | zero => simp only [List.getElem?_cons_zero, Option.some.injEq] at h1; left; refine ⟨h1.symm, ?_⟩; rw [Nat.add_zero, hk0, Option.some.injEq] at h2; exact h2
            | succ q => right; exact ⟨q, by simpa using h1, by rw [← h2]; congr 1; omega⟩
          · rintro (⟨rfl, rfl⟩ | ⟨q, h1, h2⟩)
            · exact ⟨0, by simp, by simpa using hk0⟩
            · exact ⟨q + 1, by simpa using h1, by rw [← h2]; congr 1; omega⟩
        rw [e1, e2, or_assoc]

theorem groups_length (s : Sos) : ∀ (n i : ℕ) (gs gs' : List (List ℕ)), s.groups n i gs = some gs' → gs'.length = gs.length
  | 0, i, gs, gs', h => by simp only [Sos.groups, Option.some.injEq] at h; rw [h]
  | n + 1, i, gs, gs', h => by
    rw [Sos.groups] at h
    cases hs : s.set i with
    | none => simp [hs] at h
    | some cs =>
      cases hp : s.push cs 0 gs with
      | none => simp [hs, hp] at h
      | some g1 =>
        simp only [hs, hp, Option.bind_some] at h
        rw [groups_length s n (i + 1) g1 gs' h, push_length s cs 0 gs g1 hp]

theorem groups_mem (s : Sos) : ∀ (n i : ℕ) (gs gs' : List (List ℕ)), s.groups n i gs = some gs' → ∀ k < gs.length, ∀ v,
    (∃ g, gs'[k]? = some g ∧ v ∈ g) ↔ (∃ g, gs[k]? = some g ∧ v ∈ g) ∨ ∃ i' q, i ≤ i' ∧ i' < i + n ∧ s.At i' q v ∧ s.group q = some k
  | 0, i, gs, gs', h, k, hk, v => by
    simp only [Sos.groups, Option.some.injEq] at h; subst h
    constructor
    · exact Or.inl
    · rintro (h | ⟨i', q, h1, h2, -⟩)
      · exact h
      · omega
  | n + 1, i, gs, gs', h, k, hk, v => by
    rw [Sos.groups] at h
    cases hs : s.set i with
    | none => simp [hs] at h
    | some cs =>
      cases hp : s.push cs 0 gs with
      | none => simp [hs, hp] at h
      | some g1 =>
        simp only [hs, hp, Option.bind_some] at h
        rw [groups_mem s n (i + 1) g1 gs' h k (by rw [push_length s cs 0 gs g1 hp]; exact hk) v, push_mem s cs 0 gs g1 hp k hk v, or_assoc]
        apply or_congr Iff.rfl
        constructor
        · rintro (⟨q, h1, h2⟩ | ⟨i', q, h1, h2, h3⟩)
          · exact ⟨i, q, le_refl _, by omega, (set_at s i cs hs q v).1 h1, by simpa using h2⟩
          · exact ⟨i', q, by omega, by omega, h3⟩
        · rintro ⟨i', q, h1, h2, h3, h4⟩
          rcases Nat.eq_or_lt_of_le h1 with rfl | h1
          · exact Or.inl ⟨q, (set_at s i cs hs q v).2 h3, by simpa using h4⟩
          · exact Or.inr ⟨i', q, h1, by omega, h3, h4⟩

theorem conses_spec (s : Sos) (gs : List (List ℕ)) : ∀ (cs : List ℕ) (j : ℕ) (r : List (Option (List ℕ))), s.conses gs cs j = some r → r.length = cs.length ∧
    ∀ (q c : ℕ), cs[q]? = some c → ∃ k g, s.group (j + q) = some k ∧ gs[k]? = some g ∧ r[q]? = some (some (g.filter (· ≠ c)))
  | [], j, r, h => by simp only [Sos.conses, Option.some.injEq] at h; subst h; simp
  | c :: cs, j, r, h => by
    rw [Sos.conses] at h
    cases hk : s.group j with
    | none => simp [hk] at h
    | some k =>
      cases hg : gs[k]? with
      | none => simp [hk, hg] at h
      | some g =>
        cases hr : s.conses gs cs (j + 1) with
        | none => simp [hk, hg, hr] at h
        | some r1 =>
          simp only [hk, hg, hr, Option.bind_some, Option.map_some, Option.some.injEq] at h
          subst h
          obtain ⟨h1, h2⟩ := conses_spec s gs cs (j + 1) r1 hr
          refine ⟨by simp [h1], ?_⟩
          intro q d hq
          cases q with
          | zero =>
            simp only [List.getElem?_cons_zero, Option.some.injEq] at hq
            subst hq
            exact ⟨k, g, by simpa using hk, hg, by simp⟩
          | succ q =>
            obtain ⟨k', g', e1, e2, e3⟩ := h2 q d (by simpa using hq)
            exact ⟨k', g', by rw [← e1]; congr 1; omega, e2, by simpa using e3⟩

theorem objects_spec (s : Sos) (vars : Option (List ℤ)) (quick : Bool) (frac : ℤ) (gs : List (List ℕ)) : ∀ (n i : ℕ) (os : List (Obj × ℤ)),
    s.objects vars quick frac gs n i = some os → os.length = n ∧ ∀ q < n, os[q]? = s.object vars quick frac gs (i + q)
  | 0, i, os, h => by simp only [Sos.objects, Option.some.injEq] at h; subst h; simp
  | n + 1, i, os, h => by
    rw [Sos.objects] at h
    cases ho : s.object vars quick frac gs i with
    | none => simp [ho] at h
    | some o =>
      cases hr : s.objects vars quick frac gs n (i + 1) with
      | none => simp [ho, hr] at h
      | some r =>
        simp only [ho, hr, Option.bind_some, Option.map_some, Option.some.injEq] at h
        subst h
        obtain ⟨h1, h2⟩ := objects_spec s vars quick frac gs n (i + 1) r hr
        refine ⟨by simp [h1], ?_⟩
        intro q hq
        cases q with
        | zero => simpa using ho.symm
        | succ q =>
          rw [List.getElem?_cons_succ, h2 q (by omega)]
          congr 1; omega

theorem truncIdx_iff (w : ℚ) (k : ℕ) (hw : 0 ≤ w) : truncIdx w = some k ↔ (k : ℚ) ≤ w ∧ w < k + 1 := by
  unfold truncIdx
  rw [if_pos (by linarith), Option.some.injEq]
  have h0 : 0 ≤ ⌊w⌋ := Int.floor_nonneg.2 hw
  constructor
  · intro h
    have h1 : (k : ℤ) = ⌊w⌋ := by omega
    have h2 := Int.floor_le w
    have h3 := Int.lt_floor_add_one w
    rw [← h1] at h2 h3
    exact ⟨by exact_mod_cast h2, by exact_mod_cast h3⟩
  · rintro ⟨h1, h2⟩
    have : ⌊w⌋ = (k : ℤ) := Int.floor_eq_iff.2 ⟨by exact_mod_cast h1, by exact_mod_cast h2⟩
    omega

/-- The objects by their parts. -/
theorem addNWays_parts (s : Sos) (vars : Option (List ℤ)) (quick : Bool) (frac : ℤ) (os : List (Obj × ℤ)) (hn : 0 < s.num) (h : addNWays (some s) false vars quick frac = some os) :
    ∃ gs, s.groups s.num 0 (List.replicate (s.num + 1) []) = some gs ∧ os.length = s.num ∧ ∀ i < s.num, os[i]? = s.object vars quick frac gs i := by
  simp only [addNWays] at h
  rw [if_pos ⟨trivial, hn⟩] at h
  cases hg : s.groups s.num 0 (List.replicate (s.num + 1) []) with
  | none => simp [hg] at h
  | some gs =>
    simp only [hg, Option.bind_some] at h
    obtain ⟨h1, h2⟩ := objects_spec s vars quick frac gs _ _ os h
    exact ⟨gs, rfl, h1, fun i hi => by rw [h2 i hi, Nat.zero_add]⟩

theorem object_parts (s : Sos) (vars : Option (List ℤ)) (quick : Bool) (frac : ℤ) (gs : List (List ℕ)) (i : ℕ) (N : Obj) (p : ℤ) (h : s.object vars quick frac gs i = some (N, p)) :
    s.set i = some N.members ∧ s.prio vars i = some p ∧ N.quick = quick ∧ N.frac = frac ∧ N.bounds = [] ∧ ∃ r, s.conses gs N.members 0 = some r ∧ N.cons = if N.members = [] then none else some r := by
  unfold Sos.object at h
  cases hs : s.set i with
  | none => simp [hs] at h
  | some cs =>
    cases hc : s.conses gs cs 0 with
    | none => simp [hs, hc] at h
    | some r =>
      cases hp : s.prio vars i with
      | none => simp [hs, hc, hp] at h
      | some p' =>
        simp only [hs, hc, hp, Option.bind_some, Option.map_some, Option.some.injEq, Prod.mk.injEq] at h
        obtain ⟨rfl, rfl⟩ := h
        exact ⟨rfl, rfl, rfl, rfl, rfl, r, hc, rfl⟩

/-! ## Properties -/

/-- **C131.** There is one object per set, in order; its members are the variables of the set, it has no recorded bounds, it has the settings given, and its priority is that of the set if the sets
have priorities and this one is not 0, and 1 otherwise — whatever the priorities of the variables are. -/
theorem objects_exact (s : Sos) (vars : Option (List ℤ)) (quick : Bool) (frac : ℤ) (os : List (Obj × ℤ)) (hn : 0 < s.num) (h : addNWays (some s) false vars quick frac = some os) :
    os.length = s.num ∧ ∀ (i : ℕ) N p, os[i]? = some (N, p) → (∀ j c : ℕ, N.members[j]? = some c ↔ s.At i j c) ∧ N.bounds = [] ∧ N.quick = quick ∧ N.frac = frac ∧
      (∀ l q, s.prios = some l → l[i]? = some q → q ≠ 0 → p = q) ∧ (s.prios = none → p = 1) ∧ (∀ l, s.prios = some l → l[i]? = some 0 → p = 1) := by
  obtain ⟨gs, hg, hl, ho⟩ := addNWays_parts s vars quick frac os hn h
  refine ⟨hl, ?_⟩
  intro i N p hi
  have hlt : i < s.num := by rw [← hl]; exact (List.getElem?_eq_some_iff.1 hi).1
  rw [ho i hlt] at hi
  obtain ⟨h1, h2, h3, h4, h5, -⟩ := object_parts s vars quick frac gs i N p hi
  refine ⟨fun j c => set_at s i N.members h1 j c, h5, h3, h4, ?_, ?_, ?_⟩
  · intro l q hp hq hq0
    have : s.hasPrios vars = true := by
      unfold Sos.hasPrios
      rw [hp]
      simp only [Option.elim_some, Bool.or_eq_true, List.any_eq_true]
      right
      refine ⟨q, ?_, by simpa using hq0⟩
      rw [List.mem_iff_getElem?]
      exact ⟨i, by rw [List.getElem?_take, if_pos hlt]; exact hq⟩
    simp only [Sos.prio, this, if_true, hp, hq, Option.map_some, Option.some.injEq] at h2
    rw [if_pos hq0] at h2
    exact h2.symm
  · intro hp
    simp only [Sos.prio, hp, ite_self, Option.some.injEq] at h2
    exact h2.symm
  · intro l hp hq
    simp only [Sos.prio, hp, hq, Option.map_some] at h2
    split_ifs at h2 <;> simp_all

/-- **C131.** No objects without sets or with the sets disabled. -/
theorem no_objects (vars : Option (List ℤ)) (quick : Bool) (frac : ℤ) (s : Sos) : addNWays none false vars quick frac = some [] ∧ addNWays (some s) true vars quick frac = some [] ∧
    (s.num = 0 → addNWays (some s) false vars quick frac = some []) := by
  refine ⟨rfl, by simp [addNWays], fun h => by simp [addNWays, h]⟩

/-- What the consequences of the member at place `j` of a set are: the variables at the places `q` of any set for which `weights[q]` and `weights[j]` agree up to the fraction — the weights of the first set,
whatever the set. -/
theorem consequences_exact (s : Sos) (vars : Option (List ℤ)) (quick : Bool) (frac : ℤ) (os : List (Obj × ℤ)) (hn : 0 < s.num) (h : addNWays (some s) false vars quick frac = some os)
    (i j c : ℕ) (N : Obj) (p : ℤ) (hi : os[i]? = some (N, p)) (hj : N.members[j]? = some c) (v : ℕ) :
    v ∈ N.conseq j ↔ v ≠ c ∧ ∃ i' q wq wj, i' < s.num ∧ s.At i' q v ∧ s.weights[q]? = some wq ∧ s.weights[j]? = some wj ∧ -1 < wj ∧ -1 < wq ∧ ⌊wq⌋.toNat = ⌊wj⌋.toNat := by
  obtain ⟨gs, hg, hl, ho⟩ := addNWays_parts s vars quick frac os hn h
  have hlt : i < s.num := by rw [← hl]; exact (List.getElem?_eq_some_iff.1 hi).1
  rw [ho i hlt] at hi
  obtain ⟨h1, h2, h3, h4, h5, r, hr, hc⟩ := object_parts s vars quick frac gs i N p hi
  have hne : N.members ≠ [] := by intro h0; rw [h0] at hj; simp at hj
  rw [if_neg hne] at hc
  obtain ⟨-, hsp⟩ := conses_spec s gs N.members 0 r hr
  obtain ⟨k, g, e1, e2, e3⟩ := hsp j c hj
  rw [Nat.zero_add] at e1
  have hk : k < (List.replicate (s.num + 1) ([] : List ℕ)).length := by
    rw [← groups_length s _ _ _ gs hg]; exact (List.getElem?_eq_some_iff.1 e2).1
  have hm := groups_mem s _ _ _ gs hg k hk v
  have hconseq : N.conseq j = g.filter (· ≠ c) := by simp only [Obj.conseq, hc, e3]
  have hgk : ∀ q, s.group q = some k ↔ ∃ wq wj, s.weights[q]? = some wq ∧ s.weights[j]? = some wj ∧ -1 < wj ∧ -1 < wq ∧ ⌊wq⌋.toNat = ⌊wj⌋.toNat := by
    intro q
    unfold Sos.group at e1 ⊢
    cases hwj : s.weights[j]? with
    | none => simp [hwj] at e1
    | some wj =>
      simp only [hwj, Option.bind_some, truncIdx] at e1
      split_ifs at e1 with hlt1
      rw [Option.some.injEq] at e1
      cases hwq : s.weights[q]? with
      | none => simp
      | some wq =>
        simp only [Option.bind_some, truncIdx, Option.some.injEq]
        constructor
        · intro h0
          split_ifs at h0 with hlt2
          rw [Option.some.injEq] at h0
          exact ⟨wq, wj, rfl, rfl, hlt1, hlt2, h0.trans e1.symm⟩
        · rintro ⟨a, b, rfl, rfl, h6, h7, h8⟩
          rw [if_pos h7, h8, e1]
  rw [hconseq, List.mem_filter]
  have hgm : v ∈ g ↔ ∃ i' q, i' < s.num ∧ s.At i' q v ∧ s.group q = some k := by
    have : (∃ g, gs[k]? = some g ∧ v ∈ g) ↔ v ∈ g := by simp [e2]
    rw [← this, hm]
    constructor
    · rintro (⟨g', h6, h7⟩ | ⟨i', q, -, h7, h8⟩)
      · rw [List.getElem?_replicate] at h6; split_ifs at h6; simp only [Option.some.injEq] at h6; subst h6; simp at h7
      · exact ⟨i', q, by omega, h8⟩
    · rintro ⟨i', q, h7, h8⟩
      exact Or.inr ⟨i', q, Nat.zero_le _, by omega, h8⟩
  rw [hgm]
  simp only [ne_eq, decide_eq_true_eq]
  constructor
  · rintro ⟨⟨i', q, h6, h7, h8⟩, h9⟩
    obtain ⟨wq, wj, h10⟩ := (hgk q).1 h8
    exact ⟨h9, i', q, wq, wj, h6, h7, h10⟩
  · rintro ⟨h9, i', q, wq, wj, h6, h7, h10⟩
    exact ⟨⟨i', q, h6, h7, (hgk q).2 ⟨wq, wj, h10⟩⟩, h9⟩

/-- **C131 (partial).** The consequences of a member are the other variables of all sets with the same weight (up to the fraction), provided every set has the weights of the first ones of the list,
place by place, and weights are not negative.  Missing: sets with weights of their own. -/
theorem consequences_partial (s : Sos) (vars : Option (List ℤ)) (quick : Bool) (frac : ℤ) (os : List (Obj × ℤ)) (hn : 0 < s.num) (h : addNWays (some s) false vars quick frac = some os)
    (hsame : ∀ i j c a, i < s.num → s.At i j c → s.starts[i]? = some a → s.weights[a + j]? = s.weights[j]?) (hpos : ∀ w ∈ s.weights, 0 ≤ w)
    (i j c : ℕ) (N : Obj) (p : ℤ) (hi : os[i]? = some (N, p)) (hj : N.members[j]? = some c) (v : ℕ) :
    v ∈ N.conseq j ↔ v ≠ c ∧ ∃ i' q k, i' < s.num ∧ s.At i' q v ∧ s.WeightIs i' q k ∧ s.WeightIs i j k := by
  rw [consequences_exact s vars quick frac os hn h i j c N p hi hj v]
  have hlt : i < s.num := by rw [← (objects_exact s vars quick frac os hn h).1]; exact (List.getElem?_eq_some_iff.1 hi).1
  have hat : s.At i j c := (((objects_exact s vars quick frac os hn h).2 i N p hi).1 j c).1 hj
  have key : ∀ i q u, i < s.num → s.At i q u → ∀ k, s.WeightIs i q k ↔ ∃ w, s.weights[q]? = some w ∧ ⌊w⌋.toNat = k := by
    intro i q u hi hu k
    have hu' := hu
    obtain ⟨a, b, ha, hb, h1, h2⟩ := hu
    have e := hsame i q u a hi hu' ha
    constructor
    · rintro ⟨a', w, ha', hw, hk⟩
      rw [ha, Option.some.injEq] at ha'
      subst ha'
      have hw0 : 0 ≤ w := hpos w (List.mem_of_getElem? hw)
      have := (truncIdx_iff w k hw0).2 hk
      unfold truncIdx at this
      rw [if_pos (by linarith), Option.some.injEq] at this
      exact ⟨w, by rw [← e]; exact hw, this⟩
    · rintro ⟨w, hw, hk⟩
      have hw0 : 0 ≤ w := hpos w (List.mem_of_getElem? hw)
      refine ⟨a, w, ha, by rw [e]; exact hw, (truncIdx_iff w k hw0).1 ?_⟩
      unfold truncIdx
      rw [if_pos (by linarith), hk]
  constructor
  · rintro ⟨h1, i', q, wq, wj, h2, h3, h4, h5, h6, h7, h8⟩
    exact ⟨h1, i', q, ⌊wj⌋.toNat, h2, h3, (key i' q v h2 h3 _).2 ⟨wq, h4, h8⟩, (key i j c hlt hat _).2 ⟨wj, h5, rfl⟩⟩
  · rintro ⟨h1, i', q, k, h2, h3, h4, h5⟩
    obtain ⟨wq, e1, e2⟩ := (key i' q v h2 h3 k).1 h4
    obtain ⟨wj, e3, e4⟩ := (key i j c hlt hat k).1 h5
    have p1 := hpos wq (List.mem_of_getElem? e1)
    have p2 := hpos wj (List.mem_of_getElem? e3)
    exact ⟨h1, i', q, wq, wj, h2, h3, e1, e3, by linarith, by linarith, by rw [e2, e4]⟩

/-- Two sets with the weights 1, 2: the consequence of the first member of the first set is the first member of the second set. -/
example : addNWays (some ⟨2, [0, 2, 4], [0, 1, 2, 3], [1, 2, 1, 2], none⟩) false none false 5 =
    some [(⟨[0, 1], some [some [2], some [3]], [], false, 5⟩, 1), (⟨[2, 3], some [some [0], some [1]], [], false, 5⟩, 1)] := by decide +kernel

/-- The priority of the second set is used although the variables have none. -/
example : (addNWays (some ⟨2, [0, 2, 4], [0, 1, 2, 3], [1, 2, 1, 2], some [0, 7]⟩) false none false 5).map (·.map Prod.snd) = some [1, 7] := by decide +kernel

/-- **C131 (refuted).** With weights of their own the sets get wrong consequences: here variables 0 and 3 have the weight 1, but the consequence of variable 0 is variable 2, with the weight 2. -/
theorem weights_of_first_set : ∃ (s : Sos) (os : List (Obj × ℤ)) (N : Obj) (p : ℤ), s.Ok ∧ addNWays (some s) false none false 5 = some os ∧ os[0]? = some (N, p) ∧ N.members[0]? = some 0 ∧
    s.At 1 1 3 ∧ s.WeightIs 0 0 1 ∧ s.WeightIs 1 1 1 ∧ s.WeightIs 1 0 2 ∧ N.conseq 0 = [2] := by
  refine ⟨⟨2, [0, 2, 4], [0, 1, 2, 3], [1, 2, 2, 1], none⟩, _, _, _, ⟨?_, by simp⟩, (by decide +kernel : addNWays _ _ _ _ _ = some [((⟨[0, 1], some [some [2], some [3]], [], false, 5⟩ : Obj), (1 : ℤ)), (⟨[2, 3], some [some [0], some [1]], [], false, 5⟩, 1)]),
    rfl, rfl, ⟨2, 4, rfl, rfl, by decide, rfl⟩, ⟨0, 1, rfl, rfl, by norm_num⟩, ⟨2, 1, rfl, rfl, by norm_num⟩, ⟨2, 2, rfl, rfl, by norm_num⟩, rfl⟩
  intro i hi
  match i, hi with
  | 0, _ => exact ⟨0, 2, rfl, rfl, by decide, by decide⟩
  | 1, _ => exact ⟨2, 4, rfl, rfl, by decide, by decide⟩

/-- **C131 (refuted).** Weights are used as indices of an array with one entry more than there are sets: a set with a greater weight among its first ones is an access out of range. -/
theorem weight_out_of_range (s : Sos) (vars : Option (List ℤ)) (quick : Bool) (frac : ℤ) (i j c : ℕ) (w : ℚ) (hi : i < s.num) (hat : s.At i j c) (hw : s.weights[j]? = some w) (hbig : (s.num : ℚ) + 1 ≤ w) :
    addNWays (some s) false vars quick frac = none := by
  by_contra hne
  obtain ⟨os, h⟩ := Option.ne_none_iff_exists'.1 hne
  have hn : 0 < s.num := by omega
  obtain ⟨gs, hg, hl, ho⟩ := addNWays_parts s vars quick frac os hn h
  have hlt : i < os.length := by omega
  obtain ⟨⟨N, p⟩, e⟩ : ∃ x, os[i]? = some x := ⟨_, List.getElem?_eq_getElem hlt⟩
  rw [ho i hi] at e
  obtain ⟨h1, -, -, -, -, r, hr, -⟩ := object_parts s vars quick frac gs i N p e
  obtain ⟨-, hsp⟩ := conses_spec s gs N.members 0 r hr
  obtain ⟨k, g, e1, e2, -⟩ := hsp j c ((set_at s i _ h1 j c).2 hat)
  have hk : k < s.num + 1 := by
    have := groups_length s _ _ _ gs hg
    rw [List.length_replicate] at this
    rw [← this]; exact (List.getElem?_eq_some_iff.1 e2).1
  have hs : (0 : ℚ) ≤ s.num := Nat.cast_nonneg _
  rw [Nat.zero_add] at e1
  simp only [Sos.group, hw, Option.bind_some] at e1
  have := (truncIdx_iff w k (by linarith)).1 e1
  have hk' : (k : ℚ) ≤ s.num := by exact_mod_cast (by omega : k ≤ s.num)
  linarith [this.2]

/-- A single set of three variables with the weights 1, 2, 3 (a usual numbering) is out of range. -/
example : addNWays (some ⟨1, [0, 3], [0, 1, 2], [1, 2, 3], none⟩) false none false 5 = none :=
  weight_out_of_range _ _ _ _ 0 1 1 2 (by decide) ⟨0, 3, rfl, rfl, by decide, rfl⟩ rfl (by norm_num)

/-- Nothing fails if the sets are within the indices and the weights read, those at the places below the size of a set, are between 0 and the number of sets. -/
theorem addNWays_defined (s : Sos) (hok : s.Ok) (hw : ∀ i j c, i < s.num → s.At i j c → ∃ w, s.weights[j]? = some w ∧ 0 ≤ w ∧ w < s.num + 1) (vars : Option (List ℤ)) (quick : Bool) (frac : ℤ) :
    ∃ os, addNWays (some s) false vars quick frac = some os := by
  have hset : ∀ i < s.num, ∃ cs, s.set i = some cs := by
    intro i hi
    obtain ⟨a, b, h1, h2, h3, h4⟩ := hok.starts i hi
    exact ⟨_, by unfold Sos.set; rw [h1, h2]; simp only [Option.bind_some]; rw [if_pos ⟨h3, h4⟩]⟩
  have hgrp : ∀ i < s.num, ∀ cs, s.set i = some cs → ∀ q < cs.length, ∃ k ≤ s.num, s.group q = some k := by
    intro i hi cs hcs q hq
    have : cs[q]? = some cs[q] := List.getElem?_eq_getElem hq
    obtain ⟨w, h1, h2, h3⟩ := hw i q _ hi ((set_at s i cs hcs q _).1 this)
    refine ⟨⌊w⌋.toNat, ?_, ?_⟩
    · have : ⌊w⌋ < (s.num : ℤ) + 1 := Int.floor_lt.2 (by push_cast; exact h3)
      omega
    · unfold Sos.group truncIdx; rw [h1]; simp only [Option.bind_some]; rw [if_pos (by linarith)]
  have hpush : ∀ (cs : List ℕ) (j : ℕ) (gs : List (List ℕ)), (∀ q < cs.length, ∃ k < gs.length, s.group (j + q) = some k) → ∃ gs', s.push cs j gs = some gs' := by
    intro cs
    induction cs with
    | nil => intro j gs _; exact ⟨gs, rfl⟩
    | cons c cs ih =>
      intro j gs hq
      obtain ⟨k, hk, hk'⟩ := hq 0 (by simp)
      rw [Nat.add_zero] at hk'
      rw [Sos.push, hk', Option.bind_some, List.getElem?_eq_getElem hk, Option.bind_some]
      apply ih
      intro q hq'
      obtain ⟨k', h1, h2⟩ := hq (q + 1) (by simpa using hq')
      exact ⟨k', by simpa using h1, by rw [← h2]; congr 1; omega⟩
  have hgroups : ∀ (n i : ℕ) (gs : List (List ℕ)), i + n ≤ s.num → gs.length = s.num + 1 → ∃ gs', s.groups n i gs = some gs' := by
    intro n
    induction n with
    | zero => intro i gs _ _; exact ⟨gs, rfl⟩
    | succ n ih =>
      intro i gs hin hgs
      obtain ⟨cs, hcs⟩ := hset i (by omega)
      obtain ⟨g1, hg1⟩ := hpush cs 0 gs (fun q hq => by
        obtain ⟨k, h1, h2⟩ := hgrp i (by omega) cs hcs q hq
        exact ⟨k, by omega, by rw [Nat.zero_add]; exact h2⟩)
      rw [Sos.groups, hcs, Option.bind_some, hg1, Option.bind_some]
      exact ih (i + 1) g1 (by omega) (by rw [push_length s cs 0 gs g1 hg1, hgs])
  obtain ⟨gs, hgs⟩ := hgroups s.num 0 (List.replicate (s.num + 1) []) (by omega) (by simp)
  have hlen : gs.length = s.num + 1 := by rw [groups_length s _ _ _ gs hgs]; simp
  have hconses : ∀ (cs : List ℕ) (j : ℕ), (∀ q < cs.length, ∃ k < gs.length, s.group (j + q) = some k) → ∃ r, s.conses gs cs j = some r := by
    intro cs
    induction cs with
    | nil => intro j _; exact ⟨[], rfl⟩
    | cons c cs ih =>
      intro j hq
      obtain ⟨k, hk, hk'⟩ := hq 0 (by simp)
      rw [Nat.add_zero] at hk'
      obtain ⟨r, hr⟩ := ih (j + 1) (fun q hq' => by
        obtain ⟨k', h1, h2⟩ := hq (q + 1) (by simpa using hq')
        exact ⟨k', h1, by rw [← h2]; congr 1; omega⟩)
      exact ⟨_, by rw [Sos.conses, hk', Option.bind_some, List.getElem?_eq_getElem hk, Option.bind_some, hr, Option.map_some]⟩
  have hprio : ∀ i < s.num, ∃ p, s.prio vars i = some p := by
    intro i hi
    unfold Sos.prio
    by_cases hh : s.hasPrios vars = true
    · rw [if_pos hh]
      cases hp : s.prios with
      | none => exact ⟨1, rfl⟩
      | some l =>
        have := hok.prios l hp
        exact ⟨_, by simp only; rw [List.getElem?_eq_getElem (by omega : i < l.length), Option.map_some]⟩
    · exact ⟨1, by rw [if_neg hh]⟩
  have hobjects : ∀ (n i : ℕ), i + n ≤ s.num → ∃ os, s.objects vars quick frac gs n i = some os := by
    intro n
    induction n with
    | zero => intro i _; exact ⟨[], rfl⟩
    | succ n ih =>
      intro i hin
      obtain ⟨cs, hcs⟩ := hset i (by omega)
      obtain ⟨r, hr⟩ := hconses cs 0 (fun q hq => by
        obtain ⟨k, h1, h2⟩ := hgrp i (by omega) cs hcs q hq
        exact ⟨k, by omega, by rw [Nat.zero_add]; exact h2⟩)
      obtain ⟨p, hp⟩ := hprio i (by omega)
      obtain ⟨os, hos⟩ := ih (i + 1) (by omega)
      exact ⟨_, by rw [Sos.objects, Sos.object, hcs, Option.bind_some, hr, Option.bind_some, hp, Option.map_some, Option.bind_some, hos, Option.map_some]⟩
  obtain ⟨os, hos⟩ := hobjects s.num 0 (by omega)
  by_cases hn : 0 < s.num
  · exact ⟨os, by simp only [addNWays]; rw [if_pos ⟨trivial, hn⟩, hgs, Option.bind_some, hos]⟩
  · exact ⟨[], by simp only [addNWays]; rw [if_neg (fun h => hn h.2)]⟩

example : ∃ os, addNWays (some ⟨2, [0, 2, 4], [0, 1, 2, 3], [1, 2, 1, 2], some [0, 7]⟩) false none false 5 = some os := by
  apply addNWays_defined
  · refine ⟨?_, by intro l hl; simp at hl; subst hl; simp⟩
    intro i hi
    match i, hi with
    | 0, _ => exact ⟨0, 2, rfl, rfl, by decide, by decide⟩
    | 1, _ => exact ⟨2, 4, rfl, rfl, by decide, by decide⟩
  · rintro i j c hi ⟨a, b, ha, hb, hab, -⟩
    have hj : j < 2 := by
      match i, hi with
      | 0, _ => simp at ha hb; omega
      | 1, _ => simp at ha hb; omega
    match j, hj with
    | 0, _ => exact ⟨1, rfl, by norm_num, by norm_num⟩
    | 1, _ => exact ⟨2, rfl, by norm_num, by norm_num⟩

end Verif.Nway

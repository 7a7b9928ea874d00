import Verif.Branch.SetupProps

/-!
# C27: the second list of candidates
`list2` (`BonChooseVariable.cpp:352-368, 451-471`) collects the objects not trusted yet of the best priority, by infeasibility.
-/
namespace Verif.Branch

/-- Offering the objects of one priority to the second list, in order. -/
def offers (c : Cfg) (l : List (Nat × ℚ)) (s : St) : Option St := l.foldlM (fun s p => place2 c p.1 p.2 s) s

/-- State of the second list of size `K` after the objects `V` were offered: `F` is what it holds. -/
structure Rep2 (c : Cfg) (K : Nat) (V : List (Nat × ℚ)) (s : St) (F : List (Nat × ℚ)) : Prop where
  arr : s.list2 = F.map some ++ List.replicate (K - F.length) none
  len : F.length = min K V.length
  sub : F.Subperm V
  check0 : F = [] → s.check2 = -c.huge ∧ s.checkIndex2 = 0
  room : F ≠ [] → F.length < K → s.check2 = 0 ∧ s.checkIndex2 = F.length
  full : F.length = K → (∀ f ∈ F, s.check2 ≤ f.2) ∧ ∃ x, F[s.checkIndex2]? = some (x, s.check2)
  top : ∃ R, (F ++ R).Perm V ∧ ∀ r ∈ R, ∀ f ∈ F, r.2 ≤ f.2

theorem worst_second (c : Cfg) (K k : Nat) (F : List (Nat × ℚ)) (h0 : F ≠ []) (hu : ∀ f ∈ F, f.2 < c.huge) :
    let w := worst (F.map some ++ List.replicate (K - F.length) none) 0 c.huge k
    (F.length < K → w.1 = 0 ∧ w.2 = F.length) ∧ (F.length = K → (∀ f ∈ F, w.1 ≤ f.2) ∧ ∃ x, F[w.2]? = some (x, w.1)) := by
  intro w
  constructor
  · intro h
    obtain ⟨g, hg⟩ : ∃ g, K - F.length = g + 1 := ⟨K - F.length - 1, by omega⟩
    have hw : w = (0, 0 + F.length) := by
      show worst _ _ _ _ = _
      rw [hg, List.replicate_succ, worst_gap]
    rw [hw]; simp
  · intro h
    have hw : w = worst (F.map some) 0 c.huge k := by
      show worst _ _ _ _ = _
      rw [h]; simp
    obtain ⟨h1, h2, h3⟩ := worst_full F 0 c.huge k
    rw [hw]
    refine ⟨h2, ?_⟩
    rcases h3 with h3 | ⟨i, x, hx, hi⟩
    · exfalso
      obtain ⟨f, hf⟩ := List.exists_mem_of_ne_nil F h0
      have := h2 f hf
      rw [h3] at this
      have := hu f hf
      simp only at *
      linarith
    · exact ⟨x, by rw [hi, Nat.zero_add]; exact hx⟩

theorem offer_one (c : Cfg) (K : Nat) (hK : 0 < K) (V : List (Nat × ℚ)) (s : St) (F : List (Nat × ℚ)) (h : Rep2 c K V s F) (i : Nat) (v : ℚ)
    (hv : 0 < v) (hh : v < c.huge) (hV : ∀ p ∈ V, 0 < p.2 ∧ p.2 < c.huge) :
    ∃ s' F', place2 c i v s = some s' ∧ Rep2 c K (V ++ [(i, v)]) s' F' := by
  have hlen2 : s.list2.length = K := by
    rw [h.arr]; simp; have := h.len; omega
  obtain ⟨R, hR, htop⟩ := h.top
  have hFV : ∀ f ∈ F, f ∈ V := fun f hf => h.sub.subset hf
  by_cases hroom : F.length < K
  · -- there is room: appended
    have hc : s.check2 < v ∧ s.checkIndex2 = F.length := by
      by_cases hF : F = []
      · obtain ⟨a, b⟩ := h.check0 hF
        refine ⟨by rw [a]; linarith, by rw [b, hF]; rfl⟩
      · obtain ⟨a, b⟩ := h.room hF hroom
        exact ⟨by rw [a]; exact hv, b⟩
    have hset : s.list2.set s.checkIndex2 (some (i, v)) = (F ++ [(i, v)]).map some ++ List.replicate (K - (F ++ [(i, v)]).length) none := by
      obtain ⟨g, hg⟩ : ∃ g, K - F.length = g + 1 := ⟨K - F.length - 1, by omega⟩
      rw [h.arr, hc.2, hg, List.replicate_succ, List.set_append_right _ _ (by simp)]
      have : K - (F ++ [(i, v)]).length = g := by simp; omega
      rw [this]; simp
    have hw := worst_second c K s.checkIndex2 (F ++ [(i, v)]) (by simp)
      (by intro f hf; rcases List.mem_append.1 hf with hf | hf
          · exact (hV f (hFV f hf)).2
          · simp at hf; rw [hf]; exact hh)
    have hVl : V.length = F.length := by have := h.len; omega
    have hRnil : R = [] := by
      have := hR.length_eq; simp at this; exact List.eq_nil_of_length_eq_zero (by omega)
    subst hRnil
    refine ⟨_, F ++ [(i, v)], by unfold place2; rw [if_pos ⟨by omega, hc.1⟩, if_pos (by omega)], ?_⟩
    refine ⟨hset, by simp; omega, ?_, by simp, ?_, ?_, ⟨[], ?_, by simp⟩⟩
    · exact ((List.append_nil F ▸ hR).append_right [(i, v)]).subperm
    · intro _ hl
      simp only [hset]
      exact hw.1 hl
    · intro hl
      simp only [hset]
      exact hw.2 hl
    · rw [List.append_nil]; exact (List.append_nil F ▸ hR).append_right _
  · have hfull : F.length = K := by have := h.len; omega
    obtain ⟨hmin, x, hx⟩ := h.full hfull
    obtain ⟨hlt, hget⟩ := List.getElem?_eq_some_iff.1 hx
    by_cases hc : s.check2 < v
    · have hset : s.list2.set s.checkIndex2 (some (i, v)) = (F.set s.checkIndex2 (i, v)).map some ++ List.replicate (K - (F.set s.checkIndex2 (i, v)).length) none := by
        rw [h.arr, List.set_append_left _ _ (by simpa using hlt)]
        simp [List.map_set]
      have hFne : F.set s.checkIndex2 (i, v) ≠ [] := by
        intro e; have := congrArg List.length e; simp at this; rw [this] at hlt; simp at hlt
      have hperm : F.Perm ((x, s.check2) :: F.eraseIdx s.checkIndex2) := by
        have := List.getElem_cons_eraseIdx_perm hlt
        rw [hget] at this; exact this.symm
      have hperm' : (F.set s.checkIndex2 (i, v)).Perm ((i, v) :: F.eraseIdx s.checkIndex2) := List.set_perm_cons_eraseIdx hlt _
      have hw := worst_second c K s.checkIndex2 (F.set s.checkIndex2 (i, v)) hFne
        (by intro f hf
            rcases List.mem_cons.1 (hperm'.subset hf) with rfl | hf
            · exact hh
            · exact (hV f (hFV f (List.mem_of_mem_eraseIdx hf))).2)
      refine ⟨_, F.set s.checkIndex2 (i, v), by unfold place2; rw [if_pos ⟨by omega, hc⟩, if_pos (by omega)], ?_⟩
      have hV' : (F.set s.checkIndex2 (i, v) ++ ((x, s.check2) :: R)).Perm (V ++ [(i, v)]) := by
        refine (hperm'.append_right _).trans ?_
        refine List.Perm.trans ?_ ((hR.append_right [(i, v)]))
        refine List.Perm.trans ?_ List.perm_append_comm
        simp only [List.cons_append, List.nil_append]
        refine List.Perm.cons _ ?_
        exact List.perm_middle.trans ((hperm.append_right R).symm)
      refine ⟨hset, ?_, ?_, fun e => absurd e hFne, ?_, ?_, ⟨_, hV', ?_⟩⟩
      · simp; have := h.len; omega
      · exact ((List.sublist_append_left _ _).subperm).trans hV'.subperm
      · intro _ hl
        simp only [List.length_set] at hl; omega
      · intro hl
        simp only [hset]
        exact hw.2 hl
      · intro r hr f hf
        have hf' : s.check2 ≤ f.2 := by
          rcases List.mem_cons.1 (hperm'.subset hf) with rfl | hf
          · exact le_of_lt hc
          · exact hmin f (List.mem_of_mem_eraseIdx hf)
        rcases List.mem_cons.1 hr with rfl | hr
        · exact hf'
        · exact le_trans (htop r hr _ (List.getElem_mem hlt)) (by rw [hget]; exact hf')
    · refine ⟨s, F, by unfold place2; rw [if_neg (by tauto)], ?_⟩
      refine ⟨h.arr, by simp; have := h.len; omega, h.sub.trans (List.sublist_append_left _ _).subperm, h.check0, h.room, h.full, ⟨R ++ [(i, v)], ?_, ?_⟩⟩
      · rw [← List.append_assoc]; exact hR.append_right _
      · intro r hr f hf
        rcases List.mem_append.1 hr with hr | hr
        · exact htop r hr f hf
        · simp at hr; rw [hr]; exact le_trans (not_lt.1 hc) (hmin f hf)

/-- C27: from an empty second list of size `K`, after any sequence of objects not trusted yet of one priority: the list holds the `K` (or all)
most infeasible ones, each once, in its first slots, and the rest of the slots are empty. -/
theorem second_list_top (c : Cfg) (K : Nat) (hK : 0 < K) (V : List (Nat × ℚ)) (hV : ∀ p ∈ V, 0 < p.2 ∧ p.2 < c.huge) (s : St)
    (h1 : s.list2 = List.replicate K none) (h2 : s.check2 = -c.huge) (h3 : s.checkIndex2 = 0) :
    ∃ (s' : St) (F R : List (Nat × ℚ)), offers c V s = some s' ∧ s'.list2 = F.map some ++ List.replicate (K - F.length) none ∧
      F.length = min K V.length ∧ (F ++ R).Perm V ∧ ∀ r ∈ R, ∀ f ∈ F, r.2 ≤ f.2 := by
  have gen : ∀ (W V : List (Nat × ℚ)) (s : St) (F : List (Nat × ℚ)), (∀ p ∈ V ++ W, 0 < p.2 ∧ p.2 < c.huge) → Rep2 c K V s F →
      ∃ s' F', offers c W s = some s' ∧ Rep2 c K (V ++ W) s' F' := by
    intro W
    induction W with
    | nil => intro V s F _ h; exact ⟨s, F, rfl, by rw [List.append_nil]; exact h⟩
    | cons p W ih =>
      intro V s F hV h
      have hp := hV p (by simp)
      obtain ⟨s1, F1, e1, r1⟩ := offer_one c K hK V s F h p.1 p.2 hp.1 hp.2 (fun q hq => hV q (by simp [hq]))
      obtain ⟨s2, F2, e2, r2⟩ := ih (V ++ [p]) s1 F1 (by intro q hq; apply hV; simpa using hq) r1
      refine ⟨s2, F2, ?_, by simpa using r2⟩
      show (place2 c p.1 p.2 s).bind _ = _
      rw [e1]; exact e2
  have h0 : Rep2 c K [] s [] := ⟨by simp [h1], by simp, List.Subperm.refl _, fun _ => ⟨h2, h3⟩, fun h => absurd rfl h,
    fun h => by simp at h; omega, ⟨[], by simp, by simp⟩⟩
  obtain ⟨s', F, e, r⟩ := gen V [] s [] (by simpa using hV) h0
  obtain ⟨R, hR, ht⟩ := r.top
  exact ⟨s', F, R, e, r.arr, by simpa using r.len, by simpa using hR, ht⟩

/-- Before the loop the second list is empty and has `maxFra` slots, whose count is what the options ask for. -/
theorem second_list_init (c : Cfg) (n : Nat) : (St.init c n).list2 = List.replicate (c.maxFra n) none ∧ (St.init c n).check2 = -c.huge ∧ (St.init c n).checkIndex2 = 0 :=
  ⟨rfl, rfl, rfl⟩

example : ∃ s', offers ⟨3, 0, 1, 100⟩ [(4, 1/4), (7, 1/2), (8, 1/8), (9, 1/3)] (St.init ⟨3, 0, 2/3, 100⟩ 10) = some s' ∧ s'.list2 = [some (9, 1/3), some (7, 1/2)] :=
  ⟨(offers ⟨3, 0, 1, 100⟩ [(4, 1/4), (7, 1/2), (8, 1/8), (9, 1/3)] (St.init ⟨3, 0, 2/3, 100⟩ 10)).getD (St.init ⟨3, 0, 2/3, 100⟩ 10), by decide +kernel, by decide +kernel⟩

/-- C27: appending the rest of the second list goes wrong exactly when the arrays are too short. -/
theorem append2_none_iff : ∀ (l : List (Option Nat × ℚ)) (p : Nat) (lst : List (Option Nat)) (use : List ℚ),
    append2 l p (lst, use) = none ↔ (∃ e ∈ l, e.1.isSome) ∧ lst.length < p + (l.filter (fun e => e.1.isSome)).length
  | [], p, lst, use => by simp [append2]
  | (none, v) :: l, p, lst, use => by simp [append2, append2_none_iff l p lst use]
  | (some x, v) :: l, p, lst, use => by
    rw [append2]
    split_ifs with h
    · rw [append2_none_iff l (p + 1)]
      simp only [List.length_set, List.mem_cons, exists_eq_or_imp, Option.isSome_some, true_or, true_and, List.filter_cons, if_true, List.length_cons]
      constructor
      · rintro ⟨-, h⟩; omega
      · intro h'
        refine ⟨?_, by omega⟩
        by_contra hc
        have : l.filter (fun e => e.1.isSome) = [] := by
          rw [List.filter_eq_nil_iff]
          intro e he hs; exact hc ⟨e, he, hs⟩
        rw [this] at h'; simp at h'; omega
    · simp only [true_iff, List.mem_cons, exists_eq_or_imp, Option.isSome_some, true_or, true_and, List.filter_cons, if_true, List.length_cons]
      omega

/-- Three objects in the first list, two in the second, one of which is in both: the common one gets the larger weight, the other is appended. -/
theorem mixIn_example : mixIn 6 3 [some (4, 1/2), some (1, 1/4)] [some 5, some 0, some 4, none, none, none] [-9, -8, -7, 0, 0, 0] =
    some (1, [some 0, some 4, some 5, some 1, none, none], [-8, -(10 ^ 150) * (3 / 2), -9, -(10 ^ 150) * (5 / 4), 0, 0]) := by
  decide +kernel

/-- Both objects of the second list are in the first one: nothing is appended. -/
theorem mixIn_both : mixIn 4 3 [some (2, 1/2), some (0, 1/4)] [some 2, some 3, some 0, none] [-9, -8, -7, 0] =
    some (0, [some 0, some 2, some 3, none], [-(10 ^ 150) * (5 / 4), -(10 ^ 150) * (3 / 2), -8, 0]) := by
  decide +kernel

/-- The second list not full: the loop runs to the end of the objects. -/
theorem mixIn_gap : mixIn 4 2 [some (3, 1/2), none, none] [some 1, some 0, none, none] [-9, -8, 0, 0] =
    some (1, [some 0, some 1, some 3, none], [-8, -9, -(10 ^ 150) * (3 / 2), 0]) := by
  decide +kernel

/-- The first list holds all objects: no room is needed for the others. -/
theorem mixIn_all : mixIn 2 2 [some (1, 1/2), none] [some 0, some 1] [-9, -8] = some (0, [some 0, some 1], [-9, -(10 ^ 150) * (3 / 2)]) := by
  decide +kernel

/-- C27: a whole run with two objects in the second list, both of them outside the first list: they are put in front of it, the entries of the first list that make room are
dropped from it, and they appear twice in the list while the dropped ones are lost. -/
theorem setupList_second : setupList ⟨2, 0, 1, 10^200⟩ keySort [⟨1/2, 1, 5, false⟩, ⟨1/2, 1, 4, false⟩, ⟨1/2, 1, 1, true⟩, ⟨1/4, 1, 2, true⟩, ⟨1/8, 1, 3, true⟩, ⟨0, 1, 1, true⟩, ⟨0, 1, 1, true⟩] =
    some ⟨5, 2, [some 2, some 3, some 4, some 3, some 2]⟩ := by decide +kernel

/-- C27: an infeasible object stops the scan; it is counted. -/
theorem scan_counts_infeasible (c : Cfg) (o : Cand) (os : List Cand) (i : Nat) (s : St) (h : 10 ^ 50 ≤ o.infeas) :
    ∃ t, scan c (o :: os) i s = some (t, false) ∧ t.unsat = s.unsat + 1 ∧ t.slots = s.slots := by
  have h0 : (0 : ℚ) < o.infeas := lt_of_lt_of_le (by positivity) h
  exact ⟨{ s with unsat := s.unsat + 1 }, by simp only [scan, h0, if_true, h], rfl, rfl⟩

/-- Specification: the weight of an object in both lists is replaced by one that puts it in front. -/
def mixWeight (F : List (Nat × ℚ)) (p : Nat × ℚ) : ℚ :=
  match F.find? (fun f => decide (f.1 = p.1)) with
  | some f => -(10 ^ 150) * (1 + f.2)
  | none => p.2

/-- Entry of the second list after the loop: index -1 if the object is in the first list. -/
def mark (P : List (Nat × ℚ)) (f : Nat × ℚ) : Option Nat × ℚ := (if f.1 ∈ P.map Prod.fst then none else some f.1, f.2)

theorem mixWeight_not {F : List (Nat × ℚ)} {p : Nat × ℚ} (h : ∀ f ∈ F, f.1 ≠ p.1) : mixWeight F p = p.2 := by
  unfold mixWeight
  rw [List.find?_eq_none.mpr (by simpa using h)]

theorem mixWeight_mem {F : List (Nat × ℚ)} (hF : F.Pairwise (fun a b => a.1 < b.1)) {f : Nat × ℚ} (hf : f ∈ F) {p : Nat × ℚ} (h : f.1 = p.1) : mixWeight F p = -(10 ^ 150) * (1 + f.2) := by
  unfold mixWeight
  cases hc : F.find? (fun f => decide (f.1 = p.1)) with
  | none =>
    have := List.find?_eq_none.mp hc f hf
    simp [h] at this
  | some e =>
    have h1 : e.1 = p.1 := by simpa using List.find?_some hc
    have h2 := List.mem_of_find?_eq_some hc
    have : e = f := by
      obtain ⟨i, hi, rfl⟩ := List.mem_iff_getElem.mp h2
      obtain ⟨j, hj, rfl⟩ := List.mem_iff_getElem.mp hf
      have g := List.pairwise_iff_getElem.mp hF
      rcases lt_trichotomy i j with hij | hij | hij
      · have := g i j hi hj hij; omega
      · subst hij; rfl
      · have := g j i hj hi hij; omega
    rw [this]

theorem common_spec (Ps Fs : List (Nat × ℚ)) (R : List (Option Nat)) (U : List ℚ) (G : List (Option Nat × ℚ)) (hG : ∀ e ∈ G, e.1 = none)
    (hP : Ps.Pairwise (fun a b => a.1 < b.1)) (hF : Fs.Pairwise (fun a b => a.1 < b.1)) (n : Nat) (hPn : ∀ p ∈ Ps, p.1 < n) (hFn : ∀ f ∈ Fs, f.1 < n) :
    ∀ (k i : Nat) (A A' B B' : List (Nat × ℚ)), i + k = n → Ps = A ++ A' → Fs = B ++ B' → (∀ p ∈ A, p.1 < i) → (∀ p ∈ A', i ≤ p.1) → (∀ p ∈ B, p.1 < i) → (∀ p ∈ B', i ≤ p.1) → B' ≠ [] ∨ G ≠ [] →
      common (Fs.length + G.length) (Ps.map (fun p => some p.1) ++ none :: R) k i A.length B.length
        (A.map (mixWeight Fs) ++ (A'.map Prod.snd ++ U), B.map (mark Ps) ++ (B'.map (fun f => (some f.1, f.2)) ++ G)) = some (Ps.map (mixWeight Fs) ++ U, Fs.map (mark Ps) ++ G) := by
  intro k
  induction k with
  | zero =>
    intro i A A' B B' hi h1 h2 a1 a2 b1 b2 _
    have : A' = [] := List.eq_nil_iff_forall_not_mem.mpr fun p hp => by
      have := a2 p hp
      have := hPn p (by rw [h1]; simp [hp])
      omega
    subst this
    have : B' = [] := List.eq_nil_iff_forall_not_mem.mpr fun p hp => by
      have := b2 p hp
      have := hFn p (by rw [h2]; simp [hp])
      omega
    subst this
    simp only [List.append_nil] at h1 h2
    subst h1 h2
    simp [common]
  | succ k ih =>
    intro i A A' B B' hi h1 h2 a1 a2 b1 b2 hne
    -- what the two pointers read
    have r1 : ∃ a, (Ps.map (fun p => some p.1) ++ none :: R)[A.length]? = some a ∧ (a = some i ↔ ∃ q A'', A' = q :: A'' ∧ q.1 = i) := by
      cases A' with
      | nil => exact ⟨none, by simp [h1], by simp⟩
      | cons q A'' => exact ⟨some q.1, by simp [h1], by simp⟩
    have r2 : ∃ b, (B.map (mark Ps) ++ (B'.map (fun f => (some f.1, f.2)) ++ G))[B.length]? = some b ∧ (b.1 = some i ↔ ∃ f B'', B' = f :: B'' ∧ f.1 = i) ∧ ∀ f B'', B' = f :: B'' → b.2 = f.2 := by
      cases B' with
      | nil =>
        cases G with
        | nil => simp at hne
        | cons e G => exact ⟨e, by simp, by simp [hG e (by simp)], by simp⟩
      | cons q B'' => exact ⟨(some q.1, q.2), by simp, by simp, by rintro f B'' h; cases h; rfl⟩
    obtain ⟨a, ea, ha⟩ := r1
    obtain ⟨b, eb, hb, hb2⟩ := r2
    have stop : ∀ (A A' B : List (Nat × ℚ)), Ps = A ++ A' → Fs = B → (∀ p ∈ A', i + 1 ≤ p.1) → (∀ p ∈ B, p.1 < i + 1) →
        some (A.map (mixWeight Fs) ++ (A'.map Prod.snd ++ U), B.map (mark Ps) ++ G) = some (Ps.map (mixWeight Fs) ++ U, Fs.map (mark Ps) ++ G) := by
      intro A A' B e1 e2 g1 g2
      subst e1 e2
      have : A'.map Prod.snd = A'.map (mixWeight Fs) := by
        apply List.map_congr_left
        intro p hp
        rw [mixWeight_not]
        intro f hf e
        have := g1 p hp
        have := g2 f hf
        omega
      rw [this]
      simp
    have go : ∀ (A A' B B' : List (Nat × ℚ)), Ps = A ++ A' → Fs = B ++ B' → (∀ p ∈ A, p.1 < i + 1) → (∀ p ∈ A', i + 1 ≤ p.1) → (∀ p ∈ B, p.1 < i + 1) → (∀ p ∈ B', i + 1 ≤ p.1) →
        (if B.length = Fs.length + G.length then some (A.map (mixWeight Fs) ++ (A'.map Prod.snd ++ U), B.map (mark Ps) ++ (B'.map (fun f => (some f.1, f.2)) ++ G))
          else common (Fs.length + G.length) (Ps.map (fun p => some p.1) ++ none :: R) k (i + 1) A.length B.length
            (A.map (mixWeight Fs) ++ (A'.map Prod.snd ++ U), B.map (mark Ps) ++ (B'.map (fun f => (some f.1, f.2)) ++ G))) = some (Ps.map (mixWeight Fs) ++ U, Fs.map (mark Ps) ++ G) := by
      intro A A' B B' e1 e2 g1 g2 g3 g4
      by_cases hl : B.length = Fs.length + G.length
      · have : B' = [] ∧ G = [] := by
          have : Fs.length = B.length + B'.length := by rw [e2]; simp
          exact ⟨List.length_eq_zero_iff.mp (by omega), List.length_eq_zero_iff.mp (by omega)⟩
        rw [if_pos hl, this.1]
        simp only [List.map_nil, List.nil_append]
        exact stop A A' B e1 (by rw [e2, this.1]; simp) g2 g3
      · rw [if_neg hl]
        refine ih (i + 1) A A' B B' (by omega) e1 e2 g1 g2 g3 g4 ?_
        by_contra hc
        push Not at hc
        exact hl (by rw [e2, hc.1, hc.2]; simp)
    simp only [common, ea, eb]
    by_cases f1 : a = some i <;> by_cases f2 : b.1 = some i
    · obtain ⟨q, A'', rfl, rfl⟩ := ha.mp f1
      obtain ⟨f, B'', rfl, hfi⟩ := hb.mp f2
      have hbv := hb2 f B'' rfl
      have hq : ∀ p ∈ A'', q.1 + 1 ≤ p.1 := by
        rw [h1] at hP
        exact fun p hp => (List.pairwise_cons.mp (List.pairwise_append.mp hP).2.1).1 p hp
      have hf : ∀ p ∈ B'', q.1 + 1 ≤ p.1 := by
        rw [h2] at hF
        rw [← hfi]
        exact fun p hp => (List.pairwise_cons.mp (List.pairwise_append.mp hF).2.1).1 p hp
      have hw : mixWeight Fs q = -(10 ^ 150) * (1 + f.2) := mixWeight_mem hF (by rw [h2]; simp) hfi
      have hm : mark Ps f = (none, f.2) := by
        unfold mark
        rw [if_pos (by rw [h1, hfi]; simp)]
      have := go (A ++ [q]) A'' (B ++ [f]) B'' (by simp [h1]) (by simp [h2]) (by
        intro p hp
        rcases List.mem_append.mp hp with hp | hp
        · exact (a1 p hp).trans (by omega)
        · simp at hp; subst hp; omega) hq (by
        intro p hp
        rcases List.mem_append.mp hp with hp | hp
        · exact (b1 p hp).trans (by omega)
        · simp at hp; subst hp; omega) hf
      simpa [f1, f2, hbv, hw, hm, List.set_append] using this
    · obtain ⟨q, A'', rfl, rfl⟩ := ha.mp f1
      have hq : ∀ p ∈ A'', q.1 + 1 ≤ p.1 := by
        rw [h1] at hP
        exact fun p hp => (List.pairwise_cons.mp (List.pairwise_append.mp hP).2.1).1 p hp
      have hB : ∀ p ∈ B', q.1 + 1 ≤ p.1 := by
        intro p hp
        cases B' with
        | nil => simp at hp
        | cons f B'' =>
          have h3 : f.1 ≠ q.1 := fun e => f2 (hb.mpr ⟨f, B'', rfl, e⟩)
          have h4 := b2 f (by simp)
          rw [h2] at hF
          rcases List.mem_cons.mp hp with rfl | hp
          · omega
          · have := (List.pairwise_cons.mp (List.pairwise_append.mp hF).2.1).1 p hp
            omega
      have hw : mixWeight Fs q = q.2 := by
        apply mixWeight_not
        intro f hf e
        rw [h2] at hf
        rcases List.mem_append.mp hf with hf | hf
        · have := b1 f hf; omega
        · have := hB f hf; omega
      have := go (A ++ [q]) A'' B B' (by simp [h1]) h2 (by
        intro p hp
        rcases List.mem_append.mp hp with hp | hp
        · exact (a1 p hp).trans (by omega)
        · simp at hp; subst hp; omega) hq (fun p hp => (b1 p hp).trans (by omega)) hB
      simpa [f1, f2, hw] using this
    · obtain ⟨f, B'', rfl, rfl⟩ := hb.mp f2
      have hf : ∀ p ∈ B'', f.1 + 1 ≤ p.1 := by
        rw [h2] at hF
        exact fun p hp => (List.pairwise_cons.mp (List.pairwise_append.mp hF).2.1).1 p hp
      have hA : ∀ p ∈ A', f.1 + 1 ≤ p.1 := by
        intro p hp
        cases A' with
        | nil => simp at hp
        | cons q A'' =>
          have h3 : q.1 ≠ f.1 := fun e => f1 (ha.mpr ⟨q, A'', rfl, e⟩)
          have h4 := a2 q (by simp)
          rw [h1] at hP
          rcases List.mem_cons.mp hp with rfl | hp
          · omega
          · have := (List.pairwise_cons.mp (List.pairwise_append.mp hP).2.1).1 p hp
            omega
      have hm : mark Ps f = (some f.1, f.2) := by
        unfold mark
        rw [if_neg]
        intro hc
        obtain ⟨p, hp, e⟩ := List.mem_map.mp hc
        rw [h1] at hp
        rcases List.mem_append.mp hp with hp | hp
        · have := a1 p hp; omega
        · have := hA p hp; omega
      have := go A A' (B ++ [f]) B'' h1 (by simp [h2]) (fun p hp => (a1 p hp).trans (by omega)) hA (by
        intro p hp
        rcases List.mem_append.mp hp with hp | hp
        · exact (b1 p hp).trans (by omega)
        · simp at hp; subst hp; omega) hf
      simpa [f1, f2, hm] using this
    · have hA : ∀ p ∈ A', i + 1 ≤ p.1 := by
        intro p hp
        cases A' with
        | nil => simp at hp
        | cons q A'' =>
          have h3 : q.1 ≠ i := fun e => f1 (ha.mpr ⟨q, A'', rfl, e⟩)
          have h4 := a2 q (by simp)
          rw [h1] at hP
          rcases List.mem_cons.mp hp with rfl | hp
          · omega
          · have := (List.pairwise_cons.mp (List.pairwise_append.mp hP).2.1).1 p hp
            omega
      have hB : ∀ p ∈ B', i + 1 ≤ p.1 := by
        intro p hp
        cases B' with
        | nil => simp at hp
        | cons f B'' =>
          have h3 : f.1 ≠ i := fun e => f2 (hb.mpr ⟨f, B'', rfl, e⟩)
          have h4 := b2 f (by simp)
          rw [h2] at hF
          rcases List.mem_cons.mp hp with rfl | hp
          · omega
          · have := (List.pairwise_cons.mp (List.pairwise_append.mp hF).2.1).1 p hp
            omega
      have := go A A' B B' h1 h2 (fun p hp => (a1 p hp).trans (by omega)) hA (fun p hp => (b1 p hp).trans (by omega)) hB
      simpa [f1, f2] using this

theorem append2_spec : ∀ (l : List (Option Nat × ℚ)) (X : List (Option Nat)) (Y : List ℚ) (R : List (Option Nat)) (U : List ℚ), X.length = Y.length → R.length = U.length →
    (l.filter (fun e => e.1.isSome)).length ≤ R.length →
    append2 l X.length (X ++ R, Y ++ U) = some (X.length + (l.filter (fun e => e.1.isSome)).length,
      X ++ ((l.filter (fun e => e.1.isSome)).map Prod.fst ++ R.drop (l.filter (fun e => e.1.isSome)).length),
      Y ++ ((l.filter (fun e => e.1.isSome)).map (fun e => -(10 ^ 150) * (1 + e.2)) ++ U.drop (l.filter (fun e => e.1.isSome)).length))
  | [], X, Y, R, U, _, _, _ => by simp [append2]
  | (none, v) :: l, X, Y, R, U, h1, h2, h3 => by
    have := append2_spec l X Y R U h1 h2 (by simpa using h3)
    simpa [append2] using this
  | (some x, v) :: l, X, Y, R, U, h1, h2, h3 => by
    rcases R with _ | ⟨r, R⟩
    · simp at h3
    rcases U with _ | ⟨u, U⟩
    · simp at h2
    have := append2_spec l (X ++ [some x]) (Y ++ [-(10 ^ 150) * (1 + v)]) R U (by simp [h1]) (by simpa using h2) (by simpa using h3)
    simp only [List.length_append, List.length_singleton, List.append_assoc, List.singleton_append] at this
    rw [append2, if_pos (by simp)]
    have e1 : (X ++ r :: R).set X.length (some x) = X ++ some x :: R := by simp
    have e2 : (Y ++ u :: U).set X.length (-(10 ^ 150) * (1 + v)) = Y ++ (-(10 ^ 150) * (1 + v)) :: U := by rw [h1]; simp
    rw [e1, e2, this]
    simp
    omega
/-- **C27.**  Mixing the objects that are not trusted into the list, for all lists without repetitions when the slot after the first list is empty: every object of both lists gets a weight that puts it in front, all other
entries of the first list keep theirs, and the objects of the second list that are not in the first are appended with such a weight; both lists come out in the order of the indices. -/
theorem mixIn_exact (n g : Nat) (P F : List (Nat × ℚ)) (R : List (Option Nat)) (u : ℚ) (U : List ℚ) (hP : (P.map Prod.fst).Nodup) (hF : (F.map Prod.fst).Nodup) (hPn : ∀ p ∈ P, p.1 < n) (hFn : ∀ f ∈ F, f.1 < n)
    (h0 : F ≠ []) (hR : R.length = U.length) (hroom : (F.filter (fun f => decide (f.1 ∉ P.map Prod.fst))).length ≤ R.length + 1) :
    ∃ Ps N : List (Nat × ℚ), Ps.Perm P ∧ Ps.Pairwise (fun a b => a.1 < b.1) ∧ N.Perm (F.filter (fun f => decide (f.1 ∉ P.map Prod.fst))) ∧ N.Pairwise (fun a b => a.1 < b.1) ∧
      mixIn n P.length (F.map some ++ List.replicate g none) (P.map (fun p => some p.1) ++ none :: R) (P.map Prod.snd ++ u :: U) =
        some (N.length, Ps.map (fun p => some p.1) ++ (N.map (fun f => some f.1) ++ (none :: R).drop N.length),
          Ps.map (mixWeight F) ++ (N.map (fun f => -(10 ^ 150) * (1 + f.2)) ++ (u :: U).drop N.length)) := by
  have strict : ∀ L : List (Nat × ℚ), (L.map Prod.fst).Nodup → (L.insertionSort (fun a b => a.1 ≤ b.1)).Pairwise (fun a b => a.1 < b.1) := by
    intro L hL
    have h1 : (L.insertionSort (fun a b => a.1 ≤ b.1)).Pairwise (fun a b => a.1 ≤ b.1) := List.pairwise_insertionSort (r := fun a b : Nat × ℚ => a.1 ≤ b.1) L
    have h2 : ((L.insertionSort (fun a b => a.1 ≤ b.1)).map Prod.fst).Nodup := (((List.perm_insertionSort (fun a b : Nat × ℚ => a.1 ≤ b.1) L).map Prod.fst).nodup_iff).mpr hL
    have h3 := List.pairwise_map.mp h2
    exact (h1.and h3).imp fun h => lt_of_le_of_ne h.1 h.2
  set Ps := P.insertionSort (fun a b => a.1 ≤ b.1) with hPs
  set Fs := F.insertionSort (fun a b => a.1 ≤ b.1) with hFs
  have pP : Ps.Perm P := List.perm_insertionSort _ _
  have pF : Fs.Perm F := List.perm_insertionSort _ _
  have hmemP : ∀ x, x ∈ Ps.map Prod.fst ↔ x ∈ P.map Prod.fst := fun x => (pP.map Prod.fst).mem_iff
  have hwt : ∀ p, mixWeight Fs p = mixWeight F p := by
    intro p
    by_cases h : ∃ f ∈ F, f.1 = p.1
    · obtain ⟨f, hf, e⟩ := h
      rw [mixWeight_mem (strict F hF) (pF.mem_iff.mpr hf) e]
      unfold mixWeight
      cases hc : F.find? (fun f => decide (f.1 = p.1)) with
      | none =>
        have := List.find?_eq_none.mp hc f hf
        simp [e] at this
      | some e' =>
        have e1 : e'.1 = p.1 := by simpa using List.find?_some hc
        have : e' = f := List.inj_on_of_nodup_map hF (List.mem_of_find?_eq_some hc) hf (e1.trans e.symm)
        rw [this]
    · push Not at h
      rw [mixWeight_not h, mixWeight_not fun f hf => h f (pF.mem_iff.mp hf)]
  refine ⟨Ps, Fs.filter (fun f => decide (f.1 ∉ P.map Prod.fst)), pP, strict P hP, pF.filter _, (strict F hF).filter _, ?_⟩
  have e2 : (F.map some ++ List.replicate g none).filterMap id = F := by simp [List.filterMap_append, List.filterMap_map]
  have ez : (((P.map (fun p => some p.1) ++ none :: R).zip (P.map Prod.snd ++ u :: U)).take P.length).insertionSort (fun a b => a.1.getD 0 ≤ b.1.getD 0) = Ps.map (fun p => (some p.1, p.2)) := by
    rw [List.zip_append (by simp), List.take_append_of_le_length (by simp), List.take_of_length_le (by simp), List.zip_map', hPs,
      List.map_insertionSort (r := fun a b : Nat × ℚ => a.1 ≤ b.1) (s := fun a b : Option Nat × ℚ => a.1.getD 0 ≤ b.1.getD 0) (fun p : Nat × ℚ => (some p.1, p.2)) P (by intro a _ b _; rfl)]
  have hlen : Ps.length = P.length := pP.length_eq
  have hlenF : Fs.length = F.length := pF.length_eq
  have hc := common_spec Ps Fs R (u :: U) (List.replicate g (none, 0)) (by intro e he; rw [List.eq_of_mem_replicate he]) (strict P hP) (strict F hF) n (fun p hp => hPn p (pP.mem_iff.mp hp))
    (fun p hp => hFn p (pF.mem_iff.mp hp)) n 0 [] Ps [] Fs (by simp) rfl rfl (by simp) (by simp) (by simp) (by simp) (Or.inl fun e => h0 (by rw [← List.length_eq_zero_iff, ← hlenF, e]; rfl))
  simp only [List.map_nil, List.nil_append, List.length_nil, List.length_replicate, hlenF] at hc
  have hN : ((Fs.map (mark Ps)).filter (fun e => e.1.isSome)) = (Fs.filter (fun f => decide (f.1 ∉ P.map Prod.fst))).map (fun f => (some f.1, f.2)) := by
    rw [List.filter_map]
    have : ((fun e : Option Nat × ℚ => e.1.isSome) ∘ mark Ps) = fun f => decide (f.1 ∉ P.map Prod.fst) := by
      funext f
      simp only [Function.comp, mark, hmemP]
      split_ifs with h <;> simp [h]
    rw [this]
    apply List.map_congr_left
    intro f hf
    have : f.1 ∉ P.map Prod.fst := by simpa using (List.mem_filter.mp hf).2
    unfold mark
    rw [if_neg (by rwa [hmemP])]
  have ha := append2_spec (Fs.map (mark Ps)) (Ps.map (fun p => some p.1)) (Ps.map (mixWeight Fs)) (none :: R) (u :: U) (by simp) (by simp [hR]) (by
    rw [hN, List.length_map, (pF.filter _).length_eq]
    simpa using hroom)
  rw [hN] at ha
  simp only [List.length_map, List.map_map, hlen] at ha
  unfold mixIn
  simp only [e2]
  rw [if_neg (fun h => h0 (List.length_eq_zero_iff.mp h)), ez]
  simp only [List.map_map, Function.comp_def]
  have d1 : (P.map (fun p => some p.1) ++ none :: R).drop P.length = none :: R := by simp
  have d2 : (P.map Prod.snd ++ u :: U).drop P.length = u :: U := by simp
  have d3 : ((F.map some ++ List.replicate g none).drop F.length).map (fun o : Slot => (o.map Prod.fst, (o.map Prod.snd).getD 0)) = List.replicate g (none, 0) := by simp
  rw [d1, d2, d3]
  have : (F.map some ++ List.replicate g none).length = F.length + g := by simp
  rw [this, hc, Option.bind_some]
  have : ((Fs.map (mark Ps) ++ List.replicate g (none, 0)).take F.length) = Fs.map (mark Ps) := by rw [← hlenF]; simp
  simp only [this]
  rw [ha]
  simp only [Option.map_some, Nat.add_sub_cancel_left, Option.some.injEq, Prod.mk.injEq, true_and]
  refine ⟨rfl, ?_⟩
  congr 1
  exact List.map_congr_left fun p _ => hwt p

/-- Three objects in the first list; of the two that are not trusted one is in it. -/
example : mixIn 6 3 ([(4, 1/2), (1, 1/4)].map some ++ List.replicate 2 none) ([(5, -9), (0, -8), (4, -7)].map (fun p : Nat × ℚ => some p.1) ++ none :: [none, none]) ([(5, -9), (0, -8), (4, -7)].map (Prod.snd : Nat × ℚ → ℚ) ++ 0 :: [0, 0]) =
    some (1, [some 0, some 4, some 5, some 1, none, none], [-8, -(10 ^ 150) * (3 / 2), -9, -(10 ^ 150) * (5 / 4), 0, 0]) := by
  decide +kernel

/-- **C27 (refuted).**  The loop reads on after the end of the first list: an object there, which was put aside and is not trusted yet, is taken for one of the list and is not mixed in, although the setting asks for it.  With one more
object, which is satisfied, the slot after the list is empty and the same object becomes the first candidate. -/
theorem untrusted_missed :
    setupList ⟨2, 0, 1, 10 ^ 200⟩ keySort [⟨1/2, 1, 5, false⟩, ⟨1/2, 1, 4, false⟩, ⟨1/4, 1, 2, false⟩, ⟨1/8, 1, 1, true⟩] = some ⟨4, 2, [some 0, some 1, some 3, some 2]⟩ ∧
    setupList ⟨2, 0, 1, 10 ^ 200⟩ keySort [⟨1/2, 1, 5, false⟩, ⟨1/2, 1, 4, false⟩, ⟨1/4, 1, 2, false⟩, ⟨1/8, 1, 1, true⟩, ⟨0, 1, 0, true⟩] = some ⟨4, 2, [some 3, some 0, some 3, some 2]⟩ := by
  constructor <;> decide +kernel

end Verif.Branch

import Verif.Branch.SetupLemmas

/-!
# C27: the candidate list for branching
-/
namespace Verif.Branch

/-- The object with index `i`. -/
def obj (objs : List Cand) (i : Nat) : Cand := objs.getD i ⟨0, 0, 0, false⟩

/-- Indices of the violated objects. -/
def violated (objs : List Cand) : List Nat := (List.range objs.length).filter fun i => decide (0 < (obj objs i).infeas)

/-- `i` is a violated object and no violated object has a better (smaller) priority. -/
def IsBest (objs : List Cand) (i : Nat) : Prop :=
  i ∈ violated objs ∧ ∀ j ∈ violated objs, (obj objs i).prio ≤ (obj objs j).prio

instance (objs : List Cand) (i : Nat) : Decidable (IsBest objs i) := by unfold IsBest; infer_instance

/-- What `CoinSort_2` is known to do. -/
def IsSort (srt : List (ℚ × Option Nat) → List (ℚ × Option Nat)) : Prop :=
  ∀ l, (srt l).Perm l ∧ (srt l).Pairwise fun a b => a.1 ≤ b.1

theorem keySort_isSort : IsSort keySort := by
  intro l
  refine ⟨List.perm_insertionSort _ l, ?_⟩
  have := List.pairwise_insertionSort (fun a b : ℚ × Option Nat => a.1 ≤ b.1)
  have h1 : Std.Total (fun a b : ℚ × Option Nat => a.1 ≤ b.1) := ⟨fun a b => le_total _ _⟩
  have h2 : IsTrans (ℚ × Option Nat) (fun a b => a.1 ≤ b.1) := ⟨fun a b c hab hbc => le_trans hab hbc⟩
  exact List.pairwise_insertionSort _ l

/-- Normal conditions: at least one strong branching candidate is allowed, priorities fit in an `int`, usefulness is positive and below
`COIN_DBL_MAX`, and the second list is not used (option `setup_pseudo_frac` 0, or every object trusted). -/
structure Normal (c : Cfg) (objs : List Cand) : Prop where
  strong : 0 < max c.strong c.strongRoot
  prio : ∀ o ∈ objs, o.prio ≤ intMax
  useful : ∀ o ∈ objs, 0 < o.infeas → 0 < o.useful ∧ o.useful < c.huge
  trusted : c.frac ≤ 0 ∨ ∀ o ∈ objs, o.untrusted = false

theorem obj_mem {objs : List Cand} {i : Nat} (h : i < objs.length) : obj objs i ∈ objs := by
  unfold obj
  rw [List.getD_eq_getElem?_getD, List.getElem?_eq_getElem h]
  exact List.getElem_mem h

theorem mem_violated {objs : List Cand} {i : Nat} : i ∈ violated objs ↔ i < objs.length ∧ 0 < (obj objs i).infeas := by
  unfold violated
  rw [List.mem_filter, List.mem_range, decide_eq_true_eq]

/-- Violated indices below `i`. -/
def upTo (objs : List Cand) (i : Nat) : List Nat := (List.range i).filter fun i => decide (0 < (obj objs i).infeas)

theorem upTo_succ (objs : List Cand) (i : Nat) :
    upTo objs (i + 1) = if 0 < (obj objs i).infeas then upTo objs i ++ [i] else upTo objs i := by
  unfold upTo
  rw [List.range_succ, List.filter_append]
  by_cases h : 0 < (obj objs i).infeas
  · rw [if_pos h]; simp [h]
  · rw [if_neg h]; simp [h]

theorem tailCases {o : Cand} {os : List Cand} {P Q : Prop} (ho : o.infeas < 10 ^ 50)
    (h : ((∀ o ∈ os, o.infeas < 10 ^ 50) → P) ∧ ((∃ o ∈ os, 10 ^ 50 ≤ o.infeas) → Q)) :
    ((∀ y ∈ o :: os, y.infeas < 10 ^ 50) → P) ∧ ((∃ y ∈ o :: os, 10 ^ 50 ≤ y.infeas) → Q) := by
  refine ⟨fun h1 => h.1 fun x hx => h1 x (List.mem_cons_of_mem _ hx), ?_⟩
  rintro ⟨x, hx, h2⟩
  rcases List.mem_cons.mp hx with rfl | hx
  · exact absurd ho (not_lt.mpr h2)
  · exact h.2 ⟨x, hx, h2⟩

theorem scan_spec {c : Cfg} {objs : List Cand} (hN : Normal c objs) (h0 : objs ≠ []) :
    ∀ (os : List Cand) (i : Nat) (s : St) (F : List (Nat × ℚ)) (T : List Nat), objs.drop i = os → i ≤ objs.length →
      Rep c objs.length (c.maxStrong objs.length) (obj objs) (upTo objs i) s F T →
      (upTo objs i ≠ [] → F ≠ []) → (upTo objs i = [] → s.best = intMax) → (c.frac ≤ 0 → s.list2 = []) → s.unsat = (upTo objs i).length →
      ((∀ o ∈ os, o.infeas < 10 ^ 50) → ∃ t F' T', scan c os i s = some (t, true) ∧
        Rep c objs.length (c.maxStrong objs.length) (obj objs) (violated objs) t F' T' ∧ (violated objs ≠ [] → F' ≠ []) ∧
        t.unsat = (violated objs).length) ∧
      ((∃ o ∈ os, 10 ^ 50 ≤ o.infeas) → ∃ t, scan c os i s = some (t, false)) := by
  have hlen : 0 < objs.length := List.length_pos_of_ne_nil h0
  have hM : 1 ≤ c.maxStrong objs.length := by have := hN.strong; unfold Cfg.maxStrong; omega
  intro os
  induction os with
  | nil =>
    intro i s F T hos hi hrep hne hb hl hun
    have : i = objs.length := by
      have := List.drop_eq_nil_iff.mp hos
      omega
    subst this
    exact ⟨fun _ => ⟨s, F, T, rfl, hrep, hne, hun⟩, by simp⟩
  | cons o os ih =>
    intro i s F T hos hi hrep hne hb hl hun
    have hil : i < objs.length := by
      by_contra hc
      rw [List.drop_eq_nil_iff.mpr (not_lt.mp hc)] at hos
      exact absurd hos (by simp)
    have ho : obj objs i = o := by
      unfold obj
      have h2 : objs.drop i = objs[i] :: objs.drop (i + 1) := List.drop_eq_getElem_cons hil
      rw [hos] at h2
      rw [List.getD_eq_getElem?_getD, List.getElem?_eq_getElem hil]
      exact ((List.cons.inj h2).1).symm
    have hos' : objs.drop (i + 1) = os := by
      have h2 : objs.drop i = objs[i] :: objs.drop (i + 1) := List.drop_eq_getElem_cons hil
      rw [hos] at h2
      exact ((List.cons.inj h2).2).symm
    have hmem : o ∈ objs := by rw [← ho]; exact obj_mem hil
    unfold scan
    by_cases hv : 0 < o.infeas
    · have hup := upTo_succ objs i
      rw [ho, if_pos hv] at hup
      rw [if_pos hv]
      by_cases hinf : 10 ^ 50 ≤ o.infeas
      · rw [if_pos hinf]
        exact ⟨fun h => absurd (h o (List.mem_cons_self ..)) (not_lt.mpr hinf), fun _ => ⟨_, rfl⟩⟩
      rw [if_neg hinf]
      have hVl : (upTo objs i).length ≤ i := by
        unfold upTo
        exact le_trans (List.length_filter_le _ _) (by simp)
      have hrep' : Rep c objs.length (c.maxStrong objs.length) (obj objs) (upTo objs i) { s with unsat := s.unsat + 1 } F T := by
        obtain ⟨a1, a2, a3, a4, a5, a6, a7, a8, a9, a10, a11, a12, a13, a14⟩ := hrep
        exact ⟨a1, a2, a3, a4, a5, a6, a7, a8, a9, a10, a11, a12, a13, a14⟩
      obtain ⟨t, F', T', h1, h2, h3, h4⟩ := hrep'.step hM hne hb i (by omega) (by rw [ho]; exact hN.prio o hmem)
        (by rw [ho]; exact (hN.useful o hmem hv).1)
        (by
          intro j hj
          rw [← hup] at hj
          unfold upTo at hj
          rw [List.mem_filter, List.mem_range, decide_eq_true_eq] at hj
          exact (hN.useful _ (obj_mem (by omega)) hj.2).2)
        (by rcases hN.trusted with h | h
            · exact Or.inl h
            · right; rw [ho]; exact h o hmem)
        hl
      rw [ho] at h1
      rw [h1, Option.bind_some]
      refine tailCases (not_le.mp hinf) (ih (i + 1) t F' T' hos' hil ?_ (fun _ => h3) ?_ ?_ ?_)
      · rw [hup]; exact h2
      · rw [hup]; intro e; simp at e
      · intro hf; exact step_list2 h1 (hl hf)
      · rw [h4, hup]; simp [hun]
    · have hup := upTo_succ objs i
      rw [ho, if_neg hv] at hup
      rw [if_neg hv]
      exact tailCases (lt_of_le_of_lt (not_lt.mp hv) (by norm_num)) (ih (i + 1) s F T hos' hil (by rw [hup]; exact hrep) (by rw [hup]; exact hne) (by rw [hup]; exact hb) hl (by rw [hup]; exact hun))

theorem scan_start {c : Cfg} {objs : List Cand} (hN : Normal c objs) (h0 : objs ≠ []) :
    ((∀ o ∈ objs, o.infeas < 10 ^ 50) → ∃ t F' T', scan c objs 0 (St.init c objs.length) = some (t, true) ∧
        Rep c objs.length (c.maxStrong objs.length) (obj objs) (violated objs) t F' T' ∧ (violated objs ≠ [] → F' ≠ []) ∧
        t.unsat = (violated objs).length) ∧
      ((∃ o ∈ objs, 10 ^ 50 ≤ o.infeas) → ∃ t, scan c objs 0 (St.init c objs.length) = some (t, false)) := by
  have hlen : 0 < objs.length := List.length_pos_of_ne_nil h0
  have hM : 1 ≤ c.maxStrong objs.length := by have := hN.strong; unfold Cfg.maxStrong; omega
  exact scan_spec hN h0 objs 0 (St.init c objs.length) [] [] rfl (Nat.zero_le _)
    (by simpa [upTo] using Rep.init c objs.length _ (obj objs) rfl hM (by unfold Cfg.maxStrong; omega))
    (by simp [upTo]) (by intro _; rfl)
    (by intro hf; simp only [St.init, Cfg.maxFra]; rw [if_neg (not_lt.mpr hf)]; rfl)
    (by simp [St.init, upTo])

/-- **C27** (what holds).  Under normal conditions the function never stops at an assert, and with `M` strong branching candidates
allowed: the list holds every violated object exactly once and nothing else; the first `numberOnList_` entries are `min M b` of the
`b` violated objects of best priority, in order of decreasing usefulness; and no best-priority object that comes later is more useful than
one of them.  (Missing from the claim: the *rest* of the list is not ordered by priority, see `setupList_priorities_mixed`.) -/
theorem setupList_partial (c : Cfg) (srt) (hs : IsSort srt) (objs : List Cand) (h0 : objs ≠ []) (hN : Normal c objs)
    (hfe : ∀ o ∈ objs, o.infeas < 10 ^ 50) :
    ∃ (out : Out) (ord : List Nat), setupList c srt objs = some out ∧ out.list.take (violated objs).length = ord.map some ∧
      ord.Perm (violated objs) ∧ out.unsat = (violated objs).length ∧
      out.onList = min (max c.strong c.strongRoot) ((violated objs).filter fun i => decide (IsBest objs i)).length ∧
      (∀ i ∈ ord.take out.onList, IsBest objs i) ∧
      (ord.take out.onList).Pairwise (fun i j => (obj objs j).useful ≤ (obj objs i).useful) ∧
      ∀ i ∈ ord.take out.onList, ∀ j ∈ ord.drop out.onList, IsBest objs j → (obj objs j).useful ≤ (obj objs i).useful := by
  have hlen : 0 < objs.length := List.length_pos_of_ne_nil h0
  have hM : 1 ≤ c.maxStrong objs.length := by have := hN.strong; unfold Cfg.maxStrong; omega
  obtain ⟨t, F, T, hscan, hrep, hne, hun⟩ := (scan_start hN h0).1 hfe
  have hfit := hrep.fit
  have hlM := hrep.lenM
  have hFT : F.length + T.length = (violated objs).length := by
    have := hrep.perm.length_eq
    simpa using this
  unfold setupList
  rw [if_neg (by omega), hscan, Option.bind_some]
  simp only [if_true]
  -- the parts of `finish`
  have hms : min t.maxStrong t.putOther = min (c.maxStrong objs.length) (objs.length - T.length) := by
    rw [hrep.maxS, hrep.put]; omega
  have hfront : (t.slots.take (min t.maxStrong t.putOther)).filterMap id = F := by
    rw [hms, hrep.slots, arr_take (by omega) (by omega) hfit, List.filterMap_append, List.filterMap_map]
    simp
  have hdrop : t.slots.drop F.length = List.replicate (objs.length - F.length - T.length) none ++ T.map fun t => some (t, 0) := by
    rw [hrep.slots, arr_drop_front]
  by_cases hv : violated objs = []
  · have hF : F = [] := by
      apply List.length_eq_zero_iff.mp
      rw [hv] at hFT
      simp at hFT
      exact List.length_eq_zero_iff.mpr hFT.1
    have hT : T = [] := by
      apply List.length_eq_zero_iff.mp
      rw [hv] at hFT
      simp at hFT
      exact List.length_eq_zero_iff.mpr hFT.2
    subst hF
    unfold finish
    simp only [shrink, hfront]
    refine ⟨_, [], rfl, by rw [hv]; simp, by rw [hv], by rw [hun], ?_, by simp, by simp, by simp⟩
    rw [hv]; simp
  have hF := hne hv
  have hFl : F.length ≠ 0 := fun e => hF (List.length_eq_zero_iff.mp e)
  -- the sorted front
  obtain ⟨hperm, hsorted⟩ := hs (F.map fun p => (-p.2, some p.1))
  have hsl := hperm.length_eq
  simp only [List.length_map] at hsl
  have hmem : ∀ q ∈ srt (F.map fun p => (-p.2, some p.1)), ∃ f ∈ F, q = (-f.2, some f.1) := by
    intro q hq
    obtain ⟨f, hf, rfl⟩ := List.mem_map.mp (hperm.mem_iff.mp hq)
    exact ⟨f, hf, rfl⟩
  have hgetD : ∀ l : List (ℚ × Option Nat), (∀ q ∈ l, ∃ f ∈ F, q = (-f.2, some f.1)) →
      l.map Prod.snd = (l.map fun q => q.2.getD 0).map some := by
    intro l hl
    rw [List.map_map]
    apply List.map_congr_left
    intro q hq
    obtain ⟨f, _, rfl⟩ := hl q hq
    rfl
  have hkeyE : finish c srt objs.length t = some ⟨t.unsat, F.length,
      (srt (F.map fun p => (-p.2, some p.1))).map Prod.snd ++ T.map some⟩ := by
    unfold finish
    simp only [shrink, hfront]
    rw [if_neg hFl]
    have hmix : (if 0 < t.list2.length ∧ min t.maxStrong t.putOther ≤ F.length then
        mixIn objs.length F.length t.list2 (F.map (fun p => some p.1) ++ (t.slots.drop F.length).map (Option.map Prod.fst))
          (F.map (fun p => -p.2) ++ (t.slots.drop F.length).map fun o => (o.map Prod.snd).getD 0)
        else some (0, F.map (fun p => some p.1) ++ (t.slots.drop F.length).map (Option.map Prod.fst),
          F.map (fun p => -p.2) ++ (t.slots.drop F.length).map fun o => (o.map Prod.snd).getD 0)) =
        some (0, F.map (fun p => some p.1) ++ (t.slots.drop F.length).map (Option.map Prod.fst),
          F.map (fun p => -p.2) ++ (t.slots.drop F.length).map fun o => (o.map Prod.snd).getD 0) := by
      split
      · unfold mixIn
        have : t.list2.filterMap id = [] := by
          rw [List.filterMap_eq_nil_iff]
          intro a ha
          rw [hrep.two.1 a ha]; rfl
        simp only [this, List.length_nil, if_true]
      · rfl
    rw [hmix, Option.bind_some]
    have hzip : ((F.map (fun p => -p.2) ++ (t.slots.drop F.length).map fun o => (o.map Prod.snd).getD 0).zip
        (F.map (fun p => some p.1) ++ (t.slots.drop F.length).map (Option.map Prod.fst))).take F.length =
        F.map fun p => (-p.2, some p.1) := by
      rw [List.zip_append (by simp), List.take_append_of_le_length (by simp), List.take_of_length_le (by simp), List.zip_map']
    have hdr : (F.map (fun p => some p.1) ++ (t.slots.drop F.length).map (Option.map Prod.fst)).drop F.length =
        (t.slots.drop F.length).map (Option.map Prod.fst) := by
      rw [List.drop_append_of_le_length (by simp), List.drop_of_length_le (by simp), List.nil_append]
    simp only [Nat.add_zero]
    rw [hzip, hdr, hdrop]
    rw [List.take_append_of_le_length (by rw [List.length_map, hsl]), List.take_of_length_le (by rw [List.length_map, hsl])]
    have hd : ((srt (F.map fun p => (-p.2, some p.1))).map Prod.snd ++
        (List.replicate (objs.length - F.length - T.length) (none : Slot) ++ T.map fun t => some (t, 0)).map (Option.map Prod.fst)).drop t.putOther =
        T.map some := by
      rw [List.map_append, ← List.append_assoc, hrep.put, List.drop_append_of_le_length (by simp [hsl]; omega),
        List.drop_of_length_le (by simp [hsl]; omega)]
      simp
    rw [hd, if_pos (by simp only [List.length_append, List.length_map, hsl]; rw [hun, hFT])]
    rw [if_neg (by have := hN.strong; omega)]
  rw [hkeyE]
  have hord := hgetD _ hmem
  set fr := (srt (F.map fun p => (-p.2, some p.1))).map fun q => q.2.getD 0 with hfr
  have hfrl : fr.length = F.length := by rw [hfr, List.length_map, hsl]
  have hfrF : fr.Perm (F.map Prod.fst) := by
    have h1 := hperm.map fun q => q.2.getD 0
    rw [List.map_map] at h1
    exact h1
  have hfrmem : ∀ i ∈ fr, ∃ f ∈ F, f.1 = i := by
    intro i hi
    obtain ⟨f, hf, rfl⟩ := List.mem_map.mp (hfrF.mem_iff.mp hi)
    exact ⟨f, hf, rfl⟩
  have hbest : ∀ i ∈ violated objs, ((obj objs i).prio = t.best ↔ IsBest objs i) := by
    obtain ⟨f, hf⟩ := List.exists_mem_of_ne_nil F hF
    have hfV : f.1 ∈ violated objs := hrep.perm.mem_iff.mp (List.mem_append_left _ (List.mem_map_of_mem hf))
    intro i hi
    constructor
    · intro hp
      exact ⟨hi, fun j hj => by rw [hp]; exact hrep.best j hj⟩
    · rintro ⟨_, h2⟩
      exact le_antisymm (by rw [← (hrep.front f hf).2]; exact h2 _ hfV) (hrep.best i hi)
  have hordperm : (fr ++ T).Perm (violated objs) := (hfrF.append_right T).trans hrep.perm
  have htake : (fr ++ T).take F.length = fr := by
    rw [List.take_append_of_le_length (by omega), List.take_of_length_le (by omega)]
  have hdropo : (fr ++ T).drop F.length = T := by
    rw [List.drop_append_of_le_length (by omega), List.drop_of_length_le (by omega), List.nil_append]
  refine ⟨_, fr ++ T, rfl, ?_, hordperm, by rw [hun], ?_, ?_, ?_, ?_⟩
  · rw [hord, List.map_append, List.take_of_length_le]
    simp only [List.length_append, List.length_map]
    omega
  · -- number of entries
    show F.length = _
    have hcount : ((violated objs).filter fun i => decide (IsBest objs i)).length =
        F.length + (T.filter fun i => decide (IsBest objs i)).length := by
      rw [← (hordperm.filter _).length_eq, List.filter_append, List.length_append]
      congr 1
      rw [List.filter_eq_self.mpr, hfrl]
      intro i hi
      obtain ⟨f, hf, rfl⟩ := hfrmem i hi
      exact decide_eq_true ((hbest _ (hordperm.mem_iff.mp (List.mem_append_left _ hi))).mp (hrep.front f hf).2)
    have hTV : ∀ x ∈ T, x ∈ violated objs := fun x hx => hordperm.mem_iff.mp (List.mem_append_right _ hx)
    have hvl : (violated objs).length ≤ objs.length := by
      unfold violated
      exact le_trans (List.length_filter_le _ _) (by simp)
    by_cases hlt : F.length < c.maxStrong objs.length
    · have : T.filter (fun i => decide (IsBest objs i)) = [] := by
        rw [List.filter_eq_nil_iff]
        intro x hx hb
        have := hrep.others hlt x hx
        rw [(hbest x (hTV x hx)).mpr (of_decide_eq_true hb)] at this
        exact lt_irrefl _ this
      rw [hcount, this]
      simp only [List.length_nil, Nat.add_zero]
      unfold Cfg.maxStrong at hlt
      omega
    · have hle := List.length_filter_le (fun i => decide (IsBest objs i)) T
      rw [hcount]
      unfold Cfg.maxStrong at hlt hlM
      omega
  · intro i hi
    rw [htake] at hi
    obtain ⟨f, hf, rfl⟩ := hfrmem i hi
    exact (hbest _ (hordperm.mem_iff.mp (List.mem_append_left _ hi))).mp (hrep.front f hf).2
  · rw [htake, hfr, List.pairwise_map]
    refine hsorted.imp_of_mem ?_
    intro a b ha hb hab
    obtain ⟨f, hf, rfl⟩ := hmem a ha
    obtain ⟨g, hg, rfl⟩ := hmem b hb
    show (obj objs g.1).useful ≤ (obj objs f.1).useful
    rw [← (hrep.front f hf).1, ← (hrep.front g hg).1]
    simpa using hab
  · intro i hi j hj hb
    rw [htake] at hi
    rw [hdropo] at hj
    obtain ⟨f, hf, rfl⟩ := hfrmem i hi
    rw [← (hrep.front f hf).1]
    exact hrep.top j hj ((hbest j hb.1).mpr hb) f hf

/-- Three violated objects of two priorities and one that is satisfied; two candidates allowed. -/
def sample : List Cand := [⟨1/2, 2, 5, false⟩, ⟨1/4, 1, 3, false⟩, ⟨0, 1, 9, false⟩, ⟨1/8, 1, 4, false⟩]

example : Normal ⟨2, 0, 1/2, 10^200⟩ sample ∧ (∀ o ∈ sample, o.infeas < 10 ^ 50) ∧ IsSort keySort ∧
    setupList ⟨2, 0, 1/2, 10^200⟩ keySort sample = some ⟨3, 2, [some 3, some 1, some 0]⟩ := by
  refine ⟨⟨by decide, by decide, ?_, Or.inr (by decide)⟩, ?_, keySort_isSort, by decide +kernel⟩
  · simp only [sample, List.forall_mem_cons]; norm_num
  · simp only [sample, List.forall_mem_cons]; norm_num

/-- **C27** (infeasible objects).  One object with infeasibility at least 1e50 makes the node infeasible: -1 is returned and there is no
candidate. -/
theorem setupList_infeasible (c : Cfg) (srt) (objs : List Cand) (hN : Normal c objs) (h : ∃ o ∈ objs, 10 ^ 50 ≤ o.infeas) :
    ∃ out, setupList c srt objs = some out ∧ out.unsat = -1 ∧ out.onList = 0 := by
  have h0 : objs ≠ [] := by rintro rfl; simp at h
  obtain ⟨t, ht⟩ := (scan_start hN h0).2 h
  unfold setupList
  rw [if_neg (fun e => h0 (List.length_eq_zero_iff.mp e)), ht, Option.bind_some]
  exact ⟨_, rfl, rfl, rfl⟩

example : Normal ⟨1, 0, 0, 10^200⟩ [⟨1/2, 1, 5, false⟩, ⟨10^60, 1, 5, false⟩] ∧
    setupList ⟨1, 0, 0, 10^200⟩ keySort [⟨1/2, 1, 5, false⟩, ⟨10^60, 1, 5, false⟩] = some ⟨-1, 0, [some 0, none]⟩ := by
  refine ⟨⟨by decide, by decide, ?_, Or.inr (by decide)⟩, by decide +kernel⟩
  simp only [List.forall_mem_cons]; norm_num

/-- **C27** refuted: beyond the first `numberOnList_` entries the list is not ordered by priority.  With one candidate allowed and objects of
priorities 1, 1, 2 the object of priority 2 comes before the second object of priority 1. -/
theorem setupList_priorities_mixed : ∃ (c : Cfg) (objs : List Cand), Normal c objs ∧
    setupList c keySort objs = some ⟨3, 1, [some 0, some 2, some 1]⟩ ∧ (obj objs 1).prio < (obj objs 2).prio := by
  refine ⟨⟨1, 0, 0, 10^200⟩, [⟨1/2, 1, 5, false⟩, ⟨1/2, 1, 4, false⟩, ⟨1/2, 2, 7, false⟩], ⟨by decide, by decide, ?_, Or.inr (by decide)⟩,
    by decide +kernel, by decide⟩
  simp only [List.forall_mem_cons]; norm_num

/-- **C27** refuted with the second list (default `setup_pseudo_frac` 0.5, a positive `number_before_trust_list`): a candidate is lost and
another one is listed twice.  Object 2 is not trusted, it replaces object 1 in front and is still among the others. -/
theorem setupList_loses_and_repeats :
    setupList ⟨2, 0, 1/2, 10^200⟩ keySort [⟨1/2, 1, 5, false⟩, ⟨1/2, 1, 4, false⟩, ⟨1/2, 1, 1, true⟩, ⟨0, 1, 1, true⟩] =
      some ⟨3, 2, [some 2, some 0, some 2]⟩ := by decide +kernel

/-- **C27** refuted for usefulness that is not positive: the test for a free slot is "usefulness above 0", so object 1, more useful than
object 0 and of the same priority, is left out although a second candidate is allowed. -/
theorem setupList_nonpositive :
    setupList ⟨2, 0, 0, 10^200⟩ keySort [⟨1/2, 1, -4, false⟩, ⟨1/2, 1, -1, false⟩] = some ⟨2, 1, [some 0, some 1]⟩ := by decide +kernel

/-- **C27** refuted when no strong branching is allowed at all: the list has a hole (index -1) within its first `numberUnsatisfied_` entries,
and the object in front is not the most useful one. -/
theorem setupList_no_strong :
    setupList ⟨0, 0, 0, 10^200⟩ keySort [⟨1/2, 1, 4, false⟩, ⟨0, 1, 5, false⟩, ⟨1/2, 1, 5, false⟩] =
      some ⟨2, 0, [some 0, none, some 2]⟩ := by decide +kernel

/-- **C27** (length of the second list): none without `setup_pseudo_frac`, otherwise the fraction of the first list rounded down, but at least 1. -/
theorem maxFra_spec (c : Cfg) (n : Nat) :
    (c.frac ≤ 0 → c.maxFra n = 0) ∧
    (0 < c.frac → 1 ≤ c.maxFra n ∧ ((c.maxFra n : ℚ) ≤ c.frac * c.maxStrong n ∨ c.maxFra n = 1) ∧ c.frac * c.maxStrong n < c.maxFra n + 1) := by
  unfold Cfg.maxFra
  constructor
  · intro h; rw [if_neg (not_lt.mpr h)]
  · intro h
    rw [if_pos h]
    have h0 : 0 ≤ c.frac * (c.maxStrong n : ℚ) := mul_nonneg (le_of_lt h) (Nat.cast_nonneg _)
    have hf : 0 ≤ ⌊c.frac * (c.maxStrong n : ℚ)⌋ := Int.floor_nonneg.mpr h0
    have hc : ((⌊c.frac * (c.maxStrong n : ℚ)⌋.toNat : ℕ) : ℚ) = ((⌊c.frac * (c.maxStrong n : ℚ)⌋ : ℤ) : ℚ) := by
      exact_mod_cast Int.toNat_of_nonneg hf
    have hlt := Int.lt_floor_add_one (c.frac * (c.maxStrong n : ℚ))
    have hle := Int.floor_le (c.frac * (c.maxStrong n : ℚ))
    refine ⟨le_max_left _ _, ?_, ?_⟩
    · rcases Nat.le_total 1 ⌊c.frac * (c.maxStrong n : ℚ)⌋.toNat with g | g
      · left; rw [max_eq_right g, hc]; exact hle
      · right; exact max_eq_left g
    · have : ((⌊c.frac * (c.maxStrong n : ℚ)⌋.toNat : ℕ) : ℚ) ≤ ((max 1 ⌊c.frac * (c.maxStrong n : ℚ)⌋.toNat : ℕ) : ℚ) := Nat.cast_le.mpr (le_max_right _ _)
      rw [hc] at this
      linarith

/-- A second list of one entry: the untrusted object is found in both lists and moved to the front. -/
example : ∃ c : Cfg, c.maxFra 3 = 1 ∧ setupList c keySort [⟨1/2, 1, 5, false⟩, ⟨1/4, 1, 3, true⟩, ⟨1/8, 1, 4, false⟩] = some ⟨3, 3, [some 1, some 0, some 2]⟩ := by
  refine ⟨⟨3, 3, 1/3, 10^200⟩, by decide +kernel, by decide +kernel⟩

end Verif.Branch

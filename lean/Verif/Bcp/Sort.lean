import Verif.Bcp.Wire
import Mathlib.Data.Rat.Floor
import Mathlib.Data.List.Sort
import Mathlib.Tactic.Linarith
/-!
# Model of the lists of candidates for distributed strong branching
(experimental/Bcp/BM_lp_branch.cpp:169-307, 322-387, BM_pack.cpp:146-155)

`BM_DISREGARD_SOS` is defined (BM.hpp:22), so all objects are integer variables.  An object carries its priority, its
infeasibility (BM_lp_branch.cpp:196), the value and bounds of its column, and the usefulness computed for it when infeasible
(221-227) and when feasible (270-272).  `CoinSort_2` is any function returning a sorted permutation.
-/
namespace Verif.Bcp

/-- One object as seen by `sort_objects`. -/
structure Obj where
  ind : ℕ
  col : ℕ
  prio : Int
  infeas : ℚ
  v : ℚ
  lo : ℚ
  up : ℚ
  useI : ℚ
  useF : ℚ
  deriving DecidableEq

/-- The lists built (BM.hpp:305-318): `infInd_`, `feasInd_`, the start of the block of infeasible objects not sorted yet, the last
priority, the number of branches. -/
structure St where
  last : Int
  inf : List Obj
  start : ℕ
  feas : List Obj
  num : ℕ
  deriving DecidableEq

/-- Parameters: `DisregardPriorities` and the two sorts. -/
structure Cfg where
  disregard : Bool
  srtI : List Obj → List Obj
  srtF : List Obj → List Obj

/-- The unsorted block of infeasible objects is sorted (BM_lp_branch.cpp:205-215, 276-285). -/
def closeInf (C : Cfg) (s : St) : St :=
  if s.start < s.inf.length then
    { s with inf := s.inf.take s.start ++ C.srtI (s.inf.drop s.start), start := s.inf.length }
  else s

/-- The list of feasible objects is sorted (BM_lp_branch.cpp:255-264, 286-295): `feasBlockStart` is 0 all the time. -/
def closeFeas (C : Cfg) (s : St) : St := if 0 < s.feas.length then { s with feas := C.srtF s.feas } else s

/-- An infeasible object (BM_lp_branch.cpp:201-230). -/
def pushInf (C : Cfg) (s : St) (o : Obj) : St :=
  let t := if C.disregard = false ∧ s.last < o.prio then { closeInf C s with last := o.prio } else s
  { t with inf := t.inf ++ [o], num := t.num + 2 }

/-- Whether a feasible object is listed: not fixed (BM_lp_branch.cpp:241-243). -/
def listed (o : Obj) : Bool := ¬ (|o.up - o.lo| < 1 / 10)

/-- A feasible object that is listed (BM_lp_branch.cpp:244-273). -/
def pushFeas (C : Cfg) (s : St) (o : Obj) : St :=
  let t := if C.disregard = false ∧ s.last < o.prio then { closeFeas C s with last := o.prio } else s
  { t with feas := t.feas ++ [o],
           num := t.num + (if (⌊o.v + 1 / 2⌋ : ℚ) > o.lo ∧ (⌈o.v - 1 / 2⌉ : ℚ) < o.up then 2 else 1) }

/-- The loop (BM_lp_branch.cpp:193-275); the flag tells whether it ran to the end. -/
def sortLoop (C : Cfg) : List Obj → St → Bool × St
  | [], s => (true, s)
  | o :: os, s =>
    if 0 < o.infeas then
      if 10 ^ 50 ≤ o.infeas then (false, s) else sortLoop C os (pushInf C s o)
    else if listed o then sortLoop C os (pushFeas C s o) else sortLoop C os s

/-- `sort_objects` (BM_lp_branch.cpp:169-307) on the objects in the order of `objInd_`; `none`: `objInd_[0]` does not exist.  When the
loop is left early the final sorts are skipped. -/
def sortObjects (C : Cfg) (os : List Obj) : Option (Bool × St) :=
  match os with
  | [] => none
  | o :: _ =>
    match sortLoop C os ⟨o.prio, [], 0, [], 0⟩ with
    | (true, s) => some (true, closeFeas C (closeInf C s))
    | r => some r

/-- The order of two keys, increasing or decreasing (`DecreasingSortInSetupList`). -/
def le (dec : Bool) (a b : ℚ) : Prop := if dec then b ≤ a else a ≤ b

/-- What is known of a sort: a permutation, sorted by the key. -/
def SortOk (dec : Bool) (key : Obj → ℚ) (f : List Obj → List Obj) : Prop :=
  ∀ l, (f l).Perm l ∧ (f l).Pairwise fun a b => le dec (key a) (key b)

/-! ## What is listed -/

/-- The infeasible objects. -/
def infs (os : List Obj) : List Obj := os.filter fun o => 0 < o.infeas

/-- The feasible objects that are not fixed. -/
def feass (os : List Obj) : List Obj := os.filter fun o => ¬ 0 < o.infeas ∧ listed o

/-- Branches of a feasible object: down if not at its lower bound, up if not at its upper bound (BM_lp_branch.cpp:364-385). -/
def feasBr (o : Obj) : List Branch :=
  (if (⌊o.v + 1 / 2⌋ : ℚ) > o.lo then [⟨false, o.ind, o.col, o.v, ⌊o.v - 1 / 2⌋⟩] else []) ++
  (if (⌈o.v - 1 / 2⌉ : ℚ) < o.up then [⟨true, o.ind, o.col, o.v, ⌈o.v + 1 / 2⌉⟩] else [])

/-- Branches of an infeasible object (BM_lp_branch.cpp:331-353). -/
def infBr (o : Obj) : List Branch := [⟨false, o.ind, o.col, o.v, ⌊o.v⌋⟩, ⟨true, o.ind, o.col, o.v, ⌈o.v⌉⟩]

/-- The branches are written one after the other; after each the loops end if `branchNum` have been written
(BM_lp_branch.cpp:343-346, 353-356, 370-373, 381-384). -/
def fill (branchNum : ℕ) : List Branch → List Branch → List Branch
  | acc, [] => acc
  | acc, b :: bs => if acc.length + 1 = branchNum then acc ++ [b] else fill branchNum (acc ++ [b]) bs

/-- `collect_branch_data` (BM_lp_branch.cpp:322-387): what has been written into the array of `branchNum` entries. -/
def collect (branchNum : ℕ) (s : St) : List Branch := fill branchNum [] (s.inf.flatMap infBr ++ s.feas.flatMap feasBr)

/-! ## Lemmas -/

theorem closeInf_perm (C : Cfg) (dec : Bool) (h : SortOk dec Obj.useI C.srtI) (s : St) :
    (closeInf C s).inf.Perm s.inf ∧ (closeInf C s).feas = s.feas ∧ (closeInf C s).num = s.num ∧ (closeInf C s).last = s.last := by
  unfold closeInf
  by_cases hs : s.start < s.inf.length
  · rw [if_pos hs]
    refine ⟨?_, rfl, rfl, rfl⟩
    have := ((h (s.inf.drop s.start)).1).append_left (s.inf.take s.start)
    rwa [List.take_append_drop] at this
  · rw [if_neg hs]
    exact ⟨.refl _, rfl, rfl, rfl⟩

theorem closeFeas_perm (C : Cfg) (dec : Bool) (h : SortOk dec Obj.useF C.srtF) (s : St) :
    (closeFeas C s).feas.Perm s.feas ∧ (closeFeas C s).inf = s.inf ∧ (closeFeas C s).num = s.num ∧
      (closeFeas C s).last = s.last ∧ (closeFeas C s).start = s.start := by
  unfold closeFeas
  by_cases hs : 0 < s.feas.length
  · rw [if_pos hs]
    exact ⟨(h s.feas).1, rfl, rfl, rfl, rfl⟩
  · rw [if_neg hs]
    exact ⟨.refl _, rfl, rfl, rfl, rfl⟩

/-- Number of branches counted for an object. -/
def cnt (o : Obj) : ℕ :=
  if 0 < o.infeas then 2
  else if listed o then (if (⌊o.v + 1 / 2⌋ : ℚ) > o.lo ∧ (⌈o.v - 1 / 2⌉ : ℚ) < o.up then 2 else 1) else 0

theorem sortLoop_perm (C : Cfg) (di df : Bool) (hi : SortOk di Obj.useI C.srtI) (hf : SortOk df Obj.useF C.srtF) :
    ∀ (os : List Obj) (s : St), (∀ o ∈ os, o.infeas < 10 ^ 50) → ∃ s', sortLoop C os s = (true, s') ∧
      s'.inf.Perm (s.inf ++ infs os) ∧ s'.feas.Perm (s.feas ++ feass os) ∧ s'.num = s.num + (os.map cnt).sum
  | [], s, _ => ⟨s, rfl, by simp [infs], by simp [feass], by simp⟩
  | o :: os, s, h => by
    have ho := h o (by simp)
    have hos := fun a ha => h a (List.mem_cons_of_mem o ha)
    by_cases hpos : 0 < o.infeas
    · obtain ⟨s', h1, h2, h3, h4⟩ := sortLoop_perm C di df hi hf os (pushInf C s o) hos
      refine ⟨s', ?_, ?_, ?_, ?_⟩
      · rw [sortLoop, if_pos hpos, if_neg (not_le.2 ho), h1]
      · refine h2.trans ?_
        have e : (pushInf C s o).inf.Perm (s.inf ++ [o]) := by
          unfold pushInf
          dsimp only
          split_ifs
          · exact ((closeInf_perm C di hi s).1).append_right [o]
          · exact .refl _
        have : infs (o :: os) = o :: infs os := by simp [infs, hpos]
        rw [this]
        exact (e.append_right _).trans (by simp)
      · have e : (pushInf C s o).feas = s.feas := by
          unfold pushInf
          dsimp only
          split_ifs
          · exact (closeInf_perm C di hi s).2.1
          · rfl
        have : feass (o :: os) = feass os := by simp [feass, hpos]
        rw [this, ← e]
        exact h3
      · have e : (pushInf C s o).num = s.num + 2 := by
          unfold pushInf
          dsimp only
          split_ifs
          · rw [(closeInf_perm C di hi s).2.2.1]
          · rfl
        rw [h4, e, List.map_cons, List.sum_cons]
        have : cnt o = 2 := by unfold cnt; rw [if_pos hpos]
        omega
    · have hinf : infs (o :: os) = infs os := by simp [infs, hpos]
      by_cases hl : listed o = true
      · obtain ⟨s', h1, h2, h3, h4⟩ := sortLoop_perm C di df hi hf os (pushFeas C s o) hos
        refine ⟨s', ?_, ?_, ?_, ?_⟩
        · rw [sortLoop, if_neg hpos, if_pos hl, h1]
        · have e : (pushFeas C s o).inf = s.inf := by
            unfold pushFeas
            dsimp only
            split_ifs
            · exact (closeFeas_perm C df hf s).2.1
            · rfl
          rw [hinf, ← e]
          exact h2
        · have e : (pushFeas C s o).feas.Perm (s.feas ++ [o]) := by
            unfold pushFeas
            dsimp only
            split_ifs
            · exact ((closeFeas_perm C df hf s).1).append_right [o]
            · exact .refl _
          have : feass (o :: os) = o :: feass os := by
            unfold feass; rw [List.filter_cons_of_pos (by simpa using ⟨not_lt.1 hpos, hl⟩)]
          rw [this]
          exact (h3.trans (e.append_right _)).trans (by simp)
        · have e : (pushFeas C s o).num = s.num + cnt o := by
            unfold cnt
            rw [if_neg hpos, if_pos hl]
            unfold pushFeas
            dsimp only
            by_cases hc : C.disregard = false ∧ s.last < o.prio
            · rw [if_pos hc]
              simp only [(closeFeas_perm C df hf s).2.2.1]
            · rw [if_neg hc]
          rw [h4, e, List.map_cons, List.sum_cons]
          omega
      · obtain ⟨s', h1, h2, h3, h4⟩ := sortLoop_perm C di df hi hf os s hos
        refine ⟨s', ?_, ?_, ?_, ?_⟩
        · rw [sortLoop, if_neg hpos, if_neg hl, h1]
        · rw [hinf]; exact h2
        · have : feass (o :: os) = feass os := by simp [feass, hl]
          rw [this]; exact h3
        · rw [h4, List.map_cons, List.sum_cons]
          have : cnt o = 0 := by unfold cnt; rw [if_neg hpos, if_neg hl]
          omega

/-! ## Properties -/

/-- **C147.** If no object is declared infeasible, the lists are exactly the infeasible objects and the feasible ones that are not
fixed, each once, and the feasible ones are sorted by usefulness. -/
theorem lists_exact (C : Cfg) (di df : Bool) (hi : SortOk di Obj.useI C.srtI) (hf : SortOk df Obj.useF C.srtF) (os : List Obj)
    (hne : os ≠ []) (h : ∀ o ∈ os, o.infeas < 10 ^ 50) : ∃ s, sortObjects C os = some (true, s) ∧ s.inf.Perm (infs os) ∧
      s.feas.Perm (feass os) ∧ s.num = (os.map cnt).sum ∧ s.feas.Pairwise fun a b => le df a.useF b.useF := by
  obtain ⟨o, os', rfl⟩ := List.exists_cons_of_ne_nil hne
  obtain ⟨s', h1, h2, h3, h4⟩ := sortLoop_perm C di df hi hf (o :: os') ⟨o.prio, [], 0, [], 0⟩ h
  have ci := closeInf_perm C di hi s'
  have cf := closeFeas_perm C df hf (closeInf C s')
  refine ⟨closeFeas C (closeInf C s'), by rw [sortObjects, h1], ?_, ?_, ?_, ?_⟩
  · rw [cf.2.1]
    exact ci.1.trans (by simpa using h2)
  · refine cf.1.trans ?_
    rw [ci.2.1]
    simpa using h3
  · rw [cf.2.2.1, ci.2.2.1, h4]
    simp
  · unfold closeFeas
    by_cases hz : 0 < (closeInf C s').feas.length
    · rw [if_pos hz]
      exact (hf _).2
    · rw [if_neg hz]
      have : (closeInf C s').feas = [] := List.length_eq_zero_iff.1 (by omega)
      rw [this]
      exact .nil

/-- Order by priority and within it by usefulness. -/
def Lex (dec : Bool) (a b : Obj) : Prop := a.prio < b.prio ∨ a.prio = b.prio ∧ le dec a.useI b.useI

/-- The invariant of the loop when no feasible object is listed. -/
def Inv (dec : Bool) (s : St) : Prop :=
  ∃ A B : List Obj, s.inf = A ++ B ∧ s.start = A.length ∧ A.Pairwise (Lex dec) ∧ (∀ a ∈ A, a.prio < s.last) ∧ ∀ b ∈ B, b.prio = s.last

theorem closeInf_lex (C : Cfg) (di : Bool) (hi : SortOk di Obj.useI C.srtI) (s : St) (h : Inv di s) :
    (closeInf C s).inf.Pairwise (Lex di) ∧ (closeInf C s).start = (closeInf C s).inf.length ∧
      ∀ a ∈ (closeInf C s).inf, a.prio ≤ s.last := by
  obtain ⟨A, B, e, es, hA, hAl, hB⟩ := h
  have hp := (hi B).1
  have hs := (hi B).2
  by_cases hlt : s.start < s.inf.length
  · have e1 : (closeInf C s).inf = A ++ C.srtI B := by
      unfold closeInf
      rw [if_pos hlt]
      dsimp only
      rw [e, es, List.take_left, List.drop_left]
    refine ⟨?_, ?_, ?_⟩
    · rw [e1, List.pairwise_append]
      refine ⟨hA, ?_, ?_⟩
      · refine hs.imp_of_mem ?_
        intro a b ha hb hab
        exact Or.inr ⟨by rw [hB a (hp.mem_iff.1 ha), hB b (hp.mem_iff.1 hb)], hab⟩
      · intro a ha b hb
        exact Or.inl (by rw [hB b (hp.mem_iff.1 hb)]; exact hAl a ha)
    · rw [e1]
      unfold closeInf
      rw [if_pos hlt]
      simp [e, hp.length_eq]
    · intro a ha
      rw [e1, List.mem_append] at ha
      rcases ha with ha | ha
      · exact (hAl a ha).le
      · exact (hB a (hp.mem_iff.1 ha)).le
  · have hB0 : B = [] := by
      rw [e, List.length_append, es] at hlt
      exact List.length_eq_zero_iff.1 (by omega)
    subst hB0
    rw [List.append_nil] at e
    have e1 : closeInf C s = s := by unfold closeInf; rw [if_neg hlt]
    rw [e1, e]
    exact ⟨hA, es, fun a ha => (hAl a ha).le⟩

theorem sortLoop_inv (C : Cfg) (di : Bool) (hi : SortOk di Obj.useI C.srtI) (hd : C.disregard = false) :
    ∀ (os : List Obj) (s : St), (∀ o ∈ os, o.infeas < 10 ^ 50) → (∀ o ∈ os, ¬ (¬ 0 < o.infeas ∧ listed o = true)) →
      os.Pairwise (fun a b => a.prio ≤ b.prio) → (∀ o ∈ os, s.last ≤ o.prio) → Inv di s →
      ∃ s', sortLoop C os s = (true, s') ∧ Inv di s'
  | [], s, _, _, _, _, hI => ⟨s, rfl, hI⟩
  | o :: os, s, h, hn, hs, hl, hI => by
    have hos := fun a ha => h a (List.mem_cons_of_mem o ha)
    have hns := fun a ha => hn a (List.mem_cons_of_mem o ha)
    rw [List.pairwise_cons] at hs
    by_cases hpos : 0 < o.infeas
    · have key : Inv di (pushInf C s o) ∧ ∀ a ∈ os, (pushInf C s o).last ≤ a.prio := by
        unfold pushInf
        dsimp only
        by_cases hlt : s.last < o.prio
        · rw [if_pos ⟨hd, hlt⟩]
          obtain ⟨c1, c2, c3⟩ := closeInf_lex C di hi s hI
          refine ⟨⟨(closeInf C s).inf, [o], rfl, c2, c1, ?_, by simp⟩, fun a ha => hs.1 a ha⟩
          intro a ha
          exact lt_of_le_of_lt (c3 a ha) hlt
        · rw [if_neg (fun c => hlt c.2)]
          obtain ⟨A, B, e, es, hA, hAl, hB⟩ := hI
          have he : s.last = o.prio := le_antisymm (hl o (by simp)) (not_lt.1 hlt)
          refine ⟨⟨A, B ++ [o], by simp [e], es, hA, hAl, ?_⟩, fun a ha => hl a (by simp [ha])⟩
          intro b hb
          rw [List.mem_append] at hb
          rcases hb with hb | hb
          · exact hB b hb
          · rw [List.mem_singleton] at hb
            subst hb
            exact he.symm
      obtain ⟨s', h1, h2⟩ := sortLoop_inv C di hi hd os (pushInf C s o) hos hns hs.2 key.2 key.1
      exact ⟨s', by rw [sortLoop, if_pos hpos, if_neg (not_le.2 (h o (by simp))), h1], h2⟩
    · have hnl : ¬ listed o = true := fun c => hn o (by simp) ⟨hpos, c⟩
      obtain ⟨s', h1, h2⟩ := sortLoop_inv C di hi hd os s hos hns hs.2 (fun a ha => hl a (by simp [ha])) hI
      exact ⟨s', by rw [sortLoop, if_neg hpos, if_neg hnl, h1], h2⟩

/-- **C147 (partial).** When every object is infeasible or fixed and the objects come in order of priority (BM_pack.cpp:146-154), the
infeasible ones are listed by priority and within a priority by usefulness.  (Missing: feasible objects between them.) -/
theorem priority_order_partial (C : Cfg) (di df : Bool) (hi : SortOk di Obj.useI C.srtI) (hf : SortOk df Obj.useF C.srtF)
    (hd : C.disregard = false) (os : List Obj) (hne : os ≠ []) (h : ∀ o ∈ os, o.infeas < 10 ^ 50)
    (hn : ∀ o ∈ os, ¬ (¬ 0 < o.infeas ∧ listed o = true)) (hs : os.Pairwise (fun a b => a.prio ≤ b.prio)) :
    ∃ s, sortObjects C os = some (true, s) ∧ s.inf.Pairwise (Lex di) := by
  obtain ⟨o, os', rfl⟩ := List.exists_cons_of_ne_nil hne
  have hl : ∀ a ∈ o :: os', o.prio ≤ a.prio := by
    intro a ha
    rcases List.mem_cons.1 ha with ha | ha
    · rw [ha]
    · exact (List.pairwise_cons.1 hs).1 a ha
  obtain ⟨s', h1, h2⟩ := sortLoop_inv C di hi hd (o :: os') ⟨o.prio, [], 0, [], 0⟩ h hn hs hl
    ⟨[], [], rfl, rfl, .nil, by simp, by simp⟩
  refine ⟨closeFeas C (closeInf C s'), by rw [sortObjects, h1], ?_⟩
  rw [(closeFeas_perm C df hf (closeInf C s')).2.1]
  exact (closeInf_lex C di hi s' h2).1

theorem sortLoop_flat (C : Cfg) (p : Int) : ∀ (os : List Obj) (s : St), (∀ o ∈ os, o.infeas < 10 ^ 50) →
    (C.disregard = true ∨ ((∀ o ∈ os, o.prio = p) ∧ s.last = p)) → s.start = 0 →
    ∃ s', sortLoop C os s = (true, s') ∧ s'.start = 0
  | [], s, _, _, h0 => ⟨s, rfl, h0⟩
  | o :: os, s, h, hd, h0 => by
    have hos := fun a ha => h a (List.mem_cons_of_mem o ha)
    have hc : ¬ (C.disregard = false ∧ s.last < o.prio) := by
      rintro ⟨a, b⟩
      rcases hd with hd | hd
      · rw [hd] at a; cases a
      · rw [hd.1 o (by simp), hd.2] at b
        exact lt_irrefl _ b
    by_cases hpos : 0 < o.infeas
    · have e : pushInf C s o = { s with inf := s.inf ++ [o], num := s.num + 2 } := by
        unfold pushInf; dsimp only; rw [if_neg hc]
      obtain ⟨s', h1, h2⟩ := sortLoop_flat C p os (pushInf C s o) hos
        (hd.imp id (fun c => ⟨fun a ha => c.1 a (by simp [ha]), by rw [e]; exact c.2⟩)) (by rw [e]; exact h0)
      exact ⟨s', by rw [sortLoop, if_pos hpos, if_neg (not_le.2 (h o (by simp))), h1], h2⟩
    · by_cases hl : listed o = true
      · have e : pushFeas C s o = { s with feas := s.feas ++ [o],
                                           num := s.num + (if (⌊o.v + 1 / 2⌋ : ℚ) > o.lo ∧ (⌈o.v - 1 / 2⌉ : ℚ) < o.up then 2 else 1) } := by
          unfold pushFeas; dsimp only; rw [if_neg hc]
        obtain ⟨s', h1, h2⟩ := sortLoop_flat C p os (pushFeas C s o) hos
          (hd.imp id (fun c => ⟨fun a ha => c.1 a (by simp [ha]), by rw [e]; exact c.2⟩)) (by rw [e]; exact h0)
        exact ⟨s', by rw [sortLoop, if_neg hpos, if_pos hl, h1], h2⟩
      · obtain ⟨s', h1, h2⟩ := sortLoop_flat C p os s hos (hd.imp id (fun c => ⟨fun a ha => c.1 a (by simp [ha]), c.2⟩)) h0
        exact ⟨s', by rw [sortLoop, if_neg hpos, if_neg hl, h1], h2⟩

/-- **C147.** With priorities disregarded, or all the same, the infeasible objects are listed by usefulness. -/
theorem flat_order (C : Cfg) (di df : Bool) (hi : SortOk di Obj.useI C.srtI) (hf : SortOk df Obj.useF C.srtF) (p : Int)
    (os : List Obj) (hne : os ≠ []) (h : ∀ o ∈ os, o.infeas < 10 ^ 50) (hd : C.disregard = true ∨ ∀ o ∈ os, o.prio = p) :
    ∃ s, sortObjects C os = some (true, s) ∧ s.inf.Pairwise fun a b => le di a.useI b.useI := by
  obtain ⟨o, os', rfl⟩ := List.exists_cons_of_ne_nil hne
  obtain ⟨s', h1, h2⟩ := sortLoop_flat C p (o :: os') ⟨o.prio, [], 0, [], 0⟩ h (hd.imp id fun c => ⟨c, c o (by simp)⟩) rfl
  refine ⟨closeFeas C (closeInf C s'), by rw [sortObjects, h1], ?_⟩
  rw [(closeFeas_perm C df hf (closeInf C s')).2.1]
  unfold closeInf
  rw [h2]
  by_cases hz : 0 < s'.inf.length
  · rw [if_pos hz]
    simpa using (hi s'.inf).2
  · rw [if_neg hz]
    have : s'.inf = [] := List.length_eq_zero_iff.1 (by omega)
    rw [this]
    exact .nil

/-- The order used in the examples. -/
def byUse (key : Obj → ℚ) : List Obj → List Obj := List.insertionSort fun a b => key b ≤ key a

/-- Default parameters. -/
def exCfg : Cfg := ⟨false, byUse Obj.useI, byUse Obj.useF⟩

theorem byUse_ok (key : Obj → ℚ) : SortOk true key (byUse key) := by
  intro l
  refine ⟨List.perm_insertionSort _ l, ?_⟩
  have : Std.Total (fun a b : Obj => key b ≤ key a) := ⟨fun a b => le_total _ _⟩
  have : IsTrans Obj (fun a b : Obj => key b ≤ key a) := ⟨fun a b c h1 h2 => le_trans h2 h1⟩
  have := List.pairwise_insertionSort (fun a b : Obj => key b ≤ key a) l
  simpa [le, byUse] using this

/-- **C147 (refuted).** A feasible object of the second priority moves `lastPriority` on, the block of infeasible objects of the first
priority is not closed, and an infeasible object of the second priority is listed before one of the first. -/
theorem priority_violated : (sortObjects exCfg
    [⟨0, 0, 1, 1 / 2, 1 / 2, 0, 1, 3, 0⟩, ⟨1, 1, 2, 0, 1, 0, 2, 0, 5⟩, ⟨2, 2, 2, 1 / 2, 1 / 2, 0, 1, 7, 0⟩]).map
      (fun r => r.2.inf.map fun o => (o.ind, o.prio)) = some [(2, 2), (0, 1)] := by decide +kernel

/-- **C147 (refuted).** Feasible objects are sorted together whatever their priorities: `feasBlockStart` is never moved. -/
theorem feasible_priorities_mixed : (sortObjects exCfg [⟨0, 0, 1, 0, 1, 0, 2, 0, 3⟩, ⟨1, 1, 2, 0, 1, 0, 2, 0, 5⟩]).map
      (fun r => r.2.feas.map fun o => (o.ind, o.prio)) = some [(1, 2), (0, 1)] := by decide +kernel

/-- **C147 (refuted).** An object that shows the node infeasible (1e50) ends the search with the return value −1, which the caller does
not look at: with no infeasible object before it the lists are empty. -/
theorem infeasible_object_ignored : (sortObjects exCfg [⟨0, 0, 1, 10 ^ 50, 1 / 2, 1, 0, 3, 0⟩]).map (fun r => (r.1, r.2.inf, r.2.num)) =
    some (false, [], 0) := by decide +kernel

/-! ## Collecting the branches -/

theorem fill_take (n : ℕ) : ∀ (bs acc : List Branch), acc.length < n → fill n acc bs = acc ++ bs.take (n - acc.length)
  | [], acc, _ => by simp [fill]
  | b :: bs, acc, h => by
    rw [fill]
    by_cases he : acc.length + 1 = n
    · rw [if_pos he]
      have : n - acc.length = 1 := by omega
      rw [this]
      simp
    · rw [if_neg he, fill_take n bs (acc ++ [b]) (by simp; omega)]
      have : n - acc.length = (n - (acc ++ [b]).length) + 1 := by simp; omega
      rw [this, List.take_succ_cons]
      simp

/-- **C148.** The branches collected are the first `branchNum` of: down and up for each infeasible object in the order of the list,
then those of the feasible objects. -/
theorem collect_exact (n : ℕ) (hn : 1 ≤ n) (s : St) :
    collect n s = (s.inf.flatMap (fun o : Obj => [(⟨false, o.ind, o.col, o.v, ⌊o.v⌋⟩ : Branch), ⟨true, o.ind, o.col, o.v, ⌈o.v⌉⟩]) ++
      s.feas.flatMap (fun o : Obj => (if o.lo < (⌊o.v + 1 / 2⌋ : ℚ) then [(⟨false, o.ind, o.col, o.v, ⌊o.v - 1 / 2⌋⟩ : Branch)] else []) ++
        (if (⌈o.v - 1 / 2⌉ : ℚ) < o.up then [(⟨true, o.ind, o.col, o.v, ⌈o.v + 1 / 2⌉⟩ : Branch)] else []))).take n := by
  rw [collect, fill_take n _ [] (by simp; omega)]
  rfl

theorem feasBr_length (o : Obj) (h : o.lo < o.up) :
    (feasBr o).length = if (⌊o.v + 1 / 2⌋ : ℚ) > o.lo ∧ (⌈o.v - 1 / 2⌉ : ℚ) < o.up then 2 else 1 := by
  have hle : (⌈o.v - 1 / 2⌉ : ℚ) ≤ ⌊o.v + 1 / 2⌋ := by
    have : ⌈o.v - 1 / 2⌉ ≤ ⌊o.v + 1 / 2⌋ := by
      rw [Int.le_floor]
      have := Int.ceil_lt_add_one (o.v - 1 / 2)
      linarith
    exact_mod_cast this
  unfold feasBr
  by_cases h1 : (⌊o.v + 1 / 2⌋ : ℚ) > o.lo
  · by_cases h2 : (⌈o.v - 1 / 2⌉ : ℚ) < o.up
    · rw [if_pos h1, if_pos h2, if_pos ⟨h1, h2⟩]; rfl
    · rw [if_pos h1, if_neg h2, if_neg (fun c => h2 c.2)]; rfl
  · have h2 : (⌈o.v - 1 / 2⌉ : ℚ) < o.up := by linarith
    rw [if_neg h1, if_pos h2, if_neg (fun c => h1 c.1)]; rfl

theorem sum_map_perm {α : Type} (f : α → ℕ) {l l' : List α} (h : l.Perm l') : (l.map f).sum = (l'.map f).sum :=
  (h.map f).sum_eq

theorem cnt_sum : ∀ os : List Obj, (∀ o ∈ os, ¬ o.up < o.lo) →
    (os.map cnt).sum = ((infs os).map fun o => (infBr o).length).sum + ((feass os).map fun o => (feasBr o).length).sum
  | [], _ => rfl
  | o :: os, h => by
    have ih := cnt_sum os (fun a ha => h a (by simp [ha]))
    rw [List.map_cons, List.sum_cons, ih]
    by_cases hpos : 0 < o.infeas
    · have e1 : infs (o :: os) = o :: infs os := by simp [infs, hpos]
      have e2 : feass (o :: os) = feass os := by simp [feass, hpos]
      rw [e1, e2, List.map_cons, List.sum_cons]
      have : cnt o = 2 := by unfold cnt; rw [if_pos hpos]
      have : (infBr o).length = 2 := rfl
      omega
    · have e1 : infs (o :: os) = infs os := by simp [infs, hpos]
      by_cases hl : listed o = true
      · have e2 : feass (o :: os) = o :: feass os := by
          unfold feass; rw [List.filter_cons_of_pos (by simpa using ⟨not_lt.1 hpos, hl⟩)]
        rw [e1, e2, List.map_cons, List.sum_cons]
        have hlt : o.lo < o.up := by
          refine lt_of_le_of_ne (not_lt.1 (h o (by simp))) ?_
          intro hc
          simp only [listed, decide_eq_true_eq] at hl
          apply hl
          rw [hc]
          norm_num
        have : cnt o = (feasBr o).length := by
          rw [feasBr_length o hlt]
          unfold cnt
          rw [if_neg hpos, if_pos hl]
        omega
      · have e2 : feass (o :: os) = feass os := by simp [feass, hl]
        rw [e1, e2]
        have : cnt o = 0 := by unfold cnt; rw [if_neg hpos, if_neg hl]
        omega

/-- **C148.** Whenever at most the number of branches counted by `sort_objects` is asked for, that many are written: no entry of the
array stays uninitialised, if no object has crossed bounds. -/
theorem collect_length (C : Cfg) (di df : Bool) (hi : SortOk di Obj.useI C.srtI) (hf : SortOk df Obj.useF C.srtF) (os : List Obj)
    (hne : os ≠ []) (h : ∀ o ∈ os, o.infeas < 10 ^ 50) (hb : ∀ o ∈ os, ¬ o.up < o.lo) :
    ∃ s, sortObjects C os = some (true, s) ∧ ∀ n, 1 ≤ n → (n ≤ s.num ↔ (collect n s).length = n) := by
  obtain ⟨s, h1, h2, h3, h4, _⟩ := lists_exact C di df hi hf os hne h
  refine ⟨s, h1, ?_⟩
  intro n hn
  have hlen : (s.inf.flatMap infBr ++ s.feas.flatMap feasBr).length = s.num := by
    rw [List.length_append, List.length_flatMap, List.length_flatMap, sum_map_perm _ h2, sum_map_perm _ h3, h4, cnt_sum os hb]
  rw [collect, fill_take n _ [] (by simp; omega)]
  simp only [List.nil_append, List.length_nil, Nat.sub_zero, List.length_take, hlen]
  omega

/-- **C148 (refuted).** With crossed bounds an object is counted that has no branch: one entry of the array stays uninitialised. -/
theorem crossed_bounds_counted : (sortObjects exCfg [⟨0, 0, 1, 0, 1, 2, 1, 0, 0⟩]).map (fun r => (r.2.num, (collect 1 r.2).length)) =
    some (1, 0) := by decide +kernel

/-! ## Examples -/

/-- Three objects of two priorities. -/
def exObjs : List Obj :=
  [⟨0, 0, 1, 1 / 2, 1 / 2, 0, 1, 3, 0⟩, ⟨2, 2, 1, 1 / 4, 5 / 4, 0, 4, 7, 0⟩, ⟨1, 1, 2, 1 / 3, 1 / 3, 0, 2, 9, 5⟩]

example : (sortObjects exCfg exObjs).map (fun r => (r.2.inf.map Obj.ind, r.2.num)) = some ([2, 0, 1], 6) := by decide +kernel

example : (∀ o ∈ exObjs, o.infeas < 10 ^ 50) ∧ (∀ o ∈ exObjs, ¬ o.up < o.lo) ∧
    (∀ o ∈ exObjs, ¬ (¬ 0 < o.infeas ∧ listed o = true)) ∧ exObjs.Pairwise (fun a b => a.prio ≤ b.prio) := by decide +kernel

example : collect 3 ⟨1, exObjs, 0, [], 6⟩ =
    [⟨false, 0, 0, 1 / 2, 0⟩, ⟨true, 0, 0, 1 / 2, 1⟩, ⟨false, 2, 2, 5 / 4, 1⟩] := by decide +kernel

/-- A feasible variable at its lower bound has the up branch only. -/
example : feasBr ⟨0, 3, 1, 0, 0, 0, 4, 0, 0⟩ = [⟨true, 0, 3, 0, 1⟩] := by decide +kernel

example : le false 1 2 ∧ ¬ le false 2 1 ∧ le true 2 1 ∧ ¬ le true 1 2 := by norm_num [le]

/-- **C147**: a feasible object is listed exactly when its bounds are at least 1/10 apart. -/
theorem listed_iff (o : Obj) : listed o = true ↔ 1 / 10 ≤ |o.up - o.lo| := by
  simp [listed]

/-- **C147**: the order of keys, with equal keys in either order. -/
theorem le_iff (dec : Bool) (a b : ℚ) : le dec a b ↔ a = b ∨ (dec = true ∧ b < a) ∨ (dec = false ∧ a < b) := by
  cases dec
  · simp only [le, Bool.false_eq_true, if_false, false_and, true_and, false_or]
    exact le_iff_eq_or_lt
  · simp only [le, if_true, true_and, Bool.true_eq_false, false_and, or_false]
    rw [le_iff_eq_or_lt, eq_comm]

end Verif.Bcp

import Verif.Bcp.Sort
/-!
# Model of the set-up of the processes of the parallel program
(experimental/Bcp/BM_pack.cpp:58-161, BM_tm.cpp:60-133, BM_lp_branch.cpp:70-72)

The two parsings of the problem (master and node processes) are assumed to give the same problem.  `CoinSort_2` is any function
returning the positions sorted by key.  `BM_DISREGARD_SOS` is defined (BM.hpp:22); the parameter `noSos` of the functions is this
switch.
-/
namespace Verif.Bcp

/-- A special ordered set as far as used: priority (when priorities are given). -/
structure SosIn where
  prio : Option Int
  deriving DecidableEq

/-- The problem: columns (integer, binary, lower and upper bound, objective coefficient of the relaxation), priorities of the columns,
special ordered sets, rows of the relaxation. -/
structure Prob where
  cols : List (Bool × Bool × ℚ × ℚ × ℚ)
  prio : Option (List Int)
  sos : List SosIn
  rows : List (ℚ × ℚ)

/-- A branching object: an integer column with bounds, or a special ordered set; with priority. -/
inductive BObj where
  | int (col : ℕ) (lo up : ℚ) (prio : Int)
  | sos (ind : ℕ) (prio : Int)
  deriving DecidableEq

/-- Priority of an object. -/
def BObj.p : BObj → Int
  | .int _ _ _ p => p
  | .sos _ p => p

/-- `columnNumber()` (Osi): the column, -1 for others. -/
def BObj.column : BObj → Int
  | .int c _ _ _ => c
  | .sos _ _ => -1

/-- Loop over the columns (BM_pack.cpp:115-123); an object of Osi has priority 1000 unless set.  `none` = read beyond the array of
priorities. -/
def intObjs (prio : Option (List Int)) : ℕ → List (Bool × Bool × ℚ × ℚ × ℚ) → Option (List BObj)
  | _, [] => some []
  | i, (isInt, _, lo, up, _) :: cs =>
    if isInt then
      match prio with
      | none => (intObjs prio (i + 1) cs).map (BObj.int i lo up 1000 :: ·)
      | some ps =>
        match ps[i]? with
        | none => none
        | some p => (intObjs prio (i + 1) cs).map (BObj.int i lo up p :: ·)
    else intObjs prio (i + 1) cs

/-- Loop over the special ordered sets (BM_pack.cpp:124-135). -/
def sosObjs : ℕ → List SosIn → List BObj
  | _, [] => []
  | i, s :: ss => BObj.sos i (s.prio.getD 1) :: sosObjs (i + 1) ss

/-- All objects (BM_pack.cpp:112-136); writing beyond the array `osiObj` (114) is `none`. -/
def objects (noSos : Bool) (P : Prob) : Option (List BObj) :=
  (intObjs P.prio 0 P.cols).bind fun os =>
    if (os ++ (if noSos then [] else sosObjs 0 P.sos)).length ≤ P.cols.length + P.sos.length then
      some (os ++ (if noSos then [] else sosObjs 0 P.sos))
    else none

/-- `objInd_` (BM_pack.cpp:146-155): positions sorted by priority. -/
def objInd (srt : (ℕ → Int) → List ℕ → List ℕ) (os : List BObj) : List ℕ :=
  srt (fun i => ((os[i]?).map BObj.p).getD 0) (List.range os.length)

/-- What `CoinSort_2` guarantees. -/
def SortPos (srt : (ℕ → Int) → List ℕ → List ℕ) : Prop :=
  ∀ k l, (srt k l).Perm l ∧ (srt k l).Pairwise (fun i j => k i ≤ k j)

/-- Size of the pseudo-costs of the master (BM_tm.cpp:121-132). -/
def pcSize (noSos : Bool) (P : Prob) : ℕ :=
  (P.cols.filter (fun c => c.1)).length + (if noSos then 0 else P.sos.length)

/-- Types of variables of BCP. -/
inductive VarT where | cont | bin | int
  deriving DecidableEq

/-- A core variable of BCP (BM_tm.cpp:113-118): type, objective, bounds. -/
def coreVar (pureBB : Bool) (c : Bool × Bool × ℚ × ℚ × ℚ) : VarT × ℚ × ℚ × ℚ :=
  let t := VarT.cont
  let t := if c.2.1 then VarT.bin else t
  let t := if c.1 then VarT.int else t
  (t, if pureBB then 0 else c.2.2.2.2, c.2.2.1, c.2.2.2.1)

/-- The core of the problem (BM_tm.cpp:94-118): variables and rows (none, and no matrix, for branch and bound). -/
def core (pureBB : Bool) (P : Prob) : List (VarT × ℚ × ℚ × ℚ) × List (ℚ × ℚ) :=
  (P.cols.map (coreVar pureBB), if pureBB then [] else P.rows)

/-- Parameters of BCP changed by the set-up of a node process: integer tolerance, granularity. -/
structure Sync where
  intTol : ℚ
  gran : ℚ
  deriving DecidableEq

/-- Synchronisation of the parameters (BM_pack.cpp:61-87): new parameters of BCP and the two warnings. -/
def sync (bonTol bonDecr : ℚ) (b : Sync) : Sync × Bool × Bool :=
  (⟨bonTol, bonDecr⟩, decide (|bonTol - b.intTol| > 1 / 10 ^ 10), decide (|b.gran - bonDecr| > 1 / 10 ^ 10))

/-- The cutoff given to the branching information (BM_lp_branch.cpp:71). -/
def infoCutoff (ub : ℚ) (b : Sync) : ℚ := ub + b.gran

/-! ### theorems -/

/-- Specification: the priority given to column `k`, 1000 when no priorities are given. -/
def givenPrio (prio : Option (List Int)) (k : ℕ) : Int := prio.elim 1000 (fun ps => ps.getD k 0)

theorem intObjs_exact (prio : Option (List Int)) : ∀ (cs : List (Bool × Bool × ℚ × ℚ × ℚ)) (i : ℕ),
    (∀ ps, prio = some ps → i + cs.length ≤ ps.length) →
    ∃ os, intObjs prio i cs = some os ∧ os.length = (cs.filter (fun c => c.1)).length ∧
      os.Pairwise (fun a b => a.column < b.column) ∧
      ∀ o, o ∈ os ↔ ∃ k c, cs[k]? = some c ∧ c.1 = true ∧
        o = .int (i + k) c.2.2.1 c.2.2.2.1 (givenPrio prio (i + k))
  | [], i, _ => ⟨[], rfl, rfl, List.Pairwise.nil, by simp⟩
  | c :: cs, i, h => by
    obtain ⟨os, h1, h2, h3, h4⟩ := intObjs_exact prio cs (i + 1) (fun ps hp => by
      have := h ps hp; simp at this; omega)
    obtain ⟨isInt, isBin, lo, up, ob⟩ := c
    have hmem : ∀ o, (∃ k c, ((isInt, isBin, lo, up, ob) :: cs)[k]? = some c ∧ c.1 = true ∧
          o = BObj.int (i + k) c.2.2.1 c.2.2.2.1 (givenPrio prio (i + k))) ↔
        (isInt = true ∧ o = BObj.int i lo up (givenPrio prio i)) ∨ o ∈ os := by
      intro o
      rw [h4 o]
      constructor
      · rintro ⟨k, c, hk, hc, ho⟩
        cases k with
        | zero =>
          simp only [List.getElem?_cons_zero, Option.some.injEq] at hk
          subst hk
          exact .inl ⟨hc, ho⟩
        | succ k =>
          rw [List.getElem?_cons_succ] at hk
          refine .inr ⟨k, c, hk, hc, ?_⟩
          rw [ho, show i + (k + 1) = i + 1 + k by omega]
      · rintro (⟨hc, ho⟩ | ⟨k, c, hk, hc, ho⟩)
        · exact ⟨0, _, rfl, hc, ho⟩
        · refine ⟨k + 1, c, by rw [List.getElem?_cons_succ]; exact hk, hc, ?_⟩
          rw [ho, show i + (k + 1) = i + 1 + k by omega]
    have hlow : ∀ o ∈ os, (i : Int) < o.column := by
      intro o ho
      obtain ⟨k, c, _, _, rfl⟩ := (h4 o).1 ho
      simp only [BObj.column]
      omega
    cases isInt with
    | false =>
      refine ⟨os, by simp [intObjs, h1], by simp [h2], h3, fun o => ?_⟩
      rw [hmem o]; simp
    | true =>
      cases prio with
      | none =>
        refine ⟨BObj.int i lo up 1000 :: os, by simp only [intObjs, h1, if_true, Option.map_some], by simp [h2],
          List.pairwise_cons.2 ⟨fun o ho => hlow o ho, h3⟩, fun o => ?_⟩
        rw [hmem o]; simp [givenPrio]
      | some ps =>
        have hi : i < ps.length := by have := h ps rfl; simp at this; omega
        refine ⟨BObj.int i lo up ps[i] :: os, ?_, by simp [h2],
          List.pairwise_cons.2 ⟨fun o ho => hlow o ho, h3⟩, fun o => ?_⟩
        · simp only [intObjs, if_true, List.getElem?_eq_getElem hi, h1, Option.map_some]
        · rw [hmem o]; simp [givenPrio, hi]

/-- **C224 (partial).** With the switch as it is, the objects of a node process are exactly the integer columns, each once, in the order
of the columns, with bounds and priority (1000 when none are given); their number is the size of the pseudo-costs of the master. -/
theorem objects_partial (P : Prob) (hp : ∀ ps, P.prio = some ps → P.cols.length ≤ ps.length) :
    ∃ os, objects true P = some os ∧ os.length = pcSize true P ∧ os.Pairwise (fun a b => a.column < b.column) ∧
      ∀ o, o ∈ os ↔ ∃ k c, P.cols[k]? = some c ∧ c.1 = true ∧
        o = .int k c.2.2.1 c.2.2.2.1 (givenPrio P.prio k) := by
  obtain ⟨os, h1, h2, h3, h4⟩ := intObjs_exact P.prio P.cols 0 (fun ps h => by simpa using hp ps h)
  refine ⟨os, ?_, by simp [pcSize, h2], h3, fun o => ?_⟩
  · have hl : os.length ≤ P.cols.length := by rw [h2]; exact List.length_filter_le _ _
    simp only [objects, h1, Option.bind_some, if_true, List.append_nil]
    rw [if_pos (by omega)]
  · rw [h4 o]; simp

/-- **C225.** The objects are taken in the order of their priorities, each once: position `i` of the list before position `j` only if its
priority is not larger. -/
theorem order_exact (srt : (ℕ → Int) → List ℕ → List ℕ) (hs : SortPos srt) (os : List BObj) :
    (objInd srt os).Perm (List.range os.length) ∧
    ∃ l, (objInd srt os).mapM (fun i => os[i]?) = some l ∧ l.Perm os ∧ l.Pairwise (fun a b => a.p ≤ b.p) := by
  obtain ⟨h1, h2⟩ := hs (fun i => ((os[i]?).map BObj.p).getD 0) (List.range os.length)
  refine ⟨h1, ?_⟩
  have key : ∀ is : List ℕ, (∀ i ∈ is, i < os.length) →
      is.mapM (fun i => os[i]?) = some (is.map (fun i => (os[i]?).getD (.sos 0 0))) := by
    intro is
    induction is with
    | nil => intro _; rfl
    | cons i is ih =>
      intro h
      have hi := h i (by simp)
      simp [List.mapM_cons, List.getElem?_eq_getElem hi, ih (fun j hj => h j (by simp [hj]))]
  have hb : ∀ i ∈ objInd srt os, i < os.length := fun i hi => by simpa using h1.mem_iff.1 hi
  refine ⟨_, key _ hb, ?_, ?_⟩
  · refine (h1.map _).trans (List.Perm.of_eq ?_)
    apply List.ext_getElem (by simp)
    intro k hk hk'
    simp [List.getElem?_eq_getElem hk']
  · rw [List.pairwise_map]
    refine List.Pairwise.imp_of_mem (fun {i j} hi hj hij => ?_) h2
    have h1' := hb i hi
    have h2' := hb j hj
    simpa [List.getElem?_eq_getElem h1', List.getElem?_eq_getElem h2'] using hij

/-- **C226 (partial).** The core has one variable per column with its bounds; it is an integer variable exactly for an integer column;
with branch and bound the objective is 0 and there are no rows, otherwise objective and rows are those of the relaxation. -/
theorem core_partial (pureBB : Bool) (P : Prob) (hbin : ∀ c ∈ P.cols, c.2.1 = true → c.1 = true) :
    (core pureBB P).1.length = P.cols.length ∧
    (∀ (k : ℕ) (c : Bool × Bool × ℚ × ℚ × ℚ), P.cols[k]? = some c → (core pureBB P).1[k]? =
      some (if c.1 then VarT.int else VarT.cont, if pureBB then 0 else c.2.2.2.2, c.2.2.1, c.2.2.2.1)) ∧
    (pureBB = true → (core pureBB P).2 = []) ∧ (pureBB = false → (core pureBB P).2 = P.rows) := by
  refine ⟨by simp [core], fun k c hk => ?_, fun h => by simp [core, h], fun h => by simp [core, h]⟩
  have hm := hbin c (List.mem_of_getElem? hk)
  simp only [core, List.getElem?_map, hk, Option.map_some, coreVar]
  by_cases hc : c.1 = true
  · simp [hc]
  · have : c.2.1 ≠ true := fun h => hc (hm h)
    simp [hc, this]

/-- **C227 (partial).** After the set-up the parameters of BCP are those of bonmin; each warning is printed exactly when the two values
differed by more than 1e-10. -/
theorem sync_partial (bonTol bonDecr : ℚ) (b : Sync) :
    (sync bonTol bonDecr b).1.intTol = bonTol ∧ (sync bonTol bonDecr b).1.gran = bonDecr ∧
    ((sync bonTol bonDecr b).2.1 = true ↔ 1 / 10 ^ 10 < |bonTol - b.intTol|) ∧
    ((sync bonTol bonDecr b).2.2 = true ↔ 1 / 10 ^ 10 < |bonDecr - b.gran|) := by
  refine ⟨rfl, rfl, by simp [sync], ?_⟩
  rw [abs_sub_comm]
  simp [sync]

/-- **C227 (partial).** The cutoff of the branching information is below the value of the best solution by the required improvement
exactly if this is 0. -/
theorem cutoff_right_iff (ub bonTol bonDecr : ℚ) (b : Sync) :
    infoCutoff ub (sync bonTol bonDecr b).1 = ub - bonDecr ↔ bonDecr = 0 := by
  simp only [infoCutoff, sync]
  constructor
  · intro h; linarith
  · rintro rfl; ring

/-! ### refutations -/

/-- **C224 (refuted).** Special ordered sets give no objects: whatever they are, the objects are the same. -/
theorem sos_ignored (P : Prob) (ss : List SosIn) (hp : ∀ ps, P.prio = some ps → P.cols.length ≤ ps.length) :
    objects true { P with sos := ss } = objects true P ∧ ∀ os, objects true { P with sos := ss } = some os → ∀ i p, .sos i p ∉ os := by
  obtain ⟨os, h1, _, _, h4⟩ := objects_partial P hp
  obtain ⟨os', h1', _, _, _⟩ := objects_partial { P with sos := ss } hp
  have he : os' = os := by
    have e1 : objects true P = (intObjs P.prio 0 P.cols).bind fun os =>
        if os.length ≤ P.cols.length + P.sos.length then some os else none := by simp [objects]
    have e2 : objects true { P with sos := ss } = (intObjs P.prio 0 P.cols).bind fun os =>
        if os.length ≤ P.cols.length + ss.length then some os else none := by simp [objects]
    rw [e1] at h1; rw [e2] at h1'
    cases hi : intObjs P.prio 0 P.cols with
    | none => rw [hi] at h1; cases h1
    | some l =>
      rw [hi] at h1 h1'
      simp only [Option.bind_some] at h1 h1'
      split_ifs at h1 h1'
      cases h1; cases h1'; rfl
  subst he
  refine ⟨h1'.trans h1.symm, fun l hl i p hm => ?_⟩
  rw [h1'] at hl
  cases hl
  obtain ⟨k, c, _, _, h⟩ := (h4 _).1 hm
  cases h

/-- **C226 (refuted).** A binary variable is never given as binary to BCP: the type is overwritten. -/
theorem binary_overwritten (pureBB : Bool) (lo up ob : ℚ) : (coreVar pureBB (true, true, lo, up, ob)).1 = .int := rfl

/-- **C227 (refuted).** With the default improvement of 1e-5 and a best solution of value 1 the cutoff is above 1. -/
theorem cutoff_above : (1 : ℚ) < infoCutoff 1 (sync (1 / 10 ^ 6) (1 / 10 ^ 5) ⟨1 / 10 ^ 6, 0⟩).1 := by
  norm_num [infoCutoff, sync]

/-! ### examples -/

/-- Example: an integer, a continuous and a binary column, one special ordered set. -/
def exProb : Prob :=
  ⟨[(true, false, 0, 5, 1), (false, false, 0, 1, 2), (true, true, 0, 1, 3)], some [7, 0, 2], [⟨none⟩], [(0, 1)]⟩

example : (∀ ps, exProb.prio = some ps → exProb.cols.length ≤ ps.length) ∧
    objects true exProb = some [.int 0 0 5 7, .int 2 0 1 2] := ⟨by intro ps h; cases h; decide, by decide +kernel⟩
example : objects false exProb = some [.int 0 0 5 7, .int 2 0 1 2, .sos 0 1] := by decide +kernel
/-- Insertion sort of positions by key, for the example. -/
def srtPos (k : ℕ → Int) (l : List ℕ) : List ℕ := l.insertionSort (fun i j => k i ≤ k j)

example : SortPos srtPos := by
  intro k l
  have : Std.Total (fun i j : ℕ => k i ≤ k j) := ⟨fun i j => le_total _ _⟩
  have : IsTrans ℕ (fun i j : ℕ => k i ≤ k j) := ⟨fun _ _ _ => le_trans⟩
  exact ⟨List.perm_insertionSort _ _, List.pairwise_insertionSort _ _⟩
example : objInd srtPos [.int 0 0 5 7, .int 2 0 1 2] = [1, 0] := by decide +kernel
example : (∀ c ∈ exProb.cols, c.2.1 = true → c.1 = true) ∧
    core true exProb = ([(.int, 0, 0, 5), (.cont, 0, 0, 1), (.int, 0, 0, 1)], []) := by decide +kernel
example : sync (1 / 10 ^ 6) (1 / 10 ^ 5) ⟨1 / 10 ^ 6, 0⟩ = (⟨1 / 10 ^ 6, 1 / 10 ^ 5⟩, false, true) := by decide +kernel

theorem sosObjs_getElem : ∀ (ss : List SosIn) (i k : ℕ), (sosObjs i ss)[k]? = (ss[k]?).map fun s => BObj.sos (i + k) (s.prio.getD 1)
  | [], i, k => by simp [sosObjs]
  | s :: ss, i, 0 => by simp [sosObjs]
  | s :: ss, i, k + 1 => by
    rw [sosObjs, List.getElem?_cons_succ, sosObjs_getElem ss (i + 1) k, List.getElem?_cons_succ, show i + 1 + k = i + (k + 1) by omega]

theorem sosObjs_length : ∀ (ss : List SosIn) (i : ℕ), (sosObjs i ss).length = ss.length
  | [], i => rfl
  | s :: ss, i => by simp [sosObjs, sosObjs_length ss (i + 1)]

/-- **C224 (partial).** With the switch undefined the objects are those with it, followed by one for every special ordered set, in order, with its number and priority
(1 when none is given), which belongs to no column; the pseudo-costs of the master have room for all. -/
theorem sets_exact (P : Prob) (hp : ∀ ps, P.prio = some ps → P.cols.length ≤ ps.length) :
    ∃ os ss, objects true P = some os ∧ objects false P = some (os ++ ss) ∧ (os ++ ss).length = pcSize false P ∧ ss.length = P.sos.length ∧
      (∀ (k : ℕ) (s : SosIn), P.sos[k]? = some s → ss[k]? = some (.sos k (s.prio.getD 1))) ∧ (∀ o ∈ ss, o.column = -1) ∧ ∀ o ∈ os, 0 ≤ o.column := by
  obtain ⟨os, h1, h2, _, h4⟩ := objects_partial P hp
  have hi : intObjs P.prio 0 P.cols = some os := by
    have e : objects true P = (intObjs P.prio 0 P.cols).bind fun os =>
        if os.length ≤ P.cols.length + P.sos.length then some os else none := by simp [objects]
    rw [e] at h1
    cases hi : intObjs P.prio 0 P.cols with
    | none => rw [hi] at h1; cases h1
    | some l =>
      rw [hi] at h1
      simp only [Option.bind_some] at h1
      split_ifs at h1
      exact h1
  have hl : os.length ≤ P.cols.length := by rw [h2, pcSize]; simpa using List.length_filter_le _ _
  refine ⟨os, sosObjs 0 P.sos, h1, ?_, ?_, sosObjs_length _ _, fun k s hk => ?_, fun o ho => ?_, fun o ho => ?_⟩
  · simp only [objects, hi, Option.bind_some, Bool.false_eq_true, if_false]
    rw [if_pos (by rw [List.length_append, sosObjs_length]; omega)]
  · rw [List.length_append, sosObjs_length, h2]; simp [pcSize]
  · rw [sosObjs_getElem, hk]; simp
  · obtain ⟨k, hk⟩ := List.mem_iff_getElem?.mp ho
    rw [sosObjs_getElem] at hk
    obtain ⟨s, _, rfl⟩ := Option.map_eq_some_iff.mp hk
    rfl
  · obtain ⟨k, c, _, _, rfl⟩ := (h4 o).mp ho
    simp [BObj.column]

end Verif.Bcp

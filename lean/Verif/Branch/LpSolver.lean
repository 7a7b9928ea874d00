import Verif.Branch.Strong
/-!
# C58: strong branching with linear programs
`src/Algorithms/Branching/BonLpBranchingSolver.cpp`: `markHotStart` (76-92), `unmarkHotStart` (94-104), `solveFromHotStart` (106-197);
`src/Interfaces/BonOsiTMINLPInterface.cpp`: `markHotStart`, `solveFromHotStart`, `unmarkHotStart` (3039-3095).

The LP solver is an oracle.  The relaxation `lin_` may have more columns than the problem (the column of the objective).  `none` is undefined behaviour.
Warm start bases and the objective limit are not modelled.
-/
namespace Verif.Branch

/-- Answer of the LP solver: proven infeasible, objective limit reached, iteration limit reached, objective, solution. -/
structure LpA where
  inf : Bool
  lim : Bool
  iter : Bool
  obj : ℚ
  sol : List ℚ
deriving DecidableEq

/-- Return codes used (BonTNLPSolver.hpp:30-41). -/
inductive LpRet | optimal | infeasible | iterLimit
deriving DecidableEq

/-- New bounds of one column of the LP (133-150): `l` in the LP, `c` in the interface.  A tightened upper bound is replaced by the LOWER bound of the interface (148). -/
def lpCol (l c : ℚ × ℚ) : ℚ × ℚ := (if l.1 < c.1 then c.1 else l.1, if l.2 > c.2 then c.1 else l.2)

/-- The loop over the columns of the interface (133-150); a column beyond those of the LP is an access out of range. -/
def lpTighten (lin itf : Bounds) : Option Bounds := if itf.length ≤ lin.length then some (List.zipWith lpCol lin itf ++ lin.drop itf.length) else none

/-- `diff_low_bnd_*` (135-139): columns with a changed lower bound and the old one. -/
def lowDiff (lin itf : Bounds) : List (Nat × ℚ) := (lin.zip itf).zipIdx.filterMap fun p => if p.1.1.1 < p.1.2.1 then some (p.2, p.1.1.1) else none

/-- `diff_up_bnd_*` (143-147). -/
def upDiff (lin itf : Bounds) : List (Nat × ℚ) := (lin.zip itf).zipIdx.filterMap fun p => if p.1.1.2 > p.1.2.2 then some (p.2, p.1.1.2) else none

/-- Restoring (186-191). -/
def lpRestore (b : Bounds) (dl du : List (Nat × ℚ)) : Bounds :=
  du.foldl (fun b d => b.modify d.1 fun q => (q.1, d.2)) (dl.foldl (fun b d => b.modify d.1 fun q => (d.2, q.2)) b)

/-- Status from the answer (159-180); `ecp` is `maxCuttingPlaneIterations_`.  `ecp_` is always a null pointer (89-91 are commented out), so the call at 172 is undefined. -/
def lpStatus (ecp : Nat) (a : LpA) : Option LpRet :=
  if a.inf || a.lim then some .infeasible else if a.iter then some .iterLimit else if 0 < ecp then none else some .optimal

/-- State: bounds of `lin_`, its last solution, and of the interface: status, objective value, solution. -/
structure LpSt where
  lin : Bounds
  linSol : List ℚ
  status : LpRet
  obj : ℚ
  x : List ℚ
deriving DecidableEq

/-- `solveFromHotStart` (106-197 and 3057-3078); `clone` is the warm start mode `Clone`, `n` the number of columns.  The solution handed over is that of `lin_` (182), also when a clone
was solved. -/
def lpSolve (lp : Bounds → LpA) (clone : Bool) (ecp : Nat) (itf : Bounds) (s : LpSt) : Option LpSt :=
  match lpTighten s.lin itf with
  | none => none
  | some b =>
    let a := lp b
    match lpStatus ecp a with
    | none => none
    | some r =>
      let linSol := if clone then s.linSol else a.sol
      some ⟨if clone then s.lin else lpRestore b (lowDiff s.lin itf) (upDiff s.lin itf), linSol, r, a.obj, linSol.take itf.length⟩

/-- All solves between `markHotStart` and `unmarkHotStart`. -/
def lpProbe (lp : Bounds → LpA) (clone : Bool) (ecp : Nat) : List Bounds → LpSt → Option LpSt
  | [], s => some s
  | b :: bs, s => (lpSolve lp clone ecp b s).bind (lpProbe lp clone ecp bs)

/-- A whole round: the status before it is put back (3089), nothing else. -/
def lpRound (lp : Bounds → LpA) (clone : Bool) (ecp : Nat) (bs : List Bounds) (s : LpSt) : Option LpSt := (lpProbe lp clone ecp bs s).map fun t => { t with status := s.status }

/-! ## Specification -/

/-- Points within bounds. -/
def InBounds (b : Bounds) (x : List ℚ) : Prop := ∀ i : Nat, ∀ q, b[i]? = some q → ∃ v, x[i]? = some v ∧ q.1 ≤ v ∧ v ≤ q.2

/-! ## Properties -/

theorem restore_low (pre : Bounds) : ∀ (ls cs rest : Bounds), (((ls.zip cs).zipIdx pre.length).filterMap fun p => if p.1.1.1 < p.1.2.1 then some (p.2, p.1.1.1) else none).foldl
      (fun (b : Bounds) d => b.modify d.1 fun q => (d.2, q.2)) (pre ++ (List.zipWith lpCol ls cs ++ rest)) =
    pre ++ (List.zipWith (fun l c => (l.1, (lpCol l c).2)) ls cs ++ rest) := by
  intro ls
  induction ls generalizing pre with
  | nil => intro cs rest; simp
  | cons l ls ih =>
    intro cs rest
    cases cs with
    | nil => simp
    | cons c cs =>
      have key := ih (pre ++ [(l.1, (lpCol l c).2)]) cs rest
      simp only [List.length_append, List.length_singleton, List.append_assoc, List.singleton_append] at key
      simp only [List.zip_cons_cons, List.zipIdx_cons, List.zipWith_cons_cons, List.cons_append]
      by_cases h : l.1 < c.1
      · rw [List.filterMap_cons_some (b := (pre.length, l.1)) (by simp [h]), List.foldl_cons]
        simp only
        rw [List.modify_eq_set_getElem?]
        rw [List.getElem?_append_right (le_refl _)]
        simp only [Nat.sub_self, List.getElem?_cons_zero, Option.map_eq_map, Option.map_some, Option.getD_some]
        rw [List.set_append_right _ _ (le_refl _)]
        simp only [Nat.sub_self, List.set_cons_zero]
        exact key
      · rw [List.filterMap_cons_none (by simp [h])]
        have : lpCol l c = (l.1, (lpCol l c).2) := by simp [lpCol, h]
        rw [this]
        exact key

theorem restore_up (pre : Bounds) : ∀ (ls cs rest : Bounds), (((ls.zip cs).zipIdx pre.length).filterMap fun p => if p.1.1.2 > p.1.2.2 then some (p.2, p.1.1.2) else none).foldl
      (fun (b : Bounds) d => b.modify d.1 fun q => (q.1, d.2)) (pre ++ (List.zipWith (fun l c => (l.1, (lpCol l c).2)) ls cs ++ rest)) =
    pre ++ (List.zipWith (fun l _ => l) ls cs ++ rest) := by
  intro ls
  induction ls generalizing pre with
  | nil => intro cs rest; simp
  | cons l ls ih =>
    intro cs rest
    cases cs with
    | nil => simp
    | cons c cs =>
      have key := ih (pre ++ [l]) cs rest
      simp only [List.length_append, List.length_singleton, List.append_assoc, List.singleton_append] at key
      simp only [List.zip_cons_cons, List.zipIdx_cons, List.zipWith_cons_cons, List.cons_append]
      by_cases h : l.2 > c.2
      · rw [List.filterMap_cons_some (b := (pre.length, l.2)) (by simp [h]), List.foldl_cons]
        simp only
        rw [List.modify_eq_set_getElem?]
        rw [List.getElem?_append_right (le_refl _)]
        simp only [Nat.sub_self, List.getElem?_cons_zero, Option.map_eq_map, Option.map_some, Option.getD_some]
        rw [List.set_append_right _ _ (le_refl _)]
        simp only [Nat.sub_self, List.set_cons_zero]
        exact key
      · rw [List.filterMap_cons_none (by simp [h])]
        have : (l.1, (lpCol l c).2) = l := by simp [lpCol, h]
        rw [this]
        exact key

theorem lpRestore_eq (lin itf : Bounds) (h : itf.length ≤ lin.length) :
    lpRestore (List.zipWith lpCol lin itf ++ lin.drop itf.length) (lowDiff lin itf) (upDiff lin itf) = lin := by
  have h1 := restore_low [] lin itf (lin.drop itf.length)
  have h2 := restore_up [] lin itf (lin.drop itf.length)
  simp only [List.length_nil, List.nil_append] at h1 h2
  unfold lpRestore lowDiff upDiff
  rw [h1, h2]
  have : List.zipWith (fun l _ => l) lin itf = lin.take itf.length := by
    clear h1 h2
    induction lin generalizing itf with
    | nil => simp
    | cons a l ih => cases itf with
      | nil => simp
      | cons b m => simp only [List.zipWith_cons_cons, List.length_cons, List.take_succ_cons]; rw [ih]; simpa using h
  rw [this, List.take_append_drop]

/-- **C63**: every solve of a probe starts from the same LP: whatever bounds the branches have, the bounds of the LP are the same afterwards, in both warm start modes. -/
theorem lp_bounds_restored (lp : Bounds → LpA) (clone : Bool) (ecp : Nat) (bs : List Bounds) (s t : LpSt) (h : lpProbe lp clone ecp bs s = some t) : t.lin = s.lin := by
  induction bs generalizing s with
  | nil => rw [← Option.some.inj h]
  | cons b bs ih =>
    obtain ⟨u, h1, h2⟩ := Option.bind_eq_some_iff.1 h
    rw [ih u h2]
    unfold lpSolve lpTighten at h1
    by_cases hl : b.length ≤ s.lin.length
    · rw [if_pos hl] at h1
      simp only at h1
      split at h1
      · simp at h1
      · rw [← Option.some.inj h1]
        cases clone
        · simp [lpRestore_eq _ _ hl]
        · simp
    · rw [if_neg hl] at h1; simp at h1

theorem tighten_at (lin itf : Bounds) (h : itf.length ≤ lin.length) (i : Nat) : ∃ b, lpTighten lin itf = some b ∧
    b[i]? = match itf[i]? with | none => lin[i]? | some c => lin[i]?.map fun l => lpCol l c := by
  refine ⟨_, if_pos h, ?_⟩
  by_cases hi : i < itf.length
  · rw [List.getElem?_append_left (by rw [List.length_zipWith]; omega), List.getElem?_zipWith, List.getElem?_eq_getElem hi, List.getElem?_eq_getElem (by omega : i < lin.length)]
    rfl
  · rw [List.getElem?_append_right (by rw [List.length_zipWith]; omega), List.length_zipWith, List.getElem?_drop, List.getElem?_eq_none (by omega : itf.length ≤ i)]
    simp only
    congr 1
    omega

/-- **C58**: the bounds of the LP solved for a branch, column by column: the larger of the lower bounds; the upper bound of the LP if the branch does not tighten it, else the branch's
LOWER bound. -/
theorem lp_branch_bounds (lin itf : Bounds) (h : itf.length ≤ lin.length) : ∃ b, lpTighten lin itf = some b ∧ b.length = lin.length ∧
    ∀ (i : Nat) (l : ℚ × ℚ), lin[i]? = some l → (itf[i]? = none → b[i]? = some l) ∧
      ∀ c : ℚ × ℚ, itf[i]? = some c → b[i]? = some (max l.1 c.1, if l.2 ≤ c.2 then l.2 else c.1) := by
  refine ⟨_, if_pos h, by simp; omega, fun i l hl => ?_⟩
  obtain ⟨b, hb, hi⟩ := tighten_at lin itf h i
  have hb' : b = List.zipWith lpCol lin itf ++ lin.drop itf.length := (Option.some.inj ((if_pos h).symm.trans hb)).symm
  rw [← hb', hi]
  refine ⟨fun hn => by rw [hn]; exact hl, fun c hc => ?_⟩
  rw [hc, hl]
  simp only [Option.map_some, Option.some.injEq, lpCol, Prod.mk.injEq]
  constructor
  · by_cases h1 : l.1 < c.1
    · rw [if_pos h1, max_eq_right (le_of_lt h1)]
    · rw [if_neg h1, max_eq_left (not_lt.1 h1)]
  · by_cases h1 : l.2 ≤ c.2
    · rw [if_pos h1, if_neg (by simpa using h1)]
    · rw [if_neg h1, if_pos (by simpa using h1)]

example : lpTighten [(0, 10), (0, 5), (-1, 7)] [(2, 10), (0, 3)] = some [(2, 10), (0, 0), (-1, 7)] := by decide +kernel

/-- **C58**, partial: an infeasible verdict for a branch is truthful if the LP answers truthfully and every upper bound tightened by the branch is tightened to the lower bound (as for
down branches of 0-1 variables).  Without the proviso it is refuted below. -/
theorem lp_infeasible_partial (lp : Bounds → LpA) (feas : List ℚ → Prop) (clone : Bool) (ecp : Nat) (itf : Bounds) (s t : LpSt)
    (htruth : ∀ b, ((lp b).inf = true ∨ (lp b).lim = true) → ¬ ∃ x, feas x ∧ InBounds b x) (hfix : ∀ (i : Nat) (c l : ℚ × ℚ), itf[i]? = some c → s.lin[i]? = some l → c.2 < l.2 → c.2 ≤ c.1)
    (h : lpSolve lp clone ecp itf s = some t) (hi : t.status = .infeasible) : ¬ ∃ x, feas x ∧ InBounds s.lin x ∧ InBounds itf x := by
  rintro ⟨x, hx, hb1, hb2⟩
  unfold lpSolve at h
  by_cases hl : itf.length ≤ s.lin.length
  · obtain ⟨b, hb, hlen, hspec⟩ := lp_branch_bounds s.lin itf hl
    rw [hb] at h
    simp only at h
    have ha : (lp b).inf = true ∨ (lp b).lim = true := by
      by_contra hcon
      push Not at hcon
      have : lpStatus ecp (lp b) ≠ some .infeasible := by
        unfold lpStatus
        rw [if_neg (by simp [hcon.1, hcon.2])]
        split_ifs <;> simp
      split at h
      · simp at h
      · rename_i r hr
        rw [← Option.some.inj h] at hi
        exact this (by rw [hr]; exact congrArg some hi)
    refine htruth b ha ⟨x, hx, fun i q hq => ?_⟩
    have hlt : i < s.lin.length := by rw [← hlen]; exact (List.getElem?_eq_some_iff.1 hq).1
    have hl' := List.getElem?_eq_getElem hlt
    obtain ⟨h1, h2⟩ := hspec i _ hl'
    obtain ⟨v, hv, hv1, hv2⟩ := hb1 i _ hl'
    refine ⟨v, hv, ?_⟩
    cases hc : itf[i]? with
    | none =>
      rw [h1 hc] at hq
      rw [← Option.some.inj hq]; exact ⟨hv1, hv2⟩
    | some c =>
      rw [h2 c hc] at hq
      obtain ⟨w, hw, hw1, hw2⟩ := hb2 i c hc
      have : w = v := Option.some.inj (hw.symm.trans hv)
      subst this
      rw [← Option.some.inj hq]
      refine ⟨max_le hv1 hw1, ?_⟩
      by_cases hle : s.lin[i].2 ≤ c.2
      · simp only [if_pos hle]; exact hv2
      · simp only [if_neg hle]; exact le_trans hw2 (hfix i c _ hc hl' (not_le.1 hle))
  · have : lpTighten s.lin itf = none := if_neg hl
    rw [this] at h; simp at h

/-- An LP solver for problems with the one constraint `x ≥ 2` on a single column. -/
def exLp (b : Bounds) : LpA :=
  match b with
  | [] => ⟨false, false, false, 2, [2]⟩
  | [q] => if 2 ≤ q.2 ∧ q.1 ≤ q.2 then ⟨false, false, false, max 2 q.1, [max 2 q.1]⟩ else ⟨true, false, false, 0, []⟩
  | _ :: _ :: _ => ⟨true, false, false, 0, []⟩

theorem exLp_truth (b : Bounds) (h : (exLp b).inf = true ∨ (exLp b).lim = true) : ¬ ∃ x : List ℚ, (∃ v, x = [v] ∧ 2 ≤ v) ∧ InBounds b x := by
  rintro ⟨x, ⟨v, rfl, hv⟩, hb⟩
  match b with
  | [] => simp [exLp] at h
  | [q] =>
    obtain ⟨w, hw, h1, h2⟩ := hb 0 q rfl
    have : v = w := Option.some.inj hw
    subst this
    have : exLp [q] = ⟨false, false, false, max 2 q.1, [max 2 q.1]⟩ := if_pos ⟨le_trans hv h2, le_trans h1 h2⟩
    rw [this] at h
    simp at h
  | q :: r :: l =>
    obtain ⟨w, hw, _⟩ := hb 1 r rfl
    simp at hw

/-- **C58** refuted: the branch `x ≤ 4` of an integer variable in `[0, 10]` with constraint `x ≥ 2` is declared infeasible, although `3` lies in it: the LP was solved with `x ≤ 0`. -/
theorem lp_down_branch_infeasible : ∃ t, lpSolve exLp false 0 [(0, 4)] ⟨[(0, 10)], [2], .optimal, 2, [2]⟩ = some t ∧ t.status = .infeasible ∧
    InBounds [(0, 10)] [3] ∧ InBounds [(0, 4)] [3] ∧ (2 : ℚ) ≤ 3 ∧
    ∀ b, ((exLp b).inf = true ∨ (exLp b).lim = true) → ¬ ∃ x : List ℚ, (∃ v, x = [v] ∧ 2 ≤ v) ∧ InBounds b x := by
  refine ⟨⟨[(0, 10)], [], .infeasible, 0, []⟩, by decide +kernel, rfl, ?_, ?_, by norm_num, exLp_truth⟩
  · intro i q h
    match i with
    | 0 => have : (0, 10) = q := Option.some.inj h
           subst this; exact ⟨3, rfl, by norm_num, by norm_num⟩
    | k + 1 => simp at h
  · intro i q h
    match i with
    | 0 => have : (0, 4) = q := Option.some.inj h
           subst this; exact ⟨3, rfl, by norm_num, by norm_num⟩
    | k + 1 => simp at h

example : ∃ t, lpSolve exLp false 0 [(3, 10)] ⟨[(0, 10)], [2], .optimal, 2, [2]⟩ = some t ∧ t.status = .optimal ∧ t.obj = 3 ∧ t.x = [3] := ⟨⟨[(0, 10)], [3], .optimal, 3, [3]⟩, by decide +kernel, rfl, rfl, rfl⟩

/-- **C58**: status of a branch: infeasible iff the LP is infeasible or reached the objective limit; undefined iff it is neither, no iteration limit was reached and cutting rounds are
switched on. -/
theorem lp_status (ecp : Nat) (a : LpA) : (lpStatus ecp a = some .infeasible ↔ a.inf = true ∨ a.lim = true) ∧
    (lpStatus ecp a = some .iterLimit ↔ a.inf = false ∧ a.lim = false ∧ a.iter = true) ∧ (lpStatus ecp a = some .optimal ↔ a.inf = false ∧ a.lim = false ∧ a.iter = false ∧ ecp = 0) ∧
    (lpStatus ecp a = none ↔ a.inf = false ∧ a.lim = false ∧ a.iter = false ∧ 0 < ecp) := by
  unfold lpStatus
  cases a.inf <;> cases a.lim <;> cases a.iter <;> cases ecp <;> simp

/-- **C63**: with `Clone` the solution handed to the interface is never that of the branch: it is the one of the LP at the mark. -/
theorem lp_clone_solution (lp : Bounds → LpA) (ecp : Nat) (bs : List Bounds) (s t : LpSt) (h : lpProbe lp true ecp bs s = some t) :
    t.linSol = s.linSol ∧ ∀ b, bs.getLast? = some b → t.x = s.linSol.take b.length := by
  induction bs generalizing s with
  | nil => rw [← Option.some.inj h]; simp
  | cons b bs ih =>
    obtain ⟨u, h1, h2⟩ := Option.bind_eq_some_iff.1 h
    obtain ⟨i1, i2⟩ := ih u h2
    have hu : u.linSol = s.linSol ∧ u.x = s.linSol.take b.length := by
      unfold lpSolve at h1
      split at h1
      · simp at h1
      · simp only at h1
        split at h1
        · simp at h1
        · rw [← Option.some.inj h1]; simp
    refine ⟨i1.trans hu.1, fun c hc => ?_⟩
    cases bs with
    | nil =>
      rw [List.getLast?_singleton] at hc
      rw [← Option.some.inj h2, ← Option.some.inj hc]; exact hu.2
    | cons d ds => rw [List.getLast?_cons_cons] at hc; rw [i2 c hc, hu.1]

/-- **C63**: a whole round of probing keeps the status of the interface and the bounds of the LP, but the objective value is that of the last branch: in a basis round also the
solution. -/
theorem lp_round (lp : Bounds → LpA) (clone : Bool) (ecp : Nat) (bs : List Bounds) (b : Bounds) (s t : LpSt) (h : lpRound lp clone ecp (bs ++ [b]) s = some t) :
    t.status = s.status ∧ t.lin = s.lin ∧ ∃ B, lpTighten s.lin b = some B ∧ t.obj = (lp B).obj ∧ (clone = false → t.x = (lp B).sol.take b.length) := by
  unfold lpRound at h
  obtain ⟨u, hu, ht⟩ := Option.map_eq_some_iff.1 h
  have hlin := lp_bounds_restored lp clone ecp _ s u hu
  have split : ∀ (l : List Bounds) (s : LpSt), lpProbe lp clone ecp (l ++ [b]) s = (lpProbe lp clone ecp l s).bind fun v => lpSolve lp clone ecp b v := by
    intro l
    induction l with
    | nil => intro s; simp [lpProbe]
    | cons c l ih =>
      intro s
      simp only [List.cons_append, lpProbe, Option.bind_assoc]
      congr 1
      funext v
      exact ih v
  rw [split] at hu
  obtain ⟨v, hv, hs⟩ := Option.bind_eq_some_iff.1 hu
  have hvl := lp_bounds_restored lp clone ecp _ s v hv
  rw [← ht]
  refine ⟨rfl, hlin, ?_⟩
  unfold lpSolve at hs
  rw [hvl] at hs
  cases hB : lpTighten s.lin b with
  | none => rw [hB] at hs; simp at hs
  | some B =>
    rw [hB] at hs
    simp only at hs
    split at hs
    · simp at hs
    · rw [← Option.some.inj hs]
      refine ⟨B, rfl, rfl, fun hc => ?_⟩
      subst hc
      rfl

/-- **C63**: after a round of probing the node, the objective value of the interface is that of the last branch and not that of the node. -/
theorem lp_round_changes_objective : ∃ t, lpRound exLp false 0 [[(5, 10)]] ⟨[(0, 10)], [2], .optimal, 2, [2]⟩ = some t ∧ t.obj = 5 ∧ t.x = [5] ∧ t.status = .optimal :=
  ⟨⟨[(0, 10)], [5], .optimal, 5, [5]⟩, by decide +kernel, rfl, rfl, rfl⟩

/-- **C58**: with cutting rounds switched on, probing a branch whose LP is solved is undefined behaviour. -/
theorem lp_ecp_undefined (lp : Bounds → LpA) (clone : Bool) (ecp : Nat) (itf B : Bounds) (s : LpSt) (he : 0 < ecp) (hB : lpTighten s.lin itf = some B)
    (h : (lp B).inf = false ∧ (lp B).lim = false ∧ (lp B).iter = false) : lpSolve lp clone ecp itf s = none := by
  unfold lpSolve
  rw [hB]
  simp only
  rw [(lp_status ecp (lp B)).2.2.2.2 ⟨h.1, h.2.1, h.2.2, he⟩]

example : lpSolve exLp false 1 [(0, 10)] ⟨[(0, 10)], [2], .optimal, 2, [2]⟩ = none := by decide +kernel

end Verif.Branch

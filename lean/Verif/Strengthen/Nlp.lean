import Verif.Strengthen.Props
import Mathlib.Data.List.GetD
import Mathlib.Tactic.Linarith
import Mathlib.Tactic.Ring
/-! # C119: the problem solved to strengthen a cut

src/Interfaces/BonCutStrengthener.cpp: `StrengthenCut` 221-304, `StrengtheningTNLP` 306-602.  A point of the problem is the list of its values, a point of the user's problem a function of the
index.  `1e100` is `10^100`; bounds at or beyond `±I` are no bounds for the NLP solver (its options `nlp_lower_bound_inf`, `nlp_upper_bound_inf`).  The NLP solver is a function `solve`.
Simplification: the user's functions succeed at every point (failures of the two calls made before the problem is set up are modelled). -/
namespace Verif.Strengthen.Nlp
open Verif.Oa

/-- The user's problem: objective and gradient, constraint functions, structure and values of their gradients as given by `eval_grad_gi`, bounds. -/
structure Prob where
  f : (ℕ → ℚ) → ℚ
  gradF : (ℕ → ℚ) → Option (ℕ → ℚ)
  g : ℕ → (ℕ → ℚ) → ℚ
  cols : ℕ → Option (List ℕ)
  gradG : ℕ → (ℕ → ℚ) → List ℚ
  gl : ℕ → ℚ
  gu : ℕ → ℚ

/-- `StrengtheningTNLP`: `row = none` is the objective (`constr_index_ = -1`). -/
structure Sub where
  n : ℕ
  start : ℕ → ℚ
  row : Option ℕ
  lower : Bool
  obj : List ℚ
  lo : List ℚ
  up : List ℚ
  vars : List ℕ

/-- The loop filling `obj_grad_` (BonCutStrengthener.cpp:341-363); `none` = `exit(-99)`. -/
def objGrad (lower : Bool) (cols : List ℕ) : List (ℕ × ℚ) → List ℚ → Option (List ℚ)
  | [], o => some o
  | e :: es, o => match cols.findIdx? (fun j => decide (e.1 = j)) with
    | none => none
    | some k => objGrad lower cols es (o.set k (if lower then e.2 else -e.2))

/-- The constructor (BonCutStrengthener.cpp:306-382). -/
def mk (n : ℕ) (start : ℕ → ℚ) (row : Option ℕ) (lower : Bool) (cut : List (ℕ × ℚ)) (xl xu : ℕ → ℚ) (cols : List ℕ) : Option Sub :=
  (objGrad lower cols cut (List.replicate cols.length 0)).map fun o =>
    { n := n, start := start, row := row, lower := lower, obj := o, lo := cols.map fun j => if j < n then xl j else -10 ^ 100, up := cols.map fun j => if j < n then xu j else 10 ^ 100, vars := cols }

/-- The variables written to `x_full_`: all, or all but the last for the objective. -/
def Sub.used (s : Sub) : List ℕ := if s.row = none then s.vars.dropLast else s.vars

/-- `x_full_` after `update_x_full` (BonCutStrengthener.cpp:562-574); entries never written keep the starting point. -/
def Sub.full (s : Sub) (x : List ℚ) : ℕ → ℚ := (s.used.zip x).foldl (fun f e => Function.update f e.1 e.2) s.start

/-- Whether `x_full_` is accessed within its `n_orig_` entries. -/
def Sub.inRange (s : Sub) : Bool := s.used.all (fun j => decide (j < s.n))

/-- `eval_g` (BonCutStrengthener.cpp:504-516). -/
def Sub.gval (p : Prob) (s : Sub) (x : List ℚ) : ℚ :=
  match s.row with
  | none => p.f (s.full x) - x.getD (s.vars.length - 1) 0
  | some i => p.g i (s.full x)

/-- `eval_f` (BonCutStrengthener.cpp:487-494). -/
def Sub.objVal (s : Sub) (x : List ℚ) : ℚ := ((s.obj.zip x).map fun e => e.1 * e.2).sum

/-- `get_bounds_info` (BonCutStrengthener.cpp:422-451): bounds of the only constraint. -/
def Sub.gBounds (p : Prob) (s : Sub) : ℚ × ℚ :=
  match s.row with
  | none => (-10 ^ 100, 0)
  | some i => (p.gl i, p.gu i)

/-- `eval_jac_g` (BonCutStrengthener.cpp:533-547): values. -/
def Sub.jac (p : Prob) (s : Sub) (x : List ℚ) : Option (List ℚ) :=
  match s.row with
  | none => (p.gradF (s.full x)).map fun gr => s.vars.dropLast.map gr ++ [-1]
  | some i => some (p.gradG i (s.full x))

/-- `get_starting_point` (BonCutStrengthener.cpp:462-484). -/
def Sub.startPt (s : Sub) : List ℚ :=
  if s.row = none then s.vars.dropLast.map s.start ++ [0] else s.vars.map s.start

/-- What the NLP solver reports: whether the status is optimal, and the value `finalize_solution` received with a success status. -/
structure Answer where
  optimal : Bool
  obj : Option ℚ

/-- Results of `StrengthenCut`: the program exits, undefined behaviour, `false`, or the new bound. -/
inductive Res
  | exits | undef | failed
  | bound (b : ℚ)
  deriving DecidableEq

/-- The random point near `x` (BonCutStrengthener.cpp:240-243); `r` = random numbers. -/
def randPoint (x xl xu r : ℕ → ℚ) (i : ℕ) : ℚ :=
  let radius := min 1 (xu i - xl i)
  max (min (x i - 1 / 2 * radius) (xu i - radius)) (xl i) + radius * r i

/-- The variables of the problem (BonCutStrengthener.cpp:235-268). -/
def columns (p : Prob) (n : ℕ) (xr : ℕ → ℚ) (row : Option ℕ) : Option (List ℕ) :=
  match row with
  | none => (p.gradF xr).map fun gr => (List.range n).filter (fun i => decide (gr i ≠ 0)) ++ [n]
  | some i => p.cols i

/-- `StrengthenCut` (BonCutStrengthener.cpp:221-304) once it is known which side the cut bounds. -/
def strengthen (p : Prob) (solve : Sub → Answer) (n : ℕ) (x xl xu r : ℕ → ℚ) (row : Option ℕ) (lower : Bool) (cut : List (ℕ × ℚ)) : Res :=
  match columns p n (randPoint x xl xu r) row with
  | none => .failed
  | some cols =>
    match mk n x row lower cut xl xu cols with
    | none => .exits
    | some s =>
      if s.inRange then
        let a := solve s
        if a.optimal then
          match a.obj with
          | some v => .bound (if lower then v else -v)
          | none => .undef
        else .failed
      else .undef

/-- The bound as used by `HandleOneCut` (`Verif.Strengthen.handleOneCut`). -/
def bndOf : Res → Option ℚ
  | .bound b => some b
  | _ => none

/-! ## What the problem should be -/

/-- A number respects bounds; those at or beyond `±I` are none. -/
def Within (I l u v : ℚ) : Prop := (l > -I → l ≤ v) ∧ (u < I → v ≤ u)

/-- Feasible points of the problem set up. -/
structure Feas (p : Prob) (I : ℚ) (s : Sub) (x : List ℚ) : Prop where
  len : x.length = s.vars.length
  box : ∀ k, k < s.vars.length → Within I (s.lo.getD k 0) (s.up.getD k 0) (x.getD k 0)
  con : Within I (s.gBounds p).1 (s.gBounds p).2 (s.gval p x)

/-- `v` is the minimum of the problem set up. -/
def IsMin (p : Prob) (I : ℚ) (s : Sub) (v : ℚ) : Prop := (∀ x, Feas p I s x → v ≤ s.objVal x) ∧ ∃ x, Feas p I s x ∧ s.objVal x = v

/-- A function depends on these variables only. -/
def DependsOn (h : (ℕ → ℚ) → ℚ) (J : List ℕ) : Prop := ∀ y y' : ℕ → ℚ, (∀ j ∈ J, y j = y' j) → h y = h y'

/-- The points the cut is about: those that satisfy constraint `i` and the bounds of its variables. -/
def RowSet (p : Prob) (I : ℚ) (i : ℕ) (J : List ℕ) (xl xu : ℕ → ℚ) (y : ℕ → ℚ) : Prop :=
  (∀ j ∈ J, Within I (xl j) (xu j) (y j)) ∧ Within I (p.gl i) (p.gu i) (p.g i y)

/-- For the objective: points `(y, z)`, with `z = y n`, above the objective. -/
def ObjSet (p : Prob) (I : ℚ) (n : ℕ) (J : List ℕ) (xl xu : ℕ → ℚ) (y : ℕ → ℚ) : Prop :=
  (∀ j ∈ J, Within I (xl j) (xu j) (y j)) ∧ Within I (-10 ^ 100) (10 ^ 100) (y n) ∧ Within I (-10 ^ 100) 0 (p.f y - y n)

/-! ## Lemmas -/

theorem foldl_update_notMem {y : ℕ} : ∀ (l : List (ℕ × ℚ)) (f : ℕ → ℚ), (∀ e ∈ l, e.1 ≠ y) → l.foldl (fun f e => Function.update f e.1 e.2) f y = f y
  | [], _, _ => rfl
  | e :: l, f, h => by
    rw [List.foldl_cons, foldl_update_notMem l _ (fun e' he' => h e' (List.mem_cons_of_mem _ he')), Function.update_of_ne (h e (by simp)).symm]

theorem foldl_update_zip : ∀ (js : List ℕ) (x : List ℚ) (f : ℕ → ℚ), js.Nodup → js.length ≤ x.length → ∀ k (hk : k < js.length),
    (js.zip x).foldl (fun f e => Function.update f e.1 e.2) f js[k] = x.getD k 0
  | [], _, _, _, _, _, hk => absurd hk (by simp)
  | j :: js, [], _, _, hl, _, _ => absurd hl (by simp)
  | j :: js, a :: x, f, hn, hl, k, hk => by
    rw [List.zip_cons_cons, List.foldl_cons]
    obtain ⟨h1, h2⟩ := List.nodup_cons.1 hn
    cases k with
    | zero =>
      rw [List.getElem_cons_zero, foldl_update_notMem]
      · simp
      · intro e he hc
        exact h1 (hc ▸ (List.of_mem_zip he).1)
    | succ k =>
      rw [List.getElem_cons_succ, foldl_update_zip js x _ h2 (by simpa using hl) k (by simpa using hk)]
      simp

theorem full_at (s : Sub) (x : List ℚ) (hn : s.used.Nodup) (hl : s.used.length ≤ x.length) (k : ℕ) (hk : k < s.used.length) : s.full x s.used[k] = x.getD k 0 :=
  foldl_update_zip _ _ _ hn hl k hk

theorem full_off (s : Sub) (x : List ℚ) (j : ℕ) (hj : j ∉ s.used) : s.full x j = s.start j :=
  foldl_update_notMem _ _ fun e he hc => hj (hc ▸ (List.of_mem_zip he).1)

/-- Scalar product of two lists. -/
def dot (a b : List ℚ) : ℚ := ((a.zip b).map fun e => e.1 * e.2).sum

theorem dot_set : ∀ (a b : List ℚ) (k : ℕ) (v : ℚ), k < a.length → k < b.length → dot (a.set k v) b = dot a b + (v - a.getD k 0) * b.getD k 0
  | [], _, _, _, h, _ => absurd h (by simp)
  | _ :: _, [], _, _, _, h => absurd h (by simp)
  | a :: as, b :: bs, 0, v, _, _ => by simp [dot]; ring
  | a :: as, b :: bs, k + 1, v, h, h' => by
    have := dot_set as bs k v (by simpa using h) (by simpa using h')
    simp only [dot, List.set_cons_succ, List.zip_cons_cons, List.map_cons, List.sum_cons, List.getD_cons_succ] at this ⊢
    rw [this]; ring

theorem dot_zero : ∀ (m : ℕ) (b : List ℚ), dot (List.replicate m 0) b = 0
  | 0, _ => by simp [dot]
  | m + 1, [] => by simp [dot]
  | m + 1, b :: bs => by
    have := dot_zero m bs
    simp only [dot, List.replicate_succ, List.zip_cons_cons, List.map_cons, List.sum_cons] at this ⊢
    rw [this]; ring

theorem findIdx_spec (cols : List ℕ) (j k : ℕ) (h : cols.findIdx? (fun i => decide (j = i)) = some k) : ∃ hk : k < cols.length, cols[k] = j := by
  obtain ⟨hk, h1, -⟩ := List.findIdx?_eq_some_iff_getElem.1 h
  exact ⟨hk, by simpa using (of_decide_eq_true h1).symm⟩

theorem findIdx_none (cols : List ℕ) (j : ℕ) : cols.findIdx? (fun i => decide (j = i)) = none ↔ j ∉ cols := by
  rw [List.findIdx?_eq_none_iff]
  constructor
  · intro h hj; simpa using h j hj
  · intro h i hi
    simp only [decide_eq_false_iff_not]
    rintro rfl
    exact h hi

theorem objGrad_spec (lower : Bool) (cols : List ℕ) (hc : cols.Nodup) : ∀ (cut : List (ℕ × ℚ)) (o : List ℚ), o.length = cols.length → (cut.map Prod.fst).Nodup → (∀ e ∈ cut, e.1 ∈ cols) →
    (∀ e ∈ cut, ∀ k (hk : k < cols.length), cols[k] = e.1 → o.getD k 0 = 0) → ∃ o', objGrad lower cols cut o = some o' ∧ o'.length = cols.length ∧
      ∀ y : ℕ → ℚ, dot o' (cols.map y) = dot o (cols.map y) + (if lower then 1 else -1) * act cut y
  | [], o, hl, _, _, _ => ⟨o, rfl, hl, fun y => by simp [act]⟩
  | e :: es, o, hl, hd, hm, hz => by
    cases hf : cols.findIdx? (fun j => decide (e.1 = j)) with
    | none => exact absurd (hm e (by simp)) ((findIdx_none cols e.1).1 hf)
    | some k =>
      obtain ⟨hk, hke⟩ := findIdx_spec cols e.1 k hf
      rw [List.map_cons, List.nodup_cons] at hd
      obtain ⟨o', h1, h2, h3⟩ := objGrad_spec lower cols hc es (o.set k (if lower then e.2 else -e.2)) (by simpa using hl) hd.2 (fun e' he' => hm e' (by simp [he']))
        (by
          intro e' he' k' hk' hke'
          have hne : k ≠ k' := by
            rintro rfl
            exact hd.1 (List.mem_map.2 ⟨e', he', by rw [← hke', hke]⟩)
          have := hz e' (by simp [he']) k' hk' hke'
          rw [List.getD_eq_getElem?_getD] at this ⊢
          rw [List.getElem?_set_ne hne]
          exact this)
      refine ⟨o', by simp only [objGrad, hf]; exact h1, h2, fun y => ?_⟩
      rw [h3, dot_set _ _ _ _ (by omega) (by simpa using hk), hz e (by simp) k hk hke]
      have hy : (cols.map y).getD k 0 = y e.1 := by
        rw [List.getD_eq_getElem _ _ (by simpa using hk), List.getElem_map, hke]
      rw [hy]
      simp only [act, List.map_cons, List.sum_cons]
      cases lower <;> simp <;> ring

theorem objGrad_none (lower : Bool) (cols : List ℕ) : ∀ (cut : List (ℕ × ℚ)) (o : List ℚ), objGrad lower cols cut o = none ↔ ∃ e ∈ cut, e.1 ∉ cols
  | [], o => by simp [objGrad]
  | e :: es, o => by
    cases hf : cols.findIdx? (fun j => decide (e.1 = j)) with
    | none =>
      simp only [objGrad, hf, true_iff]
      exact ⟨e, by simp, (findIdx_none cols e.1).1 hf⟩
    | some k =>
      obtain ⟨hk, hke⟩ := findIdx_spec cols e.1 k hf
      simp only [objGrad, hf]
      rw [objGrad_none lower cols es]
      constructor
      · rintro ⟨e', h1, h2⟩; exact ⟨e', by simp [h1], h2⟩
      · rintro ⟨e', h1, h2⟩
        rcases List.mem_cons.1 h1 with rfl | h1
        · exact absurd (hke ▸ List.getElem_mem hk) h2
        · exact ⟨e', h1, h2⟩

theorem objVal_eq (s : Sub) (x : List ℚ) : s.objVal x = dot s.obj x := rfl

theorem getD_map (l : List ℕ) (f : ℕ → ℚ) (k : ℕ) (h : k < l.length) : (l.map f).getD k 0 = f l[k] := by
  rw [List.getD_eq_getElem _ _ (by simpa using h), List.getElem_map]

theorem list_eq_map (l : List ℕ) (x : List ℚ) (y : ℕ → ℚ) (h : x.length = l.length) (hk : ∀ k (hk : k < l.length), y l[k] = x.getD k 0) : l.map y = x := by
  apply List.ext_getElem
  · simpa using h.symm
  · intro k h1 h2
    have h1' : k < l.length := by simpa using h1
    rw [List.getElem_map, hk k h1', List.getD_eq_getElem _ _ h2]

/-! ## C119 -/

/-- **C119**, constraints: if the structure of the gradient gives the variables of constraint `i` (numbered from 0), the program does not exit, no access is out of range, and the feasible
points are exactly the values, on these variables, of the points that satisfy the constraint and the bounds; the objective is the activity of the cut (its negative for an upper bound). -/
theorem row_problem_partial (p : Prob) (I : ℚ) (n : ℕ) (x xl xu : ℕ → ℚ) (i : ℕ) (lower : Bool) (cut : List (ℕ × ℚ)) (cols : List ℕ) (hnd : cols.Nodup) (hn : ∀ j ∈ cols, j < n)
    (hdep : DependsOn (p.g i) cols) (hcut : ∀ e ∈ cut, e.1 ∈ cols) (hcd : (cut.map Prod.fst).Nodup) :
    ∃ s, mk n x (some i) lower cut xl xu cols = some s ∧ s.inRange = true ∧ (∀ v, Feas p I s v ↔ ∃ y, cols.map y = v ∧ RowSet p I i cols xl xu y) ∧
      ∀ y, s.objVal (cols.map y) = (if lower then 1 else -1) * act cut y := by
  obtain ⟨o, h1, h2, h3⟩ := objGrad_spec lower cols hnd cut (List.replicate cols.length 0) (by simp) hcd hcut (by intros; simp [List.getD_replicate])
  refine ⟨_, by rw [mk, h1]; rfl, ?_, ?_, ?_⟩
  · simp [Sub.inRange, Sub.used]
    exact hn
  · intro v
    have hbox : ∀ k (hk : k < cols.length), (cols.map fun j => if j < n then xl j else -10 ^ 100).getD k 0 = xl cols[k] ∧ (cols.map fun j => if j < n then xu j else 10 ^ 100).getD k 0 = xu cols[k] := by
      intro k hk
      rw [getD_map _ _ _ hk, getD_map _ _ _ hk, if_pos (hn _ (List.getElem_mem hk)), if_pos (hn _ (List.getElem_mem hk))]
      exact ⟨rfl, rfl⟩
    constructor
    · rintro ⟨hl, hb, hg⟩
      simp only at hl hb
      set s : Sub := ⟨n, x, some i, lower, o, cols.map fun j => if j < n then xl j else -10 ^ 100, cols.map fun j => if j < n then xu j else 10 ^ 100, cols⟩ with hs
      have hu : s.used = cols := by simp [Sub.used, hs]
      have hat : ∀ k (hk : k < cols.length), s.full v cols[k] = v.getD k 0 := by
        intro k hk
        have := full_at s v (by rw [hu]; exact hnd) (by rw [hu]; omega) k (by rw [hu]; exact hk)
        simpa only [hu] using this
      refine ⟨s.full v, list_eq_map _ _ _ hl hat, ?_, ?_⟩
      · intro j hj
        obtain ⟨k, hk, rfl⟩ := List.mem_iff_getElem.1 hj
        have := hb k hk
        rw [(hbox k hk).1, (hbox k hk).2] at this
        rw [hat k hk]; exact this
      · simpa [Sub.gBounds, Sub.gval, hs] using hg
    · rintro ⟨y, rfl, hb, hg⟩
      refine ⟨by simp, ?_, ?_⟩
      · intro k hk
        simp only at hk ⊢
        rw [(hbox k hk).1, (hbox k hk).2, getD_map _ _ _ hk]
        exact hb _ (List.getElem_mem hk)
      · simp only [Sub.gBounds, Sub.gval]
        set s : Sub := ⟨n, x, some i, lower, o, cols.map fun j => if j < n then xl j else -10 ^ 100, cols.map fun j => if j < n then xu j else 10 ^ 100, cols⟩ with hs
        have hu : s.used = cols := by simp [Sub.used, hs]
        have : p.g i (s.full (cols.map y)) = p.g i y := by
          apply hdep
          intro j hj
          obtain ⟨k, hk, rfl⟩ := List.mem_iff_getElem.1 hj
          have := full_at s (cols.map y) (by rw [hu]; exact hnd) (by rw [hu]; simp) k (by rw [hu]; exact hk)
          rw [← getD_map cols y k hk]
          simpa only [hu] using this
        rw [this]; exact hg
  · intro y
    rw [objVal_eq]
    simp only
    rw [h3, dot_zero]; ring

/-- **C119**, objective: the same for a cut on the objective, provided the gradient at the random point shows every variable of the objective. -/
theorem obj_problem_partial (p : Prob) (I : ℚ) (n : ℕ) (x xl xu : ℕ → ℚ) (lower : Bool) (cut : List (ℕ × ℚ)) (J : List ℕ) (hnd : J.Nodup) (hn : ∀ j ∈ J, j < n)
    (hdep : DependsOn p.f J) (hcut : ∀ e ∈ cut, e.1 ∈ J ++ [n]) (hcd : (cut.map Prod.fst).Nodup) :
    ∃ s, mk n x none lower cut xl xu (J ++ [n]) = some s ∧ s.inRange = true ∧ (∀ v, Feas p I s v ↔ ∃ y, (J ++ [n]).map y = v ∧ ObjSet p I n J xl xu y) ∧
      ∀ y, s.objVal ((J ++ [n]).map y) = (if lower then 1 else -1) * act cut y := by
  have hndn : (J ++ [n]).Nodup := by
    rw [List.nodup_append]
    refine ⟨hnd, by simp, ?_⟩
    intro a ha b hb
    simp at hb
    have := hn a ha
    omega
  obtain ⟨o, h1, h2, h3⟩ := objGrad_spec lower (J ++ [n]) hndn cut (List.replicate (J ++ [n]).length 0) (by simp) hcd hcut (by intros; simp [List.getD_replicate])
  refine ⟨_, by rw [mk, h1]; rfl, ?_, ?_, ?_⟩
  · simp [Sub.inRange, Sub.used]
    exact hn
  · intro v
    set lo := (J ++ [n]).map fun j => if j < n then xl j else -10 ^ 100 with hlo
    set up := (J ++ [n]).map fun j => if j < n then xu j else 10 ^ 100 with hup
    set s : Sub := ⟨n, x, none, lower, o, lo, up, J ++ [n]⟩ with hs
    have hu : s.used = J := by simp [Sub.used, hs]
    have hbox : ∀ k (hk : k < J.length), lo.getD k 0 = xl J[k] ∧ up.getD k 0 = xu J[k] := by
      intro k hk
      have hk' : k < (J ++ [n]).length := by simp; omega
      have he : (J ++ [n])[k] = J[k] := List.getElem_append_left hk
      rw [hlo, hup, getD_map _ _ _ hk', getD_map _ _ _ hk', he, if_pos (hn _ (List.getElem_mem hk)), if_pos (hn _ (List.getElem_mem hk))]
      exact ⟨rfl, rfl⟩
    have hlast : lo.getD J.length 0 = -10 ^ 100 ∧ up.getD J.length 0 = 10 ^ 100 := by
      have hk' : J.length < (J ++ [n]).length := by simp
      have he : (J ++ [n])[J.length] = n := by simp
      rw [hlo, hup, getD_map _ _ _ hk', getD_map _ _ _ hk', he, if_neg (by omega), if_neg (by omega)]
      exact ⟨rfl, rfl⟩
    constructor
    · rintro ⟨hl, hb, hg⟩
      have hl' : v.length = J.length + 1 := by simpa [hs] using hl
      have hat : ∀ k (hk : k < J.length), s.full v J[k] = v.getD k 0 := by
        intro k hk
        have := full_at s v (by rw [hu]; exact hnd) (by rw [hu]; omega) k (by rw [hu]; exact hk)
        simpa only [hu] using this
      set y : ℕ → ℚ := Function.update (s.full v) n (v.getD J.length 0) with hy
      have hyJ : ∀ j ∈ J, y j = s.full v j := fun j hj => by
        rw [hy, Function.update_of_ne]
        have := hn j hj
        omega
      have hyn : y n = v.getD J.length 0 := by rw [hy, Function.update_self]
      refine ⟨y, ?_, ?_, ?_, ?_⟩
      · apply list_eq_map _ _ _ (by simpa using hl')
        intro k hk
        have hk' : k < J.length + 1 := by simpa using hk
        by_cases hkJ : k < J.length
        · have he : (J ++ [n])[k] = J[k] := List.getElem_append_left hkJ
          rw [he, hyJ _ (List.getElem_mem hkJ), hat k hkJ]
        · have hk2 : k = J.length := by omega
          subst hk2
          have he : (J ++ [n])[J.length] = n := by simp
          rw [he, hyn]
      · intro j hj
        obtain ⟨k, hk, rfl⟩ := List.mem_iff_getElem.1 hj
        have := hb k (by simp [hs]; omega)
        simp only [hs] at this
        rw [(hbox k hk).1, (hbox k hk).2] at this
        rw [hyJ _ hj, hat k hk]; exact this
      · have := hb J.length (by simp [hs])
        simp only [hs] at this
        rw [hlast.1, hlast.2] at this
        rw [hyn]; exact this
      · have hf : p.f y = p.f (s.full v) := hdep _ _ hyJ
        have hgv : s.gval p v = p.f (s.full v) - v.getD J.length 0 := by simp [Sub.gval, hs]
        have hgb : s.gBounds p = (-10 ^ 100, 0) := by simp [Sub.gBounds, hs]
        rw [hgb, hgv] at hg
        rw [hf, hyn]; exact hg
    · rintro ⟨y, rfl, hb, hz, hg⟩
      have hat : ∀ j ∈ J, s.full ((J ++ [n]).map y) j = y j := by
        intro j hj
        obtain ⟨k, hk, rfl⟩ := List.mem_iff_getElem.1 hj
        have hk' : k < (J ++ [n]).length := by simp; omega
        have := full_at s ((J ++ [n]).map y) (by rw [hu]; exact hnd) (by rw [hu]; simp) k (by rw [hu]; exact hk)
        simp only [hu] at this
        rw [this, getD_map _ _ _ hk']
        congr 1
        exact List.getElem_append_left hk
      have hlv : ((J ++ [n]).map y).getD J.length 0 = y n := by
        rw [getD_map _ _ _ (by simp)]
        congr 1
        simp
      refine ⟨by simp [hs], ?_, ?_⟩
      · intro k hk
        have hk' : k < J.length + 1 := by simpa [hs] using hk
        show Within I (lo.getD k 0) (up.getD k 0) _
        by_cases hkJ : k < J.length
        · rw [(hbox k hkJ).1, (hbox k hkJ).2, getD_map _ _ _ (by simp; omega)]
          have he : (J ++ [n])[k] = J[k] := List.getElem_append_left hkJ
          rw [he]
          exact hb _ (List.getElem_mem hkJ)
        · have hk2 : k = J.length := by omega
          subst hk2
          rw [hlast.1, hlast.2, hlv]; exact hz
      · have hf : p.f (s.full ((J ++ [n]).map y)) = p.f y := hdep _ _ hat
        have hgv : s.gval p ((J ++ [n]).map y) = p.f (s.full ((J ++ [n]).map y)) - ((J ++ [n]).map y).getD J.length 0 := by simp [Sub.gval, hs]
        have hgb : s.gBounds p = (-10 ^ 100, 0) := by simp [Sub.gBounds, hs]
        rw [hgb, hgv, hf, hlv]
        exact hg
  · intro y
    rw [objVal_eq]
    simp only
    rw [h3, dot_zero]; ring

/-- The solver finds minima: whenever it says so, the value passed on is the minimum. -/
def Solves (p : Prob) (I : ℚ) (solve : Sub → Answer) : Prop := ∀ s v, (solve s).optimal = true → (solve s).obj = some v → IsMin p I s v

/-- **C119**: the bound obtained for a constraint is the best there is: the minimum (maximum for an upper bound) of the activity of the cut over the points that satisfy the constraint and the
bounds of its variables. -/
theorem row_bound_best_partial (p : Prob) (I : ℚ) (solve : Sub → Answer) (n : ℕ) (x xl xu r : ℕ → ℚ) (i : ℕ) (lower : Bool) (cut : List (ℕ × ℚ)) (cols : List ℕ) (b : ℚ) (hsol : Solves p I solve)
    (hcols : p.cols i = some cols) (hnd : cols.Nodup) (hn : ∀ j ∈ cols, j < n) (hdep : DependsOn (p.g i) cols) (hcut : ∀ e ∈ cut, e.1 ∈ cols) (hcd : (cut.map Prod.fst).Nodup)
    (h : strengthen p solve n x xl xu r (some i) lower cut = .bound b) :
    (∀ y, RowSet p I i cols xl xu y → if lower then b ≤ act cut y else act cut y ≤ b) ∧ ∃ y, RowSet p I i cols xl xu y ∧ act cut y = b := by
  obtain ⟨s, h1, h2, h3, h4⟩ := row_problem_partial p I n x xl xu i lower cut cols hnd hn hdep hcut hcd
  simp only [strengthen, columns, hcols, h1, h2, if_true] at h
  by_cases ho : (solve s).optimal = true
  · rw [if_pos ho] at h
    cases hv : (solve s).obj with
    | none => rw [hv] at h; simp at h
    | some v =>
      rw [hv] at h
      simp only [Res.bound.injEq] at h
      obtain ⟨hmin, xm, hxm, hxv⟩ := hsol s v ho hv
      obtain ⟨ym, rfl, hym⟩ := (h3 xm).1 hxm
      constructor
      · intro y hy
        have := hmin _ ((h3 _).2 ⟨y, rfl, hy⟩)
        rw [h4] at this
        cases lower
        · simp at this h ⊢; linarith
        · simp at this h ⊢; linarith
      · refine ⟨ym, hym, ?_⟩
        rw [h4] at hxv
        cases lower
        · simp at hxv h; linarith
        · simp at hxv h; linarith
  · rw [if_neg ho] at h; simp at h

/-- **C119**: the same for the objective, if the gradient at the random point shows every variable the objective depends on. -/
theorem obj_bound_best_partial (p : Prob) (I : ℚ) (solve : Sub → Answer) (n : ℕ) (x xl xu r : ℕ → ℚ) (lower : Bool) (cut : List (ℕ × ℚ)) (gr : ℕ → ℚ) (b : ℚ) (hsol : Solves p I solve)
    (hgr : p.gradF (randPoint x xl xu r) = some gr) (hdep : DependsOn p.f ((List.range n).filter fun j => decide (gr j ≠ 0)))
    (hcut : ∀ e ∈ cut, e.1 = n ∨ (e.1 < n ∧ gr e.1 ≠ 0)) (hcd : (cut.map Prod.fst).Nodup) (h : strengthen p solve n x xl xu r none lower cut = .bound b) :
    (∀ y, ObjSet p I n ((List.range n).filter fun j => decide (gr j ≠ 0)) xl xu y → if lower then b ≤ act cut y else act cut y ≤ b) ∧
    ∃ y, ObjSet p I n ((List.range n).filter fun j => decide (gr j ≠ 0)) xl xu y ∧ act cut y = b := by
  obtain ⟨s, h1, h2, h3, h4⟩ := obj_problem_partial p I n x xl xu lower cut ((List.range n).filter fun j => decide (gr j ≠ 0)) (List.Nodup.filter _ List.nodup_range)
    (by intro j hj; simpa using (List.mem_filter.1 hj).1) hdep
    (by
      intro e he
      rcases hcut e he with h | h
      · simp [h]
      · simp [h.1, h.2]) hcd
  simp only [strengthen, columns, hgr, Option.map_some, h1, h2, if_true] at h
  by_cases ho : (solve s).optimal = true
  · rw [if_pos ho] at h
    cases hv : (solve s).obj with
    | none => rw [hv] at h; simp at h
    | some v =>
      rw [hv] at h
      simp only [Res.bound.injEq] at h
      obtain ⟨hmin, xm, hxm, hxv⟩ := hsol s v ho hv
      obtain ⟨ym, rfl, hym⟩ := (h3 xm).1 hxm
      constructor
      · intro y hy
        have := hmin _ ((h3 _).2 ⟨y, rfl, hy⟩)
        rw [h4] at this
        cases lower
        · simp at this h ⊢; linarith
        · simp at this h ⊢; linarith
      · refine ⟨ym, hym, ?_⟩
        rw [h4] at hxv
        cases lower
        · simp at hxv h; linarith
        · simp at hxv h; linarith
  · rw [if_neg ho] at h; simp at h

/-- **C119** with C13: a cut on a constraint handled with this problem remains satisfied by every point that satisfies the constraint (under the condition of C13 on integer variables). -/
theorem handled_cut_valid_partial (p : Prob) (I : ℚ) (solve : Sub → Answer) (n : ℕ) (x r : ℕ → ℚ) (i : ℕ) (cols : List ℕ) {inf : ℚ} {disj isTight ok : Bool} {isInt : ℕ → Bool} {lo up y : ℕ → ℚ}
    {c c' : Cut} (hsol : Solves p I solve) (hcols : p.cols i = some cols) (hnd : cols.Nodup) (hn : ∀ j ∈ cols, j < n) (hdep : DependsOn (p.g i) cols) (hcut : ∀ e ∈ c.co, e.1 ∈ cols)
    (hcd : (c.co.map Prod.fst).Nodup) (h : handleOneCut inf (fun lower xl xu => bndOf (strengthen p solve n x xl xu r (some i) lower c.co)) disj isTight n isInt x lo up c = some (ok, c'))
    (hg : Within I (p.gl i) (p.gu i) (p.g i y)) (hsat : Sat inf c y) (hbox : ∀ j, lo j ≤ y j ∧ y j ≤ up j)
    (hint : ∀ j, j < n → isInt j = true → y j = (⌊x j⌋ : ℚ) ∨ y j = (⌊x j⌋ : ℚ) + 1) : Sat inf c' y := by
  refine handleOneCut_valid_partial (P := fun y => Within I (p.gl i) (p.gu i) (p.g i y)) ?_ h hg hsat hbox hint
  intro xl xu b
  have hb : ∀ {res : Res}, bndOf res = some b → res = .bound b := by
    intro res hres
    cases res <;> simp [bndOf] at hres
    rw [hres]
  constructor
  · intro hbb y hy hbx
    have := (row_bound_best_partial p I solve n x xl xu r i false c.co cols b hsol hcols hnd hn hdep hcut hcd (hb hbb)).1 y ⟨fun j _ => ⟨fun _ => (hbx j).1, fun _ => (hbx j).2⟩, hy⟩
    simpa using this
  · intro hbb y hy hbx
    have := (row_bound_best_partial p I solve n x xl xu r i true c.co cols b hsol hcols hnd hn hdep hcut hcd (hb hbb)).1 y ⟨fun j _ => ⟨fun _ => (hbx j).1, fun _ => (hbx j).2⟩, hy⟩
    simpa using this

/-- The point tried for the gradient of the objective respects the bounds. -/
theorem rand_in_box (x xl xu r : ℕ → ℚ) (i : ℕ) (hb : xl i ≤ xu i) (hr : 0 ≤ r i ∧ r i ≤ 1) : xl i ≤ randPoint x xl xu r i ∧ randPoint x xl xu r i ≤ xu i := by
  unfold randPoint
  have h0 : 0 ≤ min 1 (xu i - xl i) := le_min (by norm_num) (by linarith)
  have h1 : min 1 (xu i - xl i) ≤ xu i - xl i := min_le_right _ _
  set R := min 1 (xu i - xl i)
  have h2 : 0 ≤ R * r i := mul_nonneg h0 hr.1
  have h3 : R * r i ≤ R := by nlinarith [hr.2]
  have h4 : xl i ≤ max (min (x i - 1 / 2 * R) (xu i - R)) (xl i) := le_max_right _ _
  have h5 : max (min (x i - 1 / 2 * R) (xu i - R)) (xl i) ≤ xu i - R := max_le (min_le_right _ _) (by linarith)
  constructor <;> simp only <;> linarith

/-- At the starting point the user's functions are evaluated at the point the cut comes from. -/
theorem start_is_point (s : Sub) (hne : s.row = none → s.vars ≠ []) : s.full s.startPt = s.start ∧ s.startPt.length = s.vars.length := by
  have key : ∀ (js : List ℕ) (extra : List ℚ) (f : ℕ → ℚ), (js.zip (js.map f ++ extra)).foldl (fun f e => Function.update f e.1 e.2) f = f := by
    intro js
    induction js with
    | nil => intros; rfl
    | cons j js ih =>
      intro extra f
      simp only [List.map_cons, List.cons_append, List.zip_cons_cons, List.foldl_cons, Function.update_eq_self]
      exact ih extra f
  by_cases hr : s.row = none
  · refine ⟨?_, ?_⟩
    · simp only [Sub.full, Sub.startPt, Sub.used, hr, if_true]
      exact key _ _ _
    · simp only [Sub.startPt, hr, if_true, List.length_append, List.length_map, List.length_dropLast, List.length_singleton]
      have := List.length_pos_iff.2 (hne hr)
      omega
  · refine ⟨?_, ?_⟩
    · simp only [Sub.full, Sub.startPt, Sub.used, if_neg hr]
      have := key s.vars [] s.start
      simpa using this
    · simp [Sub.startPt, hr]

/-- Sum of `a k * (b k - c k)`. -/
def step (a b c : List ℚ) : ℚ := ((a.zip (b.zip c)).map fun e => e.1 * (e.2.1 - e.2.2)).sum

theorem step_map : ∀ (js : List ℕ) (a b c : ℕ → ℚ), step (js.map a) (js.map b) (js.map c) = (js.map fun j => a j * (b j - c j)).sum
  | [], _, _, _ => by simp [step]
  | j :: js, a, b, c => by
    have := step_map js a b c
    simp only [step, List.map_cons, List.zip_cons_cons, List.sum_cons] at this ⊢
    rw [this]

theorem step_append : ∀ (a b c : List ℚ) (u v w : ℚ), a.length = b.length → a.length = c.length → step (a ++ [u]) (b ++ [v]) (c ++ [w]) = step a b c + u * (v - w)
  | [], [], [], u, v, w, _, _ => by simp [step]
  | [], _ :: _, _, _, _, _, h, _ => absurd h (by simp)
  | [], [], _ :: _, _, _, _, _, h => absurd h (by simp)
  | _ :: _, [], _, _, _, _, h, _ => absurd h (by simp)
  | _ :: _, _ :: _, [], _, _, _, _, h => absurd h (by simp)
  | a :: as, b :: bs, c :: cs, u, v, w, h, h' => by
    have := step_append as bs cs u v w (by simpa using h) (by simpa using h')
    simp only [step, List.cons_append, List.zip_cons_cons, List.map_cons, List.sum_cons] at this ⊢
    rw [this]; ring

/-- **C119**, derivatives: for a convex objective whose gradient vanishes off the variables of the problem, the Jacobian passed to the solver is a gradient of the constraint: it satisfies the
gradient inequality. -/
theorem obj_gradient (p : Prob) (n : ℕ) (s : Sub) (J : List ℕ) (hv : s.vars = J ++ [n]) (hrow : s.row = none) (hnd : J.Nodup)
    (hconv : ∀ y y' : ℕ → ℚ, ∀ gr, p.gradF y = some gr → (∀ j ∉ J, y j = y' j) → p.f y + (J.map fun j => gr j * (y' j - y j)).sum ≤ p.f y')
    (x x' jac : List ℚ) (hx : x.length = J.length + 1) (hx' : x'.length = J.length + 1) (hj : s.jac p x = some jac) : s.gval p x + step jac x' x ≤ s.gval p x' := by
  have hu : s.used = J := by simp [Sub.used, hrow, hv]
  simp only [Sub.jac, hrow, Option.map_eq_some_iff] at hj
  obtain ⟨gr, hgr, rfl⟩ := hj
  have hat : ∀ v : List ℚ, v.length = J.length + 1 → (J.map (s.full v)) ++ [v.getD J.length 0] = v := by
    intro v hl
    apply List.ext_getElem
    · simp [hl]
    · intro k h1 h2
      by_cases hk : k < J.length
      · rw [List.getElem_append_left (by simpa using hk), List.getElem_map]
        have := full_at s v (by rw [hu]; exact hnd) (by rw [hu]; omega) k (by rw [hu]; exact hk)
        simp only [hu] at this
        rw [this, List.getD_eq_getElem _ _ h2]
      · have : k = J.length := by omega
        subst this
        rw [List.getElem_append_right (by simp)]
        simp [List.getElem?_eq_getElem h2]
  have hoff : ∀ j ∉ J, s.full x j = s.full x' j := fun j hj => by rw [full_off s x j (by rw [hu]; exact hj), full_off s x' j (by rw [hu]; exact hj)]
  have := hconv _ _ gr hgr hoff
  have hstep : step (s.vars.dropLast.map gr ++ [-1]) x' x = (J.map fun j => gr j * (s.full x' j - s.full x j)).sum + -1 * (x'.getD J.length 0 - x.getD J.length 0) := by
    conv_lhs => rw [← hat x hx, ← hat x' hx']
    rw [step_append _ _ _ _ _ _ (by simp [hv]) (by simp [hv])]
    have : s.vars.dropLast = J := by simp [hv]
    rw [this, step_map]
  rw [hstep]
  simp only [Sub.gval, hrow, hv, List.length_append, List.length_singleton, Nat.add_sub_cancel]
  linarith

/-! ## Where the problem is another one -/

/-- **C119** refuted for structures numbered from 1 (`FORTRAN_STYLE`, as AMPL models give them, BonAmplTMINLP.cpp:692): if the cut has an entry for the first variable of the constraint, the
program exits. -/
theorem fortran_exits (p : Prob) (solve : Sub → Answer) (n : ℕ) (x xl xu r : ℕ → ℚ) (i : ℕ) (lower : Bool) (cut : List (ℕ × ℚ)) (J : List ℕ) (k : ℕ)
    (hcols : p.cols i = some (J.map (· + 1))) (hmin : ∀ j ∈ J, k ≤ j) (hk : ∃ v, (k, v) ∈ cut) : strengthen p solve n x xl xu r (some i) lower cut = .exits := by
  obtain ⟨v, hv⟩ := hk
  have : objGrad lower (J.map (· + 1)) cut (List.replicate (J.map (· + 1)).length 0) = none := by
    rw [objGrad_none]
    refine ⟨(k, v), hv, ?_⟩
    intro hc
    obtain ⟨j, hj, he⟩ := List.mem_map.1 hc
    have := hmin j hj
    simp only at he
    omega
  simp only [strengthen, columns, hcols, mk, this, Option.map_none]

/-- **C119** refuted, the same in general: the program exits exactly if some index of the cut is not among the indices given for the constraint. -/
theorem exits_iff (p : Prob) (solve : Sub → Answer) (n : ℕ) (x xl xu r : ℕ → ℚ) (row : Option ℕ) (lower : Bool) (cut : List (ℕ × ℚ)) :
    strengthen p solve n x xl xu r row lower cut = .exits ↔ ∃ cols, columns p n (randPoint x xl xu r) row = some cols ∧ ∃ e ∈ cut, e.1 ∉ cols := by
  unfold strengthen
  cases hc : columns p n (randPoint x xl xu r) row with
  | none => simp
  | some cols =>
    simp only [Option.some.injEq, exists_eq_left']
    cases ho : objGrad lower cols cut (List.replicate cols.length 0) with
    | none =>
      simp only [mk, ho, Option.map_none, true_iff]
      exact (objGrad_none lower cols cut _).1 ho
    | some o =>
      have hne : ¬ ∃ e ∈ cut, e.1 ∉ cols := fun hex => by rw [(objGrad_none lower cols cut _).2 hex] at ho; simp at ho
      simp only [mk, ho, Option.map_some, hne, iff_false]
      split
      · split
        · split <;> simp
        · simp
      · simp

/-- An objective that is flat on one side: `max(0, y₀)²`. -/
def flat : Prob where
  f := fun y => if 0 ≤ y 0 then y 0 * y 0 else 0
  gradF := fun y => some fun j => if j = 0 ∧ 0 ≤ y 0 then 2 * y 0 else 0
  g := fun _ _ => 0
  cols := fun _ => some []
  gradG := fun _ _ => []
  gl := fun _ => 0
  gu := fun _ => 0

/-- **C119** refuted for the objective: at the random point its gradient may vanish although the cut (taken at 1/4, slope 1/2) has a coefficient: the program exits. -/
theorem random_point_misses (solve : Sub → Answer) : strengthen flat solve 1 (fun _ => 1 / 4) (fun _ => -5) (fun _ => 5) (fun _ => 0) none false [(0, 1 / 2), (1, -1)] = .exits := by
  rw [exits_iff]
  refine ⟨[1], ?_, (0, 1 / 2), by simp, by simp⟩
  have hr : randPoint (fun _ => 1 / 4) (fun _ => -5) (fun _ => 5) (fun _ => 0) 0 = -1 / 4 := by norm_num [randPoint]
  simp only [columns, flat, Option.map_some, Option.some.injEq]
  rw [show List.range 1 = [0] from rfl]
  have hne : ¬ ((0 : ℚ) ≤ -1 / 4) := by norm_num
  simp only [List.filter_cons, List.filter_nil, hr, hne, and_false, if_false]
  simp

/-- Calls the solver makes: `eval_f` or `eval_g` at a point, with `new_x`. -/
inductive Call
  | f (x : List ℚ) (newX : Bool)
  | g (x : List ℚ) (newX : Bool)

/-- What a user function sees that keeps the point between calls with `new_x = false`: `eval_f` does not pass anything on (BonCutStrengthener.cpp:487-494), `eval_g` passes on `new_x` (509, 513). -/
def seen (s : Sub) : List Call → (ℕ → ℚ) → List (ℕ → ℚ)
  | [], _ => []
  | .f _ _ :: cs, c => seen s cs c
  | .g x nw :: cs, c => (if nw then s.full x else c) :: seen s cs (if nw then s.full x else c)

/-- **C119** refuted for problems that use `new_x`: the solver announces a new point with its call of `eval_f`; the user's constraint function is told that nothing has changed and returns the
values of the point before. -/
theorem stale_point (s : Sub) (x x' : List ℚ) (c : ℕ → ℚ) : seen s [.f x true, .g x false, .f x' true, .g x' false] c = [c, c] ∧
    seen s [.g x true, .f x false, .g x' true, .f x' false] c = [s.full x, s.full x'] := ⟨rfl, rfl⟩

/-! ## A concrete case -/

/-- `y₀² ≤ 1` with the cut `y₀ ≤ 1` (from a linearisation at 1), on `[-3, 3]`. -/
def disc : Prob where
  f := fun _ => 0
  gradF := fun _ => some fun _ => 0
  g := fun _ y => y 0 * y 0
  cols := fun _ => some [0]
  gradG := fun _ y => [2 * y 0]
  gl := fun _ => -10 ^ 100
  gu := fun _ => 1

/-- The minimum of `-2 y₀` over `y₀² ≤ 1` is `-2`, so the bound found for `2 y₀` is 2. -/
example : ∃ solve : Sub → Answer, strengthen disc solve 2 (fun _ => 5 / 4) (fun _ => -3) (fun _ => 3) (fun _ => 0) (some 0) false [(0, 2)] = .bound 2 ∧
    ∀ s, mk 2 (fun _ => 5 / 4) (some 0) false [(0, 2)] (fun _ => -3) (fun _ => 3) [0] = some s → IsMin disc (10 ^ 19) s (-2) := by
  refine ⟨fun _ => ⟨true, some (-2)⟩, ?_, ?_⟩
  · norm_num [strengthen, columns, disc, mk, objGrad, Sub.inRange, Sub.used]
  · intro s hs
    obtain ⟨s', h1, -, h3, h4⟩ := row_problem_partial disc (10 ^ 19) 2 (fun _ => 5 / 4) (fun _ => -3) (fun _ => 3) 0 false [(0, 2)] [0] (by simp) (by simp)
      (by intro y y' h; simp [disc, h 0 (by simp)]) (by simp) (by simp)
    rw [hs] at h1
    obtain rfl := Option.some.inj h1
    constructor
    · intro v hv
      obtain ⟨y, rfl, hy⟩ := (h3 v).1 hv
      rw [h4]
      have := hy.2.2 (by norm_num [disc])
      simp only [disc] at this
      simp [act]
      nlinarith [sq_nonneg (y 0 - 1)]
    · refine ⟨[0].map fun _ => 1, (h3 _).2 ⟨fun _ => 1, rfl, ?_, ?_⟩, ?_⟩
      · intro j hj; constructor <;> intro _ <;> norm_num
      · constructor <;> intro _ <;> norm_num [disc] at *
      · rw [h4]; simp [act]

/-- C119: the starting point: the variables' values, and zero for the extra variable if the objective is strengthened. -/
theorem start_exact (s : Sub) (k : ℕ) : (∀ i, s.row = some i → s.startPt[k]? = (s.vars[k]?).map s.start) ∧
    (s.row = none → (k + 1 < s.vars.length → s.startPt[k]? = (s.vars[k]?).map s.start) ∧ (k + 1 = s.vars.length → s.startPt[k]? = some 0)) := by
  refine ⟨fun i hi => ?_, fun hr => ⟨fun hk => ?_, fun hk => ?_⟩⟩
  · simp [Sub.startPt, hi]
  · rw [Sub.startPt, if_pos hr, List.getElem?_append_left (by simp; omega), List.getElem?_map, List.getElem?_dropLast, if_pos (by omega)]
  · rw [Sub.startPt, if_pos hr, List.getElem?_append_right (by simp; omega)]
    have : k - (s.vars.dropLast.map s.start).length = 0 := by simp; omega
    rw [this]
    rfl

/-- The function of `random_point_misses` is convex, and its gradient is what the program is given. -/
theorem flat_gradient (y : ℕ → ℚ) : ∃ d, flat.gradF y = some d ∧ (∀ z, flat.f y + d 0 * (z 0 - y 0) ≤ flat.f z) ∧ ∀ j, j ≠ 0 → d j = 0 := by
  refine ⟨_, rfl, fun z => ?_, fun j hj => by simp [hj]⟩
  simp only [flat, true_and]
  split_ifs <;> nlinarith [mul_self_nonneg (z 0 - y 0), mul_self_nonneg (z 0), mul_self_nonneg (y 0)]

end Verif.Strengthen.Nlp

import Verif.Quad.Props
/-! # C122–C124: the problem with appended cuts, its objective and its copies

src/Algorithms/QuadCuts/BonTMINLP2Quad.cpp: the functions of `TMINLP2TNLPQuadCuts` an NLP solver calls, except `eval_h` and the management of cuts (HModel.lean).  Functions of the user that fail are
`none`; values written before a failure are not modelled. -/
namespace Verif.Quad.Wrap
open Verif.Quad

/-- The problem without cuts, as `TMINLP2TNLP` passes it on (BonTMINLP2TNLP.cpp:412-472). -/
structure Orig where
  n : ℕ
  m : ℕ
  fortran : Bool
  f : (ℕ → ℚ) → Option ℚ
  gradF : (ℕ → ℚ) → Option (List ℚ)
  g : (ℕ → ℚ) → Option (List ℚ)
  gi : ℕ → (ℕ → ℚ) → Option ℚ
  jacS : List (ℕ × ℕ)
  jacV : (ℕ → ℚ) → Option (List ℚ)
  linear : List Bool

/-- The problem with appended rows: `obj`, `c` are `obj_` and `c_` (BonTMINLP2Quad.hpp:172-186); `c = none` if never written. -/
structure QProb where
  o : Orig
  rows : List QRow
  obj : List ℚ
  c : Option ℚ

def QProb.off (p : QProb) : ℕ := if p.o.fortran then 1 else 0

/-- The loop of `eval_f` (BonTMINLP2Quad.cpp:172-176) from index `i`. -/
def objLoop (x : ℕ → ℚ) : List ℚ → ℕ → ℚ → ℚ
  | [], _, v => v
  | a :: as, i, v => objLoop x as (i + 1) (v + a * x i)

/-- `eval_f` (BonTMINLP2Quad.cpp:163-178): `none` = failure, failed assertion (173) or an uninitialised constant. -/
def QProb.evalF (p : QProb) (x : ℕ → ℚ) : Option ℚ :=
  if p.obj = [] then p.o.f x
  else if p.obj.length = p.o.n then p.c.map (objLoop x p.obj 0)
  else none

/-- `eval_grad_f` (BonTMINLP2Quad.cpp:182-194). -/
def QProb.gradF (p : QProb) (x : ℕ → ℚ) : Option (List ℚ) :=
  if p.obj = [] then p.o.gradF x
  else if p.obj.length = p.o.n then some p.obj
  else none

/-- `eval_g` (BonTMINLP2Quad.cpp:210-219). -/
def QProb.evalG (p : QProb) (x : ℕ → ℚ) : Option (List ℚ) := (p.o.g x).map fun v => v ++ p.rows.map fun r => r.evalF x

/-- `eval_gi` (BonTMINLP2Quad.cpp:196-206): the value written and the flag returned. -/
def QProb.evalGi (p : QProb) (i : ℕ) (x : ℕ → ℚ) : Option (ℚ × Bool) :=
  if i < p.o.m then (p.o.gi i x).map fun v => (v, true)
  else (p.rows[i - p.o.m]?).map fun r => (r.evalF x, false)

/-- `eval_grad_gi` for appended rows (BonTMINLP2Quad.cpp:270-281): structure, values, flag. -/
def QProb.gradGi (p : QProb) (i : ℕ) (x : ℕ → ℚ) : Option (List ℕ × List ℚ × Bool) :=
  (p.rows[i - p.o.m]?).map fun r => (r.gradStruct p.o.fortran, r.evalGrad x, false)

/-- Structure written by `eval_jac_g` for the appended rows from number `i` on (BonTMINLP2Quad.cpp:240-247). -/
def rowsS (m off : ℕ) (fortran : Bool) : List QRow → ℕ → List (ℕ × ℕ)
  | [], _ => []
  | r :: rs, i => ((r.gradStruct fortran).map fun j => (m + i + off, j)) ++ rowsS m off fortran rs (i + 1)

/-- `eval_jac_g` without values (BonTMINLP2Quad.cpp:226-248). -/
def QProb.jacS (p : QProb) : List (ℕ × ℕ) := p.o.jacS ++ rowsS p.o.m p.off p.o.fortran p.rows 0

/-- `eval_jac_g` with values (BonTMINLP2Quad.cpp:249-258). -/
def QProb.jacV (p : QProb) (x : ℕ → ℚ) : Option (List ℚ) := (p.o.jacV x).map fun v => v ++ p.rows.flatMap fun r => r.evalGrad x

/-- `get_constraints_linearity` (BonTMINLP2Quad.cpp:123-135): `true` = linear. -/
def QProb.linearity (p : QProb) : List Bool := p.o.linear ++ p.rows.map fun r => r.q.isEmpty

/-- `set_linear_objective` (BonTMINLP2Quad.cpp:496-502). -/
def QProb.setObjective (p : QProb) (obj : List ℚ) (c : ℚ) : QProb := { p with obj := obj, c := some c }

/-- `reset_objective` (BonTMINLP2Quad.hpp:148-150). -/
def QProb.resetObjective (p : QProb) : QProb := { p with obj := [] }

/-- The copy constructor (BonTMINLP2Quad.cpp:53-93) but for the Hessian: `c_` is not in its list; rows are built again, with orderings `ords`. -/
def QProb.copy (p : QProb) (ords : List (List ℕ × List ℕ)) : Option QProb :=
  ((p.rows.zip ords).mapM fun e => QRow.initialize e.1.c e.1.a e.1.q e.2.1 e.2.2).map fun rs => { o := p.o, rows := rs, obj := p.obj, c := none }

/-- `get_scaling_parameters` (BonTMINLP2Quad.cpp:149-160): it calls itself; `none` = still running after `fuel` calls. -/
def scaling (k : ℕ) : ℕ → ℕ → Option Unit
  | 0, _ => none
  | fuel + 1, m => (scaling k fuel (m - k)).map fun _ => ()

/-! ## Specification -/

/-- A row built by `QuadRow::initialize` from a matrix with entries on or above the diagonal and a linear part without repeated indices. -/
def Built (r : QRow) : Prop := ∃ c a q ro co, (∀ e ∈ q, e.row ≤ e.col) ∧ IsOrdering rowLt q ro ∧ IsOrdering colLt q co ∧ (a.map (·.1)).Nodup ∧ QRow.initialize c a q ro co = some r

/-- The function a row stands for. -/
def rowFun (r : QRow) (x : ℕ → ℚ) : ℚ := quadFun r.c r.a r.q x

/-- Row `i` of a matrix in triplets, times a direction; indices count from `off`. -/
def rowTimes (off : ℕ) (S : List (ℕ × ℕ)) (V : List ℚ) (i : ℕ) (d : ℕ → ℚ) : ℚ := ((S.zip V).map fun e => if e.1.1 = i + off then e.2 * d (e.1.2 - off) else 0).sum

/-- Linear function of the first variables. -/
def linTimes (a : List ℚ) (x : ℕ → ℚ) : ℚ := (a.zipIdx.map fun e => e.1 * x e.2).sum

/-! ## Lemmas -/

theorem built_wf {r : QRow} (h : Built r) : (∀ e ∈ r.q, e.row ≤ e.col) ∧ (r.a.map (·.1)).Nodup ∧ r.WF := by
  obtain ⟨c, a, q, ro, co, h1, h2, h3, h4, h5⟩ := h
  obtain ⟨r', h6, h7, h8, h9, h10⟩ := initialize_wf (c := c) (a := a) h1 h2 h3
  rw [h5] at h6
  obtain rfl := Option.some.inj h6
  exact ⟨by rw [h9]; exact h1, by rw [h8]; exact h4, h10⟩

theorem built_value {r : QRow} (h : Built r) (x : ℕ → ℚ) : r.evalF x = rowFun r x := evalF_eq r (built_wf h).2.2 x

theorem built_lens (r : QRow) (x : ℕ → ℚ) (b : Bool) : (r.evalGrad x).length = (r.gradStruct b).length := by
  have := congrArg List.length (eval_keys r x)
  simpa [QRow.evalGrad, QRow.gradStruct, GMap.keys] using this

theorem built_gradient {r : QRow} (h : Built r) (x d : ℕ → ℚ) :
    rowFun r (fun i => x i + d i) = rowFun r x + sparseDot (r.gradStruct false) (r.evalGrad x) d + symForm r.q d d := by
  obtain ⟨-, h2, h3⟩ := built_wf h
  rw [sparse_grad r h3 h2]
  unfold rowFun quadFun
  rw [linForm_add, symForm_add_left, symForm_add_right, symForm_add_right, symForm_comm r.q x d]
  ring

theorem rowTimes_append (off : ℕ) (S S' : List (ℕ × ℕ)) (V V' : List ℚ) (i : ℕ) (d : ℕ → ℚ) (h : S.length = V.length) :
    rowTimes off (S ++ S') (V ++ V') i d = rowTimes off S V i d + rowTimes off S' V' i d := by
  unfold rowTimes
  rw [List.zip_append h, List.map_append, List.sum_append]

theorem sum_eq_zero : ∀ l : List ℚ, (∀ v ∈ l, v = 0) → l.sum = 0
  | [], _ => rfl
  | a :: l, h => by rw [List.sum_cons, h a (by simp), sum_eq_zero l fun v hv => h v (by simp [hv])]; ring

theorem rowTimes_none (off : ℕ) (S : List (ℕ × ℕ)) (V : List ℚ) (i : ℕ) (d : ℕ → ℚ) (h : ∀ e ∈ S, e.1 ≠ i + off) : rowTimes off S V i d = 0 := by
  unfold rowTimes
  apply sum_eq_zero
  intro v hv
  obtain ⟨e, he, rfl⟩ := List.mem_map.1 hv
  exact if_neg (h e.1 (List.of_mem_zip he).1)

theorem rowTimes_block (off : ℕ) (fortran : Bool) (hoff : off = if fortran then 1 else 0) (r : QRow) (V : List ℚ) (i : ℕ) (d : ℕ → ℚ) :
    rowTimes off ((r.gradStruct fortran).map fun j => (i + off, j)) V i d = sparseDot (r.gradStruct false) V d := by
  have hs : r.gradStruct fortran = (r.gradStruct false).map (· + off) := by
    cases fortran <;> simp [QRow.gradStruct, hoff]
  rw [hs]
  unfold rowTimes sparseDot
  generalize r.gradStruct false = js
  induction js generalizing V with
  | nil => simp
  | cons j js ih =>
    cases V with
    | nil => simp
    | cons v V =>
      have := ih V
      simp only [List.map_map] at this
      simp only [List.map_cons, List.zip_cons_cons, List.sum_cons, if_true, Nat.add_sub_cancel, List.map_map, this]

theorem rowsS_ge (m off : ℕ) (fortran : Bool) : ∀ (rs : List QRow) (s : ℕ), ∀ e ∈ rowsS m off fortran rs s, m + s + off ≤ e.1
  | [], _, e, h => by simp [rowsS] at h
  | r :: rs, s, e, h => by
    simp only [rowsS, List.mem_append, List.mem_map] at h
    rcases h with ⟨j, -, rfl⟩ | h
    · exact le_refl _
    · have := rowsS_ge m off fortran rs (s + 1) e h
      omega

theorem rowsS_times (m off : ℕ) (fortran : Bool) (hoff : off = if fortran then 1 else 0) (x d : ℕ → ℚ) : ∀ (rs : List QRow) (s k : ℕ) (r : QRow), rs[k]? = some r →
    rowTimes off (rowsS m off fortran rs s) (rs.flatMap fun r => r.evalGrad x) (m + s + k) d = sparseDot (r.gradStruct false) (r.evalGrad x) d
  | [], _, _, _, h => by simp at h
  | r0 :: rs, s, k, r, h => by
    rw [rowsS, List.flatMap_cons, rowTimes_append _ _ _ _ _ _ _ (by rw [List.length_map, built_lens r0 x fortran])]
    cases k with
    | zero =>
      simp only [List.getElem?_cons_zero, Option.some.injEq] at h
      subst h
      have h0 := rowTimes_block off fortran hoff r0 (r0.evalGrad x) (m + s) d
      rw [Nat.add_zero, h0, rowTimes_none]
      · ring
      · intro e he
        have := rowsS_ge m off fortran rs (s + 1) e he
        omega
    | succ k =>
      rw [List.getElem?_cons_succ] at h
      have ih := rowsS_times m off fortran hoff x d rs (s + 1) k r h
      rw [show m + (s + 1) + k = m + s + (k + 1) by omega] at ih
      rw [ih, rowTimes_none]
      · ring
      · intro e he
        simp only [List.mem_map] at he
        obtain ⟨j, -, rfl⟩ := he
        simp only
        omega

theorem rowsS_length (m off : ℕ) (fortran : Bool) : ∀ (rs : List QRow) (s : ℕ), (rowsS m off fortran rs s).length = (rs.map fun r => r.nnzGrad).sum
  | [], _ => rfl
  | r :: rs, s => by
    rw [rowsS, List.length_append, rowsS_length m off fortran rs (s + 1), List.map_cons, List.sum_cons]
    simp [QRow.gradStruct, QRow.nnzGrad]

theorem objLoop_eq (x : ℕ → ℚ) : ∀ (a : List ℚ) (i : ℕ) (v : ℚ), objLoop x a i v = v + ((a.zipIdx i).map fun e => e.1 * x e.2).sum
  | [], _, v => by simp [objLoop]
  | a :: as, i, v => by
    rw [objLoop, objLoop_eq x as, List.zipIdx_cons, List.map_cons, List.sum_cons]
    ring

/-! ## C122 -/

/-- **C122**, values: the constraint values are those of the problem followed by those of the functions the appended rows stand for. -/
theorem values_exact (p : QProb) (hb : ∀ r ∈ p.rows, Built r) (x : ℕ → ℚ) : p.evalG x = (p.o.g x).map fun v => v ++ p.rows.map fun r => rowFun r x := by
  unfold QProb.evalG
  congr 1
  funext v
  congr 1
  exact List.map_congr_left fun r hr => built_value (hb r hr) x

/-- **C122**, Jacobian of appended rows: row `m + k` of the triplets is the derivative of the function of the `k`-th appended row, in both styles of numbering. -/
theorem jacobian_appended (p : QProb) (hb : ∀ r ∈ p.rows, Built r) (x d : ℕ → ℚ) (V : List ℚ) (hV : p.jacV x = some V) (hlen : ∀ v, p.o.jacV x = some v → p.o.jacS.length = v.length)
    (hrow : ∀ e ∈ p.o.jacS, e.1 < p.o.m + p.off) (k : ℕ) (r : QRow) (hk : p.rows[k]? = some r) :
    rowFun r (fun i => x i + d i) = rowFun r x + rowTimes p.off p.jacS V (p.o.m + k) d + symForm r.q d d := by
  unfold QProb.jacV at hV
  rw [Option.map_eq_some_iff] at hV
  obtain ⟨v, hv, rfl⟩ := hV
  rw [QProb.jacS, rowTimes_append _ _ _ _ _ _ _ (hlen v hv), rowTimes_none _ p.o.jacS, zero_add]
  · have := rowsS_times p.o.m p.off p.o.fortran rfl x d p.rows 0 k r hk
    rw [Nat.add_zero] at this
    rw [this]
    exact built_gradient (hb r (List.mem_of_getElem? hk)) x d
  · intro e he
    have := hrow e he
    omega

/-- **C122**, Jacobian of the other rows: unchanged. -/
theorem jacobian_original (p : QProb) (x d : ℕ → ℚ) (V v : List ℚ) (hV : p.jacV x = some V) (hv : p.o.jacV x = some v) (hlen : p.o.jacS.length = v.length) (i : ℕ) (hi : i < p.o.m) :
    rowTimes p.off p.jacS V i d = rowTimes p.off p.o.jacS v i d := by
  unfold QProb.jacV at hV
  rw [hv] at hV
  obtain rfl := Option.some.inj hV
  rw [QProb.jacS, rowTimes_append _ _ _ _ _ _ _ hlen]
  rw [rowTimes_none _ (rowsS p.o.m p.off p.o.fortran p.rows 0), add_zero]
  intro e he
  have := rowsS_ge p.o.m p.off p.o.fortran p.rows 0 e he
  omega

/-- **C122**: as many entries are written as announced (`curr_nnz_jac_`), with and without values. -/
theorem jacobian_sizes (p : QProb) (x : ℕ → ℚ) (V : List ℚ) (hV : p.jacV x = some V) (hlen : ∀ v, p.o.jacV x = some v → p.o.jacS.length = v.length) :
    p.jacS.length = p.o.jacS.length + (p.rows.map fun r => r.nnzGrad).sum ∧ V.length = p.jacS.length := by
  have h1 : p.jacS.length = p.o.jacS.length + (p.rows.map fun r => r.nnzGrad).sum := by rw [QProb.jacS, List.length_append, rowsS_length]
  refine ⟨h1, ?_⟩
  unfold QProb.jacV at hV
  rw [Option.map_eq_some_iff] at hV
  obtain ⟨v, hv, rfl⟩ := hV
  rw [h1, List.length_append, hlen v hv, List.length_flatMap]
  congr 2
  apply List.map_congr_left
  intro r _
  rw [built_lens r x false]
  simp [QRow.gradStruct, QRow.nnzGrad]

/-- **C122**: an appended row reported as linear is an affine function. -/
theorem linear_is_affine (p : QProb) (hl : p.o.linear.length = p.o.m) (k : ℕ) (r : QRow) (hk : p.rows[k]? = some r) (h : p.linearity[p.o.m + k]? = some true)
    (x d : ℕ → ℚ) : rowFun r (fun i => x i + d i) = rowFun r x + linForm r.a d := by
  have hq : r.q = [] := by
    unfold QProb.linearity at h
    rw [List.getElem?_append_right (by omega), hl, Nat.add_sub_cancel_left, List.getElem?_map, hk] at h
    simpa using h
  unfold rowFun quadFun
  rw [linForm_add, hq]
  simp [symForm]
  ring

/-- **C122**: and one reported as nonlinear has a quadratic part; there is one report for each constraint. -/
theorem linearity_exact (p : QProb) (hl : p.o.linear.length = p.o.m) : p.linearity.length = p.o.m + p.rows.length ∧
    ∀ (k : ℕ) (r : QRow), p.rows[k]? = some r → (p.linearity[p.o.m + k]? = some false ↔ r.q ≠ []) := by
  refine ⟨by simp [QProb.linearity, hl], fun k r hk => ?_⟩
  unfold QProb.linearity
  rw [List.getElem?_append_right (by omega), hl, Nat.add_sub_cancel_left, List.getElem?_map, hk]
  simp

/-- **C122**, objective: with a linear objective set, value and gradient are that of `c + a·x`; the user's objective is not used. -/
theorem linear_objective (p : QProb) (a : List ℚ) (c : ℚ) (ha : a ≠ []) (hn : a.length = p.o.n) (x : ℕ → ℚ) :
    (p.setObjective a c).evalF x = some (c + linTimes a x) ∧ (p.setObjective a c).gradF x = some a := by
  refine ⟨?_, ?_⟩
  · simp only [QProb.evalF, QProb.setObjective, ha, if_false, hn, if_true, Option.map_some, objLoop_eq, linTimes]
  · simp only [QProb.gradF, QProb.setObjective, ha, if_false, hn, if_true]

/-- **C122**: the gradient is the derivative of the objective set. -/
theorem linear_objective_derivative (a : List ℚ) (c : ℚ) (x d : ℕ → ℚ) : c + linTimes a (fun i => x i + d i) = c + linTimes a x + linTimes a d := by
  unfold linTimes
  generalize a.zipIdx = l
  induction l with
  | nil => simp
  | cons e l ih => simp only [List.map_cons, List.sum_cons] at *; linarith

/-- **C122**: setting an objective and taking it back gives the user's objective; constraints are not touched by either. -/
theorem objective_round_trip (p : QProb) (a : List ℚ) (c : ℚ) (x : ℕ → ℚ) :
    (p.setObjective a c).resetObjective.evalF x = p.o.f x ∧ (p.setObjective a c).resetObjective.gradF x = p.o.gradF x ∧
    (p.setObjective a c).evalG x = p.evalG x ∧ (p.setObjective a c).jacS = p.jacS ∧ (p.setObjective a c).jacV x = p.jacV x ∧ (p.setObjective a c).linearity = p.linearity :=
  ⟨by simp [QProb.evalF, QProb.resetObjective, QProb.setObjective], by simp [QProb.gradF, QProb.resetObjective, QProb.setObjective], rfl, rfl, rfl, rfl⟩

/-! ## C123: copies -/

theorem mapM_spec : ∀ (l : List (QRow × List ℕ × List ℕ)) (rs : List QRow), l.mapM (fun e => QRow.initialize e.1.c e.1.a e.1.q e.2.1 e.2.2) = some rs →
    (∀ e ∈ l, Built e.1 ∧ IsOrdering rowLt e.1.q e.2.1 ∧ IsOrdering colLt e.1.q e.2.2) → rs.length = l.length ∧
      ∀ (k : ℕ) r r', l[k]? = some r → rs[k]? = some r' → Built r' ∧ r'.c = r.1.c ∧ r'.a = r.1.a ∧ r'.q = r.1.q ∧ r'.gradStruct = r.1.gradStruct
  | [], rs, h, _ => by
    simp at h
    subst h
    simp
  | e :: l, rs, h, hb => by
    rw [List.mapM_cons] at h
    obtain ⟨hB, ho1, ho2⟩ := hb e (by simp)
    obtain ⟨hu, hn, hw⟩ := built_wf hB
    obtain ⟨r', h6, h7, h8, h9, h10⟩ := initialize_wf (c := e.1.c) (a := e.1.a) hu ho1 ho2
    rw [h6] at h
    simp only [Option.pure_def, Option.bind_eq_bind, Option.bind_some, Option.bind_eq_some_iff, Option.some.injEq] at h
    obtain ⟨rs', h11, rfl⟩ := h
    obtain ⟨h12, h13⟩ := mapM_spec l rs' h11 fun e he => hb e (by simp [he])
    refine ⟨by simp [h12], ?_⟩
    intro k r r'' hk hk'
    cases k with
    | succ k => exact h13 k r r'' (by simpa using hk) (by simpa using hk')
    | zero =>
      simp only [List.getElem?_cons_zero, Option.some.injEq] at hk hk'
      subst hk hk'
      refine ⟨⟨e.1.c, e.1.a, e.1.q, e.2.1, e.2.2, hu, ho1, ho2, hn, h6⟩, h7, h8, h9, ?_⟩
      have hkeys : r'.g.keys = e.1.g.keys := by
        have s1 := h10.gsort
        have s2 := hw.gsort
        have hmem : ∀ i, i ∈ r'.g.keys ↔ i ∈ e.1.g.keys := by
          intro i
          rw [h10.gkeys, hw.gkeys, h8, h9]
        have hp : r'.g.keys.Perm e.1.g.keys := by
          rw [List.perm_ext_iff_of_nodup]
          · exact hmem
          · exact s1.imp fun h => by omega
          · exact s2.imp fun h => by omega
        exact hp.eq_of_pairwise' (r := (· < ·)) s1 s2
      funext b
      unfold QRow.gradStruct
      have : ∀ g : GMap, g.map (fun e => e.1 + if b = true then 1 else 0) = g.keys.map (· + if b = true then 1 else 0) := by
        intro g; simp [GMap.keys]
      rw [this, this, hkeys]

theorem mapM_some : ∀ (l : List (QRow × List ℕ × List ℕ)), (∀ e ∈ l, Built e.1 ∧ IsOrdering rowLt e.1.q e.2.1 ∧ IsOrdering colLt e.1.q e.2.2) →
    ∃ rs, l.mapM (fun e => QRow.initialize e.1.c e.1.a e.1.q e.2.1 e.2.2) = some rs
  | [], _ => ⟨[], rfl⟩
  | e :: l, hb => by
    obtain ⟨hB, ho1, ho2⟩ := hb e (by simp)
    obtain ⟨hu, hn, hw⟩ := built_wf hB
    obtain ⟨r', h6, -⟩ := initialize_wf (c := e.1.c) (a := e.1.a) hu ho1 ho2
    obtain ⟨rs, h⟩ := mapM_some l fun e he => hb e (by simp [he])
    exact ⟨r' :: rs, by rw [List.mapM_cons, h6, h]; rfl⟩

/-- **C123**: a copy has the constraints of the original: the same values everywhere, the same structure of the Jacobian, the same reports of linearity, whatever order the sorting of the copy
finds. -/
theorem copy_constraints (p : QProb) (ords : List (List ℕ × List ℕ)) (hl : ords.length = p.rows.length)
    (hb : ∀ e ∈ p.rows.zip ords, Built e.1 ∧ IsOrdering rowLt e.1.q e.2.1 ∧ IsOrdering colLt e.1.q e.2.2) :
    ∃ p', p.copy ords = some p' ∧ (∀ r ∈ p'.rows, Built r) ∧ p'.rows.length = p.rows.length ∧ (∀ x, p'.evalG x = p.evalG x) ∧ p'.jacS = p.jacS ∧ p'.linearity = p.linearity := by
  obtain ⟨rs, hrs⟩ := mapM_some _ hb
  obtain ⟨h1, h2⟩ := mapM_spec _ rs hrs hb
  have hlen : rs.length = p.rows.length := by rw [h1]; simp [hl]
  have key : ∀ (k : ℕ) r r', p.rows[k]? = some r → rs[k]? = some r' → Built r ∧ Built r' ∧ r'.c = r.c ∧ r'.a = r.a ∧ r'.q = r.q ∧ r'.gradStruct = r.gradStruct := by
    intro k r r' hk hk'
    have hk2 : k < p.rows.length := (List.getElem?_eq_some_iff.1 hk).1
    have hz : (p.rows.zip ords)[k]? = some (r, ords[k]'(by omega)) := by
      rw [List.getElem?_zip_eq_some]
      exact ⟨hk, List.getElem?_eq_getElem (by omega)⟩
    exact ⟨(hb _ (List.mem_of_getElem? hz)).1, h2 k _ r' hz hk'⟩
  have hmap : ∀ {β : Type} (F : QRow → β), (∀ r r', Built r → Built r' → r'.c = r.c → r'.a = r.a → r'.q = r.q → r'.gradStruct = r.gradStruct → F r' = F r) → rs.map F = p.rows.map F := by
    intro β F hF
    apply List.ext_getElem
    · simp [hlen]
    · intro k h3 h4
      rw [List.getElem_map, List.getElem_map]
      obtain ⟨a1, a2, a3, a4, a5, a6⟩ := key k _ _ (List.getElem?_eq_getElem (by simpa using h4)) (List.getElem?_eq_getElem (by simpa using h3))
      exact hF _ _ a1 a2 a3 a4 a5 a6
  refine ⟨⟨p.o, rs, p.obj, none⟩, by rw [QProb.copy, hrs]; rfl, ?_, hlen, ?_, ?_, ?_⟩
  · intro r hr
    obtain ⟨k, hk, rfl⟩ := List.mem_iff_getElem.1 hr
    exact (key k _ _ (List.getElem?_eq_getElem (by simp only at hk; omega)) (List.getElem?_eq_getElem hk)).2.1
  · intro x
    simp only [QProb.evalG]
    rw [hmap (fun r => r.evalF x)]
    intro r r' b1 b2 hc ha hq _
    rw [built_value b1, built_value b2, rowFun, rowFun, hc, ha, hq]
  · simp only [QProb.jacS, QProb.off]
    congr 1
    have : ∀ (l l' : List QRow) (i m off : ℕ) (f : Bool), l.map QRow.gradStruct = l'.map QRow.gradStruct → rowsS m off f l i = rowsS m off f l' i := by
      intro l
      induction l with
      | nil => intro l' i m off f h; cases l' <;> simp at h; rfl
      | cons a l ih =>
        intro l' i m off f h
        cases l' with
        | nil => simp at h
        | cons b l' =>
          simp only [List.map_cons, List.cons.injEq] at h
          rw [rowsS, rowsS, h.1, ih l' (i + 1) m off f h.2]
    exact this _ _ _ _ _ _ (hmap QRow.gradStruct fun r r' _ _ _ _ _ h => h)
  · simp only [QProb.linearity]
    rw [hmap (fun r => r.q.isEmpty)]
    intro r r' _ _ _ _ hq _
    rw [hq]

/-- The copy constructor on the part kept by the management of cuts (BonTMINLP2Quad.cpp:60-93): the Hessian is built from the structure of the problem and then from the rows. -/
def copyH (orig : List Key) (s : NState) : Option NState := (initH orig).map fun H => { s with H := s.rows.foldl (fun H r => H.addRow s.off r.q) H }

/-- **C123**: the copy is again the problem extended by the same rows: everything proved about the Hessian of the original (C03, C04) holds for the copy. -/
theorem copy_hessian {b : Base} {a : ARows} {s : NState} (h : Rep b a s) : ∃ s', copyH b.orig s = some s' ∧ Rep b a s' := by
  obtain ⟨s0, h0, hr⟩ : ∃ s0, NState.init b.gl b.gu b.orig b.nnzJac b.off = some s0 ∧ Rep b [] s0 := by
    obtain ⟨s0, h1, h2⟩ := cut_history b [] (by simp [INT_MAX])
    simp only [ARun, List.foldlM_nil, NState.run] at h2
    obtain ⟨s, h3, h4⟩ := h2
    simp at h3
    subst h3
    exact ⟨s0, h1, h4⟩
  have hadd := hr.addCuts a
  rw [List.nil_append] at hadd
  unfold NState.init at h0
  rw [Option.map_eq_some_iff] at h0
  obtain ⟨H, hH, rfl⟩ := h0
  refine ⟨_, by rw [copyH, hH]; rfl, ?_⟩
  have hfold : ∀ (a : ARows) (s0 : NState), (s0.addCuts a).H = (a.map (·.2.2)).foldl (fun H r => H.addRow s0.off r.q) s0.H ∧ (s0.addCuts a).off = s0.off := by
    intro a
    induction a with
    | nil => intro s0; exact ⟨rfl, rfl⟩
    | cons c a ih =>
      intro s0
      have := ih (s0.add c)
      simp only [NState.addCuts, List.foldl_cons, List.map_cons] at this ⊢
      exact ⟨this.1, this.2⟩
  have hinv := hadd.hinv
  rw [(hfold a _).1] at hinv
  refine ⟨⟨h.shows_.gl, h.shows_.gu, h.shows_.rows, h.shows_.off, h.shows_.nnzJac⟩, ?_⟩
  simp only [h.shows_.rows, h.shows_.off]
  exact hinv

/-- **C123**: with the user's objective a copy evaluates it like the original.  Missing: an objective that was set, see `copy_loses_constant`. -/
theorem copy_objective_partial (p p' : QProb) (ords : List (List ℕ × List ℕ)) (h : p.copy ords = some p') (x : ℕ → ℚ) :
    p'.gradF x = p.gradF x ∧ (p.obj = [] → p'.evalF x = p.evalF x) := by
  unfold QProb.copy at h
  rw [Option.map_eq_some_iff] at h
  obtain ⟨rs, -, rfl⟩ := h
  exact ⟨rfl, fun he => by simp only [QProb.evalF, he, if_true]⟩

/-- **C123** refuted: a copy of a problem with a linear objective has its coefficients but not its constant: the value of its objective is undefined. -/
theorem copy_loses_constant (p p' : QProb) (a : List ℚ) (c : ℚ) (ords : List (List ℕ × List ℕ)) (ha : a ≠ []) (hn : a.length = p.o.n) (h : (p.setObjective a c).copy ords = some p') (x : ℕ → ℚ) :
    p'.evalF x = none ∧ p'.gradF x = some a ∧ (p.setObjective a c).evalF x = some (c + linTimes a x) := by
  refine ⟨?_, ?_, (linear_objective p a c ha hn x).1⟩
  · unfold QProb.copy at h
    rw [Option.map_eq_some_iff] at h
    obtain ⟨rs, -, rfl⟩ := h
    simp only [QProb.evalF, QProb.setObjective, ha, if_false, hn, if_true, Option.map_none]
  · rw [(copy_objective_partial _ p' ords h x).1]
    exact (linear_objective p a c ha hn x).2

/-! ## C124: single constraints and scaling -/

/-- **C124**: value and gradient written for a single appended row are those of its function.  Missing: the flag, see `single_row_reports_failure`. -/
theorem single_row_partial (p : QProb) (hb : ∀ r ∈ p.rows, Built r) (x d : ℕ → ℚ) (k : ℕ) (r : QRow) (hk : p.rows[k]? = some r) :
    (∃ fl, p.evalGi (p.o.m + k) x = some (rowFun r x, fl)) ∧ ∃ S V fl, p.gradGi (p.o.m + k) x = some (S, V, fl) ∧ S.length = V.length ∧
      rowFun r (fun i => x i + d i) = rowFun r x + ((S.zip V).map fun e => e.2 * d (e.1 - p.off)).sum + symForm r.q d d := by
  have hr := hb r (List.mem_of_getElem? hk)
  refine ⟨⟨false, ?_⟩, r.gradStruct p.o.fortran, r.evalGrad x, false, ?_, (built_lens r x _).symm, ?_⟩
  · simp only [QProb.evalGi, Nat.add_sub_cancel_left, hk, Option.map_some, built_value hr]
    rw [if_neg (by omega)]
  · simp only [QProb.gradGi, Nat.add_sub_cancel_left, hk, Option.map_some]
  · rw [built_gradient hr x d]
    congr 2
    have := rowTimes_block p.off p.o.fortran rfl r (r.evalGrad x) 0 d
    rw [← this]
    unfold rowTimes
    rw [List.zip_map_left, List.map_map]
    congr 1
    apply List.map_congr_left
    intro e _
    simp

/-- **C124** refuted for single constraints: the value and the gradient of an appended row are computed, but the call returns `false`, which says that they could not be. -/
theorem single_row_reports_failure (p : QProb) (x : ℕ → ℚ) (k : ℕ) (r : QRow) (hk : p.rows[k]? = some r) :
    p.evalGi (p.o.m + k) x = some (r.evalF x, false) ∧ p.gradGi (p.o.m + k) x = some (r.gradStruct p.o.fortran, r.evalGrad x, false) := by
  constructor
  · simp only [QProb.evalGi, Nat.add_sub_cancel_left, hk, Option.map_some]
    rw [if_neg (by omega)]
  · simp only [QProb.gradGi, Nat.add_sub_cancel_left, hk, Option.map_some]

/-- **C124** refuted for user scaling: the request for scaling parameters calls itself and does not return. -/
theorem scaling_never_returns (k fuel m : ℕ) : scaling k fuel m = none := by
  induction fuel generalizing m with
  | zero => rfl
  | succ f ih => simp [scaling, ih]

/-! ## A concrete case -/

/-- One constraint `x₀ + x₁`, Fortran numbering. -/
def exO : Orig where
  n := 2
  m := 1
  fortran := true
  f := fun x => some (x 0 * x 1)
  gradF := fun x => some [x 1, x 0]
  g := fun x => some [x 0 + x 1]
  gi := fun _ x => some (x 0 + x 1)
  jacS := [(1, 1), (1, 2)]
  jacV := fun _ => some [1, 1]
  linear := [true]

/-- With the row `1 + 4 x₁ + 3x₀² + 2·7x₀x₁`. -/
example : ∃ r, QRow.initialize 1 [(1, 4)] exQ [1, 2, 0] [1, 0, 2] = some r ∧ Built r ∧ (∀ p : QProb, p = ⟨exO, [r], [], none⟩ →
    p.evalG (fun i => if i = 0 then 1 else 2) = some [3, 40] ∧ p.jacS = [(1, 1), (1, 2), (2, 1), (2, 2)] ∧ p.jacV (fun i => if i = 0 then 1 else 2) = some [1, 1, 34, 18] ∧
    p.linearity = [true, false] ∧ (p.setObjective [5, 6] 7).evalF (fun i => if i = 0 then 1 else 2) = some 24) := by
  refine ⟨_, rfl, ⟨1, [(1, 4)], exQ, [1, 2, 0], [1, 0, 2], by decide, exQ_row, exQ_col, by decide, rfl⟩, ?_⟩
  rintro p rfl
  refine ⟨?_, ?_, ?_, ?_, ?_⟩ <;> decide +kernel

/-- C124: a single row of the problem is reported as evaluated, an appended one as failed. -/
theorem single_row_flags (p : QProb) (i : ℕ) (x : ℕ → ℚ) (v : ℚ) (b : Bool) (h : p.evalGi i x = some (v, b)) : (b = true ↔ i < p.o.m) ∧ (i < p.o.m → p.o.gi i x = some v) := by
  unfold QProb.evalGi at h
  by_cases hi : i < p.o.m
  · rw [if_pos hi] at h
    cases hg : p.o.gi i x with
    | none => simp [hg] at h
    | some w => simp [hg] at h; simp [hi, h.1, ← h.2]
  · rw [if_neg hi] at h
    cases hr : p.rows[i - p.o.m]? with
    | none => simp [hr] at h
    | some r => simp [hr] at h; simp [hi, ← h.2]

/-- C122: with a linear objective of another number of variables the gradient is not defined. -/
theorem gradient_undefined_iff (p : QProb) (x : ℕ → ℚ) : p.gradF x = none ↔ (p.obj = [] ∧ p.o.gradF x = none) ∨ (p.obj ≠ [] ∧ p.obj.length ≠ p.o.n) := by
  unfold QProb.gradF
  by_cases h : p.obj = []
  · simp [h]
  · by_cases h2 : p.obj.length = p.o.n <;> simp [h, h2]

end Verif.Quad.Wrap

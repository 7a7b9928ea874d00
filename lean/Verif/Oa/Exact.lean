import Verif.Oa.BendersProps
import Verif.Oa.ExtractProps
import Verif.Oa.Props
/-!
# Exact descriptions for the cut generators (C09, C11, C12, C46, C47)
-/
namespace Verif.Oa

/-- **C11**: the rule of `OuterApprox::cleanNnz` by the sign of the small coefficient: a positive one is removed towards the LOWER column bound for `≥` rows and towards the UPPER
one for `≤` rows, a negative one the other way round (the opposite of what validity needs); if no rule applies the coefficient becomes `±tiny`. -/
theorem cleanA_table {rowInf colThr tiny vt v cl cu rl ru xs lb ub : ℚ} (h1 : |v| < tiny) (h2 : vt ≤ |v|) (h0 : 0 < vt) :
    (0 < v → cleanA rowInf colThr tiny vt v cl cu rl ru xs lb ub =
      if -colThr < cl ∧ rowInf ≤ ru then ⟨false, v, lb + v * (xs - cl), ub⟩
      else if cu < colThr ∧ rl ≤ -rowInf then ⟨false, v, lb, ub + v * (xs - cu)⟩ else ⟨true, tiny, lb, ub⟩) ∧
    (v < 0 → cleanA rowInf colThr tiny vt v cl cu rl ru xs lb ub =
      if -colThr < cl ∧ rl ≤ -rowInf then ⟨false, v, lb, ub + v * (xs - cl)⟩
      else if cu < colThr ∧ rowInf ≤ ru then ⟨false, v, lb + v * (xs - cu), ub⟩ else ⟨true, -tiny, lb, ub⟩) ∧ v ≠ 0 := by
  have n1 : ¬ |v| ≥ tiny := not_le.2 h1
  have n2 : ¬ |v| < vt := not_lt.2 h2
  refine ⟨fun hv => ?_, fun hv => ?_, ?_⟩
  · unfold cleanA
    rw [if_neg n1, if_neg n2]
    simp [hv]
  · unfold cleanA
    rw [if_neg n1, if_neg n2]
    simp [not_lt.2 (le_of_lt hv)]
  · intro e
    rw [e, abs_zero] at h2
    linarith

example : cleanA (10 ^ 20) 10000 (1 / 10 ^ 6) (1 / 10 ^ 17) (1 / 10 ^ 7) 0 100 2 (10 ^ 30) 50 1 (10 ^ 30) = ⟨false, 1 / 10 ^ 7, 1 + 1 / 10 ^ 7 * (50 - 0), 10 ^ 30⟩ := by
  norm_num [cleanA, abs_of_pos]

/-- **C09**: the final relaxation of the right-hand sides: a finite upper side is moved outwards by `relax·max(|ub|, 1)`, an infinite one stays; the lower side never moves when it is
at most infinity (the test in the code is `lb > infty`). -/
theorem relaxRhs_exact (T : Tol) (c : Cut) : (relaxRhs T c).co = c.co ∧ (c.ub < T.inf → (relaxRhs T c).ub = c.ub + T.relax * max |c.ub| 1) ∧
    (T.inf ≤ c.ub → (relaxRhs T c).ub = c.ub) ∧ (c.lb ≤ T.inf → (relaxRhs T c).lb = c.lb) := by
  refine ⟨rfl, fun h => if_pos h, fun h => if_neg (not_lt.2 h), fun h => if_neg (not_lt.2 h)⟩

theorem jacLoop_none (T : Tol) (cl cu x : Nat → ℚ) (rows : List RowData) : ∀ (jac : List (Nat × Nat × ℚ)) (cuts : List Cut),
    (∃ t ∈ jac, rows.length ≤ t.1) → jacLoop T cl cu x rows (numberRows T rows 0).1 jac cuts = none
  | [], _, h => by simp at h
  | (i, j, v) :: es, cuts, h => by
    unfold jacLoop
    by_cases hi : rows.length ≤ i
    · have e : rows[i]? = none := List.getElem?_eq_none hi
      have e2 : (numberRows T rows 0).1[i]? = none := List.getElem?_eq_none (by rw [numberRows_len]; exact hi)
      rw [e, e2]
    · have h' : ∃ t ∈ es, rows.length ≤ t.1 := by
        obtain ⟨t, ht, hl⟩ := h
        rcases List.mem_cons.1 ht with e | e
        · rw [e] at hl; exact absurd hl hi
        · exact ⟨t, e, hl⟩
      have hr : rows[i]? = some rows[i] := List.getElem?_eq_getElem (not_le.1 hi)
      rcases numberRows_idx T rows 0 0 i _ hr with ⟨_, b⟩ | ⟨_, d, b, _⟩
      · rw [b, hr]; exact jacLoop_none T cl cu x rows es cuts h'
      · rw [b, hr]
        simp only
        cases cuts[0 + d]? with
        | none => rfl
        | some c => exact jacLoop_none T cl cu x rows es _ h'

/-- **C47**: `getOuterApproximation` as a whole: undefined exactly for a Jacobian entry with a row index out of range; otherwise the objective cut follows the row cuts, unless there is a
second point and it violates the cut by less than `theta` (a threshold of at most 0 keeps it). -/
theorem oa_exact {T : Tol} {cl cu x : Nat → ℚ} {rows : List RowData} {jac : List (Nat × Nat × ℚ)} (x2 : Option (Nat → ℚ)) (theta : ℚ) (lp : Bool) :
    (∀ obj, getOa T cl cu x rows jac x2 theta lp obj = none ↔ ∃ t ∈ jac, rows.length ≤ t.1) ∧
    ∀ n f grad vt out, getOa T cl cu x rows jac x2 theta lp none = some out →
      getOa T cl cu x rows jac x2 theta lp (some (n, f, grad, vt)) =
        some (out ++ if ∀ y, x2 = some y → theta ≤ 0 ∨ theta ≤ act (objOa T vt cl cu x n f grad).co y - (objOa T vt cl cu x n f grad).ub then [objOa T vt cl cu x n f grad] else []) := by
  constructor
  · intro obj
    by_cases h : ∃ t ∈ jac, rows.length ≤ t.1
    · refine ⟨fun _ => h, fun _ => ?_⟩
      unfold getOa
      simp only
      rw [jacLoop_none T cl cu x rows jac _ h]
      rfl
    · refine ⟨fun hn => ?_, fun hh => absurd hh h⟩
      push Not at h
      unfold getOa at hn
      simp only at hn
      rw [numberRows_cuts T rows 0 0, jacLoop_spec T cl cu x rows jac h] at hn
      simp only [Option.bind_eq_bind, Option.bind_some, Option.pure_def] at hn
      cases obj with
      | none => simp at hn
      | some o =>
        obtain ⟨n, f, grad, vt⟩ := o
        cases x2 with
        | none => simp at hn
        | some y =>
          simp only at hn
          split at hn <;> simp at hn
  · intro n f grad vt out h
    unfold getOa at h ⊢
    simp only at h ⊢
    cases hj : jacLoop T cl cu x rows (numberRows T rows 0).1 jac (numberRows T rows 0).2 with
    | none => rw [hj] at h; simp at h
    | some cuts =>
      rw [hj] at h
      simp only [Option.bind_eq_bind, Option.bind_some, Option.pure_def, Option.some.injEq] at h ⊢
      rw [h]
      cases x2 with
      | none => simp
      | some y =>
        simp only [Option.some.injEq, forall_eq']
        by_cases hc : max 0 (act (objOa T vt cl cu x n f grad).co y - (objOa T vt cl cu x n f grad).ub) < theta
        · rw [if_pos hc, if_neg]
          · simp
          · obtain ⟨h1, h2⟩ := max_lt_iff.1 hc
            rintro (h | h)
            · exact absurd h (not_le.2 h1)
            · exact absurd h (not_le.2 h2)
        · rw [if_neg hc, if_pos]
          rcases le_max_iff.1 (not_lt.1 hc) with h | h
          · exact Or.inl h
          · exact Or.inr h

/-- The entries of the gradient that stay in an objective cut. -/
def KeptInObj (T : Tol) (vt : ℚ) (cl cu : Nat → ℚ) (e : Nat × ℚ) : Prop :=
  T.tiny ≤ |e.2| ∨ (vt ≤ |e.2| ∧ (0 < e.2 → cl e.1 ≤ -T.infM) ∧ (e.2 ≤ 0 → T.infM ≤ cu e.1))

instance (T : Tol) (vt : ℚ) (cl cu : Nat → ℚ) (e : Nat × ℚ) : Decidable (KeptInObj T vt cl cu e) := by unfold KeptInObj; infer_instance

theorem clean_obj {T : Tol} {vt : ℚ} (h0 : 0 < T.infM) (h1 : T.infM ≤ T.inf) (v cl cu xs lb ub : ℚ) :
    ((T.tiny ≤ |v| ∨ (vt ≤ |v| ∧ (0 < v → cl ≤ -T.infM) ∧ (v ≤ 0 → T.infM ≤ cu))) → cleanO T.infM T.tiny vt v cl cu (-T.inf) 0 xs lb ub = ⟨true, v, lb, ub⟩) ∧
    (¬ (T.tiny ≤ |v| ∨ (vt ≤ |v| ∧ (0 < v → cl ≤ -T.infM) ∧ (v ≤ 0 → T.infM ≤ cu))) →
      cleanO T.infM T.tiny vt v cl cu (-T.inf) 0 xs lb ub = ⟨false, v, lb, if |v| < vt then ub else if 0 < v then ub + v * (xs - cl) else ub + v * (xs - cu)⟩) := by
  have nru : ¬ (0 : ℚ) ≥ T.infM := not_le.2 h0
  have hrl : -T.inf ≤ -T.infM := by linarith
  constructor
  · rintro (h | ⟨ha, hb, hc⟩)
    · unfold cleanO; rw [if_pos h]
    · unfold cleanO
      by_cases ht : |v| ≥ T.tiny
      · rw [if_pos ht]
      · rw [if_neg ht, if_neg (not_lt.2 ha)]
        by_cases hv : 0 < v
        · have := hb hv
          rw [if_neg (by simp [nru]), if_neg (by simp [hv]), if_neg (by simp [nru]), if_neg (by rintro ⟨h, _⟩; linarith)]
        · have := hc (not_lt.1 hv)
          rw [if_neg (by simp [nru]), if_neg (by rintro ⟨h, _⟩; linarith), if_neg (by simp [nru]), if_neg (by rintro ⟨_, h, _⟩; exact hv h)]
  · intro h
    push Not at h
    obtain ⟨ht, h⟩ := h
    unfold cleanO
    rw [if_neg (not_le.2 ht)]
    by_cases hvt : |v| < vt
    · rw [if_pos hvt, if_pos hvt]
    · rw [if_neg hvt, if_neg hvt, if_neg (by simp [nru])]
      by_cases hv : 0 < v
      · have : -T.infM < cl := by
          by_contra hcon
          have := h (not_lt.1 hvt) fun _ => not_lt.1 hcon
          linarith [this.1]
        rw [if_neg (by simp [hv]), if_neg (by simp [nru]), if_pos ⟨this, hv, hrl⟩, if_pos hv]
      · have : cu < T.infM := by
          by_contra hcon
          have := h (not_lt.1 hvt) fun hh => absurd hh hv
          linarith [this.2]
        rw [if_pos ⟨this, hv, hrl⟩, if_neg hv]

/-- **C09**: exact contents of the objective cut: the gradient entries that are not small, or are small without a finite bound in the harmless direction, then `-α`; the right-hand side
is `-f` plus the entries at the point, removed entries counting at the bound (or not at all below `vt`). -/
theorem objOa_exact {T : Tol} {vt : ℚ} {cl cu x : Nat → ℚ} (h0 : 0 < T.infM) (h1 : T.infM ≤ T.inf) (n : Nat) (f : ℚ) (grad : List (Nat × ℚ)) :
    (objOa T vt cl cu x n f grad).co = (grad.filter fun e => decide (KeptInObj T vt cl cu e)) ++ [(n, -1)] ∧ (objOa T vt cl cu x n f grad).lb = -T.inf ∧
    (objOa T vt cl cu x n f grad).ub = -f + (grad.map fun e => if KeptInObj T vt cl cu e then e.2 * x e.1 else if |e.2| < vt then 0
      else if 0 < e.2 then e.2 * (x e.1 - cl e.1) else e.2 * (x e.1 - cu e.1)).sum := by
  have key : ∀ (es : List (Nat × ℚ)) (c : Cut), (es.foldl (objStep T vt cl cu x) c).co = c.co ++ (es.filter fun e => decide (KeptInObj T vt cl cu e)) ∧
      (es.foldl (objStep T vt cl cu x) c).ub = c.ub + (es.map fun e => if KeptInObj T vt cl cu e then e.2 * x e.1 else if |e.2| < vt then 0
        else if 0 < e.2 then e.2 * (x e.1 - cl e.1) else e.2 * (x e.1 - cu e.1)).sum := by
    intro es
    induction es with
    | nil => intro c; simp
    | cons e es ih =>
      intro c
      rw [List.foldl_cons]
      obtain ⟨i1, i2⟩ := ih (objStep T vt cl cu x c e)
      rw [i1, i2]
      obtain ⟨k1, k2⟩ := clean_obj (vt := vt) h0 h1 e.2 (cl e.1) (cu e.1) (x e.1) c.lb c.ub
      by_cases hk : KeptInObj T vt cl cu e
      · have hs : objStep T vt cl cu x c e = ⟨c.co ++ [(e.1, e.2)], c.lb + e.2 * x e.1, c.ub + e.2 * x e.1⟩ := by
          unfold objStep; rw [k1 hk]; rfl
        rw [hs]
        simp only [List.filter_cons, hk, decide_true, if_true, List.map_cons, List.sum_cons, List.append_assoc, List.singleton_append]
        exact ⟨trivial, by ring⟩
      · have hs : objStep T vt cl cu x c e = ⟨c.co, c.lb, if |e.2| < vt then c.ub else if 0 < e.2 then c.ub + e.2 * (x e.1 - cl e.1) else c.ub + e.2 * (x e.1 - cu e.1)⟩ := by
          unfold objStep; rw [k2 hk]; rfl
        rw [hs]
        simp only [List.filter_cons, hk, decide_false, Bool.false_eq_true, if_false, List.map_cons, List.sum_cons, true_and]
        split_ifs <;> ring
  obtain ⟨k1, k2⟩ := key grad ⟨[], -f, -f⟩
  unfold objOa
  simp only
  rw [k1, k2]
  exact ⟨by simp, trivial, rfl⟩

/-- **C12**: the objective part of the Benders cut: the coefficients of the ordinary objective cut are added to those of the rows, but the right-hand side is that of the objective cut
ALONE: what the rows contributed is lost. -/
theorem bendersObj_exact {T : Tol} {vt : ℚ} {cl cu x : Nat → ℚ} (h0 : 0 < T.infM) (h1 : T.infM ≤ T.inf) (n : Nat) (f : ℚ) (grad : List (Nat × ℚ)) (s : BState) :
    (bendersObj T vt cl cu x f grad s).ub = (objOa T vt cl cu x n f grad).ub ∧
    ∀ i, (bendersObj T vt cl cu x f grad s).cut i = s.cut i + (((grad.filter fun e => decide (KeptInObj T vt cl cu e)).filter fun e => decide (e.1 = i)).map Prod.snd).sum := by
  have key : ∀ (es : List (Nat × ℚ)) (s : BState), (es.foldl (fun s e => bStep T vt cl cu x (-T.inf) 0 s e.1 e.2) s).ub =
        s.ub + (es.map fun e => if KeptInObj T vt cl cu e then e.2 * x e.1 else if |e.2| < vt then 0 else if 0 < e.2 then e.2 * (x e.1 - cl e.1) else e.2 * (x e.1 - cu e.1)).sum ∧
      ∀ i, (es.foldl (fun s e => bStep T vt cl cu x (-T.inf) 0 s e.1 e.2) s).cut i =
        s.cut i + (((es.filter fun e => decide (KeptInObj T vt cl cu e)).filter fun e => decide (e.1 = i)).map Prod.snd).sum := by
    intro es
    induction es with
    | nil => intro s; simp
    | cons e es ih =>
      intro s
      rw [List.foldl_cons]
      obtain ⟨i1, i2⟩ := ih (bStep T vt cl cu x (-T.inf) 0 s e.1 e.2)
      obtain ⟨k1, k2⟩ := clean_obj (vt := vt) h0 h1 e.2 (cl e.1) (cu e.1) (x e.1) s.lb s.ub
      by_cases hk : KeptInObj T vt cl cu e
      · have hs : bStep T vt cl cu x (-T.inf) 0 s e.1 e.2 = ⟨fun i => if i = e.1 then s.cut i + e.2 else s.cut i, s.lb, s.ub + e.2 * x e.1⟩ := by
          unfold bStep; rw [k1 hk]; rfl
        rw [i1]
        refine ⟨?_, fun i => ?_⟩
        · rw [hs]
          simp only [hk, if_true, List.map_cons, List.sum_cons]
          ring
        · rw [i2, hs]
          simp only [List.filter_cons, hk, decide_true, if_true]
          by_cases hi : i = e.1
          · subst hi; simp; ring
          · simp [hi, Ne.symm hi]
      · have hs : bStep T vt cl cu x (-T.inf) 0 s e.1 e.2 = ⟨s.cut, s.lb, if |e.2| < vt then s.ub else if 0 < e.2 then s.ub + e.2 * (x e.1 - cl e.1) else s.ub + e.2 * (x e.1 - cu e.1)⟩ := by
          unfold bStep; rw [k2 hk]; rfl
        rw [i1]
        refine ⟨?_, fun i => ?_⟩
        · rw [hs]
          simp only [hk, if_false, List.map_cons, List.sum_cons]
          split_ifs <;> ring
        · rw [i2, hs]
          simp [hk]
  obtain ⟨k1, k2⟩ := key grad ⟨s.cut, s.lb, -f⟩
  unfold bendersObj
  rw [k1, (objOa_exact h0 h1 n f grad).2.2]
  exact ⟨rfl, k2⟩

example : 0 < tolP.infM ∧ tolP.infM ≤ tolP.inf ∧ KeptInObj tolP (1 / 10 ^ 15) (fun _ => 0) (fun _ => 10) (0, 3) ∧ ¬ KeptInObj tolP (1 / 10 ^ 15) (fun _ => 0) (fun _ => 10) (0, 1 / 10 ^ 8) := by
  refine ⟨by norm_num [tolP], by norm_num [tolP], by decide +kernel, by decide +kernel⟩

/-- **C46**: the rows left out of the relaxation are the nonlinear ones with two finite sides and a zero multiplier; all others are loaded. -/
theorem extract_rows (T : Tol) (cl cu x : Nat → ℚ) (rows : List RowData) (jac : List (Nat × Nat × ℚ)) :
    (extract T cl cu x rows jac).map Cut.co = (rows.zipIdx.filter fun p => !(p.1.nonlin && decide (-T.infM < p.1.rl) && decide (p.1.ru < T.infM) && decide (p.1.dual = 0))).map fun p => rowEntries jac p.2 := by
  unfold extract
  simp only
  rw [List.map_map]
  have hlen : ((rows.zipIdx.filter (fun p => !nonBinding T p.1)).map (fun p => rowEntries jac p.2)).length ≤
      (rows.zipIdx.map (fun p => extBounds T cl cu x p.1 (rowEntries jac p.2))).length := by
    rw [List.length_map, List.length_map]; exact List.length_filter_le _ _
  have : (Cut.co ∘ fun q : List (Nat × ℚ) × ℚ × ℚ => (⟨q.1, q.2.1, q.2.2⟩ : Cut)) = Prod.fst := rfl
  rw [this, List.map_fst_zip hlen]
  congr 1
  apply List.filter_congr
  intro p _
  unfold nonBinding
  congr 1
  rw [Bool.eq_iff_iff]
  simp [and_assoc]

/-- **C09.** What `TMINLP2OsiLP::cleanNnz` does with a coefficient between the two thresholds: which bound of its column it is estimated with, and on which side, depends on its sign; the other side of the row is left alone,
and the coefficient stays unless the bound is moderate and the row has one side only. -/
theorem cleanT_table {rowInf colThr tiny vt v cl cu rl ru xs lb ub : ℚ} (h1 : |v| < tiny) (h2 : vt ≤ |v|) (h0 : 0 < vt) :
    (0 < v → cleanT rowInf colThr tiny vt v cl cu rl ru xs lb ub =
      if -colThr < cl ∧ rl ≤ -rowInf then ⟨false, v, lb, ub + v * (xs - cl)⟩
      else if cu < colThr ∧ rowInf ≤ ru then ⟨false, v, lb + v * (xs - cu), ub⟩ else ⟨true, v, lb, ub⟩) ∧
    (v < 0 → cleanT rowInf colThr tiny vt v cl cu rl ru xs lb ub =
      if -colThr < cl ∧ rowInf ≤ ru then ⟨false, v, lb + v * (xs - cl), ub⟩
      else if cu < colThr ∧ rl ≤ -rowInf then ⟨false, v, lb, ub + v * (xs - cu)⟩ else ⟨true, v, lb, ub⟩) ∧ v ≠ 0 := by
  have n1 : ¬ |v| ≥ tiny := not_le.2 h1
  have n2 : ¬ |v| < vt := not_lt.2 h2
  refine ⟨fun hv => ?_, fun hv => ?_, ?_⟩
  · unfold cleanT
    rw [if_neg n1, if_neg n2]
    simp [hv]
  · unfold cleanT
    rw [if_neg n1, if_neg n2]
    simp [not_lt.2 (le_of_lt hv)]
  · intro e
    rw [e, abs_zero] at h2
    linarith

example : cleanT (10 ^ 20) 10000 (1 / 10 ^ 6) (1 / 10 ^ 17) (-1 / 10 ^ 7) (-10 ^ 30) 100 (-10 ^ 30) 5 50 (-10 ^ 30) 3 = ⟨false, -1 / 10 ^ 7, -10 ^ 30, 3 + -1 / 10 ^ 7 * (50 - 100)⟩ := by
  norm_num [cleanT, abs_of_neg]

end Verif.Oa

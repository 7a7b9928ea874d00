import Verif.Bcp.Strong
/-!
# Model of the use of the results of strong branching
(experimental/Bcp/BM_lp_branch.cpp:536-541, 545-741, 745-819, 880-981)

`over` is `over_ub`.  `pref o` is the preferred way of an object when it has one and the object is infeasible.  `big` is
`COIN_DBL_MAX`.  The records are read as they are: a field never written is `none`, reading it is the outcome `undef`.
-/
namespace Verif.Bcp

/-- How a computation may end badly. -/
inductive Err where
  | assertion
  | undef
  | fatal
  deriving DecidableEq

/-- `isBranchFathomable` (BM_lp_branch.cpp:537-541). -/
def fath (over : ℚ → Bool) (a : Ans) : Bool := a.inf || (a.opt && over a.obj)

/-- Whether a record has been evaluated (`branchEval == 0` is tested). -/
def evaluated (r : SbRes) : Bool := r.evD || r.evU

/-- Reading a field. -/
def rd {α : Type} : Option α → Except Err α
  | none => .error .undef
  | some a => .ok a

/-- First loop (BM_lp_branch.cpp:581-606): `none` if the node is fathomed, else the number of objects evaluated. -/
def scan (dbg : Bool) (over : ℚ → Bool) (sb : ℕ → SbRes) : List Obj → Except Err (Option ℕ)
  | [] => .ok (some 0)
  | o :: os =>
    if evaluated (sb o.ind) = false then scan dbg over sb os
    else if dbg ∧ ¬ ((sb o.ind).evD = true ∧ (sb o.ind).evU = true) then .error .assertion
    else
      match (sb o.ind).rD with
      | none => .error .undef
      | some d =>
        if fath over d then
          match (sb o.ind).rU with
          | none => .error .undef
          | some u => if fath over u then .ok none else (scan dbg over sb os).map (Option.map (· + 1))
        else (scan dbg over sb os).map (Option.map (· + 1))

/-- Bounds of one column changed. -/
def setLo (B : Box) (c : ℕ) (x : ℚ) : Box := ⟨Function.update B.lo c x, B.up⟩

/-- Bounds of one column changed. -/
def setUp (B : Box) (c : ℕ) (x : ℚ) : Box := ⟨B.lo, Function.update B.up c x⟩

/-- Second loop (BM_lp_branch.cpp:611-629): bounds of infeasible objects; the flag is `fixedStat & 2`. -/
def fixInf (over : ℚ → Bool) (sb : ℕ → SbRes) : List Obj → Box × Bool → Except Err (Box × Bool)
  | [], s => .ok s
  | o :: os, (B, f) =>
    if evaluated (sb o.ind) = false then fixInf over sb os (B, f)
    else
      match (sb o.ind).rD, (sb o.ind).rU with
      | some d, some u =>
        fixInf over sb os
          (if fath over u then setUp (if fath over d then setLo B o.col ⌈o.v⌉ else B) o.col ⌊o.v⌋
           else if fath over d then setLo B o.col ⌈o.v⌉ else B,
           f || fath over d || fath over u)
      | _, _ => .error .undef

/-- Third loop (BM_lp_branch.cpp:630-652): bounds of feasible objects; the flag is `fixedStat & 1`.  A side not evaluated is not
looked at. -/
def fixFeas (over : ℚ → Bool) (sb : ℕ → SbRes) : List Obj → Box × Bool → Except Err (Box × Bool)
  | [], s => .ok s
  | o :: os, (B, f) =>
    match (if (sb o.ind).evD then (rd (sb o.ind).rD).map (fath over) else .ok false),
          (if (sb o.ind).evU then (rd (sb o.ind).rU).map (fath over) else .ok false) with
    | .ok d, .ok u =>
      fixFeas over sb os
        (if u then setUp (if d then setLo B o.col ⌈o.v - 1 / 2⌉ else B) o.col ⌊o.v + 1 / 2⌋
         else if d then setLo B o.col ⌈o.v - 1 / 2⌉ else B,
         f || d || u)
    | .error e, _ => .error e
    | _, .error e => .error e

/-- Score of a candidate (BM_lp_branch.cpp:682-685). -/
def score (maxmin objv : ℚ) (d u : Ans) : ℚ :=
  maxmin * min (u.obj - objv) (d.obj - objv) + (1 - maxmin) * max (u.obj - objv) (d.obj - objv)

/-- Selection parameters: `PreferHighCombinationInBranching`, `maxminCrit`, objective of the node, `COIN_DBL_MAX`, preferred ways. -/
structure Sel where
  high : Bool
  maxmin : ℚ
  objv : ℚ
  big : ℚ
  pref : ℕ → Option Bool

/-- The loop of BM_lp_branch.cpp:672-698; state: best value, and the best object with its way (`true`: up first). -/
def best (P : Sel) (sb : ℕ → SbRes) : List Obj → ℚ × Option (Obj × Bool) → Except Err (ℚ × Option (Obj × Bool))
  | [], s => .ok s
  | o :: os, (v, b) =>
    if evaluated (sb o.ind) = false then best P sb os (v, b)
    else
      match (sb o.ind).rD, (sb o.ind).rU with
      | some d, some u =>
        if d.aband || u.aband then best P sb os (v, b)
        else if (if P.high then v < score P.maxmin P.objv d u else score P.maxmin P.objv d u < v) then
          best P sb os (score P.maxmin P.objv d u,
            some (o, match P.pref o.ind with
                     | some w => w
                     | none => ¬ (d.obj - P.objv < u.obj - P.objv)))
        else best P sb os (v, b)
      | _, _ => .error .undef

/-- First object not evaluated (BM_lp_branch.cpp:704-710). -/
def firstNew (sb : ℕ → SbRes) (os : List Obj) : Option Obj := os.find? fun o => evaluated (sb o.ind) = false

/-- First object with a side not abandoned, or else the last one (BM_lp_branch.cpp:712-721). -/
def firstHalf (sb : ℕ → SbRes) : List Obj → Except Err (Option Obj)
  | [] => .ok none
  | o :: os =>
    match (sb o.ind).rD, (sb o.ind).rU with
    | some d, some u =>
      if d.aband = false ∨ u.aband = false then .ok (some o)
      else match firstHalf sb os with
        | .ok none => .ok (some o)
        | r => r
    | _, _ => .error .undef

/-- What `process_SB_results` returns: code, bounds, object branched on and first way. -/
structure Out where
  ret : Int
  box : Box
  brObj : Option (Obj × Bool)

/-- The object branched on (BM_lp_branch.cpp:667-729). -/
def choose (P : Sel) (sb : ℕ → SbRes) (os : List Obj) : Except Err (Obj × Bool) :=
  match best P sb os (if P.high then -P.big else P.big, none) with
  | .error e => .error e
  | .ok (_, some b) => .ok b
  | .ok (_, none) =>
    match firstNew sb os with
    | some o => .ok (o, true)
    | none =>
      match firstHalf sb os with
      | .error e => .error e
      | .ok (some o) => .ok (o, true)
      | .ok none => .error .undef

/-- `process_SB_results` (BM_lp_branch.cpp:545-741). -/
def process (dbg : Bool) (over : ℚ → Bool) (P : Sel) (sb : ℕ → SbRes) (inf feas : List Obj) (B : Box) : Except Err Out :=
  match scan dbg over sb inf with
  | .error e => .error e
  | .ok none => .ok ⟨-2, B, none⟩
  | .ok (some _) =>
    match fixInf over sb inf (B, false) with
    | .error e => .error e
    | .ok (B1, f2) =>
      match fixFeas over sb feas (B1, false) with
      | .error e => .error e
      | .ok (B2, f1) =>
        if f2 then .ok ⟨-1, B2, none⟩
        else
          match choose P sb inf with
          | .error e => .error e
          | .ok b => .ok ⟨if f1 then -1 else 0, B2, some b⟩

/-- What is decided for the node (BM_lp_branch.cpp:880-908): `BCP_branching_decision`. -/
inductive Dec where
  | fathomed
  | resolve
  | branch
  deriving DecidableEq

/-- The switch of BM_lp_branch.cpp:880-908. -/
def decision (ret : Int) (hasObj : Bool) : Except Err Dec :=
  if ret = -2 then .ok .fathomed
  else if ret = -1 then .ok (if hasObj then .branch else .resolve)
  else if ret = 0 then (if hasObj then .ok .branch else .error .fatal)
  else .error .fatal

/-- The lower bounds handed over for the children (BM_lp_branch.cpp:942-950): those stored in the record of the object branched on,
in the order of the children. -/
def childBounds (sb : ℕ → SbRes) (b : Obj × Bool) : Except Err (ℚ × ℚ) :=
  match (sb b.1.ind).rD, (sb b.1.ind).rU with
  | some d, some u => .ok (if b.2 then (u.obj, d.obj) else (d.obj, u.obj))
  | _, _ => .error .undef

/-! ## Specification -/

/-- A point of a box. -/
def Box.has (B : Box) (x : ℕ → ℚ) : Prop := ∀ j, B.lo j ≤ x j ∧ x j ≤ B.up j

/-- An answer tells the truth about a box: it is infeasible if said so, and the objective is at least that reported as optimal. -/
def Truthful (F : (ℕ → ℚ) → Prop) (f : (ℕ → ℚ) → ℚ) (B : Box) (a : Ans) : Prop :=
  (a.inf = true → ∀ x, F x → ¬ B.has x) ∧ (a.opt = true → ∀ x, F x → B.has x → a.obj ≤ f x)

/-- The points a node is searched for: feasible, integer where required, in the box, better than the best known. -/
structure Wanted (F : (ℕ → ℚ) → Prop) (f : (ℕ → ℚ) → ℚ) (over : ℚ → Bool) (cols : List ℕ) (B : Box) (x : ℕ → ℚ) : Prop where
  feas : F x
  box : B.has x
  int : ∀ c ∈ cols, ∃ k : Int, x c = k
  better : over (f x) = false

/-- Records hold true answers for the branches of the infeasible and feasible objects evaluated at this node. -/
structure Truth (F : (ℕ → ℚ) → Prop) (f : (ℕ → ℚ) → ℚ) (B : Box) (sb : ℕ → SbRes) (inf feas : List Obj) : Prop where
  infD : ∀ o ∈ inf, ∀ a, evaluated (sb o.ind) = true → (sb o.ind).rD = some a →
    Truthful F f (branchBox B ⟨false, o.ind, o.col, o.v, ⌊o.v⌋⟩) a
  infU : ∀ o ∈ inf, ∀ a, evaluated (sb o.ind) = true → (sb o.ind).rU = some a →
    Truthful F f (branchBox B ⟨true, o.ind, o.col, o.v, ⌈o.v⌉⟩) a
  feasD : ∀ o ∈ feas, ∀ a, (sb o.ind).evD = true → (sb o.ind).rD = some a →
    Truthful F f (branchBox B ⟨false, o.ind, o.col, o.v, ⌊o.v - 1 / 2⌋⟩) a
  feasU : ∀ o ∈ feas, ∀ a, (sb o.ind).evU = true → (sb o.ind).rU = some a →
    Truthful F f (branchBox B ⟨true, o.ind, o.col, o.v, ⌈o.v + 1 / 2⌉⟩) a

theorem fath_none (F : (ℕ → ℚ) → Prop) (f : (ℕ → ℚ) → ℚ) (over : ℚ → Bool) (hm : ∀ a b, a ≤ b → over a = true → over b = true)
    (T : Box) (a : Ans) (ht : Truthful F f T a) (hf : fath over a = true) (x : ℕ → ℚ) (hx : F x) (hb : over (f x) = false) :
    ¬ T.has x := by
  intro hT
  unfold fath at hf
  rw [Bool.or_eq_true, Bool.and_eq_true] at hf
  rcases hf with h | h
  · exact ht.1 h x hx hT
  · have := hm _ _ (ht.2 h.1 x hx hT) h.2
    rw [hb] at this
    cases this

theorem not_down (B : Box) (x : ℕ → ℚ) (hx : B.has x) (i c : ℕ) (v d : ℚ) (h : ¬ (branchBox B ⟨false, i, c, v, d⟩).has x) : d < x c := by
  by_contra hc
  apply h
  intro j
  by_cases hj : j = c
  · subst hj
    simp only [branchBox, Bool.false_eq_true, false_and, if_false, true_and, if_true]
    exact ⟨(hx j).1, not_lt.1 hc⟩
  · simp only [branchBox, Bool.false_eq_true, false_and, if_false, true_and, hj]
    exact hx j

theorem not_up (B : Box) (x : ℕ → ℚ) (hx : B.has x) (i c : ℕ) (v d : ℚ) (h : ¬ (branchBox B ⟨true, i, c, v, d⟩).has x) : x c < d := by
  by_contra hc
  apply h
  intro j
  by_cases hj : j = c
  · subst hj
    simp only [branchBox, Bool.true_eq_false, false_and, if_false, true_and, if_true]
    exact ⟨not_lt.1 hc, (hx j).2⟩
  · simp only [branchBox, Bool.true_eq_false, false_and, if_false, true_and, hj]
    exact hx j

theorem int_above_floor (t y : ℚ) (k : Int) (hy : y = k) (h : (⌊t⌋ : ℚ) < y) : (⌈t⌉ : ℚ) ≤ y := by
  subst hy
  have h1 : ⌊t⌋ < k := by exact_mod_cast h
  have h2 : ⌈t⌉ ≤ k := by
    have := Int.ceil_le_floor_add_one t
    omega
  exact_mod_cast h2

theorem int_below_ceil (t y : ℚ) (k : Int) (hy : y = k) (h : y < (⌈t⌉ : ℚ)) : y ≤ (⌊t⌋ : ℚ) := by
  subst hy
  have h1 : k < ⌈t⌉ := by exact_mod_cast h
  have h2 : k ≤ ⌊t⌋ := by
    have := Int.ceil_le_floor_add_one t
    omega
  exact_mod_cast h2

theorem setLo_has (B : Box) (c : ℕ) (t : ℚ) (x : ℕ → ℚ) (h : B.has x) (hc : t ≤ x c) : (setLo B c t).has x := by
  intro j
  by_cases hj : j = c
  · subst hj
    exact ⟨by simpa [setLo] using hc, (h j).2⟩
  · exact ⟨by simpa [setLo, hj] using (h j).1, (h j).2⟩

theorem setUp_has (B : Box) (c : ℕ) (t : ℚ) (x : ℕ → ℚ) (h : B.has x) (hc : x c ≤ t) : (setUp B c t).has x := by
  intro j
  by_cases hj : j = c
  · subst hj
    exact ⟨(h j).1, by simpa [setUp] using hc⟩
  · exact ⟨(h j).1, by simpa [setUp, hj] using (h j).2⟩

/-! ## Properties: what is lost -/

theorem scan_none (dbg : Bool) (over : ℚ → Bool) (sb : ℕ → SbRes) : ∀ os : List Obj, scan dbg over sb os = .ok none →
    ∃ o ∈ os, ∃ d u, evaluated (sb o.ind) = true ∧ (sb o.ind).rD = some d ∧ (sb o.ind).rU = some u ∧ fath over d = true ∧
      fath over u = true
  | [], h => by simp [scan] at h
  | o :: os, h => by
    have keep : scan dbg over sb os = .ok none → _ := scan_none dbg over sb os
    have lift : (scan dbg over sb os = .ok none) → ∃ o' ∈ o :: os, ∃ d u, evaluated (sb o'.ind) = true ∧
        (sb o'.ind).rD = some d ∧ (sb o'.ind).rU = some u ∧ fath over d = true ∧ fath over u = true := by
      intro h'
      obtain ⟨o', ho', r⟩ := keep h'
      exact ⟨o', by simp [ho'], r⟩
    have map_none : (scan dbg over sb os).map (Option.map (· + 1)) = .ok none → scan dbg over sb os = .ok none := by
      intro h'
      cases hs : scan dbg over sb os with
      | error e => rw [hs] at h'; cases h'
      | ok r =>
        rw [hs] at h'
        cases r with
        | none => rfl
        | some n => simp [Except.map] at h'
    rw [scan] at h
    by_cases he : evaluated (sb o.ind) = false
    · rw [if_pos he] at h
      exact lift h
    · rw [if_neg he] at h
      by_cases ha : dbg ∧ ¬ ((sb o.ind).evD = true ∧ (sb o.ind).evU = true)
      · rw [if_pos ha] at h; cases h
      · rw [if_neg ha] at h
        cases hd : (sb o.ind).rD with
        | none => rw [hd] at h; cases h
        | some d =>
          rw [hd] at h
          dsimp only at h
          by_cases hfd : fath over d = true
          · rw [if_pos hfd] at h
            cases hu : (sb o.ind).rU with
            | none => rw [hu] at h; cases h
            | some u =>
              rw [hu] at h
              dsimp only at h
              by_cases hfu : fath over u = true
              · exact ⟨o, by simp, d, u, by simpa using he, hd, hu, hfd, hfu⟩
              · rw [if_neg hfu] at h
                exact lift (map_none h)
          · rw [if_neg hfd] at h
            exact lift (map_none h)

/-- **C153.** A node fathomed by strong branching contains no point looked for, when the records hold true answers for its branches. -/
theorem fathom_sound (dbg : Bool) (over : ℚ → Bool) (hm : ∀ a b, a ≤ b → over a = true → over b = true) (P : Sel) (sb : ℕ → SbRes)
    (inf feas : List Obj) (B : Box) (F : (ℕ → ℚ) → Prop) (f : (ℕ → ℚ) → ℚ) (ht : Truth F f B sb inf feas) (r : Out)
    (hr : process dbg over P sb inf feas B = .ok r) (h2 : r.ret = -2) (x : ℕ → ℚ) :
    ¬ Wanted F f over ((inf ++ feas).map Obj.col) B x := by
  intro hx
  have hs : scan dbg over sb inf = .ok none := by
    unfold process at hr
    cases hs : scan dbg over sb inf with
    | error e => rw [hs] at hr; cases hr
    | ok o =>
      cases o with
      | none => rfl
      | some n =>
        exfalso
        rw [hs] at hr
        dsimp only at hr
        cases h1 : fixInf over sb inf (B, false) with
        | error e => rw [h1] at hr; cases hr
        | ok q =>
          obtain ⟨B1, f2⟩ := q
          rw [h1] at hr
          dsimp only at hr
          cases h3 : fixFeas over sb feas (B1, false) with
          | error e => rw [h3] at hr; cases hr
          | ok q =>
            obtain ⟨B2, f1⟩ := q
            rw [h3] at hr
            dsimp only at hr
            cases f2 with
            | true =>
              rw [if_pos rfl] at hr
              injection hr with hr
              rw [← hr] at h2
              simp at h2
            | false =>
              rw [if_neg (by simp)] at hr
              cases h4 : choose P sb inf with
              | error e => rw [h4] at hr; cases hr
              | ok b =>
                rw [h4] at hr
                injection hr with hr
                rw [← hr] at h2
                cases f1 <;> simp at h2
  obtain ⟨o, ho, d, u, he, hd, hu, hfd, hfu⟩ := scan_none dbg over sb inf hs
  have h1 := not_down B x hx.box _ _ _ _ (fath_none F f over hm _ d (ht.infD o ho d he hd) hfd x hx.feas hx.better)
  have h3 := not_up B x hx.box _ _ _ _ (fath_none F f over hm _ u (ht.infU o ho u he hu) hfu x hx.feas hx.better)
  obtain ⟨k, hk⟩ := hx.int o.col (by simp only [List.mem_map]; exact ⟨o, by simp [ho], rfl⟩)
  have h4 := int_above_floor _ _ k hk h1
  linarith

theorem fixInf_has (over : ℚ → Bool) (hm : ∀ a b, a ≤ b → over a = true → over b = true) (sb : ℕ → SbRes) (F : (ℕ → ℚ) → Prop)
    (f : (ℕ → ℚ) → ℚ) (B : Box) (x : ℕ → ℚ) (cols : List ℕ) (hx : Wanted F f over cols B x) :
    ∀ (os : List Obj) (s s' : Box × Bool), (∀ o ∈ os, o.col ∈ cols) → Truth F f B sb os [] → s.1.has x →
      fixInf over sb os s = .ok s' → s'.1.has x
  | [], s, s', _, _, h, e => by
    injection e with e
    rw [← e]; exact h
  | o :: os, (T, g), s', hc, ht, h, e => by
    have ht' : Truth F f B sb os [] := ⟨fun o' ho' => ht.infD o' (by simp [ho']), fun o' ho' => ht.infU o' (by simp [ho']),
      by simp, by simp⟩
    have hc' : ∀ o' ∈ os, o'.col ∈ cols := fun o' ho' => hc o' (by simp [ho'])
    rw [fixInf] at e
    by_cases he : evaluated (sb o.ind) = false
    · rw [if_pos he] at e
      exact fixInf_has over hm sb F f B x cols hx os (T, g) s' hc' ht' h e
    · rw [if_neg he] at e
      have he' : evaluated (sb o.ind) = true := by simpa using he
      cases hd : (sb o.ind).rD with
      | none => rw [hd] at e; cases e
      | some d =>
        cases hu : (sb o.ind).rU with
        | none => rw [hd, hu] at e; cases e
        | some u =>
          rw [hd, hu] at e
          dsimp only at e
          obtain ⟨k, hk⟩ := hx.int o.col (hc o (by simp))
          have kd : fath over d = true → (⌈o.v⌉ : ℚ) ≤ x o.col := fun hf =>
            int_above_floor _ _ k hk (not_down B x hx.box _ _ _ _
              (fath_none F f over hm _ d (ht.infD o (by simp) d he' hd) hf x hx.feas hx.better))
          have ku : fath over u = true → x o.col ≤ (⌊o.v⌋ : ℚ) := fun hf =>
            int_below_ceil _ _ k hk (not_up B x hx.box _ _ _ _
              (fath_none F f over hm _ u (ht.infU o (by simp) u he' hu) hf x hx.feas hx.better))
          refine fixInf_has over hm sb F f B x cols hx os _ s' hc' ht' ?_ e
          dsimp only
          by_cases h1 : fath over u = true
          · rw [if_pos h1]
            refine setUp_has _ _ _ _ ?_ (ku h1)
            by_cases h2 : fath over d = true
            · rw [if_pos h2]; exact setLo_has _ _ _ _ h (kd h2)
            · rw [if_neg h2]; exact h
          · rw [if_neg h1]
            by_cases h2 : fath over d = true
            · rw [if_pos h2]; exact setLo_has _ _ _ _ h (kd h2)
            · rw [if_neg h2]; exact h

theorem fixFeas_has (over : ℚ → Bool) (hm : ∀ a b, a ≤ b → over a = true → over b = true) (sb : ℕ → SbRes) (F : (ℕ → ℚ) → Prop)
    (f : (ℕ → ℚ) → ℚ) (B : Box) (x : ℕ → ℚ) (cols : List ℕ) (hx : Wanted F f over cols B x) :
    ∀ (os : List Obj) (s s' : Box × Bool), (∀ o ∈ os, o.col ∈ cols) → Truth F f B sb [] os → s.1.has x →
      fixFeas over sb os s = .ok s' → s'.1.has x
  | [], s, s', _, _, h, e => by
    injection e with e
    rw [← e]; exact h
  | o :: os, (T, g), s', hc, ht, h, e => by
    have ht' : Truth F f B sb [] os := ⟨by simp, by simp, fun o' ho' => ht.feasD o' (by simp [ho']),
      fun o' ho' => ht.feasU o' (by simp [ho'])⟩
    have hc' : ∀ o' ∈ os, o'.col ∈ cols := fun o' ho' => hc o' (by simp [ho'])
    obtain ⟨k, hk⟩ := hx.int o.col (hc o (by simp))
    rw [fixFeas] at e
    cases hdd : (if (sb o.ind).evD then (rd (sb o.ind).rD).map (fath over) else Except.ok false) with
    | error er => rw [hdd] at e; cases e
    | ok d =>
      cases huu : (if (sb o.ind).evU then (rd (sb o.ind).rU).map (fath over) else Except.ok false) with
      | error er => rw [hdd, huu] at e; cases e
      | ok u =>
        rw [hdd, huu] at e
        dsimp only at e
        have kd : d = true → (⌈o.v - 1 / 2⌉ : ℚ) ≤ x o.col := by
          intro hd
          by_cases hev : (sb o.ind).evD = true
          · rw [if_pos hev] at hdd
            cases hr : (sb o.ind).rD with
            | none => rw [hr] at hdd; cases hdd
            | some a =>
              rw [hr] at hdd
              have hfa : fath over a = true := by
                have : (Except.ok (fath over a) : Except Err Bool) = .ok d := hdd
                injection this with this
                rw [this, hd]
              exact int_above_floor _ _ k hk (not_down B x hx.box _ _ _ _
                (fath_none F f over hm _ a (ht.feasD o (by simp) a hev hr) hfa x hx.feas hx.better))
          · rw [if_neg hev] at hdd
            injection hdd with hdd
            rw [← hdd] at hd
            cases hd
        have ku : u = true → x o.col ≤ (⌊o.v + 1 / 2⌋ : ℚ) := by
          intro hu
          by_cases hev : (sb o.ind).evU = true
          · rw [if_pos hev] at huu
            cases hr : (sb o.ind).rU with
            | none => rw [hr] at huu; cases huu
            | some a =>
              rw [hr] at huu
              have hfa : fath over a = true := by
                have : (Except.ok (fath over a) : Except Err Bool) = .ok u := huu
                injection this with this
                rw [this, hu]
              exact int_below_ceil _ _ k hk (not_up B x hx.box _ _ _ _
                (fath_none F f over hm _ a (ht.feasU o (by simp) a hev hr) hfa x hx.feas hx.better))
          · rw [if_neg hev] at huu
            injection huu with huu
            rw [← huu] at hu
            cases hu
        refine fixFeas_has over hm sb F f B x cols hx os _ s' hc' ht' ?_ e
        dsimp only
        by_cases h1 : u = true
        · rw [if_pos h1]
          refine setUp_has _ _ _ _ ?_ (ku h1)
          by_cases h2 : d = true
          · rw [if_pos h2]; exact setLo_has _ _ _ _ h (kd h2)
          · rw [if_neg h2]; exact h
        · rw [if_neg h1]
          by_cases h2 : d = true
          · rw [if_pos h2]; exact setLo_has _ _ _ _ h (kd h2)
          · rw [if_neg h2]; exact h

/-- **C153.** The bounds fixed by strong branching cut off no point looked for. -/
theorem fix_sound (dbg : Bool) (over : ℚ → Bool) (hm : ∀ a b, a ≤ b → over a = true → over b = true) (P : Sel) (sb : ℕ → SbRes)
    (inf feas : List Obj) (B : Box) (F : (ℕ → ℚ) → Prop) (f : (ℕ → ℚ) → ℚ) (ht : Truth F f B sb inf feas) (r : Out)
    (hr : process dbg over P sb inf feas B = .ok r) (x : ℕ → ℚ) (hx : Wanted F f over ((inf ++ feas).map Obj.col) B x) :
    Wanted F f over ((inf ++ feas).map Obj.col) r.box x := by
  refine ⟨hx.feas, ?_, hx.int, hx.better⟩
  unfold process at hr
  cases hs : scan dbg over sb inf with
  | error e => rw [hs] at hr; cases hr
  | ok o =>
    cases o with
    | none =>
      rw [hs] at hr
      injection hr with hr
      rw [← hr]; exact hx.box
    | some n =>
      rw [hs] at hr
      dsimp only at hr
      cases h1 : fixInf over sb inf (B, false) with
      | error e => rw [h1] at hr; cases hr
      | ok q =>
        obtain ⟨B1, f2⟩ := q
        rw [h1] at hr
        dsimp only at hr
        cases h3 : fixFeas over sb feas (B1, false) with
        | error e => rw [h3] at hr; cases hr
        | ok q =>
          obtain ⟨B2, f1⟩ := q
          rw [h3] at hr
          dsimp only at hr
          have hB1 := fixInf_has over hm sb F f B x _ hx inf (B, false) (B1, f2)
            (fun o ho => by simp only [List.mem_map]; exact ⟨o, by simp [ho], rfl⟩) ⟨ht.infD, ht.infU, by simp, by simp⟩ hx.box h1
          have hB2 := fixFeas_has over hm sb F f B x _ hx feas (B1, false) (B2, f1)
            (fun o ho => by simp only [List.mem_map]; exact ⟨o, by simp [ho], rfl⟩) ⟨by simp, by simp, ht.feasD, ht.feasU⟩ hB1 h3
          cases f2 with
          | true =>
            rw [if_pos rfl] at hr
            injection hr with hr
            rw [← hr]; exact hB2
          | false =>
            rw [if_neg (by simp)] at hr
            cases h4 : choose P sb inf with
            | error e => rw [h4] at hr; cases hr
            | ok b =>
              rw [h4] at hr
              injection hr with hr
              rw [← hr]; exact hB2

/-! ## Properties: exact effects -/

theorem scan_complete (dbg : Bool) (over : ℚ → Bool) (sb : ℕ → SbRes) : ∀ os : List Obj,
    (∀ o ∈ os, evaluated (sb o.ind) = true → (sb o.ind).evD = true ∧ (sb o.ind).evU = true ∧ ∃ d u, (sb o.ind).rD = some d ∧
      (sb o.ind).rU = some u) → ∃ r, scan dbg over sb os = .ok r ∧
      (r = none ↔ ∃ o ∈ os, evaluated (sb o.ind) = true ∧ (∃ d, (sb o.ind).rD = some d ∧ fath over d = true) ∧
        ∃ u, (sb o.ind).rU = some u ∧ fath over u = true)
  | [], _ => ⟨some 0, rfl, by simp⟩
  | o :: os, h => by
    obtain ⟨r, hr, hiff⟩ := scan_complete dbg over sb os (fun o' ho' => h o' (by simp [ho']))
    rw [scan]
    by_cases he : evaluated (sb o.ind) = false
    · rw [if_pos he]
      refine ⟨r, hr, hiff.trans ?_⟩
      simp [he]
    · rw [if_neg he]
      have he' : evaluated (sb o.ind) = true := by simpa using he
      obtain ⟨hD, hU, d, u, hd, hu⟩ := h o (by simp) he'
      rw [if_neg (fun c => c.2 ⟨hD, hU⟩), hd, hu]
      dsimp only
      have hmap : (scan dbg over sb os).map (Option.map (· + 1)) = .ok (r.map (· + 1)) := by rw [hr]; rfl
      have hmn : r.map (· + 1) = none ↔ r = none := by cases r <;> simp
      by_cases hfd : fath over d = true
      · rw [if_pos hfd]
        by_cases hfu : fath over u = true
        · rw [if_pos hfu]
          exact ⟨none, rfl, by simp only [true_iff]; exact ⟨o, by simp, he', ⟨d, hd, hfd⟩, u, hu, hfu⟩⟩
        · rw [if_neg hfu]
          refine ⟨_, hmap, hmn.trans (hiff.trans ?_)⟩
          simp [hu, hfu]
      · rw [if_neg hfd]
        refine ⟨_, hmap, hmn.trans (hiff.trans ?_)⟩
        simp [hd, hfd]

theorem fixInf_exact (over : ℚ → Bool) (sb : ℕ → SbRes) : ∀ (os : List Obj) (B : Box) (g : Bool), (os.map Obj.col).Nodup →
    (∀ o ∈ os, evaluated (sb o.ind) = true → ∃ d u, (sb o.ind).rD = some d ∧ (sb o.ind).rU = some u) →
    ∃ B' g', fixInf over sb os (B, g) = .ok (B', g') ∧
      (∀ o ∈ os, evaluated (sb o.ind) = true → ∀ d u, (sb o.ind).rD = some d → (sb o.ind).rU = some u →
        B'.lo o.col = (if fath over d then (⌈o.v⌉ : ℚ) else B.lo o.col) ∧
        B'.up o.col = (if fath over u then (⌊o.v⌋ : ℚ) else B.up o.col)) ∧
      (∀ c, (∀ o ∈ os, evaluated (sb o.ind) = true → o.col ≠ c) → B'.lo c = B.lo c ∧ B'.up c = B.up c) ∧
      (g' = true ↔ g = true ∨ ∃ o ∈ os, evaluated (sb o.ind) = true ∧ ((∃ d, (sb o.ind).rD = some d ∧ fath over d = true) ∨
        ∃ u, (sb o.ind).rU = some u ∧ fath over u = true))
  | [], B, g, _, _ => ⟨B, g, rfl, by simp, fun c _ => ⟨rfl, rfl⟩, by simp⟩
  | o :: os, B, g, hn, h => by
    rw [List.map_cons, List.nodup_cons] at hn
    have hne : ∀ o' ∈ os, o'.col ≠ o.col := fun o' ho' c => hn.1 (by rw [List.mem_map]; exact ⟨o', ho', c⟩)
    have h' : ∀ o' ∈ os, evaluated (sb o'.ind) = true → ∃ d u, (sb o'.ind).rD = some d ∧ (sb o'.ind).rU = some u :=
      fun o' ho' => h o' (by simp [ho'])
    rw [fixInf]
    by_cases he : evaluated (sb o.ind) = false
    · rw [if_pos he]
      obtain ⟨B', g', e1, e2, e3, e4⟩ := fixInf_exact over sb os B g hn.2 h'
      refine ⟨B', g', e1, ?_, ?_, ?_⟩
      · intro o' ho' he'
        rcases List.mem_cons.1 ho' with c | c
        · subst c; rw [he] at he'; cases he'
        · exact e2 o' c he'
      · intro c hc
        exact e3 c (fun o' ho' => hc o' (by simp [ho']))
      · rw [e4]; simp [he]
    · rw [if_neg he]
      have he' : evaluated (sb o.ind) = true := by simpa using he
      obtain ⟨d, u, hd, hu⟩ := h o (by simp) he'
      rw [hd, hu]
      dsimp only
      obtain ⟨B', g', e1, e2, e3, e4⟩ := fixInf_exact over sb os
        (if fath over u then setUp (if fath over d then setLo B o.col ⌈o.v⌉ else B) o.col ⌊o.v⌋
           else if fath over d then setLo B o.col ⌈o.v⌉ else B) (g || fath over d || fath over u) hn.2 h'
      have hB : ∀ c, (if fath over u then setUp (if fath over d then setLo B o.col ⌈o.v⌉ else B) o.col ⌊o.v⌋
           else if fath over d then setLo B o.col ⌈o.v⌉ else B).lo c =
            (if c = o.col ∧ fath over d = true then (⌈o.v⌉ : ℚ) else B.lo c) ∧
          (if fath over u then setUp (if fath over d then setLo B o.col ⌈o.v⌉ else B) o.col ⌊o.v⌋
           else if fath over d then setLo B o.col ⌈o.v⌉ else B).up c =
            (if c = o.col ∧ fath over u = true then (⌊o.v⌋ : ℚ) else B.up c) := by
        intro c
        by_cases hc : c = o.col
        · subst hc
          cases fath over d <;> cases fath over u <;> simp [setLo, setUp]
        · cases fath over d <;> cases fath over u <;> simp [setLo, setUp, hc]
      refine ⟨B', g', e1, ?_, ?_, ?_⟩
      · intro o' ho' hev d' u' hd' hu'
        rcases List.mem_cons.1 ho' with c | c
        · subst c
          rw [hd] at hd'; rw [hu] at hu'
          injection hd' with hd'; injection hu' with hu'
          subst hd'; subst hu'
          have := e3 o'.col (fun o'' ho'' _ => hne o'' ho'')
          rw [this.1, this.2, (hB o'.col).1, (hB o'.col).2]
          simp
        · have := e2 o' c hev d' u' hd' hu'
          rw [this.1, this.2, (hB o'.col).1, (hB o'.col).2]
          simp [hne o' c]
      · intro c hc
        have := e3 c (fun o' ho' => hc o' (by simp [ho']))
        rw [this.1, this.2, (hB c).1, (hB c).2]
        have : c ≠ o.col := fun x => hc o (by simp) he' x.symm
        simp [this]
      · rw [e4]
        simp [he', hd, hu, or_assoc]

theorem fixFeas_exact (over : ℚ → Bool) (sb : ℕ → SbRes) : ∀ (os : List Obj) (B : Box) (g : Bool), (os.map Obj.col).Nodup →
    (∀ o ∈ os, ((sb o.ind).evD = true → ∃ d, (sb o.ind).rD = some d) ∧ ((sb o.ind).evU = true → ∃ u, (sb o.ind).rU = some u)) →
    ∃ B' g', fixFeas over sb os (B, g) = .ok (B', g') ∧
      (∀ o ∈ os,
        (((sb o.ind).evD = true ∧ ∃ d, (sb o.ind).rD = some d ∧ fath over d = true) → B'.lo o.col = ⌈o.v - 1 / 2⌉) ∧
        (¬ ((sb o.ind).evD = true ∧ ∃ d, (sb o.ind).rD = some d ∧ fath over d = true) → B'.lo o.col = B.lo o.col) ∧
        (((sb o.ind).evU = true ∧ ∃ u, (sb o.ind).rU = some u ∧ fath over u = true) → B'.up o.col = ⌊o.v + 1 / 2⌋) ∧
        (¬ ((sb o.ind).evU = true ∧ ∃ u, (sb o.ind).rU = some u ∧ fath over u = true) → B'.up o.col = B.up o.col)) ∧
      (∀ c, (∀ o ∈ os, o.col ≠ c) → B'.lo c = B.lo c ∧ B'.up c = B.up c) ∧
      (g' = true ↔ g = true ∨ ∃ o ∈ os, ((sb o.ind).evD = true ∧ ∃ d, (sb o.ind).rD = some d ∧ fath over d = true) ∨
        ((sb o.ind).evU = true ∧ ∃ u, (sb o.ind).rU = some u ∧ fath over u = true))
  | [], B, g, _, _ => ⟨B, g, rfl, by simp, fun c _ => ⟨rfl, rfl⟩, by simp⟩
  | o :: os, B, g, hn, h => by
    rw [List.map_cons, List.nodup_cons] at hn
    have hne : ∀ o' ∈ os, o'.col ≠ o.col := fun o' ho' c => hn.1 (by rw [List.mem_map]; exact ⟨o', ho', c⟩)
    obtain ⟨hD, hU⟩ := h o (by simp)
    have kd : ∃ d : Bool, (if (sb o.ind).evD then (rd (sb o.ind).rD).map (fath over) else Except.ok false) = .ok d ∧
        (d = true ↔ ((sb o.ind).evD = true ∧ ∃ a, (sb o.ind).rD = some a ∧ fath over a = true)) := by
      cases hev : (sb o.ind).evD with
      | false => exact ⟨false, by simp, by simp⟩
      | true =>
        obtain ⟨a, ha⟩ := hD hev
        exact ⟨fath over a, by rw [if_pos rfl, ha]; rfl, by simp [ha]⟩
    have ku : ∃ u : Bool, (if (sb o.ind).evU then (rd (sb o.ind).rU).map (fath over) else Except.ok false) = .ok u ∧
        (u = true ↔ ((sb o.ind).evU = true ∧ ∃ a, (sb o.ind).rU = some a ∧ fath over a = true)) := by
      cases hev : (sb o.ind).evU with
      | false => exact ⟨false, by simp, by simp⟩
      | true =>
        obtain ⟨a, ha⟩ := hU hev
        exact ⟨fath over a, by rw [if_pos rfl, ha]; rfl, by simp [ha]⟩
    obtain ⟨d, ed, hd⟩ := kd
    obtain ⟨u, eu, hu⟩ := ku
    obtain ⟨B', g', e1, e2, e3, e4⟩ := fixFeas_exact over sb os
      (if u then setUp (if d then setLo B o.col ⌈o.v - 1 / 2⌉ else B) o.col ⌊o.v + 1 / 2⌋
       else if d then setLo B o.col ⌈o.v - 1 / 2⌉ else B) (g || d || u) hn.2 (fun o' ho' => h o' (by simp [ho']))
    have hB : ∀ c, (if u then setUp (if d then setLo B o.col ⌈o.v - 1 / 2⌉ else B) o.col ⌊o.v + 1 / 2⌋
         else if d then setLo B o.col ⌈o.v - 1 / 2⌉ else B).lo c =
          (if c = o.col ∧ d = true then (⌈o.v - 1 / 2⌉ : ℚ) else B.lo c) ∧
        (if u then setUp (if d then setLo B o.col ⌈o.v - 1 / 2⌉ else B) o.col ⌊o.v + 1 / 2⌋
         else if d then setLo B o.col ⌈o.v - 1 / 2⌉ else B).up c =
          (if c = o.col ∧ u = true then (⌊o.v + 1 / 2⌋ : ℚ) else B.up c) := by
      intro c
      by_cases hc : c = o.col
      · subst hc
        cases d <;> cases u <;> simp [setLo, setUp]
      · cases d <;> cases u <;> simp [setLo, setUp, hc]
    refine ⟨B', g', by rw [fixFeas, ed, eu]; exact e1, ?_, ?_, ?_⟩
    · intro o' ho'
      rcases List.mem_cons.1 ho' with c | c
      · subst c
        have := e3 o'.col (fun o'' ho'' => hne o'' ho'')
        rw [this.1, this.2, (hB o'.col).1, (hB o'.col).2, ← hd, ← hu]
        refine ⟨fun x => by simp [x], fun x => by simp [x], fun x => by simp [x], fun x => by simp [x]⟩
      · have := e2 o' c
        rw [(hB o'.col).1, (hB o'.col).2] at this
        simpa [hne o' c] using this
    · intro c hc
      have := e3 c (fun o' ho' => hc o' (by simp [ho']))
      rw [this.1, this.2, (hB c).1, (hB c).2]
      have : c ≠ o.col := fun x => hc o (by simp) x.symm
      simp [this]
    · rw [e4]
      simp only [Bool.or_eq_true, List.mem_cons, exists_eq_or_imp, hd, hu, or_assoc]

/-- All records of a list of infeasible objects are complete: both sides or none evaluated. -/
def Complete (sb : ℕ → SbRes) (os : List Obj) : Prop :=
  ∀ o ∈ os, evaluated (sb o.ind) = true → (sb o.ind).evD = true ∧ (sb o.ind).evU = true ∧ ∃ d u, (sb o.ind).rD = some d ∧ (sb o.ind).rU = some u

/-- The side of a record shows that its branch can be dropped. -/
def Drop (over : ℚ → Bool) (r : SbRes) (up : Bool) : Prop :=
  if up then r.evU = true ∧ ∃ u, r.rU = some u ∧ fath over u = true else r.evD = true ∧ ∃ d, r.rD = some d ∧ fath over d = true

/-- **C154.** The return code: −2 exactly when some infeasible object has two branches to be dropped; otherwise −1 without an object
exactly when some infeasible object has one, and otherwise an object is given, with −1 exactly when a feasible object has one.
Nothing else but selection can go wrong. -/
theorem return_code (dbg : Bool) (over : ℚ → Bool) (P : Sel) (sb : ℕ → SbRes) (inf feas : List Obj) (B : Box)
    (hc : Complete sb inf) (hf : ∀ o ∈ feas, ((sb o.ind).evD = true → ∃ d, (sb o.ind).rD = some d) ∧
      ((sb o.ind).evU = true → ∃ u, (sb o.ind).rU = some u))
    (hn1 : (inf.map Obj.col).Nodup) (hn2 : (feas.map Obj.col).Nodup) :
    ((∃ o ∈ inf, Drop over (sb o.ind) false ∧ Drop over (sb o.ind) true) → process dbg over P sb inf feas B = .ok ⟨-2, B, none⟩) ∧
    ((¬ ∃ o ∈ inf, Drop over (sb o.ind) false ∧ Drop over (sb o.ind) true) →
      ((∃ o ∈ inf, Drop over (sb o.ind) false ∨ Drop over (sb o.ind) true) →
        ∃ B', process dbg over P sb inf feas B = .ok ⟨-1, B', none⟩) ∧
      ((¬ ∃ o ∈ inf, Drop over (sb o.ind) false ∨ Drop over (sb o.ind) true) → ∀ b, choose P sb inf = .ok b →
        ((∃ o ∈ feas, Drop over (sb o.ind) false ∨ Drop over (sb o.ind) true) →
          ∃ B', process dbg over P sb inf feas B = .ok ⟨-1, B', some b⟩) ∧
        ((¬ ∃ o ∈ feas, Drop over (sb o.ind) false ∨ Drop over (sb o.ind) true) →
          ∃ B', process dbg over P sb inf feas B = .ok ⟨0, B', some b⟩))) := by
  obtain ⟨r, hr, hiff⟩ := scan_complete dbg over sb inf hc
  have hs : r = none ↔ ∃ o ∈ inf, Drop over (sb o.ind) false ∧ Drop over (sb o.ind) true := by
    rw [hiff]
    constructor
    · rintro ⟨o, ho, he, a, b⟩
      obtain ⟨hD, hU, _⟩ := hc o ho he
      exact ⟨o, ho, by simpa [Drop] using ⟨hD, a⟩, by simpa [Drop] using ⟨hU, b⟩⟩
    · rintro ⟨o, ho, a, b⟩
      simp only [Drop, Bool.false_eq_true, if_false, if_true] at a b
      exact ⟨o, ho, by simp [evaluated, a.1], a.2, b.2⟩
  obtain ⟨B1, g2, e1, _, _, e4⟩ := fixInf_exact over sb inf B false hn1 (fun o ho he => (hc o ho he).2.2)
  obtain ⟨B2, g1, f1, _, _, f4⟩ := fixFeas_exact over sb feas B1 false hn2 hf
  have hg2 : g2 = true ↔ ∃ o ∈ inf, Drop over (sb o.ind) false ∨ Drop over (sb o.ind) true := by
    rw [e4]
    simp only [Bool.false_eq_true, false_or]
    constructor
    · rintro ⟨o, ho, he, a⟩
      obtain ⟨hD, hU, _⟩ := hc o ho he
      refine ⟨o, ho, ?_⟩
      rcases a with a | a
      · exact Or.inl (by simpa [Drop] using ⟨hD, a⟩)
      · exact Or.inr (by simpa [Drop] using ⟨hU, a⟩)
    · rintro ⟨o, ho, a⟩
      simp only [Drop, Bool.false_eq_true, if_false, if_true] at a
      refine ⟨o, ho, ?_, ?_⟩
      · rcases a with a | a <;> simp [evaluated, a.1]
      · rcases a with a | a
        · exact Or.inl a.2
        · exact Or.inr a.2
  have hg1 : g1 = true ↔ ∃ o ∈ feas, Drop over (sb o.ind) false ∨ Drop over (sb o.ind) true := by
    rw [f4]
    simp [Drop]
  refine ⟨?_, ?_⟩
  · intro h
    have : r = none := hs.2 h
    rw [process, hr, this]
  · intro h
    cases r with
    | none => exact absurd (hs.1 rfl) h
    | some n =>
      refine ⟨?_, ?_⟩
      · intro h2
        exact ⟨B2, by simp only [process, hr, e1, f1]; rw [if_pos (hg2.2 h2)]⟩
      · intro h2 b hb
        have hg : g2 ≠ true := fun c => h2 (hg2.1 c)
        refine ⟨?_, ?_⟩
        · intro h3
          refine ⟨B2, ?_⟩
          simp only [process, hr, e1, f1, hb]
          rw [if_neg hg, if_pos (hg1.2 h3)]
        · intro h3
          refine ⟨B2, ?_⟩
          simp only [process, hr, e1, f1, hb]
          rw [if_neg hg, if_neg (fun c => h3 (hg1.1 c))]

/-- **C154.** The bounds afterwards: a column gets the rounded value as a bound exactly on the sides to be dropped, all other bounds are
those before. -/
theorem fixed_bounds (dbg : Bool) (over : ℚ → Bool) (P : Sel) (sb : ℕ → SbRes) (inf feas : List Obj) (B : Box) (hc : Complete sb inf)
    (hf : ∀ o ∈ feas, ((sb o.ind).evD = true → ∃ d, (sb o.ind).rD = some d) ∧ ((sb o.ind).evU = true → ∃ u, (sb o.ind).rU = some u))
    (hn : ((inf ++ feas).map Obj.col).Nodup) (r : Out) (hr : process dbg over P sb inf feas B = .ok r) (h2 : r.ret ≠ -2) :
    (∀ o ∈ inf, (Drop over (sb o.ind) false → r.box.lo o.col = ⌈o.v⌉) ∧ (¬ Drop over (sb o.ind) false → r.box.lo o.col = B.lo o.col) ∧
      (Drop over (sb o.ind) true → r.box.up o.col = ⌊o.v⌋) ∧ (¬ Drop over (sb o.ind) true → r.box.up o.col = B.up o.col)) ∧
    (∀ o ∈ feas, (Drop over (sb o.ind) false → r.box.lo o.col = ⌈o.v - 1 / 2⌉) ∧
      (¬ Drop over (sb o.ind) false → r.box.lo o.col = B.lo o.col) ∧
      (Drop over (sb o.ind) true → r.box.up o.col = ⌊o.v + 1 / 2⌋) ∧ (¬ Drop over (sb o.ind) true → r.box.up o.col = B.up o.col)) ∧
    (∀ c, (∀ o ∈ inf ++ feas, o.col ≠ c) → r.box.lo c = B.lo c ∧ r.box.up c = B.up c) := by
  rw [List.map_append, List.nodup_append] at hn
  obtain ⟨hn1, hn2, hn3⟩ := hn
  obtain ⟨q, hq, hiff⟩ := scan_complete dbg over sb inf hc
  obtain ⟨B1, g2, e1, e2, e3, _⟩ := fixInf_exact over sb inf B false hn1 (fun o ho he => (hc o ho he).2.2)
  obtain ⟨B2, g1, f1, f2, f3, _⟩ := fixFeas_exact over sb feas B1 false hn2 hf
  have hbox : r.box = B2 := by
    cases q with
    | none =>
      rw [process, hq] at hr
      injection hr with hr
      rw [← hr] at h2
      exact absurd rfl h2
    | some n =>
      simp only [process, hq, e1, f1] at hr
      by_cases hg : g2 = true
      · rw [if_pos hg] at hr
        injection hr with hr
        rw [← hr]
      · rw [if_neg hg] at hr
        cases h4 : choose P sb inf with
        | error e => rw [h4] at hr; cases hr
        | ok b =>
          rw [h4] at hr
          injection hr with hr
          rw [← hr]
  rw [hbox]
  have hdis : ∀ o ∈ inf, ∀ o' ∈ feas, o'.col ≠ o.col := by
    intro o ho o' ho' c
    exact hn3 o.col (List.mem_map.2 ⟨o, ho, rfl⟩) o'.col (List.mem_map.2 ⟨o', ho', rfl⟩) c.symm
  refine ⟨?_, ?_, ?_⟩
  · intro o ho
    have h3 := f3 o.col (hdis o ho)
    rw [h3.1, h3.2]
    by_cases he : evaluated (sb o.ind) = true
    · obtain ⟨hD, hU, d, u, hd, hu⟩ := hc o ho he
      obtain ⟨k1, k2⟩ := e2 o ho he d u hd hu
      rw [k1, k2]
      simp only [Drop, hD, hU, hd, hu, Bool.false_eq_true, if_false, if_true, Option.some.injEq, exists_eq_left', true_and]
      cases fath over d <;> cases fath over u <;> simp
    · have k := e3 o.col (by
        intro o' ho' he' c
        have : o' = o := List.inj_on_of_nodup_map hn1 ho' ho c
        rw [this] at he'
        exact he he')
      rw [k.1, k.2]
      have hnd : (sb o.ind).evD = false ∧ (sb o.ind).evU = false := by simpa [evaluated] using he
      simp [Drop, hnd.1, hnd.2]
  · intro o ho
    have h3 := f2 o ho
    have k := e3 o.col (fun o' ho' _ c => hdis o' ho' o ho c.symm)
    rw [k.1, k.2] at h3
    simpa [Drop] using h3
  · intro c hcn
    have h3 := f3 c (fun o ho => hcn o (by simp [ho]))
    have k := e3 c (fun o ho _ => hcn o (by simp [ho]))
    rw [h3.1, h3.2, k.1, k.2]
    exact ⟨rfl, rfl⟩

/-- Which error stands for what: an assertion can fail only in a debugging build and only in the first loop; every other error is a value that was never set. -/
theorem process_error (dbg : Bool) (over : ℚ → Bool) (P : Sel) (sb : ℕ → SbRes) (inf feas : List Obj) (B : Box) (e : Err) (h : process dbg over P sb inf feas B = .error e) :
    e = .undef ∨ (e = .assertion ∧ dbg = true ∧ scan dbg over sb inf = .error .assertion) := by
  have h1 : ∀ os : List Obj, ∀ e, scan dbg over sb os = .error e → e = .undef ∨ (e = .assertion ∧ dbg = true) := by
    intro os
    induction os with
    | nil => intro e h; cases h
    | cons o os ih =>
      intro e h
      rw [scan] at h
      have hm : ∀ e, (scan dbg over sb os).map (Option.map (· + 1)) = .error e → e = .undef ∨ (e = .assertion ∧ dbg = true) := by
        intro e h
        cases hs : scan dbg over sb os with
        | ok r => rw [hs] at h; cases h
        | error e' => rw [hs] at h; cases h; exact ih _ hs
      by_cases he : evaluated (sb o.ind) = false
      · rw [if_pos he] at h; exact ih e h
      · rw [if_neg he] at h
        by_cases hd : dbg = true ∧ ¬ ((sb o.ind).evD = true ∧ (sb o.ind).evU = true)
        · rw [if_pos hd] at h; cases h; exact Or.inr ⟨rfl, hd.1⟩
        · rw [if_neg hd] at h
          cases hrD : (sb o.ind).rD with
          | none => rw [hrD] at h; cases h; exact Or.inl rfl
          | some d =>
            rw [hrD] at h
            simp only at h
            by_cases hf : fath over d = true
            · rw [if_pos hf] at h
              cases hrU : (sb o.ind).rU with
              | none => rw [hrU] at h; cases h; exact Or.inl rfl
              | some u =>
                rw [hrU] at h
                simp only at h
                by_cases hu : fath over u = true
                · rw [if_pos hu] at h; cases h
                · rw [if_neg hu] at h; exact hm e h
            · rw [if_neg hf] at h; exact hm e h
  have h2 : ∀ (os : List Obj) s, ∀ e, fixInf over sb os s = .error e → e = .undef := by
    intro os
    induction os with
    | nil => intro s e h; cases h
    | cons o os ih =>
      rintro ⟨B, f⟩ e h
      rw [fixInf] at h
      by_cases he : evaluated (sb o.ind) = false
      · rw [if_pos he] at h; exact ih _ _ h
      · rw [if_neg he] at h
        cases hrD : (sb o.ind).rD with
        | none => rw [hrD] at h; cases h; rfl
        | some d =>
          cases hrU : (sb o.ind).rU with
          | none => rw [hrD, hrU] at h; cases h; rfl
          | some u => rw [hrD, hrU] at h; exact ih _ _ h
  have hrd : ∀ (w : Bool) (r : Option Ans), ∀ e, (if w then (rd r).map (fath over) else .ok false) = Except.error e → e = .undef := by
    intro w r e h
    cases w with
    | false => cases h
    | true => cases r with
      | none => cases h; rfl
      | some a => cases h
  have h3 : ∀ (os : List Obj) s, ∀ e, fixFeas over sb os s = .error e → e = .undef := by
    intro os
    induction os with
    | nil => intro s e h; cases h
    | cons o os ih =>
      rintro ⟨B, f⟩ e h
      rw [fixFeas] at h
      cases hd : (if (sb o.ind).evD then (rd (sb o.ind).rD).map (fath over) else .ok false) with
      | error e' => rw [hd] at h; simp only [Except.error.injEq] at h; rw [← h]; exact hrd _ _ _ hd
      | ok d =>
        cases hu : (if (sb o.ind).evU then (rd (sb o.ind).rU).map (fath over) else .ok false) with
        | error e' => rw [hd, hu] at h; simp only [Except.error.injEq] at h; rw [← h]; exact hrd _ _ _ hu
        | ok u => rw [hd, hu] at h; exact ih _ _ h
  have h4 : ∀ (os : List Obj) s, ∀ e, best P sb os s = .error e → e = .undef := by
    intro os
    induction os with
    | nil => intro s e h; cases h
    | cons o os ih =>
      rintro ⟨v, b⟩ e h
      rw [best] at h
      by_cases he : evaluated (sb o.ind) = false
      · rw [if_pos he] at h; exact ih _ _ h
      · rw [if_neg he] at h
        cases hrD : (sb o.ind).rD with
        | none => rw [hrD] at h; cases h; rfl
        | some d =>
          cases hrU : (sb o.ind).rU with
          | none => rw [hrD, hrU] at h; cases h; rfl
          | some u =>
            rw [hrD, hrU] at h
            simp only at h
            split at h
            · exact ih _ _ h
            · split at h
              · split at h <;> exact ih _ _ h
              · split at h <;> exact ih _ _ h
  have h5 : ∀ (os : List Obj), ∀ e, firstHalf sb os = .error e → e = .undef := by
    intro os
    induction os with
    | nil => intro e h; cases h
    | cons o os ih =>
      intro e h
      rw [firstHalf] at h
      cases hrD : (sb o.ind).rD with
      | none => rw [hrD] at h; cases h; rfl
      | some d =>
        cases hrU : (sb o.ind).rU with
        | none => rw [hrD, hrU] at h; cases h; rfl
        | some u =>
          rw [hrD, hrU] at h
          simp only at h
          split at h
          · cases h
          · cases hh : firstHalf sb os with
            | error e' => rw [hh] at h; simp only [Except.error.injEq] at h; rw [← h]; exact ih _ hh
            | ok r => rw [hh] at h; cases r <;> cases h
  have h6 : ∀ e, choose P sb inf = .error e → e = .undef := by
    intro e h
    unfold choose at h
    cases hb : best P sb inf (if P.high then -P.big else P.big, none) with
    | error e' => rw [hb] at h; simp only [Except.error.injEq] at h; rw [← h]; exact h4 _ _ _ hb
    | ok r =>
      obtain ⟨v, b⟩ := r
      rw [hb] at h
      cases b with
      | some b => cases h
      | none =>
        simp only at h
        cases hn : firstNew sb inf with
        | some o => rw [hn] at h; cases h
        | none =>
          rw [hn] at h
          simp only at h
          cases hh : firstHalf sb inf with
          | error e' => rw [hh] at h; simp only [Except.error.injEq] at h; rw [← h]; exact h5 _ _ hh
          | ok r =>
            rw [hh] at h
            cases r with
            | none => simp only [Except.error.injEq] at h; exact h.symm
            | some o => cases h
  unfold process at h
  cases hs : scan dbg over sb inf with
  | error e' =>
    rw [hs] at h
    simp only [Except.error.injEq] at h
    subst h
    rcases h1 _ _ hs with h' | h'
    · exact Or.inl h'
    · exact Or.inr ⟨h'.1, h'.2, by rw [h'.1]⟩
  | ok r =>
    rw [hs] at h
    left
    cases r with
    | none => cases h
    | some n =>
      simp only at h
      cases hi : fixInf over sb inf (B, false) with
      | error e' => rw [hi] at h; simp only [Except.error.injEq] at h; rw [← h]; exact h2 _ _ _ hi
      | ok s =>
        obtain ⟨B1, f2⟩ := s
        rw [hi] at h
        simp only at h
        cases hf : fixFeas over sb feas (B1, false) with
        | error e' => rw [hf] at h; simp only [Except.error.injEq] at h; rw [← h]; exact h3 _ _ _ hf
        | ok s =>
          obtain ⟨B2, f1⟩ := s
          rw [hf] at h
          simp only at h
          split at h
          · cases h
          · cases hc : choose P sb inf with
            | error e' => rw [hc] at h; simp only [Except.error.injEq] at h; rw [← h]; exact h6 _ hc
            | ok b => rw [hc] at h; cases h

example : scan true (fun _ => false) (fun _ => ⟨true, false, some ⟨false, true, false, 4, 3, 0⟩, none, none, none⟩) [⟨0, 0, 1, 1 / 2, 1 / 2, 0, 1, 0, 0⟩] = .error .assertion ∧
    scan false (fun _ => true) (fun _ => ⟨true, false, some ⟨false, true, false, 4, 3, 0⟩, none, none, none⟩) [⟨0, 0, 1, 1 / 2, 1 / 2, 0, 1, 0, 0⟩] = .error .undef := by decide +kernel

end Verif.Bcp

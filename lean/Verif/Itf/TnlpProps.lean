import Verif.Itf.Tnlp
import Mathlib.Tactic.Linarith
import Mathlib.Tactic.NormNum
/-! # C18, C20, C48, C49 -/
namespace Verif.Itf

/-! ### C18: problems without degrees of freedom -/

theorem any_zipWith {P : ℚ → ℚ → Bool} : ∀ (us ls : List ℚ), (List.zipWith (fun u l => P u l) us ls).any id = true ↔
    ∃ (i : Nat) (u l : ℚ), us[i]? = some u ∧ ls[i]? = some l ∧ P u l = true := by
  intro us
  induction us with
  | nil => intro ls; simp
  | cons u us ih =>
    intro ls
    cases ls with
    | nil => simp
    | cons l ls =>
      simp only [List.zipWith_cons_cons, List.any_cons, id, Bool.or_eq_true, ih]
      constructor
      · rintro (h | ⟨i, a, b, h1, h2, h3⟩)
        · exact ⟨0, u, l, rfl, rfl, h⟩
        · exact ⟨i + 1, a, b, h1, h2, h3⟩
      · rintro ⟨i, a, b, h1, h2, h3⟩
        cases i with
        | zero => left; simp at h1 h2; rw [h1, h2]; exact h3
        | succ i => right; exact ⟨i, a, b, by simpa using h1, by simpa using h2, h3⟩

theorem rowOk_iff : ∀ (gs ls us : List ℚ), rowOk gs ls us = true ↔
    ∀ (i : Nat) (g l u : ℚ), gs[i]? = some g → ls[i]? = some l → us[i]? = some u → l - 1 / 10 ^ 7 ≤ g ∧ g ≤ u + 1 / 10 ^ 7 := by
  intro gs
  induction gs with
  | nil => intro ls us; simp [rowOk]
  | cons g gs ih =>
    intro ls us
    cases ls with
    | nil => simp [rowOk]
    | cons l ls =>
      cases us with
      | nil => simp [rowOk]
      | cons u us =>
        simp only [rowOk, Bool.and_eq_true, ih, Bool.not_eq_true', Bool.or_eq_false_iff, decide_eq_false_iff_not, not_lt]
        constructor
        · rintro ⟨⟨h1, h2⟩, h3⟩ i a b c ha hb hc
          cases i with
          | zero => simp at ha hb hc; subst ha hb hc; constructor <;> linarith
          | succ i => exact h3 i a b c (by simpa using ha) (by simpa using hb) (by simpa using hc)
        · intro h
          have h0 := h 0 g l u rfl rfl rfl
          exact ⟨⟨by linarith [h0.1], by linarith [h0.2]⟩, fun i a b c ha hb hc => h (i + 1) a b c (by simpa using ha) (by simpa using hb) (by simpa using hc)⟩

/-- **C18**: the shortcut is taken iff no variable has a range above 1e-5. -/
theorem zeroDimension_taken (p : Nlp) : (∃ z, zeroDimension p = some z) ↔
    ∀ (i : Nat) (l u : ℚ), p.xl[i]? = some l → p.xu[i]? = some u → u - l ≤ 1 / 10 ^ 5 := by
  have h := any_zipWith (P := fun u l => decide (u - l > 1 / 10 ^ 5)) p.xu p.xl
  unfold zeroDimension
  by_cases hc : (List.zipWith (fun u l => decide (u - l > 1 / 10 ^ 5)) p.xu p.xl).any id = true
  · rw [if_pos hc]
    obtain ⟨i, u, l, h1, h2, h3⟩ := h.mp hc
    simp only [reduceCtorEq, exists_false, false_iff]
    intro hall
    have := hall i l u h2 h1
    simp only [decide_eq_true_eq] at h3
    linarith
  · rw [if_neg hc]
    simp only [Option.some.injEq, exists_eq', true_iff]
    intro i l u hl hu
    by_contra hcon
    exact hc (h.mpr ⟨i, u, l, hu, hl, decide_eq_true (not_le.mp hcon)⟩)

/-- **C18**: the verdict, and the point and objective reported with it: optimal iff every row of the lower-bound point is within 1e-7 of its bounds. -/
theorem zeroDimension_verdict (p : Nlp) (z : ZD) (h : zeroDimension p = some z) :
    z.x = p.xl ∧ z.obj = p.evalF p.xl ∧ z.g = p.evalG p.xl ∧
    (z.optimal = true ↔ ∀ (i : Nat) (g l u : ℚ), (p.evalG p.xl)[i]? = some g → p.gl[i]? = some l → p.gu[i]? = some u →
      l - 1 / 10 ^ 7 ≤ g ∧ g ≤ u + 1 / 10 ^ 7) := by
  unfold zeroDimension at h
  split at h
  · cases h
  · cases h; exact ⟨rfl, rfl, rfl, rowOk_iff _ _ _⟩

/-- All components between the bounds. -/
def Sat (l u v : List ℚ) : Prop := v.length = l.length ∧
  ∀ (i : Nat) (a b c : ℚ), l[i]? = some a → u[i]? = some b → v[i]? = some c → a ≤ c ∧ c ≤ b

theorem sat_fixed (l v : List ℚ) (h : Sat l l v) : v = l := by
  apply List.ext_getElem? 
  intro i
  by_cases hi : i < l.length
  · have h1 := List.getElem?_eq_getElem hi
    have h2 := List.getElem?_eq_getElem (h.1 ▸ hi : i < v.length)
    have := h.2 i _ _ _ h1 h1 h2
    rw [h1, h2, le_antisymm this.2 this.1]
  · rw [List.getElem?_eq_none (not_lt.mp hi), List.getElem?_eq_none (h.1 ▸ not_lt.mp hi)]

/-- **C18** (exactly fixed variables): an infeasible verdict means that no point within the variable bounds satisfies the rows; with an optimal verdict the
reported point is within the variable bounds and no other point is, so it is a minimiser among the points satisfying the rows. -/
theorem zeroDimension_fixed (p : Nlp) (z : ZD) (h : zeroDimension p = some z) (hf : p.xl = p.xu) :
    (z.optimal = false → ¬ ∃ x, Sat p.xl p.xu x ∧ Sat p.gl p.gu (p.evalG x)) ∧
    (z.optimal = true → Sat p.xl p.xu z.x ∧ ∀ x, Sat p.xl p.xu x → p.evalF z.x ≤ p.evalF x) := by
  obtain ⟨hx, ho, hg, hv⟩ := zeroDimension_verdict p z h
  constructor
  · rintro hno ⟨x, h1, h2⟩
    rw [← hf] at h1
    have := sat_fixed _ _ h1
    subst this
    have : z.optimal = true := hv.mpr (by
      intro i g l u a b c
      have := h2.2 i l u g b c a
      constructor <;> linarith [this.1, this.2])
    rw [this] at hno; cases hno
  · intro _
    constructor
    · rw [hx, ← hf]
      refine ⟨rfl, ?_⟩
      intro i a b c h1 h2 h3
      rw [h1] at h2 h3; cases h2; cases h3; exact ⟨le_refl _, le_refl _⟩
    · intro x hs
      rw [← hf] at hs
      rw [sat_fixed _ _ hs, hx]

/-- **C18** refuted: with a crossed pair of bounds the shortcut is still taken and the reported point violates the upper bound, whatever the problem. -/
theorem zeroDimension_crossed (p : Nlp) (i : Nat) (l u : ℚ) (hl : p.xl[i]? = some l) (_hu : p.xu[i]? = some u) (hc : u < l)
    (z : ZD) (h : zeroDimension p = some z) : ∃ v, z.x[i]? = some v ∧ u < v := by
  obtain ⟨hx, -⟩ := zeroDimension_verdict p z h
  exact ⟨l, by rw [hx]; exact hl, hc⟩

/-- One-variable problem with a single row `x` and objective `x`. -/
def oneVar (l u gl gu : ℚ) : Nlp :=
  { n := 1, m := 1, nnzJac := 1, nnzH := 0, off := 0, xl := [l], xu := [u], gl := [gl], gu := [gu], isInt := [false], isLin := [true],
    start := [0], evalF := fun x => x.getD 0 0, gradF := fun _ => [1], evalG := fun x => [x.getD 0 0], evalGi := fun x _ => x.getD 0 0,
    jacS := [(0, 0)], jacV := fun _ => [1], gradGi := fun _ _ => [(0, 1)], hS := [], hV := fun _ _ _ => [] }

/-- …and it is reported optimal although no point satisfies the bounds. -/
theorem zeroDimension_crossed_optimal : ∃ z, zeroDimension (oneVar 1 0 0 2) = some z ∧ z.optimal = true ∧
    ¬ ∃ x, Sat (oneVar 1 0 0 2).xl (oneVar 1 0 0 2).xu x := by
  refine ⟨⟨true, [1], [1], 1⟩, ?_, rfl, ?_⟩
  · norm_num [zeroDimension, oneVar, rowOk]
  · rintro ⟨x, h1, h2⟩
    simp only [oneVar, List.length_cons, List.length_nil] at h1
    obtain ⟨v, rfl⟩ := List.length_eq_one_iff.mp h1
    have := h2 0 1 0 v rfl rfl rfl
    linarith [this.1, this.2]

/-- **C18** refuted for nearly fixed variables: range 1e-5, the row `x ≥ 5e-6` satisfiable, verdict infeasible. -/
theorem zeroDimension_nearly_fixed : ∃ z, zeroDimension (oneVar 0 (1/10^5) (5/10^6) 1) = some z ∧ z.optimal = false ∧
    Sat (oneVar 0 (1/10^5) (5/10^6) 1).xl (oneVar 0 (1/10^5) (5/10^6) 1).xu [1/10^5] ∧
    Sat (oneVar 0 (1/10^5) (5/10^6) 1).gl (oneVar 0 (1/10^5) (5/10^6) 1).gu ((oneVar 0 (1/10^5) (5/10^6) 1).evalG [1/10^5]) := by
  refine ⟨⟨false, [0], [0], 0⟩, ?_, rfl, ⟨rfl, ?_⟩, ⟨rfl, ?_⟩⟩
  · norm_num [zeroDimension, oneVar, rowOk]
  · intro i a b c h1 h2 h3
    cases i with
    | zero => simp [oneVar] at h1 h2 h3; subst h1 h2 h3; norm_num
    | succ i => simp [oneVar] at h1
  · intro i a b c h1 h2 h3
    cases i with
    | zero => simp [oneVar] at h1 h2 h3; subst h1 h2 h3; norm_num
    | succ i => simp [oneVar] at h1

/-! ### C20: setters -/

/-- Last lower bound given to variable `i` by a history, starting from `v`. -/
def lastLo (i : Nat) (v : ℚ) : List TOp → ℚ
  | [] => v
  | .bounds l _ :: ops => lastLo i (l.getD i 0) ops
  | .lowers l :: ops => lastLo i (l.getD i 0) ops
  | .bound j l _ :: ops => lastLo i (if j = i then l else v) ops
  | .lower j l :: ops => lastLo i (if j = i then l else v) ops
  | _ :: ops => lastLo i v ops

/-- Last upper bound given to variable `i` by a history, starting from `v`. -/
def lastUp (i : Nat) (v : ℚ) : List TOp → ℚ
  | [] => v
  | .bounds _ u :: ops => lastUp i (u.getD i 0) ops
  | .uppers u :: ops => lastUp i (u.getD i 0) ops
  | .bound j _ u :: ops => lastUp i (if j = i then u else v) ops
  | .upper j u :: ops => lastUp i (if j = i then u else v) ops
  | _ :: ops => lastUp i v ops

theorem getD_set (l : List ℚ) (i j : Nat) (v : ℚ) (hj : j < l.length) : (l.set j v).getD i 0 = if j = i then v else l.getD i 0 := by
  simp only [List.getD_eq_getElem?_getD, List.getElem?_set]
  by_cases h : j = i
  · subst h; simp [hj]
  · simp [h]

/-- **C20** (bounds): after any history accepted by the object, the bounds handed to the solver are, variable by variable, the last ones set. -/
theorem bounds_last_write (ops : List TOp) : ∀ (s s' : T), s.xl.length = s.n → s.xu.length = s.n → trun s ops = some s' →
    s'.xl.length = s.n ∧ s'.xu.length = s.n ∧ ∀ i < s.n, s'.xl.getD i 0 = lastLo i (s.xl.getD i 0) ops ∧ s'.xu.getD i 0 = lastUp i (s.xu.getD i 0) ops := by
  induction ops with
  | nil => intro s s' h1 h2 h; simp only [trun, Option.some.injEq] at h; subst h; exact ⟨h1, h2, fun i _ => ⟨rfl, rfl⟩⟩
  | cons op ops ih =>
    intro s s' h1 h2 h
    simp only [trun] at h
    cases hs : tstep s op with
    | none => rw [hs] at h; simp at h
    | some t =>
      rw [hs] at h
      simp only [Option.bind_some] at h
      cases op with
      | bounds l u =>
        simp only [tstep] at hs; split at hs
        · rename_i hc; cases hs; exact ih _ s' (by exact hc.1) (by exact hc.2) h
        · cases hs
      | lowers l =>
        simp only [tstep] at hs; split at hs
        · rename_i hc; cases hs; exact ih _ s' (by exact hc) (by exact h2) h
        · cases hs
      | uppers u =>
        simp only [tstep] at hs; split at hs
        · rename_i hc; cases hs; exact ih _ s' (by exact h1) (by exact hc) h
        · cases hs
      | bound j l u =>
        simp only [tstep] at hs; split at hs
        · rename_i hc; cases hs
          obtain ⟨q1, q2, q3⟩ := ih _ s' (by simpa using h1) (by simpa using h2) h
          refine ⟨q1, q2, fun i hi => ?_⟩
          have := q3 i hi
          rw [getD_set _ _ _ _ (by omega), getD_set _ _ _ _ (by omega)] at this
          exact this
        · cases hs
      | lower j l =>
        simp only [tstep] at hs; split at hs
        · rename_i hc; cases hs
          obtain ⟨q1, q2, q3⟩ := ih _ s' (by simpa using h1) (by simpa using h2) h
          refine ⟨q1, q2, fun i hi => ?_⟩
          have := q3 i hi
          rw [getD_set _ _ _ _ (by omega)] at this
          exact this
        · cases hs
      | upper j u =>
        simp only [tstep] at hs; split at hs
        · rename_i hc; cases hs
          obtain ⟨q1, q2, q3⟩ := ih _ s' (by simpa using h1) (by simpa using h2) h
          refine ⟨q1, q2, fun i hi => ?_⟩
          have := q3 i hi
          rw [getD_set _ _ _ _ (by omega)] at this
          exact this
        · cases hs
      | reset => simp only [tstep, Option.some.injEq] at hs; subst hs; have q := ih _ s' (by exact h1) (by exact h2) h; exact q
      | setx x =>
        simp only [tstep] at hs; split at hs
        · cases hs; have q := ih _ s' (by exact h1) (by exact h2) h; exact q
        · cases hs
      | setDuals d =>
        simp only [tstep] at hs; split at hs
        · cases hs; have q := ih _ s' (by exact h1) (by exact h2) h; exact q
        · cases hs

/-- What is remembered of the start point: the primal point set since the last reset, the dual values set since the last reset, and whether dual values were ever set. -/
structure Start where
  x : Option (List ℚ)
  d : Option (List ℚ)
  ever : Bool

/-- Effect of a history on the remembered start point (`zero` is what the code fills in when duals are set without a primal point). -/
def Start.step (zero : List ℚ) (a : Start) : TOp → Start
  | .reset => { a with x := none, d := none }
  | .setx x => { a with x := some x }
  | .setDuals d => ⟨some (a.x.getD zero), some d, true⟩
  | _ => a

/-- Link between the object and what is remembered. -/
def StartRep (s : T) (a : Start) : Prop :=
  s.duals = a.ever ∧ (a.x = none → a.d = none) ∧ (a.d ≠ none → a.ever = true) ∧
  (∀ x, a.x = some x → x.length = s.n) ∧ (∀ d, a.d = some d → d.length = 2 * s.n + s.m) ∧
  s.xinit = (a.x.getD []) ++ (a.d.getD [])

theorem startRep_step (s s' : T) (a : Start) (op : TOp) (hr : StartRep s a) (h : tstep s op = some s') :
    StartRep s' (a.step (List.replicate s.n 0) op) ∧ s'.n = s.n ∧ s'.m = s.m ∧ s'.user = s.user := by
  obtain ⟨r1, r2, r3, r4, r5, r6⟩ := hr
  cases op with
  | bounds l u => simp only [tstep] at h; split at h <;> cases h; exact ⟨⟨r1, r2, r3, r4, r5, r6⟩, rfl, rfl, rfl⟩
  | lowers l => simp only [tstep] at h; split at h <;> cases h; exact ⟨⟨r1, r2, r3, r4, r5, r6⟩, rfl, rfl, rfl⟩
  | uppers l => simp only [tstep] at h; split at h <;> cases h; exact ⟨⟨r1, r2, r3, r4, r5, r6⟩, rfl, rfl, rfl⟩
  | bound i l u => simp only [tstep] at h; split at h <;> cases h; exact ⟨⟨r1, r2, r3, r4, r5, r6⟩, rfl, rfl, rfl⟩
  | lower i l => simp only [tstep] at h; split at h <;> cases h; exact ⟨⟨r1, r2, r3, r4, r5, r6⟩, rfl, rfl, rfl⟩
  | upper i l => simp only [tstep] at h; split at h <;> cases h; exact ⟨⟨r1, r2, r3, r4, r5, r6⟩, rfl, rfl, rfl⟩
  | reset =>
    simp only [tstep, Option.some.injEq] at h; subst h
    refine ⟨⟨r1, fun _ => rfl, ?_, ?_, ?_, rfl⟩, rfl, rfl, rfl⟩ <;> simp [Start.step]
  | setx x =>
    simp only [tstep] at h
    split at h
    · rename_i hx
      cases h
      refine ⟨⟨r1, by simp [Start.step], r3, ?_, r5, ?_⟩, rfl, rfl, rfl⟩
      · intro y hy; simp only [Start.step, Option.some.injEq] at hy; subst hy; exact hx
      · simp only [Start.step, Option.getD_some, overwrite]
        congr 1
        cases hax : a.x with
        | none =>
          have hd := r2 hax
          rw [hax, hd] at r6
          simp only [Option.getD_none, List.append_nil] at r6
          rw [r6, hd]
          by_cases hn : 0 < s.n
          · rw [if_pos (by simpa using hn), List.drop_eq_nil_of_le (by simp [resize]; omega)]; rfl
          · rw [if_neg (by simpa using hn)]; simp
        | some y =>
          have hy := r4 y hax
          rw [hax] at r6
          simp only [Option.getD_some] at r6
          rw [if_neg (by rw [r6]; simp; omega), r6, List.drop_append_of_le_length (by omega), List.drop_eq_nil_of_le (by omega)]
          simp
    · cases h
  | setDuals d =>
    simp only [tstep] at h
    split at h
    · rename_i hd
      cases h
      refine ⟨⟨rfl, by simp [Start.step], by simp [Start.step], ?_, ?_, ?_⟩, rfl, rfl, rfl⟩
      · intro y hy
        simp only [Start.step, Option.some.injEq] at hy
        subst hy
        cases hax : a.x with
        | none => simp
        | some y => simpa using r4 y hax
      · intro e he; simp only [Start.step, Option.some.injEq] at he; subst he; exact hd
      · simp only [Start.step, Option.getD_some]
        congr 1
        cases hax : a.x with
        | none =>
          have hd' := r2 hax
          rw [hax, hd'] at r6
          simp only [Option.getD_none, List.append_nil] at r6
          rw [r6]
          simp [resize]
          omega
        | some y =>
          have hy := r4 y hax
          rw [hax] at r6
          simp only [Option.getD_some] at r6
          rw [r6]
          simp only [resize, Option.getD_some]
          rw [List.take_append_of_le_length (by simp; omega), List.take_take, List.take_append_of_le_length (by omega)]
          rw [List.take_of_length_le (by omega)]
    · cases h

theorem startRep_run (ops : List TOp) : ∀ (s s' : T) (a : Start), StartRep s a → trun s ops = some s' →
    StartRep s' (ops.foldl (Start.step (List.replicate s.n 0)) a) ∧ s'.n = s.n ∧ s'.m = s.m ∧ s'.user = s.user := by
  induction ops with
  | nil => intro s s' a hr h; simp only [trun, Option.some.injEq] at h; subst h; exact ⟨hr, rfl, rfl, rfl⟩
  | cons op ops ih =>
    intro s s' a hr h
    simp only [trun] at h
    cases hs : tstep s op with
    | none => rw [hs] at h; simp at h
    | some t =>
      rw [hs] at h
      simp only [Option.bind_some] at h
      obtain ⟨h1, h2, h3, h4⟩ := startRep_step s t a op hr hs
      obtain ⟨k1, k2, k3, k4⟩ := ih t s' _ h1 h
      rw [h2] at k1
      exact ⟨k1, k2.trans h2, k3.trans h3, k4.trans h4⟩

/-- Freshly constructed object. -/
def T.fresh (n m : Nat) (xl xu user : List ℚ) : T := ⟨n, m, xl, xu, user, [], false⟩

/-- **C20** (start point), exact answer for every history from construction: the primal start is the one remembered, else the user's; the dual start is the one
remembered; none if never set; undefined behaviour if it was set, then reset, and not set again. -/
theorem start_exact (n m : Nat) (hn : 0 < n) (xl xu user : List ℚ) (ops : List TOp) (s' : T) (h : trun (T.fresh n m xl xu user) ops = some s') :
    let a := ops.foldl (Start.step (List.replicate n 0)) ⟨none, none, false⟩
    getStart s' true false false = some (true, a.x.getD user, [], []) ∧
    getStart s' true true true = (match a.d with
      | some d => some (true, a.x.getD user, d.take (2 * n), d.drop (2 * n))
      | none => if a.ever then none else some (false, a.x.getD user, [], [])) := by
  intro a
  obtain ⟨⟨r1, r2, r3, r4, r5, r6⟩, e1, e2, e3⟩ := startRep_run ops (T.fresh n m xl xu user) s' ⟨none, none, false⟩
    ⟨rfl, fun _ => rfl, by simp, by simp, by simp, rfl⟩ h
  simp only [T.fresh] at e1 e2 e3 r1 r2 r3 r4 r5 r6
  change s'.duals = a.ever at r1
  have hx : (if s'.xinit = [] then s'.user else s'.xinit.take s'.n) = a.x.getD user := by
    cases hax : a.x with
    | none =>
      have hd := r2 hax
      have : s'.xinit = [] := by rw [r6]; change a.x.getD [] ++ a.d.getD [] = []; rw [hax, show a.d = none from hd]; rfl
      rw [if_pos this, e3]; rfl
    | some y =>
      have hyl := r4 y hax
      have hx6 : s'.xinit = y ++ a.d.getD [] := by rw [r6]; change a.x.getD [] ++ a.d.getD [] = _; rw [hax]; rfl
      have : s'.xinit ≠ [] := by rw [hx6]; intro hc; have := (List.append_eq_nil_iff.mp hc).1; subst this; simp at hyl; omega
      rw [if_neg this, hx6, List.take_append_of_le_length (by omega), List.take_of_length_le (by omega)]; rfl
  constructor
  · simp only [getStart, Bool.false_eq_true, or_self, if_false, if_true, hx]
  · simp only [getStart, if_true, true_or, hx]
    cases had : a.d with
    | none =>
      cases hev : a.ever with
      | false => rw [r1, hev]; simp
      | true =>
        rw [r1, hev]
        simp only [not_true_eq_false, if_false, if_true]
        rw [if_neg]
        rw [r6]
        change ¬ (a.x.getD [] ++ a.d.getD []).length = _
        rw [had]
        cases hax : a.x with
        | none => simp; omega
        | some y => have := r4 y hax; simp; omega
    | some d =>
      have hev : a.ever = true := r3 (by change a.d ≠ none; rw [had]; simp)
      have hd := r5 d had
      have hax : a.x ≠ none := fun hc => by have := r2 hc; change a.d = none at this; rw [had] at this; cases this
      obtain ⟨y, hy⟩ := Option.ne_none_iff_exists'.mp hax
      have hyl := r4 y hy
      have hx6 : s'.xinit = y ++ d := by rw [r6]; change a.x.getD [] ++ a.d.getD [] = _; rw [hy, had]; rfl
      rw [r1, hev]
      simp only [not_true_eq_false, if_false]
      rw [if_pos (by rw [hx6]; simp; omega), hx6]
      have e : (y ++ d).drop s'.n = d := by
        rw [List.drop_append_of_le_length (by omega), List.drop_eq_nil_of_le (by omega)]; rfl
      have e' : (y ++ d).drop (3 * s'.n) = d.drop (2 * n) := by
        rw [show 3 * s'.n = s'.n + 2 * n by omega, ← List.drop_drop, e]
      rw [e, e', e1, List.take_of_length_le (l := d.drop (2 * n)) (by simp; omega)]

/-- Remembered start point as the claim has it: setting duals does not touch the primal point. -/
def claimX (x : Option (List ℚ)) : List TOp → Option (List ℚ)
  | [] => x
  | .reset :: ops => claimX none ops
  | .setx y :: ops => claimX (some y) ops
  | _ :: ops => claimX x ops

/-- In the history duals are only set while a primal start point is set. -/
def dualsAfterX (set : Bool) : List TOp → Bool
  | [] => true
  | .reset :: ops => dualsAfterX false ops
  | .setx _ :: ops => dualsAfterX true ops
  | .setDuals _ :: ops => set && dualsAfterX set ops
  | _ :: ops => dualsAfterX set ops

/-- **C20** (partial: dual values are only set together with a primal point).  The solver starts from the primal point last set since the last reset, else from
the user's.  Missing: histories setting dual values alone, for which it is false. -/
theorem start_partial (n m : Nat) (hn : 0 < n) (xl xu user : List ℚ) (ops : List TOp) (s' : T) (h : trun (T.fresh n m xl xu user) ops = some s')
    (hd : dualsAfterX false ops = true) : getStart s' true false false = some (true, (claimX none ops).getD user, [], []) := by
  rw [(start_exact n m hn xl xu user ops s' h).1]
  have key : ∀ (ops : List TOp) (a : Start), dualsAfterX a.x.isSome ops = true →
      (ops.foldl (Start.step (List.replicate n 0)) a).x = claimX a.x ops := by
    intro ops
    induction ops with
    | nil => intro a _; rfl
    | cons op ops ih =>
      intro a ha
      cases op with
      | reset => exact ih { a with x := none, d := none } (by simpa [dualsAfterX] using ha)
      | setx x => exact ih { a with x := some x } (by simpa [dualsAfterX] using ha)
      | setDuals d =>
        simp only [dualsAfterX, Bool.and_eq_true] at ha
        obtain ⟨y, hy⟩ := Option.isSome_iff_exists.mp ha.1
        have := ih ⟨some (a.x.getD (List.replicate n 0)), some d, true⟩ (by rw [hy] at ha; simpa using ha.2)
        simp only [List.foldl_cons, Start.step, claimX]
        rw [this, hy]; rfl
      | bounds l u => exact ih a ha
      | lowers l => exact ih a ha
      | uppers l => exact ih a ha
      | bound i l u => exact ih a ha
      | lower i l => exact ih a ha
      | upper i l => exact ih a ha
  rw [key ops ⟨none, none, false⟩ hd]

/-- **C20** refuted: after setting only dual values, the solver starts from the zero vector instead of the user's start point, for every problem. -/
theorem duals_alone_discard_start (n m : Nat) (hn : 0 < n) (xl xu user d : List ℚ) (hd : d.length = 2 * n + m) :
    ∃ s', trun (T.fresh n m xl xu user) [.setDuals d] = some s' ∧ getStart s' true false false = some (true, List.replicate n 0, [], []) := by
  obtain ⟨s', hs⟩ : ∃ s', trun (T.fresh n m xl xu user) [.setDuals d] = some s' := by
    simp [trun, tstep, T.fresh, hd]
  exact ⟨_, hs, by have := (start_exact n m hn xl xu user _ _ hs).1; simpa [Start.step] using this⟩

/-- **C20** refuted: dual values set, start point reset: the next query of a primal-dual start reads freed values. -/
theorem reset_leaves_dangling_duals (n m : Nat) (hn : 0 < n) (xl xu user d : List ℚ) (hd : d.length = 2 * n + m) :
    ∃ s', trun (T.fresh n m xl xu user) [.setDuals d, .reset] = some s' ∧ getStart s' true true true = none := by
  obtain ⟨s', hs⟩ : ∃ s', trun (T.fresh n m xl xu user) [.setDuals d, .reset] = some s' := by
    simp [trun, tstep, T.fresh, hd]
  exact ⟨_, hs, by have := (start_exact n m hn xl xu user _ _ hs).2; simpa [Start.step] using this⟩

/-- `resize` gives exactly the length asked for: the old entries, then zeros. -/
theorem resize_spec (v : List ℚ) (k : Nat) : (resize v k).length = k ∧ ∀ i, i < k → (resize v k)[i]? = some (v[i]?.getD 0) := by
  constructor
  · simp [resize]; omega
  · intro i hi
    unfold resize
    by_cases h : i < v.length
    · rw [List.getElem?_append_left (by simp; omega), List.getElem?_take_of_lt hi]
      simp [h]
    · rw [List.getElem?_append_right (by simp; omega), List.getElem?_replicate, if_pos (by simp; omega)]
      simp [not_lt.1 h]

/-- **C20** `has_x_init`: 0 exactly when no start point is stored (the user's is then used), 2 exactly when dual values come with it, 1 otherwise. -/
theorem hasXInit_exact (s : T) : (hasXInit s = 0 ↔ s.xinit = []) ∧ (hasXInit s = 1 ↔ s.xinit ≠ [] ∧ s.duals = false) ∧ (hasXInit s = 2 ↔ s.xinit ≠ [] ∧ s.duals = true) := by
  unfold hasXInit
  cases s.duals <;> by_cases h : s.xinit = [] <;> simp [h]

/-- **C20** `has_x_init` after the last call: a start point set gives at least 1, dual values 2, a reset 0. -/
theorem hasXInit_after (s s' : T) (hn : 0 < s.n) : (∀ x, tstep s (.setx x) = some s' → hasXInit s' = if s.duals then 2 else 1) ∧
    (∀ d, tstep s (.setDuals d) = some s' → hasXInit s' = 2) ∧ (tstep s .reset = some s' → hasXInit s' = 0) := by
  refine ⟨?_, ?_, ?_⟩
  · intro x h
    simp only [tstep] at h
    split at h
    · rename_i hx
      cases h
      have : x ≠ [] := by rintro rfl; simp at hx; omega
      simp [hasXInit, overwrite, this]
    · cases h
  · intro d h
    simp only [tstep] at h
    split at h
    · rename_i hd
      cases h
      have : d ≠ [] := by rintro rfl; simp at hd; omega
      simp [hasXInit, this]
    · cases h
  · intro h
    simp only [tstep, Option.some.injEq] at h
    subst h
    simp [hasXInit]

/-! ### C48: rounding check -/

theorem roundSol_spec : ∀ (bs : List Bool) (xs : List ℚ), (roundSol bs xs).length = xs.length ∧
    (∀ (i : Nat) (v : ℚ), bs[i]? = some true → xs[i]? = some v → (roundSol bs xs)[i]? = some (⌊v + 1 / 2⌋ : ℚ)) ∧
    (∀ i : Nat, bs[i]? ≠ some true → (roundSol bs xs)[i]? = xs[i]?) := by
  intro bs
  induction bs with
  | nil => intro xs; simp [roundSol]
  | cons b bs ih =>
    intro xs
    cases xs with
    | nil => simp [roundSol]
    | cons x xs =>
      obtain ⟨h1, h2, h3⟩ := ih xs
      refine ⟨by simp [roundSol, h1], ?_, ?_⟩
      · intro i v hb hv
        cases i with
        | zero => simp at hb hv; subst hb hv; simp [roundSol]
        | succ i => simpa [roundSol] using h2 i v (by simpa using hb) (by simpa using hv)
      · intro i hb
        cases i with
        | zero => simp at hb; simp [roundSol, hb]
        | succ i => simpa [roundSol] using h3 i (by simpa using hb)

theorem checkErr_zero : ∀ (gs ls us : List ℚ) (e : ℚ), 0 ≤ e → (checkErr e gs ls us = 0 ↔ e = 0 ∧
    ∀ (i : Nat) (g l u : ℚ), gs[i]? = some g → ls[i]? = some l → us[i]? = some u → l ≤ g ∧ g ≤ u) ∧ 0 ≤ checkErr e gs ls us := by
  intro gs
  induction gs with
  | nil => intro ls us e he; simp [checkErr, he]
  | cons g gs ih =>
    intro ls us e he
    cases ls with
    | nil => simp [checkErr, he]
    | cons l ls =>
      cases us with
      | nil => simp [checkErr, he]
      | cons u us =>
        have h0 : 0 ≤ max (max e (max 0 (l - g))) (max 0 (-u + g)) := le_max_of_le_right (le_max_left _ _)
        obtain ⟨q1, q2⟩ := ih ls us _ h0
        refine ⟨?_, q2⟩
        simp only [checkErr]
        rw [q1]
        constructor
        · rintro ⟨h, hall⟩
          have a1 : e ≤ 0 := by rw [← h]; exact le_max_of_le_left (le_max_left _ _)
          have a2 : l - g ≤ 0 := by rw [← h]; exact le_max_of_le_left (le_max_of_le_right (le_max_right _ _))
          have a3 : -u + g ≤ 0 := by rw [← h]; exact le_max_of_le_right (le_max_right _ _)
          refine ⟨le_antisymm a1 he, ?_⟩
          intro i a b c ha hb hc
          cases i with
          | zero => simp at ha hb hc; subst ha hb hc; constructor <;> linarith
          | succ i => exact hall i a b c (by simpa using ha) (by simpa using hb) (by simpa using hc)
        · rintro ⟨rfl, hall⟩
          have := hall 0 g l u rfl rfl rfl
          refine ⟨?_, fun i a b c ha hb hc => hall (i + 1) a b c (by simpa using ha) (by simpa using hb) (by simpa using hc)⟩
          apply le_antisymm _ h0
          exact max_le (max_le (le_refl _) (max_le (le_refl _) (by linarith [this.1]))) (max_le (le_refl _) (by linarith [this.2]))

/-- **C48** (what is computed): `check_solution` returns 0 iff the rounded point satisfies every row exactly; the error is never negative. -/
theorem checkSolution_exact (p : Nlp) (x : List ℚ) :
    0 ≤ (checkSolution p x).1 ∧ (checkSolution p x).2.1 = roundSol p.isInt x ∧ (checkSolution p x).2.2 = p.evalF (roundSol p.isInt x) ∧
    ((checkSolution p x).1 = 0 ↔ ∀ (i : Nat) (g l u : ℚ), (p.evalG (roundSol p.isInt x))[i]? = some g → p.gl[i]? = some l → p.gu[i]? = some u → l ≤ g ∧ g ≤ u) := by
  obtain ⟨h1, h2⟩ := checkErr_zero (p.evalG (roundSol p.isInt x)) p.gl p.gu 0 (le_refl _)
  refine ⟨h2, rfl, rfl, ?_⟩
  simp only [checkSolution]
  rw [h1]; simp

/-- **C48** refuted: `round_and_check` declares the solution infeasible exactly when the rounded point is feasible. -/
theorem roundAndCheck_inverted (p : Nlp) (x : List ℚ) : roundAndCheck p x = true ↔
    ∀ (i : Nat) (g l u : ℚ), (p.evalG (roundSol p.isInt x))[i]? = some g → p.gl[i]? = some l → p.gu[i]? = some u → l ≤ g ∧ g ≤ u := by
  unfold roundAndCheck
  rw [decide_eq_true_eq]
  exact (checkSolution_exact p x).2.2.2

/-! ### C49: forcing a solution to be branched on -/

theorem forceFractional_spec : ∀ (bs : List Bool) (ls us xs : List ℚ), (forceFractional bs ls us xs).length = xs.length ∧
    ∀ (i : Nat) (l u x : ℚ), ls[i]? = some l → us[i]? = some u → xs[i]? = some x →
      (bs[i]? = some true → l < u + 1 / 2 → (forceFractional bs ls us xs)[i]? = some ((⌈l⌉ : ℚ) + 1 / 2)) ∧
      ((bs[i]? = some false ∨ bs[i]? = some true ∧ u + 1 / 2 ≤ l) → (forceFractional bs ls us xs)[i]? = some x) := by
  intro bs
  induction bs with
  | nil => intro ls us xs; simp [forceFractional]
  | cons b bs ih =>
    intro ls us xs
    cases ls with
    | nil => simp [forceFractional]
    | cons l ls =>
      cases us with
      | nil => simp [forceFractional]
      | cons u us =>
        cases xs with
        | nil => simp [forceFractional]
        | cons x xs =>
          obtain ⟨h1, h2⟩ := ih ls us xs
          refine ⟨by simp [forceFractional, h1], ?_⟩
          intro i a c y ha hc hy
          cases i with
          | zero =>
            simp at ha hc hy; subst ha hc hy
            constructor
            · intro hb hlt; simp at hb; subst hb
              simp only [forceFractional, true_and]
              rw [if_pos hlt]; rfl
            · rintro (hb | ⟨hb, hle⟩) <;> simp at hb <;> subst hb <;> simp only [forceFractional]
              · simp
              · rw [if_neg (by simp only [true_and]; exact not_lt.mpr hle)]; rfl
          | succ i => simpa [forceFractional] using h2 i a c y (by simpa using ha) (by simpa using hc) (by simpa using hy)

/-- **C49** (partial: integer variables that can still move by a full unit).  Such a variable gets a value strictly inside its bounds and halfway between
integers, hence is branchable.  Missing: fixed variables. -/
theorem forceFractional_partial (bs : List Bool) (ls us xs : List ℚ) (i : Nat) (l u x : ℚ) (hl : ls[i]? = some l) (hu : us[i]? = some u)
    (hx : xs[i]? = some x) (hb : bs[i]? = some true) (hli : ∃ z : ℤ, l = z) (hr : l + 1 ≤ u) :
    ∃ v, (forceFractional bs ls us xs)[i]? = some v ∧ l < v ∧ v < u ∧ ¬ ∃ z : ℤ, v = z := by
  obtain ⟨z, rfl⟩ := hli
  refine ⟨_, ((forceFractional_spec bs ls us xs).2 i _ u x hl hu hx).1 hb (by linarith), ?_, ?_, ?_⟩
  · rw [Int.ceil_intCast]; linarith
  · rw [Int.ceil_intCast]; linarith
  · rw [Int.ceil_intCast]
    rintro ⟨w, hw⟩
    have : ((2 * (w - z) : ℤ) : ℚ) = ((1 : ℤ) : ℚ) := by push_cast; linarith
    have := Int.cast_injective this
    omega

/-- **C49** refuted: every fixed integer variable is moved outside its bounds. -/
theorem forceFractional_fixed (bs : List Bool) (ls us xs : List ℚ) (i : Nat) (l x : ℚ) (hl : ls[i]? = some l) (hu : us[i]? = some l)
    (hx : xs[i]? = some x) (hb : bs[i]? = some true) : ∃ v, (forceFractional bs ls us xs)[i]? = some v ∧ l < v := by
  refine ⟨_, ((forceFractional_spec bs ls us xs).2 i l l x hl hu hx).1 hb (by linarith), ?_⟩
  have := Int.le_ceil l
  linarith

/-! ### non-trivial instances -/

example : ∃ z, zeroDimension (oneVar 1 1 0 2) = some z ∧ z.optimal = true := ⟨⟨true, [1], [1], 1⟩, by norm_num [zeroDimension, oneVar, rowOk], rfl⟩

example : ∃ s', trun (T.fresh 2 1 [0, 0] [9, 9] [5, 5]) [.lower 1 3, .setx [1, 2], .uppers [7, 8], .setDuals [1, 1, 2, 2, 3], .lower 1 4] = some s' ∧
    s'.xl = [0, 4] ∧ s'.xu = [7, 8] ∧ getStart s' true true true = some (true, [1, 2], [1, 1, 2, 2], [3]) := by
  refine ⟨⟨2, 1, [0, 4], [7, 8], [5, 5], [1, 2, 1, 1, 2, 2, 3], true⟩, ?_, rfl, rfl, ?_⟩ <;> decide +kernel

example : forceFractional [true, false, true] [0, 0, 2] [1, 1, 2] [1, 1, 2] = [1/2, 1, 5/2] := by
  norm_num [forceFractional]

/-- **C20** (start point), any choice of what is asked for: each part is given exactly if it is asked for, and as it is given when all are; multipliers are refused, or the behaviour is undefined, exactly when this is so
for all parts together. -/
theorem start_flags (s : T) (ix iz il : Bool) :
    (iz = true ∨ il = true → getStart s ix iz il = (getStart s true true true).map fun r => (r.1, if ix then r.2.1 else [], if iz then r.2.2.1 else [], if il then r.2.2.2 else [])) ∧
    (iz = false → il = false → getStart s ix iz il = (getStart s true false false).map fun r => (r.1, if ix then r.2.1 else [], [], [])) := by
  constructor
  · intro h
    have h' : (iz = true ∨ il = true) := h
    unfold getStart
    simp only [h', if_true, true_or]
    split_ifs <;> simp_all
  · rintro rfl rfl
    unfold getStart
    simp

end Verif.Itf

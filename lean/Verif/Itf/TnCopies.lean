import Verif.Itf.Tnlp
/-! # Model of copying and assigning `TMINLP2TNLP` and of the arrays cuts change

src/Interfaces/BonTMINLP2TNLP.cpp: constructor 31-112, copy constructor 114-142, `operator=` 145-165, `gutsOfCopy` 181-236, setters 238-325,
`get_starting_point` 360-397, `finalize_solution` 474-509; src/Algorithms/QuadCuts/BonTMINLP2Quad.cpp: copy constructor 53-93, `eval_f` 164-178, `addCuts`
347-445 (arrays only), `removeCuts` 448-483 (arrays only), `set_linear_objective` 497-502.

Simplifications: the Hessian map and the quadratic rows themselves are modelled in `Verif.Quad`; here a row is any value.  The starting point that comes with a
problem has `n` entries.  The warm starter is a number.  `none` = undefined behaviour or, with `dbg` (assertions compiled in), a failed assertion. -/
namespace Verif.Itf.Tn

/-- The scalar members (cpp:129-139). -/
structure Scal where
  tminlp : ℕ
  nnzJac : ℕ
  nnzH : ℕ
  fortran : Bool
  ret : ℤ
  obj : ℚ
  warm : Option ℕ
  loInf : ℚ
  hiInf : ℚ
  entire : Bool
  need : Bool
  deriving DecidableEq

/-- `TMINLP2TNLP`; `duals` = `duals_init_` is not NULL. -/
structure P where
  s : Scal
  types : List ℕ
  xl : List ℚ
  xu : List ℚ
  oxl : List ℚ
  oxu : List ℚ
  gl : List ℚ
  gu : List ℚ
  xinit : List ℚ
  duals : Bool
  user : List ℚ
  xsol : List ℚ
  gsol : List ℚ
  dsol : List ℚ
  deriving DecidableEq

/-- `IpBlasDcopy(n, src, 1, dst, 1)`. -/
def dcopy (n : ℕ) (src dst : List ℚ) : Option (List ℚ) := if n ≤ src.length ∧ n ≤ dst.length then some (src.take n ++ dst.drop n) else none

/-- `Set_x_sol` (cpp:306-314). -/
def setXSol (dbg : Bool) (n : ℕ) (xs old : List ℚ) : Option (List ℚ) :=
  let v := if old = [] then resize old n else old
  if dbg ∧ n ≠ v.length then none else dcopy n xs v

/-- The arrays over the variables (cpp:187-204). -/
def copyVars (dbg : Bool) (t o : P) : Option P :=
  let n := o.xl.length
  if n = 0 then some t else
    (dcopy n o.xl (resize t.xl n)).bind fun xl => (dcopy n o.xu (resize t.xu n)).bind fun xu =>
    (dcopy n o.oxl (resize t.oxl n)).bind fun oxl => (dcopy n o.oxu (resize t.oxu n)).bind fun oxu =>
    (dcopy n o.user (resize t.user n)).bind fun user =>
    (if o.xsol = [] then some t.xsol else setXSol dbg n o.xsol t.xsol).bind fun xsol =>
    some { t with types := o.types, xl := xl, xu := xu, oxl := oxl, oxu := oxu, user := user, xsol := xsol }

/-- The arrays over the constraints (cpp:206-219). -/
def copyRows (t o : P) : Option P :=
  let m := o.gl.length
  if m = 0 then some t else
    (dcopy m o.gl (resize t.gl m)).bind fun gl => (dcopy m o.gu (resize t.gu m)).bind fun gu =>
    (if o.gsol = [] then some t.gsol else dcopy m o.gsol (resize t.gsol m)).bind fun gsol =>
    some { t with gl := gl, gu := gu, gsol := gsol }

/-- Starting point and multipliers (cpp:222-234).  `x_init_() + n` is defined up to the end of the array. -/
def copyDuals (t o : P) : Option P :=
  let n := o.xl.length
  let k := o.gl.length + 2 * n
  if o.duals ∧ ¬ (o.xinit ≠ [] ∧ n ≤ o.xinit.length) then none else
    (if o.dsol = [] then some t.dsol else dcopy k o.dsol (resize t.dsol k)).bind fun dsol =>
    some { t with xinit := o.xinit, duals := o.duals, dsol := dsol }

/-- `gutsOfCopy` (cpp:181-236); `num_variables` and `num_constraints` assert equal sizes (hpp:61-72). -/
def gutsOfCopy (dbg : Bool) (t o : P) : Option P :=
  if dbg ∧ ¬ (o.xl.length = o.xu.length ∧ o.gl.length = o.gu.length) then none else
    (copyVars dbg t o).bind fun t => (copyRows t o).bind fun t => copyDuals t o

/-- Copy constructor (cpp:114-142). -/
def copy (dbg : Bool) (o : P) : Option P := gutsOfCopy dbg ⟨o.s, [], [], [], [], [], [], [], [], false, [], [], [], []⟩ o

/-- `operator=` between different objects (cpp:145-165). -/
def assign (dbg : Bool) (t o : P) : Option P := gutsOfCopy dbg { t with s := o.s } o

/-- Constructor (cpp:31-112): what the problem gives. -/
def init (s : Scal) (types : List ℕ) (l u gl gu x0 : List ℚ) : P := ⟨s, types, l, u, l, u, gl, gu, [], false, x0, [], [], []⟩

/-- Calls that change the arrays: bounds, starting point, end of a solve, added and removed rows. -/
inductive Op
  | bound (i : ℕ) (l u : ℚ) | reset | setx (x : List ℚ) | setDuals (d : List ℚ)
  | finish (ret : ℤ) (obj : ℚ) (x g zl zu lam : List ℚ)
  | addCuts (bs : List (ℚ × ℚ)) | removeCuts (idx : List ℕ)

/-- `duals_sol_` and `x_init_` after rows were added (BonTMINLP2Quad.cpp:368-370, 396-398, 442-444). -/
def fitDuals (t : P) : P :=
  { t with dsol := resize t.dsol (t.gl.length + 2 * t.xl.length), xinit := resize t.xinit (t.gl.length + 3 * t.xl.length), duals := true }

/-- Keep the entries whose index is not listed. -/
def dropIdx (idx : List ℕ) : ℕ → List ℚ → List ℚ
  | _, [] => []
  | k, a :: l => if k ∈ idx then dropIdx idx (k + 1) l else a :: dropIdx idx (k + 1) l

/-- One call; `none` = wrong sizes (BonTMINLP2TNLP.cpp:261-303, 474-509; BonTMINLP2Quad.cpp:347-398, 448-483). -/
def step (t : P) : Op → Option P
  | .bound i l u => if i < t.xl.length then some { t with xl := t.xl.set i l, xu := t.xu.set i u } else none
  | .reset => some { t with s := { t.s with warm := none }, xinit := [] }
  | .setx x => if x.length = t.xl.length then
      some { t with xinit := overwrite (if t.xinit.length < t.xl.length then resize t.xinit t.xl.length else t.xinit) x } else none
  | .setDuals d => if d.length = 2 * t.xl.length + t.gl.length then
      some { t with xinit := (resize t.xinit (3 * t.xl.length + t.gl.length)).take t.xl.length ++ d, duals := true } else none
  | .finish ret obj x g zl zu lam =>
      if x.length = t.xl.length ∧ g.length = t.gl.length ∧ zl.length = t.xl.length ∧ zu.length = t.xl.length ∧ lam.length = t.gl.length then
        some { t with s := { t.s with ret := ret, obj := obj }, xsol := x, gsol := if t.gl.length = 0 then t.gsol else g, dsol := zl ++ zu ++ lam }
      else none
  | .addCuts bs => some (fitDuals { t with gl := t.gl ++ bs.map Prod.fst, gu := t.gu ++ bs.map Prod.snd })
  | .removeCuts idx => some { t with gl := dropIdx idx 0 t.gl, gu := dropIdx idx 0 t.gu }

def run (t : P) : List Op → Option P
  | [] => some t
  | o :: os => (step t o).bind fun t => run t os

/-! ## Specification -/

/-- Neither adding nor removing rows. -/
def Op.plain : Op → Prop
  | .addCuts _ => False
  | .removeCuts _ => False
  | _ => True

/-- A problem as constructed: sizes fit. -/
structure Fresh (n m : ℕ) (t : P) : Prop where
  types : t.types.length = n
  xl : t.xl.length = n
  xu : t.xu.length = n
  oxl : t.oxl.length = n
  oxu : t.oxu.length = n
  user : t.user.length = n
  gl : t.gl.length = m
  gu : t.gu.length = m

/-- Sizes that hold after every history. -/
structure Ok (n : ℕ) (t : P) : Prop where
  fresh : Fresh n t.gl.length t
  xsol : t.xsol = [] ∨ t.xsol.length = n
  dsol : t.dsol = [] ∨ t.gl.length + 2 * n ≤ t.dsol.length

/-- What a user of the problem sees: the bounds, the starting point that a solve will get, the solution, the activities and multipliers of the present rows. -/
structure View where
  l : List ℚ
  u : List ℚ
  gl : List ℚ
  gu : List ℚ
  start : List ℚ
  startDuals : Option (List ℚ)
  sol : List ℚ
  act : List ℚ
  mult : List ℚ
  obj : ℚ
  ret : ℤ
  deriving DecidableEq

def view (t : P) : View :=
  ⟨t.xl, t.xu, t.gl, t.gu, if t.xinit = [] then t.user else t.xinit.take t.xl.length,
   if t.duals then some (t.xinit.drop t.xl.length) else none, t.xsol, t.gsol.take t.gl.length, t.dsol.take (t.gl.length + 2 * t.xl.length), t.s.obj, t.s.ret⟩

/-! ## Lemmas -/

theorem resize_length (v : List ℚ) (k : ℕ) : (resize v k).length = k := by simp [resize]; omega

theorem dcopy_full (n : ℕ) (a b : List ℚ) (ha : a.length = n) (hb : b.length = n) : dcopy n a b = some a := by
  simp [dcopy, ha, hb, List.take_of_length_le (le_of_eq ha), List.drop_of_length_le (le_of_eq hb)]

theorem dcopy_fit (n : ℕ) (a b : List ℚ) (hb : b.length = n) : dcopy n a b = if n ≤ a.length then some (a.take n) else none := by
  simp [dcopy, hb, List.drop_of_length_le (le_of_eq hb)]

theorem setXSol_full (dbg : Bool) (n : ℕ) (xs old : List ℚ) (hx : xs.length = n) (ho : old = [] ∨ old.length = n) : setXSol dbg n xs old = some xs := by
  unfold setXSol
  have hv : (if old = [] then resize old n else old).length = n := by
    split
    · exact resize_length _ _
    · exact ho.resolve_left ‹_›
  simp only [hv, ne_eq, not_true_eq_false, and_false, if_false]
  exact dcopy_full _ _ _ hx hv

theorem dropIdx_length_le (idx : List ℕ) (l : List ℚ) : ∀ k, (dropIdx idx k l).length ≤ l.length := by
  induction l with
  | nil => intro k; simp [dropIdx]
  | cons a l ih => intro k; simp only [dropIdx]; split <;> simp <;> have := ih (k + 1) <;> omega

theorem dropIdx_length_eq (idx : List ℕ) (l l' : List ℚ) (h : l.length = l'.length) : ∀ k, (dropIdx idx k l).length = (dropIdx idx k l').length := by
  induction l generalizing l' with
  | nil => intro k; have : l' = [] := by simpa using h.symm
           simp [this, dropIdx]
  | cons a l ih =>
    intro k
    cases l' with
    | nil => simp at h
    | cons b l' => simp only [dropIdx]; split <;> simp [ih l' (by simpa using h) (k + 1)]

theorem ok_step (n : ℕ) (t t' : P) (o : Op) (h : Ok n t) (hs : step t o = some t') : Ok n t' := by
  obtain ⟨⟨ht, hl, hu, hol, hou, hus, hgl, hgu⟩, hx, hd⟩ := h
  cases o with
  | bound i l u =>
    simp only [step] at hs; split at hs <;> simp at hs; subst hs
    exact ⟨⟨ht, by simpa using hl, by simpa using hu, hol, hou, hus, rfl, hgu⟩, hx, hd⟩
  | reset => simp only [step, Option.some.injEq] at hs; subst hs; exact ⟨⟨ht, hl, hu, hol, hou, hus, rfl, hgu⟩, hx, hd⟩
  | setx x => simp only [step] at hs; split at hs <;> simp at hs; subst hs; exact ⟨⟨ht, hl, hu, hol, hou, hus, rfl, hgu⟩, hx, hd⟩
  | setDuals d => simp only [step] at hs; split at hs <;> simp at hs; subst hs; exact ⟨⟨ht, hl, hu, hol, hou, hus, rfl, hgu⟩, hx, hd⟩
  | finish ret obj x g zl zu lam =>
    simp only [step] at hs
    split at hs
    · rename_i hc
      simp only [Option.some.injEq] at hs; subst hs
      refine ⟨⟨ht, hl, hu, hol, hou, hus, rfl, hgu⟩, Or.inr (hc.1.trans hl), Or.inr ?_⟩
      simp only [List.length_append, hc.2.2.1, hc.2.2.2.1, hc.2.2.2.2, hl]; omega
    · simp at hs
  | addCuts bs =>
    simp only [step, Option.some.injEq] at hs; subst hs
    refine ⟨⟨ht, hl, hu, hol, hou, hus, rfl, by simp [fitDuals, hgu]⟩, hx, Or.inr ?_⟩
    simp [fitDuals, resize_length, hl]
  | removeCuts idx =>
    simp only [step, Option.some.injEq] at hs; subst hs
    refine ⟨⟨ht, hl, hu, hol, hou, hus, rfl, ?_⟩, hx, hd.imp id fun hd => ?_⟩
    · exact dropIdx_length_eq _ _ _ hgu _
    · have := dropIdx_length_le idx t.gl 0
      simp only; omega

theorem ok_run (n : ℕ) (os : List Op) : ∀ t t', Ok n t → run t os = some t' → Ok n t' := by
  induction os with
  | nil => intro t t' h hr; simp only [run, Option.some.injEq] at hr; exact hr ▸ h
  | cons o os ih =>
    intro t t' h hr
    simp only [run] at hr
    cases hs : step t o with
    | none => simp [hs] at hr
    | some t1 => rw [hs] at hr; exact ih t1 t' (ok_step n t t1 o h hs) hr

theorem init_ok (s : Scal) (types : List ℕ) (l u gl gu x0 : List ℚ) (h : Fresh l.length gl.length (init s types l u gl gu x0)) : Ok l.length (init s types l u gl gu x0) :=
  ⟨h, Or.inl rfl, Or.inl rfl⟩

/-! ## Copies -/

theorem copyVars_ok (dbg : Bool) (n : ℕ) (t o : P) (h : Ok n o) (hn : 0 < n) (ht : t.xsol = [] ∨ t.xsol.length = n ∨ o.xsol = []) :
    copyVars dbg t o = some { t with types := o.types, xl := o.xl, xu := o.xu, oxl := o.oxl, oxu := o.oxu, user := o.user, xsol := if o.xsol = [] then t.xsol else o.xsol } := by
  obtain ⟨⟨hty, hl, hu, hol, hou, hus, hgl, hgu⟩, hx, hd⟩ := h
  unfold copyVars
  simp only [hl, Nat.pos_iff_ne_zero.mp hn, if_false]
  rw [dcopy_full n _ _ hl (resize_length _ _), dcopy_full n _ _ hu (resize_length _ _), dcopy_full n _ _ hol (resize_length _ _),
    dcopy_full n _ _ hou (resize_length _ _), dcopy_full n _ _ hus (resize_length _ _)]
  simp only [Option.bind_some]
  by_cases hxs : o.xsol = []
  · simp [hxs]
  · rw [if_neg hxs, if_neg hxs, setXSol_full dbg n _ _ (hx.resolve_left hxs) (by tauto)]; simp

theorem copyRows_ok (n : ℕ) (t o : P) (h : Ok n o) (hm : o.gl.length ≠ 0) :
    copyRows t o = if o.gsol = [] then some { t with gl := o.gl, gu := o.gu } else
      if o.gl.length ≤ o.gsol.length then some { t with gl := o.gl, gu := o.gu, gsol := o.gsol.take o.gl.length } else none := by
  obtain ⟨⟨hty, hl, hu, hol, hou, hus, hgl, hgu⟩, hx, hd⟩ := h
  unfold copyRows
  simp only [hm, if_false]
  rw [dcopy_full _ _ _ rfl (resize_length _ _), dcopy_full _ _ _ hgu (resize_length _ _)]
  simp only [Option.bind_some]
  by_cases hg : o.gsol = []
  · simp [hg]
  · rw [if_neg hg, if_neg hg, dcopy_fit _ _ _ (resize_length _ _)]
    split <;> simp

theorem copyDuals_ok (n : ℕ) (t o : P) (h : Ok n o) (hd : o.duals = true → o.xinit ≠ [] ∧ n ≤ o.xinit.length) :
    copyDuals t o = some { t with xinit := o.xinit, duals := o.duals, dsol := if o.dsol = [] then t.dsol else o.dsol.take (o.gl.length + 2 * n) } := by
  obtain ⟨⟨hty, hl, hu, hol, hou, hus, hgl, hgu⟩, hx, hds⟩ := h
  unfold copyDuals
  simp only [hl]
  rw [if_neg (by tauto)]
  by_cases h0 : o.dsol = []
  · simp [h0]
  · rw [if_neg h0, if_neg h0, dcopy_fit _ _ _ (resize_length _ _), if_pos (hds.resolve_left h0)]; simp

/-- C88: after every history a copy, where it is defined, shows the same problem, starting point and solution as the original. -/
theorem copy_view (dbg : Bool) (n : ℕ) (t c : P) (h : Ok n t) (hn : 0 < n) (hc : copy dbg t = some c) :
    view c = view t ∧ c.s = t.s ∧ c.types = t.types ∧ c.oxl = t.oxl ∧ c.oxu = t.oxu ∧ c.user = t.user ∧ Ok n c := by
  have h' := h
  obtain ⟨⟨hty, hl, hu, hol, hou, hus, hgl, hgu⟩, hx, hd⟩ := h
  unfold copy gutsOfCopy at hc
  rw [if_neg (by simp [hl, hu, hgu])] at hc
  rw [copyVars_ok dbg n _ t h' hn (Or.inl rfl)] at hc
  simp only [Option.bind_some] at hc
  by_cases hdu : t.duals = true ∧ ¬ (t.xinit ≠ [] ∧ n ≤ t.xinit.length)
  · exfalso
    have : ∀ q : P, copyDuals q t = none := fun q => by unfold copyDuals; simp only [hl]; rw [if_pos (by simpa using hdu)]
    cases hr : copyRows ⟨t.s, t.types, t.xl, t.xu, t.oxl, t.oxu, [], [], [], false, t.user, if t.xsol = [] then [] else t.xsol, [], []⟩ t with
    | none => rw [hr] at hc; simp at hc
    | some q => rw [hr] at hc; simp [this q] at hc
  · have hdu' : t.duals = true → t.xinit ≠ [] ∧ n ≤ t.xinit.length := by tauto
    have hxs : (if t.xsol = [] then [] else t.xsol) = t.xsol := by split <;> simp [*]
    have hds : (if t.dsol = [] then [] else t.dsol.take (t.gl.length + 2 * n)) = t.dsol.take (t.gl.length + 2 * n) := by split <;> simp [*]
    have hdok : t.dsol.take (t.gl.length + 2 * n) = [] ∨ t.gl.length + 2 * n ≤ (t.dsol.take (t.gl.length + 2 * n)).length := by
      rcases hd with hd | hd
      · left; simp [hd]
      · right; simp; omega
    by_cases hm : t.gl.length = 0
    · have hr : ∀ q : P, copyRows q t = some q := fun q => by simp [copyRows, hm]
      rw [hr] at hc
      simp only [Option.bind_some] at hc
      rw [copyDuals_ok n _ t h' hdu'] at hc
      simp only [Option.some.injEq] at hc
      have hgl0 : t.gl = [] := List.length_eq_zero_iff.mp hm
      have hgu0 : t.gu = [] := List.length_eq_zero_iff.mp (hgu.trans hm)
      subst hc
      rw [hgl0, List.length_nil] at hds hdok
      refine ⟨?_, rfl, rfl, rfl, rfl, rfl, ⟨hty, hl, hu, hol, hou, hus, rfl, rfl⟩, by rw [hxs]; exact hx, ?_⟩
      · simp only [view, hxs, hds, hgl0, hgu0, hl, List.length_nil, List.take_zero, List.take_take, Nat.min_self]
      · simp only [hds, hgl0, List.length_nil]; exact hdok
    · rw [copyRows_ok n _ t h' hm] at hc
      by_cases hg : t.gsol = []
      · rw [if_pos hg] at hc
        simp only [Option.bind_some] at hc
        rw [copyDuals_ok n _ t h' hdu'] at hc
        simp only [Option.some.injEq] at hc; subst hc
        refine ⟨?_, rfl, rfl, rfl, rfl, rfl, ⟨hty, hl, hu, hol, hou, hus, rfl, hgu⟩, by rw [hxs]; exact hx, ?_⟩
        · simp only [view, hxs, hds, hg, hl, List.take_nil, List.take_take, Nat.min_self]
        · simp only [hds]; exact hdok
      · rw [if_neg hg] at hc
        by_cases hlen : t.gl.length ≤ t.gsol.length
        · rw [if_pos hlen] at hc
          simp only [Option.bind_some] at hc
          rw [copyDuals_ok n _ t h' hdu'] at hc
          simp only [Option.some.injEq] at hc; subst hc
          refine ⟨?_, rfl, rfl, rfl, rfl, rfl, ⟨hty, hl, hu, hol, hou, hus, rfl, hgu⟩, by rw [hxs]; exact hx, ?_⟩
          · simp only [view, hxs, hds, hl, List.take_take, Nat.min_self]
          · simp only [hds]; exact hdok
        · rw [if_neg hlen] at hc; simp at hc

/-- C88: exactly when a copy is defined. -/
theorem copy_defined (dbg : Bool) (n : ℕ) (t : P) (h : Ok n t) (hn : 0 < n) :
    (∃ c, copy dbg t = some c) ↔ (t.gsol = [] ∨ t.gl.length ≤ t.gsol.length) ∧ (t.duals = true → n ≤ t.xinit.length) := by
  have h' := h
  obtain ⟨⟨hty, hl, hu, hol, hou, hus, hgl, hgu⟩, hx, hd⟩ := h
  unfold copy gutsOfCopy
  rw [if_neg (by simp [hl, hu, hgu])]
  rw [copyVars_ok dbg n _ t h' hn (Or.inl rfl)]
  simp only [Option.bind_some]
  have key : ∀ q : P, (∃ c, copyDuals q t = some c) ↔ (t.duals = true → n ≤ t.xinit.length) := by
    intro q
    constructor
    · rintro ⟨c, hc⟩ hdu
      unfold copyDuals at hc
      simp only [hl] at hc
      by_contra hlt
      rw [if_pos ⟨hdu, by tauto⟩] at hc; simp at hc
    · intro hdu
      exact ⟨_, copyDuals_ok n q t h' fun hh => ⟨fun he => by have := hdu hh; simp [he] at this; omega, hdu hh⟩⟩
  by_cases hm : t.gl.length = 0
  · have hr : ∀ q : P, copyRows q t = some q := fun q => by simp [copyRows, hm]
    rw [hr]
    simp only [Option.bind_some]
    rw [key, hm]; simp
  · rw [copyRows_ok n _ t h' hm]
    by_cases hg : t.gsol = []
    · rw [if_pos hg]; simp only [Option.bind_some]; rw [key]; simp [hg]
    · rw [if_neg hg]
      by_cases hlen : t.gl.length ≤ t.gsol.length
      · rw [if_pos hlen]; simp only [Option.bind_some]; rw [key]; simp [hlen]
      · rw [if_neg hlen]; simp [hg, hlen]

/-- The part of the state that keeps copies defined without cuts. -/
structure Plain (n m : ℕ) (t : P) : Prop where
  ok : Ok n t
  rows : t.gl.length = m
  gsol : t.gsol = [] ∨ t.gsol.length = m
  dsol : t.dsol = [] ∨ t.dsol.length = m + 2 * n
  start : t.duals = true → n ≤ t.xinit.length

theorem plain_step (n m : ℕ) (t t' : P) (o : Op) (h : Plain n m t) (hp : o.plain) (hr : o = .reset → t.duals = false) (hs : step t o = some t') : Plain n m t' := by
  have hok := ok_step n t t' o h.ok hs
  obtain ⟨hk, hm, hg, hd, hst⟩ := h
  have hl := hk.fresh.xl
  cases o with
  | bound i l u => simp only [step] at hs; split at hs <;> simp at hs; subst hs; exact ⟨hok, hm, hg, hd, hst⟩
  | reset => simp only [step, Option.some.injEq] at hs; subst hs; exact ⟨hok, hm, hg, hd, fun h => by simp [hr rfl] at h⟩
  | setx x =>
    simp only [step] at hs; split at hs <;> simp at hs; subst hs
    rename_i hx
    refine ⟨hok, hm, hg, hd, fun _ => ?_⟩
    simp [overwrite, hx, hl]
  | setDuals d =>
    simp only [step] at hs; split at hs <;> simp at hs; subst hs
    rename_i hx
    refine ⟨hok, hm, hg, hd, fun _ => ?_⟩
    simp only [List.length_append, List.length_take, hx, hl, resize_length]; omega
  | finish ret obj x g zl zu lam =>
    simp only [step] at hs
    split at hs
    · rename_i hc
      simp only [Option.some.injEq] at hs; subst hs
      refine ⟨hok, hm, ?_, Or.inr ?_, hst⟩
      · simp only; split
        · exact hg
        · right; omega
      · simp only [List.length_append, hc.2.2.1, hc.2.2.2.1, hc.2.2.2.2, hl, hm]; omega
    · simp at hs
  | addCuts bs => exact hp.elim
  | removeCuts idx => exact hp.elim

/-- C88: without cuts, and if the starting point is not reset after multipliers were given, a copy is defined after every history and is the original. -/
theorem copy_plain (dbg : Bool) (n m : ℕ) (t : P) (h : Plain n m t) (hn : 0 < n) (hm0 : m = 0 → t.gsol = []) : copy dbg t = some t := by
  obtain ⟨hk, hm, hg, hd, hst⟩ := h
  have hk' := hk
  obtain ⟨⟨hty, hl, hu, hol, hou, hus, hgl, hgu⟩, hx, hdd⟩ := hk
  have hst' : t.duals = true → t.xinit ≠ [] ∧ n ≤ t.xinit.length := fun hh => ⟨fun he => by have := hst hh; simp [he] at this; omega, hst hh⟩
  unfold copy gutsOfCopy
  rw [if_neg (by simp [hl, hu, hgu]), copyVars_ok dbg n _ t hk' hn (Or.inl rfl)]
  simp only [Option.bind_some]
  have hxs : (if t.xsol = [] then [] else t.xsol) = t.xsol := by split <;> simp [*]
  have hds : (if t.dsol = [] then [] else t.dsol.take (t.gl.length + 2 * n)) = t.dsol := by
    split
    · simp [*]
    · exact List.take_of_length_le (by rw [hd.resolve_left ‹_›, hm])
  by_cases hmz : t.gl.length = 0
  · have hr : ∀ q : P, copyRows q t = some q := fun q => by simp [copyRows, hmz]
    rw [hr]; simp only [Option.bind_some]
    rw [copyDuals_ok n _ t hk' hst']
    have hgl0 : t.gl = [] := List.length_eq_zero_iff.mp hmz
    have hgu0 : t.gu = [] := List.length_eq_zero_iff.mp (hgu.trans hmz)
    have hg0 : t.gsol = [] := hm0 (by omega)
    simp only [hxs, hds]
    cases t; simp_all
  · rw [copyRows_ok n _ t hk' hmz]
    by_cases hg0 : t.gsol = []
    · rw [if_pos hg0]; simp only [Option.bind_some]
      rw [copyDuals_ok n _ t hk' hst']
      simp only [hxs, hds]
      cases t; simp_all
    · have : t.gsol.length = m := hg.resolve_left hg0
      rw [if_neg hg0, if_pos (by omega)]; simp only [Option.bind_some]
      rw [copyDuals_ok n _ t hk' hst']
      have hgt : t.gsol.take t.gl.length = t.gsol := List.take_of_length_le (by omega)
      simp only [hxs, hds, hgt]

/-- The starting point is never reset once there are multipliers for it. -/
def NoReset : Bool → List Op → Prop
  | _, [] => True
  | d, .reset :: os => d = false ∧ NoReset d os
  | _, .setDuals _ :: os => NoReset true os
  | d, _ :: os => NoReset d os

theorem gsol_plain (t t' : P) (o : Op) (hp : o.plain) (hz : t.gl.length = 0) (hg : t.gsol = []) (hs : step t o = some t') : t'.gl.length = 0 ∧ t'.gsol = [] := by
  cases o <;> simp only [step, Op.plain] at hs hp
  case bound => split at hs <;> simp at hs; subst hs; exact ⟨hz, hg⟩
  case reset => simp at hs; subst hs; exact ⟨hz, hg⟩
  case setx => split at hs <;> simp at hs; subst hs; exact ⟨hz, hg⟩
  case setDuals => split at hs <;> simp at hs; subst hs; exact ⟨hz, hg⟩
  case finish => split at hs <;> simp at hs; subst hs; simp [hz, hg]

/-- C88: the same over histories from a new problem. -/
theorem copy_history_partial (dbg : Bool) (s : Scal) (types : List ℕ) (l u gl gu x0 : List ℚ) (h : Fresh l.length gl.length (init s types l u gl gu x0)) (hn : 0 < l.length)
    (os : List Op) (hp : ∀ o ∈ os, o.plain) (hno : NoReset false os) (t : P) (hr : run (init s types l u gl gu x0) os = some t) : copy dbg t = some t := by
  have gen : ∀ (os : List Op) (a b : P), (∀ o ∈ os, o.plain) → NoReset a.duals os → Plain l.length gl.length a → (gl.length = 0 → a.gsol = []) → run a os = some b →
      Plain l.length gl.length b ∧ (gl.length = 0 → b.gsol = []) := by
    intro os
    induction os with
    | nil => intro a b _ _ hP hg hr; simp only [run, Option.some.injEq] at hr; exact hr ▸ ⟨hP, hg⟩
    | cons o os ih =>
      intro a b hp hno hP hg hr
      simp only [run] at hr
      cases hs : step a o with
      | none => simp [hs] at hr
      | some a1 =>
        rw [hs] at hr
        have hreset : o = .reset → a.duals = false := by rintro rfl; exact hno.1
        refine ih a1 b (fun o ho => hp o (List.mem_cons_of_mem _ ho)) ?_ (plain_step _ _ a a1 o hP (hp o List.mem_cons_self) hreset hs)
          (fun hz => (gsol_plain a a1 o (hp o List.mem_cons_self) (hP.rows.trans hz) (hg hz) hs).2) hr
        cases o <;> simp only [step, NoReset] at hs hno ⊢
        case bound => split at hs <;> simp at hs; subst hs; exact hno
        case reset => simp at hs; subst hs; exact hno.2
        case setx => split at hs <;> simp at hs; subst hs; exact hno
        case setDuals => split at hs <;> simp at hs; subst hs; exact hno
        case finish => split at hs <;> simp at hs; subst hs; exact hno
        case addCuts => exact (hp _ List.mem_cons_self).elim
        case removeCuts => exact (hp _ List.mem_cons_self).elim
  have := gen os _ t hp hno ⟨init_ok s types l u gl gu x0 h, rfl, Or.inl rfl, Or.inl rfl, fun hh => by simp [init] at hh⟩ (fun _ => rfl) hr
  exact copy_plain dbg _ _ t this.1 hn this.2

def exS : Scal := ⟨7, 2, 1, true, 0, 0, none, -1000, 1000, true, true⟩
def exP : P := init exS [0, 1] [0, 0] [1, 5] [-1] [1] [1 / 2, 3]
example : Fresh 2 1 exP := by constructor <;> rfl
/-- A history of bounds, start, solve; the copy is the original. -/
example : ((run exP [.bound 1 2 3, .setx [1, 2], .setDuals [0, 0, 1, 1, 5], .finish 0 9 [1, 3] [0] [0, 1] [0, 0] [4]]).bind fun t => (copy true t).map fun c => decide (c = t ∧ c.xu = [1, 3] ∧ c.dsol = [0, 1, 0, 0, 4])) = some true := by
  decide +kernel

/-- C88, refuted: after a solve, once a cut was added, copying reads past the activities of the solution. -/
theorem copy_after_cut_undefined (dbg : Bool) (n : ℕ) (t t' : P) (h : Ok n t) (hn : 0 < n) (hg : t.gsol ≠ []) (hlen : t.gsol.length = t.gl.length) (bs : List (ℚ × ℚ)) (hb : bs ≠ [])
    (hs : step t (.addCuts bs) = some t') : copy dbg t' = none := by
  have hok := ok_step n t t' _ h hs
  have hgl : t'.gsol = t.gsol ∧ t'.gl.length = t.gl.length + bs.length := by
    simp only [step, Option.some.injEq] at hs; subst hs; simp [fitDuals]
  by_contra hne
  obtain ⟨c, hc⟩ := Option.ne_none_iff_exists'.mp hne
  rcases ((copy_defined dbg n t' hok hn).mp ⟨c, hc⟩).1 with h1 | h1
  · exact hg (hgl.1 ▸ h1)
  · have : 0 < bs.length := List.length_pos_iff.mpr hb
    rw [hgl.1, hgl.2] at h1; omega

/-- A solved problem to which one cut is added. -/
example : ((run exP [.finish 0 9 [1, 3] [0] [0, 1] [0, 0] [4], .addCuts [(0, 1)]]).map fun t => (decide (copy false t = none), t.gsol.length, t.gl.length)) = some (true, 1, 2) := by decide +kernel

/-- C88, refuted: resetting the starting point leaves the pointer to its multipliers; copying then computes an address in an empty array. -/
theorem copy_after_reset_undefined (dbg : Bool) (n : ℕ) (t t' : P) (h : Ok n t) (hn : 0 < n) (hd : t.duals = true) (hs : step t .reset = some t') : copy dbg t' = none := by
  have hok := ok_step n t t' _ h hs
  simp only [step, Option.some.injEq] at hs; subst hs
  by_contra hne
  obtain ⟨c, hc⟩ := Option.ne_none_iff_exists'.mp hne
  have := ((copy_defined dbg n _ hok hn).mp ⟨c, hc⟩).2 hd
  simp at this; omega
example : ((run exP [.setDuals [0, 0, 1, 1, 5], .reset]).map fun t => decide (copy true t = none)) = some true := by decide +kernel

/-! ## Assignment -/

/-- C88: assigning shows the other problem if that one was solved and has constraints and the two have the same number of variables. -/
theorem assign_partial (dbg : Bool) (n : ℕ) (t o c : P) (h : Ok n o) (hn : 0 < n) (ht : Ok n t) (hx : o.xsol ≠ []) (hd : o.dsol ≠ []) (hm : o.gl ≠ []) (hg : o.gsol ≠ [])
    (hc : assign dbg t o = some c) : view c = view o ∧ c.s = o.s ∧ c.types = o.types := by
  have h' := h
  obtain ⟨⟨hty, hl, hu, hol, hou, hus, hgl, hgu⟩, hxo, hdo⟩ := h
  unfold assign gutsOfCopy at hc
  rw [if_neg (by simp [hl, hu, hgu])] at hc
  rw [copyVars_ok dbg n _ o h' hn (by rcases ht.xsol with h | h <;> simp [h])] at hc
  simp only [Option.bind_some, if_neg hx] at hc
  rw [copyRows_ok n _ o h' (fun h => hm (List.length_eq_zero_iff.mp h)), if_neg hg] at hc
  by_cases hlen : o.gl.length ≤ o.gsol.length
  · rw [if_pos hlen] at hc
    simp only [Option.bind_some] at hc
    by_cases hdu : o.duals = true ∧ ¬ (o.xinit ≠ [] ∧ n ≤ o.xinit.length)
    · exfalso; unfold copyDuals at hc; simp only [hl] at hc; rw [if_pos (by simpa using hdu)] at hc; simp at hc
    · rw [copyDuals_ok n _ o h' (by tauto)] at hc
      simp only [Option.some.injEq, if_neg hd] at hc; subst hc
      refine ⟨?_, rfl, rfl⟩
      simp only [view, hl, List.take_take, Nat.min_self]
  · rw [if_neg hlen] at hc; simp at hc

/-- A problem of the same size that was solved. -/
def exSolved : P := { exP with xsol := [1, 3], gsol := [0], dsol := [0, 1, 0, 0, 4], s := { exS with ret := 3, obj := 9 } }
/-- A problem without constraints, not solved. -/
def exFree : P := init { exS with tminlp := 8 } [0, 1] [0, 0] [7, 7] [] [] [2, 2]
example : ((assign true exFree exSolved).map fun c => (decide (view c = view exSolved), c.gl)) = some (true, [-1]) := by decide +kernel

/-- C88, refuted: assigning a problem that was not solved and has no constraints keeps the solution, the multipliers and the constraints of the old one. -/
theorem assign_keeps_old : ∃ t o c, Ok 2 t ∧ Ok 2 o ∧ assign true t o = some c ∧ o.gl = [] ∧ o.xsol = [] ∧ c.gl = t.gl ∧ c.gl ≠ [] ∧ c.xsol = t.xsol ∧ c.xsol ≠ [] ∧ c.dsol = t.dsol ∧ c.s.tminlp = o.s.tminlp :=
  ⟨exSolved, exFree, { exFree with gl := [-1], gu := [1], xsol := [1, 3], gsol := [0], dsol := [0, 1, 0, 0, 4] },
    ⟨by constructor <;> rfl, Or.inr rfl, Or.inr (by decide)⟩, ⟨by constructor <;> rfl, Or.inl rfl, Or.inl rfl⟩, by decide +kernel⟩

/-- C88, refuted: assigning a solved problem to a solved one with fewer variables writes past its solution (an assertion fails first if compiled in). -/
theorem assign_size_undefined (dbg : Bool) (n k : ℕ) (t o : P) (h : Ok n o) (hn : 0 < n) (ht : t.xsol.length = k) (hk : 0 < k) (hkn : k < n) (hx : o.xsol ≠ []) : assign dbg t o = none := by
  obtain ⟨⟨hty, hl, hu, hol, hou, hus, hgl, hgu⟩, hxo, hdo⟩ := h
  have hne : t.xsol ≠ [] := fun he => by simp [he] at ht; omega
  have hset : setXSol dbg n o.xsol t.xsol = none := by
    unfold setXSol dcopy
    simp only [if_neg hne, ht]
    split
    · rfl
    · rw [if_neg (by omega)]
  unfold assign gutsOfCopy copyVars
  rw [if_neg (by simp [hl, hu, hgu])]
  simp only [hl, Nat.pos_iff_ne_zero.mp hn, if_false]
  rw [dcopy_full n _ _ hl (resize_length _ _), dcopy_full n _ _ hu (resize_length _ _), dcopy_full n _ _ hol (resize_length _ _),
    dcopy_full n _ _ hou (resize_length _ _), dcopy_full n _ _ hus (resize_length _ _)]
  simp [hx, hset]
example : assign false { exSolved with xsol := [1] } exSolved = none := by decide +kernel

/-! ## What cuts do to the starting point -/

/-- C88, refuted: adding cuts (even none) before a starting point is set replaces the problem's starting point by zero. -/
theorem cuts_zero_start (n : ℕ) (t t' : P) (h : Ok n t) (hn : 0 < n) (hx : t.xinit = []) (bs : List (ℚ × ℚ)) (hs : step t (.addCuts bs) = some t') :
    (view t).start = t.user ∧ (view t').start = List.replicate n 0 ∧ (view t').startDuals = some (List.replicate (2 * n + t.gl.length + bs.length) 0) := by
  have hl := h.fresh.xl
  simp only [step, Option.some.injEq] at hs; subst hs
  refine ⟨by simp [view, hx], ?_, ?_⟩
  · simp only [view, fitDuals, hx, hl, resize]
    have : List.replicate ((t.gl ++ bs.map Prod.fst).length + 3 * n - ([] : List ℚ).length) (0 : ℚ) ≠ [] := by simp; omega
    simp only [List.take_nil, List.nil_append, if_neg this]
    rw [List.take_replicate]; congr 1; simp; omega
  · simp only [view, fitDuals, hx, hl, resize, if_true]
    simp only [List.take_nil, List.nil_append, List.drop_replicate, List.length_append, List.length_map, List.length_nil]
    congr 2; omega
example : ((step exP (.addCuts [])).map fun t => (view t).start) = some [0, 0] ∧ (view exP).start = [1 / 2, 3] := by decide +kernel

/-- C88: a starting point that was set survives adding cuts. -/
theorem cuts_keep_start_partial (n : ℕ) (t t' : P) (h : Ok n t) (hx : n ≤ t.xinit.length) (hne : t.xinit ≠ []) (bs : List (ℚ × ℚ)) (hs : step t (.addCuts bs) = some t') : (view t').start = (view t).start := by
  have hl := h.fresh.xl
  simp only [step, Option.some.injEq] at hs; subst hs
  by_cases hn : n = 0
  · subst hn
    simp only [view, hl, List.take_zero, if_neg hne]
    have hu : t.user = [] := List.length_eq_zero_iff.mp h.fresh.user
    simp [fitDuals, hu, hl]
  · have h2 : resize t.xinit ((t.gl ++ bs.map Prod.fst).length + 3 * t.xl.length) ≠ [] := by
      intro he; have := congrArg List.length he; rw [resize_length, hl] at this; simp only [List.length_nil] at this; omega
    rw [hl] at h2
    simp only [view, fitDuals, if_neg hne, if_neg h2, hl]
    unfold resize
    rw [List.take_append_of_le_length (by rw [List.length_take]; omega), List.take_take]; congr 1; omega
example : ((run exP [.setx [1, 2], .addCuts [(0, 1)]]).map fun t => (view t).start) = some [1, 2] := by decide +kernel

/-! ## The linear objective of `TMINLP2TNLPQuadCuts` -/

/-- `obj_` and `c_`; `none` = never written. -/
structure Lin where
  obj : List ℚ
  c : Option ℚ
  deriving DecidableEq

/-- Constructor, `set_linear_objective` (BonTMINLP2Quad.cpp:18-47, 497-502), copy constructor 53-58 (`c_` not mentioned). -/
def Lin.new : Lin := ⟨[], none⟩
def Lin.set (_ : Lin) (o : List ℚ) (c : ℚ) : Lin := ⟨o, some c⟩
def Lin.copy (l : Lin) : Lin := ⟨l.obj, none⟩

/-- `eval_f` (BonTMINLP2Quad.cpp:164-178); `none` = an indeterminate value is used. -/
def Lin.eval (l : Lin) (f : List ℚ → ℚ) (x : List ℚ) : Option ℚ :=
  if l.obj = [] then some (f x) else l.c.map fun c => (List.zipWith (· * ·) l.obj x).foldl (· + ·) c

/-- C88: the objective in use: the problem's, or the linear one given last. -/
theorem eval_exact (l : Lin) (f : List ℚ → ℚ) (x : List ℚ) : Lin.new.eval f x = some (f x) ∧
    ∀ o c, o ≠ [] → (l.set o c).eval f x = some ((List.zipWith (· * ·) o x).sum + c) := by
  refine ⟨rfl, fun o c ho => ?_⟩
  have : ∀ (v : List ℚ) (c : ℚ), v.foldl (· + ·) c = v.sum + c := by
    intro v
    induction v with
    | nil => intro c; simp
    | cons a v ih => intro c; simp only [List.foldl_cons, ih, List.sum_cons]; ring
  simp [Lin.eval, Lin.set, ho, this]

/-- C88: copies keep the objective if no linear one was set. -/
theorem lin_copy_partial (l : Lin) (h : l.obj = []) (f : List ℚ → ℚ) (x : List ℚ) : l.copy.eval f x = l.eval f x := by simp [Lin.copy, Lin.eval, h]

/-- C88, refuted: a copy of a problem with a linear objective uses a constant that was never set. -/
theorem lin_copy_undefined (l : Lin) (o : List ℚ) (c : ℚ) (ho : o ≠ []) (f : List ℚ → ℚ) (x : List ℚ) : (l.set o c).copy.eval f x = none := by simp [Lin.copy, Lin.set, Lin.eval, ho]
example : (Lin.new.set [1, 2] 5).eval (fun _ => 0) [1, 1] = some 8 ∧ (Lin.new.set [1, 2] 5).copy.eval (fun _ => 0) [1, 1] = none := by decide +kernel

/-- **C88**: with assertions, a problem whose two arrays of bounds on variables, or on constraints, differ in size is neither copied nor assigned. -/
theorem unequal_sizes_assert (t o : P) (h : o.xl.length ≠ o.xu.length ∨ o.gl.length ≠ o.gu.length) : copy true o = none ∧ assign true t o = none := by
  have hc : ¬ (o.xl.length = o.xu.length ∧ o.gl.length = o.gu.length) := by omega
  constructor
  · unfold copy gutsOfCopy
    rw [if_pos ⟨rfl, hc⟩]
  · unfold assign gutsOfCopy
    rw [if_pos ⟨rfl, hc⟩]

example : copy true (init ⟨0, 0, 0, false, 0, 0, none, 0, 0, false, false⟩ [] [0, 0] [1] [] [] [0, 0]) = none := (unequal_sizes_assert (init ⟨0, 0, 0, false, 0, 0, none, 0, 0, false, false⟩ [] [] [] [] [] []) _ (Or.inl (by decide))).1

end Verif.Itf.Tn

import Mathlib.Data.List.Basic
import Mathlib.Algebra.Order.Ring.Rat
import Mathlib.Tactic.Linarith
import Mathlib.Tactic.NormNum

/-!
# The C interface (`Interfaces/BonStdCInterface.cpp`, `Interfaces/BonStdInterfaceTMINLP.cpp`, `.hpp`)
Pointers to arrays are `Option (List …)` (`none` = NULL), callbacks are present or NULL.  The SOS and branching structures
are opaque handles.  Options, journal and `Bab` itself are not modelled; `Bab` is a function of the problem object.
-/
namespace Verif.Slv

/-- The arguments of `CreateBonminProblem` (`BonStdCInterface.cpp:87-106`). -/
structure CArgs where
  n : ℤ
  xL : Option (List ℚ)
  xU : Option (List ℚ)
  m : ℤ
  gL : Option (List ℚ)
  gU : Option (List ℚ)
  neleJac : ℤ
  neleHess : ℤ
  style : ℤ
  evalF : Bool
  evalG : Bool
  evalGradF : Bool
  evalJacG : Bool
  evalH : Bool
  varTypes : Option (List ℕ)
  varLin : Option (List ℕ)
  conLin : Option (List ℕ)
  sos : Option ℕ
  branch : Option ℕ
deriving DecidableEq, Repr

/-- `BonminProblemInfo` (59-85).  `sos` and `branch` are `none` while nothing has been stored in the field. -/
structure CProb where
  n : ℕ
  xL : List ℚ
  xU : List ℚ
  m : ℕ
  gL : Option (List ℚ)
  gU : Option (List ℚ)
  neleJac : ℤ
  neleHess : ℤ
  style : ℤ
  evalF : Bool
  evalG : Bool
  evalGradF : Bool
  evalJacG : Bool
  evalH : Bool
  varTypes : List ℕ
  varLin : List ℕ
  conLin : List ℕ
  sos : Option (Option ℕ)
  branch : Option (Option ℕ)
  objScaling : ℚ
  xScaling : Option (List ℚ)
  gScaling : Option (List ℚ)
deriving DecidableEq, Repr

/-- What `CreateBonminProblem` does: NULL, undefined behaviour, or a problem. -/
inductive CRes where
  | null
  | undefined
  | ok (p : CProb)
deriving DecidableEq, Repr

/-- Copying `n` entries from an array; NULL or too short is undefined. -/
def readArr {α : Type} (n : ℕ) (a : Option (List α)) : Option (List α) :=
  match a with
  | none => if n = 0 then some [] else none
  | some l => if n ≤ l.length then some (l.take n) else none

/-- The test at the start (108-111). -/
def cReject (a : CArgs) : Bool :=
  a.n < 1 || a.m < 0 || a.xL.isNone || a.xU.isNone || (a.m > 0 && (a.gL.isNone || a.gU.isNone)) ||
  (a.m = 0 && a.neleJac ≠ 0) || (a.m > 0 && a.neleJac < 1) || a.neleHess < 0 ||
  !a.evalF || !a.evalGradF || (a.m > 0 && (!a.evalG || !a.evalJacG)) ||
  a.varTypes.isNone || a.varLin.isNone || (a.m > 0 && a.conLin.isNone)

/-- Bounds of the constraints (131-148). -/
def conArr (m : ℤ) (a : Option (List ℚ)) : Option (Option (List ℚ)) :=
  if m > 0 then (readArr m.toNat a).map some else some none

/-- The copies (115-177); `sos_info` and `branch_info` are never assigned. -/
def cCopy (a : CArgs) : Option CProb := do
  let xL ← readArr a.n.toNat a.xL
  let xU ← readArr a.n.toNat a.xU
  let gL ← conArr a.m a.gL
  let gU ← conArr a.m a.gU
  let vt ← readArr a.n.toNat a.varTypes
  let vl ← readArr a.n.toNat a.varLin
  let cl ← readArr a.m.toNat a.conLin
  return ⟨a.n.toNat, xL, xU, a.m.toNat, gL, gU, a.neleJac, a.neleHess, a.style, a.evalF, a.evalG, a.evalGradF, a.evalJacG, a.evalH,
    vt, vl, cl, none, none, 1, none, none⟩

/-- `CreateBonminProblem` (87-180). -/
def cCreate (a : CArgs) : CRes :=
  if cReject a then .null
  else match cCopy a with
    | none => .undefined
    | some p => .ok p

/-- `SetBonminProblemScaling` (262-302); `none` if an array is too short. -/
def cScaling (p : CProb) (obj : ℚ) (xs gs : Option (List ℚ)) : Option CProb := do
  let x' ← match xs with
    | some l => (readArr p.n (some l)).map some
    | none => some none
  let g' ← match gs with
    | some l => (readArr p.m (some l)).map some
    | none => some none
  return { p with objScaling := obj, xScaling := x', gScaling := g' }

/-- The caller's arrays in `BonminSolve` (304-312). -/
structure COut where
  x : Option (List ℚ)
  g : Option (List ℚ)
  obj : Option ℚ
  multG : Option (List ℚ)
  multL : Option (List ℚ)
  multU : Option (List ℚ)
deriving DecidableEq, Repr

/-- `StdInterfaceTMINLP` (`BonStdInterfaceTMINLP.cpp:15-101`): the problem as branch-and-bound sees it. -/
structure StdTm where
  n : ℕ
  xL : List ℚ
  xU : List ℚ
  m : ℕ
  gL : Option (List ℚ)
  gU : Option (List ℚ)
  neleJac : ℤ
  neleHess : ℤ
  style : ℤ
  startX : List ℚ
  startLam : Option (List ℚ)
  startL : Option (List ℚ)
  startU : Option (List ℚ)
  varTypes : List ℕ
  varLin : List ℕ
  conLin : Option (List ℕ)
  sos : Option ℕ
  branch : Option ℕ
  objScaling : ℚ
  xScaling : Option (List ℚ)
  gScaling : Option (List ℚ)
deriving DecidableEq, Repr

/-- `if (problem->sos_info != NULL) interface->getSosInfo()->… = …` (408-427).  A field nothing was stored in holds anything (`junk` says whether it is non-null);
a non-null field leads to a write through `getSosInfo()`, which is `itf`, NULL since construction (`BonStdInterfaceTMINLP.cpp:68-69`). -/
def passInfo (field : Option (Option ℕ)) (junk : Bool) (itf : Option ℕ) : Option (Option ℕ) :=
  match field with
  | none => if junk then none else some itf
  | some none => some itf
  | some (some h) => match itf with
    | none => none
    | some _ => some (some h)

/-- `finalize_solution` of `StdInterfaceTMINLP` (`BonStdInterfaceTMINLP.hpp:97`) has an empty body; no other function uses the arrays of the caller. -/
def stdFinalize (o : COut) (_ : List ℚ × ℚ) : COut := o

/-- Optional array of the caller. -/
def optArr (n : ℕ) (a : Option (List ℚ)) : Option (Option (List ℚ)) :=
  match a with
  | none => some none
  | some l => (readArr n (some l)).map some

/-- The problem object built in `BonminSolve` (328-427). -/
def cBuild (junkSos junkBranch : Bool) (p : CProb) (o : COut) (x : List ℚ) : Option StdTm := do
  let sx ← readArr p.n (some x)
  let lam ← optArr p.m o.multG
  let zL ← optArr p.n o.multL
  let zU ← optArr p.n o.multU
  let sos ← passInfo p.sos junkSos none
  let br ← passInfo p.branch junkBranch none
  return ⟨p.n, p.xL, p.xU, p.m, p.gL, p.gU, p.neleJac, p.neleHess, p.style, sx, lam, zL, zU, p.varTypes, p.varLin,
    if p.m > 0 then some p.conLin else none, sos, br, p.objScaling, p.xScaling, p.gScaling⟩

/-- `BonminSolve` (304-454): status and the arrays of the caller; `bab` gives the solution found (the point and its value), or `none` if there is none or an exception is caught. -/
def cSolve (bab : StdTm → Option (List ℚ × ℚ)) (junkSos junkBranch : Bool) (p : CProb) (o : COut) : Option (ℤ × COut) :=
  match o.x with
  | none => some (0, o)
  | some x => match cBuild junkSos junkBranch p o x with
    | none => none
    | some t => match bab t with
      | none => some (0, o)
      | some s => some (0, stdFinalize o s)

/-- Callbacks (`BonStdInterfaceTMINLP.cpp:242-329`); for the two with structure and values the three pointers: row, column and value array present. -/
inductive Cb where
  | f
  | gradF
  | g
  | jac (iRow jCol values : Bool)
  | h (iRow jCol values : Bool)
deriving DecidableEq, Repr

/-- Whether the callback function is called at all (288, 311). -/
def Cb.active : Cb → Bool
  | .jac r c v => (r && c && !v) || (!r && !c && v)
  | .h r c v => (r && c && !v) || (!r && !c && v)
  | _ => true

/-- One call of an evaluation function: which, `new_x`, and the point (NULL possible). -/
structure CbCall where
  cb : Cb
  newX : Bool
  x : Option (List ℚ)
deriving DecidableEq, Repr

/-- `apply_new_x` (331-347) on the copy `non_const_x_`; `none` if undefined. -/
def applyNewX (n : ℕ) (st : Option (List ℚ)) (newX : Bool) (x : Option (List ℚ)) : Option (Option (List ℚ)) :=
  if newX then match x with
    | none => none
    | some l => if n ≤ l.length then some (some (l.take n)) else none
  else some st

/-- One evaluation: new copy, and the pointer the user's function receives (`none`: it is not called). -/
def cbStep (n : ℕ) (st : Option (List ℚ)) (c : CbCall) : Option (Option (List ℚ) × Option (Option (List ℚ))) :=
  if c.cb.active then (applyNewX n st c.newX c.x).map (fun s => (s, some s)) else some (st, none)

/-- A sequence of evaluations: what the user's functions receive, in order. -/
def cbRun (n : ℕ) : Option (List ℚ) → List CbCall → Option (List (Option (Option (List ℚ))))
  | _, [] => some []
  | st, c :: cs => match cbStep n st c with
    | none => none
    | some (st', r) => (cbRun n st' cs).map (fun rs => r :: rs)

/-- `get_starting_point` (195-239): the values written (`none` = untouched) and the return value. -/
def startingPoint (t : StdTm) (initX initZ initL : Bool) : Bool × Option (List ℚ) × Option (List ℚ) × Option (List ℚ) × Option (List ℚ) :=
  let x := if initX then some t.startX else none
  let zl := if initZ then t.startL else none
  let zu := if initZ then t.startU else none
  let lam := if initL then t.startLam else none
  (!(initZ && t.startL.isNone) && !(initZ && t.startU.isNone) && !(initL && t.startLam.isNone), x, zl, zu, lam)

/-! ## Properties -/

/-- Arguments as they should be: at least one variable, no negative counts, everything that is needed is there; entries in the Jacobian exactly when there are constraints. -/
structure CGood (a : CArgs) : Prop where
  n : 1 ≤ a.n
  m : 0 ≤ a.m
  bounds : a.xL ≠ none ∧ a.xU ≠ none
  types : a.varTypes ≠ none ∧ a.varLin ≠ none
  obj : a.evalF = true ∧ a.evalGradF = true
  hess : 0 ≤ a.neleHess
  noCon : a.m = 0 → a.neleJac = 0
  con : 0 < a.m → 1 ≤ a.neleJac ∧ a.gL ≠ none ∧ a.gU ≠ none ∧ a.evalG = true ∧ a.evalJacG = true ∧ a.conLin ≠ none

/-- C45: NULL is returned for exactly the malformed inputs. -/
theorem create_null_iff (a : CArgs) : cCreate a = .null ↔ ¬ CGood a := by
  have e : cReject a = true ↔ ¬ CGood a := by
    obtain ⟨n, xL, xU, m, gL, gU, nj, nh, st, f, g, gf, jg, h, vt, vl, cl, so, br⟩ := a
    have hg : CGood ⟨n, xL, xU, m, gL, gU, nj, nh, st, f, g, gf, jg, h, vt, vl, cl, so, br⟩ ↔
        (1 ≤ n ∧ 0 ≤ m ∧ (xL ≠ none ∧ xU ≠ none) ∧ (vt ≠ none ∧ vl ≠ none) ∧ (f = true ∧ gf = true) ∧ 0 ≤ nh ∧ (m = 0 → nj = 0) ∧
          (0 < m → 1 ≤ nj ∧ gL ≠ none ∧ gU ≠ none ∧ g = true ∧ jg = true ∧ cl ≠ none)) :=
      ⟨fun ⟨a, b, c, d, e, f, g, h⟩ => ⟨a, b, c, d, e, f, g, h⟩, fun ⟨a, b, c, d, e, f, g, h⟩ => ⟨a, b, c, d, e, f, g, h⟩⟩
    rw [hg]
    simp only [cReject, Bool.or_eq_true, Bool.and_eq_true, decide_eq_true_eq, Bool.not_eq_true', Option.isNone_iff_eq_none]
    by_cases hm : 0 < m
    · have : m ≠ 0 := by omega
      have hm' : ¬ m < 0 := by omega
      cases f <;> cases g <;> cases gf <;> cases jg <;> simp [hm, this, hm', le_of_lt hm]
      all_goals grind
    · by_cases hm0 : m = 0
      · subst hm0
        cases f <;> cases gf <;> simp
        all_goals grind
      · have : m < 0 := by omega
        simp [this]
  unfold cCreate
  by_cases h : cReject a = true
  · simp [h, ← e]
  · simp only [h, Bool.false_eq_true, if_false, ← e]
    split <;> simp

/-- The arrays have the sizes the counts announce. -/
structure CSized (a : CArgs) (xL xU gL gU : List ℚ) (vt vl cl : List ℕ) : Prop where
  xL : a.xL = some xL ∧ xL.length = a.n.toNat
  xU : a.xU = some xU ∧ xU.length = a.n.toNat
  gL : 0 < a.m → a.gL = some gL ∧ gL.length = a.m.toNat
  gU : 0 < a.m → a.gU = some gU ∧ gU.length = a.m.toNat
  vt : a.varTypes = some vt ∧ vt.length = a.n.toNat
  vl : a.varLin = some vl ∧ vl.length = a.n.toNat
  cl : 0 < a.m → a.conLin = some cl ∧ cl.length = a.m.toNat

theorem readArr_full {α : Type} (n : ℕ) (l : List α) (h : l.length = n) : readArr n (some l) = some l := by
  simp [readArr, ← h]

/-- C45: a good input yields a problem carrying counts, bounds, types, linearity and callbacks — and neither SOS nor branching information. -/
theorem create_carries_partial (a : CArgs) (hg : CGood a) (xL xU gL gU : List ℚ) (vt vl cl : List ℕ) (hs : CSized a xL xU gL gU vt vl cl) :
    ∃ p, cCreate a = .ok p ∧ (p.n : ℤ) = a.n ∧ (p.m : ℤ) = a.m ∧ p.xL = xL ∧ p.xU = xU ∧
      (0 < a.m → p.gL = some gL ∧ p.gU = some gU ∧ p.conLin = cl) ∧ p.varTypes = vt ∧ p.varLin = vl ∧
      p.neleJac = a.neleJac ∧ p.neleHess = a.neleHess ∧ p.style = a.style ∧
      (p.evalF, p.evalG, p.evalGradF, p.evalJacG, p.evalH) = (a.evalF, a.evalG, a.evalGradF, a.evalJacG, a.evalH) ∧
      p.objScaling = 1 ∧ p.xScaling = none ∧ p.gScaling = none ∧ p.sos = none ∧ p.branch = none := by
  have hn : cReject a ≠ true := by
    intro h
    have : cCreate a = .null := by simp [cCreate, h]
    exact (create_null_iff a).1 this hg
  have h1 := readArr_full _ _ hs.xL.2
  have h2 := readArr_full _ _ hs.xU.2
  have h3 := readArr_full _ _ hs.vt.2
  have h4 := readArr_full _ _ hs.vl.2
  have n1 := hg.n
  have m1 := hg.m
  by_cases hm : 0 < a.m
  · have h5 := readArr_full _ _ (hs.gL hm).2
    have h6 := readArr_full _ _ (hs.gU hm).2
    have h7 := readArr_full _ _ (hs.cl hm).2
    refine ⟨⟨a.n.toNat, xL, xU, a.m.toNat, some gL, some gU, a.neleJac, a.neleHess, a.style, a.evalF, a.evalG, a.evalGradF, a.evalJacG, a.evalH, vt, vl, cl, none, none, 1, none, none⟩, ?_, ?_⟩
    · simp [cCreate, hn, cCopy, conArr, hs.xL.1, hs.xU.1, hs.vt.1, hs.vl.1, (hs.gL hm).1, (hs.gU hm).1, (hs.cl hm).1, h1, h2, h3, h4, h5, h6, h7, hm]
    · simp; omega
  · have m0 : a.m = 0 := by omega
    have h7 : ∃ c, readArr a.m.toNat a.conLin = some c := by
      rw [m0]; cases a.conLin <;> simp [readArr]
    obtain ⟨c, h7⟩ := h7
    refine ⟨⟨a.n.toNat, xL, xU, a.m.toNat, none, none, a.neleJac, a.neleHess, a.style, a.evalF, a.evalG, a.evalGradF, a.evalJacG, a.evalH, vt, vl, c, none, none, 1, none, none⟩, ?_, ?_⟩
    · simp [cCreate, hn, cCopy, conArr, hs.xL.1, hs.xU.1, hs.vt.1, hs.vl.1, h1, h2, h3, h4, h7, hm]
    · simp [m0]; omega

/-- Two variables, one constraint, a set of SOS information and branching information. -/
def exArgs : CArgs := ⟨2, some [0, 0], some [1, 5], 1, some [0], some [3], 2, 1, 0, true, true, true, true, false, some [1, 0], some [0, 1], some [1], some 7, some 8⟩

example : CGood exArgs ∧ CSized exArgs [0, 0] [1, 5] [0] [3] [1, 0] [0, 1] [1] := by
  constructor <;> constructor <;> simp [exArgs]

/-- C45 refuted: whatever SOS and branching information is passed in, the problem is the same. -/
theorem create_drops_info (a : CArgs) (s b : Option ℕ) : cCreate { a with sos := s, branch := b } = cCreate a := rfl

/-- The problem made from `exArgs`. -/
def exProb : CProb := ⟨2, [0, 0], [1, 5], 1, some [0], some [3], 2, 1, 0, true, true, true, true, false, [1, 0], [0, 1], [1], none, none, 1, none, none⟩

example : cCreate exArgs = .ok exProb := by decide +kernel

/-- C45 refuted: a problem that has been created reaches branch-and-bound only if two fields nothing was stored in happen to be NULL, and then without SOS and branching information;
otherwise the behaviour is undefined. -/
theorem solve_info (a : CArgs) (p : CProb) (hp : cCreate a = .ok p) (js jb : Bool) (o : COut) (x : List ℚ) :
    match cBuild js jb p o x with
    | some t => js = false ∧ jb = false ∧ t.sos = none ∧ t.branch = none
    | none => js = true ∨ jb = true ∨ cBuild false false p o x = none := by
  have h : p.sos = none ∧ p.branch = none := by
    unfold cCreate at hp
    split at hp
    · cases hp
    · split at hp
      · cases hp
      · rename_i q hq
        cases hp
        unfold cCopy at hq
        simp only [Option.bind_eq_bind, Option.bind_eq_some_iff] at hq
        obtain ⟨_, _, _, _, _, _, _, _, _, _, _, _, _, _, hq⟩ := hq
        simp only [Option.pure_def, Option.some.injEq] at hq
        rw [← hq]; simp
  cases js <;> cases jb
  · cases hc : cBuild false false p o x with
    | none => simp
    | some t =>
      unfold cBuild at hc
      simp only [h.1, h.2, passInfo, Option.bind_eq_bind, Option.bind_eq_some_iff, Bool.false_eq_true, if_false, Option.some.injEq, Option.pure_def] at hc
      obtain ⟨_, _, _, _, _, _, _, _, _, rfl, _, rfl, rfl⟩ := hc
      simp
  all_goals
    have : ∀ js jb, (js = true ∨ jb = true) → cBuild js jb p o x = none := by
      intro js jb hj
      unfold cBuild
      simp only [h.1, h.2, passInfo]
      cases readArr p.n (some x) <;> simp
      intro lam _ zL _ zU _
      rcases hj with rfl | rfl <;> simp
    rw [this _ _ (by simp)]
    simp

/-- C45: apart from that, branch-and-bound gets the data of the problem and the starting values of the call. -/
theorem solve_data (p : CProb) (hp : p.sos = none ∧ p.branch = none) (o : COut) (x : List ℚ) (hx : x.length = p.n)
    (h1 : ∀ l, o.multG = some l → l.length = p.m) (h2 : ∀ l, o.multL = some l → l.length = p.n) (h3 : ∀ l, o.multU = some l → l.length = p.n) :
    ∃ t, cBuild false false p o x = some t ∧ t.n = p.n ∧ t.m = p.m ∧ t.xL = p.xL ∧ t.xU = p.xU ∧ t.gL = p.gL ∧ t.gU = p.gU ∧
      t.neleJac = p.neleJac ∧ t.neleHess = p.neleHess ∧ t.style = p.style ∧ t.varTypes = p.varTypes ∧ t.varLin = p.varLin ∧
      (0 < p.m → t.conLin = some p.conLin) ∧ (p.m = 0 → t.conLin = none) ∧ t.objScaling = p.objScaling ∧ t.xScaling = p.xScaling ∧ t.gScaling = p.gScaling ∧
      t.startX = x ∧ t.startLam = o.multG ∧ t.startL = o.multL ∧ t.startU = o.multU := by
  have ho : ∀ (n : ℕ) (a : Option (List ℚ)), (∀ l, a = some l → l.length = n) → optArr n a = some a := by
    intro n a ha
    cases a with
    | none => rfl
    | some l => simp [optArr, readArr_full _ _ (ha l rfl)]
  refine ⟨_, by simp [cBuild, readArr_full _ _ hx, ho _ _ h1, ho _ _ h2, ho _ _ h3, passInfo, hp]; rfl, rfl, rfl, rfl, rfl, rfl, rfl, rfl, rfl, rfl, rfl, rfl, ?_, ?_, rfl, rfl, rfl, rfl, rfl, rfl, rfl⟩
  · intro h; simp [h]
  · intro h; simp [h]

/-- C45 refuted also for a problem whose SOS or branching field would hold information: passing it on writes through a null pointer. -/
theorem solve_info_nonnull (p : CProb) (k : ℕ) (h : p.sos = some (some k) ∨ p.branch = some (some k)) (js jb : Bool) (o : COut) (x : List ℚ) : cBuild js jb p o x = none := by
  unfold cBuild
  cases hr : readArr p.n (some x) <;> simp
  intro lam _ zL _ zU _
  rcases h with h | h
  · simp [h, passInfo]
  · intro s _; simp [h, passInfo]

/-- C45: reading a caller's array shorter than announced is undefined, and only that (for arguments that are accepted). -/
theorem create_undefined_iff (a : CArgs) (hg : CGood a) : cCreate a = .undefined ↔
    (∃ l, a.xL = some l ∧ (l.length : ℤ) < a.n) ∨ (∃ l, a.xU = some l ∧ (l.length : ℤ) < a.n) ∨ (∃ l, a.varTypes = some l ∧ (l.length : ℤ) < a.n) ∨
    (∃ l, a.varLin = some l ∧ (l.length : ℤ) < a.n) ∨ (0 < a.m ∧ ((∃ l, a.gL = some l ∧ (l.length : ℤ) < a.m) ∨ (∃ l, a.gU = some l ∧ (l.length : ℤ) < a.m) ∨
    (∃ l, a.conLin = some l ∧ (l.length : ℤ) < a.m))) := by
  have hn : cReject a ≠ true := by
    intro h
    have : cCreate a = .null := by simp [cCreate, h]
    exact (create_null_iff a).1 this hg
  have n1 := hg.n
  have m1 := hg.m
  obtain ⟨xL, exL⟩ := Option.ne_none_iff_exists'.1 hg.bounds.1
  obtain ⟨xU, exU⟩ := Option.ne_none_iff_exists'.1 hg.bounds.2
  obtain ⟨vt, evt⟩ := Option.ne_none_iff_exists'.1 hg.types.1
  obtain ⟨vl, evl⟩ := Option.ne_none_iff_exists'.1 hg.types.2
  have hr : ∀ {α : Type} (k : ℤ) (l : List α), 0 ≤ k → (readArr k.toNat (some l) = none ↔ (l.length : ℤ) < k) := by
    intro α k l hk
    unfold readArr
    by_cases h : k.toNat ≤ l.length
    · simp only [h, if_true]; simp; omega
    · simp only [h, if_false]; simp; omega
  have hcop : cCreate a = .undefined ↔ cCopy a = none := by
    unfold cCreate
    simp only [hn, Bool.false_eq_true, if_false]
    cases cCopy a <;> simp
  have hcop2 : cCopy a = none ↔ readArr a.n.toNat a.xL = none ∨ readArr a.n.toNat a.xU = none ∨ conArr a.m a.gL = none ∨ conArr a.m a.gU = none ∨
      readArr a.n.toNat a.varTypes = none ∨ readArr a.n.toNat a.varLin = none ∨ readArr a.m.toNat a.conLin = none := by
    unfold cCopy
    cases readArr a.n.toNat a.xL <;> simp
    cases readArr a.n.toNat a.xU <;> simp
    cases conArr a.m a.gL <;> simp
    cases conArr a.m a.gU <;> simp
    cases readArr a.n.toNat a.varTypes <;> simp
    cases readArr a.n.toNat a.varLin <;> simp
    cases readArr a.m.toNat a.conLin <;> simp
  rw [hcop, hcop2, exL, exU, evt, evl, hr _ _ (by omega), hr _ _ (by omega), hr _ _ (by omega), hr _ _ (by omega)]
  simp only [Option.some.injEq, exists_eq_left']
  by_cases hm : 0 < a.m
  · obtain ⟨_, hgl, hgu, _, _, hcl⟩ := hg.con hm
    obtain ⟨gL, egL⟩ := Option.ne_none_iff_exists'.1 hgl
    obtain ⟨gU, egU⟩ := Option.ne_none_iff_exists'.1 hgu
    obtain ⟨cl, ecl⟩ := Option.ne_none_iff_exists'.1 hcl
    have hc : ∀ l : List ℚ, conArr a.m (some l) = none ↔ (l.length : ℤ) < a.m := by
      intro l
      unfold conArr
      rw [if_pos hm, Option.map_eq_none_iff, hr _ _ m1]
    rw [egL, egU, ecl, hc, hc, hr _ _ m1]
    simp only [Option.some.injEq, exists_eq_left', hm, true_and]
    have : ∀ A B C D E F G : Prop, (A ∨ B ∨ C ∨ D ∨ E ∨ F ∨ G) ↔ (A ∨ B ∨ E ∨ F ∨ C ∨ D ∨ G) := by intros; grind
    exact this _ _ _ _ _ _ _
  · have m0 : a.m = 0 := by omega
    have h7 : readArr a.m.toNat a.conLin ≠ none := by rw [m0]; cases a.conLin <;> simp [readArr]
    simp [conArr, hm, h7]

example : cCreate { exArgs with xU := some [1] } = .undefined ∧ CGood { exArgs with xU := some [1] } := by
  refine ⟨by decide +kernel, ?_⟩
  constructor <;> simp [exArgs]

/-- C53 refuted: whatever solution branch-and-bound finds, no array of the caller changes and the status is 0 — also when no solution exists, when it fails, and when the arrays are missing. -/
theorem solve_delivers_nothing (bab : StdTm → Option (List ℚ × ℚ)) (js jb : Bool) (p : CProb) (o : COut) (r : ℤ × COut) (h : cSolve bab js jb p o = some r) : r = (0, o) := by
  unfold cSolve at h
  split at h
  · cases h; rfl
  · split at h
    · cases h
    · split at h <;> (cases h; rfl)

/-- C53: a case in which a solution exists and is not delivered. -/
theorem solve_solution_lost : cSolve (fun _ => some ([1, 2], 7)) false false exProb ⟨some [0, 0], some [0], some 0, none, none, none⟩ = some (0, ⟨some [0, 0], some [0], some 0, none, none, none⟩) := by
  decide +kernel

/-- C53: without a starting point nothing at all happens. -/
theorem solve_no_x (bab : StdTm → Option (List ℚ × ℚ)) (js jb : Bool) (p : CProb) (o : COut) (h : o.x = none) : cSolve bab js jb p o = some (0, o) := by
  simp [cSolve, h]

/-- C45: scaling is that of the last call, for every history of calls with arrays of the right size, and nothing else of the problem changes. -/
theorem scaling_last (cs : List (ℚ × Option (List ℚ) × Option (List ℚ))) (p : CProb)
    (h : ∀ c ∈ cs, (∀ l, c.2.1 = some l → l.length = p.n) ∧ (∀ l, c.2.2 = some l → l.length = p.m)) :
    cs.foldlM (fun p c => cScaling p c.1 c.2.1 c.2.2) p =
      some (match cs.getLast? with | none => p | some c => { p with objScaling := c.1, xScaling := c.2.1, gScaling := c.2.2 }) := by
  induction cs generalizing p with
  | nil => rfl
  | cons c cs ih =>
    obtain ⟨a, xs, gs⟩ := c
    have hc := h (a, xs, gs) (by simp)
    have e : cScaling p a xs gs = some { p with objScaling := a, xScaling := xs, gScaling := gs } := by
      cases xs <;> cases gs <;> simp_all [cScaling, readArr_full]
    simp only [List.foldlM_cons, e]
    show cs.foldlM _ _ = _
    rw [ih { p with objScaling := a, xScaling := xs, gScaling := gs } (fun c hc => h c (by simp [hc])), List.getLast?_cons]
    cases cs.getLast? <;> rfl

/-- C54: what the user's function must receive: the point of the last evaluation with `new_x` set so far. -/
def lastNew (cs : List CbCall) : Option (List ℚ) := ((cs.filter (fun c => c.cb.active && c.newX)).getLast?.map (·.x)).join

/-- Calls with a point of the right length where `new_x` is set. -/
def CallsOk (n : ℕ) (cs : List CbCall) : Prop := ∀ c ∈ cs, c.newX = true → ∃ l, c.x = some l ∧ l.length = n

/-- C54: in every sequence of evaluations each function called receives the point of the last evaluation with `new_x` set (NULL before the first). -/
theorem callback_point (n : ℕ) (cs : List CbCall) (h : CallsOk n cs) :
    ∃ rs, cbRun n none cs = some rs ∧ rs.length = cs.length ∧
      ∀ (k : ℕ) (c : CbCall), cs[k]? = some c → rs[k]? = some (if c.cb.active then some (lastNew (cs.take (k + 1))) else none) := by
  have gen : ∀ (cs : List CbCall), CallsOk n cs → ∀ st : Option (List ℚ),
      ∃ rs, cbRun n st cs = some rs ∧ rs.length = cs.length ∧
        ∀ (k : ℕ) (c : CbCall), cs[k]? = some c → rs[k]? = some (if c.cb.active then some
          (if (cs.take (k + 1)).filter (fun c => c.cb.active && c.newX) = [] then st else lastNew (cs.take (k + 1))) else none) := by
    intro cs
    induction cs with
    | nil => intro _ st; exact ⟨[], rfl, rfl, fun k c hk => by simp at hk⟩
    | cons d cs ih =>
      intro h st
      have hd := h d (by simp)
      have ih := ih (fun c hc => h c (by simp [hc]))
      by_cases ha : d.cb.active = true
      · by_cases hn : d.newX = true
        · obtain ⟨l, hl, hlen⟩ := hd hn
          have e : cbStep n st d = some (some l, some (some l)) := by simp [cbStep, ha, hn, applyNewX, hl, ← hlen]
          obtain ⟨rs, h1, h2, h3⟩ := ih (some l)
          refine ⟨some (some l) :: rs, by simp [cbRun, e, h1], by simp [h2], ?_⟩
          intro k c hk
          cases k with
          | zero => simp at hk; subst hk; simp [ha, hn, lastNew, hl]
          | succ k =>
            simp at hk
            have := h3 k c hk
            simp only [List.getElem?_cons_succ, this, List.take_succ_cons]
            congr 1
            split
            · congr 1
              simp only [lastNew, List.filter_cons, ha, hn, Bool.and_self, if_true, List.getLast?_cons]
              by_cases hf : List.filter (fun c => c.cb.active && c.newX) (List.take (k + 1) cs) = []
              · simp [hf, hl]
              · simp only [hf, if_false, reduceCtorEq]
                obtain ⟨y, hy⟩ := Option.ne_none_iff_exists'.1 (mt List.getLast?_eq_none_iff.1 hf)
                simp [hy]
            · rfl
        · have e : cbStep n st d = some (st, some st) := by simp [cbStep, ha, hn, applyNewX]
          obtain ⟨rs, h1, h2, h3⟩ := ih st
          refine ⟨some st :: rs, by simp [cbRun, e, h1], by simp [h2], ?_⟩
          intro k c hk
          cases k with
          | zero => simp at hk; subst hk; simp [ha, hn]
          | succ k =>
            simp at hk
            have := h3 k c hk
            simp [this, lastNew, hn]
      · have e : cbStep n st d = some (st, none) := by simp [cbStep, ha]
        obtain ⟨rs, h1, h2, h3⟩ := ih st
        refine ⟨none :: rs, by simp [cbRun, e, h1], by simp [h2], ?_⟩
        intro k c hk
        cases k with
        | zero => simp at hk; subst hk; simp [ha]
        | succ k =>
          simp at hk
          have := h3 k c hk
          simp [this, lastNew, ha]
  obtain ⟨rs, h1, h2, h3⟩ := gen cs h none
  refine ⟨rs, h1, h2, fun k c hk => ?_⟩
  rw [h3 k c hk]
  congr 1
  split
  · congr 1
    split
    · rename_i hf; simp [lastNew, hf]
    · rfl
  · rfl

/-- The solver's side of the agreement: `new_x` may be left out only when the point is that of the evaluation before. -/
def Protocol : Option (List ℚ) → List CbCall → Prop
  | _, [] => True
  | prev, c :: cs => c.cb.active = true ∧ (c.newX = false → c.x = prev ∧ prev ≠ none) ∧ (c.newX = true → c.x ≠ none) ∧ Protocol c.x cs

/-- C54: if the solver keeps to the agreement about `new_x`, every function receives exactly the point asked for. -/
theorem callback_protocol (n : ℕ) (cs : List CbCall) (h : CallsOk n cs) (hp : Protocol none cs) : cbRun n none cs = some (cs.map (fun c => some c.x)) := by
  have gen : ∀ (cs : List CbCall) (st : Option (List ℚ)), CallsOk n cs → Protocol st cs → cbRun n st cs = some (cs.map (fun c => some c.x)) := by
    intro cs
    induction cs with
    | nil => intro st _ _; rfl
    | cons c cs ih =>
      intro st h ⟨p1, p2, p3, p4⟩
      have e : cbStep n st c = some (c.x, some c.x) := by
        cases hn : c.newX
        · simp [cbStep, p1, applyNewX, hn, (p2 hn).1]
        · obtain ⟨l, hl, hlen⟩ := h c (by simp) hn
          simp [cbStep, p1, applyNewX, hn, hl, ← hlen]
      simp [cbRun, e, ih _ (fun c hc => h c (by simp [hc])) p4]
  exact gen cs none h hp

/-- A session of four evaluations. -/
def exCalls : List CbCall := [⟨.f, true, some [1, 2]⟩, ⟨.gradF, false, some [1, 2]⟩, ⟨.jac false false true, true, some [3, 4]⟩, ⟨.h false false true, false, some [3, 4]⟩]

example : CallsOk 2 exCalls ∧ Protocol none exCalls := by
  constructor
  · intro c hc hn
    simp [exCalls] at hc
    rcases hc with rfl | rfl | rfl | rfl <;> simp_all
  · simp [Protocol, exCalls, Cb.active]

/-- C54 refuted without the agreement: an evaluation at another point without `new_x` is made at the old point. -/
theorem callback_stale : cbRun 1 none [⟨.f, true, some [1]⟩, ⟨.g, false, some [2]⟩] = some [some (some [1]), some (some [1])] := by decide +kernel

/-- C54: which evaluations reach the user's function: objective, gradient and constraints always; Jacobian and Hessian when either both index arrays are asked for and no values
(structure), or the values and no index array. -/
theorem callback_called_iff (c : Cb) : c.active = false ↔ ∃ r k v, (c = .jac r k v ∨ c = .h r k v) ∧ ¬ ((r = true ∧ k = true ∧ v = false) ∨ (r = false ∧ k = false ∧ v = true)) := by
  cases c with
  | f => simp [Cb.active]
  | gradF => simp [Cb.active]
  | g => simp [Cb.active]
  | jac r k v => cases r <;> cases k <;> cases v <;> simp [Cb.active]
  | h r k v => cases r <;> cases k <;> cases v <;> simp [Cb.active]

/-- C54: when a session is undefined: exactly when some evaluation that reaches the user's function announces a new point and passes NULL or too short an array. -/
theorem callback_undefined_iff (n : ℕ) (cs : List CbCall) (st : Option (List ℚ)) :
    cbRun n st cs = none ↔ ∃ c ∈ cs, c.cb.active = true ∧ c.newX = true ∧ ∀ l, c.x = some l → l.length < n := by
  induction cs generalizing st with
  | nil => simp [cbRun]
  | cons c cs ih =>
    have hs : cbStep n st c = none ↔ c.cb.active = true ∧ c.newX = true ∧ ∀ l, c.x = some l → l.length < n := by
      unfold cbStep applyNewX
      cases c.cb.active <;> cases c.newX <;> simp
      cases hx : c.x with
      | none => simp
      | some l => by_cases hl : n ≤ l.length <;> simp [hl] <;> omega
    unfold cbRun
    cases he : cbStep n st c with
    | none => exact ⟨fun _ => ⟨c, by simp, hs.1 he⟩, fun _ => rfl⟩
    | some r =>
      have hne : ¬ (c.cb.active = true ∧ c.newX = true ∧ ∀ l, c.x = some l → l.length < n) := by rw [← hs, he]; simp
      simp only [Option.map_eq_none_iff, ih, List.mem_cons, exists_eq_or_imp, hne, false_or]

example : cbRun 2 none [⟨.f, true, some [1, 2]⟩, ⟨.g, true, none⟩] = none ∧ (Cb.jac true true true).active = false := by decide +kernel

/-- C54: `get_starting_point` succeeds exactly when every kind of value asked for was given to `BonminSolve`, and then delivers it. -/
theorem starting_point (t : StdTm) (ix iz il : Bool) :
    ((startingPoint t ix iz il).1 = true ↔ (iz = true → t.startL ≠ none ∧ t.startU ≠ none) ∧ (il = true → t.startLam ≠ none)) ∧
    (ix = true → (startingPoint t ix iz il).2.1 = some t.startX) ∧
    (iz = true → (startingPoint t ix iz il).2.2.1 = t.startL ∧ (startingPoint t ix iz il).2.2.2.1 = t.startU) ∧
    (il = true → (startingPoint t ix iz il).2.2.2.2 = t.startLam) ∧
    (ix = false → (startingPoint t ix iz il).2.1 = none) ∧ (iz = false → (startingPoint t ix iz il).2.2.1 = none ∧ (startingPoint t ix iz il).2.2.2.1 = none) ∧
    (il = false → (startingPoint t ix iz il).2.2.2.2 = none) := by
  cases ix <;> cases iz <;> cases il <;> simp [startingPoint, Option.isSome_iff_ne_none]

/-- C45: an array is read exactly when its first `n` entries are there; NULL only for `n = 0`. -/
theorem readArr_iff {α : Type} (n : ℕ) (a : Option (List α)) (r : List α) : readArr n a = some r ↔ (a = none ∧ n = 0 ∧ r = []) ∨ ∃ l, a = some l ∧ n ≤ l.length ∧ r = l.take n := by
  unfold readArr
  cases a with
  | none => by_cases h : n = 0 <;> simp [h, eq_comm]
  | some l => by_cases h : n ≤ l.length <;> simp [h, eq_comm]

end Verif.Slv

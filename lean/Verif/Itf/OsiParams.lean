import Mathlib.Data.Rat.Lemmas
import Mathlib.Algebra.Order.Field.Rat
import Mathlib.Tactic.NormNum
/-! # C104: parameters of the Osi interface

src/Interfaces/BonOsiTMINLPInterface.cpp: `setIntParam` 1564-1590, `setDblParam` 1594-1628, `setStrParam` 1633-1649, `getIntParam` 1653-1675, `getDblParam` 1679-1710,
`getStrParam` 1715-1732.

Simplifications: the base class (Osi, not part of the repository) stores a parameter it is given and answers `true`; the solver `app_` is there; messages are left out. -/
namespace Verif.Itf.OsiParams

/-- `OsiIntParam`. -/
inductive IntKey
  | maxIter | maxIterHot | names | last
  deriving DecidableEq, Repr

/-- `OsiDblParam`. -/
inductive DblKey
  | dualLimit | primalLimit | dualTol | primalTol | offset | last
  deriving DecidableEq, Repr

/-- `OsiStrParam`. -/
inductive StrKey
  | probName | solverName | last
  deriving DecidableEq, Repr

/-- `OsiDualObjectiveLimit_`, the arrays of the base class (only the entries reached) and option `tol`. -/
structure S where
  dualLimit : ℚ
  baseTol : ℚ
  baseOffset : ℚ
  name : String
  tol : ℚ
  deriving DecidableEq, Repr

/-- `OsiSolverInterface::setDblParam` for the two keys it is called with. -/
def baseSet (s : S) (k : DblKey) (v : ℚ) : S × Bool :=
  match k with
  | .primalTol => ({ s with baseTol := v }, true)
  | .offset => ({ s with baseOffset := v }, true)
  | _ => (s, false)

inductive Set
  | int (k : IntKey) (v : ℤ)
  | dbl (k : DblKey) (v : ℚ)
  | str (k : StrKey) (v : String)
  deriving DecidableEq, Repr

/-- The setters (BonOsiTMINLPInterface.cpp:1564-1649) with their answers; the case of the primal tolerance falls through to the base class (1613-1618). -/
def set (s : S) : Set → S × Bool
  | .int _ _ => (s, false)
  | .dbl .dualLimit v => ({ s with dualLimit := v }, true)
  | .dbl .primalLimit _ => (s, false)
  | .dbl .dualTol _ => (s, false)
  | .dbl .primalTol v => baseSet s .primalTol v
  | .dbl .offset v => baseSet s .offset v
  | .dbl .last _ => (s, false)
  | .str .probName v => ({ s with name := v }, true)
  | .str .solverName _ => (s, false)
  | .str .last _ => (s, false)

/-- `getIntParam` (BonOsiTMINLPInterface.cpp:1653-1675): answer and value; `2147483647` is `COIN_INT_MAX`. -/
def getInt (_ : S) (_ : IntKey) (_ : ℤ) : Bool × ℤ := (false, -2147483647)

/-- `getDblParam` (BonOsiTMINLPInterface.cpp:1679-1710) with the value of the variable given; `inf` = `getInfinity()`. -/
def getDbl (inf : ℚ) (s : S) (k : DblKey) (old : ℚ) : Bool × ℚ :=
  match k with
  | .dualLimit => (true, s.dualLimit)
  | .primalLimit => (true, inf)
  | .dualTol => (false, old)
  | .primalTol => let _value := s.tol; (true, 1 / 10 ^ 7)
  | .offset => (true, s.baseOffset)
  | .last => (false, old)

/-- `getStrParam` (BonOsiTMINLPInterface.cpp:1715-1732). -/
def getStr (s : S) (k : StrKey) (old : String) : Bool × String :=
  match k with
  | .probName => (true, s.name)
  | .solverName => (true, "Ipopt")
  | .last => (false, old)

def run : S → List Set → S
  | s, [] => s
  | s, o :: os => run (set s o).1 os

/-! ## Specification -/

/-- The keys that can be set. -/
def Settable : Set → Prop
  | .dbl .dualLimit _ | .dbl .offset _ | .str .probName _ => True
  | _ => False

/-- Last value given for a key of type double. -/
def lastDbl (k : DblKey) : List Set → Option ℚ
  | [] => none
  | .dbl k' v :: os => (lastDbl k os).or (if k' = k then some v else none)
  | _ :: os => lastDbl k os

/-- Last value given for a key of type string. -/
def lastStr (k : StrKey) : List Set → Option String
  | [] => none
  | .str k' v :: os => (lastStr k os).or (if k' = k then some v else none)
  | _ :: os => lastStr k os

/-- After any calls, the three parameters that can be set have the last value given (or their first one); all others have the values they always have. -/
theorem values_exact (inf : ℚ) (os : List Set) : ∀ (s : S) (x : ℚ) (w : String) (i : ℤ) (ik : IntKey),
    getDbl inf (run s os) .dualLimit x = (true, (lastDbl .dualLimit os).getD s.dualLimit) ∧
    getDbl inf (run s os) .offset x = (true, (lastDbl .offset os).getD s.baseOffset) ∧
    getStr (run s os) .probName w = (true, (lastStr .probName os).getD s.name) ∧
    getDbl inf (run s os) .primalLimit x = (true, inf) ∧ getDbl inf (run s os) .primalTol x = (true, 1 / 10 ^ 7) ∧
    getDbl inf (run s os) .dualTol x = (false, x) ∧ getDbl inf (run s os) .last x = (false, x) ∧
    getStr (run s os) .solverName w = (true, "Ipopt") ∧ getStr (run s os) .last w = (false, w) ∧ (getInt (run s os) ik i).1 = false := by
  induction os with
  | nil => intro s x w i ik; simp [run, lastDbl, lastStr, getDbl, getStr, getInt]
  | cons o os ih =>
    intro s x w i ik
    obtain ⟨h1, h2, h3, h4, h5, h6, h7, h8, h9, h10⟩ := ih (set s o).1 x w i ik
    refine ⟨?_, ?_, ?_, h4, h5, h6, h7, h8, h9, h10⟩
    · refine h1.trans ?_
      cases o with
      | int k v => rfl
      | str k v => cases k <;> rfl
      | dbl k v => cases k <;> cases h : lastDbl .dualLimit os <;> simp [lastDbl, h, set, baseSet]
    · refine h2.trans ?_
      cases o with
      | int k v => rfl
      | str k v => cases k <;> rfl
      | dbl k v => cases k <;> cases h : lastDbl .offset os <;> simp [lastDbl, h, set, baseSet]
    · refine h3.trans ?_
      cases o with
      | int k v => rfl
      | str k v => cases k <;> cases h : lastStr .probName os <;> simp [lastStr, h, set]
      | dbl k v => cases k <;> rfl

/-- A setter answers `true` exactly for the keys that can be set and for the primal tolerance; if it answers `false` nothing changes. -/
theorem accepted_iff (s : S) (o : Set) : ((set s o).2 = true ↔ Settable o ∨ ∃ v, o = .dbl .primalTol v) ∧ ((set s o).2 = false → (set s o).1 = s) := by
  cases o with
  | int k v => simp [set, Settable]
  | dbl k v => cases k <;> simp [set, baseSet, Settable]
  | str k v => cases k <;> simp [set, Settable]

/-- A value accepted is the value returned from then on, if it is not for the primal tolerance. -/
theorem accepted_returned_partial (inf : ℚ) (s : S) (o : Set) (h : (set s o).2 = true) (hp : ∀ v, o ≠ .dbl .primalTol v) (x : ℚ) (w : String) :
    match o with
    | .dbl k v => getDbl inf (set s o).1 k x = (true, v)
    | .str k v => getStr (set s o).1 k w = (true, v)
    | .int k v => getInt (set s o).1 k 0 = (true, v) := by
  have h' := ((accepted_iff s o).1.mp h).resolve_right (fun ⟨v, hv⟩ => hp v hv)
  cases o with
  | int k v => exact h'.elim
  | dbl k v => cases k <;> first | exact h'.elim | rfl
  | str k v => cases k <;> first | exact h'.elim | rfl

/-- The primal tolerance is refused in a message, accepted by the answer, and never returned. -/
theorem primal_tolerance_not_kept (inf : ℚ) (s : S) (v x : ℚ) (h : v ≠ 1 / 10 ^ 7) :
    (set s (.dbl .primalTol v)).2 = true ∧ getDbl inf (set s (.dbl .primalTol v)).1 .primalTol x ≠ (true, v) := by
  refine ⟨rfl, fun he => h ?_⟩
  simp only [getDbl, Prod.mk.injEq, true_and] at he
  exact he.symm

/-- The primal tolerance returned is not option `tol` either. -/
theorem tol_ignored (inf : ℚ) (s : S) (v x : ℚ) : getDbl inf { s with tol := v } .primalTol x = getDbl inf s .primalTol x := rfl

/-- No parameter of type int can be set or read; the value read is a number nobody gave, with any variable passed. -/
theorem int_params (s : S) (k : IntKey) (v old : ℤ) : (set s (.int k v)).2 = false ∧ getInt (set s (.int k v)).1 k old = (false, -2147483647) := ⟨rfl, rfl⟩

example : getDbl 1000 (run ⟨1, 2, 0, "", 1 / 100⟩ [.dbl .dualLimit 5, .dbl .primalTol 9, .dbl .offset 4, .dbl .dualLimit 7, .str .probName "p"]) .dualLimit 0 = (true, 7) := by
  decide +kernel
example : (set ⟨1, 2, 0, "", 1 / 100⟩ (.dbl .primalTol (1 / 100))).2 = true ∧ getDbl 1000 (set ⟨1, 2, 0, "", 1 / 100⟩ (.dbl .primalTol (1 / 100))).1 .primalTol 0 = (true, 1 / 10000000) := by
  decide +kernel
example : Settable (.dbl .offset 3) := trivial
end Verif.Itf.OsiParams

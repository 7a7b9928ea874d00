import Verif.Common.Nlp
import Mathlib.Data.Rat.Floor
import Mathlib.Algebra.Order.Floor.Ring
/-! # Model of `TNLPSolver::zeroDimension` and of the modifiable state of `TMINLP2TNLP`

src/Interfaces/BonTNLPSolver.cpp:77-161; src/Interfaces/BonTMINLP2TNLP.cpp:238-397, 618-629, 668-696; BonTMINLP2TNLP.hpp:207-211;
src/Interfaces/BonOsiTMINLPInterface.hpp:965-970.  `none` = failed assertion or undefined behaviour. -/
namespace Verif.Itf

/-- Verdict of `zeroDimension` with what is passed to `finalize_solution`. -/
structure ZD where
  optimal : Bool
  x : List ℚ
  g : List ℚ
  obj : ℚ

/-- A row within its bounds up to 1e-7 (BonTNLPSolver.cpp:121). -/
def rowOk : List ℚ → List ℚ → List ℚ → Bool
  | g :: gs, l :: ls, u :: us => !(g - l < -(1 / 10 ^ 7) || g - u > 1 / 10 ^ 7) && rowOk gs ls us
  | _, _, _ => true

/-- `zeroDimension` (BonTNLPSolver.cpp:77-161); `none` = returns 0 (the problem is left to the solver). -/
def zeroDimension (p : Nlp) : Option ZD :=
  if (List.zipWith (fun u l => decide (u - l > 1 / 10 ^ 5)) p.xu p.xl).any id then none
  else some ⟨rowOk (p.evalG p.xl) p.gl p.gu, p.xl, p.evalG p.xl, p.evalF p.xl⟩

/-- Modifiable part of `TMINLP2TNLP`. -/
structure T where
  n : Nat
  m : Nat
  xl : List ℚ
  xu : List ℚ
  user : List ℚ       -- x_init_user_
  xinit : List ℚ      -- x_init_
  duals : Bool        -- duals_init_ != NULL
  deriving DecidableEq

/-- Setter calls. -/
inductive TOp
  | bounds (l u : List ℚ) | lowers (l : List ℚ) | uppers (u : List ℚ)
  | bound (i : Nat) (l u : ℚ) | lower (i : Nat) (l : ℚ) | upper (i : Nat) (u : ℚ)
  | reset | setx (x : List ℚ) | setDuals (d : List ℚ)

/-- `std::vector::resize(k, 0.)`. -/
def resize (v : List ℚ) (k : Nat) : List ℚ := v.take k ++ List.replicate (k - v.length) 0

/-- Copying an array over the front of a vector of at least its size. -/
def overwrite (v x : List ℚ) : List ℚ := x ++ v.drop x.length

/-- BonTMINLP2TNLP.cpp:238-303. -/
def tstep (s : T) : TOp → Option T
  | .bounds l u => if l.length = s.n ∧ u.length = s.n then some { s with xl := l, xu := u } else none
  | .lowers l => if l.length = s.n then some { s with xl := l } else none
  | .uppers u => if u.length = s.n then some { s with xu := u } else none
  | .bound i l u => if i < s.n then some { s with xl := s.xl.set i l, xu := s.xu.set i u } else none
  | .lower i l => if i < s.n then some { s with xl := s.xl.set i l } else none
  | .upper i u => if i < s.n then some { s with xu := s.xu.set i u } else none
  | .reset => some { s with xinit := [] }
  | .setx x => if x.length = s.n then
      some { s with xinit := overwrite (if s.xinit.length < s.n then resize s.xinit s.n else s.xinit) x } else none
  | .setDuals d => if d.length = 2 * s.n + s.m then
      some { s with xinit := (resize s.xinit (3 * s.n + s.m)).take s.n ++ d, duals := true } else none

def trun (s : T) : List TOp → Option T
  | [] => some s
  | op :: ops => (tstep s op).bind (fun s => trun s ops)

/-- Answer of `get_starting_point` (cpp:360-397) with `init_x`, `init_z` and `init_lambda` as given; the first component is the returned bool. -/
def getStart (s : T) (ix iz il : Bool) : Option (Bool × List ℚ × List ℚ × List ℚ) :=
  let x := if ix then (if s.xinit = [] then s.user else s.xinit.take s.n) else []
  if iz ∨ il then
    if ¬ s.duals then some (false, x, [], [])
    else if s.xinit.length = 3 * s.n + s.m then
      some (true, x, if iz then (s.xinit.drop s.n).take (2 * s.n) else [], if il then (s.xinit.drop (3 * s.n)).take s.m else [])
    else none
  else some (true, x, [], [])

/-- `has_x_init` (hpp:207-211). -/
def hasXInit (s : T) : Nat := if s.xinit = [] then 0 else if s.duals then 2 else 1

/-- `force_fractionnal_sol` (cpp:618-629). -/
def forceFractional : List Bool → List ℚ → List ℚ → List ℚ → List ℚ
  | b :: bs, l :: ls, u :: us, x :: xs =>
    (if b ∧ l < u + 1 / 2 then (⌈l⌉ : ℚ) + 1 / 2 else x) :: forceFractional bs ls us xs
  | _, _, _, xs => xs

/-- Rounding part of `check_solution` without objects (cpp:682-688). -/
def roundSol : List Bool → List ℚ → List ℚ
  | b :: bs, x :: xs => (if b then (⌊x + 1 / 2⌋ : ℚ) else x) :: roundSol bs xs
  | _, xs => xs

/-- Error part of `check_solution` (cpp:691-695). -/
def checkErr (e : ℚ) : List ℚ → List ℚ → List ℚ → ℚ
  | g :: gs, l :: ls, u :: us => checkErr (max (max e (max 0 (l - g))) (max 0 (-u + g))) gs ls us
  | _, _, _ => e

/-- `check_solution` (cpp:668-696): error, rounded point, objective. -/
def checkSolution (p : Nlp) (x : List ℚ) : ℚ × List ℚ × ℚ :=
  let y := roundSol p.isInt x
  (checkErr 0 (p.evalG y) p.gl p.gu, y, p.evalF y)

/-- `round_and_check` (BonOsiTMINLPInterface.hpp:965-970): is the status set to "proven infeasible"? -/
def roundAndCheck (p : Nlp) (x : List ℚ) : Bool := (checkSolution p x).1 = 0

end Verif.Itf

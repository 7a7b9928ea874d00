import Verif.Oa.Spec
import Mathlib.Data.Rat.Floor
/-!
# Model of the cut strengthener (src/Interfaces/BonCutStrengthener.cpp)

The NLP that computes a strengthened bound is an oracle `bnd lower xl xu` (`none` = not solved).  `none` as a result of a model
function is a failed assertion.
-/
namespace Verif.Strengthen
open Verif.Oa

/-- `StrengthenCut` (BonCutStrengthener.cpp:221-304): which bound is replaced depends on which one is infinite; returns the success flag
and the two bounds. -/
def strengthenCut (inf : ℚ) (bnd : Bool → (Nat → ℚ) → (Nat → ℚ) → Option ℚ) (xl xu : Nat → ℚ) (lb ub : ℚ) :
    Option (Bool × ℚ × ℚ) :=
  if lb ≤ -inf then
    if ub < inf then
      match bnd false xl xu with
      | some b => some (true, lb, b)
      | none => some (false, lb, ub)
    else none
  else
    if ub ≥ inf then
      match bnd true xl xu with
      | some b => some (true, b, ub)
      | none => some (false, lb, ub)
    else none

/-- Distance of a value to the nearest of its two integer neighbours. -/
def frac (q : ℚ) : ℚ := min (q - (⌊q⌋ : ℚ)) ((⌈q⌉ : ℚ) - q)

/-- Search of the most fractional discrete variable of the cut (BonCutStrengthener.cpp:64-78): position in the cut. -/
def mostFrac (n : Nat) (isInt : Nat → Bool) (x : Nat → ℚ) : List (Nat × ℚ) → Nat → Option Nat → ℚ → Option Nat
  | [], _, best, _ => best
  | e :: es, i, best, viol =>
    if e.1 < n ∧ isInt e.1 ∧ frac (x e.1) > viol then mostFrac n isInt x es (i + 1) (some i) (frac (x e.1))
    else mostFrac n isInt x es (i + 1) best viol

/-- `HandleOneCut` (BonCutStrengthener.cpp:38-134).  `disj` = disjunctive cuts on the most fractional variable. -/
def handleOneCut (inf : ℚ) (bnd : Bool → (Nat → ℚ) → (Nat → ℚ) → Option ℚ) (disj isTight : Bool) (n : Nat) (isInt : Nat → Bool)
    (x lo up : Nat → ℚ) (c : Cut) : Option (Bool × Cut) :=
  let plain : Option (Bool × Cut) :=
    if isTight then some (true, c)
    else (strengthenCut inf bnd lo up c.lb c.ub).map (fun r => (r.1, ⟨c.co, r.2.1, r.2.2⟩))
  if disj then
    match mostFrac n isInt x c.co 0 none (1 / 1000000) with
    | none => plain
    | some k =>
      match c.co[k]? with
      | none => none
      | some e =>
        let d : ℚ := (⌊x e.1⌋ : ℚ)
        match strengthenCut inf bnd lo (Function.update up e.1 d) c.lb c.ub with
        | none => none
        | some (false, _, _) => some (false, c)
        | some (true, lbd, ubd) =>
          match strengthenCut inf bnd (Function.update lo e.1 (d + 1)) up c.lb c.ub with
          | none => none
          | some (false, _, _) => some (false, c)
          | some (true, lbu, ubu) =>
            if c.lb ≤ -inf then
              some (true, ⟨c.co.set k (e.1, e.2 + (ubd - ubu)), c.lb, ubu + (d + 1) * (ubd - ubu)⟩)
            else
              some (true, ⟨c.co.set k (e.1, e.2 + (lbd - lbu)), lbu + (d + 1) * (lbd - lbu), c.ub⟩)
  else plain

end Verif.Strengthen

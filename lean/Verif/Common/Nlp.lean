import Mathlib.Algebra.BigOperators.Group.List.Basic
import Mathlib.Algebra.Order.Field.Rat
/-!
# Common vocabulary: what an NLP interface (Ipopt `TNLP` / Bonmin `TMINLP`) reports, and what it means

Points and arrays are lists; a callee that is handed `(n, x)` sees exactly the first `n` entries (`x.take n`).
-/
namespace Verif

/-- The data reported by a `TMINLP`/`TNLP` object through its callbacks
(src/Interfaces/BonTMINLP.hpp: get_nlp_info, get_bounds_info, eval_f, ...).  User functions are arbitrary. -/
structure Nlp where
  n : Nat
  m : Nat
  nnzJac : Nat
  nnzH : Nat
  /-- 1 for Fortran index style, 0 for C style -/
  off : Nat
  xl : List ℚ
  xu : List ℚ
  gl : List ℚ
  gu : List ℚ
  /-- variable `i` is integer or binary -/
  isInt : List Bool
  /-- constraint `i` is declared linear -/
  isLin : List Bool
  start : List ℚ
  evalF : List ℚ → ℚ
  gradF : List ℚ → List ℚ
  evalG : List ℚ → List ℚ
  evalGi : List ℚ → Nat → ℚ
  jacS : List (Nat × Nat)
  jacV : List ℚ → List ℚ
  /-- gradient of one row: indices and values -/
  gradGi : List ℚ → Nat → List (Nat × ℚ)
  hS : List (Nat × Nat)
  hV : List ℚ → ℚ → List ℚ → List ℚ

/-- The array lengths announced by an `Nlp` are those of its answers. -/
structure Nlp.Sized (p : Nlp) : Prop where
  xl : p.xl.length = p.n
  xu : p.xu.length = p.n
  gl : p.gl.length = p.m
  gu : p.gu.length = p.m
  isInt : p.isInt.length = p.n
  isLin : p.isLin.length = p.m
  start : p.start.length = p.n
  gradF : ∀ x, (p.gradF x).length = p.n
  evalG : ∀ x, (p.evalG x).length = p.m
  jacS : p.jacS.length = p.nnzJac
  jacV : ∀ x, (p.jacV x).length = p.nnzJac
  hS : p.hS.length = p.nnzH
  hV : ∀ x s l, (p.hV x s l).length = p.nnzH

/-- `l ≤ v ≤ u` where a bound at or beyond `∓inf` means "no bound". -/
def within (inf l u v : ℚ) : Prop := (l ≤ -inf ∨ l ≤ v) ∧ (inf ≤ u ∨ v ≤ u)

/-- `v` respects the bound lists `l`, `u` componentwise. -/
def Box (inf : ℚ) (l u v : List ℚ) : Prop :=
  l.length = v.length ∧ u.length = v.length ∧
  ∀ (i : Nat) (a b c : ℚ), l[i]? = some a → u[i]? = some b → v[i]? = some c → within inf a b c

/-- Integrality of the listed components. -/
def IntOn (isInt : List Bool) (x : List ℚ) : Prop :=
  ∀ (i : Nat) (v : ℚ), isInt[i]? = some true → x[i]? = some v → ∃ z : ℤ, v = (z : ℚ)

/-- Feasible points of the mixed-integer problem. -/
def Nlp.Feas (inf : ℚ) (p : Nlp) (x : List ℚ) : Prop :=
  x.length = p.n ∧ Box inf p.xl p.xu x ∧ IntOn p.isInt x ∧ Box inf p.gl p.gu (p.evalG x)

/-- Global minimisers. -/
def Nlp.Opt (inf : ℚ) (p : Nlp) (x : List ℚ) : Prop :=
  p.Feas inf x ∧ ∀ y, p.Feas inf y → p.evalF x ≤ p.evalF y

/-- Dot product of lists. -/
def dot (a b : List ℚ) : ℚ := (List.zipWith (· * ·) a b).sum

/-- Product of row `r` of a triplet matrix (indices shifted by `off`) with the vector `d`. -/
def rowDot (off : Nat) (S : List (Nat × Nat)) (V : List ℚ) (r : Nat) (d : List ℚ) : ℚ :=
  ((S.zip V).map (fun e => if e.1.1 = r + off then e.2 * d.getD (e.1.2 - off) 0 else 0)).sum

/-- Product of a sparse row with `d`. -/
def sparseRow (off : Nat) (g : List (Nat × ℚ)) (d : List ℚ) : ℚ :=
  (g.map (fun e => e.2 * d.getD (e.1 - off) 0)).sum

/-- The quadratic form of a triplet matrix listing one triangle of a symmetric matrix. -/
def triForm (off : Nat) (S : List (Nat × Nat)) (V : List ℚ) (d : List ℚ) : ℚ :=
  ((S.zip V).map (fun e => (if e.1.1 = e.1.2 then 1 else 2) * (e.2 * d.getD (e.1.1 - off) 0 * d.getD (e.1.2 - off) 0))).sum

end Verif

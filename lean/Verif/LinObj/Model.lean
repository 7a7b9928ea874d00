import Verif.Common.Nlp
/-!
# Model of `TMINLPLinObj` (src/Algorithms/QuadCuts/BonTMINLPLinObj.cpp/.hpp): the objective moved to constraint 0
-/
namespace Verif.LinObj

/-- Outcome of the single-row gradient callback: `jCol` written (if asked), values written, `nele` reported.
`none` in the model means undefined behaviour. -/
structure RowGrad where
  nele : Option Nat
  idx : Option (List Nat)
  vals : List ℚ
deriving DecidableEq

/-- All callbacks of the reformulated problem.
setTminlp (cpp:30-41: n+1, m+1, nnz_jac+n+1), get_nlp_info (cpp:43-54), get_variables_types (hpp:68-73),
get_constraints_linearity (cpp:85-91), get_bounds_info (cpp:93-107), get_starting_point (cpp:109-123, for `init_x`),
eval_f (hpp:96-100), eval_grad_f (hpp:104-112), eval_g (cpp:126-136), eval_jac_g (cpp:138-162), eval_h (cpp:164-174; the
factor of the original objective is `lambda[0]`, the given objective factor is ignored), eval_gi (cpp:177-189).
`DBL_MAX` is the parameter `inf`. `gradGi` is the values query with non-NULL arrays (cpp:191-208). -/
def lin (inf : ℚ) (p : Nlp) : Nlp where
  n := p.n + 1
  m := p.m + 1
  nnzJac := p.nnzJac + p.n + 1
  nnzH := p.nnzH
  off := p.off
  xl := p.xl ++ [-inf]
  xu := p.xu ++ [inf]
  gl := -inf :: p.gl
  gu := 0 :: p.gu
  isInt := p.isInt ++ [false]
  isLin := false :: p.isLin
  start := p.start ++ [p.evalF p.start]
  evalF := fun x => x.getD p.n 0
  gradF := fun _ => List.replicate p.n 0 ++ [1]
  evalG := fun x => (p.evalF (x.take p.n) - x.getD p.n 0) :: p.evalG (x.take p.n)
  evalGi := fun x i => if i = 0 then p.evalF (x.take p.n) - x.getD p.n 0 else p.evalGi (x.take p.n) (i - 1)
  jacS := (List.range (p.n + 1)).map (fun i => (p.off, i + p.off)) ++ p.jacS.map (fun e => (e.1 + 1, e.2))
  jacV := fun x => p.gradF (x.take p.n) ++ [-1] ++ p.jacV (x.take p.n)
  gradGi := fun x i =>
    if i = 0 then (List.range (p.n + 1)).zipWith (fun i v => (i + p.off, v)) (p.gradF (x.take p.n) ++ [-1])
    else p.gradGi (x.take p.n) (i - 1)
  hS := p.hS
  hV := fun x _ l => p.hV (x.take p.n) (l.getD 0 0) l.tail

/-- `eval_grad_gi` for row 0 with possibly NULL arrays (cpp:198-204): the index array is filled if given, the values are
written unconditionally (NULL = undefined behaviour), the number of elements is never set. -/
def gradRow0 (p : Nlp) (x : List ℚ) (wantIdx haveVals : Bool) : Option RowGrad :=
  if haveVals then
    some { nele := none,
           idx := if wantIdx then some ((List.range (p.n + 1)).map (· + p.off)) else none,
           vals := p.gradF (x.take p.n) ++ [-1] }
  else none

end Verif.LinObj

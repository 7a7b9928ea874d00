import Verif.Common.Nlp
/-!
# Model of `TNLP2FPNLP` (src/Interfaces/BonTNLP2FPNLP.cpp/.hpp): feasibility-pump and local-branching reformulation

`none` = undefined behaviour or a violated calling contract of the wrapped problem.
-/
namespace Verif.Fp

/-- Data members (BonTNLP2FPNLP.hpp:214-259). -/
structure Par where
  inds : List Nat
  vals : List ℚ
  lam : ℚ
  sig : ℚ
  norm : Nat
  scale : ℚ
  useObj : Bool
  useCut : Bool
  useLoc : Bool
  cutoff : ℚ
  rhs : ℚ

/-- Constructor (cpp:17-31); `dmax` is COIN_DBL_MAX. -/
def Par.new (dmax scale : ℚ) : Par :=
  { inds := [], vals := [], lam := 1, sig := 1, norm := 2, scale := scale, useObj := false, useCut := false, useLoc := false,
    cutoff := dmax, rhs := dmax }

/-- `set_cutoff` (cpp:53-63). -/
def setCutoff (c : ℚ) : ℚ :=
  if c > 1 / 10 ^ 8 then (1 - 1 / 10 ^ 6) * c
  else if c < -(1 / 10 ^ 8) then (1 + 1 / 10 ^ 6) * c
  else -(1 / 10 ^ 6)

/-- `OsiTMINLPInterface::switchToFeasibilityProblem(n, x_bar, inds, a, s, L)` and `solveFeasibilityProblem` with the same arguments
(BonOsiTMINLPInterface.cpp:2277-2291, 2315-2329). -/
def Par.toFp (q : Par) (vals : List ℚ) (inds : List Nat) (a s : ℚ) (L : Nat) : Par :=
  { q with useObj := true, vals := vals, inds := inds, lam := a, sig := s, norm := L, useCut := false, useLoc := false }

/-- `OsiTMINLPInterface::switchToFeasibilityProblem(n, x_bar, inds, rhs)`: local branching (BonOsiTMINLPInterface.cpp:2293-2306). -/
def Par.toLoc (q : Par) (vals : List ℚ) (inds : List Nat) (rhs : ℚ) : Par :=
  { q with useObj := false, vals := vals, inds := inds, useCut := false, useLoc := true, rhs := rhs }

/-- `OsiTMINLPInterface::solveFeasibilityProblem(n, x_bar, inds, L, cutoff)` (BonOsiTMINLPInterface.cpp:2339-2354). -/
def Par.toFpCut (q : Par) (vals : List ℚ) (inds : List Nat) (L : Nat) (c : ℚ) : Par :=
  { q with useObj := true, vals := vals, inds := inds, lam := 1, sig := 0, norm := L, useCut := true, cutoff := setCutoff c, useLoc := false }

/-- `x[i]`; indices are in range for every parameter set of interest (stated as a hypothesis where needed). -/
def at' (x : List ℚ) (i : Nat) : ℚ := x.getD i 0

/-- Sum used for norm 1 and for the local-branching row (cpp:86-93, 219-225, 238-243). -/
def l1 : List Nat → List ℚ → List ℚ → ℚ
  | i :: is, v :: vs, x => (if v ≤ 1 / 10 then at' x i else 1 - at' x i) + l1 is vs x
  | _, _, _ => 0

/-- Sum used for norm 2 (cpp:80-84). -/
def l2 : List Nat → List ℚ → List ℚ → ℚ
  | i :: is, v :: vs, x => (at' x i - v) * (at' x i - v) + l2 is vs x
  | _, _, _ => 0

/-- `dist_to_point` (cpp:75-96). -/
def dist (q : Par) (x : List ℚ) : ℚ := if q.norm = 2 then l2 q.inds q.vals x else if q.norm = 1 then l1 q.inds q.vals x else 0

/-- `eval_f` (cpp:157-169). -/
def evalF (q : Par) (p : Nlp) (x : List ℚ) : ℚ :=
  if q.useObj then p.evalF x * ((1 - q.lam) * q.sig) + q.scale * q.lam * dist q x else p.evalF x

/-- Accumulation of the distance gradient (cpp:180-192); `norm ≠ 2` is the 1-norm branch. -/
def addGrad (q : Par) (x : List ℚ) : List Nat → List ℚ → List ℚ → List ℚ
  | i :: is, v :: vs, g =>
    addGrad q x is vs (g.modify i (fun a =>
      if q.norm = 2 then a + q.scale * 2 * q.lam * (at' x i - v)
      else if v ≤ 1 / 10 then a + q.scale * q.lam else a - q.scale * q.lam))
  | _, _, g => g

/-- `eval_grad_f` (cpp:171-197). -/
def gradF (q : Par) (p : Nlp) (x : List ℚ) : List ℚ :=
  if q.useObj then addGrad q x q.inds q.vals ((p.gradF x).map (· * ((1 - q.lam) * q.sig))) else p.gradF x

/-- Number of added rows. -/
def extra (q : Par) : Nat := (if q.useCut then 1 else 0) + (if q.useLoc then 1 else 0)

/-- `get_nlp_info` (cpp:98-126). -/
def infoM (q : Par) (p : Nlp) : Nat := p.m + extra q
def infoJac (q : Par) (p : Nlp) : Nat := p.nnzJac + ((if q.useCut then p.n else 0) + (if q.useLoc then q.vals.length else 0))
def infoH (q : Par) (p : Nlp) : Nat := if q.useObj ∧ q.norm = 2 then p.nnzH + q.vals.length else p.nnzH

/-- `get_bounds_info` (cpp:128-155). -/
def gl (q : Par) (inf : ℚ) (p : Nlp) : List ℚ := p.gl ++ ((if q.useCut then [-inf] else []) ++ (if q.useLoc then [-inf] else []))
def gu (q : Par) (p : Nlp) : List ℚ := p.gu ++ ((if q.useCut then [q.cutoff] else []) ++ (if q.useLoc then [q.rhs] else []))

/-- `eval_g` (cpp:199-246): the cutoff row is the value of the *reformulated* objective. -/
def evalG (q : Par) (p : Nlp) (x : List ℚ) : List ℚ :=
  p.evalG x ++ ((if q.useCut then [evalF q p x] else []) ++ (if q.useLoc then [l1 q.inds q.vals x] else []))

/-- Writing `xs` at offset `k` of an array. -/
def writeAt {α : Type} (mem : List α) (k : Nat) (xs : List α) : Option (List α) :=
  if xs = [] then some mem
  else if k + xs.length ≤ mem.length then some (mem.take k ++ xs ++ mem.drop (k + xs.length)) else none

/-- Offsets (from the start of the arrays) at which the two added rows are written (cpp:258-272, 278-303, 313-345, 349-368).
With both rows the second pointer shift is relative to the already shifted pointer. -/
def offCut (q : Par) (p : Nlp) : Nat := infoJac q p - p.n - (if q.useLoc then q.vals.length else 0)
def offLoc (q : Par) (p : Nlp) : Nat :=
  if q.useCut then offCut q p + (infoJac q p - q.vals.length) else infoJac q p - q.vals.length

/-- Structure query of `eval_jac_g` (cpp:248-373) on an array of the announced size; unwritten slots are `none`. -/
def jacS (q : Par) (p : Nlp) : Option (List (Option (Nat × Nat))) := do
  let mem ← writeAt (List.replicate (infoJac q p) none) 0 (p.jacS.map some)
  let mem ← if q.useCut then
      writeAt mem (offCut q p) ((List.range p.n).map (fun i => some (infoM q p - (if q.useLoc then 2 else 1) + p.off, i + p.off)))
    else pure mem
  if q.useLoc then writeAt mem (offLoc q p) (q.inds.map (fun i => some (infoM q p - 1 + p.off, i + p.off))) else pure mem

/-- Value query of `eval_jac_g`. -/
def jacV (q : Par) (p : Nlp) (x : List ℚ) : Option (List (Option ℚ)) := do
  let mem ← writeAt (List.replicate (infoJac q p) none) 0 ((p.jacV x).map some)
  let mem ← if q.useCut then writeAt mem (offCut q p) ((gradF q p x).map some) else pure mem
  if q.useLoc then writeAt mem (offLoc q p) (q.vals.map (fun v => some (if v ≤ 1 / 10 then (1 : ℚ) else -1))) else pure mem

/-- Number of rows announced to the wrapped problem's `eval_jac_g` (cpp:257, 310, 346, 371): always the extended number. -/
def jacInnerM (q : Par) (p : Nlp) : Nat := infoM q p

/-- Slots of the distance Hessian as computed by `eval_h` (cpp:382). -/
def nnzObjH (q : Par) : Nat := if q.norm = 2 then q.inds.length else 0

/-- Factor given to the wrapped objective (cpp:385-412). -/
def hFactor (q : Par) (p : Nlp) (obj : ℚ) (l : List ℚ) : ℚ :=
  obj * (1 - q.lam) * q.sig + (if q.useCut then l.getD (infoM q p - extra q) 0 else 0)

/-- `eval_h`, structure (cpp:375-430): the wrapped problem is called with `nele_hess - nnz_obj_h` slots, which must be its own size. -/
def hS (q : Par) (p : Nlp) : Option (List (Nat × Nat)) :=
  if nnzObjH q ≤ infoH q p ∧ infoH q p - nnzObjH q = p.nnzH then
    some (p.hS ++ (if q.useObj ∧ q.norm = 2 then q.inds.map (fun i => (i + p.off, i + p.off)) else []))
  else none

/-- `eval_h`, values. -/
def hV (q : Par) (p : Nlp) (x : List ℚ) (obj : ℚ) (l : List ℚ) : Option (List ℚ) :=
  if nnzObjH q ≤ infoH q p ∧ infoH q p - nnzObjH q = p.nnzH then
    some (p.hV x (hFactor q p obj l) (l.take (infoM q p - extra q)) ++
      (if q.useObj ∧ q.norm = 2 then q.inds.map (fun _ => 2 * q.scale * q.lam * obj) else []))
  else none

/-- `get_constraints_linearity` (hpp:166-178): the LAST row is declared nonlinear when the cutoff row is on, and the row before it linear
when the local-branching row is on too. -/
def isLin (q : Par) (p : Nlp) : List Bool :=
  p.isLin ++ ((if q.useLoc then [true] else []) ++ (if q.useCut then [false] else []))

end Verif.Fp

import Verif.Fp.Props

/-!
# C14/C15: what the reformulation is after any sequence of switches
-/
namespace Verif.Fp

/-- The three ways the interface switches the reformulated problem. -/
inductive Switch
  | fp (vals : List ℚ) (inds : List Nat) (a s : ℚ) (L : Nat)
  | loc (vals : List ℚ) (inds : List Nat) (rhs : ℚ)
  | fpCut (vals : List ℚ) (inds : List Nat) (L : Nat) (c : ℚ)

def Switch.apply (q : Par) : Switch → Par
  | .fp v i a s L => q.toFp v i a s L
  | .loc v i r => q.toLoc v i r
  | .fpCut v i L c => q.toFpCut v i L c

/-- Everything a solver sees of the reformulation except second derivatives. -/
structure Seen (q q' : Par) (p : Nlp) : Prop where
  f : ∀ x, evalF q p x = evalF q' p x
  grad : ∀ x, gradF q p x = gradF q' p x
  m : infoM q p = infoM q' p
  jac : infoJac q p = infoJac q' p
  lo : ∀ inf, gl q inf p = gl q' inf p
  up : gu q p = gu q' p
  g : ∀ x, evalG q p x = evalG q' p x
  js : jacS q p = jacS q' p
  jv : ∀ x, jacV q p x = jacV q' p x
  lin : isLin q p = isLin q' p

theorem scale_kept (q : Par) (h : List Switch) : (h.foldl Switch.apply q).scale = q.scale := by
  induction h generalizing q with
  | nil => rfl
  | cons a h ih => rw [List.foldl_cons, ih]; cases a <;> rfl

/-- C14/C15: for any history of switches, what a solver sees (second derivatives apart) is determined by the last one. -/
theorem last_switch (dmax s : ℚ) (h : List Switch) (w : Switch) (p : Nlp) :
    Seen ((h ++ [w]).foldl Switch.apply (Par.new dmax s)) (w.apply (Par.new dmax s)) p := by
  rw [List.foldl_append, List.foldl_cons, List.foldl_nil]
  have hs := scale_kept (Par.new dmax s) h
  revert hs
  generalize h.foldl Switch.apply (Par.new dmax s) = q
  intro hs
  have hs : q.scale = s := hs
  have hgrad : ∀ (q q' : Par) (x : List ℚ), q.norm = q'.norm → q.scale = q'.scale → q.lam = q'.lam → ∀ is vs g, addGrad q x is vs g = addGrad q' x is vs g := by
    intro q q' x h1 h2 h3 is
    induction is with
    | nil => intro vs g; cases vs <;> rfl
    | cons i is ih => intro vs g; cases vs with
      | nil => rfl
      | cons v vs => simp only [addGrad, ih, h1, h2, h3]
  cases w with
  | fp v i a t L =>
    have hg : ∀ x, gradF (q.toFp v i a t L) p x = gradF ((Par.new dmax s).toFp v i a t L) p x := fun x => by
      unfold gradF
      rw [hgrad (q.toFp v i a t L) ((Par.new dmax s).toFp v i a t L) x rfl hs rfl]
      rfl
    have hf : ∀ x, evalF (q.toFp v i a t L) p x = evalF ((Par.new dmax s).toFp v i a t L) p x := fun x => by
      show p.evalF x * ((1 - a) * t) + q.scale * a * dist (q.toFp v i a t L) x = p.evalF x * ((1 - a) * t) + s * a * dist (q.toFp v i a t L) x
      rw [hs]
    exact ⟨hf, hg, rfl, rfl, fun _ => rfl, rfl, fun _ => rfl, rfl, fun _ => rfl, rfl⟩
  | loc v i r =>
    exact ⟨fun _ => rfl, fun _ => rfl, rfl, rfl, fun _ => rfl, rfl, fun _ => rfl, rfl, fun _ => rfl, rfl⟩
  | fpCut v i L c =>
    have hg : ∀ x, gradF (q.toFpCut v i L c) p x = gradF ((Par.new dmax s).toFpCut v i L c) p x := fun x => by
      unfold gradF
      rw [hgrad (q.toFpCut v i L c) ((Par.new dmax s).toFpCut v i L c) x rfl hs rfl]
      rfl
    have hf : ∀ x, evalF (q.toFpCut v i L c) p x = evalF ((Par.new dmax s).toFpCut v i L c) p x := fun x => by
      show p.evalF x * ((1 - 1) * 0) + q.scale * 1 * dist (q.toFpCut v i L c) x = p.evalF x * ((1 - 1) * 0) + s * 1 * dist (q.toFpCut v i L c) x
      rw [hs]
    refine ⟨hf, hg, rfl, rfl, fun _ => rfl, rfl, fun x => ?_, rfl, fun x => ?_, rfl⟩
    · show p.evalG x ++ ([evalF _ p x] ++ []) = p.evalG x ++ ([evalF _ p x] ++ [])
      exact congrArg (fun t => p.evalG x ++ ([t] ++ [])) (hf x)
    · have e : ∀ q' : Par, q'.useCut = true → q'.useLoc = false → jacV q' p x = (writeAt (List.replicate (p.nnzJac + (p.n + 0)) none) 0 ((p.jacV x).map some)).bind
          (fun mem => (writeAt mem (p.nnzJac + (p.n + 0) - p.n - 0) ((gradF q' p x).map some))) := by
        intro q' h1 h2
        simp [jacV, h1, h2, infoJac, offCut]
      rw [e _ rfl rfl, e _ rfl rfl]
      exact congrArg (fun t => (writeAt (List.replicate (p.nnzJac + (p.n + 0)) none) 0 ((p.jacV x).map some)).bind
          (fun mem => (writeAt mem (p.nnzJac + (p.n + 0) - p.n - 0) (List.map some t)))) (hg x)

/-- C14/C15: a fresh reformulation shows the wrapped problem unchanged (second derivatives apart). -/
theorem fresh_transparent (dmax s inf : ℚ) (p : Nlp) (x : List ℚ) :
    evalF (Par.new dmax s) p x = p.evalF x ∧ gradF (Par.new dmax s) p x = p.gradF x ∧ evalG (Par.new dmax s) p x = p.evalG x ∧
    gl (Par.new dmax s) inf p = p.gl ∧ gu (Par.new dmax s) p = p.gu ∧ infoM (Par.new dmax s) p = p.m ∧ infoJac (Par.new dmax s) p = p.nnzJac ∧
    infoH (Par.new dmax s) p = p.nnzH ∧ hS (Par.new dmax s) p = some p.hS ∧ isLin (Par.new dmax s) p = p.isLin := by
  simp [evalF, gradF, evalG, gl, gu, infoM, infoJac, infoH, hS, isLin, Par.new, extra, nnzObjH]

/-- C14: …but its Hessian leaves the objective out, whatever factor the solver asks for. -/
theorem fresh_hessian_drops_objective (dmax s obj : ℚ) (p : Nlp) (x l : List ℚ) :
    hV (Par.new dmax s) p x obj l = some (p.hV x 0 (l.take p.m)) := by
  simp [hV, Par.new, hFactor, nnzObjH, infoH, infoM, extra]

/-- C14: the Hessian of local branching depends on earlier switches: after a switch with the 1-norm it has the right size, on a fresh object (2-norm by
default) it has not. -/
theorem local_hessian_history (dmax s r a t : ℚ) (p : Nlp) (vals vals' : List ℚ) (inds inds' : List Nat) (hi : inds ≠ []) :
    hS ([Switch.fp vals' inds' a t 1, .loc vals inds r].foldl Switch.apply (Par.new dmax s)) p = some p.hS ∧
    hS ([Switch.loc vals inds r].foldl Switch.apply (Par.new dmax s)) p = none := by
  have : inds.length ≠ 0 := by simpa using hi
  constructor
  · simp [hS, Switch.apply, Par.toFp, Par.toLoc, Par.new, nnzObjH, infoH]
  · simp only [hS, Switch.apply, Par.toLoc, Par.new, nnzObjH, infoH, List.foldl_cons, List.foldl_nil]
    rw [if_neg]
    simp; omega

example : (hS ([Switch.loc [1] [1] 1].foldl Switch.apply (Par.new (10^30) 1)) LinObj.exP) = none :=
  (local_hessian_history (10^30) 1 1 0 0 LinObj.exP [1] [] [1] [] (by simp)).2

/-- A new wrapper has no fixed point, distance switched off, and no cutoff. -/
theorem par_new (dmax s : ℚ) : (Par.new dmax s).inds = [] ∧ (Par.new dmax s).vals = [] ∧ (Par.new dmax s).useObj = false ∧ (Par.new dmax s).useCut = false ∧ (Par.new dmax s).useLoc = false ∧
    (Par.new dmax s).cutoff = dmax ∧ (Par.new dmax s).rhs = dmax ∧ (Par.new dmax s).scale = s ∧ (Par.new dmax s).lam = 1 ∧ (Par.new dmax s).sig = 1 ∧ (Par.new dmax s).norm = 2 := ⟨rfl, rfl, rfl, rfl, rfl, rfl, rfl, rfl, rfl, rfl, rfl⟩

/-- Switching to a feasibility problem sets the point, the weights and the norm, and switches cutoff and local branching constraint off; their right-hand sides are kept. -/
theorem par_toFp (q : Par) (vals : List ℚ) (inds : List Nat) (a s : ℚ) (L : Nat) : q.toFp vals inds a s L = ⟨inds, vals, a, s, L, q.scale, true, false, false, q.cutoff, q.rhs⟩ := rfl

end Verif.Fp

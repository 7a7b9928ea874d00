import Verif.Dec.Help

/-!
# C31: saving and restoring the LP solver
`src/Algorithms/OaGenerators/BonOaDecBase.cpp`: `solverManip` (132-224), `generateCuts` (236-345).
-/
namespace Verif.Dec

/-- What is visible of an LP solver: rows, column bounds, cutoff (`OsiDualObjectiveLimit`), basis, log level of its message handler. -/
structure Lp (ρ β : Type) where
  rows : List ρ
  lo : List ℚ
  up : List ℚ
  cutoff : ℚ
  basis : β
  log : Nat
deriving DecidableEq

/-- The saved data (constructor 132-164): row count -1, NULL bounds and warm start become `none`; `cutoff_` is `DBL_MAX` if not saved. -/
structure Saved (β : Type) where
  rows : Option Nat
  lo : Option (List ℚ)
  up : Option (List ℚ)
  warm : Option β
  cutoff : ℚ
deriving DecidableEq

/-- The constructor (132-164): `solve` is what `resolve` does to the basis; the log level of the solver is set to 0. -/
def save {ρ β : Type} (dmax : ℚ) (solve : β → β) (si : Lp ρ β) (numRows basis bounds cutoff resolve : Bool) : Saved β × Lp ρ β :=
  (⟨if numRows then some si.rows.length else none, if bounds then some si.lo else none, if bounds then some si.up else none,
    if basis then some si.basis else none, if cutoff then si.cutoff else dmax⟩,
   { si with log := 0, basis := if resolve then solve si.basis else si.basis })

/-- Deleting the rows from `k` on (194-203); fewer rows than `k` gives a negative array size (exception or undefined behaviour). -/
def cutRows {ρ : Type} (k : Option Nat) (rows : List ρ) : Option (List ρ) :=
  match k with
  | none => some rows
  | some k => if rows.length < k then none else some (rows.take k)

/-- `restore` (191-224); setting a warm start that does not fit is an exception (219), which cannot happen for the row count saved with it. -/
def restore {ρ β : Type} (dmax : ℚ) (s : Saved β) (si : Lp ρ β) : Option (Lp ρ β) :=
  (cutRows s.rows si.rows).map fun rows =>
    { si with rows := rows, lo := s.lo.getD si.lo, up := s.up.getD si.up,
              cutoff := if s.cutoff < dmax then s.cutoff else si.cutoff, basis := s.warm.getD si.basis }

/-- What the algorithms do with the solver in between: install cuts, change bounds and cutoff, solve, set the log level; deleting a row is here to
show what restoring does not cover. -/
inductive LpOp (ρ β : Type) where
  | add (rs : List ρ)
  | setLo (i : Nat) (v : ℚ)
  | setUp (i : Nat) (v : ℚ)
  | cutoff (v : ℚ)
  | solve (f : β → β)
  | log (k : Nat)
  | del (i : Nat)

def Lp.step {ρ β : Type} (si : Lp ρ β) : LpOp ρ β → Lp ρ β
  | .add rs => { si with rows := si.rows ++ rs }
  | .setLo i v => { si with lo := si.lo.set i v }
  | .setUp i v => { si with up := si.up.set i v }
  | .cutoff v => { si with cutoff := v }
  | .solve f => { si with basis := f si.basis }
  | .log k => { si with log := k }
  | .del i => { si with rows := si.rows.eraseIdx i }

def Lp.run {ρ β : Type} (si : Lp ρ β) (ops : List (LpOp ρ β)) : Lp ρ β := ops.foldl Lp.step si

/-- The use in `generateCuts` (310-339) on the solver given with `assignLpInterface`: save, run the algorithm, restore if `leaveSiUnchanged_`. -/
def useLp {ρ β : Type} (dmax : ℚ) (solve : β → β) (leave : Bool) (si : Lp ρ β) (ops : List (LpOp ρ β)) : Option (Lp ρ β) :=
  let s := save dmax solve si true leave true true true
  if leave then restore dmax s.1 (s.2.run ops) else some (s.2.run ops)

/-! ## Specification -/

/-- No row is deleted. -/
def NoDel {ρ β : Type} : LpOp ρ β → Prop
  | .del _ => False
  | _ => True

/-! ## Properties -/

theorem run_rows {ρ β : Type} (ops : List (LpOp ρ β)) (si : Lp ρ β) (h : ∀ o ∈ ops, NoDel o) : ∃ rs, (si.run ops).rows = si.rows ++ rs := by
  induction ops generalizing si with
  | nil => exact ⟨[], by simp [Lp.run]⟩
  | cons o ops ih =>
    obtain ⟨rs, hr⟩ := ih (si.step o) (fun o' ho' => h o' (List.mem_cons_of_mem _ ho'))
    have ho := h o (by simp)
    have : (si.run (o :: ops)).rows = (si.step o).rows ++ rs := hr
    rw [this]
    cases o with
    | add rs' => exact ⟨rs' ++ rs, by simp [Lp.step]⟩
    | del i => exact absurd ho (by simp [NoDel])
    | _ => exact ⟨rs, rfl⟩

/-- **C31** (restoring, exact).  Whatever the algorithm does to the solver short of deleting rows, after `restore` the rows, the column bounds and the basis are
those before, and so is the cutoff if there was one (below `DBL_MAX`); otherwise the last cutoff set stays.  The log level is the last one set (0 if none). -/
theorem manip_restores_partial {ρ β : Type} (dmax : ℚ) (solve : β → β) (si : Lp ρ β) (ops : List (LpOp ρ β)) (h : ∀ o ∈ ops, NoDel o) :
    useLp dmax solve true si ops = some ⟨si.rows, si.lo, si.up, if si.cutoff < dmax then si.cutoff else (si.run ops).cutoff, si.basis,
      ({ si with log := 0 }.run ops).log⟩ := by
  have hrun : ∀ (ops : List (LpOp ρ β)) (a b : Lp ρ β), a.rows = b.rows → a.cutoff = b.cutoff → a.log = b.log →
      (a.run ops).rows = (b.run ops).rows ∧ (a.run ops).cutoff = (b.run ops).cutoff ∧ (a.run ops).log = (b.run ops).log := by
    intro ops
    induction ops with
    | nil => intro a b h1 h2 h3; exact ⟨h1, h2, h3⟩
    | cons o ops ih =>
      intro a b h1 h2 h3
      have e : ∀ x : Lp ρ β, x.run (o :: ops) = (x.step o).run ops := fun x => rfl
      rw [e, e]
      apply ih <;> cases o <;> simp [Lp.step, h1, h2, h3]
  have hc : ∀ (ops : List (LpOp ρ β)) (a b : Lp ρ β), a.cutoff = b.cutoff → (a.run ops).cutoff = (b.run ops).cutoff := by
    intro ops
    induction ops with
    | nil => intro a b h; exact h
    | cons o ops ih =>
      intro a b h
      have e : ∀ x : Lp ρ β, x.run (o :: ops) = (x.step o).run ops := fun x => rfl
      rw [e, e]
      apply ih
      cases o <;> simp [Lp.step, h]
  obtain ⟨rs, hr⟩ := run_rows ops { si with log := 0, basis := solve si.basis } h
  obtain ⟨_, _, h3⟩ := hrun ops { si with log := 0, basis := solve si.basis } { si with log := 0 } rfl rfl rfl
  have h2 := hc ops { si with log := 0, basis := solve si.basis } si rfl
  unfold useLp save restore cutRows
  dsimp only
  simp only [if_true, hr, h2, h3, Option.getD_some]
  have hlen : ¬ (si.rows ++ rs).length < si.rows.length := by simp
  rw [if_neg hlen]
  simp

/-- **C31** refuted for the cutoff: a solver without cutoff (`DBL_MAX`) keeps the cutoff of the sub-problem after `restore`. -/
theorem manip_cutoff_kept {ρ β : Type} (dmax v : ℚ) (solve : β → β) (si : Lp ρ β) (h : si.cutoff = dmax) :
    (useLp dmax solve true si [.cutoff v]).map Lp.cutoff = some v := by
  rw [manip_restores_partial dmax solve si _ (by simp [NoDel])]
  simp [h, Lp.run, Lp.step]

/-- **C31** refuted for the log level: it is 0 afterwards, whatever it was. -/
theorem manip_log_lost {ρ β : Type} (dmax : ℚ) (solve : β → β) (si : Lp ρ β) (leave : Bool) : (useLp dmax solve leave si []).map Lp.log = some 0 := by
  cases leave
  · rfl
  · rw [manip_restores_partial dmax solve si _ (by simp)]; rfl

/-- Without `leaveSiUnchanged` nothing is restored: cuts, bounds and cutoff stay in the solver. -/
theorem manip_not_restored {ρ β : Type} (dmax : ℚ) (solve : β → β) (si : Lp ρ β) (ops : List (LpOp ρ β)) :
    useLp dmax solve false si ops = some ({ si with log := 0, basis := solve si.basis }.run ops) := rfl

/-- Deleted rows are not noticed if as many were added: the rows before the saved count are not compared.  If fewer are left, the size of an array is
negative. -/
theorem manip_deleted_rows : (useLp (10 ^ 200) (fun b : Nat => b + 1) true (⟨["a", "b"], [0], [1], 5, 7, 1⟩ : Lp String Nat) [.del 0, .add ["c"]]).map Lp.rows = some ["b", "c"] ∧
    useLp (10 ^ 200) (fun b : Nat => b + 1) true (⟨["a", "b"], [0], [1], 5, 7, 1⟩ : Lp String Nat) [.del 0] = none := by
  constructor <;> decide +kernel

example : useLp (10 ^ 200) (fun b : Nat => b + 1) true (⟨["a", "b"], [0], [1], 5, 7, 1⟩ : Lp String Nat) [.setLo 0 1, .add ["c"], .cutoff 3, .solve (· + 1)] =
    some ⟨["a", "b"], [0], [1], 5, 7, 0⟩ := by decide +kernel

/-- **C31**: what is saved, for each of the flags, and what the constructor does to the solver. -/
theorem save_fields {ρ β : Type} (dmax : ℚ) (solve : β → β) (si : Lp ρ β) (r b c d e : Bool) :
    (save dmax solve si r b c d e).1.rows = (if r then some si.rows.length else none) ∧ (save dmax solve si r b c d e).1.lo = (if c then some si.lo else none) ∧
    (save dmax solve si r b c d e).1.up = (if c then some si.up else none) ∧ (save dmax solve si r b c d e).1.warm = (if b then some si.basis else none) ∧
    (save dmax solve si r b c d e).1.cutoff = (if d then si.cutoff else dmax) ∧
    (save dmax solve si r b c d e).2 = ⟨si.rows, si.lo, si.up, si.cutoff, if e then solve si.basis else si.basis, 0⟩ := ⟨rfl, rfl, rfl, rfl, rfl, rfl⟩

/-- **C31**: nothing saved means nothing restored, flag by flag; the bounds are those saved or else those found. -/
theorem restore_fields {ρ β : Type} (dmax : ℚ) (s : Saved β) (si si' : Lp ρ β) (h : restore dmax s si = some si') :
    si'.lo = (match s.lo with | none => si.lo | some l => l) ∧ si'.up = (match s.up with | none => si.up | some l => l) ∧
    si'.basis = (match s.warm with | none => si.basis | some b => b) ∧ si'.cutoff = (if s.cutoff < dmax then s.cutoff else si.cutoff) ∧ si'.log = si.log ∧
    some si'.rows = (match s.rows with | none => some si.rows | some k => if si.rows.length < k then none else some (si.rows.take k)) := by
  unfold restore at h
  cases hc : cutRows s.rows si.rows with
  | none => rw [hc] at h; cases h
  | some rows =>
    rw [hc] at h
    simp only [Option.map_some, Option.some.injEq] at h
    subst h
    refine ⟨?_, ?_, ?_, rfl, rfl, ?_⟩
    · cases s.lo <;> rfl
    · cases s.up <;> rfl
    · cases s.warm <;> rfl
    · rw [← hc]; unfold cutRows; cases s.rows <;> rfl

/-- The bounds after a run without restoring: per column the value of the last change of that bound, unchanged without one. -/
theorem run_bounds {ρ β : Type} (si : Lp ρ β) (ops : List (LpOp ρ β)) :
    (si.run ops).lo = ops.foldl (fun l o => match o with | .setLo i v => l.set i v | _ => l) si.lo ∧
    (si.run ops).up = ops.foldl (fun l o => match o with | .setUp i v => l.set i v | _ => l) si.up := by
  induction ops generalizing si with
  | nil => exact ⟨rfl, rfl⟩
  | cons o ops ih =>
    have e : si.run (o :: ops) = (si.step o).run ops := rfl
    rw [e, (ih _).1, (ih _).2]
    cases o <;> exact ⟨rfl, rfl⟩

/-- The length of the arrays of bounds never changes. -/
theorem run_lengths {ρ β : Type} (si : Lp ρ β) (ops : List (LpOp ρ β)) : (si.run ops).lo.length = si.lo.length ∧ (si.run ops).up.length = si.up.length := by
  induction ops generalizing si with
  | nil => exact ⟨rfl, rfl⟩
  | cons o ops ih =>
    have e : si.run (o :: ops) = (si.step o).run ops := rfl
    rw [e, (ih _).1, (ih _).2]
    cases o <;> simp [Lp.step]

end Verif.Dec

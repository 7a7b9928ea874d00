import Verif.Heur.Dive
/-!
# Model of the heuristics that solve a MILP (src/CbcBonmin/Heuristics/BonMilpRounding.cpp, BonHeuristicDiveMIP.cpp)

The MILP solver and the last NLP solve are oracles.  Not modelled: gates (MilpRounding 87-89, DiveMIP 97-99), message handlers, memory handling.  Jacobian indices are
0-based (`indexCorrection` applied).
-/
namespace Verif.Heur

/-- An entry of the Jacobian. -/
structure Ent where
  row : Nat
  col : Nat
  val : ℚ
deriving DecidableEq, Inhabited

/-- `c_idx` (BonMilpRounding.cpp:125-132) and `mapRows` (BonHeuristicDiveMIP.cpp:278-285): number of the row among those kept. -/
def rank (keep : Nat → Bool) (r : Nat) : Option Nat := if keep r then some ((List.range r).countP keep) else none

/-- What the loop building the column-ordered matrix sees at one position: column, row (or none), value. -/
structure Item where
  col : Nat
  row : Option Nat
  val : ℚ

/-- `row`, `value`, `columnStart`, `columnLength`, `iniCol`. -/
structure Csc where
  data : List (Nat × ℚ)
  start : Nat → Nat
  len : Nat → Nat
  ini : Option Nat

/-- The part of the loop that opens a column (166-170). -/
def Csc.openCol (s : Csc) (c : Nat) : Csc :=
  if s.ini = some c then s
  else ⟨s.data, fun j => if j = c then s.data.length else s.start j, fun j => if j = c then 0 else s.len j, some c⟩

/-- The part of the loop that stores an entry (171-175). -/
def Csc.put (s : Csc) (it : Item) : Csc :=
  match it.row with
  | none => s
  | some r => ⟨s.data ++ [(r, it.val)], s.start, fun j => if j = it.col then s.len j + 1 else s.len j, s.ini⟩

/-- The loop (163-176; without skipped rows also BonHeuristicDiveMIP.cpp:184-200). -/
def csc (items : List Item) : Csc := items.foldl (fun s it => (s.openCol it.col).put it) ⟨[], fun _ => 0, fun _ => 0, none⟩

/-- The entries of a column of the packed matrix. -/
def Csc.column (s : Csc) (c : Nat) : List (Nat × ℚ) := (s.data.drop (s.start c)).take (s.len c)

/-- What MilpRounding sees at position `i` of the sorted index (164-165, 174): column and row of entry `srt[i]`, value of entry `i`. -/
def milpItems (lin : Nat → Bool) (ents : List Ent) (srt : List Nat) : List Item :=
  srt.zipIdx.map fun ki => ⟨(ents.getD ki.1 default).col, rank lin (ents.getD ki.1 default).row, (ents.getD ki.2 default).val⟩

/-- What DiveMIP sees (BonHeuristicDiveMIP.cpp:185-194, 346): everything of entry `srt[i]`. -/
def diveItems (ents : List Ent) (srt : List Nat) : List Item :=
  srt.map fun k => ⟨(ents.getD k default).col, some (ents.getD k default).row, (ents.getD k default).val⟩

/-! ### the MIP of DiveMIP -/

/-- A row has linear columns (`numberColumnsLinear`, 198-199, 282). -/
def hasLinear (isLin : Nat → Bool) (ents : List Ent) (r : Nat) : Bool := ents.any fun e => decide (e.row = r) && isLin e.col

/-- A column of the MIP matrix (336-348): the entries of the column, rows renumbered. -/
def mipColumn (isLin : Nat → Bool) (ents : List Ent) (srt : List Nat) (c : Nat) : List (Option Nat × ℚ) :=
  ((csc (diveItems ents srt)).column c).map fun rv => (rank (hasLinear isLin ents) rv.1, rv.2)

/-- Activity of MIP row `k`, columns `cols` (`linearVariable`) at `z`. -/
def mipAct (isLin : Nat → Bool) (ents : List Ent) (srt : List Nat) (cols : List Nat) (z : Nat → ℚ) (k : Nat) : ℚ :=
  (cols.map fun c => ((mipColumn isLin ents srt c).map fun rv => if rv.1 = some k then rv.2 * z c else 0).sum).sum

/-- Row bounds of the MIP (302-316): `none` is an infinite bound. -/
def mipBound (g0 : Nat → ℚ) (bd : Nat → Option ℚ) (r : Nat) : Option ℚ := (bd r).map fun v => v - g0 r

/-- `newSolution` with the linear columns at 0 (290-295). -/
def zeroLinear (isLin : Nat → Bool) (x : Nat → ℚ) : Nat → ℚ := fun c => if isLin c then 0 else x c

/-! ### the no-good cut of MilpRounding -/

/-- The cut `Σ -x_c ≥ lb` over the columns of `v`. -/
structure NoGood where
  v : List Nat
  lb : ℚ

/-- The loop over the columns (301-320); the last component is `feasible`. -/
def ngLoop (tol : ℚ) (isInt : Nat → Bool) (x : Nat → ℚ) : List Nat → NoGood → NoGood × Bool
  | [], g => (g, true)
  | c :: cs, g =>
    if isInt c then
      if isFrac tol (x c) then (g, false)
      else if (1 : ℚ) / 2 < (⌊x c + 1 / 2⌋ : ℚ) then ngLoop tol isInt x cs ⟨g.v ++ [c], g.lb - ⌊x c + 1 / 2⌋⟩
      else ngLoop tol isInt x cs g
    else ngLoop tol isInt x cs g

/-- The cut inserted for the MILP solution `x`, and whether the NLP is solved (301-325). -/
def noGood (tol : ℚ) (p : Prob) (x : Nat → ℚ) : NoGood × Bool := ngLoop tol p.isInt x (List.range p.n) ⟨[], 1⟩

/-- Satisfaction of a cut. -/
def NoGood.sat (g : NoGood) (y : Nat → ℚ) : Prop := g.lb ≤ (g.v.map fun c => -y c).sum

/-- The end of `MilpRounding::solution` (288-342): cuts afterwards, and point and value returned. `none` for the MILP: no solution.  `solve` gets the bounds with the integer
columns fixed. -/
def milpFinish (tol inc : ℚ) (p : Prob) (b : Bnds) (solve : Bnds → Option (Nat → ℚ)) (cuts : List NoGood) : Option (Nat → ℚ) → List NoGood × Option ((Nat → ℚ) × ℚ)
  | none => (cuts, none)
  | some x =>
    (cuts ++ [(noGood tol p x).1],
      if (noGood tol p x).2 then
        (solve ⟨fun c => if c < p.n ∧ p.isInt c then (⌊x c + 1 / 2⌋ : ℚ) else b.lo c, fun c => if c < p.n ∧ p.isInt c then (⌊x c + 1 / 2⌋ : ℚ) else b.up c⟩).bind fun y =>
          if p.f y < inc then some (y, p.f y) else none
      else none)

end Verif.Heur

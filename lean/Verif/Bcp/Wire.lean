import Mathlib.Data.Rat.Defs
import Mathlib.Tactic.NormNum
/-!
# Model of the messages of the parallel branch-and-bound
(experimental/Bcp/BM_pack.cpp, BM_tm.cpp:209-217, 305-341, BM_lp_branch.cpp:101-166, 454-497, 515-528, 1008-1062, BB_cut.cpp,
BM.hpp:26-56)

A `BCP_buffer` is a sequence of items read in the order they were written.  The real buffer is a sequence of bytes without
types; here an item keeps its type and reading an item of another type, or past the end, is `none`.  `BCP_buffer::pack(T*, n)`
writes the length and the items, `unpack` of an array reads the length first.  The warm start of `BCP_pack_warmstart` is a list
of numbers.  A message starts with its tag; the tags are those of `BM_message` (BM.hpp:47-51).
-/
namespace Verif.Bcp

/-- One item of a buffer. -/
inductive Tok where
  | i (n : Int)
  | d (q : ℚ)
  | b (v : Bool)
  | s (t : String)
  deriving DecidableEq

/-- A buffer: what is still to be read. -/
abbrev Buf := List Tok

/-- `buf.unpack(int&)`. -/
def rInt : Buf → Option (Int × Buf)
  | .i n :: r => some (n, r)
  | _ => none

/-- `buf.unpack(double&)`. -/
def rDbl : Buf → Option (ℚ × Buf)
  | .d q :: r => some (q, r)
  | _ => none

/-- `buf.unpack(bool&)`. -/
def rBool : Buf → Option (Bool × Buf)
  | .b v :: r => some (v, r)
  | _ => none

/-- `buf.unpack(BCP_string&)`. -/
def rStr : Buf → Option (String × Buf)
  | .s t :: r => some (t, r)
  | _ => none

/-- `n` items of one kind. -/
def rMany {α : Type} (rd : Buf → Option (α × Buf)) : ℕ → Buf → Option (List α × Buf)
  | 0, r => some ([], r)
  | n + 1, r =>
    match rd r with
    | none => none
    | some (a, r') =>
      match rMany rd n r' with
      | none => none
      | some (as, r'') => some (a :: as, r'')

/-- An array: its length, then its items. -/
def rArr {α : Type} (rd : Buf → Option (α × Buf)) (r : Buf) : Option (List α × Buf) :=
  match rInt r with
  | none => none
  | some (n, r') => if n < 0 then none else rMany rd n.toNat r'

/-- `buf.pack(const double*, n)`. -/
def wDbls (l : List ℚ) : Buf := .i l.length :: l.map .d

/-- `buf.pack(const int*, n)`. -/
def wInts (l : List Int) : Buf := .i l.length :: l.map .i

/-! ## Strong branching request and result -/

/-- The input part of `BM_BranchData` (BM.hpp:154-160). -/
structure Branch where
  up : Bool
  obj : ℕ
  col : ℕ
  val : ℚ
  bd : ℚ
  deriving DecidableEq

/-- The result part of `BM_BranchData` (BM.hpp:161-166); `status` is the three bits of BM_lp_branch.cpp:412-415. -/
structure Ans where
  aband : Bool
  opt : Bool
  inf : Bool
  obj : ℚ
  iter : ℕ
  time : ℚ
  deriving DecidableEq

/-- The status word: `BCP_ProvenOptimal` 1, `BCP_ProvenPrimalInf` 2, `BCP_Abandoned` 32 — any three distinct bits would do. -/
def Ans.word (a : Ans) : Int := (if a.opt then 1 else 0) + (if a.inf then 2 else 0) + (if a.aband then 32 else 0)

/-- The contents of a request (BM_lp_branch.cpp:454-497). -/
structure Request where
  lo : List ℚ
  up : List ℚ
  obj : ℚ
  cutoff : ℚ
  ws : Option (List ℚ)
  location : ℕ
  branches : List Branch
  deriving DecidableEq

/-- One branch of a request (BM_lp_branch.cpp:492-496). -/
def wBranch (b : Branch) : Buf := [.i (if b.up then 1 else 0), .i b.obj, .i b.col, .d b.val, .d b.bd]

/-- One branch read (BM_lp_branch.cpp:1039-1043); the change type is compared with `BM_Var_UpBranch` (398). -/
def rBranch : Buf → Option (Branch × Buf)
  | .i t :: .i o :: .i c :: .d v :: .d b :: r => some (⟨decide (t = 1), o.toNat, c.toNat, v, b⟩, r)
  | _ => none

/-- The request written (BM_lp_branch.cpp:454-497). -/
def wRequest (q : Request) : Buf :=
  [.i 0] ++ wDbls q.lo ++ wDbls q.up ++ [.d q.obj, .d q.cutoff, .b q.ws.isSome] ++
    (match q.ws with
     | none => []
     | some w => wDbls w) ++
    [.i q.location, .i q.branches.length] ++ q.branches.flatMap wBranch

/-- The request read (BM_lp_branch.cpp:1008-1044); `nCols` is the number of columns of the reader, the assertion of line 1022 (on
an array of another length) is `none` with `dbg`. -/
def rRequest (dbg : Bool) (nCols : ℕ) (r : Buf) : Option (Request × Buf) :=
  match rInt r with
  | none => none
  | some (t, r1) => if dbg ∧ t ≠ 0 then none else
    match rArr rDbl r1 with
    | none => none
    | some (lo, r2) => if dbg ∧ lo.length ≠ nCols then none else
      match rArr rDbl r2 with
      | none => none
      | some (up, r3) => if dbg ∧ up.length ≠ nCols then none else
        match rDbl r3 with
        | none => none
        | some (obj, r4) =>
          match rDbl r4 with
          | none => none
          | some (cutoff, r5) =>
            match rBool r5 with
            | none => none
            | some (has, r6) =>
              match (if has then (rArr rDbl r6).map fun p => (some p.1, p.2) else some (none, r6)) with
              | none => none
              | some (ws, r7) =>
                match rInt r7 with
                | none => none
                | some (loc, r8) =>
                  match rInt r8 with
                  | none => none
                  | some (n, r9) =>
                    match rMany rBranch n.toNat r9 with
                    | none => none
                    | some (bs, r10) => some (⟨lo, up, obj, cutoff, ws, loc.toNat, bs⟩, r10)

/-- One answer (BM_lp_branch.cpp:1057-1060). -/
def wAns (a : Ans) : Buf := [.i a.word, .d a.obj, .i a.iter, .d a.time]

/-- The bits of a status word. -/
def ofWord (w : Int) (o : ℚ) (it : Int) (t : ℚ) : Ans :=
  ⟨decide (32 ≤ w), decide (w % 2 = 1), decide (w % 32 ≥ 2), o, it.toNat, t⟩

/-- One answer read (BM_lp_branch.cpp:524-527). -/
def rAns : Buf → Option (Ans × Buf)
  | .i w :: .d o :: .i it :: .d t :: r => some (ofWord w o it t, r)
  | _ => none

/-- The answers written (BM_lp_branch.cpp:1050-1061). -/
def wResult (loc : ℕ) (as : List Ans) : Buf := [.i 1, .i loc, .i as.length] ++ as.flatMap wAns

/-- The answers read (BM_lp_branch.cpp:516-528). -/
def rResult (dbg : Bool) (r : Buf) : Option ((ℕ × List Ans) × Buf) :=
  match rInt r with
  | none => none
  | some (t, r1) => if dbg ∧ t ≠ 1 then none else
    match rInt r1 with
    | none => none
    | some (loc, r2) =>
      match rInt r2 with
      | none => none
      | some (n, r3) => (rMany rAns n.toNat r3).map fun p => ((loc.toNat, p.1), p.2)

/-! ## Pseudo-costs -/

/-- The arrays of an `OsiPseudoCosts`. -/
structure Pc where
  upT : List ℚ
  upN : List Int
  dnT : List ℚ
  dnN : List Int
  deriving DecidableEq

/-- The arrays written by the tree manager (BM_tm.cpp:335-341). -/
def wPc (p : Pc) : Buf := wDbls p.upT ++ wInts p.upN ++ wDbls p.dnT ++ wInts p.dnN

/-- The arrays read by the other process (BM_lp_branch.cpp:102-117): the arrays of the reader are filled in place; a length other
than that of the arrays is an error of `BCP_buffer::unpack`. -/
def rPc (numObj : ℕ) (r : Buf) : Option (Pc × Buf) :=
  match rArr rDbl r with
  | none => none
  | some (ut, r1) => if ut.length ≠ numObj then none else
    match rArr rInt r1 with
    | none => none
    | some (un, r2) => if un.length ≠ numObj then none else
      match rArr rDbl r2 with
      | none => none
      | some (dt, r3) => if dt.length ≠ numObj then none else
        match rArr rInt r3 with
        | none => none
        | some (dn, r4) => if dn.length ≠ numObj then none else some (⟨ut, un, dt, dn⟩, r4)

/-- One entry of an update: object, way, change per unit. -/
structure Upd where
  obj : ℕ
  up : Bool
  chg : ℚ
  deriving DecidableEq

/-- One entry written (BM_lp_branch.cpp:133-145, 148-160). -/
def wUpd (u : Upd) : Buf := [.i u.obj, .i (if u.up then 1 else 0), .d u.chg]

/-- The update written (BM_lp_branch.cpp:125-164). -/
def wUpds (us : List Upd) : Buf := [.i 2] ++ us.flatMap wUpd ++ [.i (-1)]

/-- One entry added to the totals (BM_tm.cpp:322-328); `none` outside of the arrays. -/
def addUpd (p : Pc) (u : Upd) : Option Pc :=
  if u.up then
    match p.upT[u.obj]?, p.upN[u.obj]? with
    | some t, some n => some { p with upT := p.upT.set u.obj (t + u.chg), upN := p.upN.set u.obj (n + 1) }
    | _, _ => none
  else
    match p.dnT[u.obj]?, p.dnN[u.obj]? with
    | some t, some n => some { p with dnT := p.dnT.set u.obj (t + u.chg), dnN := p.dnN.set u.obj (n + 1) }
    | _, _ => none

/-- The loop of BM_tm.cpp:315-329. -/
def rUpdLoop : ℕ → Pc → Buf → Option (Pc × Buf)
  | 0, _, _ => none
  | k + 1, p, r =>
    match r with
    | .i o :: r' =>
      if o = -1 then some (p, r')
      else
        match r' with
        | .i w :: .d c :: r'' => if o < 0 then none else
          match addUpd p ⟨o.toNat, decide (w ≠ 0), c⟩ with
          | none => none
          | some p' => rUpdLoop k p' r''
        | _ => none
    | _ => none

/-- A message to the user part of the tree manager (BM_tm.cpp:209-217): only updates are looked at. -/
def tmMessage (p : Pc) (r : Buf) : Option Pc :=
  match rInt r with
  | none => none
  | some (t, r1) => if t = 2 then (rUpdLoop (r1.length + 1) p r1).map (·.1) else some p

/-! ## Node data, cuts, data of the module -/

/-- Node data written by the tree manager: the counter, then the pseudo-costs (BM_pack.cpp:165-174, BM.hpp:40-42). -/
def wNode (tm : Bool) (failed : ℕ) (p : Pc) : Buf := .i failed :: (if tm then wPc p else [])

/-- Node data read (BM_pack.cpp:178-187, BM.hpp:35-37); `lp` tells whether the reader is an LP process. -/
def rNode (lp : Bool) (numObj : ℕ) (r : Buf) : Option ((ℕ × Option Pc) × Buf) :=
  match rInt r with
  | none => none
  | some (n, r1) => if lp then (rPc numObj r1).map fun p => ((n.toNat, some p.1), p.2) else some ((n.toNat, none), r1)

/-- A `BB_cut`: the bounds it has as a `BCP_cut` and the row cut. -/
structure Cut where
  bcpLb : ℚ
  bcpUb : ℚ
  lb : ℚ
  ub : ℚ
  inds : List Int
  els : List ℚ
  deriving DecidableEq

/-- The constructor from a row cut (BB_cut.cpp:49-51). -/
def Cut.ofRow (lb ub : ℚ) (inds : List Int) (els : List ℚ) : Cut := ⟨lb, ub, lb, ub, inds, els⟩

/-- `BB_cut::pack` (BB_cut.cpp:15-23). -/
def wCut (c : Cut) : Buf := [.d c.lb, .d c.ub] ++ wInts c.inds ++ wDbls c.els

/-- The constructor from a buffer (BB_cut.cpp:26-46). -/
def rCut (r : Buf) : Option (Cut × Buf) :=
  match rDbl r with
  | none => none
  | some (lb, r1) =>
    match rDbl r1 with
    | none => none
    | some (ub, r2) =>
      match rArr rInt r2 with
      | none => none
      | some (inds, r3) =>
        match rArr rDbl r3 with
        | none => none
        | some (els, r4) => some (⟨-(10 ^ 40), 10 ^ 40, lb, ub, inds, els⟩, r4)

/-- A row made of a cut (BM_lp.cpp:290-308): bounds are those of the `BCP_cut`. -/
def cutRow (c : Cut) : ℚ × ℚ × List (Int × ℚ) := (c.bcpLb, c.bcpUb, c.inds.zip c.els)

/-- Data of the module: parameters (as a list of strings), the problem, the options (BM_pack.cpp:16-30). -/
def wModule (pars : List String) (nl ipopt : String) : Buf := .i pars.length :: pars.map .s ++ [.s nl, .s ipopt]

/-- The text up to the first NUL: `std::string(content.c_str())` (BM_pack.cpp:48-49). -/
def upToNul (t : String) : String := String.ofList (t.toList.takeWhile (· ≠ '\x00'))

/-- Data read (BM_pack.cpp:35-49): parameters, problem, options. -/
def rModule (r : Buf) : Option ((List String × String × String) × Buf) :=
  match rArr rStr r with
  | none => none
  | some (ps, r1) =>
    match rStr r1 with
    | none => none
    | some (nl, r2) => (rStr r2).map fun p => ((ps, upToNul nl, upToNul p.1), p.2)

/-! ## Lemmas -/

theorem rMany_map {α : Type} (rd : Buf → Option (α × Buf)) (w : α → Buf) (P : α → Prop)
    (h : ∀ a r, P a → rd (w a ++ r) = some (a, r)) :
    ∀ (l : List α) (r : Buf), (∀ a ∈ l, P a) → rMany rd l.length (l.flatMap w ++ r) = some (l, r)
  | [], r, _ => rfl
  | a :: l, r, hl => by
    rw [List.length_cons, rMany, List.flatMap_cons, List.append_assoc, h a _ (hl a (by simp))]
    dsimp only
    rw [rMany_map rd w P h l r (fun b hb => hl b (by simp [hb]))]

theorem rDbls (l : List ℚ) (r : Buf) : rArr rDbl (wDbls l ++ r) = some (l, r) := by
  have := rMany_map rDbl (fun q => [Tok.d q]) (fun _ => True) (fun a r _ => rfl) l r (by simp)
  simp only [wDbls, rArr, List.cons_append, rInt]
  rw [if_neg (by simp), Int.toNat_natCast, List.map_eq_flatMap]
  exact this

theorem rInts (l : List Int) (r : Buf) : rArr rInt (wInts l ++ r) = some (l, r) := by
  have := rMany_map rInt (fun q => [Tok.i q]) (fun _ => True) (fun a r _ => rfl) l r (by simp)
  simp only [wInts, rArr, List.cons_append, rInt]
  rw [if_neg (by simp), Int.toNat_natCast, List.map_eq_flatMap]
  exact this

theorem rBranch_w (b : Branch) (r : Buf) : rBranch (wBranch b ++ r) = some (b, r) := by
  obtain ⟨u, o, c, v, d⟩ := b
  cases u <;> simp [wBranch, rBranch]

theorem rAns_w (a : Ans) (r : Buf) : rAns (wAns a ++ r) = some (a, r) := by
  obtain ⟨x, y, z, o, it, t⟩ := a
  cases x <;> cases y <;> cases z <;> simp [wAns, rAns, ofWord, Ans.word]

/-! ## Properties -/

/-- **C143.** A strong branching request is read exactly as it was written, by any process with the same number of columns, with or
without a warm start, whatever follows in the buffer. -/
theorem request_round_trip (dbg : Bool) (q : Request) (n : ℕ) (hlo : q.lo.length = n) (hup : q.up.length = n) (r : Buf) :
    rRequest dbg n (wRequest q ++ r) = some (q, r) := by
  obtain ⟨lo, up, obj, cutoff, ws, loc, bs⟩ := q
  have hb := rMany_map rBranch wBranch (fun _ => True) (fun a r _ => rBranch_w a r) bs r (by simp)
  simp only at hlo hup
  cases ws with
  | none =>
    simp only [rRequest, wRequest, List.cons_append, List.nil_append, List.append_assoc, rInt]
    rw [if_neg (by simp), rDbls]; dsimp only
    rw [if_neg (by simp [hlo]), rDbls]; dsimp only
    rw [if_neg (by simp [hup])]
    simp [rDbl, rBool, hb]
  | some w =>
    simp only [rRequest, wRequest, List.cons_append, List.nil_append, List.append_assoc, rInt]
    rw [if_neg (by simp), rDbls]; dsimp only
    rw [if_neg (by simp [hlo]), rDbls]; dsimp only
    rw [if_neg (by simp [hup])]
    simp [rDbl, rBool, hb, rDbls]

/-- **C143.** With assertions, a request for another number of columns stops the reader. -/
theorem request_other_size (q : Request) (n : ℕ) (hlo : q.lo.length ≠ n) (r : Buf) : rRequest true n (wRequest q ++ r) = none := by
  obtain ⟨lo, up, obj, cutoff, ws, loc, bs⟩ := q
  simp only [rRequest, wRequest, List.cons_append, List.nil_append, List.append_assoc, rInt]
  rw [if_neg (by simp), rDbls]; dsimp only
  rw [if_pos ⟨trivial, hlo⟩]

/-- **C143.** The answers are read exactly as they were written, with the place they belong to. -/
theorem result_round_trip (dbg : Bool) (loc : ℕ) (as : List Ans) (r : Buf) :
    rResult dbg (wResult loc as ++ r) = some ((loc, as), r) := by
  have hb := rMany_map rAns wAns (fun _ => True) (fun a r _ => rAns_w a r) as r (by simp)
  simp [rResult, wResult, rInt, hb]

/-- **C144.** Pseudo-costs read by an LP process are those of the tree manager, if it has the same number of objects … -/
theorem pc_round_trip (p : Pc) (n : ℕ) (h1 : p.upT.length = n) (h2 : p.upN.length = n) (h3 : p.dnT.length = n)
    (h4 : p.dnN.length = n) (r : Buf) : rPc n (wPc p ++ r) = some (p, r) := by
  simp [rPc, wPc, List.append_assoc, rDbls, rInts, h1, h2, h3, h4]

/-- … and the whole of the node data sent by the tree manager to an LP process. -/
theorem node_round_trip (f : ℕ) (p : Pc) (n : ℕ) (h1 : p.upT.length = n) (h2 : p.upN.length = n) (h3 : p.dnT.length = n)
    (h4 : p.dnN.length = n) (r : Buf) : rNode true n (wNode true f p ++ r) = some ((f, some p), r) := by
  simp [rNode, wNode, rInt, pc_round_trip p n h1 h2 h3 h4]

/-- **C144.** Node data sent back by an LP process is the counter alone, which the tree manager reads exactly. -/
theorem node_back (f n : ℕ) (p : Pc) (r : Buf) : rNode false n (wNode false f p ++ r) = some ((f, none), r) := by
  simp [rNode, wNode, rInt]

/-- Sum of the changes for one object and way. -/
def sumOf (us : List Upd) (o : ℕ) (up : Bool) : ℚ := ((us.filter fun u => u.obj = o ∧ u.up = up).map (·.chg)).sum

/-- Number of the changes for one object and way. -/
def countOf (us : List Upd) (o : ℕ) (up : Bool) : ℕ := (us.filter fun u => u.obj = o ∧ u.up = up).length

theorem addUpd_some (p : Pc) (n : ℕ) (h1 : p.upT.length = n) (h2 : p.upN.length = n) (h3 : p.dnT.length = n)
    (h4 : p.dnN.length = n) (u : Upd) (hu : u.obj < n) : ∃ p', addUpd p u = some p' ∧ p'.upT.length = n ∧ p'.upN.length = n ∧
      p'.dnT.length = n ∧ p'.dnN.length = n ∧ ∀ o : ℕ, o < n →
        p'.upT[o]? = (p.upT[o]?).map (· + if u.obj = o ∧ u.up = true then u.chg else 0) ∧
        p'.upN[o]? = (p.upN[o]?).map (· + if u.obj = o ∧ u.up = true then 1 else 0) ∧
        p'.dnT[o]? = (p.dnT[o]?).map (· + if u.obj = o ∧ u.up = false then u.chg else 0) ∧
        p'.dnN[o]? = (p.dnN[o]?).map (· + if u.obj = o ∧ u.up = false then 1 else 0) := by
  obtain ⟨i, w, c⟩ := u
  simp only at hu
  cases w with
  | true =>
    have e1 := List.getElem?_eq_getElem (l := p.upT) (i := i) (by omega)
    have e2 := List.getElem?_eq_getElem (l := p.upN) (i := i) (by omega)
    refine ⟨{ p with upT := p.upT.set i (p.upT[i] + c), upN := p.upN.set i (p.upN[i] + 1) },
      by simp only [addUpd, e1, e2, if_true], by simp [h1], by simp [h2], h3, h4, ?_⟩
    intro o ho
    by_cases hio : i = o
    · subst hio
      simp [h1, h2, hu]
    · simp [hio]
  | false =>
    have e1 := List.getElem?_eq_getElem (l := p.dnT) (i := i) (by omega)
    have e2 := List.getElem?_eq_getElem (l := p.dnN) (i := i) (by omega)
    refine ⟨{ p with dnT := p.dnT.set i (p.dnT[i] + c), dnN := p.dnN.set i (p.dnN[i] + 1) },
      by simp [addUpd, e1, e2], h1, h2, by simp [h3], by simp [h4], ?_⟩
    intro o ho
    by_cases hio : i = o
    · subst hio
      simp [h3, h4, hu]
    · simp [hio]

theorem sumOf_cons (u : Upd) (us : List Upd) (o : ℕ) (w : Bool) :
    sumOf (u :: us) o w = (if u.obj = o ∧ u.up = w then u.chg else 0) + sumOf us o w := by
  unfold sumOf
  by_cases h : u.obj = o ∧ u.up = w
  · rw [List.filter_cons_of_pos (by simpa using h), if_pos h]; simp
  · rw [List.filter_cons_of_neg (by simpa using h), if_neg h]; simp

theorem countOf_cons (u : Upd) (us : List Upd) (o : ℕ) (w : Bool) :
    countOf (u :: us) o w = (if u.obj = o ∧ u.up = w then 1 else 0) + countOf us o w := by
  unfold countOf
  by_cases h : u.obj = o ∧ u.up = w
  · rw [List.filter_cons_of_pos (by simpa using h), if_pos h]; simp; omega
  · rw [List.filter_cons_of_neg (by simpa using h), if_neg h]; simp

theorem rUpdLoop_exact (n : ℕ) : ∀ (us : List Upd) (k : ℕ) (p : Pc) (r : Buf), us.length < k → p.upT.length = n →
    p.upN.length = n → p.dnT.length = n → p.dnN.length = n → (∀ u ∈ us, u.obj < n) →
    ∃ p', rUpdLoop k p (us.flatMap wUpd ++ (.i (-1) :: r)) = some (p', r) ∧ p'.upT.length = n ∧ p'.upN.length = n ∧
      p'.dnT.length = n ∧ p'.dnN.length = n ∧ ∀ o : ℕ, o < n →
      p'.upT[o]? = (p.upT[o]?).map (· + sumOf us o true) ∧ p'.upN[o]? = (p.upN[o]?).map (· + (countOf us o true : Int)) ∧
      p'.dnT[o]? = (p.dnT[o]?).map (· + sumOf us o false) ∧ p'.dnN[o]? = (p.dnN[o]?).map (· + (countOf us o false : Int))
  | [], k, p, r, hk, h1, h2, h3, h4, _ => by
    obtain ⟨k', rfl⟩ : ∃ k', k = k' + 1 := ⟨k - 1, by simp at hk; omega⟩
    refine ⟨p, ?_, h1, h2, h3, h4, ?_⟩
    · simp [rUpdLoop]
    · intro o _
      simp [sumOf, countOf]
  | u :: us, k, p, r, hk, h1, h2, h3, h4, hu => by
    obtain ⟨k', rfl⟩ : ∃ k', k = k' + 1 := ⟨k - 1, by simp at hk; omega⟩
    obtain ⟨q, hq, q1, q2, q3, q4, hqo⟩ := addUpd_some p n h1 h2 h3 h4 u (hu u (by simp))
    obtain ⟨p', hp', l1, l2, l3, l4, hpo⟩ := rUpdLoop_exact n us k' q r (by simp at hk; omega) q1 q2 q3 q4
      (fun v hv => hu v (by simp [hv]))
    refine ⟨p', ?_, l1, l2, l3, l4, ?_⟩
    · rw [← hp']
      have hd : (⟨(u.obj : Int).toNat, decide ((if u.up then (1 : Int) else 0) ≠ 0), u.chg⟩ : Upd) = u := by
        obtain ⟨o, w, c⟩ := u
        cases w <;> simp
      show (if ((u.obj : Int)) = -1 then some (p, (wUpd u).tail ++ us.flatMap wUpd ++ (.i (-1) :: r)) else if (u.obj : Int) < 0 then none else
        match addUpd p ⟨(u.obj : Int).toNat, decide ((if u.up then (1 : Int) else 0) ≠ 0), u.chg⟩ with
          | none => none
          | some p' => rUpdLoop k' p' (us.flatMap wUpd ++ (.i (-1) :: r))) = _
      rw [if_neg (by omega), if_neg (by omega), hd, hq]
    · intro o ho
      obtain ⟨a1, a2, a3, a4⟩ := hqo o ho
      obtain ⟨b1, b2, b3, b4⟩ := hpo o ho
      rw [b1, b2, b3, b4, a1, a2, a3, a4]
      simp only [sumOf_cons, countOf_cons, Option.map_map]
      refine ⟨?_, ?_, ?_, ?_⟩ <;> congr 1 <;> funext x <;> simp only [Function.comp] <;> push_cast <;> split_ifs <;> simp [add_assoc]

/-- **C144.** An update message of an LP process adds to each total of the tree manager exactly the changes sent for the object and
way, and to each counter their number, for all objects known to the tree manager. -/
theorem update_exact (us : List Upd) (p : Pc) (n : ℕ) (h1 : p.upT.length = n) (h2 : p.upN.length = n) (h3 : p.dnT.length = n)
    (h4 : p.dnN.length = n) (hu : ∀ u ∈ us, u.obj < n) :
    ∃ p', tmMessage p (wUpds us) = some p' ∧ p'.upT.length = n ∧ p'.upN.length = n ∧ p'.dnT.length = n ∧ p'.dnN.length = n ∧
      ∀ o : ℕ, o < n →
      p'.upT[o]? = (p.upT[o]?).map (· + sumOf us o true) ∧ p'.upN[o]? = (p.upN[o]?).map (· + (countOf us o true : Int)) ∧
      p'.dnT[o]? = (p.dnT[o]?).map (· + sumOf us o false) ∧ p'.dnN[o]? = (p.dnN[o]?).map (· + (countOf us o false : Int)) := by
  have hlen : us.length < (us.flatMap wUpd ++ [Tok.i (-1)]).length + 1 := by
    have : us.length ≤ (us.flatMap wUpd).length := by
      clear h1 h2 h3 h4 hu
      induction us with
      | nil => simp
      | cons u us ih => simp only [List.flatMap_cons, List.length_append, List.length_cons, wUpd] at ih ⊢; omega
    rw [List.length_append]; omega
  obtain ⟨p', hp', rest⟩ := rUpdLoop_exact n us _ p [] hlen h1 h2 h3 h4 hu
  refine ⟨p', ?_, rest⟩
  show (if (2 : Int) = 2 then (rUpdLoop ((us.flatMap wUpd ++ [Tok.i (-1)]).length + 1) p (us.flatMap wUpd ++ [Tok.i (-1)])).map
    (·.1) else some p) = some p'
  rw [if_pos rfl, hp']
  rfl

/-- **C144.** Other messages leave the pseudo-costs of the tree manager as they are. -/
theorem other_message (p : Pc) (t : Int) (r : Buf) (ht : t ≠ 2) : tmMessage p (.i t :: r) = some p := by
  show (if t = 2 then _ else some p) = some p
  rw [if_neg ht]

/-- **C145 (partial).** A cut read from a buffer has the row and the bounds as a row cut of the cut written … -/
theorem cut_round_trip_partial (c : Cut) (r : Buf) : ∃ c', rCut (wCut c ++ r) = some (c', r) ∧ c'.lb = c.lb ∧ c'.ub = c.ub ∧
    c'.inds = c.inds ∧ c'.els = c.els ∧ c'.bcpLb = -(10 ^ 40) ∧ c'.bcpUb = 10 ^ 40 := by
  refine ⟨⟨-(10 ^ 40), 10 ^ 40, c.lb, c.ub, c.inds, c.els⟩, ?_, rfl, rfl, rfl, rfl, rfl, rfl⟩
  simp [rCut, wCut, rDbl, rInts, rDbls]

/-- … so a second transfer changes nothing more. -/
theorem cut_second_trip (c c' : Cut) (r : Buf) (h : rCut (wCut c) = some (c', [])) : rCut (wCut c' ++ r) = some (c', r) := by
  obtain ⟨c'', h1, a, b, d, e, f, g⟩ := cut_round_trip_partial c []
  rw [List.append_nil, h] at h1
  injection h1 with h1
  injection h1 with h1 _
  subst h1
  obtain ⟨l1, l2, l3, l4, l5, l6⟩ := c'
  simp only at f g
  subst f; subst g
  simp [rCut, wCut, rDbl, rInts, rDbls]

/-- **C145 (refuted).** The cut read is not the cut written: its bounds as a `BCP_cut`, which `cuts_to_rows` puts on the row, are
−1e40 and 1e40. Unless the framework restores the bounds, `x₀ ≤ 1` comes back as a free row. -/
theorem cut_bounds_lost : (rCut (wCut (Cut.ofRow (-(10 ^ 30)) 1 [0] [1]))).map (fun p => cutRow p.1) =
      some (-(10 ^ 40), 10 ^ 40, [(0, 1)]) ∧
    cutRow (Cut.ofRow (-(10 ^ 30)) 1 [0] [1]) = (-(10 ^ 30), 1, [(0, 1)]) := by
  norm_num [rCut, wCut, Cut.ofRow, cutRow, rDbl, rInt, rArr, rMany, wInts, wDbls]

theorem takeWhile_all {α : Type} (p : α → Bool) : ∀ l : List α, (∀ a ∈ l, p a = true) → l.takeWhile p = l
  | [], _ => rfl
  | a :: l, h => by
    rw [List.takeWhile_cons_of_pos (h a (by simp)), takeWhile_all p l (fun b hb => h b (by simp [hb]))]

/-- **C146 (partial).** Parameters, problem and options reach the LP process as the tree manager has them, if neither text contains
a NUL character. -/
theorem module_round_trip_partial (ps : List String) (nl ipopt : String) (h1 : ∀ c ∈ nl.toList, c ≠ '\x00')
    (h2 : ∀ c ∈ ipopt.toList, c ≠ '\x00') (r : Buf) :
    rModule (wModule ps nl ipopt ++ r) = some ((ps, nl, ipopt), r) := by
  have hb := rMany_map rStr (fun q => [Tok.s q]) (fun _ => True) (fun a r _ => rfl) ps ([Tok.s nl, Tok.s ipopt] ++ r) (by simp)
  have e : ∀ t : String, (∀ c ∈ t.toList, c ≠ '\x00') → upToNul t = t := by
    intro t ht
    rw [upToNul, takeWhile_all _ _ (by simpa using ht)]
    exact String.ofList_toList
  simp only [rModule, wModule, List.cons_append, rArr, rInt, List.append_assoc, List.nil_append]
  rw [if_neg (by simp), Int.toNat_natCast, List.map_eq_flatMap]
  simp only [List.cons_append, List.nil_append] at hb
  rw [hb]
  simp [rStr, e nl h1, e ipopt h2]

/-- **C146 (refuted).** A text with a NUL is cut off there without a word: of a (binary) problem file with a NUL only the part in
front of it is parsed. -/
theorem text_cut_at_nul : (rModule (wModule [] "b3\x00 0" "x")).map (·.1) = some ([], "b3", "x") := by decide +kernel

/-! ## Examples -/

/-- A request with a warm start. -/
example : rRequest true 2 (wRequest ⟨[0, 0], [1, 4], 5, 7, some [1, 2], 3, [⟨true, 1, 1, 5 / 2, 3⟩]⟩) =
    some (⟨[0, 0], [1, 4], 5, 7, some [1, 2], 3, [⟨true, 1, 1, 5 / 2, 3⟩]⟩, []) := by decide +kernel

/-- An update of two objects. -/
example : tmMessage ⟨[0, 0], [0, 0], [0, 1], [0, 1]⟩ (wUpds [⟨1, false, 2⟩, ⟨0, true, 3⟩, ⟨1, false, 4⟩]) =
    some ⟨[3, 0], [1, 0], [0, 7], [0, 3]⟩ := by decide +kernel

example : ∀ u ∈ ([⟨1, false, 2⟩, ⟨0, true, 3⟩, ⟨1, false, 4⟩] : List Upd), u.obj < 2 := by decide

example : ∀ c ∈ ("g3 1 1 0" : String).toList, c ≠ '\x00' := by decide +kernel

/-- C145: a cut made of a row has its bounds, and gives that row. -/
theorem cut_made (lb ub : ℚ) (inds : List Int) (els : List ℚ) : cutRow (Cut.ofRow lb ub inds els) = (lb, ub, inds.zip els) ∧
    (Cut.ofRow lb ub inds els).lb = lb ∧ (Cut.ofRow lb ub inds els).ub = ub ∧
    wCut (Cut.ofRow lb ub inds els) = [.d lb, .d ub] ++ wInts inds ++ wDbls els := ⟨rfl, rfl, rfl, rfl⟩

/-- C145: whatever is read, the row made of it is free. -/
theorem cut_read_free (r r' : Buf) (c : Cut) (h : rCut r = some (c, r')) : (cutRow c).1 = -(10 ^ 40) ∧ (cutRow c).2.1 = 10 ^ 40 := by
  unfold rCut at h
  split at h
  · simp at h
  · split at h
    · simp at h
    · split at h
      · simp at h
      · split at h
        · simp at h
        · simp only [Option.some.injEq, Prod.mk.injEq] at h
          rw [← h.1]
          exact ⟨rfl, rfl⟩

/-- **C143**: each reader succeeds exactly on a buffer that begins with an item of its kind, and takes this item only. -/
theorem readers_exact (r t : Buf) : (∀ n, rInt r = some (n, t) ↔ r = .i n :: t) ∧ (∀ q, rDbl r = some (q, t) ↔ r = .d q :: t) ∧
    (∀ v, rBool r = some (v, t) ↔ r = .b v :: t) ∧ (∀ x, rStr r = some (x, t) ↔ r = .s x :: t) := by
  cases r with
  | nil => simp [rInt, rDbl, rBool, rStr]
  | cons a r => cases a <;> simp [rInt, rDbl, rBool, rStr]

example : rInt [.d 3] = none ∧ rDbl [.i 3] = none ∧ rBool [] = none ∧ rStr [.b true] = none ∧ rInt [.i 3, .d 1] = some (3, [.d 1]) := by decide +kernel

theorem rMany_exact {α : Type} (rd : Buf → Option (α × Buf)) (w : α → Tok) (h : ∀ r t a, rd r = some (a, t) ↔ r = w a :: t) :
    ∀ (n : ℕ) (r t : Buf) (l : List α), rMany rd n r = some (l, t) ↔ l.length = n ∧ r = l.map w ++ t
  | 0, r, t, l => by
    cases l <;> simp [rMany, eq_comm]
  | n + 1, r, t, l => by
    unfold rMany
    cases hr : rd r with
    | none =>
      simp only [reduceCtorEq, false_iff, not_and]
      intro hl he
      cases l with
      | nil => simp at hl
      | cons a l =>
        rw [List.map_cons, List.cons_append] at he
        rw [(h r _ a).mpr he] at hr
        simp at hr
    | some p =>
      obtain ⟨a, r'⟩ := p
      have e := (h r r' a).mp hr
      subst e
      simp only
      cases hm : rMany rd n r' with
      | none =>
        simp only [reduceCtorEq, false_iff, not_and]
        intro hl he
        cases l with
        | nil => simp at hl
        | cons b l =>
          rw [List.map_cons, List.cons_append, List.cons.injEq] at he
          rw [(rMany_exact rd w h n r' t l).mpr ⟨by simpa using hl, he.2⟩] at hm
          simp at hm
      | some q =>
        obtain ⟨as, r''⟩ := q
        obtain ⟨e1, e2⟩ := (rMany_exact rd w h n r' r'' as).mp hm
        simp only [Option.some.injEq, Prod.mk.injEq]
        constructor
        · rintro ⟨rfl, rfl⟩
          exact ⟨by simp [e1], by simp [e2]⟩
        · rintro ⟨hl, he⟩
          cases l with
          | nil => simp at hl
          | cons b l =>
            rw [List.map_cons, List.cons_append] at he
            have hb : rd (w a :: r') = some (b, l.map w ++ t) := (h _ _ _).mpr he
            rw [hr] at hb
            simp only [Option.some.injEq, Prod.mk.injEq] at hb
            obtain ⟨rfl, e3⟩ := hb
            have := (rMany_exact rd w h n r' t l).mpr ⟨by simpa using hl, e3⟩
            rw [hm] at this
            simp only [Option.some.injEq, Prod.mk.injEq] at this
            exact ⟨by rw [this.1], this.2⟩

/-- **C143**: an array of numbers is read exactly from a buffer that begins with its length and its items; a length below zero, an item of another kind or a buffer that is too short is an error. -/
theorem arrays_exact (r t : Buf) : (∀ l, rArr rInt r = some (l, t) ↔ r = .i l.length :: (l.map Tok.i ++ t)) ∧ (∀ l, rArr rDbl r = some (l, t) ↔ r = .i l.length :: (l.map Tok.d ++ t)) := by
  have key : ∀ {α : Type} (rd : Buf → Option (α × Buf)) (w : α → Tok), (∀ r t a, rd r = some (a, t) ↔ r = w a :: t) →
      ∀ l, rArr rd r = some (l, t) ↔ r = .i l.length :: (l.map w ++ t) := by
    intro α rd w h l
    unfold rArr
    cases hr : rInt r with
    | none =>
      simp only [reduceCtorEq, false_iff]
      intro he
      rw [((readers_exact r _).1 _).mpr he] at hr
      simp at hr
    | some p =>
      obtain ⟨n, r'⟩ := p
      have e := ((readers_exact r r').1 n).mp hr
      subst e
      simp only
      by_cases hn : n < 0
      · rw [if_pos hn]
        simp only [reduceCtorEq, List.cons.injEq, Tok.i.injEq, false_iff, not_and]
        omega
      · rw [if_neg hn, rMany_exact rd w h]
        simp only [List.cons.injEq, Tok.i.injEq]
        constructor
        · rintro ⟨h1, h2⟩; exact ⟨by omega, h2⟩
        · rintro ⟨h1, h2⟩; exact ⟨by omega, h2⟩
  exact ⟨key rInt Tok.i (fun r t a => (readers_exact r t).1 a), key rDbl Tok.d (fun r t a => (readers_exact r t).2.1 a)⟩

example : rArr rInt [.i 2, .i 5, .i 7, .b true] = some ([5, 7], [.b true]) ∧ rArr rInt [.i 2, .i 5] = none ∧ rArr rDbl [.i 1, .i 5] = none := by decide +kernel

/-- **C143.**  The answers are read exactly from a message that starts with three integers, the first of them the tag when assertions are on, followed by as many answers as the third says; a negative
count reads none. -/
theorem result_exact (dbg : Bool) (r t : Buf) (loc : ℕ) (as : List Ans) :
    rResult dbg r = some ((loc, as), t) ↔ ∃ (tag l n : Int) (rest : Buf), r = .i tag :: .i l :: .i n :: rest ∧ (dbg = true → tag = 1) ∧ loc = l.toNat ∧ rMany rAns n.toNat rest = some (as, t) := by
  constructor
  · intro h
    unfold rResult at h
    cases h1 : rInt r with
    | none => simp [h1] at h
    | some p1 =>
      obtain ⟨tag, r1⟩ := p1
      have e1 := ((readers_exact r r1).1 tag).mp h1
      simp only [h1] at h
      by_cases hd : dbg = true ∧ tag ≠ 1
      · simp [hd] at h
      · rw [if_neg hd] at h
        cases h2 : rInt r1 with
        | none => simp [h2] at h
        | some p2 =>
          obtain ⟨l, r2⟩ := p2
          have e2 := ((readers_exact r1 r2).1 l).mp h2
          simp only [h2] at h
          cases h3 : rInt r2 with
          | none => simp [h3] at h
          | some p3 =>
            obtain ⟨n, r3⟩ := p3
            have e3 := ((readers_exact r2 r3).1 n).mp h3
            simp only [h3] at h
            obtain ⟨p, hp, e⟩ := Option.map_eq_some_iff.mp h
            simp only [Prod.mk.injEq] at e
            refine ⟨tag, l, n, r3, by rw [e1, e2, e3], fun hb => ?_, e.1.1.symm, ?_⟩
            · by_contra hne
              exact hd ⟨hb, hne⟩
            · rw [hp, ← e.1.2, ← e.2]
  · rintro ⟨tag, l, n, rest, rfl, hd, rfl, hm⟩
    have hn : ¬ (dbg = true ∧ tag ≠ 1) := fun hc => hc.2 (hd hc.1)
    simp only [rResult, rInt]
    rw [if_neg hn]
    simp only [hm, Option.map_some]

/-- **C143.**  A request is read exactly from a message of the layout written: the tag (checked with assertions), two arrays (their lengths checked with assertions), two numbers, the mark of a warm start and
the warm start with the mark, the place and as many branches as the count says. -/
theorem request_exact (dbg : Bool) (nCols : ℕ) (r t : Buf) (q : Request) :
    rRequest dbg nCols r = some (q, t) ↔ ∃ (tag l n : Int) (rest : Buf),
      r = .i tag :: (wDbls q.lo ++ (wDbls q.up ++ (.d q.obj :: .d q.cutoff :: .b q.ws.isSome :: ((q.ws.elim [] wDbls) ++ (.i l :: .i n :: rest))))) ∧
      (dbg = true → tag = 0 ∧ q.lo.length = nCols ∧ q.up.length = nCols) ∧ q.location = l.toNat ∧ rMany rBranch n.toNat rest = some (q.branches, t) := by
  constructor
  · intro h
    unfold rRequest at h
    cases h1 : rInt r with
    | none => simp [h1] at h
    | some p1 =>
      obtain ⟨tag, r1⟩ := p1
      have e1 := ((readers_exact r r1).1 tag).mp h1
      simp only [h1] at h
      by_cases hd : dbg = true ∧ tag ≠ 0
      · simp [hd] at h
      rw [if_neg hd] at h
      cases h2 : rArr rDbl r1 with
      | none => simp [h2] at h
      | some p2 =>
        obtain ⟨lo, r2⟩ := p2
        have e2 := ((arrays_exact r1 r2).2 lo).mp h2
        simp only [h2] at h
        by_cases hd2 : dbg = true ∧ lo.length ≠ nCols
        · simp [hd2] at h
        rw [if_neg hd2] at h
        cases h3 : rArr rDbl r2 with
        | none => simp [h3] at h
        | some p3 =>
          obtain ⟨up, r3⟩ := p3
          have e3 := ((arrays_exact r2 r3).2 up).mp h3
          simp only [h3] at h
          by_cases hd3 : dbg = true ∧ up.length ≠ nCols
          · simp [hd3] at h
          rw [if_neg hd3] at h
          cases h4 : rDbl r3 with
          | none => simp [h4] at h
          | some p4 =>
            obtain ⟨obj, r4⟩ := p4
            have e4 := ((readers_exact r3 r4).2.1 obj).mp h4
            simp only [h4] at h
            cases h5 : rDbl r4 with
            | none => simp [h5] at h
            | some p5 =>
              obtain ⟨cutoff, r5⟩ := p5
              have e5 := ((readers_exact r4 r5).2.1 cutoff).mp h5
              simp only [h5] at h
              cases h6 : rBool r5 with
              | none => simp [h6] at h
              | some p6 =>
                obtain ⟨has, r6⟩ := p6
                have e6 : r5 = .b has :: r6 := by
                  revert h6
                  unfold rBool
                  split
                  · simp only [Option.some.injEq, Prod.mk.injEq]
                    rintro ⟨rfl, rfl⟩
                    rfl
                  · simp
                simp only [h6] at h
                cases h7 : (if has then (rArr rDbl r6).map fun p => (some p.1, p.2) else some (none, r6)) with
                | none => simp [h7] at h
                | some p7 =>
                  obtain ⟨ws, r7⟩ := p7
                  have e7 : has = ws.isSome ∧ r6 = ws.elim [] wDbls ++ r7 := by
                    cases has with
                    | false =>
                      simp only [Bool.false_eq_true, if_false, Option.some.injEq, Prod.mk.injEq] at h7
                      obtain ⟨rfl, rfl⟩ := h7
                      simp
                    | true =>
                      simp only [if_true] at h7
                      obtain ⟨p, hp, e⟩ := Option.map_eq_some_iff.mp h7
                      simp only [Prod.mk.injEq] at e
                      obtain ⟨rfl, rfl⟩ := e
                      have := ((arrays_exact r6 p.2).2 p.1).mp hp
                      simp [wDbls, this]
                  simp only [h7] at h
                  cases h8 : rInt r7 with
                  | none => simp [h8] at h
                  | some p8 =>
                    obtain ⟨l, r8⟩ := p8
                    have e8 := ((readers_exact r7 r8).1 l).mp h8
                    simp only [h8] at h
                    cases h9 : rInt r8 with
                    | none => simp [h9] at h
                    | some p9 =>
                      obtain ⟨n, r9⟩ := p9
                      have e9 := ((readers_exact r8 r9).1 n).mp h9
                      simp only [h9] at h
                      cases h10 : rMany rBranch n.toNat r9 with
                      | none => simp [h10] at h
                      | some p10 =>
                        obtain ⟨bs, r10⟩ := p10
                        simp only [h10, Option.some.injEq, Prod.mk.injEq] at h
                        obtain ⟨rfl, rfl⟩ := h
                        refine ⟨tag, l, n, r9, ?_, fun hb => ⟨?_, ?_, ?_⟩, rfl, h10⟩
                        · rw [e1, e2, e3, e4, e5, e6, e7.1, e7.2, e8, e9]
                          simp [wDbls]
                        · by_contra hne
                          exact hd ⟨hb, hne⟩
                        · by_contra hne
                          exact hd2 ⟨hb, hne⟩
                        · by_contra hne
                          exact hd3 ⟨hb, hne⟩
  · rintro ⟨tag, l, n, rest, rfl, hd, hl, hm⟩
    have hn : ¬ (dbg = true ∧ tag ≠ 0) := fun hc => hc.2 (hd hc.1).1
    have hn2 : ¬ (dbg = true ∧ q.lo.length ≠ nCols) := fun hc => hc.2 (hd hc.1).2.1
    have hn3 : ¬ (dbg = true ∧ q.up.length ≠ nCols) := fun hc => hc.2 (hd hc.1).2.2
    have hw : ∀ tl : Buf, (if q.ws.isSome = true then (rArr rDbl ((q.ws.elim [] wDbls) ++ tl)).map fun p => (some p.1, p.2) else some (none, (q.ws.elim [] wDbls) ++ tl)) = some (q.ws, tl) := by
      intro tl
      cases q.ws <;> simp [rDbls]
    simp only [rRequest, rInt]
    rw [if_neg hn]
    simp only [rDbls]
    rw [if_neg hn2, if_neg hn3]
    simp only [rDbl, rBool, hw, hm, ← hl]

example : rResult true [.i 1, .i 4, .i 1, .i 1, .d 3, .i 7, .d 2] = some ((4, [⟨false, true, false, 3, 7, 2⟩]), []) := by decide +kernel
example : rResult true [.i 0, .i 4, .i 0] = none := by decide +kernel

/-- **C144**: pseudo-costs are read exactly from a buffer that begins with the four arrays written, all of the length expected; anything else is an error. -/
theorem pc_exact (n : ℕ) (r t : Buf) (p : Pc) : rPc n r = some (p, t) ↔ r = wPc p ++ t ∧ p.upT.length = n ∧ p.upN.length = n ∧ p.dnT.length = n ∧ p.dnN.length = n := by
  constructor
  · intro h
    unfold rPc at h
    cases h1 : rArr rDbl r with
    | none => simp [h1] at h
    | some a =>
      rw [h1] at h
      by_cases l1 : a.1.length = n
      swap; · simp [l1] at h
      cases h2 : rArr rInt a.2 with
      | none => simp [l1, h2] at h
      | some b =>
        simp only [ne_eq, l1, not_true_eq_false, if_false, h2] at h
        by_cases l2 : b.1.length = n
        swap; · simp [l2] at h
        cases h3 : rArr rDbl b.2 with
        | none => simp [l2, h3] at h
        | some c =>
          simp only [ne_eq, l2, not_true_eq_false, if_false, h3] at h
          by_cases l3 : c.1.length = n
          swap; · simp [l3] at h
          cases h4 : rArr rInt c.2 with
          | none => simp [l3, h4] at h
          | some e =>
            simp only [ne_eq, l3, not_true_eq_false, if_false, h4] at h
            by_cases l4 : e.1.length = n
            swap; · simp [l4] at h
            simp only [l4, not_true_eq_false, if_false, Option.some.injEq, Prod.mk.injEq] at h
            obtain ⟨rfl, rfl⟩ := h
            refine ⟨?_, l1, l2, l3, l4⟩
            have e1 := ((arrays_exact r a.2).2 a.1).mp h1
            have e2 := ((arrays_exact a.2 b.2).1 b.1).mp h2
            have e3 := ((arrays_exact b.2 c.2).2 c.1).mp h3
            have e4 := ((arrays_exact c.2 e.2).1 e.1).mp h4
            rw [e1, e2, e3, e4]
            simp [wPc, wDbls, wInts]
  · rintro ⟨rfl, h1, h2, h3, h4⟩
    exact pc_round_trip p n h1 h2 h3 h4 t

/-- **C144**: the data of a node are read exactly from a buffer that begins with an integer and, for an LP process, the pseudo-costs; a message that ends early or has an item of another kind is an error. -/
theorem node_exact (lp : Bool) (n : ℕ) (r t : Buf) (f : ℕ) (p : Option Pc) :
    rNode lp n r = some ((f, p), t) ↔ ∃ k : Int, k.toNat = f ∧ if lp then ∃ q, p = some q ∧ r = .i k :: (wPc q ++ t) ∧ q.upT.length = n ∧ q.upN.length = n ∧ q.dnT.length = n ∧ q.dnN.length = n
      else p = none ∧ r = .i k :: t := by
  unfold rNode
  cases h : rInt r with
  | none =>
    simp only [reduceCtorEq, false_iff, not_exists, not_and]
    intro k _ hx
    cases lp with
    | true =>
      obtain ⟨q, _, rfl, _⟩ := hx
      simp [rInt] at h
    | false =>
      obtain ⟨_, rfl⟩ := hx
      simp [rInt] at h
  | some a =>
    obtain ⟨k, r1⟩ := a
    obtain rfl := ((readers_exact r r1).1 k).mp h
    cases lp with
    | true =>
      simp only [if_true, Option.map_eq_some_iff, Prod.mk.injEq, List.cons.injEq, Tok.i.injEq]
      constructor
      · rintro ⟨⟨q, t'⟩, hq, ⟨rfl, rfl⟩, rfl⟩
        obtain ⟨rfl, hl⟩ := (pc_exact n r1 t' q).mp hq
        exact ⟨k, rfl, q, rfl, ⟨rfl, rfl⟩, hl⟩
      · rintro ⟨k', rfl, q, rfl, ⟨rfl, rfl⟩, hl⟩
        exact ⟨(q, t), (pc_exact n _ t q).mpr ⟨rfl, hl⟩, ⟨rfl, rfl⟩, rfl⟩
    | false =>
      simp only [Bool.false_eq_true, if_false, Option.some.injEq, Prod.mk.injEq, List.cons.injEq, Tok.i.injEq]
      constructor
      · rintro ⟨⟨rfl, rfl⟩, rfl⟩
        exact ⟨k, rfl, rfl, rfl, rfl⟩
      · rintro ⟨k', rfl, rfl, rfl, rfl⟩
        exact ⟨⟨rfl, rfl⟩, rfl⟩

example : rNode true 1 [.i 2, .i 1, .d 3, .i 1, .i 4] = none ∧ rNode false 1 [.d 2] = none ∧ rNode false 1 [.i 2, .b true] = some ((2, none), [.b true]) := by decide +kernel

/-- **C146**: the data of a run are read exactly from a buffer with the number of parameters, the parameters and two further texts; the texts are cut at a NUL, and a message that ends early is an error. -/
theorem module_exact (r t : Buf) (ps : List String) (nl ip : String) :
    rModule r = some ((ps, nl, ip), t) ↔ ∃ a b, r = wModule ps a b ++ t ∧ nl = upToNul a ∧ ip = upToNul b := by
  have hs : ∀ (r t : Buf) (l : List String), rArr rStr r = some (l, t) ↔ r = .i l.length :: (l.map Tok.s ++ t) := by
    intro r t l
    unfold rArr
    cases hr : rInt r with
    | none =>
      simp only [reduceCtorEq, false_iff]
      intro he
      rw [((readers_exact r _).1 _).mpr he] at hr
      simp at hr
    | some p =>
      obtain ⟨n, r'⟩ := p
      have e := ((readers_exact r r').1 n).mp hr
      subst e
      simp only
      by_cases hn : n < 0
      · rw [if_pos hn]
        simp only [reduceCtorEq, List.cons.injEq, Tok.i.injEq, false_iff, not_and]
        omega
      · rw [if_neg hn, rMany_exact rStr Tok.s (fun r t a => (readers_exact r t).2.2.2 a)]
        simp only [List.cons.injEq, Tok.i.injEq]
        constructor
        · rintro ⟨h1, h2⟩; exact ⟨by omega, h2⟩
        · rintro ⟨h1, h2⟩; exact ⟨by omega, h2⟩
  unfold rModule
  constructor
  · intro h
    cases h1 : rArr rStr r with
    | none => simp [h1] at h
    | some a =>
      cases h2 : rStr a.2 with
      | none => simp [h1, h2] at h
      | some b =>
        simp only [h1, h2, Option.map_eq_some_iff, Prod.mk.injEq] at h
        obtain ⟨c, h3, ⟨rfl, rfl, rfl⟩, rfl⟩ := h
        have e1 := (hs r a.2 a.1).mp h1
        have e2 := ((readers_exact a.2 b.2).2.2.2 b.1).mp h2
        have e3 := ((readers_exact b.2 c.2).2.2.2 c.1).mp h3
        refine ⟨b.1, c.1, ?_, rfl, rfl⟩
        rw [e1, e2, e3]
        simp [wModule]
  · rintro ⟨a, b, rfl, rfl, rfl⟩
    have e1 : rArr rStr (wModule ps a b ++ t) = some (ps, .s a :: .s b :: t) := (hs _ _ _).mpr (by simp [wModule])
    simp [e1, rStr]

example : rModule [.i 1, .s "p", .s "nl"] = none ∧ rModule [.i 0, .s "nl", .s "x", .d 1] = some (([], "nl", "x"), [.d 1]) := by decide +kernel

end Verif.Bcp

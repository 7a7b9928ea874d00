import Verif.Slv.Reader
/-! # C93: reports of failures

src/Interfaces/BonTNLPSolver.cpp: `printError` 163-167, `writeDiffFiles` 169-248; src/Interfaces/Ipopt/BonIpoptSolver.cpp: `errorName` 451-487; src/Interfaces/BonStartPointReader.cpp:14-53;
where the error is made: src/Interfaces/BonOsiTMINLPInterface.cpp:1089, 2627, 2643, src/CbcBonmin/BonCbcNlpStrategy.cpp:151, src/Algorithms/Branching/BonChooseVariable.cpp:847, 894.
The bounds files are read by `BoundsReader` (Slv/Reader.lean).

Simplifications: a number written to a file and read again is `fmt` of it (the bounds file is written with the default of six digits, the start file with seventeen, which is exact
for doubles); files can be opened; `CoinRelFltEq` has its default tolerance; the file of variable names exists or not. -/
namespace Verif.Slv.Diff

/-! ### Names of errors -/

/-- Outcome of `errorName`: a name, an access outside the array, an exception. -/
inductive Nm
  | name (s : String)
  | outside
  | thrown
  deriving DecidableEq, Repr

/-- `errorNames` (452-468). -/
def names : List String := ["Solve succeeded", "Solved to acceptable level", "Infeasible problem detected", "Search direction becomes too small", "Diverging iterates",
  "User requested stop", "Maximum iterations exceeded", "Restoration failed", "Error in step computation", "Not enough degrees of freedom", "Invalid problem definition",
  "Invalid option", "Invalid number detected", "Unrecoverable exception", "NonIpopt exception thrown", "Insufficient memory", "Internal error"]

def at' (i : ℕ) : Nm := match names[i]? with | some s => .name s | none => .outside

/-- `errorName` (470-487). -/
def errorName (e : Int) : Nm :=
  if 0 ≤ e then at' e.toNat
  else if e = -1 then at' 6
  else if e = -2 then at' 7
  else if e = -3 then at' 8
  else if e = -10 then at' 9
  else if e = -11 then at' 10
  else if e = -12 then at' 11
  else if e = -13 then at' 12
  else if e = -100 then at' 13
  else if e = -101 then at' 14
  else if e = -102 then at' 15
  else if e = -199 then at' 16
  else .thrown

/-- `Ipopt::ApplicationReturnStatus` (IpReturnCodes_inc.h) with its names. -/
def codes : List (Int × String) := [(0, "Solve succeeded"), (1, "Solved to acceptable level"), (2, "Infeasible problem detected"), (3, "Search direction becomes too small"),
  (4, "Diverging iterates"), (5, "User requested stop"), (6, "Feasible point found"), (-1, "Maximum iterations exceeded"), (-2, "Restoration failed"), (-3, "Error in step computation"),
  (-4, "Maximum CPU time exceeded"), (-10, "Not enough degrees of freedom"), (-11, "Invalid problem definition"), (-12, "Invalid option"), (-13, "Invalid number detected"),
  (-100, "Unrecoverable exception"), (-101, "NonIpopt exception thrown"), (-102, "Insufficient memory"), (-199, "Internal error")]

/-- Where an `UnsolvedError` is made: by the interface after a solve, by the strategy of the tree, in strong branching with a debugger for cuts. -/
inductive Site | itf | tree | strong
  deriving DecidableEq, Repr

/-- The number given to the error when Ipopt's status is `e`. -/
def number (s : Site) (e : Int) : Int := match s with | .itf => e | .tree => 0 | .strong => 1

/-- C93: errors of the interface are named after Ipopt's status, except for two of them. -/
theorem named_partial (e : Int) (s : String) (h : (e, s) ∈ codes) (h1 : e ≠ 6) (h2 : e ≠ -4) : errorName (number .itf e) = .name s := by
  have : ∀ p ∈ codes, p.1 ≠ 6 → p.1 ≠ -4 → errorName p.1 = .name p.2 := by decide +kernel
  exact this (e, s) h h1 h2

/-- C93: the name is found for every status Ipopt can return but one. -/
theorem name_found (e : Int) (h : e ∈ codes.map Prod.fst) : (∃ s, errorName e = .name s) ↔ e ≠ -4 := by
  have : ∀ e ∈ codes.map Prod.fst, (errorName e ≠ .outside ∧ errorName e ≠ .thrown) ↔ e ≠ -4 := by decide +kernel
  rw [← this e h]
  cases errorName e <;> simp

/-- Exactly the numbers from 17 on leave the array. -/
theorem name_outside (e : Int) : errorName e = .outside ↔ 17 ≤ e := by
  have h0 : ∀ i, at' i = .outside ↔ 17 ≤ i := by
    intro i
    unfold at'
    rcases lt_or_ge i 17 with h | h
    · have : i < names.length := h
      simp [List.getElem?_eq_getElem this]; exact h
    · have : names.length ≤ i := h
      simp [List.getElem?_eq_none this, h]
  unfold errorName
  split
  · rw [h0]; omega
  · rename_i hn
    have : ¬ 17 ≤ e := by omega
    simp only [this, iff_false]
    have h6 : ∀ i, i < 17 → at' i ≠ .outside := fun i hi q => by have := (h0 i).1 q; omega
    have ht : Nm.thrown ≠ .outside := by decide
    have hi : ∀ (p : Prop) [Decidable p] (a b : Nm), a ≠ .outside → b ≠ .outside → (if p then a else b) ≠ .outside := by intro p _ a b ha hb; split <;> assumption
    exact hi _ _ _ (h6 6 (by decide)) (hi _ _ _ (h6 7 (by decide)) (hi _ _ _ (h6 8 (by decide)) (hi _ _ _ (h6 9 (by decide)) (hi _ _ _ (h6 10 (by decide))
      (hi _ _ _ (h6 11 (by decide)) (hi _ _ _ (h6 12 (by decide)) (hi _ _ _ (h6 13 (by decide)) (hi _ _ _ (h6 14 (by decide)) (hi _ _ _ (h6 15 (by decide))
      (hi _ _ _ (h6 16 (by decide)) ht))))))))))

/-- C93, refuted: a feasible point found is reported as a limit on iterations, and a limit on the time has no name: asking for it throws. -/
theorem names_wrong : errorName 6 = .name "Maximum iterations exceeded" ∧ (6, "Feasible point found") ∈ codes ∧ errorName (-4) = .thrown ∧ (-4, "Maximum CPU time exceeded") ∈ codes := by
  decide +kernel

/-- C93, refuted: when the tree gives up after too many failures, whatever Ipopt's status was, the error reads "Solve succeeded". -/
theorem tree_failure_succeeded (e : Int) : errorName (number .tree e) = .name "Solve succeeded" := rfl

/-- C93, refuted: … and in strong branching "Solved to acceptable level". -/
theorem strong_failure_acceptable (e : Int) : errorName (number .strong e) = .name "Solved to acceptable level" := rfl

/-! ### Files with the differences -/

/-- `CoinRelFltEq` (CoinFloatEqual.hpp), tolerance 1e-10. -/
def same (a b : ℚ) : Bool := |a - b| ≤ 1 / 10 ^ 10 * (1 + max |a| |b|)

/-- The lines for variable `i` (197-218): bounds now and originally. -/
def linesAt (fmt : ℚ → ℚ) (i : ℕ) (l u ol ou : ℚ) : List Line :=
  (if same l ol then [] else [⟨0, true, i, fmt l, []⟩]) ++ (if same u ou then [] else [⟨0, false, i, fmt u, []⟩])

/-- A variable: bounds now and originally. -/
structure B where
  l : ℚ
  u : ℚ
  ol : ℚ
  ou : ℚ
  deriving DecidableEq, Repr

def diffLines (fmt : ℚ → ℚ) : ℕ → List B → List Line
  | _, [] => []
  | i, b :: bs => linesAt fmt i b.l b.u b.ol b.ou ++ diffLines fmt (i + 1) bs

/-- The bounds file: each line ends with a line end (`std::endl`). -/
def boundsFile (fmt : ℚ → ℚ) (bs : List B) : List Tok := (diffLines fmt 0 bs).flatMap fun l => l.toks ++ [.nl]

/-- The labels of the constraints in the AMPL file (202-204, 212-214). -/
def labels : ℕ → List B → List ℕ
  | _, [] => []
  | i, b :: bs => (if same b.l b.ol then [] else [i]) ++ (if same b.u b.ou then [] else [i]) ++ labels (i + 1) bs

/-- The start file (220-245): the point and multipliers put in, if any; `none` = no file. -/
def startFile (n m : ℕ) (x d : Option (List ℚ)) : Option (List ℚ) :=
  x.map fun x => ((n : ℚ) :: ((2 * n + m : ℕ) : ℚ) :: x) ++ d.getD []

/-- `StartPointReader::readFile` (14-34) on a file of numbers; entries not in the file stay uninitialised (inner `none`); `none` = undefined: sizes missing or no sizes. -/
def readStart (f : List ℚ) : Option (List (Option ℚ) × List (Option ℚ)) :=
  match f with
  | a :: b :: r =>
    if a.den = 1 ∧ b.den = 1 ∧ 0 ≤ a ∧ 0 ≤ b then
      some ((List.range a.num.toNat).map fun i => r[i]?, (List.range b.num.toNat).map fun i => r[a.num.toNat + i]?)
    else none
  | _ => none

/-- `setColSolution` and `setRowPrice` with these arrays (36-53): they read as many entries as the problem has; `none` = beyond the array or uninitialised. -/
def applyStart (n m : ℕ) (r : List (Option ℚ) × List (Option ℚ)) : Option (List ℚ × List ℚ) :=
  if n ≤ r.1.length ∧ 2 * n + m ≤ r.2.length then
    ((r.1.take n).mapM id).bind fun x => ((r.2.take (2 * n + m)).mapM id).map fun d => (x, d)
  else none

theorem flat_lines (ls : List Line) (h : ls ≠ []) : (ls.flatMap fun l => l.toks ++ [Tok.nl]) = fileOf ls ++ [.nl] := by
  induction ls with
  | nil => exact absurd rfl h
  | cons l ls ih =>
    cases ls with
    | nil => simp [fileOf]
    | cons a as => rw [List.flatMap_cons, ih (by simp)]; simp [fileOf]

theorem lines_extra (fmt : ℚ → ℚ) : ∀ (bs : List B) (i : ℕ), ∀ l ∈ diffLines fmt i bs, Tok.nl ∉ l.extra := by
  intro bs
  induction bs with
  | nil => intro i l hl; cases hl
  | cons b bs ih =>
    intro i l hl
    rcases List.mem_append.1 hl with hl | hl
    · unfold linesAt at hl
      rcases List.mem_append.1 hl with hl | hl <;> split at hl <;> simp at hl <;> subst hl <;> simp
    · exact ih _ l hl

theorem lines_empty (fmt : ℚ → ℚ) : ∀ (bs : List B) (i : ℕ), diffLines fmt i bs = [] ↔ ∀ b ∈ bs, same b.l b.ol = true ∧ same b.u b.ou = true := by
  intro bs
  induction bs with
  | nil => intro i; simp [diffLines]
  | cons b bs ih =>
    intro i
    simp only [diffLines, List.append_eq_nil_iff, ih, List.forall_mem_cons, linesAt]
    cases same b.l b.ol <;> cases same b.u b.ou <;> simp

/-- C93, refuted: no bounds file written for a failed problem can be read by Bonmin's own reader: if bounds differ it uses uninitialised numbers, if none differ the program ends. -/
theorem bounds_file_unreadable (fmt : ℚ → ℚ) (bs : List B) :
    readBounds (some (boundsFile fmt bs)) = if ∀ b ∈ bs, same b.l b.ol = true ∧ same b.u b.ou = true then .terminate else .undefined := by
  by_cases h : diffLines fmt 0 bs = []
  · rw [if_pos ((lines_empty fmt bs 0).1 h), boundsFile, h]
    exact (read_empty_terminates 0).2
  · rw [if_neg (fun q => h ((lines_empty fmt bs 0).2 q)), boundsFile, flat_lines _ h]
    exact read_newline_undefined _ h (lines_extra fmt bs 0) 0

theorem entries_append (b : Bool) (x y : List Line) : entriesOf b (x ++ y) = entriesOf b x ++ entriesOf b y := by simp [entriesOf]

theorem last_cons (c : Bool) (i j : ℕ) (v : ℚ) (r : List (ℕ × ℚ)) : lastFor ((if c then [] else [(i, v)]) ++ r) j =
    (lastFor r j).or (if c = false ∧ i = j then some v else none) := by
  unfold lastFor
  rw [List.filter_append, List.getLast?_append]
  cases c
  · by_cases h : i = j
    · cases hl : (List.filter (fun e => e.1 == j) r).getLast? <;> simp [h]
    · cases hl : (List.filter (fun e => e.1 == j) r).getLast? <;> simp [h]
  · cases hl : (List.filter (fun e => e.1 == j) r).getLast? <;> simp

/-- The last entry for a variable, given how one variable's lines look. -/
theorem entries_last (fmt : ℚ → ℚ) (low : Bool) (c : B → Bool) (g : B → ℚ)
    (he : ∀ i b, entriesOf low (linesAt fmt i b.l b.u b.ol b.ou) = if c b then [] else [(i, fmt (g b))]) :
    ∀ (bs : List B) (i j : ℕ), lastFor (entriesOf low (diffLines fmt i bs)) j = if j < i then none else (bs[j - i]?).bind fun b => if c b then none else some (fmt (g b)) := by
  intro bs
  induction bs with
  | nil => intro i j; simp [diffLines, entriesOf, lastFor]
  | cons b bs ih =>
    intro i j
    rw [diffLines, entries_append, he, last_cons, ih (i + 1) j]
    rcases lt_trichotomy j i with h | h | h
    · rw [if_pos (by omega), if_pos h, if_neg (by omega)]; rfl
    · subst h
      rw [if_pos (by omega : j < j + 1), if_neg (lt_irrefl j)]
      cases hc : c b <;> simp [hc]
    · have e2 : j - i = (j - (i + 1)) + 1 := by omega
      rw [if_neg (by omega), if_neg (by omega), if_neg (by omega), e2, List.getElem?_cons_succ]
      simp

theorem entries_low (fmt : ℚ → ℚ) (bs : List B) (i j : ℕ) : lastFor (entriesOf true (diffLines fmt i bs)) j =
    if j < i then none else (bs[j - i]?).bind fun b => if same b.l b.ol then none else some (fmt b.l) :=
  entries_last fmt true (fun b => same b.l b.ol) B.l (fun i b => by unfold linesAt; cases same b.l b.ol <;> cases same b.u b.ou <;> simp [entriesOf]) bs i j

theorem entries_upp (fmt : ℚ → ℚ) (bs : List B) (i j : ℕ) : lastFor (entriesOf false (diffLines fmt i bs)) j =
    if j < i then none else (bs[j - i]?).bind fun b => if same b.u b.ou then none else some (fmt b.u) :=
  entries_last fmt false (fun b => same b.u b.ou) B.u (fun i b => by unfold linesAt; cases same b.l b.ol <;> cases same b.u b.ou <;> simp [entriesOf]) bs i j

theorem lines_index (fmt : ℚ → ℚ) : ∀ (bs : List B) (i : ℕ), ∀ l ∈ diffLines fmt i bs, l.i < i + bs.length := by
  intro bs
  induction bs with
  | nil => intro i l hl; cases hl
  | cons b bs ih =>
    intro i l hl
    rcases List.mem_append.1 hl with hl | hl
    · unfold linesAt at hl
      rcases List.mem_append.1 hl with hl | hl <;> split at hl <;> simp at hl <;> subst hl <;> simp
    · have := ih _ l hl; simp; omega

/-- What is left of a bound that was written and read again. -/
def back (fmt : ℚ → ℚ) (now orig : ℚ) : ℚ := if same now orig then orig else fmt now

/-- C93: with its last line end taken away, a bounds file applied to the original problem gives the bounds of the failed one, up to the digits written and the tolerance. -/
theorem bounds_round_trip_partial (fmt : ℚ → ℚ) (bs : List B) (h : ∃ b ∈ bs, ¬ (same b.l b.ol = true ∧ same b.u b.ou = true)) :
    readApply (some (boundsFile fmt bs).dropLast) (bs.map B.ol) (bs.map B.ou) = some (bs.map fun b => back fmt b.l b.ol, bs.map fun b => back fmt b.u b.ou) := by
  have hne : diffLines fmt 0 bs ≠ [] := fun q => by obtain ⟨b, hb, hn⟩ := h; exact hn ((lines_empty fmt bs 0).1 q b hb)
  rw [boundsFile, flat_lines _ hne, List.dropLast_concat]
  have hs := (apply_isSome (diffLines fmt 0 bs) hne (lines_extra fmt bs 0) (bs.map B.ol) (bs.map B.ou)).2 (by
    intro l hl
    have := lines_index fmt bs 0 l hl
    cases l.lower <;> simpa using this)
  obtain ⟨⟨lo', up'⟩, hr⟩ := Option.isSome_iff_exists.1 hs
  obtain ⟨h1, h2, h3, h4⟩ := apply_exact _ hne (lines_extra fmt bs 0) _ _ _ _ hr
  rw [hr]
  congr 2
  · apply List.ext_getElem?
    intro j
    by_cases hj : j < bs.length
    · rw [h3 j (by simpa using hj), entries_low fmt bs 0 j]
      simp only [Nat.not_lt_zero, if_false, Nat.sub_zero, List.getElem?_map, List.getElem?_eq_getElem hj, Option.map_some, Option.bind_some, back]
      cases same bs[j].l bs[j].ol <;> simp
    · rw [List.getElem?_eq_none (by simp [h1]; omega), List.getElem?_eq_none (by simp; omega)]
  · apply List.ext_getElem?
    intro j
    by_cases hj : j < bs.length
    · rw [h4 j (by simpa using hj), entries_upp fmt bs 0 j]
      simp only [Nat.not_lt_zero, if_false, Nat.sub_zero, List.getElem?_map, List.getElem?_eq_getElem hj, Option.map_some, Option.bind_some, back]
      cases same bs[j].u bs[j].ou <;> simp
    · rw [List.getElem?_eq_none (by simp [h2]; omega), List.getElem?_eq_none (by simp; omega)]

/-- … in particular exactly if the numbers have few digits and bounds are equal or apart. -/
theorem bounds_round_trip_exact_partial (bs : List B) (hb : ∀ b ∈ bs, (same b.l b.ol = true → b.l = b.ol) ∧ (same b.u b.ou = true → b.u = b.ou))
    (h : ∃ b ∈ bs, ¬ (same b.l b.ol = true ∧ same b.u b.ou = true)) :
    readApply (some (boundsFile id bs).dropLast) (bs.map B.ol) (bs.map B.ou) = some (bs.map B.l, bs.map B.u) := by
  rw [bounds_round_trip_partial id bs h]
  have e1 : (bs.map fun b => back id b.l b.ol) = bs.map B.l := by
    apply List.map_congr_left; intro b q; unfold back; split
    · rename_i r; exact ((hb b q).1 r).symm
    · rfl
  have e2 : (bs.map fun b => back id b.u b.ou) = bs.map B.u := by
    apply List.map_congr_left; intro b q; unfold back; split
    · rename_i r; exact ((hb b q).2 r).symm
    · rfl
  rw [e1, e2]

/-- C93, refuted: a variable with both bounds changed gives two constraints of the same name in the AMPL file. -/
theorem labels_clash : ∃ bs, ¬ (labels 0 bs).Nodup := ⟨[⟨1, 1, 0, 2⟩], by decide +kernel⟩

theorem labels_ge : ∀ (bs : List B) (i : ℕ), ∀ j ∈ labels i bs, i ≤ j := by
  intro bs
  induction bs with
  | nil => intro i j hj; cases hj
  | cons b bs ih =>
    intro i j hj
    simp only [labels, List.mem_append] at hj
    rcases hj with (hj | hj) | hj
    · split at hj <;> simp at hj; omega
    · split at hj <;> simp at hj; omega
    · have := ih _ j hj; omega

/-- C93: the names are different exactly if no variable has both bounds changed. -/
theorem labels_nodup_iff : ∀ (bs : List B) (i : ℕ), (labels i bs).Nodup ↔ ∀ b ∈ bs, same b.l b.ol = true ∨ same b.u b.ou = true := by
  intro bs
  induction bs with
  | nil => intro i; simp [labels]
  | cons b bs ih =>
    intro i
    have hni : i ∉ labels (i + 1) bs := fun q => by have := labels_ge bs (i + 1) i q; omega
    rw [labels, List.forall_mem_cons, ← ih (i + 1)]
    cases same b.l b.ol <;> cases same b.u b.ou <;> simp [hni]

/-! ### Starting point -/

theorem mapM_some (l : List ℚ) : (l.map some).mapM id = some l := by
  induction l with
  | nil => rfl
  | cons a l ih => simp [ih]

theorem range_get (pre l : List ℚ) (k : ℕ) (post : List ℚ) (h : l.length = k) : ((List.range k).map fun i => (pre ++ l ++ post)[pre.length + i]?) = l.map some := by
  apply List.ext_getElem?
  intro j
  by_cases hj : j < k
  · have : j < l.length := by omega
    simp [hj, List.getElem?_append_right, List.getElem?_append_left, this]
  · rw [List.getElem?_eq_none (by simp; omega), List.getElem?_eq_none (by simp; omega)]

/-- C93: the start file of a failed problem with a point and multipliers put in is read back exactly. -/
theorem start_round_trip_partial (n m : ℕ) (x d : List ℚ) (hx : x.length = n) (hd : d.length = 2 * n + m) :
    (startFile n m (some x) (some d)).bind readStart = some (x.map some, d.map some) ∧
    ((startFile n m (some x) (some d)).bind readStart).bind (applyStart n m) = some (x, d) := by
  have h : (startFile n m (some x) (some d)).bind readStart = some (x.map some, d.map some) := by
    have e1 := range_get [] x n d hx
    have e2 := range_get x d (2 * n + m) [] hd
    simp only [List.nil_append, List.length_nil, Nat.zero_add, List.append_nil, hx] at e1 e2
    have c1 : ((n : ℚ)).den = 1 := Rat.den_natCast n
    have c2 : (((2 * n + m : ℕ) : ℚ)).den = 1 := Rat.den_natCast _
    have c3 : ((n : ℚ)).num.toNat = n := by rw [Rat.num_natCast]; rfl
    have c4 : (((2 * n + m : ℕ) : ℚ)).num.toNat = 2 * n + m := by rw [Rat.num_natCast]; rfl
    simp only [startFile, Option.map_some, Option.bind_some, Option.getD_some, List.cons_append, readStart]
    rw [if_pos ⟨c1, c2, Nat.cast_nonneg _, Nat.cast_nonneg _⟩, c3, c4, e1, e2]
  refine ⟨h, ?_⟩
  rw [h, Option.bind_some, applyStart, if_pos (by simp [hx, hd])]
  have t1 : (x.map some).take n = x.map some := List.take_of_length_le (by simp [hx])
  have t2 : (d.map some).take (2 * n + m) = d.map some := List.take_of_length_le (by simp [hd])
  simp only [t1, t2, mapM_some, Option.bind_some, Option.map_some]

/-- C93, refuted: a point put in without multipliers is written as if it had them; reading it back uses uninitialised numbers. -/
theorem start_without_multipliers (n m : ℕ) (x : List ℚ) (hx : x.length = n) (hn : 0 < n) : ((startFile n m (some x) none).bind readStart).bind (applyStart n m) = none := by
  have c1 : ((n : ℚ)).den = 1 := Rat.den_natCast n
  have c2 : (((2 * n + m : ℕ) : ℚ)).den = 1 := Rat.den_natCast _
  have c3 : ((n : ℚ)).num.toNat = n := by rw [Rat.num_natCast]; rfl
  have c4 : (((2 * n + m : ℕ) : ℚ)).num.toNat = 2 * n + m := by rw [Rat.num_natCast]; rfl
  simp only [startFile, Option.map_some, Option.bind_some, Option.getD_none, List.append_nil, readStart]
  rw [if_pos ⟨c1, c2, Nat.cast_nonneg _, Nat.cast_nonneg _⟩, c3, c4]
  simp only [Option.bind_some, applyStart, List.length_map, List.length_range, le_refl, and_self, if_true]
  have : (((List.range (2 * n + m)).map fun i => x[n + i]?).take (2 * n + m)).mapM id = none := by
    obtain ⟨k, hk⟩ : ∃ k, 2 * n + m = k + 1 := ⟨2 * n + m - 1, by omega⟩
    rw [hk, List.range_succ_eq_map]
    have : x[n]? = none := List.getElem?_eq_none (by omega)
    simp [this]
  rw [this]
  cases ((List.map (fun i => x[i]?) (List.range n)).take n).mapM id <;> rfl

/-- C93, refuted: without a point put in (the failure of a first solve) no start file is written, and a file for another problem with fewer variables is read beyond its end. -/
theorem start_wrong_size : startFile 1 0 none none = none ∧ (readStart [1, 2, 5, 6, 7]).isSome ∧ ((readStart [1, 2, 5, 6, 7]).bind (applyStart 2 0)) = none := by decide +kernel

/-! ### Examples -/

example : errorName (-13) = .name "Invalid number detected" ∧ errorName 99 = .outside ∧ errorName (-5) = .thrown := by decide +kernel
example : boundsFile id [⟨1, 2, 0, 2⟩, ⟨0, 3, 0, 4⟩] = [.lo, .idx 0, .val 1, .nl, .up, .idx 1, .val 3, .nl] := by decide +kernel
example : readApply (some (boundsFile id [⟨1, 2, 0, 2⟩, ⟨0, 3, 0, 4⟩]).dropLast) [0, 0] [2, 4] = some ([1, 0], [2, 3]) := by decide +kernel
example : ∃ b ∈ ([⟨1, 2, 0, 2⟩, ⟨0, 3, 0, 4⟩] : List B), ¬ (same b.l b.ol = true ∧ same b.u b.ou = true) := by decide +kernel
example : ((startFile 1 1 (some [5]) (some [6, 7, 8])).bind readStart).bind (applyStart 1 1) = some ([5], [6, 7, 8]) := by decide +kernel

/-- C93: bounds count as unchanged if they differ by at most 1e-10 and 1e-10 times the larger magnitude. -/
theorem same_iff (a b : ℚ) : same a b = true ↔ (|a - b| ≤ 1 / 10 ^ 10 + 1 / 10 ^ 10 * |a| ∨ |a - b| ≤ 1 / 10 ^ 10 + 1 / 10 ^ 10 * |b|) := by
  unfold same
  rw [decide_eq_true_iff]
  rcases le_total |a| |b| with h | h
  · rw [max_eq_right h]
    constructor
    · intro q; right; linarith
    · rintro (q | q) <;> linarith
  · rw [max_eq_left h]
    constructor
    · intro q; left; linarith
    · rintro (q | q) <;> linarith

/-- C93: a change from 0 by up to 1e-10 is lost, as is one from 1 to `1 + 2e-10`. -/
theorem small_change_lost : same 0 (1 / 10 ^ 10) = true ∧ same 1 (1 + 2 / 10 ^ 10) = true ∧ same 0 (2 / 10 ^ 10) = false := by decide +kernel

theorem mapM_id_iff {α : Type} : ∀ (l : List (Option α)) (x : List α), l.mapM id = some x ↔ l = x.map some
  | [], x => by cases x <;> simp
  | a :: l, x => by
    rw [List.mapM_cons]
    cases a with
    | none => cases x <;> simp
    | some a =>
      cases x with
      | nil => cases h : l.mapM id <;> simp [h]
      | cons b x =>
        have := mapM_id_iff l x
        cases h : l.mapM id with
        | none => rw [h] at this; simp [h]; intro _ e; exact absurd (this.mpr e) (by simp)
        | some y => rw [h] at this; simp [h]; intro _; exact ⟨fun e => this.mp (by rw [e]), fun e => Option.some.inj (this.mpr e)⟩

theorem range_take {α : Type} (r : List α) (s a n : ℕ) (h : n ≤ a) (x : List α) : ((List.range a).map (fun i => r[s + i]?)).take n = x.map some ↔ x = (r.drop s).take n ∧ x.length = n := by
  rw [← List.map_take, List.take_range, Nat.min_eq_left h]
  constructor
  · intro e
    have hl : x.length = n := by simpa using (congrArg List.length e).symm
    refine ⟨?_, hl⟩
    apply List.ext_getElem?
    intro i
    by_cases hi : i < n
    · have := congrArg (fun l => l[i]?) e
      simp only [List.getElem?_map, List.getElem?_range hi, Option.map_some] at this
      rw [List.getElem?_take_of_lt hi, List.getElem?_drop]
      have hx : x[i]? = some x[i] := List.getElem?_eq_getElem (by omega)
      rw [hx, Option.map_some] at this
      rw [hx]
      exact (Option.some.inj this).symm
    · rw [List.getElem?_eq_none (by omega), List.getElem?_eq_none (by rw [List.length_take]; omega)]
  · rintro ⟨e, hl⟩
    apply List.ext_getElem?
    intro i
    by_cases hi : i < n
    · simp only [List.getElem?_map, List.getElem?_range hi, Option.map_some]
      have : (x[i]?) = r[s + i]? := by rw [e, List.getElem?_take_of_lt hi, List.getElem?_drop]
      rw [← this, List.getElem?_eq_getElem (by omega)]
      rfl
    · rw [List.getElem?_eq_none (by simp; omega), List.getElem?_eq_none (by simp; omega)]

/-- **C93.**  Reading a start file: the sizes must be there, natural numbers and at least those of the problem, and the entries the problem reads must be in the file; the point is then the first entries, the multipliers those
after as many entries as the file says. -/
theorem start_read_exact (f : List ℚ) (n m : ℕ) (x d : List ℚ) : (readStart f).bind (applyStart n m) = some (x, d) ↔
    ∃ (a b : ℕ) (r : List ℚ), f = (a : ℚ) :: (b : ℚ) :: r ∧ n ≤ a ∧ 2 * n + m ≤ b ∧ x = r.take n ∧ x.length = n ∧ d = (r.drop a).take (2 * n + m) ∧ d.length = 2 * n + m := by
  have key : ∀ (a b : ℕ) (r : List ℚ), (readStart ((a : ℚ) :: (b : ℚ) :: r)).bind (applyStart n m) = some (x, d) ↔
      n ≤ a ∧ 2 * n + m ≤ b ∧ x = r.take n ∧ x.length = n ∧ d = (r.drop a).take (2 * n + m) ∧ d.length = 2 * n + m := by
    intro a b r
    have e : readStart ((a : ℚ) :: (b : ℚ) :: r) = some ((List.range a).map (fun i => r[i]?), (List.range b).map (fun i => r[a + i]?)) := by
      simp only [readStart]
      rw [if_pos ⟨by simp, by simp, by simp, by simp⟩]
      simp
    rw [e, Option.bind_some]
    unfold applyStart
    by_cases hs : n ≤ a ∧ 2 * n + m ≤ b
    · rw [if_pos (by simpa using hs)]
      have h1 := range_take r 0 a n hs.1
      have h2 := range_take r a b (2 * n + m) hs.2
      simp only [Nat.zero_add, List.drop_zero] at h1
      simp only [hs.1, hs.2, true_and]
      constructor
      · intro h
        cases hx : (((List.range a).map (fun i => r[i]?)).take n).mapM id with
        | none => simp only [hx, Option.bind_none] at h; cases h
        | some x' =>
          simp only [hx, Option.bind_some] at h
          cases hd : (((List.range b).map (fun i => r[a + i]?)).take (2 * n + m)).mapM id with
          | none => simp only [hd, Option.map_none] at h; cases h
          | some d' =>
            simp only [hd, Option.map_some, Option.some.injEq, Prod.mk.injEq] at h
            obtain ⟨rfl, rfl⟩ := h
            obtain ⟨p1, p2⟩ := (h1 x').mp ((mapM_id_iff _ _).mp hx)
            obtain ⟨q1, q2⟩ := (h2 d').mp ((mapM_id_iff _ _).mp hd)
            exact ⟨p1, p2, q1, q2⟩
      · rintro ⟨p1, p2, q1, q2⟩
        rw [(mapM_id_iff _ _).mpr ((h1 x).mpr ⟨p1, p2⟩), Option.bind_some, (mapM_id_iff _ _).mpr ((h2 d).mpr ⟨q1, q2⟩), Option.map_some]
    · rw [if_neg (by simpa using hs)]
      simp only [reduceCtorEq, false_iff]
      rintro ⟨p, q, _⟩
      exact hs ⟨p, q⟩
  constructor
  · intro h
    rcases f with _ | ⟨a, _ | ⟨b, r⟩⟩
    · simp [readStart] at h
    · simp [readStart] at h
    · by_cases hc : a.den = 1 ∧ b.den = 1 ∧ 0 ≤ a ∧ 0 ≤ b
      · have nat : ∀ q : ℚ, q.den = 1 → 0 ≤ q → q = (q.num.toNat : ℚ) := by
          intro q h1 h2
          have h3 : ((q.num.toNat : ℤ) : ℚ) = (q.num : ℚ) := by rw [Int.toNat_of_nonneg (Rat.num_nonneg.mpr h2)]
          have h4 : ((q.num.toNat : ℕ) : ℚ) = ((q.num.toNat : ℤ) : ℚ) := by push_cast; rfl
          rw [h4, h3]
          exact ((Rat.den_eq_one_iff q).mp h1).symm
        have ea := nat a hc.1 hc.2.2.1
        have eb := nat b hc.2.1 hc.2.2.2
        rw [ea, eb] at h
        exact ⟨_, _, r, by rw [← ea, ← eb], (key _ _ r).mp h⟩
      · simp only [readStart] at h
        rw [if_neg hc] at h
        cases h
  · rintro ⟨a, b, r, rfl, h⟩
    exact (key a b r).mpr h

/-- Lines of bounds are written without blanks before and without further words, for the bounds that changed only. -/
theorem lines_plain (fmt : ℚ → ℚ) : ∀ (bs : List B) (i : ℕ), ∀ l ∈ diffLines fmt i bs, l.blanks = 0 ∧ l.extra = [] ∧ i ≤ l.i ∧ l.i < i + bs.length := by
  intro bs
  induction bs with
  | nil => intro i l hl; cases hl
  | cons b bs ih =>
    intro i l hl
    rcases List.mem_append.1 hl with hl | hl
    · unfold linesAt at hl
      rcases List.mem_append.1 hl with hl | hl <;> split at hl <;> simp at hl <;> subst hl <;> simp
    · obtain ⟨h1, h2, h3, h4⟩ := ih _ l hl
      refine ⟨h1, h2, by omega, ?_⟩
      simp only [List.length_cons]
      omega

end Verif.Slv.Diff

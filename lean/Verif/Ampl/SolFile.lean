import Verif.Bab.Final
import Mathlib.Data.List.Basic
import Mathlib.Tactic.NormNum

/-!
# Reading a solution file for debugging
`src/Interfaces/Ampl/BonSolReader.cpp`, its use with option `read_solution_file` in
`src/Algorithms/Ampl/BonAmplSetup.cpp:23-31`, and the messages of `AmplTMINLP::finalize_solution`
(`src/Interfaces/Ampl/BonAmplTMINLP.cpp:718-753`).

A file is a list of words; numbers are given as such.  What AMPL's `write_sol` puts into a text file (`solFile`) is
not part of Bonmin; it is modelled after AMPL's documentation: the message, `Options`, three options, the number of
constraints, the number of multipliers given, the number of variables, the number of values given, the multipliers,
the values.
-/
namespace Verif.Ampl.SolFile

/-- A word of the file. -/
inductive Tok where
  | word (s : String)
  | int (i : ℕ)
  | num (q : ℚ)
deriving DecidableEq

/-- A `std::ifstream`: words left, and whether a read has failed. -/
structure Strm where
  rest : List Tok
  fail : Bool
deriving DecidableEq

/-- `inFile>>token` for a string: the word, `none` = nothing was read and the variable keeps its value. -/
def rdStr (s : Strm) : Strm × Option Tok :=
  if s.fail then (s, none)
  else match s.rest with
    | [] => (⟨[], true⟩, none)
    | t :: r => (⟨r, false⟩, some t)

/-- `inFile>>n` for an `int` that is not initialised: `none` = it keeps no value.  A failed conversion gives 0.  Simplification: a number
with a fraction is a failed conversion (the code takes the part before the point). -/
def rdInt (s : Strm) : Strm × Option ℕ :=
  if s.fail then (s, none)
  else match s.rest with
    | [] => (⟨[], true⟩, none)
    | .int i :: r => (⟨r, false⟩, some i)
    | r => (⟨r, true⟩, some 0)

/-- `inFile>>x` for a `double`: `none` = it keeps its value. -/
def rdDbl (s : Strm) : Strm × Option ℚ :=
  if s.fail then (s, none)
  else match s.rest with
    | [] => (⟨[], true⟩, none)
    | .int i :: r => (⟨r, false⟩, some i)
    | .num q :: r => (⟨r, false⟩, some q)
    | .word w :: r => (⟨.word w :: r, true⟩, some 0)

/-- The loop `for(i …) inFile>>x_[i]` (BonSolReader.cpp:59-61). -/
def rdAll (s : Strm) : List ℚ → List ℚ
  | [] => []
  | x :: xs => ((rdDbl s).2.getD x) :: rdAll (rdDbl s).1 xs

/-- `x_.resize(n)`. -/
def resize (x : List ℚ) (n : ℕ) : List ℚ := x.take n ++ List.replicate (n - x.length) 0

/-- `n` words are skipped (49-51). -/
def skip : ℕ → Strm → Strm
  | 0, s => s
  | n + 1, s => skip n (rdStr s).1

/-- Outcome of `readFile`: the value returned and `x_`. -/
inductive Out where
  | ok (opened : Bool) (x : List ℚ)
  | abort
  | undefined
deriving DecidableEq

/-- The value `token` has after the third read: an unsuccessful read leaves the first word. -/
def third (s : Strm) (t : Option Tok) : Option Tok := (rdStr s).2.or t

/-- `readFile` (BonSolReader.cpp:29-63); `file` = `none` if it cannot be opened; `x` is `x_` before; `dbg` = assertions
are compiled in. -/
def readFile (dbg : Bool) (file : Option (List Tok)) (x : List ℚ) : Out :=
  match file with
  | none => .ok false x
  | some ts =>
    let r1 := rdStr ⟨ts, false⟩
    if dbg ∧ r1.2 ≠ some (.word "bonmin:") then .abort
    else
      let r2 := rdStr r1.1
      let r3 := rdStr r2.1
      if third r2.1 r1.2 = some (.word "Options") then
        let r4 := skip 6 r3.1
        let r5 := rdInt r4
        let r6 := rdInt r5.1
        match r6.2 with
        | none => .undefined
        | some n => .ok true (rdAll r6.1 (if n ≠ x.length then resize x n else x))
      else .ok true (rdAll r3.1 x)

/-- What `initialize` passes to `activateRowCutDebugger` (BonAmplSetup.cpp:27-30) for a problem with `n` variables; the
array is read up to `n` (`none` = behind its end, or `readFile` fails). -/
def debugPoint (dbg : Bool) (file : Option (List Tok)) (n : ℕ) : Option (List ℚ) :=
  match readFile dbg file (List.replicate n 0) with
  | .ok _ x => if x.length < n then none else some (x.take n)
  | .abort => none
  | .undefined => none

/-! ## The file written -/

/-- The words of the message of `finalize_solution` (BonAmplTMINLP.cpp:718-753). -/
def message : Bab.Ret → List Tok
  | .success => [.word "bonmin:", .word "Optimal"]
  | .infeasible => [.word "bonmin:", .word "Infeasible", .word "problem"]
  | .continuousUnbounded => [.word "bonmin", .word "Continuous", .word "relaxation", .word "is", .word "unbounded."]
  | .limitExceeded => [.word "bonmin:", .word "Optimization", .word "interrupted", .word "on", .word "limit."]
  | .userInterrupt => [.word "bonmin:", .word "Optimization", .word "interrupted", .word "by", .word "user."]
  | .error => [.word "bonmin:", .word "Error", .word "encountered", .word "in", .word "optimization."]

/-- The file for a problem with `m` constraints and `n` variables; `a b c` are the options of the model, `tail` what
follows the values (the line `objno`). -/
def solFile (s : Bab.Ret) (a b c m n : ℕ) (dual x : List ℚ) (tail : List Tok) : List Tok :=
  message s ++ .word "Options" :: .int 3 :: .int a :: .int b :: .int c :: .int m :: .int dual.length :: .int n :: .int x.length :: (dual.map .num ++ (x.map .num ++ tail))

/-! ## Lemmas -/

theorem rdAll_nums (x y : List ℚ) (rest : List Tok) (h : x.length = y.length) : rdAll ⟨x.map .num ++ rest, false⟩ y = x := by
  induction x generalizing y with
  | nil => cases y with
    | nil => rfl
    | cons _ _ => simp at h
  | cons a x ih => cases y with
    | nil => simp at h
    | cons b y =>
      have := ih y (by simpa using h)
      simp [rdAll, rdDbl, this]

theorem rdAll_fail (r : List Tok) (y : List ℚ) : rdAll ⟨r, true⟩ y = y := by
  induction y with
  | nil => rfl
  | cons b y ih => simp [rdAll, rdDbl, ih]

theorem rdAll_word (w : String) (r : List Tok) (n : ℕ) : rdAll ⟨.word w :: r, false⟩ (List.replicate n 0) = List.replicate n 0 := by
  cases n with
  | zero => rfl
  | succ n => simp [List.replicate_succ, rdAll, rdDbl, rdAll_fail]

theorem resize_length (x : List ℚ) (n : ℕ) : (resize x n).length = n := by
  simp [resize]; omega

/-! ## Theorems -/

/-- **Round trip.**  From the file of a run that ended with an optimal solution the reader gets this solution, whatever
`x_` was and whatever number of variables was announced. -/
theorem round_trip_partial (dbg : Bool) (a b c m n : ℕ) (x x0 : List ℚ) (tail : List Tok) :
    readFile dbg (some (solFile .success a b c m n [] x tail)) x0 = .ok true x := by
  have key : rdAll ⟨x.map .num ++ tail, false⟩ (if x.length = x0.length then x0 else resize x0 x.length) = x := by
    apply rdAll_nums
    by_cases h : x.length = x0.length
    · rw [if_pos h]; exact h
    · rw [if_neg h, resize_length]
  simp [readFile, solFile, message, rdStr, third, skip, rdInt, key]

/-- The debugger gets the solution, if it has the number of variables of the problem. -/
theorem debug_point_partial (dbg : Bool) (a b c m n : ℕ) (x : List ℚ) (tail : List Tok) (h : x.length = n) :
    debugPoint dbg (some (solFile .success a b c m n [] x tail)) n = some x := by
  subst h
  rw [debugPoint, round_trip_partial]
  simp

example : debugPoint true (some (solFile .success 1 1 0 2 3 [] [1, 1/2, 3] [.word "objno", .int 0, .int 0])) 3 = some [1, 1/2, 3] := by
  decide +kernel

/-! ## Where the code differs from what is claimed -/

/-- A file with multipliers: they are read in place of the values. -/
theorem multipliers_read (dbg : Bool) (a b c m n : ℕ) (dual x x0 : List ℚ) (tail : List Tok) (h : dual.length = x.length) :
    readFile dbg (some (solFile .success a b c m n dual x tail)) x0 = .ok true dual := by
  have key : rdAll ⟨dual.map .num ++ (x.map .num ++ tail), false⟩ (if x.length = x0.length then x0 else resize x0 x.length) = dual := by
    apply rdAll_nums
    by_cases h' : x.length = x0.length
    · rw [if_pos h']; omega
    · rw [if_neg h', resize_length]; exact h
  simp [readFile, solFile, message, rdStr, third, skip, rdInt, key]

/-- The solution found when a limit is reached (or after an interruption) is not read: the message has more than one word, and the
point used is zero. -/
theorem limit_solution_lost (dbg : Bool) (s : Bab.Ret) (hs : s = .limitExceeded ∨ s = .userInterrupt) (a b c m n : ℕ) (x : List ℚ) (tail : List Tok) :
    debugPoint dbg (some (solFile s a b c m n [] x tail)) n = some (List.replicate n 0) := by
  have key : ∀ r, rdAll ⟨r, false⟩ (List.replicate n 0) = List.replicate n 0 →
      readFile dbg (some (.word "bonmin:" :: .word "Optimization" :: .word "interrupted" :: r)) (List.replicate n 0) = .ok true (List.replicate n 0) := by
    intro r hr
    simp [readFile, rdStr, third, hr]
  rcases hs with rfl | rfl
  · have := key _ (rdAll_word "on" (.word "limit." :: (solFile .limitExceeded a b c m n [] x tail).drop 5) n)
    simp only [debugPoint]
    rw [show solFile .limitExceeded a b c m n [] x tail = .word "bonmin:" :: .word "Optimization" :: .word "interrupted" :: .word "on" :: .word "limit." :: (solFile .limitExceeded a b c m n [] x tail).drop 5 from rfl, this]
    simp
  · have := key _ (rdAll_word "by" (.word "user." :: (solFile .userInterrupt a b c m n [] x tail).drop 5) n)
    simp only [debugPoint]
    rw [show solFile .userInterrupt a b c m n [] x tail = .word "bonmin:" :: .word "Optimization" :: .word "interrupted" :: .word "by" :: .word "user." :: (solFile .userInterrupt a b c m n [] x tail).drop 5 from rfl, this]
    simp

/-- A file that does not exist is not noticed: the point used is zero. -/
theorem missing_file_zero (dbg : Bool) (n : ℕ) : debugPoint dbg none n = some (List.replicate n 0) := by
  simp [debugPoint, readFile]

/-- A file of another problem with fewer variables: the array is read behind its end. -/
theorem fewer_values (dbg : Bool) (a b c m k n : ℕ) (x : List ℚ) (tail : List Tok) (h : x.length < n) :
    debugPoint dbg (some (solFile .success a b c m k [] x tail)) n = none := by
  rw [debugPoint, round_trip_partial]
  simp [h]

/-- The file of an unbounded problem fails an assertion (there is no colon after the name), and so does an empty one. -/
theorem unbounded_aborts (a b c m n : ℕ) (x x0 : List ℚ) (tail : List Tok) :
    readFile true (some (solFile .continuousUnbounded a b c m n [] x tail)) x0 = .abort ∧ readFile true (some []) x0 = .abort := by
  simp [readFile, solFile, message, rdStr]

/-- A file cut off after the word `Options` leaves the number of values unset. -/
theorem cut_off_undefined (dbg : Bool) (x0 : List ℚ) :
    readFile dbg (some [.word "bonmin:", .word "Optimal", .word "Options"]) x0 = .undefined := by
  simp [readFile, rdStr, third, skip, rdInt]

theorem rdAll_short (x : List ℚ) : ∀ y : List ℚ, x.length ≤ y.length → rdAll ⟨x.map .num, false⟩ y = x ++ y.drop x.length := by
  induction x with
  | nil =>
    intro y _
    cases y with
    | nil => rfl
    | cons b y => simp [rdAll, rdDbl, rdAll_fail]
  | cons a x ih =>
    intro y h
    cases y with
    | nil => simp at h
    | cons b y => simp [rdAll, rdDbl, ih y (by simpa using h)]

/-- C97: a file that ends after fewer values than it announces gives these, and zeros for the rest if there was no point before. -/
theorem short_file (dbg : Bool) (a b c m k n : ℕ) (x : List ℚ) (h : x.length ≤ n) :
    readFile dbg (some ([.word "bonmin:", .word "Optimal", .word "Options", .int 3, .int a, .int b, .int c, .int m, .int 0, .int k, .int n] ++ x.map .num)) [] =
      .ok true (x ++ List.replicate (n - x.length) 0) := by
  have hr : resize [] n = List.replicate n 0 := by simp [resize]
  have := rdAll_short x (List.replicate n 0) (by simpa using h)
  rcases Nat.eq_zero_or_pos n with rfl | hn
  · have hx : x = [] := by simpa using h
    subst hx
    simp [readFile, rdStr, third, skip, rdInt, rdAll]
  · simp only [readFile, rdStr, third, skip, rdInt, List.cons_append, List.nil_append]
    simp [hr, this, show ¬ n = 0 by omega, List.drop_replicate]

/-- C97: a point from before keeps its entries where the file gives no value. -/
theorem longer_before (dbg : Bool) (a b c m k : ℕ) (x y : List ℚ) (h : x.length ≤ y.length) :
    readFile dbg (some ([.word "bonmin:", .word "Optimal", .word "Options", .int 3, .int a, .int b, .int c, .int m, .int 0, .int k, .int y.length] ++ x.map .num)) y =
      .ok true (x ++ y.drop x.length) := by
  have := rdAll_short x y h
  simp only [readFile, rdStr, third, skip, rdInt, List.cons_append, List.nil_append]
  simp [this]

/-- C97: a file that cannot be opened is told by the return value, and leaves the point. -/
theorem no_file (dbg : Bool) (ts : Option (List Tok)) (x : List ℚ) : (∃ y, readFile dbg ts x = .ok false y) ↔ ts = none := by
  constructor
  · rintro ⟨y, h⟩
    cases ts with
    | none => rfl
    | some ts =>
      exfalso
      unfold readFile at h
      simp only at h
      split at h
      · simp at h
      · split at h
        · split at h
          · simp at h
          · simp at h
        · simp at h
  · rintro rfl
    exact ⟨x, rfl⟩

/-- C97: the number of values is unset if the file ends before it, or if the number of variables is not a number. -/
theorem count_undefined (dbg : Bool) (x0 : List ℚ) (k : ℕ) (w : String) (rest : List Tok) (a b c d e f : Tok) :
    readFile dbg (some [.word "bonmin:", .word "Optimal", .word "Options", a, b, c, d, e, f]) x0 = .undefined ∧
    readFile dbg (some [.word "bonmin:", .word "Optimal", .word "Options", a, b, c, d, e, f, .int k]) x0 = .undefined ∧
    readFile dbg (some (.word "bonmin:" :: .word "Optimal" :: .word "Options" :: a :: b :: c :: d :: e :: f :: .word w :: rest)) x0 = .undefined := by
  refine ⟨?_, ?_, ?_⟩ <;> simp [readFile, rdStr, third, skip, rdInt]

/-- C97: a word in the place of the number of values counts as 0: the point becomes empty. -/
theorem count_word (dbg : Bool) (x0 : List ℚ) (k : ℕ) (w : String) (rest : List Tok) (a b c d e f : Tok) :
    readFile dbg (some (.word "bonmin:" :: .word "Optimal" :: .word "Options" :: a :: b :: c :: d :: e :: f :: .int k :: .word w :: rest)) x0 = .ok true [] := by
  cases x0 <;> simp [readFile, rdStr, third, skip, rdInt, resize, rdAll]

/-- C97: the debugger gets a point exactly if the file could be read and gives at least as many values as there are variables. -/
theorem point_defined_iff (dbg : Bool) (ts : Option (List Tok)) (n : ℕ) (y : List ℚ) :
    debugPoint dbg ts n = some y ↔ ∃ o x, readFile dbg ts (List.replicate n 0) = .ok o x ∧ n ≤ x.length ∧ y = x.take n := by
  unfold debugPoint
  cases readFile dbg ts (List.replicate n 0) with
  | ok o x =>
    by_cases h : x.length < n
    · simp [h]
    · simp [h]
      exact ⟨fun q => ⟨by omega, q.symm⟩, fun q => q.2.symm⟩
  | abort => simp
  | undefined => simp

example : readFile false (some [.word "bonmin:", .word "Optimal", .word "Options", .int 3, .int 1, .int 1, .int 0, .int 0, .int 0, .int 3, .int 3, .num 5]) [] = .ok true [5, 0, 0] := by decide +kernel
example : readFile false (some [.word "bonmin:", .word "Optimal", .word "Options", .int 3, .int 1, .int 1, .int 0, .int 0, .int 0, .int 2, .int 2, .num 5]) [7, 8] = .ok true [5, 8] := by decide +kernel

end Verif.Ampl.SolFile

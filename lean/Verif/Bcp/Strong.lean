import Verif.Bcp.Sort
import Mathlib.Data.List.Perm.Basic
import Mathlib.Tactic.Ring
/-!
# Model of distributed strong branching
(experimental/Bcp/BM_lp_branch.cpp:311-318, 391-440, 444-532, 761-812, 1046-1062)

The solver is a function `S` of the bounds, the same in all processes (the warm start, sent along with the request, is part of
it).  The other processes get what was sent to them (`request_round_trip`, `result_round_trip`); their answers arrive in any
order.  A process that was sent no branch answers with no results; such an answer may be left unread at the end and be read in a
later call, where it registers nothing.
-/
namespace Verif.Bcp

/-- Bounds of the columns. -/
structure Box where
  lo : ℕ → ℚ
  up : ℕ → ℚ

/-- What a solve tells (BM_lp_branch.cpp:413-418). -/
structure Raw where
  aband : Bool
  opt : Bool
  inf : Bool
  obj : ℚ
  iter : ℕ
  time : ℚ

/-- One turn of `BM_solve_branches` (BM_lp_branch.cpp:395-421): one bound is set, the problem solved, both bounds set back. -/
def solveOne (S : Box → Raw) (B : Box) (b : Branch) : Ans × Box :=
  let T : Box := if b.up then ⟨Function.update B.lo b.col b.bd, B.up⟩ else ⟨B.lo, Function.update B.up b.col b.bd⟩
  let r := S T
  (⟨r.aband, r.opt, r.inf, if r.opt then r.obj else 0, r.iter, r.time⟩,
   ⟨Function.update T.lo b.col (B.lo b.col), Function.update T.up b.col (B.up b.col)⟩)

/-- `BM_solve_branches` (BM_lp_branch.cpp:391-422). -/
def solveBranches (S : Box → Raw) : Box → List Branch → List Ans × Box
  | B, [] => ([], B)
  | B, b :: bs =>
    let r := solveOne S B b
    let t := solveBranches S r.2 bs
    (r.1 :: t.1, t.2)

/-- `BM_SB_result` (BM.hpp:243-254): the two bits of `branchEval`, the two answers and changes; `none` is a field never written. -/
structure SbRes where
  evD : Bool
  evU : Bool
  rD : Option Ans
  rU : Option Ans
  chD : Option ℚ
  chU : Option ℚ

/-- One result stored (BM_lp_branch.cpp:431-438). -/
def put (r : SbRes) (b : Branch) (a : Ans) : SbRes :=
  if b.up then { r with evU := true, rU := some a, chU := some |b.val - b.bd| }
  else { r with evD := true, rD := some a, chD := some |b.val - b.bd| }

/-- One result stored in the record of its object (BM_lp_branch.cpp:432). -/
def regStep (sb : ℕ → SbRes) (p : Branch × Ans) : ℕ → SbRes := Function.update sb p.1.obj (put (sb p.1.obj) p.1 p.2)

/-- `BM_register_branch_results` (BM_lp_branch.cpp:427-440). -/
def register (l : List (Branch × Ans)) (sb : ℕ → SbRes) : ℕ → SbRes := l.foldl regStep sb

/-- `clear_SB_results` (BM_lp_branch.cpp:311-318): only `branchEval` is reset. -/
def clear (sb : ℕ → SbRes) : ℕ → SbRes := fun o => { sb o with evD := false, evU := false }

/-- Number of branches sent next (BM_lp_branch.cpp:482-485). -/
def share (pidLeft left : ℕ) : ℕ := if left / pidLeft * pidLeft < left then left / pidLeft + 1 else left / pidLeft

/-- The loop of BM_lp_branch.cpp:479-501: process, location and branches sent; and the branches left. -/
def send : ℕ → ℕ → List Branch → List (ℕ × ℕ × List Branch) × List Branch
  | 0, _, bs => ([], bs)
  | p + 1, loc, bs =>
    let n := share (p + 1) bs.length
    let r := send p (loc + n) (bs.drop n)
    ((p, loc, bs.take n) :: r.1, r.2)

/-- `do_distributed_SB` (BM_lp_branch.cpp:444-532) once the branches are collected; `order` is the order in which the answers arrive;
`none`: the assertion of line 502. -/
def doSB (dbg : Bool) (S : Box → Raw) (B : Box) (bs : List Branch) (pidNum : ℕ) (order : List (ℕ × ℕ × List Branch))
    (sb : ℕ → SbRes) : Option (ℕ → SbRes) :=
  let left := (send pidNum 0 bs).2
  if dbg ∧ bs.length / (pidNum + 1) ≠ left.length then none
  else
    let first := register (left.zip (solveBranches S B left).1) sb
    some (order.foldl (fun sb m => register (m.2.2.zip (solveBranches S B m.2.2).1) sb) first)

/-- The number of branches tried (BM_lp_branch.cpp:784-797): `index` of the node, parameters `inRoot`, `inTree`, `maxLevel`. -/
def limit (index maxLevel inRoot inTree pidNum : Int) (branchNum : Int) : Int :=
  if index = 0 then min branchNum inRoot
  else if index < maxLevel then min branchNum (max (pidNum + 1) inTree)
  else if pidNum > 0 then pidNum + 1 else 0

/-! ## Solving -/

/-- The box of a branch: one bound of one column replaced. -/
def branchBox (B : Box) (b : Branch) : Box :=
  ⟨fun j => if b.up = true ∧ j = b.col then b.bd else B.lo j, fun j => if b.up = false ∧ j = b.col then b.bd else B.up j⟩

/-- The answer for a box. -/
def ansOf (r : Raw) : Ans := ⟨r.aband, r.opt, r.inf, if r.opt then r.obj else 0, r.iter, r.time⟩

theorem solveOne_exact (S : Box → Raw) (B : Box) (b : Branch) : solveOne S B b = (ansOf (S (branchBox B b)), B) := by
  obtain ⟨u, o, c, v, d⟩ := b
  obtain ⟨lo, up⟩ := B
  cases u
  · have e : (⟨lo, Function.update up c d⟩ : Box) = branchBox ⟨lo, up⟩ ⟨false, o, c, v, d⟩ := by
      simp only [branchBox, Box.mk.injEq]
      refine ⟨by funext j; simp, ?_⟩
      funext j
      by_cases h : j = c
      · subst h; simp
      · simp [h]
    simp only [solveOne, Bool.false_eq_true, if_false]
    rw [← e]
    simp [ansOf]
  · have e : (⟨Function.update lo c d, up⟩ : Box) = branchBox ⟨lo, up⟩ ⟨true, o, c, v, d⟩ := by
      simp only [branchBox, Box.mk.injEq]
      refine ⟨?_, by funext j; simp⟩
      funext j
      by_cases h : j = c
      · subst h; simp
      · simp [h]
    simp only [solveOne, if_true]
    rw [← e]
    simp [ansOf]

/-- **C149.** Each branch is solved with the bounds of the node and its own bound, whatever was solved before, and afterwards the
bounds are those of the node again. -/
theorem solve_exact (S : Box → Raw) (B : Box) : ∀ bs : List Branch,
    solveBranches S B bs = (bs.map fun b => ansOf (S (branchBox B b)), B)
  | [] => rfl
  | b :: bs => by
    rw [solveBranches, solveOne_exact, solve_exact S B bs]
    rfl

/-! ## Sharing out -/

theorem share_exact (p n : ℕ) : share (p + 1) n = n / (p + 1) + if 0 < n % (p + 1) then 1 else 0 := by
  have h := Nat.div_add_mod n (p + 1)
  unfold share
  by_cases hr : 0 < n % (p + 1)
  · have : n / (p + 1) * (p + 1) < n := by rw [Nat.mul_comm]; omega
    rw [if_pos this, if_pos hr]
  · have : ¬ n / (p + 1) * (p + 1) < n := by rw [Nat.mul_comm]; omega
    rw [if_neg this, if_neg hr]; rfl

theorem share_le (p n : ℕ) : share (p + 1) n ≤ n := by
  have h := Nat.div_add_mod n (p + 1)
  rw [share_exact]
  by_cases hr : 0 < n % (p + 1)
  · rw [if_pos hr]
    have : n / (p + 1) ≤ (p + 1) * (n / (p + 1)) := Nat.le_mul_of_pos_left _ (by omega)
    omega
  · rw [if_neg hr]
    exact Nat.div_le_self _ _

/-- **C150.** Every branch is sent to exactly one process or kept, in the order of the list … -/
theorem send_tiles : ∀ (p loc : ℕ) (bs : List Branch), ((send p loc bs).1.map fun m => m.2.2).flatten ++ (send p loc bs).2 = bs
  | 0, _, _ => rfl
  | p + 1, loc, bs => by
    rw [send]
    dsimp only
    rw [List.map_cons, List.flatten_cons, List.append_assoc, send_tiles p _ _, List.take_append_drop]

/-- … each process once, with the location of its first branch … -/
theorem send_places : ∀ (p loc : ℕ) (bs : List Branch), (send p loc bs).1.map (·.1) = (List.range p).reverse ∧
    ∀ (i : ℕ) (m : ℕ × ℕ × List Branch), (send p loc bs).1[i]? = some m →
      m.2.1 = loc + (((send p loc bs).1.take i).map fun m => m.2.2.length).sum
  | 0, _, _ => ⟨rfl, by simp [send]⟩
  | p + 1, loc, bs => by
    obtain ⟨h1, h2⟩ := send_places p (loc + share (p + 1) bs.length) (bs.drop (share (p + 1) bs.length))
    rw [send]
    dsimp only
    refine ⟨?_, ?_⟩
    · rw [List.map_cons, h1, List.range_succ, List.reverse_append]
      rfl
    · intro i m hm
      cases i with
      | zero =>
        simp only [List.getElem?_cons_zero, Option.some.injEq] at hm
        subst hm
        simp
      | succ i =>
        rw [List.getElem?_cons_succ] at hm
        rw [h2 i m hm, List.take_succ_cons, List.map_cons, List.sum_cons, List.length_take, min_eq_left (share_le _ _)]
        omega

/-- … the shares differ by at most one: the first `n mod p` get one more … -/
theorem send_even : ∀ (p loc : ℕ) (bs : List Branch) (i : ℕ), i < p →
    ((send p loc bs).1[i]?).map (fun m => m.2.2.length) = some (bs.length / p + if i < bs.length % p then 1 else 0)
  | 0, _, _, _, h => by omega
  | p + 1, loc, bs, i, hi => by
    rw [send]
    dsimp only
    have h := Nat.div_add_mod bs.length (p + 1)
    have hm := Nat.mod_lt bs.length (Nat.succ_pos p)
    cases i with
    | zero =>
      rw [List.getElem?_cons_zero, Option.map_some, List.length_take, min_eq_left (share_le _ _), share_exact]
    | succ i =>
      rw [List.getElem?_cons_succ, send_even p _ _ i (by omega), List.length_drop, share_exact]
      have hp : 0 < p := by omega
      congr 1
      generalize hq : bs.length / (p + 1) = q at *
      generalize hr : bs.length % (p + 1) = r at *
      have e : (p + 1) * q = p * q + q := by ring
      by_cases h0 : 0 < r
      · rw [if_pos h0]
        have e1 : bs.length - (q + 1) = p * q + (r - 1) := by omega
        have e2 : (p * q + (r - 1)) / p = q := by
          rw [Nat.mul_add_div hp, Nat.div_eq_of_lt (by omega)]; simp
        have e3 : (p * q + (r - 1)) % p = r - 1 := by
          rw [Nat.mul_add_mod, Nat.mod_eq_of_lt (by omega)]
        rw [e1, e2, e3]
        by_cases hir : i + 1 < r
        · rw [if_pos hir, if_pos (by omega)]
        · rw [if_neg hir, if_neg (by omega)]
      · rw [if_neg h0]
        have e1 : bs.length - (q + 0) = p * q := by omega
        rw [e1, Nat.mul_div_cancel_left q hp, Nat.mul_mod_right, if_neg (by omega), if_neg (by omega)]

/-- … and nothing is kept as soon as there is another process. -/
theorem kept_exact : ∀ (p loc : ℕ) (bs : List Branch), (send p loc bs).2 = if p = 0 then bs else []
  | 0, _, _ => rfl
  | p + 1, loc, bs => by
    rw [send]
    dsimp only
    rw [kept_exact p, if_neg (Nat.succ_ne_zero p)]
    by_cases hp : p = 0
    · subst hp
      rw [if_pos rfl]
      have : share (0 + 1) bs.length = bs.length := by rw [share_exact]; simp [Nat.mod_one]
      rw [this, List.drop_length]
    · rw [if_neg hp]

/-- **C150 (refuted).** "`branchNum` branches on `pidNum + 1` processes (the last is the local process)": the local process keeps no
branch, and the assertion that it keeps its share fails, exactly when there is another process and a branch for each of the
`pidNum + 1`. -/
theorem share_assertion (S : Box → Raw) (B : Box) (bs : List Branch) (p : ℕ) (order : List (ℕ × ℕ × List Branch)) (sb : ℕ → SbRes) :
    doSB true S B bs p order sb = none ↔ 1 ≤ p ∧ p + 1 ≤ bs.length := by
  unfold doSB
  dsimp only
  rw [kept_exact]
  by_cases hp : p = 0
  · subst hp
    simp
  · rw [if_neg hp]
    have : (bs.length / (p + 1) ≠ ([] : List Branch).length) ↔ p + 1 ≤ bs.length := by
      rw [List.length_nil, Ne, Nat.div_eq_zero_iff]
      omega
    by_cases hl : p + 1 ≤ bs.length
    · rw [if_pos ⟨rfl, this.2 hl⟩]
      simp; omega
    · rw [if_neg (fun c => hl (this.1 c.2))]
      simp; omega

/-- **C150 (refuted).** Below the root it fails whenever at least one process has been granted (at most `branchNum − 1` are asked
for): with assertions distributed strong branching stops the program. -/
theorem granted_fails (S : Box → Raw) (B : Box) (bs : List Branch) (p : ℕ) (order : List (ℕ × ℕ × List Branch)) (sb : ℕ → SbRes)
    (index maxLevel inRoot inTree branchNum : Int) (hidx : index ≠ 0) (hp : 1 ≤ p) (hg : (p : Int) ≤ branchNum - 1)
    (hbs : (bs.length : Int) = limit index maxLevel inRoot inTree p branchNum) : doSB true S B bs p order sb = none := by
  rw [share_assertion]
  refine ⟨hp, ?_⟩
  unfold limit at hbs
  rw [if_neg hidx] at hbs
  by_cases hl : index < maxLevel
  · rw [if_pos hl] at hbs
    have h1 : (p : Int) + 1 ≤ min branchNum (max (p + 1) inTree) := le_min (by omega) (le_max_left _ _)
    omega
  · rw [if_neg hl, if_pos (by omega)] at hbs
    omega

/-- **C151.** Below the root at most the branches counted are tried, if at most `branchNum − 1` processes are granted; all of them
only if allowed by the parameter or needed to give one to each process. -/
theorem limit_le (index maxLevel inRoot inTree p branchNum : Int) (hb : 0 ≤ branchNum) (hg : p ≤ branchNum - 1) :
    limit index maxLevel inRoot inTree p branchNum ≤ branchNum := by
  unfold limit
  split_ifs
  · exact min_le_left _ _
  · exact min_le_left _ _
  · omega
  · exact hb

/-- **C151 (refuted).** `SBMaxLevel` ("the level where …", BM.hpp:80-83) is compared with the number of the node, not with its level: the
node with number 9 gets no strong branching with `SBMaxLevel` = 8 even though it may be a child of the root. -/
theorem level_is_index (inRoot inTree branchNum : Int) : limit 9 8 inRoot inTree 0 branchNum = 0 := by
  unfold limit
  rw [if_neg (by decide), if_neg (by decide), if_neg (by decide)]

/-! ## Registering -/

theorem put_comm (r : SbRes) (b c : Branch) (x y : Ans) (h : b.up ≠ c.up) : put (put r b x) c y = put (put r c y) b x := by
  unfold put
  cases hb : b.up <;> cases hc : c.up <;> simp_all

theorem register_append (l l' : List (Branch × Ans)) (sb : ℕ → SbRes) : register (l ++ l') sb = register l' (register l sb) := by
  unfold register
  rw [List.foldl_append]

/-- Object and way of a branch. -/
def key (p : Branch × Ans) : ℕ × Bool := (p.1.obj, p.1.up)

theorem step_comm (sb : ℕ → SbRes) (p q : Branch × Ans) (h : p = q ∨ key p ≠ key q) :
    regStep (regStep sb p) q = regStep (regStep sb q) p := by
  rcases h with h | h
  · rw [h]
  · unfold regStep
    by_cases ho : p.1.obj = q.1.obj
    · have hu : p.1.up ≠ q.1.up := by
        intro c
        exact h (by simp [key, ho, c])
      rw [ho]
      simp only [Function.update_self, Function.update_idem]
      rw [put_comm _ _ _ _ _ hu]
    · rw [Function.update_of_ne (Ne.symm ho), Function.update_of_ne ho, Function.update_comm ho]

theorem register_perm (l l' : List (Branch × Ans)) (h : l.Perm l') (hn : (l.map key).Nodup) (sb : ℕ → SbRes) :
    register l sb = register l' sb := by
  unfold register
  refine h.foldl_eq' ?_ sb
  intro x hx y hy z
  refine step_comm z x y ?_
  by_cases hxy : x = y
  · exact Or.inl hxy
  · refine Or.inr ?_
    intro hk
    exact hxy (List.inj_on_of_nodup_map hn hx hy hk)

/-- **C152.** However the branches are shared out and in whatever order the answers come back, the results are those of solving all
branches one after the other. -/
theorem distribution_irrelevant (S : Box → Raw) (B : Box) (bs : List Branch) (p : ℕ) (order : List (ℕ × ℕ × List Branch))
    (sb : ℕ → SbRes) (hn : (bs.map fun b => (b.obj, b.up)).Nodup) (ho : order.Perm (send p 0 bs).1) :
    doSB false S B bs p order sb = some (register (bs.map fun b => (b, ansOf (S (branchBox B b)))) sb) := by
  have hz : ∀ l : List Branch, l.zip (solveBranches S B l).1 = l.map fun b => (b, ansOf (S (branchBox B b))) := by
    intro l
    rw [solve_exact]
    induction l with
    | nil => rfl
    | cons b l ih => simpa using ih
  have hf : ∀ (ms : List (ℕ × ℕ × List Branch)) (sb : ℕ → SbRes),
      ms.foldl (fun sb m => register (m.2.2.map fun b => (b, ansOf (S (branchBox B b)))) sb) sb =
        register ((ms.map fun m => m.2.2).flatten.map fun b => (b, ansOf (S (branchBox B b)))) sb := by
    intro ms
    induction ms with
    | nil => intro sb; rfl
    | cons m ms ih =>
      intro sb
      rw [List.foldl_cons, ih, List.map_cons, List.flatten_cons, List.map_append, register_append]
  unfold doSB
  dsimp only
  rw [if_neg (by simp)]
  congr 1
  simp only [hz]
  rw [hf, ← register_append, ← List.map_append]
  refine (register_perm _ _ (List.Perm.map _ ?_) ?_ sb).symm
  · have h1 := send_tiles p 0 bs
    have h2 : ((order.map fun m => m.2.2).flatten).Perm ((send p 0 bs).1.map fun m => m.2.2).flatten := (ho.map _).flatten
    refine List.Perm.trans ?_ (h2.symm.append_left _)
    refine List.Perm.trans ?_ List.perm_append_comm
    rw [h1]
  · rw [List.map_map]
    exact hn

theorem register_other : ∀ (l : List (Branch × Ans)) (sb : ℕ → SbRes) (o : ℕ), (∀ q ∈ l, q.1.obj ≠ o) → register l sb o = sb o
  | [], _, _, _ => rfl
  | q :: l, sb, o, h => by
    show register l _ o = _
    rw [register_other l _ o (fun x hx => h x (by simp [hx])), regStep, Function.update_of_ne (Ne.symm (h q (by simp)))]

/-- The part of a record for one way. -/
def SbRes.way (r : SbRes) (up : Bool) : Bool × Option Ans × Option ℚ := if up then (r.evU, r.rU, r.chU) else (r.evD, r.rD, r.chD)

theorem put_way (r : SbRes) (b : Branch) (a : Ans) (w : Bool) :
    (put r b a).way w = if b.up = w then (true, some a, some |b.val - b.bd|) else r.way w := by
  unfold put SbRes.way
  cases hb : b.up <;> cases w <;> simp

theorem register_untouched : ∀ (l : List (Branch × Ans)) (sb : ℕ → SbRes) (o : ℕ) (w : Bool), (∀ q ∈ l, key q ≠ (o, w)) →
    (register l sb o).way w = (sb o).way w
  | [], _, _, _, _ => rfl
  | q :: l, sb, o, w, h => by
    show (register l _ o).way w = _
    rw [register_untouched l _ o w (fun x hx => h x (by simp [hx])), regStep]
    by_cases ho : q.1.obj = o
    · subst ho
      rw [Function.update_self, put_way, if_neg]
      intro hw
      exact h q (by simp) (by simp [key, hw])
    · rw [Function.update_of_ne (Ne.symm ho)]

/-- **C152.** After registering, object and way of each branch hold its answer and the distance from the value to the bound set; the
fields of all other ways stay as they were. -/
theorem register_exact (l : List (Branch × Ans)) (hn : (l.map key).Nodup) (sb : ℕ → SbRes) :
    (∀ q ∈ l, (register l sb q.1.obj).way q.1.up = (true, some q.2, some |q.1.val - q.1.bd|)) ∧
    (∀ o w, (∀ q ∈ l, key q ≠ (o, w)) → (register l sb o).way w = (sb o).way w) := by
  refine ⟨?_, fun o w h => register_untouched l sb o w h⟩
  intro q hq
  obtain ⟨l1, l2, rfl⟩ := List.append_of_mem hq
  rw [register_append]
  show (register l2 _ q.1.obj).way q.1.up = _
  rw [List.map_append, List.map_cons, List.nodup_append, List.nodup_cons] at hn
  rw [register_untouched l2]
  · rw [regStep, Function.update_self, put_way, if_pos rfl]
  · intro x hx hk
    refine hn.2.1.1 ?_
    rw [List.mem_map]
    exact ⟨x, hx, hk⟩

/-- **C152.** Clearing forgets which branches were evaluated, but keeps the answers of the previous node. -/
theorem clear_exact (sb : ℕ → SbRes) (o : ℕ) (w : Bool) :
    ((clear sb o).way w).1 = false ∧ ((clear sb o).way w).2 = ((sb o).way w).2 := by
  unfold clear SbRes.way
  cases w <;> simp

/-! ## Examples -/

/-- Three branches of two objects. -/
def exBs : List Branch := [⟨false, 0, 0, 1 / 2, 0⟩, ⟨true, 0, 0, 1 / 2, 1⟩, ⟨false, 1, 4, 7 / 3, 2⟩]

example : (exBs.map fun b => (b.obj, b.up)).Nodup := by decide

/-- On two processes: two and one, nothing left. -/
example : (send 2 0 exBs).1.map (fun m => (m.1, m.2.1, m.2.2.length)) = [(1, 0, 2), (0, 2, 1)] ∧ (send 2 0 exBs).2 = [] := by decide +kernel

example : limit 3 5 10 4 2 8 = 4 ∧ limit 0 5 10 4 2 8 = 8 ∧ limit 7 5 10 4 2 8 = 3 := by decide

/-- **Number of branches tried, exactly.**  A number of branches is within the limit if it is at most the number for the root, at nodes with small index at most the larger of the one in the tree and what keeps all processes busy, elsewhere
only what keeps them busy. -/
theorem limit_exact (index maxLevel inRoot inTree p branchNum k : Int) : k ≤ limit index maxLevel inRoot inTree p branchNum ↔
    (index = 0 ∧ k ≤ branchNum ∧ k ≤ inRoot) ∨ (index ≠ 0 ∧ index < maxLevel ∧ k ≤ branchNum ∧ (k ≤ p + 1 ∨ k ≤ inTree)) ∨
    (index ≠ 0 ∧ maxLevel ≤ index ∧ ((0 < p ∧ k ≤ p + 1) ∨ (p ≤ 0 ∧ k ≤ 0))) := by
  unfold limit
  split_ifs <;> omega

end Verif.Bcp

import Mathlib.Data.Rat.Lemmas
import Mathlib.Algebra.Order.Field.Rat
import Mathlib.Tactic.NormNum
import Mathlib.Tactic.Linarith
import Mathlib.Tactic.FinCases
/-! # C92: carrying Ipopt's iterates over to the next subproblem

src/Interfaces/Ipopt/BonIpoptInteriorWarmStarter.cpp: `UpdateStoredIterates` 48-86, `WarmStartIterate` 95-218.

Ipopt drops fixed variables and keeps multipliers only for finite bounds, so the vectors of an iterate list the variables that are left. A variable comes here with its bounds at
the solve that stored the iterate and at the new solve, and with its value and multipliers in the iterate (of no meaning where Ipopt has none). The parts of the iterate for the
constraints are copied entry by entry (200-215) and left out. `DBG_ASSERT`s are not compiled in. `none` = an access outside a vector. -/
namespace Verif.Slv.Interior

/-- A variable. -/
structure V where
  lp : ℚ
  up : ℚ
  ln : ℚ
  un : ℚ
  x : ℚ
  zl : ℚ
  zu : ℚ
  deriving DecidableEq, Repr

/-- `nlp_lower_bound_inf_`, `nlp_upper_bound_inf_`. -/
structure Inf where
  lo : ℚ
  hi : ℚ
  deriving DecidableEq, Repr

/-- Free at the stored and at the new solve; finite bounds there. -/
def V.freeP (v : V) : Bool := v.lp < v.up
def V.freeN (v : V) : Bool := v.ln < v.un
def V.lowP (f : Inf) (v : V) : Bool := f.lo < v.lp
def V.lowN (f : Inf) (v : V) : Bool := f.lo < v.ln
def V.uppP (f : Inf) (v : V) : Bool := v.up < f.hi
def V.uppN (f : Inf) (v : V) : Bool := v.un < f.hi

/-- The vectors `x`, `z_L`, `z_U` of an iterate. -/
structure It where
  x : List ℚ
  zl : List ℚ
  zu : List ℚ
  deriving DecidableEq, Repr

/-- What Ipopt keeps of the variables at the stored solve, and what it should get at the new one. -/
def old (f : Inf) (vs : List V) : It :=
  ⟨(vs.filter V.freeP).map V.x, (vs.filter fun v => v.freeP && v.lowP f).map V.zl, (vs.filter fun v => v.freeP && v.uppP f).map V.zu⟩
def new (f : Inf) (vs : List V) : It :=
  ⟨(vs.filter V.freeN).map V.x, (vs.filter fun v => v.freeN && v.lowN f).map V.zl, (vs.filter fun v => v.freeN && v.uppN f).map V.zu⟩

/-- Indices into the stored vectors and the entries of the new vectors written so far. -/
structure St where
  ix : ℕ
  il : ℕ
  iu : ℕ
  out : It
  deriving DecidableEq, Repr

/-- `new[i_new++] = prev[i_prev++]` with vectors of the new dimension `dim`. -/
def put (prev : List ℚ) (i dim : ℕ) (out : List ℚ) : Option (List ℚ) :=
  match prev[i]? with
  | some a => if out.length < dim then some (out ++ [a]) else none
  | none => none

/-- The part for the lower bound (170-175). -/
def stepL (f : Inf) (p d : It) (v : V) (s : St) : Option St :=
  if v.lowN f then (put p.zl s.il d.zl.length s.out.zl).map fun o => { s with il := s.il + 1, out := { s.out with zl := o } } else some s

/-- The part for the upper bound (176-181). -/
def stepU (f : Inf) (p d : It) (v : V) (s : St) : Option St :=
  if v.uppN f then (put p.zu s.iu d.zu.length s.out.zu).map fun o => { s with iu := s.iu + 1, out := { s.out with zu := o } } else some s

/-- One variable (164-188); `p` is the stored iterate, the vectors of `d` have the dimensions of the new one. -/
def step (f : Inf) (p d : It) (v : V) (s : St) : Option St :=
  if v.freeN then
    (put p.x s.ix d.x.length s.out.x).bind fun o => (stepL f p d v { s with ix := s.ix + 1, out := { s.out with x := o } }).bind (stepU f p d v)
  else if v.freeP then some { s with ix := s.ix + 1, il := s.il + 1, iu := s.iu + 1 }
  else some s

def walk (f : Inf) (p d : It) : List V → St → Option St
  | [], s => some s
  | v :: vs, s => (step f p d v s).bind (walk f p d vs)

/-- `WarmStartIterate` (158-188) with a stored iterate. -/
def carry (f : Inf) (vs : List V) (p : It) : Option It := (walk f p (new f vs) vs ⟨0, 0, 0, ⟨[], [], []⟩⟩).map St.out

/-- `UpdateStoredIterates` (48-86) over the iterates of a solve: `true` = restoration phase. -/
def store {α : Type} (several : Bool) : List α → List (Bool × α) → List α
  | st, [] => st
  | st, (r, a) :: l => store several (if r then st else if several ∨ st = [] then st ++ [a] else st.set 0 a) l

/-- Which iterate is taken (102-109). -/
def wanted {α : Type} (st : List α) : Option α := if st.length = 0 then none else st[st.length - 5]?

/-! ### Values carried over -/

/-- From the stored to the new solve no variable becomes free, the finite bounds of the variables that stay free stay the same, and variables that become fixed had two finite
bounds. -/
def Tame (f : Inf) (v : V) : Prop :=
  (v.freeN = true → v.freeP = true ∧ v.lowN f = v.lowP f ∧ v.uppN f = v.uppP f) ∧ (v.freeN = false → v.freeP = true → v.lowP f = true ∧ v.uppP f = true)

/-- Appending entry by entry. -/
def It.app (a b : It) : It := ⟨a.x ++ b.x, a.zl ++ b.zl, a.zu ++ b.zu⟩

theorem put_at (a b : List ℚ) (q : ℚ) (dim : ℕ) (out : List ℚ) (h : out.length < dim) : put (a ++ q :: b) a.length dim out = some (out ++ [q]) := by
  simp [put, h]

theorem put_le {p : List ℚ} {i dim : ℕ} {out o : List ℚ} (h : put p i dim out = some o) : ∃ q, p[i]? = some q ∧ o = out ++ [q] ∧ out.length < dim := by
  unfold put at h
  split at h
  · rename_i a ha
    split at h
    · rename_i hd
      exact ⟨a, ha, (Option.some.inj h).symm, hd⟩
    · cases h
  · cases h

theorem step_tame (f : Inf) (v : V) (vs : List V) (a b d : It) (h : Tame f v) (hx : b.x.length + (new f (v :: vs)).x.length ≤ d.x.length)
    (hl : b.zl.length + (new f (v :: vs)).zl.length ≤ d.zl.length) (hu : b.zu.length + (new f (v :: vs)).zu.length ≤ d.zu.length) :
    step f (a.app (old f (v :: vs))) d v ⟨a.x.length, a.zl.length, a.zu.length, b⟩ =
      some ⟨(a.app (old f [v])).x.length, (a.app (old f [v])).zl.length, (a.app (old f [v])).zu.length, b.app (new f [v])⟩ := by
  obtain ⟨h1, h2⟩ := h
  cases hN : v.freeN with
  | false =>
    cases hP : v.freeP with
    | false => simp [step, hN, hP, old, new, It.app]
    | true => obtain ⟨h3, h4⟩ := h2 hN hP; simp [step, hN, hP, old, new, It.app, h3, h4]
  | true =>
    obtain ⟨hP, hL, hU⟩ := h1 hN
    have hx' : b.x.length < d.x.length := by simp [new, hN] at hx; omega
    have ex : put (a.app (old f (v :: vs))).x a.x.length d.x.length b.x = some (b.x ++ [v.x]) := by
      simp only [It.app, old, List.filter_cons_of_pos hP, List.map_cons]
      exact put_at _ _ _ _ _ hx'
    have el : v.lowN f = true → put (a.app (old f (v :: vs))).zl a.zl.length d.zl.length b.zl = some (b.zl ++ [v.zl]) := by
      intro q
      have hl' : b.zl.length < d.zl.length := by simp [new, hN, q] at hl; omega
      have : (v.freeP && v.lowP f) = true := by rw [hP, ← hL, q]; rfl
      simp only [It.app, old, List.filter_cons, this, if_true, List.map_cons]
      exact put_at _ _ _ _ _ hl'
    have eu : v.uppN f = true → put (a.app (old f (v :: vs))).zu a.zu.length d.zu.length b.zu = some (b.zu ++ [v.zu]) := by
      intro q
      have hu' : b.zu.length < d.zu.length := by simp [new, hN, q] at hu; omega
      have : (v.freeP && v.uppP f) = true := by rw [hP, ← hU, q]; rfl
      simp only [It.app, old, List.filter_cons, this, if_true, List.map_cons]
      exact put_at _ _ _ _ _ hu'
    rw [step, if_pos hN, ex]
    simp only [Option.bind_some]
    cases qL : v.lowN f <;> cases qU : v.uppN f <;> rw [qL] at hL <;> rw [qU] at hU <;>
      simp [stepL, stepU, qL, qU, hP, hN, ← hL, ← hU, old, new, It.app] <;> simp_all [It.app, old] <;> (simp [stepU, qU]; try simp_all)

theorem new_cons (f : Inf) (v : V) (vs : List V) : new f (v :: vs) = (new f [v]).app (new f vs) := by
  simp only [new, It.app]
  congr 1 <;> rw [← List.map_append, ← List.filter_append] <;> rfl

theorem old_cons (f : Inf) (v : V) (vs : List V) : old f (v :: vs) = (old f [v]).app (old f vs) := by
  simp only [old, It.app]
  congr 1 <;> rw [← List.map_append, ← List.filter_append] <;> rfl

theorem app_assoc (a b c : It) : (a.app b).app c = a.app (b.app c) := by simp [It.app]

theorem walk_tame (f : Inf) (d : It) : ∀ (vs : List V) (a b : It), (∀ v ∈ vs, Tame f v) → b.x.length + (new f vs).x.length ≤ d.x.length →
    b.zl.length + (new f vs).zl.length ≤ d.zl.length → b.zu.length + (new f vs).zu.length ≤ d.zu.length →
    walk f (a.app (old f vs)) d vs ⟨a.x.length, a.zl.length, a.zu.length, b⟩ =
      some ⟨(a.app (old f vs)).x.length, (a.app (old f vs)).zl.length, (a.app (old f vs)).zu.length, b.app (new f vs)⟩ := by
  intro vs
  induction vs with
  | nil => intro a b _ _ _ _; simp [walk, old, new, It.app]
  | cons v vs ih =>
    intro a b h hx hl hu
    rw [walk, step_tame f v vs a b d (h v List.mem_cons_self) hx hl hu, Option.bind_some, old_cons f v vs, ← app_assoc, new_cons f v vs, ← app_assoc]
    rw [new_cons f v vs] at hx hl hu
    exact ih _ _ (fun w hw => h w (List.mem_cons_of_mem _ hw)) (by simp only [It.app, List.length_append] at hx ⊢; omega)
      (by simp only [It.app, List.length_append] at hl ⊢; omega) (by simp only [It.app, List.length_append] at hu ⊢; omega)

/-- C92: in that case every variable that is still free starts at its value and its multipliers in the stored iterate. -/
theorem carry_partial (f : Inf) (vs : List V) (h : ∀ v ∈ vs, Tame f v) : carry f vs (old f vs) = some (new f vs) := by
  have := walk_tame f (new f vs) vs ⟨[], [], []⟩ ⟨[], [], []⟩ h (by simp) (by simp) (by simp)
  have e : (⟨[], [], []⟩ : It).app (old f vs) = old f vs := rfl
  have e' : (⟨[], [], []⟩ : It).app (new f vs) = new f vs := rfl
  rw [e, e'] at this
  rw [carry]
  have this : walk f (old f vs) (new f vs) vs ⟨0, 0, 0, ⟨[], [], []⟩⟩ = _ := this
  rw [this]
  rfl

theorem step_x {f : Inf} {p d : It} {v : V} {s t : St} (h : step f p d v s = some t) :
    (v.freeN = true → t.ix = s.ix + 1 ∧ ∃ q, p.x[s.ix]? = some q ∧ t.out.x = s.out.x ++ [q]) ∧
    (v.freeN = false → t.ix = (if v.freeP then s.ix + 1 else s.ix) ∧ t.out.x = s.out.x) := by
  unfold step at h
  constructor
  · intro hN
    rw [if_pos hN] at h
    obtain ⟨o, h1, h2⟩ := Option.bind_eq_some_iff.1 h
    obtain ⟨q, hq, ho, _⟩ := put_le h1
    obtain ⟨r, h3, h4⟩ := Option.bind_eq_some_iff.1 h2
    have e1 : r.ix = s.ix + 1 ∧ r.out.x = o := by
      unfold stepL at h3
      split at h3
      · obtain ⟨_, _, h5⟩ := Option.map_eq_some_iff.1 h3; rw [← h5]; exact ⟨rfl, rfl⟩
      · rw [← Option.some.inj h3]; exact ⟨rfl, rfl⟩
    have e2 : t.ix = r.ix ∧ t.out.x = r.out.x := by
      unfold stepU at h4
      split at h4
      · obtain ⟨_, _, h5⟩ := Option.map_eq_some_iff.1 h4; rw [← h5]; exact ⟨rfl, rfl⟩
      · rw [← Option.some.inj h4]; exact ⟨rfl, rfl⟩
    exact ⟨e2.1.trans e1.1, q, hq, by rw [e2.2, e1.2, ho]⟩
  · intro hN
    rw [if_neg (by simp [hN])] at h
    split at h
    · rename_i hP; rw [← Option.some.inj h]; simp [hP]
    · rename_i hP; rw [← Option.some.inj h]; simp [hP]

theorem walk_x {f : Inf} {d p : It} : ∀ (vs : List V) (a : List ℚ) (s t : St), (∀ v ∈ vs, v.freeN = true → v.freeP = true) → p.x = a ++ (old f vs).x → s.ix = a.length →
    walk f p d vs s = some t → t.out.x = s.out.x ++ (new f vs).x := by
  intro vs
  induction vs with
  | nil => intro a s t _ _ _ h; rw [← Option.some.inj h]; simp [new]
  | cons v vs ih =>
    intro a s t h hp hs hw
    obtain ⟨r, h1, h2⟩ := Option.bind_eq_some_iff.1 hw
    obtain ⟨k1, k2⟩ := step_x h1
    cases hN : v.freeN with
    | true =>
      have hP := h v List.mem_cons_self hN
      obtain ⟨e1, q, e2, e3⟩ := k1 hN
      have hp' : p.x = (a ++ [v.x]) ++ (old f vs).x := by simp [hp, old, hP]
      have hq : q = v.x := by rw [hp', hs] at e2; simpa using e2.symm
      rw [ih (a ++ [v.x]) r t (fun w hw => h w (List.mem_cons_of_mem _ hw)) hp' (by simp [e1, hs]) h2, e3, hq]
      simp [new, hN]
    | false =>
      obtain ⟨e1, e2⟩ := k2 hN
      cases hP : v.freeP with
      | true =>
        have hp' : p.x = (a ++ [v.x]) ++ (old f vs).x := by simp [hp, old, hP]
        rw [ih (a ++ [v.x]) r t (fun w hw => h w (List.mem_cons_of_mem _ hw)) hp' (by simp [e1, hs, hP]) h2, e2]
        simp [new, hN]
      | false =>
        have hp' : p.x = a ++ (old f vs).x := by simp [hp, old, hP]
        rw [ih a r t (fun w hw => h w (List.mem_cons_of_mem _ hw)) hp' (by simp [e1, hs, hP]) h2, e2]
        simp [new, hN]

/-- C92: whatever becomes of the bounds, as long as no variable becomes free and no access leaves a vector, the values of the variables are carried over. -/
theorem carry_x (f : Inf) (vs : List V) (r : It) (h : ∀ v ∈ vs, v.freeN = true → v.freeP = true) (hr : carry f vs (old f vs) = some r) : r.x = (new f vs).x := by
  obtain ⟨t, h1, h2⟩ := Option.map_eq_some_iff.1 hr
  have := walk_x vs [] _ t h rfl rfl h1
  rw [← h2, this]
  rfl

/-- The same problem again: everything is carried over. -/
theorem carry_same (f : Inf) (vs : List V) (h : ∀ v ∈ vs, v.ln = v.lp ∧ v.un = v.up) : carry f vs (old f vs) = some (old f vs) := by
  have e : new f vs = old f vs := by
    have a : ∀ v ∈ vs, v.freeN = v.freeP ∧ v.lowN f = v.lowP f ∧ v.uppN f = v.uppP f := by
      intro v hv; obtain ⟨h1, h2⟩ := h v hv; simp [V.freeN, V.freeP, V.lowN, V.lowP, V.uppN, V.uppP, h1, h2]
    simp only [new, old]
    congr 2 <;> apply List.filter_congr <;> intro v hv <;> simp [a v hv]
  rw [carry_partial, e]
  intro v hv
  obtain ⟨h1, h2⟩ := h v hv
  constructor
  · intro q; simpa [V.freeN, V.freeP, V.lowN, V.lowP, V.uppN, V.uppP, h1, h2] using q
  · intro q q'; exfalso; simp [V.freeN, V.freeP, h1, h2] at q q'; linarith

/-! ### Iterates stored -/

/-- C92: with several iterates all those outside the restoration phase are stored in order. -/
theorem store_several {α : Type} (l : List (Bool × α)) : ∀ st, store true st l = st ++ (l.filter fun p => !p.1).map Prod.snd := by
  induction l with
  | nil => intro st; simp [store]
  | cons p l ih =>
    intro st
    obtain ⟨r, a⟩ := p
    rw [store, ih]
    cases r <;> simp

/-- C92: otherwise only the last one. -/
theorem store_single {α : Type} (l : List (Bool × α)) : store false [] l = ((l.filter fun p => !p.1).map Prod.snd).getLast?.toList := by
  have key : ∀ (l : List (Bool × α)) (st : List α), st.length ≤ 1 → store false st l = ((l.filter fun p => !p.1).map Prod.snd).getLast?.elim st fun a => [a] := by
    intro l
    induction l with
    | nil => intro st _; simp [store]
    | cons p l ih =>
      intro st hst
      obtain ⟨r, a⟩ := p
      cases r with
      | true => simp [store, ih st hst]
      | false =>
        have : (if (false : Bool) then st else if (false : Bool) ∨ st = [] then st ++ [a] else st.set 0 a) = [a] := by
          rcases st with _ | ⟨b, _ | ⟨c, st⟩⟩
          · simp
          · simp
          · simp at hst
        rw [store]
        have h2 := ih [a] (by simp)
        simp only [this] at *
        rw [h2]
        cases hl : (l.filter fun p => !p.1).map Prod.snd with
        | nil => simp [hl]
        | cons b bs =>
          have e : (b :: bs).getLast? = some ((b :: bs).getLast (by simp)) := List.getLast?_eq_some_getLast _
          simp [hl, List.getLast?_cons_cons, e]
  rw [key l [] (by simp)]
  cases ((l.filter fun p => !p.1).map Prod.snd).getLast? <;> rfl

/-- C92: the iterate taken is the first of the last five stored. -/
theorem wanted_first_of_five {α : Type} (pre l : List α) (a : α) (h : l.length = 4 ∨ (pre = [] ∧ l.length < 4)) : wanted (pre ++ a :: l) = some a := by
  rw [wanted, if_neg (by simp)]
  rcases h with h | ⟨rfl, h⟩
  · have : (pre ++ a :: l).length - 5 = pre.length := by simp [h]
    rw [this]; simp
  · have : ([] ++ a :: l : List α).length - 5 = 0 := by simp; omega
    rw [this]; simp

/-! ### Examples -/

def f0 : Inf := ⟨-1000, 1000⟩

/-- Three variables between 0 and 10, the middle one then fixed. -/
def vs0 : List V := [⟨0, 10, 0, 10, 1, 2, 3⟩, ⟨0, 10, 5, 5, 4, 5, 6⟩, ⟨0, 10, 0, 7, 7, 8, 9⟩]

example : carry f0 vs0 (old f0 vs0) = some ⟨[1, 7], [2, 8], [3, 9]⟩ := by decide +kernel
example : ∀ v ∈ vs0, Tame f0 v := by
  intro v hv
  fin_cases hv <;> simp [Tame, V.freeN, V.freeP, V.lowN, V.lowP, V.uppN, V.uppP, f0] <;> norm_num
example : store true [] [(false, 1), (true, 2), (false, 3)] = [1, 3] ∧ store false [] [(false, 1), (true, 2), (false, 3)] = [3] := by decide
example : wanted [1, 2, 3, 4, 5, 6] = some 2 ∧ wanted [1, 2] = some 1 ∧ wanted ([] : List ℕ) = none := by decide

/-! ### Refutations -/

/-- C92, refuted: a variable without upper bound that becomes fixed shifts the multipliers of the upper bounds: the next variable gets those of the one after it, or something
from beyond the vector. -/
theorem fixed_unbounded_shifts : ∃ f vs, (∀ v ∈ vs, v.freeN = true → v.freeP = true) ∧ carry f vs (old f vs) = some ⟨[7, 1], [8, 2], [12]⟩ ∧ new f vs = ⟨[7, 1], [8, 2], [9]⟩ := by
  refine ⟨f0, [⟨0, 2000, 5, 5, 4, 5, 6⟩, ⟨0, 10, 0, 10, 7, 8, 9⟩, ⟨0, 10, 0, 2000, 1, 2, 12⟩], ?_, ?_, ?_⟩ <;> decide +kernel

/-- C92, refuted: … and with the last variables there is nothing to read. -/
theorem fixed_unbounded_reads_past : ∃ f vs, (∀ v ∈ vs, (v.freeN = true → v.freeP = true) ∧ (v.freeN = true → v.lowN f = v.lowP f ∧ v.uppN f = v.uppP f)) ∧
    carry f vs (old f vs) = none := by
  refine ⟨f0, [⟨0, 2000, 5, 5, 4, 5, 6⟩, ⟨0, 10, 0, 10, 7, 8, 9⟩], ?_, ?_⟩ <;> decide +kernel

/-- C92, refuted: branching on a variable without upper bound gives it one; it takes the multiplier of the next variable, which is left without. -/
theorem new_bound_misaligns : ∃ f vs, (∀ v ∈ vs, v.freeN = true ∧ v.freeP = true) ∧ carry f vs (old f vs) = none ∧
    carry f (vs ++ [⟨0, 10, 0, 2000, 1, 2, 12⟩]) (old f (vs ++ [⟨0, 10, 0, 2000, 1, 2, 12⟩])) = some ⟨[4, 7, 1], [5, 8, 2], [9, 12]⟩ := by
  refine ⟨f0, [⟨0, 2000, 0, 5, 4, 5, 6⟩, ⟨0, 10, 0, 10, 7, 8, 9⟩], ?_, ?_, ?_⟩ <;> decide +kernel

/-- C92, refuted: the iterate taken is not the fourth latest, as announced, but the fifth. -/
theorem not_fourth_latest : ∃ st : List ℕ, wanted st = st.reverse[4]? ∧ wanted st ≠ st.reverse[3]? := ⟨[1, 2, 3, 4, 5, 6], by decide⟩

end Verif.Slv.Interior

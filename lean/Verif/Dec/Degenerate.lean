import Verif.Dec.BoaConvex
import Mathlib.Tactic.IntervalCases
/-!
# C312: B-OA and B-QG on a convex problem without a constraint qualification

`Dec/BoaConvex.lean` proves B-OA right on convex problems when the answers of the NLP solver satisfy first-order conditions.  Here is a convex problem with two variables where one of the two NLPs with
fixed integers has no multipliers (its feasible set is one point, with a zero gradient).  The code takes the return of the MILP to the integers of the last NLP as a proof that the problem is solved
(BonOACutGenerator2.cpp:183-196 and 241-252); here the MILP returns because the cuts do not exclude those integers, and the solution reported is not optimal, whatever the solvers are.

    min -2 x + 3/4 y   such that   (x - 1/2)^2 - y/4 ≤ 0,   x in [0,1],   y in {0,1}
-/
namespace Verif.Dec.Degen
open Verif.Oa Verif.Div Verif.Bab.Search

/-- The problem as the interface sees it: column 0 is `y`, column 1 is `x`, column 2 the objective variable. -/
def prob : Cvx.Prob where
  T := ⟨10 ^ 30, 10 ^ 20, 1 / 10 ^ 6, 1 / 10 ^ 17, 0⟩
  vt := 1 / 10 ^ 15
  n := 2
  cl := fun j => if j = 2 then -10 ^ 30 else 0
  cu := fun j => if j ≤ 1 then 1 else if j = 2 then 10 ^ 30 else 0
  m := 1
  nonlin := fun _ => true
  rl := fun _ => -10 ^ 30
  ru := fun _ => 0
  G := fun _ z => (z 1 - 1 / 2) ^ 2 - z 0 / 4
  jac := fun z => [(0, 0, -1 / 4), (0, 1, 2 * z 1 - 1)]
  F := fun z => -2 * z 1 + 3 / 4 * z 0
  grad := fun _ => [(0, 3 / 4), (1, -2)]

/-- The integer column. -/
def ints (z : Cvx.Pt prob) : List ℚ := [z.1 0]

/-- A point with the objective variable at `a`. -/
def pt (y x a : ℚ) (h : (0 ≤ y ∧ y ≤ 1) ∧ 0 ≤ x ∧ x ≤ 1) : Cvx.Pt prob :=
  ⟨fun j => if j = 0 then y else if j = 1 then x else if j = 2 then a else 0, by
    intro j
    rcases j with _ | _ | _ | j
    · exact ⟨fun _ => h.1.1, fun _ => h.1.2⟩
    · exact ⟨fun _ => h.2.1, fun _ => h.2.2⟩
    · exact ⟨fun hh => absurd hh (by norm_num [prob]), fun hh => absurd hh (by norm_num [prob])⟩
    · exact ⟨fun _ => by simp [prob], fun _ => by simp [prob]⟩⟩

/-- The solution of the continuous relaxation, where the first cuts are made; the solutions of the two NLPs; the best point of the MILP. -/
def relax : Cvx.Pt prob := pt (4 / 9) (5 / 6) (-4 / 3) (by norm_num)
def low : Cvx.Pt prob := pt 0 (1 / 2) (-1) (by norm_num)
def best : Cvx.Pt prob := pt 1 1 (-5 / 4) (by norm_num)
def prop : Cvx.Pt prob := pt 0 (2 / 3) (-4 / 3) (by norm_num)

theorem cols (z : Cvx.Pt prob) : (0 ≤ z.1 0 ∧ z.1 0 ≤ 1) ∧ 0 ≤ z.1 1 ∧ z.1 1 ≤ 1 := by
  have h0 := z.2 0
  have h1 := z.2 1
  simp [prob] at h0 h1
  norm_num at h0 h1
  exact ⟨h0, h1⟩

theorem feas_iff (z : Cvx.Pt prob) : Cvx.Feas prob z ↔ (z.1 1 - 1 / 2) ^ 2 ≤ z.1 0 / 4 ∧ z.1 2 = -2 * z.1 1 + 3 / 4 * z.1 0 := by
  unfold Cvx.Feas
  constructor
  · rintro ⟨h1, h2⟩
    have := (h1 0 (by simp [prob])).1 (by norm_num [prob])
    simp [prob] at this h2
    exact ⟨by norm_num at this ⊢; linarith, by linarith⟩
  · rintro ⟨h1, h2⟩
    refine ⟨fun i hi => ⟨fun _ => by simp [prob]; norm_num at h1 ⊢; linarith, fun h => absurd h (by norm_num [prob])⟩, by simp [prob]; linarith⟩

/-- The linearisations at any point of the two solutions and the relaxation are exact, and the problem is convex. -/
theorem convex : Cvx.Convex prob (fun z => z = relax ∨ z = low ∨ z = best) where
  inf := by norm_num [prob]
  relax := by norm_num [prob]
  rows := by intro x t ht; simp [prob] at ht; rcases ht with rfl | rfl <;> simp [prob]
  up := by
    intro i hi _ _ x y
    have : i = 0 := by simpa [prob] using hi
    subst this
    simp [Cvx.expand, prob, rowEntries, lin]
    nlinarith [sq_nonneg (x.1 1 - y.1 1)]
  lo := by intro i _ _ h; exact absurd h (by norm_num [prob])
  obj := by
    intro x y
    simp [prob, lin]
    linarith
  jacBig := by
    rintro x (rfl | rfl | rfl) t ht <;> simp [prob, relax, low, best, pt] at ht <;> rcases ht with rfl | rfl <;> norm_num [prob]
  gradBig := by
    rintro x _ e he
    simp [prob] at he
    rcases he with rfl | rfl <;> norm_num [prob]

/-- The cuts at the solution of the relaxation, and at the solution of the NLP with `y = 0`: the latter do not bound `x`. -/
theorem cuts_eq (dual : ℕ → ℚ) (theta : ℚ) (lp : Bool) :
    Cvx.cutsAt prob dual none theta lp relax = [⟨[(0, -1 / 4), (1, 2 / 3)], -10 ^ 30, 4 / 9⟩, ⟨[(0, 3 / 4), (1, -2), (2, -1)], -10 ^ 30, 0⟩] ∧
    Cvx.cutsAt prob dual none theta lp low = [⟨[(0, -1 / 4)], -10 ^ 30, 0⟩, ⟨[(0, 3 / 4), (1, -2), (2, -1)], -10 ^ 30, 0⟩] := by
  have key : ∀ (x : Cvx.Pt prob) (l : List Cut), [relaxRhs prob.T (rowOa prob.T prob.cl prob.cu x.1 (Cvx.rowAt prob (fun _ => 0) x 0) (rowEntries (prob.jac x.1) 0)),
      objOa prob.T prob.vt prob.cl prob.cu x.1 prob.n (prob.F x.1) (prob.grad x.1)] = l → Cvx.cutsAt prob dual none theta lp x = l := by
    intro x l he
    have hj : ∀ t ∈ prob.jac x.1, t.1 < ((List.range prob.m).map (Cvx.rowAt prob dual x)).length := by simpa using convex.rows x
    have hrows := oa_rows_exact (T := prob.T) (cl := prob.cl) (cu := prob.cu) (x := x.1) hj theta lp
    have hall := (oa_exact (T := prob.T) (cl := prob.cl) (cu := prob.cu) (x := x.1) (rows := (List.range prob.m).map (Cvx.rowAt prob dual x)) (jac := prob.jac x.1) none theta lp).2 prob.n
      (prob.F x.1) (prob.grad x.1) prob.vt _ hrows
    have hn : nlRows ((List.range prob.m).map (Cvx.rowAt prob dual x)) 0 = [(Cvx.rowAt prob dual x 0, 0)] := by
      simp [nlRows, prob, Cvx.rowAt]
    have hd : rowOa prob.T prob.cl prob.cu x.1 (Cvx.rowAt prob dual x 0) (rowEntries (prob.jac x.1) 0) =
        rowOa prob.T prob.cl prob.cu x.1 (Cvx.rowAt prob (fun _ => 0) x 0) (rowEntries (prob.jac x.1) 0) := by
      have hi : initCut prob.T (Cvx.rowAt prob dual x 0) = initCut prob.T (Cvx.rowAt prob (fun _ => 0) x 0) := by
        simp [initCut, Cvx.rowAt, prob]
      unfold rowOa
      rw [hi]
      rfl
    unfold Cvx.cutsAt
    rw [Option.map_none, hall, hn]
    simp only [List.map_cons, List.map_nil, hd]
    rw [← he]
    simp
  exact ⟨key relax _ (by decide +kernel), key low _ (by decide +kernel)⟩

/-- **C312.**  The point with `y = 1` is the optimum, with value -5/4; the only feasible point with `y = 0` has the value -1; the relaxation has the value -4/3. -/
theorem optimum : (Cvx.Feas prob best ∧ prob.F best.1 = -5 / 4) ∧ (Cvx.Feas prob low ∧ prob.F low.1 = -1) ∧ (Cvx.Feas prob relax ∧ prob.F relax.1 = -4 / 3) ∧
    (∀ z, Cvx.Feas prob z → -4 / 3 ≤ prob.F z.1) ∧ (∀ z, Cvx.Feas prob z → Whole (ints z) → -5 / 4 ≤ prob.F z.1) ∧ ∀ z, Cvx.Feas prob z → ints z = [0] → z.1 1 = 1 / 2 ∧ z.1 2 = -1 := by
  refine ⟨⟨(feas_iff _).mpr ⟨?_, ?_⟩, ?_⟩, ⟨(feas_iff _).mpr ⟨?_, ?_⟩, ?_⟩, ⟨(feas_iff _).mpr ⟨?_, ?_⟩, ?_⟩, ?_, ?_, ?_⟩
  any_goals norm_num [best, low, relax, pt, prob]
  · intro z hz
    have := ((feas_iff z).mp hz).1
    nlinarith [sq_nonneg (z.1 1 - 5 / 6)]
  · intro z hz hw
    have h := ((feas_iff z).mp hz).1
    obtain ⟨k, hk⟩ := hw (z.1 0) (by simp [ints])
    obtain ⟨⟨c1, c2⟩, c3, c4⟩ := cols z
    rw [hk] at c1 c2 h
    have k1 : 0 ≤ k := by exact_mod_cast c1
    have k2 : k ≤ 1 := by exact_mod_cast c2
    interval_cases k
    · simp only [hk] at *
      norm_num at h ⊢
      nlinarith
    · rw [hk]; push_cast; linarith
  · intro z hz he
    have h0 : z.1 0 = 0 := by simpa [ints] using he
    obtain ⟨h1, h2⟩ := (feas_iff z).mp hz
    rw [h0] at h1 h2
    have : z.1 1 - 1 / 2 = 0 := pow_eq_zero_iff (two_ne_zero) |>.mp (le_antisymm (by linarith) (sq_nonneg _))
    exact ⟨by linarith, by linarith⟩

/-- The cuts are exact at the points where they are made: of the assumptions of C306, C307 and C310 only the first-order conditions are missing. -/
theorem exact : Cvx.Exact prob (fun z => z = relax ∨ z = low ∨ z = best) where
  tols := by norm_num [prob]
  relax := rfl
  jacBig := by
    rintro x (rfl | rfl | rfl) t ht <;> simp [prob, Degen.relax, low, best, pt] at ht <;> rcases ht with rfl | rfl <;> norm_num [prob]
  gradBig := by
    rintro x _ e he
    simp [prob] at he
    rcases he with rfl | rfl <;> norm_num [prob]
  upFin := by
    rintro i _ _ x hx p hp
    have hp' : p <+: [(0, -1 / 4), (1, 2 * x.1 1 - 1)] := by simpa [prob, rowEntries, (by simpa [prob] using ‹i < prob.m› : i = 0)] using hp
    have hl := List.prefix_iff_eq_take.mp hp'
    obtain ⟨⟨c1, c2⟩, c3, c4⟩ := cols x
    have : p = [] ∨ p = [(0, -1 / 4)] ∨ p = [(0, -1 / 4), (1, 2 * x.1 1 - 1)] := by
      rcases hlen : p.length with _ | _ | k
      · left; exact List.length_eq_zero_iff.mp hlen
      · right; left; rw [hlen] at hl; simpa using hl
      · right; right; rw [hlen] at hl; simpa using hl
    rcases this with rfl | rfl | rfl <;> simp [act, prob] <;> nlinarith [sq_nonneg (x.1 1)]
  loFin := by intro i _ h; exact absurd h (by norm_num [prob])
  objFin := by
    intro x _
    simp [act, prob]
    linarith

/-- **C312.**  The first-order conditions hold for no multipliers at the solution with `y = 0`. -/
theorem not_first_order (dual : ℕ → ℚ) : ¬ Cvx.FirstOrder prob ints ⟨true, -1, low⟩ dual := by
  intro h
  have := h.opt rfl prop (by simp [ints, low, prop, pt]) ?_
  · norm_num [prob, lin, low, prop, pt] at this
  · intro i hi
    have : i = 0 := by simpa [prob] using hi
    subst this
    refine ⟨fun hn => absurd hn (by simp [prob]), fun _ => ⟨fun _ => ?_, fun hl => absurd hl.1 (by norm_num [prob, Cvx.rowAt])⟩⟩
    simp [Cvx.expand, prob, rowEntries, lin, low, prop, pt]

/-! ## The rule with first-order conditions -/

/-- **C312 (partial).**  On a convex problem with exact cuts, when the solution of the MILP with valid cuts, among them those made at an answer of the NLP solver that satisfies the first-order
conditions, has the integers of that answer, then no solution is better than the answer: the rule "integers unchanged means solved" is right.  Missing: answers without first-order conditions, for which
it is wrong (`declared_solved`). -/
theorem unchanged_solved_partial {P : Cvx.Prob} {L : Cvx.Pt P → Prop} (hP : Cvx.Convex P L) (hE : Cvx.Exact P L) (ints : Cvx.Pt P → List ℚ) (a : NlpAns (Cvx.Pt P)) (dual : ℕ → ℚ) (theta : ℚ) (lp : Bool)
    (hF : Cvx.FirstOrder P ints a dual) (hL : L a.pt) (hv : a.obj = P.F a.pt.1) (cs : List Cut) (hcs : ∀ c ∈ cs, ∀ y, Cvx.Feas P y → Sat P.T.inf c y.1)
    (hin : ∀ c ∈ Cvx.cutsAt P dual none theta lp a.pt, c ∈ cs) (z : Cvx.Pt P) (hz : ∀ c ∈ cs, Sat P.T.inf c z.1)
    (hzl : ∀ i < P.m, P.nonlin i = false → (P.ru i < P.T.infM → P.G i z.1 ≤ P.ru i) ∧ (-P.T.infM < P.rl i → P.rl i ≤ P.G i z.1))
    (hmin : ∀ y, (∀ c ∈ cs, Sat P.T.inf c y.1) → (∀ i < P.m, P.nonlin i = false → (P.ru i < P.T.infM → P.G i y.1 ≤ P.ru i) ∧ (-P.T.infM < P.rl i → P.rl i ≤ P.G i y.1)) → Whole (ints y) →
      z.1 P.n ≤ y.1 P.n)
    (hsame : ints z = ints a.pt) (y : Cvx.Pt P) (hy : Cvx.Feas P y) (hw : Whole (ints y)) : a.obj ≤ P.F y.1 := by
  have h1 := Cvx.no_return hP.toShape hE ints a dual theta lp hF hL (fun _ => hv) a.obj (fun _ => le_rfl) z hsame (fun c hc => hz c (hin c hc)) hzl
  have h2 := hmin y (fun c hc => hcs c hc y hy) (fun i hi _ => hy.1 i hi) hw
  rw [hy.2]
  exact h1.trans h2

/-- The example of `Dec/Convex.lean` meets the assumptions: the MILP with the cuts at the solution of the NLP with `y = 1` proposes `y = 1`. -/
example (y : Cvx.Pt Cvx.exP) (hy : Cvx.Feas Cvx.exP y) (hw : Whole (Cvx.exW.ints y)) : 1 ≤ y.1 0 := by
  have e1 : (Cvx.exPt 1).1 0 = 1 := Cvx.exClamp_eq (t := 1) (by norm_num) (by norm_num)
  have e1' : (Cvx.exPt 1).1 1 = 1 := Cvx.exClamp_eq (t := 1) (by norm_num) (by norm_num)
  have hL : Cvx.exL (Cvx.exPt 1) := ⟨1, by rw [e1]; simp⟩
  have hF := Cvx.ex_first (Cvx.exPt 1)
  change Cvx.FirstOrder Cvx.exP Cvx.exW.ints (Cvx.exNlp (Cvx.exPt 1)) _ at hF
  rw [Cvx.ex_nlp_one] at hF
  have hf1 : Cvx.Feas Cvx.exP (Cvx.exPt 1) := (Cvx.ex_feas _).mpr ⟨by rw [e1]; norm_num, by rw [e1]⟩
  refine unchanged_solved_partial Cvx.ex_convex Cvx.ex_exact Cvx.exW.ints ⟨true, 1, Cvx.exPt 1⟩ _ 0 false hF hL e1.symm (Cvx.cutsAt Cvx.exP (fun _ => 0) none 0 false (Cvx.exPt 1))
    (fun c hc y hy => (Cvx.cuts_hold Cvx.ex_convex _ none 0 false _ y hL hy).2 c hc) (fun c hc => hc) (Cvx.exPt 1)
    (fun c hc => (Cvx.cuts_hold Cvx.ex_convex _ none 0 false _ _ hL hf1).2 c hc) (fun i _ hn => absurd hn (by simp [Cvx.exP])) ?_ rfl y hy hw
  intro z hz _ _
  obtain ⟨h1, h2⟩ := Cvx.cuts_mean Cvx.ex_convex.toShape Cvx.ex_exact _ 0 false _ z hL hz
  have h3 := (h1 0 (by simp [Cvx.exP]) rfl).1 ⟨by norm_num [Cvx.exP, Cvx.rowAt], fun hh => absurd hh.1 (by norm_num [Cvx.exP, Cvx.rowAt])⟩
  rw [Cvx.ex_lin, e1] at h3
  change (Cvx.exPt 1).1 1 ≤ z.1 1
  simp [Cvx.exP, lin] at h2
  simp [Cvx.exP] at h3
  rw [e1']
  linarith

/-! ## Right solvers -/

/-- The points of the LP with the cuts `cs` (the problem has no linear rows; points are within the column bounds). -/
def Master (cs : List Cut) (z : Cvx.Pt prob) : Prop := ∀ c ∈ cs, Sat prob.T.inf c z.1

/-- The MILP and LP solvers are right for the cuts `cs`: if there is a best point and its value is below the cutoff, they find its value, and the MILP solver a point with that value. -/
structure RightOn (o : Oracles (Cvx.Pt prob) Cut) (cs : List Cut) : Prop where
  milp : ∀ v k z, Master cs z → Whole (ints z) → z.1 prob.n < v → (∀ z', Master cs z' → Whole (ints z') → z.1 prob.n ≤ z'.1 prob.n) →
    ∃ s, (o.milp cs v k).sol = some s ∧ Master cs s ∧ Whole (ints s) ∧ s.1 prob.n = z.1 prob.n ∧ (o.milp cs v k).low = z.1 prob.n
  lp : ∀ v k z, Master cs z → z.1 prob.n < v → (∀ z', Master cs z' → z.1 prob.n ≤ z'.1 prob.n) →
    (o.lp cs v k).optimal = true ∧ (o.lp cs v k).limit = false ∧ (o.lp cs v k).obj = z.1 prob.n

/-- The NLP solver finds a best point with the given whole integers if there is one. -/
def RightNlp (o : Oracles (Cvx.Pt prob) Cut) : Prop :=
  ∀ x k z, Whole (ints x) → Cvx.Feas prob z → ints z = ints x → (∀ z', Cvx.Feas prob z' → ints z' = ints x → prob.F z.1 ≤ prob.F z'.1) →
    (o.nlp x k).optimal = true ∧ (o.nlp x k).obj = prob.F z.1 ∧ Cvx.Feas prob (o.nlp x k).pt ∧ ints (o.nlp x k).pt = ints x

/-- The cuts at the solution of the relaxation. -/
def pool : List Cut := [⟨[(0, -1 / 4), (1, 2 / 3)], -10 ^ 30, 4 / 9⟩, ⟨[(0, 3 / 4), (1, -2), (2, -1)], -10 ^ 30, 0⟩]
/-- The cuts at the solution of the NLP with `y = 0`. -/
def more : List Cut := [⟨[(0, -1 / 4)], -10 ^ 30, 0⟩, ⟨[(0, 3 / 4), (1, -2), (2, -1)], -10 ^ 30, 0⟩]

theorem master_pool (z : Cvx.Pt prob) : Master pool z ↔ -(1 / 4) * z.1 0 + 2 / 3 * z.1 1 ≤ 4 / 9 ∧ 3 / 4 * z.1 0 - 2 * z.1 1 ≤ z.1 2 := by
  constructor
  · intro h
    have h1 := (h _ (List.mem_cons_self ..)).2
    have h2 := (h _ (List.mem_cons_of_mem _ (List.mem_cons_self ..))).2
    norm_num [act, prob] at h1 h2
    exact ⟨by linarith, by linarith⟩
  · rintro ⟨h1, h2⟩ c hc
    simp only [pool, List.mem_cons, List.not_mem_nil, or_false] at hc
    rcases hc with rfl | rfl
    · refine ⟨Or.inl (by norm_num [prob]), Or.inr ?_⟩
      norm_num [act]
      linarith
    · refine ⟨Or.inl (by norm_num [prob]), Or.inr ?_⟩
      norm_num [act]
      linarith

theorem master_more (z : Cvx.Pt prob) : Master (pool ++ more) z ↔ Master pool z := by
  refine ⟨fun h c hc => h c (List.mem_append_left _ hc), fun h c hc => ?_⟩
  rcases List.mem_append.mp hc with hc | hc
  · exact h c hc
  · simp only [more, List.mem_cons, List.not_mem_nil, or_false] at hc
    rcases hc with rfl | rfl
    · refine ⟨Or.inl (by norm_num [prob]), Or.inr ?_⟩
      norm_num [act]
      linarith [(cols z).1.1]
    · exact h _ (by simp [pool])

/-- Points with the same three columns are the same. -/
theorem pt_ext {a b : Cvx.Pt prob} (h0 : a.1 0 = b.1 0) (h1 : a.1 1 = b.1 1) (h2 : a.1 2 = b.1 2) : a = b := by
  apply Subtype.ext
  funext j
  have hz : ∀ z : Cvx.Pt prob, ∀ j, z.1 (j + 3) = 0 := by
    intro z j
    have := z.2 (j + 3)
    simp [prob] at this
    exact le_antisymm this.2 this.1
  rcases j with _ | _ | _ | j
  · exact h0
  · exact h1
  · exact h2
  · rw [hz a j, hz b j]

/-- The best points of the MILP have `y = 0` and the value -4/3, before and after the cuts at the solution of the NLP. -/
theorem milp_best : Master pool prop ∧ Whole (ints prop) ∧ prop.1 prob.n = -4 / 3 ∧ (∀ z, Master pool z → -4 / 3 ≤ z.1 prob.n) ∧
    ∀ z, Master pool z → Whole (ints z) → z.1 prob.n = -4 / 3 → z = prop := by
  refine ⟨(master_pool _).mpr (by norm_num [prop, pt]), ?_, by simp [prop, pt, prob], ?_, ?_⟩
  · intro a ha
    have : a = 0 := by simpa [ints, prop, pt] using ha
    exact ⟨0, by simp [this]⟩
  · intro z hz
    have := (master_pool z).mp hz
    change _ ≤ z.1 2
    linarith
  · intro z hz hw hv
    have hm := (master_pool z).mp hz
    change z.1 2 = _ at hv
    obtain ⟨k, hk⟩ := hw (z.1 0) (by simp [ints])
    obtain ⟨⟨c1, c2⟩, c3, c4⟩ := cols z
    have k1 : 0 ≤ k := by rw [hk] at c1; exact_mod_cast c1
    have k2 : k ≤ 1 := by rw [hk] at c2; exact_mod_cast c2
    interval_cases k
    · norm_num at hk
      rw [hk] at hm
      refine pt_ext ?_ ?_ ?_
      · simp [prop, pt, hk]
      · simp [prop, pt]; linarith
      · simp [prop, pt, hv]
    · norm_num at hk
      rw [hk] at hm
      linarith

/-! ## The run -/

/-- **C312 (refuted).** With right LP, MILP and NLP solvers and the cuts of the interface, with any multipliers, any increment and gap below 1/3 and any limits that are not reached, the OA decomposition
ends after one pass, stores the point with `y = 0` and the value -1 and declares the node solved (bound 1e50), although the point with `y = 1` is feasible and has the value -5/4. -/
theorem declared_solved (o : Oracles (Cvx.Pt prob) Cut) (dual0 : ℕ → ℚ) (dual : Cvx.Pt prob → ℕ → ℕ → ℚ) (theta0 theta : ℚ) (lp0 lp : Bool)
    (hc : o.cuts = fun xh x k => Cvx.cutsAt prob (dual x k) none theta lp xh) (hr : ∀ cs ∈ [pool, pool ++ more], RightOn o cs) (hnlp : RightNlp o)
    (hd : ∀ z, ints z = ints low → o.differ01 low z = false) (hl : ∀ k, o.late k = false) (c : OaCfg) (he : 0 < c.eps ∧ c.eps < 1 / 3) (hg : 0 < c.gapTol ∧ c.gapTol ≤ 1 / 3)
    (dmax cut0 : ℚ) (hm : 4 / 3 ≤ dmax) (h0 : -1 < cut0) (nLocal nSols : ℕ) (h1 : nLocal + 1 < c.maxLocal) (h2 : nSols + 1 < c.maxSols) (n : ℕ) :
    ∃ t, performOa o c dmax (n + 2) (Cvx.cutsAt prob dual0 none theta0 lp0 relax) cut0 nLocal nSols = some (.inr t) ∧ t.bound = 10 ^ 50 ∧ t.found = [low] := by
  rw [(cuts_eq dual0 theta0 lp0).1]
  change ∃ t, performOa o c dmax (n + 2) pool cut0 nLocal nSols = _ ∧ _
  obtain ⟨b1, b2, b3, b4, b5⟩ := milp_best
  have hmilp : ∀ cs ∈ [pool, pool ++ more], ∀ v k, -4 / 3 < v → o.milp cs v k = ⟨-4 / 3, some prop⟩ := by
    intro cs hcs v k hv
    have hiff : ∀ z, Master cs z ↔ Master pool z := by
      intro z
      simp only [List.mem_cons, List.not_mem_nil, or_false] at hcs
      rcases hcs with rfl | rfl
      · rfl
      · exact master_more z
    obtain ⟨s, s1, s2, s3, s4, s5⟩ := (hr cs hcs).milp v k prop ((hiff _).mpr b1) b2 (by rw [b3]; exact hv) (fun z' hz' _ => by rw [b3]; exact b4 z' ((hiff _).mp hz'))
    have : s = prop := b5 s ((hiff _).mp s2) s3 (by rw [s4, b3])
    subst this
    cases hm : o.milp cs v k
    rw [hm] at s1 s5
    simp only at s1 s5
    rw [s1, s5, b3]
  have hnl : ∀ k, o.nlp prop k = ⟨true, -1, low⟩ := by
    intro k
    obtain ⟨_, ⟨l1, l2⟩, _, _, _, l6⟩ := optimum
    have hi : ints low = ints prop := by simp [ints, low, prop, pt]
    have hz : ints prop = [0] := by simp [ints, prop, pt]
    obtain ⟨n1, n2, n3, n4⟩ := hnlp prop k low b2 l1 hi (fun z' hz' hi' => by
      obtain ⟨e1, e2⟩ := l6 z' hz' (hi'.trans hz)
      have e0 : z'.1 0 = 0 := by have := hi'.trans hz; simpa [ints] using this
      rw [l2]
      simp only [prob]
      rw [e0, e1]
      norm_num)
    obtain ⟨e1, e2⟩ := l6 _ n3 (n4.trans hz)
    have e0 : (o.nlp prop k).pt.1 0 = 0 := by have := n4.trans hz; simpa [ints] using this
    have : (o.nlp prop k).pt = low := pt_ext (by rw [e0]; simp [low, pt]) (by rw [e1]; simp [low, pt]) (by rw [e2]; simp [low, pt])
    cases hm : o.nlp prop k
    rw [hm] at n1 n2 this
    simp only at n1 n2 this
    rw [n1, n2, this, l2]
  have hlp : ∀ v k, -4 / 3 < v → (o.lp (pool ++ more) v k).optimal = true ∧ (o.lp (pool ++ more) v k).limit = false ∧ (o.lp (pool ++ more) v k).obj = -4 / 3 := by
    intro v k hv
    have := (hr (pool ++ more) (by simp)).lp v k prop ((master_more _).mpr b1) (by rw [b3]; exact hv) (fun z' hz' => by rw [b3]; exact b4 z' ((master_more _).mp hz'))
    rw [b3] at this
    exact this
  have hi0 : oaInit o dmax pool cut0 nLocal nSols = ⟨pool, cut0, cut0, -4 / 3, true, true, some prop, nLocal + 1, nSols, 0, []⟩ := by
    unfold oaInit
    rw [hmilp pool (by simp) cut0 0 (by linarith)]
    have : max (-dmax) (-4 / 3) = (-4 / 3 : ℚ) := max_eq_right (by linarith)
    simp only [this, Option.isSome_some]
    have : (-4 / 3 : ℚ) < cut0 := by linarith
    simp [this]
  obtain ⟨co, hco⟩ : ∃ co, co = newCutoff c.eps (-1) := ⟨_, rfl⟩
  have hco' : co = -1 - c.eps := by rw [hco]; unfold newCutoff; rw [if_neg (by norm_num)]; ring
  have hn1 : afterNlp c (⟨pool, cut0, cut0, -4 / 3, true, true, some prop, nLocal + 1, nSols, 0, []⟩ : OaSt (Cvx.Pt prob) Cut) ⟨true, -1, low⟩ =
      some ⟨pool, co, -1, -4 / 3, true, true, some prop, nLocal + 1, nSols + 1, 0, [low]⟩ := by
    unfold afterNlp
    dsimp only
    rw [if_pos ⟨rfl, h0⟩, min_eq_left h0.le, ← hco, if_pos (by rw [hco']; linarith)]
    rfl
  have hcu : o.cuts low prop 0 = more := by rw [hc]; exact (cuts_eq _ _ _).2
  have hn2 : ∃ ii bd, (bd = -4 / 3 ∨ bd = 10 ^ 200) ∧ afterLp o (⟨pool, co, -1, -4 / 3, true, true, some prop, nLocal + 1, nSols + 1, 0, [low]⟩ : OaSt (Cvx.Pt prob) Cut) prop low =
      some ⟨pool ++ more, co, -1, bd, ii, true, some prop, nLocal + 1, nSols + 1, 0, [low]⟩ := by
    obtain ⟨p1, p2, p3⟩ := hlp co 0 (by rw [hco']; linarith)
    have hlt : (-4 / 3 : ℚ) < co := by rw [hco']; linarith
    unfold afterLp
    dsimp only
    rw [hcu, if_neg (by simp [more]), p1, p2, p3]
    simp only [hlt, decide_true, Bool.not_false, Bool.and_self, Bool.not_true, Bool.false_or]
    split
    · exact ⟨_, _, Or.inl rfl, rfl⟩
    · exact ⟨_, _, Or.inr rfl, rfl⟩
  obtain ⟨ii, bd, hbd, hn2⟩ := hn2
  have hn3 : ∃ ii' nl, localSearch o c (afterGap c (⟨pool ++ more, co, -1, bd, ii, true, some prop, nLocal + 1, nSols + 1, 0, [low]⟩ : OaSt (Cvx.Pt prob) Cut)) low =
      ⟨pool ++ more, co, -1, 10 ^ 50, ii', false, some prop, nl, nSols + 1, 0, [low]⟩ := by
    rcases hbd with rfl | rfl
    · have hgap : ¬ gapOf (-1) (-4 / 3) < c.gapTol := by
        have : gapOf (-1) (-4 / 3) = 1 / 3 := by norm_num [gapOf]
        rw [this]; linarith [hg.2]
      have hlt : (-4 / 3 : ℚ) < co := by rw [hco']; linarith
      have hsame : sameInts o low (some prop) = true := by
        change (!o.differ01 low prop) = true
        rw [hd prop (by simp [ints, low, prop, pt])]
        rfl
      unfold afterGap
      dsimp only
      rw [if_neg hgap]
      unfold localSearch
      dsimp only
      rw [if_pos ⟨rfl, h1, h2⟩, hmilp (pool ++ more) (by simp) co 1 hlt]
      dsimp only
      rw [max_self, if_pos ⟨hlt, hsame⟩]
      exact ⟨_, _, rfl⟩
    · have hgap : gapOf (-1) (10 ^ 200) < c.gapTol := by
        have : gapOf (-1) (10 ^ 200) < 0 := by norm_num [gapOf]
        linarith [hg.1]
      unfold afterGap
      dsimp only
      rw [if_pos hgap]
      simp only [localSearch, Bool.false_eq_true, false_and, if_false]
      exact ⟨_, _, rfl⟩
  obtain ⟨ii', nl, hn3⟩ := hn3
  have hp : oaPass o c ⟨pool, cut0, cut0, -4 / 3, true, true, some prop, nLocal + 1, nSols, 0, []⟩ =
      some (true, ⟨pool ++ more, co, -1, 10 ^ 50, ii', false, some prop, nl, nSols + 1, 1, [low]⟩) := by
    unfold oaPass
    dsimp only
    rw [hnl, hn1, Option.bind_some]
    dsimp only
    rw [hn2, Option.map_some]
    simp only [hl, Bool.false_eq_true, if_false]
    rw [hn3]
  refine ⟨⟨pool ++ more, co, -1, 10 ^ 50, ii', false, some prop, nl, nSols + 1, 1, [low]⟩, ?_, rfl, rfl⟩
  unfold performOa
  rw [hi0]
  simp [oaIter, hp]

/-- **C312 (refuted).** B-OA then ends with that point as its solution, whatever the node selection, the gaps, the options and the other solvers are, and without a box reported as given up: the answer is
"optimal, -1" for a problem with the optimum -5/4. -/
theorem boa_suboptimal {σ : Type} {T : Bab.Search.Tree σ} {ready : σ → Prop} (hT : Lawful T ready) (w : Qg.World (Cvx.Pt prob) Cut) (opt : Qg.Opt) (hdecr : 0 ≤ opt.decr) (g : Gaps) (m : ℕ)
    (o : Oracles (Cvx.Pt prob) Cut) (dual0 : ℕ → ℚ) (dual : Cvx.Pt prob → ℕ → ℕ → ℚ) (theta0 theta : ℚ) (lp0 lp : Bool)
    (hc : o.cuts = fun xh x k => Cvx.cutsAt prob (dual x k) none theta lp xh) (hr : ∀ cs ∈ [pool, pool ++ more], RightOn o cs) (hnlp : RightNlp o)
    (hd : ∀ z, ints z = ints low → o.differ01 low z = false) (hl : ∀ k, o.late k = false) (c : OaCfg) (he : 0 < c.eps ∧ c.eps < 1 / 3) (hg : 0 < c.gapTol ∧ c.gapTol ≤ 1 / 3)
    (dmax cut0 : ℚ) (hm : 4 / 3 ≤ dmax) (h0 : -1 < cut0) (nLocal nSols : ℕ) (h1 : nLocal + 1 < c.maxLocal) (h2 : nSols + 1 < c.maxSols) (n : ℕ)
    (hhe : w.heur = fun b _ _ => Cvx.oaHeur (fun y => prob.F y.1) [(0, 1)] (Cvx.oaEnd (performOa o c dmax (n + 2) (Cvx.cutsAt prob dual0 none theta0 lp0 relax) cut0 nLocal nSols)) b)
    (hqu : w.quit = fun b _ v => Cvx.oaQuit (fun y => prob.F y.1) [(0, 1)] cut0 (Cvx.oaEnd (performOa o c dmax (n + 2) (Cvx.cutsAt prob dual0 none theta0 lp0 relax) cut0 nLocal nSols)) b v) :
    (∃ st, Qg.search T w opt cut0 g m (Cvx.cutsAt prob dual0 none theta0 lp0 relax) [(0, 1)] = .done st ∧ st.inc = some (-1, low) ∧ st.lost = []) ∧
      Cvx.Feas prob best ∧ Whole (ints best) ∧ prob.F best.1 = -5 / 4 := by
  obtain ⟨t, t1, t2, t3⟩ := declared_solved o dual0 dual theta0 theta lp0 lp hc hr hnlp hd hl c he hg dmax cut0 hm h0 nLocal nSols h1 h2 n
  have hs : Cvx.oaSol (fun y : Cvx.Pt prob => prob.F y.1) t = some (-1, low) := by
    unfold Cvx.oaSol
    rw [t3]
    have : prob.F low.1 = -1 := optimum.2.1.2
    simp [this]
  rw [t1] at hhe hqu
  have hq : w.quit [(0, 1)] (Cvx.cutsAt prob dual0 none theta0 lp0 relax) cut0 = some (some (-1, low)) := by rw [hqu]; simp [Cvx.oaQuit, Cvx.oaEnd, t2, hs]
  have hh : ∀ rows v, w.heur [(0, 1)] rows v = some (-1, low) := by intro rows v; rw [hhe]; simp [Cvx.oaHeur, Cvx.oaEnd, hs]
  obtain ⟨st, s1, s2, s3⟩ := Cvx.quit_root hT w opt cut0 g m _ [(0, 1)] _ hq hh hdecr
  refine ⟨⟨st, s1, s2, s3⟩, optimum.1.1, ?_, optimum.1.2⟩
  intro a ha
  have : a = 1 := by simpa [ints, best, pt] using ha
  exact ⟨1, by simp [this]⟩

/-- Right solvers for this problem. -/
def exO : Oracles (Cvx.Pt prob) Cut where
  milp := fun _ _ _ => ⟨-4 / 3, some prop⟩
  nlp := fun x _ => if x.1 0 = 0 then ⟨true, -1, low⟩ else ⟨true, -5 / 4, best⟩
  cuts := fun xh _ _ => Cvx.cutsAt prob (fun _ => 0) none 0 false xh
  lp := fun _ _ _ => ⟨true, false, -4 / 3, prop⟩
  integral := fun x => decide (x.1 0 = 0 ∨ x.1 0 = 1)
  differ := fun p q => decide (p.1 0 ≠ q.1 0)
  differ01 := fun p q => decide (1 / 10 < |p.1 0 - q.1 0|)
  late := fun _ => false

theorem ex_right : ∀ cs ∈ [pool, pool ++ more], RightOn exO cs := by
  obtain ⟨b1, b2, b3, b4, b5⟩ := milp_best
  intro cs hcs
  have hiff : ∀ z, Master cs z ↔ Master pool z := by
    intro z
    simp only [List.mem_cons, List.not_mem_nil, or_false] at hcs
    rcases hcs with rfl | rfl
    · rfl
    · exact master_more z
  have hv : ∀ z, Master cs z → z.1 prob.n ≤ prop.1 prob.n → z.1 prob.n = -4 / 3 := fun z hz hle => le_antisymm (by rw [← b3]; exact hle) (b4 z ((hiff z).mp hz))
  refine ⟨fun v k z hz hw _ hmin => ?_, fun v k z hz _ hmin => ?_⟩
  · have := hv z hz (hmin prop ((hiff _).mpr b1) b2)
    exact ⟨prop, rfl, (hiff _).mpr b1, b2, by rw [b3, this], this.symm⟩
  · have := hv z hz (hmin prop ((hiff _).mpr b1))
    exact ⟨rfl, rfl, this.symm⟩

theorem ex_right_nlp : RightNlp exO := by
  obtain ⟨⟨o1, o2⟩, ⟨l1, l2⟩, -, -, o5, l6⟩ := optimum
  intro x k z hw hz hi hmin
  obtain ⟨a, ha⟩ := hw (x.1 0) (by simp [ints])
  obtain ⟨⟨c1, c2⟩, -⟩ := cols x
  have k1 : 0 ≤ a := by rw [ha] at c1; exact_mod_cast c1
  have k2 : a ≤ 1 := by rw [ha] at c2; exact_mod_cast c2
  have hz0 : z.1 0 = x.1 0 := by simpa [ints] using hi
  interval_cases a
  · have hx : x.1 0 = 0 := by simpa using ha
    have h0 : ints z = [0] := by simp [ints, hz0, hx]
    obtain ⟨e1, e2⟩ := l6 z hz h0
    refine ⟨by simp [exO, hx], ?_, ?_, ?_⟩
    · simp only [exO, hx, if_true, prob]
      rw [e1, hz0, hx]; norm_num
    · simpa [exO, hx] using l1
    · simp [exO, hx, ints, low, pt]
  · have hx : x.1 0 = 1 := by simpa using ha
    have hb : ints best = ints x := by simp [ints, hx, best, pt]
    have := hmin best o1 hb
    have h5 := o5 z hz (by intro q hq; exact ⟨1, by have : q = z.1 0 := by simpa [ints] using hq
                                                    rw [this, hz0, hx]; simp⟩)
    refine ⟨by simp [exO, hx], ?_, ?_, ?_⟩
    · have e : (exO.nlp x k).obj = -5 / 4 := by simp [exO, hx]
      rw [e]
      rw [o2] at this
      exact le_antisymm h5 this
    · simpa [exO, hx] using o1
    · simp [exO, hx, ints, best, pt]

theorem ex_same : ∀ z, ints z = ints low → exO.differ01 low z = false := by
  intro z h
  have : z.1 0 = 0 := by simpa [ints, low, pt] using h
  simp [exO, this, low, pt]

/-- All assumptions are met: there are right solvers. -/
example : ∃ t, performOa exO ⟨1 / 10 ^ 5, 1 / 10 ^ 4, 100, 100⟩ (10 ^ 200) 2 (Cvx.cutsAt prob (fun _ => 0) none 0 false relax) (10 ^ 50) 0 0 = some (.inr t) ∧ t.bound = 10 ^ 50 ∧ t.found = [low] :=
  declared_solved exO (fun _ => 0) (fun _ _ _ => 0) 0 0 false false rfl ex_right ex_right_nlp ex_same (fun _ => rfl) _ (by norm_num) (by norm_num) _ _ (by norm_num) (by norm_num) 0 0 (by norm_num)
    (by norm_num) 0

/-! ## B-QG -/

/-- **C312 (refuted).** B-QG loses the optimum of the same problem when the LP solver returns the vertex with `y = 0` of the optimal edge at the root (`milp_best`: an optimal solution of the LP with the
first cuts, and also with the new ones): the root is dropped and the search ends with the value -1. -/
theorem qg_suboptimal {σ : Type} {T : Bab.Search.Tree σ} {ready : σ → Prop} (hT : Lawful T ready) (w : Qg.World (Cvx.Pt prob) Cut) (opt : Qg.Opt)
    (he : 0 < opt.eps ∧ opt.eps < 1 / 3) (hp : 2 ≤ opt.passes) (ho : opt.oaType = true) (g : Gaps) (m : ℕ) (dual0 : ℕ → ℚ) (dual : Cvx.Pt prob → ℕ → ℚ) (theta0 theta : ℚ) (lp0 lp : Bool) (cut0 : ℚ)
    (h0 : -1 < cut0) (hi : w.ints = ints) (ht : 0 ≤ w.tol) (hc : w.oa = fun xh x => Cvx.cutsAt prob (dual x) none theta lp xh) (hn : w.nlp prop = ⟨true, -1, low⟩)
    (hl : ∀ cs ∈ [pool, pool ++ more], ∀ v, -4 / 3 < v → w.lp [(0, 1)] cs v = ⟨true, false, -4 / 3, prop⟩)
    (hex : ∀ b rows, w.extra b rows = []) (hqu : ∀ b rows v, w.quit b rows v = none) (hhe : ∀ b rows v, w.heur b rows v = none) :
    (∃ st, Qg.search T w opt cut0 g m (Cvx.cutsAt prob dual0 none theta0 lp0 relax) [(0, 1)] = .done st ∧ st.inc = some (-1, low) ∧ st.lost = [[(0, 1)]]) ∧
      Cvx.Feas prob best ∧ Whole (ints best) ∧ prob.F best.1 = -5 / 4 := by
  rw [(cuts_eq dual0 theta0 lp0).1]
  change (∃ st, Qg.search T w opt cut0 g m pool [(0, 1)] = _ ∧ _) ∧ _
  have hwb : Whole (ints best) := by
    intro a ha
    have : a = 1 := by simpa [ints, best, pt] using ha
    exact ⟨1, by simp [this]⟩
  refine ⟨?_, optimum.1.1, hwb, optimum.1.2⟩
  have hprop : w.ints prop = [0] := by rw [hi]; simp [ints, prop, pt]
  have hlow : w.ints low = [0] := by rw [hi]; simp [ints, low, pt]
  have hcands : cands w.tol [(0, 1)] [0] = [] := by
    simp [cands, fractional, clamp, ht]
  obtain ⟨co, hco⟩ : ∃ co, co = newCutoff opt.eps (-1) := ⟨_, rfl⟩
  have hco' : co = -1 - opt.eps := by rw [hco]; unfold newCutoff; rw [if_neg (by norm_num)]; ring
  have hlt : (-4 / 3 : ℚ) < co := by rw [hco']; linarith
  have hpass : fcPass (w.oracles [(0, 1)] pool) opt.eps opt.maxOa opt.oaType (fcInit (10 ^ 200) 0 cut0 prop) = ⟨more, more, 2, co, 10 ^ 200, false, true, prop, 1⟩ := by
    have e1 : (w.oracles [(0, 1)] pool).nlp prop = ⟨true, -1, low⟩ := hn
    have e2 : (w.oracles [(0, 1)] pool).oa low prop = more := by
      change w.oa low prop = more
      rw [hc]
      exact (cuts_eq _ _ _).2
    have e3 : (w.oracles [(0, 1)] pool).lp more co = ⟨true, false, -4 / 3, prop⟩ := hl _ (by simp) co hlt
    have e4 : (w.oracles [(0, 1)] pool).differ01 low prop = false := by
      change Qg.differ (w.ints low) (w.ints prop) = false
      rw [hlow, hprop]
      simp [Qg.differ]
    have e5 : fcCutoff opt.eps (⟨true, -1, low⟩ : NlpAns (Cvx.Pt prob)) cut0 = co := by simp [fcCutoff, h0, hco]
    have e6 : fcGen (w.oracles [(0, 1)] pool) opt.maxOa opt.oaType (fcInit (10 ^ 200) 0 cut0 prop) = more := by
      unfold fcGen
      rw [if_pos ⟨Nat.zero_le _, ho⟩]
      change (w.oracles [(0, 1)] pool).oa ((w.oracles [(0, 1)] pool).nlp prop).pt prop = more
      rw [e1, e2]
    unfold fcPass
    rw [e6]
    simp only [fcInit, e1, e5, List.nil_append, e3]
    simp [hlt, e4, more]
  have hrun : fcRun (w.oracles [(0, 1)] pool) opt.eps opt.maxOa opt.oaType opt.passes (fcInit (10 ^ 200) 0 cut0 prop) = (true, ⟨more, more, 2, co, 10 ^ 200, false, true, prop, 1⟩) := by
    obtain ⟨q, hq⟩ : ∃ q, opt.passes = q + 2 := ⟨opt.passes - 2, by omega⟩
    rw [hq]
    unfold fcRun
    have : ((fcInit (10 ^ 200) 0 cut0 prop : FcSt (Cvx.Pt prob) Cut).isInt && (fcInit (10 ^ 200) 0 cut0 prop : FcSt (Cvx.Pt prob) Cut).feasible) = true := rfl
    rw [if_pos this, hpass]
    simp [fcRun]
  have hfound : Qg.found (w.oracles [(0, 1)] pool) opt.eps opt.maxOa opt.oaType opt.passes (fcInit (10 ^ 200) 0 cut0 prop) none = some (-1, low) := by
    obtain ⟨q, hq⟩ : ∃ q, opt.passes = q + 2 := ⟨opt.passes - 2, by omega⟩
    have e1 : (w.oracles [(0, 1)] pool).nlp prop = ⟨true, -1, low⟩ := hn
    rw [hq]
    unfold Qg.found
    have : ((fcInit (10 ^ 200) 0 cut0 prop : FcSt (Cvx.Pt prob) Cut).isInt && (fcInit (10 ^ 200) 0 cut0 prop : FcSt (Cvx.Pt prob) Cut).feasible) = true := rfl
    rw [if_pos this, hpass]
    have e5 : (fcInit (10 ^ 200) 0 cut0 prop : FcSt (Cvx.Pt prob) Cut).pt = prop := rfl
    have e6 : (fcInit (10 ^ 200) 0 cut0 prop : FcSt (Cvx.Pt prob) Cut).cutoff = cut0 := rfl
    rw [e5, e6, e1]
    simp [Qg.found, h0]
  have hcheck : Qg.check w opt [(0, 1)] pool cut0 0 = ⟨.repeated, more, some (-1, low), 2⟩ := by
    have hlt0 : (-4 / 3 : ℚ) < cut0 := by linarith
    unfold Qg.check
    rw [hl pool (by simp) cut0 hlt0]
    dsimp only
    rw [hprop, hcands, hrun, hfound]
    simp [hlt0, pickVar]
  have htreat : Qg.treat w opt [(0, 1)] pool cut0 0 = ⟨.repeated, more, some (-1, low), 2⟩ := by
    unfold Qg.treat
    rw [hqu]
    dsimp only
    rw [hex, List.append_nil, hcheck]
    rfl
  have hdone : ∀ st : Qg.St σ (Cvx.Pt prob) Cut, T.inside st.tree = [] → Qg.loop T w opt g m st = .done st := by
    intro st h
    have : T.empty st.tree = true := (hT.empty _).mpr h
    cases m <;> simp [Qg.loop, this]
  unfold Qg.search Qg.start Qg.handle
  dsimp only
  rw [htreat]
  simp only [Qg.settle, Qg.St.take, Qg.place, Option.isSome_some, if_true]
  cases hcl : T.step T.init (.clean (-1 - opt.decr)) with
  | none => exact absurd hcl (hT.cleanRuns _ _)
  | some r =>
    obtain ⟨t, l⟩ := r
    have hin : T.inside t = [] := by
      have := (hT.conserve _ _ _ _ hcl).1
      rw [hT.init.1] at this
      simp only [List.flatMap_cons, List.flatMap_nil, Op.pushed, List.append_nil] at this
      have := this.eq_nil
      simp only [List.append_eq_nil_iff] at this
      exact this.1.1
    simp only [hhe, Qg.improve]
    exact ⟨_, hdone _ hin, rfl, rfl⟩

/-- A world for this problem: the LP solver returns the vertex with `y = 0`. -/
def exW : Qg.World (Cvx.Pt prob) Cut where
  ints := ints
  lp := fun _ _ _ => ⟨true, false, -4 / 3, prop⟩
  nlp := fun x => exO.nlp x 0
  oa := fun xh _ => Cvx.cutsAt prob (fun _ => 0) none 0 false xh
  benders := fun _ => []
  extra := fun _ _ => []
  heur := fun _ _ _ => none
  quit := fun _ _ _ => none
  tol := 1 / 10 ^ 6
  choose := fun _ => 0
  upFirst := fun _ => false
  guess := fun _ => 0
  picks := fun _ => default

/-- All assumptions of `qg_suboptimal` are met. -/
example : ∃ st, Qg.search (diveTree false (10 ^ 50)) exW ⟨1 / 10 ^ 5, 0, 100, true, 6⟩ (10 ^ 50) ⟨0, 0⟩ 10 (Cvx.cutsAt prob (fun _ => 0) none 0 false relax) [(0, 1)] = .done st ∧ st.inc = some (-1, low) ∧
    st.lost = [[(0, 1)]] :=
  (qg_suboptimal (diveTree_lawful false (10 ^ 50)) exW ⟨1 / 10 ^ 5, 0, 100, true, 6⟩ (by norm_num) (by norm_num) rfl ⟨0, 0⟩ 10 (fun _ => 0) (fun _ _ => 0) 0 0 false false (10 ^ 50) (by norm_num) rfl
    (by norm_num [exW]) rfl (by simp [exW, exO, prop, pt]) (fun _ _ _ _ => rfl) (fun _ _ => rfl) (fun _ _ _ => rfl) (fun _ _ _ => rfl)).1

/-- All assumptions of `boa_suboptimal` are met. -/
example : ∃ (w : Qg.World (Cvx.Pt prob) Cut) (st : _), Qg.search (diveTree false (10 ^ 50)) w ⟨1 / 10 ^ 5, 0, 100, true, 6⟩ (10 ^ 50) ⟨0, 0⟩ 10 (Cvx.cutsAt prob (fun _ => 0) none 0 false relax) [(0, 1)] = .done st ∧
    st.inc = some (-1, low) ∧ st.lost = [] :=
  ⟨{ exW with heur := _, quit := _ }, (boa_suboptimal (diveTree_lawful false (10 ^ 50)) _ ⟨1 / 10 ^ 5, 0, 100, true, 6⟩ (by norm_num) ⟨0, 0⟩ 10 exO (fun _ => 0) (fun _ _ _ => 0) 0 0 false false rfl ex_right
    ex_right_nlp ex_same (fun _ => rfl) ⟨1 / 10 ^ 5, 1 / 10 ^ 4, 100, 100⟩ (by norm_num) (by norm_num) (10 ^ 200) (10 ^ 50) (by norm_num) (by norm_num) 0 0 (by norm_num) (by norm_num) 0 rfl rfl).1⟩

end Verif.Dec.Degen

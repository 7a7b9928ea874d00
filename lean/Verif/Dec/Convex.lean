import Verif.Dec.QuesadaProps
import Verif.Dec.OaLoop
import Verif.Oa.Exact
/-!
# C306, C307: B-QG and B-OA on convex problems with the cuts the interface generates

`Dec/QuesadaProps.lean` and `Dec/OaLoop.lean` prove the two algorithms right for cuts that are assumed to be valid and to exclude the integers they were made for.  Here the cuts are those of
`getOuterApproximation` (`Oa/Model.lean`), the problem is convex, and both assumptions are proved.

Points carry the objective variable at index `n` and are within the column bounds (all solvers called respect them).
-/
namespace Verif.Dec.Cvx
open Verif.Oa Verif.Div Verif.Bab.Search

/-- A MINLP as the interface sees it: tolerances, column bounds, rows (declared nonlinear, bounds, function), Jacobian triplets, objective and gradient; `vt` is the threshold for silent
removal in the objective cut (BonOsiTMINLPInterface.cpp:2066-2077), `n` the index of the objective variable. -/
structure Prob where
  T : Tol
  vt : ℚ
  n : ℕ
  cl : ℕ → ℚ
  cu : ℕ → ℚ
  m : ℕ
  nonlin : ℕ → Bool
  rl : ℕ → ℚ
  ru : ℕ → ℚ
  G : ℕ → (ℕ → ℚ) → ℚ
  jac : (ℕ → ℚ) → List (ℕ × ℕ × ℚ)
  F : (ℕ → ℚ) → ℚ
  grad : (ℕ → ℚ) → List (ℕ × ℚ)

/-- Points within the column bounds. -/
def Pt (P : Prob) : Type := { y : ℕ → ℚ // InCols P.T.infM P.cl P.cu y }

/-- The data of row `i` at `x` (BonOsiTMINLPInterface.cpp:1944-1980). -/
def rowAt (P : Prob) (dual : ℕ → ℚ) (x : Pt P) (i : ℕ) : RowData := ⟨P.nonlin i, P.rl i, P.ru i, P.G i x.1, dual i⟩

/-- The cuts of `getOuterApproximation` with objective at `x` (BonOsiTMINLPInterface.cpp:1923-2107), as called by the feasibility checker (BonOaFeasChecker.cpp:77-84) and by the OA
decomposition (BonOACutGenerator2.cpp:158-166) when the objective is declared nonlinear.  An index out of range (`none`) is excluded by `Shape`. -/
def cutsAt (P : Prob) (dual : ℕ → ℚ) (x2 : Option (Pt P)) (theta : ℚ) (logPos : Bool) (x : Pt P) : List Cut :=
  (getOa P.T P.cl P.cu x.1 ((List.range P.m).map (rowAt P dual x)) (P.jac x.1) (x2.map (fun y => y.1)) theta logPos (some (P.n, P.F x.1, P.grad x.1, P.vt))).getD []

/-! ## Specification -/

/-- `y` satisfies the rows, and its objective variable has the value of the objective. -/
def Feas (P : Prob) (y : Pt P) : Prop :=
  (∀ i < P.m, (P.ru i < P.T.infM → P.G i y.1 ≤ P.ru i) ∧ (-P.T.infM < P.rl i → P.rl i ≤ P.G i y.1)) ∧ P.F y.1 = y.1 P.n

/-- The relaxation as a minimisation problem. -/
def minlp (P : Prob) : Minlp (Pt P) := ⟨Feas P, fun y => P.F y.1⟩

/-- The first-order expansion of row `i` at `x`, in `y`. -/
def expand (P : Prob) (i : ℕ) (x y : Pt P) : ℚ := P.G i x.1 + lin (rowEntries (P.jac x.1) i) x.1 y.1

/-- Sane tolerances, and a Jacobian of rows that exist. -/
structure Shape (P : Prob) : Prop where
  inf : 0 < P.T.infM
  relax : 0 ≤ P.T.relax
  rows : ∀ x : Pt P, ∀ t ∈ P.jac x.1, t.1 < P.m

/-- A convex problem: nonlinear rows are convex if bounded above and concave if bounded below, the objective is convex.  At the points `L` where it is linearised no nonzero derivative is
below the thresholds for silent removal. -/
structure Convex (P : Prob) (L : Pt P → Prop) : Prop extends Shape P where
  up : ∀ i < P.m, P.nonlin i = true → P.ru i < P.T.infM → ∀ x y : Pt P, expand P i x y ≤ P.G i y.1
  lo : ∀ i < P.m, P.nonlin i = true → -P.T.infM < P.rl i → ∀ x y : Pt P, P.G i y.1 ≤ expand P i x y
  obj : ∀ x y : Pt P, P.F x.1 + lin (P.grad x.1) x.1 y.1 ≤ P.F y.1
  jacBig : ∀ x, L x → ∀ t ∈ P.jac x.1, t.2.2 = 0 ∨ P.T.vt ≤ |t.2.2|
  gradBig : ∀ x, L x → ∀ e ∈ P.grad x.1, e.2 = 0 ∨ P.vt ≤ |e.2|

/-- The cuts at the points `L` are exact: right-hand sides are not relaxed, no nonzero derivative is small, no sum runs into the infinity value. -/
structure Exact (P : Prob) (L : Pt P → Prop) : Prop where
  tols : 0 < P.T.tiny ∧ 0 < P.T.vt ∧ 0 < P.vt ∧ P.T.infM ≤ P.T.inf
  relax : P.T.relax = 0
  jacBig : ∀ x, L x → ∀ t ∈ P.jac x.1, t.2.2 = 0 ∨ P.T.tiny ≤ |t.2.2|
  gradBig : ∀ x, L x → ∀ e ∈ P.grad x.1, e.2 = 0 ∨ P.T.tiny ≤ |e.2|
  upFin : ∀ i < P.m, P.ru i < P.T.infM → ∀ x, L x → ∀ p, p <+: rowEntries (P.jac x.1) i → P.ru i - P.G i x.1 + act p x.1 < P.T.inf
  loFin : ∀ i < P.m, -P.T.infM < P.rl i → ∀ x, L x → ∀ p, p <+: rowEntries (P.jac x.1) i → -P.T.inf < P.rl i - P.G i x.1 + act p x.1
  objFin : ∀ x, L x → act (P.grad x.1) x.1 - P.F x.1 < P.T.inf

/-- `z` satisfies the linear rows, and the expansion at `x` of the nonlinear rows on the sides that are linearised. -/
def Linearised (P : Prob) (dual : ℕ → ℚ) (x z : Pt P) : Prop :=
  ∀ i < P.m, (P.nonlin i = false → InRow P.T.infM (rowAt P dual x i) (P.G i z.1)) ∧
    (P.nonlin i = true → (UsesUp P.T (rowAt P dual x i) → expand P i x z ≤ P.ru i) ∧ (UsesLo P.T (rowAt P dual x i) → P.rl i ≤ expand P i x z))

/-! ## The cuts -/

theorem mem_rowEntries {jac : List (ℕ × ℕ × ℚ)} {i : ℕ} {e : ℕ × ℚ} (h : e ∈ rowEntries jac i) : (i, e) ∈ jac := by
  unfold rowEntries at h
  obtain ⟨t, ht, rfl⟩ := List.mem_map.mp h
  obtain ⟨h1, h2⟩ := List.mem_filter.mp ht
  have : t.1 = i := by simpa using h2
  rw [← this]; exact h1

theorem silent_none {tiny vt : ℚ} {es : List (ℕ × ℚ)} (x y : ℕ → ℚ) (h : ∀ e ∈ es, e.2 = 0 ∨ vt ≤ |e.2|) : silent tiny vt es x y ≤ 0 := by
  unfold silent
  induction es with
  | nil => simp
  | cons e es ih =>
    rw [List.map_cons, List.sum_cons]
    have h1 := ih (fun e' he => h e' (List.mem_cons_of_mem _ he))
    have h2 : (if |e.2| < tiny ∧ |e.2| < vt then |e.2| * |y e.1 - x e.1| else 0) ≤ 0 := by
      split
      · rename_i hc
        rcases h e List.mem_cons_self with h0 | h0
        · rw [h0]; simp
        · exact absurd hc.2 (not_lt.mpr h0)
      · exact le_rfl
    linarith

theorem row_get (P : Prob) (dual : ℕ → ℚ) (x : Pt P) (i : ℕ) (r : RowData) :
    ((List.range P.m).map (rowAt P dual x))[i]? = some r ↔ i < P.m ∧ r = rowAt P dual x i := by
  rw [List.getElem?_map, Option.map_eq_some_iff]
  constructor
  · rintro ⟨a, ha, rfl⟩
    obtain ⟨h1, h2⟩ := List.getElem?_eq_some_iff.mp ha
    rw [List.getElem_range] at h2
    subst h2
    exact ⟨by simpa using h1, rfl⟩
  · rintro ⟨h1, rfl⟩
    exact ⟨i, by rw [List.getElem?_range h1], rfl⟩

/-- **C306.**  Every cut the interface generates for a convex problem, whatever the duals, the second point and the thresholds, holds for every feasible point of the relaxation; and no
index is out of range. -/
theorem cuts_hold {P : Prob} {L : Pt P → Prop} (hP : Convex P L) (dual : ℕ → ℚ) (x2 : Option (Pt P)) (theta : ℚ) (lp : Bool) (x y : Pt P) (hL : L x) (hy : Feas P y) :
    getOa P.T P.cl P.cu x.1 ((List.range P.m).map (rowAt P dual x)) (P.jac x.1) (x2.map (fun y => y.1)) theta lp (some (P.n, P.F x.1, P.grad x.1, P.vt)) =
      some (cutsAt P dual x2 theta lp x) ∧ ∀ c ∈ cutsAt P dual x2 theta lp x, Sat P.T.inf c y.1 := by
  obtain ⟨cuts, h1, h2⟩ := oa_cuts_valid (T := P.T) (cl := P.cl) (cu := P.cu) (x := x.1) (y := y.1) (rows := (List.range P.m).map (rowAt P dual x)) (jac := P.jac x.1)
    (G := P.G) (F := P.F) (n := P.n) (f := P.F x.1) (grad := P.grad x.1) (vt := P.vt) (eps := 0) hP.inf hP.relax
    (by simpa using hP.rows x) x.2 y.2
    (by
      intro i r hr
      obtain ⟨hi, rfl⟩ := (row_get P dual x i r).mp hr
      exact hy.1 i hi)
    (by
      intro i r hr hn
      obtain ⟨hi, rfl⟩ := (row_get P dual x i r).mp hr
      exact ⟨fun hu => hP.up i hi hn hu.1 x y, fun hl => hP.lo i hi hn hl.1 x y⟩)
    (hP.obj x y) hy.2.le
    (by
      intro i r hr _
      exact silent_none _ _ (fun e he => hP.jacBig x hL _ (mem_rowEntries he)))
    (silent_none _ _ (hP.gradBig x hL)) (x2.map (fun y => y.1)) theta lp true
  rw [if_pos rfl] at h1
  have hc : cutsAt P dual x2 theta lp x = cuts := by unfold cutsAt; rw [h1]; rfl
  rw [hc]
  exact ⟨h1, fun c hc => by simpa [SatUpTo, Sat] using h2 c hc⟩

/-- **C306.**  Other generators that linearise the problem (ECP at points of the LP, linearisations at NLP solutions) or combine rows into cuts that hold wherever the rows do (MILP cuts of the
relaxation) are right too: what they add holds for every feasible point. -/
theorem other_cuts_hold {P : Prob} {L : Pt P → Prop} (hP : Convex P L) (rows : List Cut) (hrows : ∀ c ∈ rows, ∀ y, Feas P y → Sat P.T.inf c y.1) (new : List Cut)
    (hnew : ∀ c ∈ new, (∃ dual x2 theta lp x, L x ∧ c ∈ cutsAt P dual x2 theta lp x) ∨ ∀ y, Feas P y → (∀ d ∈ rows, Sat P.T.inf d y.1) → Sat P.T.inf c y.1) :
    ∀ c ∈ new, ∀ y, Feas P y → Sat P.T.inf c y.1 := by
  intro c hc y hy
  rcases hnew c hc with ⟨dual, x2, theta, lp, x, hx, h⟩ | h
  · exact (cuts_hold hP dual x2 theta lp x y hx hy).2 c h
  · exact h y hy (fun d hd => hrows d hd y hy)

theorem act_filter (es : List (ℕ × ℚ)) (x : ℕ → ℚ) : act (es.filter (fun e => e.2 ≠ 0)) x = act es x := by
  induction es with
  | nil => rfl
  | cons e es ih =>
    by_cases he : e.2 = 0
    · rw [List.filter_cons, if_neg (by simpa using he), ih]; simp [act, he]
    · rw [List.filter_cons, if_pos (by simpa using he)]
      simp only [act, List.map_cons, List.sum_cons] at *
      rw [ih]

theorem lin_act (es : List (ℕ × ℚ)) (x y : ℕ → ℚ) : lin es x y = act es y - act es x := by
  induction es with
  | nil => simp [lin, act]
  | cons e es ih =>
    simp only [lin, act, List.map_cons, List.sum_cons] at *
    rw [ih]; ring

theorem relax_zero {T : Tol} (h : T.relax = 0) (c : Cut) : relaxRhs T c = c := by
  unfold relaxRhs
  rw [h]
  simp

/-- **C306.**  Without a second point and with exact cuts, a point satisfies all cuts made at `x` only if it satisfies the expansions of the nonlinear rows on the sides used, and its
objective variable is not below the expansion of the objective. -/
theorem cuts_mean {P : Prob} {L : Pt P → Prop} (hS : Shape P) (hE : Exact P L) (dual : ℕ → ℚ) (theta : ℚ) (lp : Bool) (x z : Pt P) (hL : L x) (h : ∀ c ∈ cutsAt P dual none theta lp x, Sat P.T.inf c z.1) :
    (∀ i < P.m, P.nonlin i = true → (UsesUp P.T (rowAt P dual x i) → expand P i x z ≤ P.ru i) ∧ (UsesLo P.T (rowAt P dual x i) → P.rl i ≤ expand P i x z)) ∧
    P.F x.1 + lin (P.grad x.1) x.1 z.1 ≤ z.1 P.n := by
  have hj : ∀ t ∈ P.jac x.1, t.1 < ((List.range P.m).map (rowAt P dual x)).length := by simpa using hS.rows x
  have hrows := oa_rows_exact (T := P.T) (cl := P.cl) (cu := P.cu) (x := x.1) hj theta lp
  have hall := (oa_exact (T := P.T) (cl := P.cl) (cu := P.cu) (x := x.1) (rows := (List.range P.m).map (rowAt P dual x)) (jac := P.jac x.1) none theta lp).2 P.n (P.F x.1)
    (P.grad x.1) P.vt _ hrows
  have hc : cutsAt P dual none theta lp x = (nlRows ((List.range P.m).map (rowAt P dual x)) 0).map (fun p => relaxRhs P.T (rowOa P.T P.cl P.cu x.1 p.1 (rowEntries (P.jac x.1) p.2))) ++
      [objOa P.T P.vt P.cl P.cu x.1 P.n (P.F x.1) (P.grad x.1)] := by
    unfold cutsAt
    rw [Option.map_none, hall]
    simp
  rw [hc] at h
  refine ⟨fun i hi hn => ?_, ?_⟩
  · have hs := h (rowOa P.T P.cl P.cu x.1 (rowAt P dual x i) (rowEntries (P.jac x.1) i)) (by
      refine List.mem_append_left _ (List.mem_map.mpr ⟨(rowAt P dual x i, i), ?_, relax_zero hE.relax _⟩)
      unfold nlRows
      refine List.mem_filter.mpr ⟨List.mem_zipIdx_iff_getElem?.mpr ?_, hn⟩
      exact (row_get P dual x i _).mpr ⟨hi, rfl⟩)
    obtain ⟨s1, s2, s3⟩ := row_cut_support (T := P.T) (cl := P.cl) (cu := P.cu) (x := x.1) (r := rowAt P dual x i) (es := rowEntries (P.jac x.1) i) hE.tols.1 hE.tols.2.1
      (fun e he => (hE.jacBig x hL _ (mem_rowEntries he)).symm)
    have hco : ∀ y, act (rowOa P.T P.cl P.cu x.1 (rowAt P dual x i) (rowEntries (P.jac x.1) i)).co y = act (rowEntries (P.jac x.1) i) y := by
      intro y; rw [s1, act_filter]
    obtain ⟨h1, h2⟩ := hs
    rw [hco] at h1 h2 s2 s3
    unfold expand
    rw [lin_act]
    constructor
    · intro hu
      have hf := hE.upFin i hi hu.1 x hL
      have e := s2 hu hf
      have hb := hf _ (List.prefix_refl _)
      change _ = P.G i x.1 - P.ru i at e
      rcases h2 with h2 | h2
      · linarith
      · linarith
    · intro hl
      have hf := hE.loFin i hi hl.1 x hL
      have e := s3 hl hf
      have hb := hf _ (List.prefix_refl _)
      change _ = P.rl i - P.G i x.1 at e
      rcases h1 with h1 | h1
      · linarith
      · linarith
  · have hs := (h (objOa P.T P.vt P.cl P.cu x.1 P.n (P.F x.1) (P.grad x.1)) (by simp)).2
    obtain ⟨o1, _, o3⟩ := objOa_exact (T := P.T) (vt := P.vt) (cl := P.cl) (cu := P.cu) (x := x.1) hS.inf hE.tols.2.2.2 P.n (P.F x.1) (P.grad x.1)
    have hk : ∀ e ∈ P.grad x.1, e.2 ≠ 0 → KeptInObj P.T P.vt P.cl P.cu e := fun e he h0 => Or.inl ((hE.gradBig x hL e he).resolve_left h0)
    have ha : ∀ (es : List (ℕ × ℚ)), (∀ e ∈ es, e.2 ≠ 0 → KeptInObj P.T P.vt P.cl P.cu e) →
        (∀ y, act (es.filter fun e => decide (KeptInObj P.T P.vt P.cl P.cu e)) y = act es y) ∧
        (es.map fun e => if KeptInObj P.T P.vt P.cl P.cu e then e.2 * x.1 e.1 else if |e.2| < P.vt then 0
          else if 0 < e.2 then e.2 * (x.1 e.1 - P.cl e.1) else e.2 * (x.1 e.1 - P.cu e.1)).sum = act es x.1 := by
      intro es
      induction es with
      | nil => intro _; simp [act]
      | cons e es ih =>
        intro hes
        obtain ⟨i1, i2⟩ := ih (fun e' he => hes e' (List.mem_cons_of_mem _ he))
        have hz : KeptInObj P.T P.vt P.cl P.cu e ∨ e.2 = 0 := by
          by_cases h0 : e.2 = 0
          · exact Or.inr h0
          · exact Or.inl (hes e List.mem_cons_self h0)
        constructor
        · intro y
          rw [List.filter_cons]
          by_cases hk : KeptInObj P.T P.vt P.cl P.cu e
          · rw [if_pos (by simpa using hk)]
            have := i1 y
            simp only [act, List.map_cons, List.sum_cons] at *
            rw [this]
          · rw [if_neg (by simpa using hk), i1 y]
            simp [act, hz.resolve_left hk]
        · rw [List.map_cons, List.sum_cons, i2]
          have : act (e :: es) x.1 = e.2 * x.1 e.1 + act es x.1 := by simp [act]
          rw [this]
          congr 1
          rcases hz with hk | h0
          · rw [if_pos hk]
          · rw [h0]; simp
    obtain ⟨a1, a2⟩ := ha _ hk
    rw [o1, o3, a2, act_append, act_single, a1 z.1] at hs
    rw [lin_act]
    have := hE.objFin x hL
    rcases hs with hs | hs <;> linarith

/-! ## B-QG -/

/-- What is left to be assumed of the LP and NLP solvers and of the other cuts in B-QG. -/
structure QgSolvers (P : Prob) (w : Qg.World (Pt P) Cut) : Prop where
  lpNone : ∀ b rows v, ¬ ((w.lp b rows v).optimal = true ∧ (w.lp b rows v).limit = false) →
    ∀ y, Feas P y → InBox b (w.ints y) → (∀ c ∈ rows, Sat P.T.inf c y.1) → v ≤ P.F y.1
  lpBound : ∀ b rows v, (w.lp b rows v).optimal = true → (w.lp b rows v).limit = false →
    ∀ y, Feas P y → InBox b (w.ints y) → (∀ c ∈ rows, Sat P.T.inf c y.1) → (w.lp b rows v).obj ≤ P.F y.1
  lpBox : ∀ b rows v, (w.lp b rows v).optimal = true → (w.lp b rows v).limit = false → InBox b (w.ints (w.lp b rows v).pt)
  benders : ∀ x y, Feas P y → ∀ c ∈ w.benders (w.nlp x).pt, Sat P.T.inf c y.1
  extra : ∀ b rows, (∀ c ∈ rows, ∀ y, Feas P y → Sat P.T.inf c y.1) → ∀ c ∈ w.extra b rows, ∀ y, Feas P y → Sat P.T.inf c y.1
  nlpInts : ∀ x, w.ints (w.nlp x).pt = (w.ints x).map (fun a => ((round a : ℤ) : ℚ))
  nlpOpt : ∀ x, (w.nlp x).optimal = true → Feas P (w.nlp x).pt ∧ (w.nlp x).obj = P.F (w.nlp x).pt.1

/-- The LP solution satisfies its rows and the linear rows of the problem, and its value is that of the objective variable. -/
def LpExact (P : Prob) (w : Qg.World (Pt P) Cut) : Prop := ∀ b rows v, (w.lp b rows v).optimal = true → (w.lp b rows v).limit = false →
  (∀ c ∈ rows, Sat P.T.inf c (w.lp b rows v).pt.1) ∧
  (∀ i < P.m, P.nonlin i = false → (P.ru i < P.T.infM → P.G i (w.lp b rows v).pt.1 ≤ P.ru i) ∧ (-P.T.infM < P.rl i → P.rl i ≤ P.G i (w.lp b rows v).pt.1)) ∧
  (w.lp b rows v).obj = (w.lp b rows v).pt.1 P.n

/-- First-order conditions at the answer of the NLP with fixed integers: when solved, no point with these integers that satisfies the linearised rows has a smaller linearised objective;
when infeasible (the answer is then that of the feasibility problem, or of the NLP solver), no point with these integers satisfies the linearised rows. -/
structure FirstOrder (P : Prob) (ints : Pt P → List ℚ) (nlp : NlpAns (Pt P)) (dual : ℕ → ℚ) : Prop where
  opt : nlp.optimal = true → ∀ z, ints z = ints nlp.pt → Linearised P dual nlp.pt z → 0 ≤ lin (P.grad nlp.pt.1) nlp.pt.1 z.1
  none : nlp.optimal = false → ∀ z, ints z = ints nlp.pt → ¬ Linearised P dual nlp.pt z

/-- **C306.**  With the cuts of the interface the assumptions of the analysis of B-QG hold for convex problems. -/
theorem right_of_convex {P : Prob} {L : Pt P → Prop} (hP : Convex P L) (w : Qg.World (Pt P) Cut) (dual : Pt P → ℕ → ℚ) (viol : Bool) (theta : ℚ) (lp : Bool)
    (hw : w.oa = fun xh x => cutsAt P (dual x) (if viol then some x else none) theta lp xh) (hL : ∀ x, L (w.nlp x).pt) (hs : QgSolvers P w) : Qg.Right w (minlp P) (fun c y => Sat P.T.inf c y.1) where
  lpNone := hs.lpNone
  lpBound := hs.lpBound
  lpBox := hs.lpBox
  oa := by
    intro x y hy c hc
    rw [hw] at hc
    exact (cuts_hold hP _ _ _ _ _ y (hL x) hy).2 c hc
  benders := hs.benders
  extra := hs.extra
  nlpInts := hs.nlpInts
  nlpOpt := hs.nlpOpt

/-- A point with the integers of an NLP that satisfies its cuts has an objective variable of at least the value of the NLP, and there is none when the NLP was not solved. -/
theorem no_return {P : Prob} {L : Pt P → Prop} (hS : Shape P) (hE : Exact P L) (ints : Pt P → List ℚ) (a : NlpAns (Pt P)) (dual : ℕ → ℚ) (theta : ℚ) (lp : Bool) (hF : FirstOrder P ints a dual)
    (hLa : L a.pt) (ho : a.optimal = true → a.obj = P.F a.pt.1) (v : ℚ) (hv : a.optimal = true → v ≤ a.obj) (z : Pt P) (hi : ints z = ints a.pt)
    (hc : ∀ c ∈ cutsAt P dual none theta lp a.pt, Sat P.T.inf c z.1)
    (hl : ∀ i < P.m, P.nonlin i = false → (P.ru i < P.T.infM → P.G i z.1 ≤ P.ru i) ∧ (-P.T.infM < P.rl i → P.rl i ≤ P.G i z.1)) : v ≤ z.1 P.n := by
  obtain ⟨h1, h2⟩ := cuts_mean hS hE dual theta lp a.pt z hLa hc
  have hL : Linearised P dual a.pt z := fun i hi' => ⟨fun hn => hl i hi' hn, fun hn => h1 i hi' hn⟩
  cases hopt : a.optimal with
  | true =>
    have := hF.opt hopt z hi hL
    have := hv hopt
    rw [ho hopt] at this
    linarith
  | false => exact absurd hL (hF.none hopt z hi)

/-- **C306.**  … and with exact cuts, exact LP solutions, a zero integer tolerance and first-order conditions at the answers of the NLP solver, the LP never comes back to the integers of an
NLP whose outer-approximation cuts it has.  (`hben`: nor to those of an NLP whose Benders cuts it has.) -/
theorem moves_of_convex {P : Prob} {L : Pt P → Prop} (hP : Convex P L) (hE : Exact P L) (w : Qg.World (Pt P) Cut) (dual : Pt P → ℕ → ℚ) (theta : ℚ) (lp : Bool)
    (hw : w.oa = fun xh x => cutsAt P (dual x) none theta lp xh) (hL : ∀ x, L (w.nlp x).pt) (hs : QgSolvers P w) (hx : LpExact P w) (ht : w.tol = 0) (hF : ∀ x, FirstOrder P w.ints (w.nlp x) (dual x))
    (hben : ∀ b rows v x, (∀ c ∈ w.benders (w.nlp x).pt, c ∈ rows) → ((w.nlp x).optimal = true → v ≤ (w.nlp x).obj) → Qg.Below w b rows v →
      w.ints (w.lp b rows v).pt ≠ w.ints (w.nlp x).pt) : Qg.Moves w := by
  intro b rows v x htr hb hnx hnl heq
  have hwhole : ∀ l : List ℚ, Near w.tol l → l = l.map (fun a => ((round a : ℤ) : ℚ)) := by
    intro l hl
    refine (List.map_id l).symm.trans (List.map_congr_left fun a ha => ?_)
    obtain ⟨k, hk⟩ := hl a ha
    rw [ht] at hk
    have : a = k := by
      have := abs_nonpos_iff.mp hk
      linarith
    rw [this, round_intCast]; rfl
  have hi : w.ints (w.lp b rows v).pt = w.ints (w.nlp x).pt := by
    rw [hs.nlpInts x, hwhole _ hnl]
    have := congrArg (List.map (fun k : ℤ => (k : ℚ))) heq
    simpa [List.map_map, Function.comp_def] using this
  rcases htr.2 with hoa | hbe
  · rw [hw] at hoa
    obtain ⟨x1, x2, x3⟩ := hx b rows v hb.1 hb.2.1
    have := no_return hP.toShape hE w.ints (w.nlp x) (dual x) theta lp (hF x) (hL x) (fun ho => (hs.nlpOpt x ho).2) v htr.1 _ hi (fun c hc => x1 c (hoa c hc)) x2
    have := hb.2.2
    rw [x3] at this
    linarith
  · exact hben b rows v x hbe htr.1 hb hi

/-- **C306.**  B-QG on a convex problem with the cuts of the interface: it ends; the best solution is one below the start cutoff; and every solution is no better than the best one by more than
Cbc's decrement, the cutoff increment of the checker or the gap (not below the start cutoff if there is none), or lies in a box that was dropped because the LP with valid rows came within 1/10 of the
integers of an NLP it has the cuts of.  Missing for the full claim: those boxes; Benders cuts and other generators are assumed to be right; the tolerances of integers, relaxation of right-hand sides
and small coefficients are zero. -/
theorem qg_convex_partial {σ : Type} {T : Bab.Search.Tree σ} {ready : σ → Prop} (hT : Lawful T ready) {P : Prob} {L : Pt P → Prop} (hP : Convex P L) (hE : Exact P L)
    (w : Qg.World (Pt P) Cut) (dual : Pt P → ℕ → ℚ) (theta : ℚ) (lp : Bool) (hw : w.oa = fun xh x => cutsAt P (dual x) none theta lp xh) (hL : ∀ x, L (w.nlp x).pt)
    (hs : QgSolvers P w) (hx : LpExact P w) (ht : w.tol = 0) (hF : ∀ x, FirstOrder P w.ints (w.nlp x) (dual x))
    (hben : ∀ b rows v x, (∀ c ∈ w.benders (w.nlp x).pt, c ∈ rows) → ((w.nlp x).optimal = true → v ≤ (w.nlp x).obj) → Qg.Below w b rows v →
      w.ints (w.lp b rows v).pt ≠ w.ints (w.nlp x).pt)
    (b0 : Box) (cut0 : ℚ) (opt : Qg.Opt) (hf : Qg.Found w (minlp P) (fun c y => Sat P.T.inf c y.1) opt.eps b0) (hd : 0 ≤ opt.decr) (h0 : 0 ≤ opt.eps) (h1 : opt.eps ≤ 1) (g : Gaps) (n : ℕ)
    (pool : List Cut) (hpool : ∀ c ∈ pool, ∀ y, Feas P y → Sat P.T.inf c y.1)
    (hp : (b0.map (fun p => (p.2 - p.1 + 1).toNat)).prod ≤ opt.passes) (hn : 2 * (2 ^ width b0 - 1) ≤ n) :
    ∃ st, Qg.search T w opt cut0 g n pool b0 = .done st ∧
      (∀ v x, st.inc = some (v, x) → v = P.F x.1 ∧ Feas P x ∧ InBox b0 (w.ints x) ∧ Whole (w.ints x) ∧ v < cut0) ∧
      (∀ b ∈ st.lost, Qg.Repeats w (minlp P) (fun c y => Sat P.T.inf c y.1) b) ∧
      ∀ y, Feas P y → InBox b0 (w.ints y) → Whole (w.ints y) → (∃ b ∈ st.lost, InBox b (w.ints y)) ∨
        (∀ v x, st.inc = some (v, x) → v - opt.decr ≤ P.F y.1 ∨ v - opt.eps * |v| ≤ P.F y.1 ∨ v - P.F y.1 < testGap g v (T.bound st.tree)) ∧ (st.inc = none → cut0 ≤ P.F y.1) := by
  have hr := right_of_convex hP w dual false theta lp (by simpa using hw) hL hs
  have hm := moves_of_convex hP hE w dual theta lp hw hL hs hx ht hF hben
  obtain ⟨st, hst⟩ := Qg.qg_finite hT w (minlp P) (fun c y => Sat P.T.inf c y.1) hr (by rw [ht]) b0 cut0 opt hf hd h0 h1 g n pool hpool hm hp hn
  obtain ⟨e1, e2, e3⟩ := Qg.qg_sound_partial hT w (minlp P) (fun c y => Sat P.T.inf c y.1) hr (by rw [ht]) b0 cut0 opt hf hd h0 h1 g n pool hpool st hst
  refine ⟨st, hst, fun v x hi => ?_, e2, fun y a b c => ?_⟩
  · obtain ⟨a1, a2, a3⟩ := e1 v x hi
    exact ⟨a1, a2.1, a2.2.1, a2.2.2, a3⟩
  · rcases e3 y ⟨a, b, c⟩ with h' | h'
    · exact Or.inl h'
    · right
      refine ⟨fun v x hi => ?_, fun hi => ?_⟩
      · rw [hi] at h'
        exact h'
      · rw [hi] at h'
        exact h'

/-- The alternatives above without decrement, increment and gap. -/
theorem exactly {v u eps : ℚ} {bd : ℚ} (he : eps = 0) (h : v - 0 ≤ u ∨ v - eps * |v| ≤ u ∨ v - u < testGap ⟨0, 0⟩ v bd) : v ≤ u := by
  rw [he] at h
  simp only [testGap, sub_zero, zero_mul, mul_zero, max_self] at h
  rcases h with h | h | h <;> linarith

/-! ## B-OA -/

/-- What is left to be assumed of the MILP, LP and NLP solvers in B-OA; `ints` are the integer variables; the comparisons with tolerances tell the proposals apart from the NLP exactly. -/
structure OaSolvers (P : Prob) (ints : Pt P → List ℚ) (o : Oracles (Pt P) Cut) : Prop where
  bound : ∀ cs v k z, (∀ c ∈ cs, Sat P.T.inf c z.1) → Feas P z → Whole (ints z) → P.F z.1 < v → (o.milp cs v k).low ≤ P.F z.1
  nlp : ∀ x k, (o.nlp x k).optimal = true → (Feas P (o.nlp x k).pt ∧ Whole (ints (o.nlp x k).pt)) ∧ P.F (o.nlp x k).pt.1 = (o.nlp x k).obj
  milpSol : ∀ cs v k z, (o.milp cs v k).sol = some z → (∀ c ∈ cs, Sat P.T.inf c z.1) ∧
    (∀ i < P.m, P.nonlin i = false → (P.ru i < P.T.infM → P.G i z.1 ≤ P.ru i) ∧ (-P.T.infM < P.rl i → P.rl i ≤ P.G i z.1)) ∧ ((o.milp cs v k).low < v → z.1 P.n < v)
  lpSol : ∀ cs v k, (o.lp cs v k).optimal = true → (o.lp cs v k).limit = false → (∀ c ∈ cs, Sat P.T.inf c (o.lp cs v k).pt.1) ∧
    (∀ i < P.m, P.nonlin i = false → (P.ru i < P.T.infM → P.G i (o.lp cs v k).pt.1 ≤ P.ru i) ∧ (-P.T.infM < P.rl i → P.rl i ≤ P.G i (o.lp cs v k).pt.1)) ∧
    (o.lp cs v k).obj = (o.lp cs v k).pt.1 P.n
  differ : ∀ cs v k x, o.differ (o.nlp x k).pt (o.lp cs v k).pt = false → ints (o.lp cs v k).pt = ints (o.nlp x k).pt
  differ01 : ∀ cs v k x z, (o.milp cs v (k + 1)).sol = some z → o.differ01 (o.nlp x k).pt z = false → ints z = ints (o.nlp x k).pt

/-- The MINLP with whole integers as the loop of B-OA sees it. -/
def oaProblem (P : Prob) (ints : Pt P → List ℚ) : Problem (Pt P) Cut := ⟨fun y => Feas P y ∧ Whole (ints y), fun y => P.F y.1, fun c y => Sat P.T.inf c y.1⟩

/-- **C307.**  With the cuts of the interface the contract of the loop of B-OA holds for convex problems. -/
theorem contract_of_convex {P : Prob} {L : Pt P → Prop} (hP : Convex P L) (hE : Exact P L) (ints : Pt P → List ℚ) (o : Oracles (Pt P) Cut) (dual : Pt P → ℕ → ℕ → ℚ) (theta : ℚ) (lp : Bool)
    (hc : o.cuts = fun xh x k => cutsAt P (dual x k) none theta lp xh) (hL : ∀ x k, L (o.nlp x k).pt) (hs : OaSolvers P ints o) (hF : ∀ x k, FirstOrder P ints (o.nlp x k) (dual x k)) : Contract o (oaProblem P ints) where
  valid := by
    intro x k c hcc z hz
    rw [hc] at hcc
    exact (cuts_hold hP _ _ _ _ _ z (hL x k) hz.1).2 c hcc
  bound := fun cs v k z h1 h2 h3 => hs.bound cs v k z h1 h2.1 h2.2 h3
  nlp := hs.nlp
  newLp := by
    intro cs v k x hv hin ho hl hlt
    by_contra hd
    have hi := hs.differ cs v k x (by simpa using hd)
    rw [hc] at hin
    obtain ⟨a1, a2, a3⟩ := hs.lpSol cs v k ho hl
    have := no_return hP.toShape hE ints (o.nlp x k) (dual x k) theta lp (hF x k) (hL x k) (fun h => (hs.nlp x k h).2.symm) v hv _ hi (fun c h => a1 c (hin c h)) a2
    rw [a3] at hlt
    linarith
  newMilp := by
    intro cs v k x z hv hin hz hlt
    by_contra hd
    have hi := hs.differ01 cs v k x z hz (by simpa using hd)
    rw [hc] at hin
    obtain ⟨a1, a2, a3⟩ := hs.milpSol cs v (k + 1) z hz
    have := no_return hP.toShape hE ints (o.nlp x k) (dual x k) theta lp (hF x k) (hL x k) (fun h => (hs.nlp x k h).2.symm) v hv z hi (fun c h => a1 c (hin c h)) a2
    have := a3 hlt
    linarith

/-- **C307.**  One call of the OA decomposition on a convex problem with the cuts of the interface: at every moment no feasible point below the cutoff is better than the bound, except within
the allowed gap; everything handed over is feasible.  Missing for the full claim: zero relaxation of right-hand sides and no small coefficients; the tolerances of the comparisons on integers are
assumed never to confuse different proposals. -/
theorem oa_convex_partial {P : Prob} {L : Pt P → Prop} (hP : Convex P L) (hE : Exact P L) (ints : Pt P → List ℚ) (o : Oracles (Pt P) Cut) (dual : Pt P → ℕ → ℕ → ℚ) (theta : ℚ) (lp : Bool)
    (hc : o.cuts = fun xh x k => cutsAt P (dual x k) none theta lp xh) (hL : ∀ x k, L (o.nlp x k).pt) (hs : OaSolvers P ints o) (hF : ∀ x k, FirstOrder P ints (o.nlp x k) (dual x k))
    (c : OaCfg) (dmax : ℚ) (n : ℕ) (cuts : List Cut) (cutoff : ℚ) (nLocal nSols : ℕ)
    (hcuts : ∀ k ∈ cuts, ∀ y, Feas P y → Whole (ints y) → Sat P.T.inf k y.1) (hd : ∀ y, Feas P y → Whole (ints y) → -dmax ≤ P.F y.1)
    (r : OaSt (Pt P) Cut ⊕ OaSt (Pt P) Cut) (t : OaSt (Pt P) Cut) (h : performOa o c dmax n cuts cutoff nLocal nSols = some r) (ht : t = r.elim id id) :
    (∀ y, Feas P y → Whole (ints y) → P.F y.1 < t.cutoff → t.bound ≤ P.F y.1 ∨ t.ub - slack c.gapTol t.ub < P.F y.1) ∧
    (∀ x ∈ t.found, (Feas P x ∧ Whole (ints x)) ∧ t.ub ≤ P.F x.1) ∧ t.ub ≤ cutoff ∧ (t.ub < cutoff → ∃ x ∈ t.found, P.F x.1 = t.ub) ∧
    (t.cutoff ≤ t.bound → ∀ y, Feas P y → Whole (ints y) → t.cutoff ≤ P.F y.1 ∨ t.ub - slack c.gapTol t.ub < P.F y.1) := by
  have hK := contract_of_convex hP hE ints o dual theta lp hc hL hs hF
  obtain ⟨h1, h2, h3⟩ := oa_sound o c (oaProblem P ints) hK dmax n cuts cutoff nLocal nSols (fun k hk z hz => hcuts k hk z hz.1 hz.2) (fun z hz => hd z hz.1 hz.2) r t h ht
  refine ⟨fun y a b => h1 y ⟨a, b⟩, h2, ?_, ?_, ?_⟩
  · rcases h3 with h3 | h3
    · exact h3.2.1.le
    · exact h3.2.2.1
  · intro hlt
    rcases h3 with h3 | h3
    · rw [h3.2.1] at hlt; exact absurd hlt (lt_irrefl _)
    · exact h3.2.2.2
  · intro hb y a b
    exact oa_fathom o c (oaProblem P ints) hK dmax n cuts cutoff nLocal nSols (fun k hk z hz => hcuts k hk z hz.1 hz.2) (fun z hz => hd z hz.1 hz.2) r t h ht hb y ⟨a, b⟩

/-! ## A case that meets the assumptions

Minimise the integer `y ∈ [0, 5]` with `(y - 3)^2 ≤ 4`; the objective variable has index 1. -/

/-- The problem. -/
def exP : Prob where
  T := ⟨10 ^ 30, 10 ^ 20, 1 / 10 ^ 6, 1 / 10 ^ 17, 0⟩
  vt := 1 / 10 ^ 15
  n := 1
  cl := fun j => if j = 1 then -10 ^ 30 else 0
  cu := fun j => if j = 0 then 5 else if j = 1 then 10 ^ 30 else 0
  m := 1
  nonlin := fun _ => true
  rl := fun _ => -10 ^ 30
  ru := fun _ => 4
  G := fun _ y => (y 0 - 3) ^ 2
  jac := fun x => [(0, 0, 2 * (x 0 - 3))]
  F := fun y => y 0
  grad := fun _ => [(0, 1)]

/-- The value brought into the column bounds. -/
def exClamp (t : ℚ) : ℚ := max 0 (min t 5)

theorem exClamp_eq {t : ℚ} (h0 : 0 ≤ t) (h5 : t ≤ 5) : exClamp t = t := by
  unfold exClamp; rw [min_eq_left h5, max_eq_right h0]

/-- The point with `y = t` and the objective variable at its value. -/
def exPt (t : ℚ) : Pt exP := ⟨fun j => if j ≤ 1 then exClamp t else 0, by
  have h0 : 0 ≤ exClamp t := le_max_left _ _
  have h5 : exClamp t ≤ 5 := max_le (by norm_num) (min_le_right _ _)
  intro j
  rcases j with _ | _ | j
  · exact ⟨fun _ => h0, fun _ => h5⟩
  · exact ⟨fun h => absurd h (by norm_num [exP]), fun h => absurd h (by norm_num [exP])⟩
  · exact ⟨fun _ => le_rfl, fun _ => le_rfl⟩⟩

theorem ex_cols (y : Pt exP) : 0 ≤ y.1 0 ∧ y.1 0 ≤ 5 :=
  ⟨(y.2 0).1 (by norm_num [exP]), (y.2 0).2 (by norm_num [exP])⟩

theorem ex_feas (y : Pt exP) : Feas exP y ↔ (y.1 0 - 3) ^ 2 ≤ 4 ∧ y = exPt (y.1 0) := by
  have hc := ex_cols y
  constructor
  · rintro ⟨h1, h2⟩
    refine ⟨(h1 0 (by norm_num [exP])).1 (by norm_num [exP]), Subtype.ext (funext fun j => ?_)⟩
    rcases j with _ | _ | j
    · exact (exClamp_eq hc.1 hc.2).symm
    · exact (h2.symm).trans (exClamp_eq hc.1 hc.2).symm
    · have a := (y.2 (j + 2)).1 (by simp [exP])
      have b := (y.2 (j + 2)).2 (by simp [exP])
      have a' : (0 : ℚ) ≤ y.1 (j + 2) := by simpa [exP] using a
      have b' : y.1 (j + 2) ≤ 0 := by simpa [exP] using b
      exact le_antisymm b' a'
  · rintro ⟨h1, h2⟩
    refine ⟨fun i _ => ⟨fun _ => h1, fun h => absurd h (by norm_num [exP])⟩, ?_⟩
    have e0 : y.1 0 = exClamp (y.1 0) := congrFun (congrArg Subtype.val h2) 0
    have e1 : y.1 1 = exClamp (y.1 0) := congrFun (congrArg Subtype.val h2) 1
    exact e0.trans e1.symm

/-- Linear inequalities in one unknown keep intervals closed intervals. -/
def Ivl (p : ℚ → Prop) : Prop := ∀ l u, ∃ l' u' : ℚ, ∀ t, (l ≤ t ∧ t ≤ u ∧ p t) ↔ l' ≤ t ∧ t ≤ u'

theorem ivl_true {p : ℚ → Prop} (h : ∀ t, p t) : Ivl p := fun l u => ⟨l, u, fun t => by simp [h t]⟩

theorem ivl_false {p : ℚ → Prop} (h : ∀ t, ¬ p t) : Ivl p := fun l u => ⟨1, 0, fun t => by
  simp only [h t, and_false, false_iff, not_and, not_le]
  intro h1; linarith⟩

theorem ivl_and {p q : ℚ → Prop} (hp : Ivl p) (hq : Ivl q) : Ivl (fun t => p t ∧ q t) := by
  intro l u
  obtain ⟨l1, u1, h1⟩ := hp l u
  obtain ⟨l2, u2, h2⟩ := hq l1 u1
  refine ⟨l2, u2, fun t => ?_⟩
  rw [← h2 t, ← and_assoc (a := l1 ≤ t), ← h1 t]
  tauto

theorem ivl_le (a b : ℚ) : Ivl (fun t => a * t ≤ b) := by
  intro l u
  rcases lt_trichotomy a 0 with h | h | h
  · refine ⟨max l (b / a), u, fun t => ?_⟩
    rw [max_le_iff, div_le_iff_of_neg h, mul_comm t a]
    tauto
  · subst h
    by_cases hb : 0 ≤ b
    · exact ivl_true (fun t => by simpa using hb) l u
    · exact ivl_false (fun t => by simpa using hb) l u
  · refine ⟨l, min u (b / a), fun t => ?_⟩
    rw [le_min_iff, le_div_iff₀ h, mul_comm t a]

theorem ivl_or {p : ℚ → Prop} (q : Prop) (hp : Ivl p) : Ivl (fun t => q ∨ p t) := by
  by_cases h : q
  · exact ivl_true (fun _ => Or.inl h)
  · simpa [h] using hp

theorem ivl_all {α : Type} (l : List α) (p : α → ℚ → Prop) (h : ∀ a ∈ l, Ivl (p a)) : Ivl (fun t => ∀ a ∈ l, p a t) := by
  induction l with
  | nil => exact ivl_true (by simp)
  | cons a l ih =>
    have := ivl_and (h a List.mem_cons_self) (ih (fun b hb => h b (List.mem_cons_of_mem _ hb)))
    simpa using this

/-- What the LP of the example looks for: the point with `y = t` is in the box and satisfies the rows. -/
def exS (b : Box) (rows : List Cut) (t : ℚ) : Prop := (0 ≤ t ∧ t ≤ 5) ∧ InBox b [t] ∧ (t - 3) ^ 2 ≤ 4 ∧ ∀ c ∈ rows, Sat exP.T.inf c (exPt t).1

theorem act_pt (co : List (ℕ × ℚ)) {t : ℚ} (h0 : 0 ≤ t) (h5 : t ≤ 5) : act co (exPt t).1 = ((co.filter (fun e => decide (e.1 ≤ 1))).map (fun e => e.2)).sum * t := by
  induction co with
  | nil => simp [act]
  | cons e co ih =>
    have he : act (e :: co) (exPt t).1 = e.2 * (exPt t).1 e.1 + act co (exPt t).1 := by simp [act]
    rw [he, ih, List.filter_cons]
    by_cases h : e.1 ≤ 1
    · simp only [h, decide_true, if_true, List.map_cons, List.sum_cons, exPt, exClamp_eq h0 h5]; ring
    · simp only [h, decide_false, Bool.false_eq_true, if_false, exPt]; ring

theorem ex_min (b : Box) (rows : List Cut) (h : ∃ t, exS b rows t) : ∃ t, exS b rows t ∧ ∀ s, exS b rows s → t ≤ s := by
  obtain ⟨t0, ⟨h0, h5⟩, hb, hq, hr⟩ := h
  have hlen := hb.1
  obtain ⟨⟨lo, hi⟩, rfl⟩ : ∃ p, b = [p] := List.length_eq_one_iff.mp (by simpa using hlen.symm)
  have key : ∀ t, exS [(lo, hi)] rows t ↔ (max 1 (lo : ℚ) ≤ t ∧ t ≤ min 5 (hi : ℚ) ∧ ∀ c ∈ rows,
      (c.lb ≤ -exP.T.inf ∨ (-((c.co.filter (fun e => decide (e.1 ≤ 1))).map (fun e => e.2)).sum) * t ≤ -c.lb) ∧
      (exP.T.inf ≤ c.ub ∨ ((c.co.filter (fun e => decide (e.1 ≤ 1))).map (fun e => e.2)).sum * t ≤ c.ub)) := by
    intro t
    unfold exS
    rw [Qg.inBox_one]
    constructor
    · rintro ⟨⟨a1, a2⟩, ⟨a3, a4⟩, a5, a6⟩
      have : (1 : ℚ) ≤ t := by nlinarith
      refine ⟨max_le this a3, le_min a2 a4, fun c hc => ?_⟩
      obtain ⟨s1, s2⟩ := a6 c hc
      rw [act_pt c.co a1 a2] at s1 s2
      exact ⟨s1.imp id (fun h => by linarith), s2⟩
    · rintro ⟨a1, a2, a3⟩
      obtain ⟨b1, b2⟩ := max_le_iff.mp a1
      obtain ⟨b3, b4⟩ := le_min_iff.mp a2
      have b0 : 0 ≤ t := by linarith
      refine ⟨⟨b0, b3⟩, ⟨b2, b4⟩, by nlinarith, fun c hc => ?_⟩
      obtain ⟨s1, s2⟩ := a3 c hc
      unfold Sat
      rw [act_pt c.co b0 b3]
      exact ⟨s1.imp id (fun h => by linarith), s2⟩
  obtain ⟨l', u', hlu⟩ := ivl_all rows (fun c t => (c.lb ≤ -exP.T.inf ∨ (-((c.co.filter (fun e => decide (e.1 ≤ 1))).map (fun e => e.2)).sum) * t ≤ -c.lb) ∧
      (exP.T.inf ≤ c.ub ∨ ((c.co.filter (fun e => decide (e.1 ≤ 1))).map (fun e => e.2)).sum * t ≤ c.ub))
    (fun c _ => ivl_and (ivl_or _ (ivl_le _ _)) (ivl_or _ (ivl_le _ _))) (max 1 (lo : ℚ)) (min 5 (hi : ℚ))
  have e : ∀ t, exS [(lo, hi)] rows t ↔ l' ≤ t ∧ t ≤ u' := fun t => (key t).trans (hlu t)
  obtain ⟨f1, f2⟩ := (e t0).mp ⟨⟨h0, h5⟩, hb, hq, hr⟩
  exact ⟨l', (e l').mpr ⟨le_rfl, f1.trans f2⟩, fun s hs => ((e s).mp hs).1⟩

open Classical in
/-- The LP: the least `t`. -/
noncomputable def exLp (b : Box) (rows : List Cut) : LpAns (Pt exP) :=
  if h : ∃ t, exS b rows t ∧ ∀ s, exS b rows s → t ≤ s then ⟨true, false, h.choose, exPt h.choose⟩ else ⟨false, false, 0, exPt 0⟩

/-- The NLP with `y` rounded. -/
def exNlp (x : Pt exP) : NlpAns (Pt exP) :=
  ⟨decide ((((round (x.1 0) : ℤ) : ℚ) - 3) ^ 2 ≤ 4), ((round (x.1 0) : ℤ) : ℚ), exPt ((round (x.1 0) : ℤ) : ℚ)⟩

/-- The solvers and the cuts of the interface (also in the place of the Benders cuts). -/
noncomputable def exW : Qg.World (Pt exP) Cut where
  ints := fun x => [x.1 0]
  lp := fun b rows _ => exLp b rows
  nlp := exNlp
  oa := fun xh _ => cutsAt exP (fun _ => 0) none 0 false xh
  benders := fun xh => cutsAt exP (fun _ => 0) none 0 false xh
  extra := fun _ _ => []
  heur := fun _ _ _ => none
  quit := fun _ _ _ => none
  tol := 0
  choose := fun _ => 0
  upFirst := fun _ => false
  guess := fun _ => 0
  picks := fun _ _ => 0

/-- Points with a whole `y`. -/
def exL (x : Pt exP) : Prop := ∃ k : ℤ, x.1 0 = k

theorem ex_round (x : Pt exP) : (exNlp x).pt.1 0 = ((round (x.1 0) : ℤ) : ℚ) ∧ 0 ≤ ((round (x.1 0) : ℤ) : ℚ) ∧ ((round (x.1 0) : ℤ) : ℚ) ≤ 5 := by
  obtain ⟨h0, h5⟩ := ex_cols x
  obtain ⟨a, b⟩ := Qg.round_in (lo := 0) (hi := 5) (by exact_mod_cast h0) (by exact_mod_cast h5)
  have a' : (0 : ℚ) ≤ ((round (x.1 0) : ℤ) : ℚ) := by exact_mod_cast a
  have b' : ((round (x.1 0) : ℤ) : ℚ) ≤ 5 := by exact_mod_cast b
  exact ⟨exClamp_eq a' b', a', b'⟩

theorem ex_lin (x y : Pt exP) : expand exP 0 x y = (x.1 0 - 3) ^ 2 + 2 * (x.1 0 - 3) * (y.1 0 - x.1 0) := by
  simp [expand, exP, rowEntries, lin]

theorem ex_convex : Convex exP exL where
  inf := by norm_num [exP]
  relax := by norm_num [exP]
  rows := by intro x t ht; simp [exP] at ht; simp [ht, exP]
  up := by
    intro i hi _ _ x y
    have : i = 0 := by simpa [exP] using hi
    subst this
    rw [ex_lin]
    change _ ≤ (y.1 0 - 3) ^ 2
    nlinarith [sq_nonneg (y.1 0 - x.1 0)]
  lo := by intro i _ _ h; exact absurd h (by norm_num [exP])
  obj := by intro x y; simp [exP, lin]
  jacBig := by
    rintro x ⟨k, hk⟩ t ht
    have : t = (0, 0, 2 * (x.1 0 - 3)) := by simpa [exP] using ht
    subst this
    simp only [hk]
    by_cases h : k = 3
    · left; rw [h]; norm_num
    · right
      have h1 : (1 : ℚ) ≤ |(k : ℚ) - 3| := by
        have : 1 ≤ |k - 3| := Int.one_le_abs (sub_ne_zero.mpr h)
        exact_mod_cast this
      rw [abs_mul]
      norm_num [exP]
      linarith
  gradBig := by
    intro x _ e he
    have : e = (0, 1) := by simpa [exP] using he
    subst this
    right; norm_num [exP]

theorem ex_exact : Exact exP exL where
  tols := by norm_num [exP]
  relax := rfl
  jacBig := by
    rintro x ⟨k, hk⟩ t ht
    have : t = (0, 0, 2 * (x.1 0 - 3)) := by simpa [exP] using ht
    subst this
    simp only [hk]
    by_cases h : k = 3
    · left; rw [h]; norm_num
    · right
      have h1 : (1 : ℚ) ≤ |(k : ℚ) - 3| := by
        have : 1 ≤ |k - 3| := Int.one_le_abs (sub_ne_zero.mpr h)
        exact_mod_cast this
      rw [abs_mul]
      norm_num [exP]
      linarith
  gradBig := by
    intro x _ e he
    have : e = (0, 1) := by simpa [exP] using he
    subst this
    right; norm_num [exP]
  upFin := by
    intro i hi _ x _ p hp
    have : i = 0 := by simpa [exP] using hi
    subst this
    obtain ⟨h0, h5⟩ := ex_cols x
    have he : rowEntries (exP.jac x.1) 0 = [(0, 2 * (x.1 0 - 3))] := by simp [rowEntries, exP]
    rw [he] at hp
    change 4 - (x.1 0 - 3) ^ 2 + act p x.1 < 10 ^ 30
    rcases p with _ | ⟨a, p⟩
    · simp only [act, List.map_nil, List.sum_nil]
      nlinarith
    · rw [List.cons_prefix_cons] at hp
      obtain ⟨rfl, hp2⟩ := hp
      rw [List.prefix_nil.mp hp2]
      simp only [act, List.map_cons, List.map_nil, List.sum_cons, List.sum_nil]
      nlinarith
  loFin := by intro i _ h; exact absurd h (by norm_num [exP])
  objFin := by intro x _; simp [exP, act]

theorem ex_lp {b : Box} {rows : List Cut} (h : (exLp b rows).optimal = true) : ∃ t, exS b rows t ∧ (∀ s, exS b rows s → t ≤ s) ∧ (exLp b rows).obj = t ∧ (exLp b rows).pt = exPt t := by
  unfold exLp at h ⊢
  split at h
  · rename_i hh
    rw [dif_pos hh]
    exact ⟨hh.choose, hh.choose_spec.1, hh.choose_spec.2, rfl, rfl⟩
  · simp at h

theorem ex_sol {b : Box} {rows : List Cut} {y : Pt exP} (hy : Feas exP y) (hb : InBox b [y.1 0]) (hr : ∀ c ∈ rows, Sat exP.T.inf c y.1) : exS b rows (y.1 0) := by
  obtain ⟨h1, h2⟩ := (ex_feas y).mp hy
  exact ⟨ex_cols y, hb, h1, fun c hc => by rw [← h2]; exact hr c hc⟩

theorem ex_solvers : QgSolvers exP exW where
  lpNone := by
    intro b rows v h y hy hb hr
    refine absurd ?_ h
    have := ex_min b rows ⟨_, ex_sol hy hb hr⟩
    change (exLp b rows).optimal = true ∧ (exLp b rows).limit = false
    unfold exLp
    rw [dif_pos this]
    exact ⟨rfl, rfl⟩
  lpBound := by
    intro b rows v h _ y hy hb hr
    obtain ⟨t, h1, h2, h3, _⟩ := ex_lp (b := b) (rows := rows) h
    change (exLp b rows).obj ≤ y.1 0
    rw [h3]
    exact h2 _ (ex_sol hy hb hr)
  lpBox := by
    intro b rows v h _
    obtain ⟨t, h1, _, _, h4⟩ := ex_lp (b := b) (rows := rows) h
    change InBox b [(exLp b rows).pt.1 0]
    rw [h4]
    have : (exPt t).1 0 = t := exClamp_eq h1.1.1 h1.1.2
    rw [this]
    exact h1.2.1
  benders := fun x y hy => (cuts_hold ex_convex (fun _ => 0) none 0 false _ y ⟨_, (ex_round x).1⟩ hy).2
  extra := by intro b rows _ c hc; simp [exW] at hc
  nlpInts := fun x => by
    change [(exNlp x).pt.1 0] = [((round (x.1 0) : ℤ) : ℚ)]
    rw [(ex_round x).1]
  nlpOpt := by
    intro x h
    obtain ⟨r0, _, _⟩ := ex_round x
    have h' : (((round (x.1 0) : ℤ) : ℚ) - 3) ^ 2 ≤ 4 := by simpa [exW, exNlp] using h
    refine ⟨(ex_feas _).mpr ?_, r0.symm⟩
    change ((exNlp x).pt.1 0 - 3) ^ 2 ≤ 4 ∧ (exNlp x).pt = exPt ((exNlp x).pt.1 0)
    rw [r0]
    exact ⟨h', rfl⟩

theorem ex_first (x : Pt exP) : FirstOrder exP exW.ints (exW.nlp x) (fun _ => 0) where
  opt := by
    intro _ z hz _
    have hz' : z.1 0 = (exNlp x).pt.1 0 := by simpa [exW] using hz
    change 0 ≤ lin [(0, 1)] (exNlp x).pt.1 z.1
    simp [lin, hz']
  none := by
    intro h z hz hl
    have hz' : z.1 0 = (exNlp x).pt.1 0 := by simpa [exW] using hz
    have h' : ¬ (((round (x.1 0) : ℤ) : ℚ) - 3) ^ 2 ≤ 4 := by simpa [exW, exNlp] using h
    have := ((hl 0 (by norm_num [exP])).2 rfl).1 ⟨by norm_num [exP, rowAt], fun hh => absurd hh.1 (by norm_num [exP, rowAt])⟩
    rw [ex_lin] at this
    change ((exNlp x).pt.1 0 - 3) ^ 2 + 2 * ((exNlp x).pt.1 0 - 3) * (z.1 0 - (exNlp x).pt.1 0) ≤ 4 at this
    rw [hz', sub_self, mul_zero, add_zero, (ex_round x).1] at this
    exact h' this

theorem ex_lpExact : LpExact exP exW := by
  intro b rows v h _
  obtain ⟨t, h1, _, h3, h4⟩ := ex_lp (b := b) (rows := rows) h
  change (∀ c ∈ rows, Sat exP.T.inf c (exLp b rows).pt.1) ∧ _ ∧ (exLp b rows).obj = (exLp b rows).pt.1 1
  rw [h3, h4]
  exact ⟨h1.2.2.2, fun i _ hn => absurd hn (by simp [exP]), (exClamp_eq h1.1.1 h1.1.2).symm⟩

/-- `other_cuts_hold` for ECP cuts of the example made at the points 0 and 4. -/
example : ∀ c ∈ cutsAt exP (fun _ => 1) none 0 true (exPt 0) ++ cutsAt exP (fun _ => 0) (some (exPt 0)) (1 / 2) false (exPt 4), ∀ y, Feas exP y → Sat exP.T.inf c y.1 :=
  other_cuts_hold ex_convex [] (by simp) _ (by
    intro c hc
    rcases List.mem_append.mp hc with h | h
    · exact Or.inl ⟨_, _, _, _, exPt 0, ⟨0, by norm_num [exPt, exClamp]⟩, h⟩
    · exact Or.inl ⟨_, _, _, _, exPt 4, ⟨4, by norm_num [exPt, exClamp]⟩, h⟩)

/-- In the example the LP with valid rows never comes within 1/10 of the integers of a treated NLP: its value is whole. -/
theorem ex_apart (b : Box) : ¬ Qg.Repeats exW (minlp exP) (fun c y => Sat exP.T.inf c y.1) b := by
  rintro ⟨rows, v, x, hv, htr, hb, hc⟩
  obtain ⟨t, h1, h2, h3, h4⟩ := ex_lp (b := b) (rows := rows) hb.1
  obtain ⟨⟨t0, t5⟩, hbox, hq, _⟩ := h1
  have hlen := hbox.1
  obtain ⟨⟨lo, hi⟩, rfl⟩ : ∃ p, b = [p] := List.length_eq_one_iff.mp (by simpa using hlen.symm)
  obtain ⟨b1, b2⟩ := (Qg.inBox_one lo hi t).mp hbox
  have t1 : 1 ≤ t := by nlinarith
  -- the least value is the larger one of 1 and `lo`
  have hle : t ≤ ((max 1 lo : ℤ) : ℚ) := by
    have m1 : (1 : ℚ) ≤ ((max 1 lo : ℤ) : ℚ) := by exact_mod_cast le_max_left 1 lo
    have mlo : (lo : ℚ) ≤ ((max 1 lo : ℤ) : ℚ) := by exact_mod_cast le_max_right 1 lo
    by_contra hlt
    rw [not_le] at hlt
    have m0 : (0 : ℚ) ≤ ((max 1 lo : ℤ) : ℚ) := by linarith
    have m5 : ((max 1 lo : ℤ) : ℚ) ≤ 5 := by linarith
    have mq : (((max 1 lo : ℤ) : ℚ) - 3) ^ 2 ≤ 4 := by nlinarith
    have := h2 _ ⟨⟨m0, m5⟩, (Qg.inBox_one lo hi _).mpr ⟨mlo, by linarith⟩, mq, fun c hcc => hv c hcc _ ((ex_feas _).mpr (by
      have : (exPt ((max 1 lo : ℤ) : ℚ)).1 0 = ((max 1 lo : ℤ) : ℚ) := exClamp_eq m0 m5
      rw [this]
      exact ⟨mq, rfl⟩))⟩
    linarith
  have hge : ((max 1 lo : ℤ) : ℚ) ≤ t := by
    rcases max_choice 1 lo with h | h
    · rw [h]; exact_mod_cast t1
    · rw [h]; exact b1
  have ht : t = ((max 1 lo : ℤ) : ℚ) := le_antisymm hle hge
  have hpt : (exLp [(lo, hi)] rows).pt.1 0 = t := by rw [h4]; exact exClamp_eq t0 t5
  have hclose := hc 0 _ _ (show [(exNlp x).pt.1 0][0]? = some _ from rfl) (show [(exLp [(lo, hi)] rows).pt.1 0][0]? = some _ from rfl)
  rw [(ex_round x).1, hpt, ht] at hclose
  have heq : (round (x.1 0) : ℤ) = max 1 lo := by
    by_contra hne
    have h1 : 1 ≤ |(round (x.1 0) : ℤ) - max 1 lo| := Int.one_le_abs (sub_ne_zero.mpr hne)
    have h2 : (1 : ℚ) ≤ |((round (x.1 0) : ℤ) : ℚ) - ((max 1 lo : ℤ) : ℚ)| := by exact_mod_cast h1
    linarith
  have ho : (exNlp x).optimal = true := by
    simp only [exNlp, decide_eq_true_eq]
    rw [heq, ← ht]
    exact hq
  have h5 := htr.1 ho
  change v ≤ ((round (x.1 0) : ℤ) : ℚ) at h5
  rw [heq, ← ht] at h5
  have h6 := hb.2.2
  change (exLp [(lo, hi)] rows).obj < v at h6
  rw [h3] at h6
  linarith

/-- The example meets all assumptions of `qg_convex_partial`, with diving as the order of the nodes; B-QG ends with the optimum `y = 1`. -/
example : ∃ st, Qg.search (diveTree false (10 ^ 50)) exW ⟨0, 0, 100, true, 6⟩ (10 ^ 50) ⟨0, 0⟩ 62 [] [(0, 5)] = .done st ∧ ∃ x, st.inc = some (1, x) ∧ x.1 0 = 1 := by
  obtain ⟨st, h1, h2, h3, h4⟩ := qg_convex_partial (diveTree_lawful false (10 ^ 50)) ex_convex ex_exact exW (fun _ _ => 0) 0 false rfl (fun x => ⟨_, (ex_round x).1⟩) ex_solvers ex_lpExact rfl
    ex_first (by
      intro b rows v x hb hv hbel hi
      obtain ⟨a1, a2, a3⟩ := ex_lpExact b rows v hbel.1 hbel.2.1
      have := no_return ex_convex.toShape ex_exact exW.ints (exW.nlp x) (fun _ => 0) 0 false (ex_first x) ⟨_, (ex_round x).1⟩ (fun ho => (ex_solvers.nlpOpt x ho).2) v hv _ hi
        (fun c hc => a1 c (hb c hc)) a2
      have := hbel.2.2
      rw [a3] at this
      linarith) [(0, 5)] (10 ^ 50) ⟨0, 0, 100, true, 6⟩ ⟨fun b rows v u x h => by simp [exW] at h, fun b rows v s _ h => by simp [exW] at h⟩ le_rfl le_rfl
      zero_le_one ⟨0, 0⟩ 62 [] (by simp) (by simp) (by decide +kernel)
  have e1 : (exPt 1).1 0 = 1 := exClamp_eq (t := 1) (by norm_num) (by norm_num)
  have hy : Feas exP (exPt 1) := (ex_feas _).mpr (by rw [e1]; exact ⟨by norm_num, rfl⟩)
  rcases h4 (exPt 1) hy (by change InBox [(0, 5)] [(exPt 1).1 0]; rw [e1, Qg.inBox_one]; norm_num) (by
      intro a ha
      have : a = 1 := by simpa [exW, e1] using ha
      exact ⟨1, by rw [this]; simp⟩) with ⟨b, hb, _⟩ | ⟨h5, h6⟩
  · exact absurd (h3 b hb) (ex_apart b)
  · cases hi : st.inc with
    | none =>
      have := h6 hi
      change (10 : ℚ) ^ 50 ≤ (exPt 1).1 0 at this
      rw [e1] at this
      norm_num at this
    | some e =>
      obtain ⟨v, x⟩ := e
      obtain ⟨a1, a2, _⟩ := h2 v x hi
      have a3 := exactly rfl (h5 v x hi)
      change v ≤ (exPt 1).1 0 at a3
      change v = x.1 0 at a1
      rw [e1] at a3
      have a4 := ((ex_feas x).mp a2).1
      have : v = 1 := by nlinarith
      exact ⟨st, h1, x, by rw [hi, this], by rw [← a1, this]⟩

open Classical in
/-- The MILP of the example: the least whole `t` in `[0, 5]` that satisfies the rows. -/
noncomputable def exMilp (cs : List Cut) (v : ℚ) : MilpAns (Pt exP) :=
  if h : ∃ k : ℕ, exS [(0, 5)] cs k then ⟨Nat.find h, some (exPt (Nat.find h))⟩ else ⟨v, none⟩

/-- The oracles of B-OA in the example. -/
noncomputable def exO : Oracles (Pt exP) Cut where
  milp := fun cs v _ => exMilp cs v
  nlp := fun x _ => exNlp x
  cuts := fun xh _ _ => cutsAt exP (fun _ => 0) none 0 false xh
  lp := fun cs _ _ => exLp [(0, 5)] cs
  integral := fun x => decide (x.1 0 = ((round (x.1 0) : ℤ) : ℚ))
  differ := fun a z => decide (a.1 0 ≠ z.1 0)
  differ01 := fun a z => decide (1 / 10 < |a.1 0 - z.1 0|)
  late := fun _ => false

theorem ex_oa_solvers : OaSolvers exP exW.ints exO where
  bound := by
    intro cs v k z hs hz hw hlt
    have hS : exS [(0, 5)] cs (z.1 0) := ex_sol hz ((Qg.inBox_one 0 5 _).mpr (by simpa using ex_cols z)) hs
    obtain ⟨k, hk⟩ := hw (z.1 0) (by simp [exW])
    have hk0 : 0 ≤ k := by have := (ex_cols z).1; rw [hk] at this; exact_mod_cast this
    obtain ⟨m, rfl⟩ := Int.eq_ofNat_of_zero_le hk0
    have hm : z.1 0 = (m : ℚ) := by rw [hk]; simp
    rw [hm] at hS
    have hex : ∃ k : ℕ, exS [(0, 5)] cs k := ⟨m, hS⟩
    change (exMilp cs v).low ≤ z.1 0
    unfold exMilp
    rw [dif_pos hex, hm]
    classical
    have := Nat.find_min' hex hS
    have h2 : ((Nat.find hex : ℕ) : ℚ) ≤ (m : ℚ) := by exact_mod_cast this
    exact h2
  nlp := fun x k h => ⟨⟨(ex_solvers.nlpOpt x h).1, by
    intro a ha
    have : a = (exNlp x).pt.1 0 := by simpa [exW, exO] using ha
    rw [this, (ex_round x).1]
    exact ⟨_, rfl⟩⟩, (ex_round x).1⟩
  milpSol := by
    intro cs v k z h
    change (exMilp cs v).sol = some z at h
    change _ ∧ _ ∧ ((exMilp cs v).low < v → z.1 1 < v)
    unfold exMilp at h ⊢
    by_cases hex : ∃ k : ℕ, exS [(0, 5)] cs k
    · rw [dif_pos hex] at h ⊢
      classical
      have hS := Nat.find_spec hex
      simp only [Option.some.injEq] at h
      subst h
      refine ⟨hS.2.2.2, fun i _ hn => absurd hn (by simp [exP]), fun hlt => ?_⟩
      have : (exPt (Nat.find hex)).1 1 = Nat.find hex := exClamp_eq hS.1.1 hS.1.2
      rw [this]
      exact hlt
    · rw [dif_neg hex] at h
      simp at h
  lpSol := fun cs v _ h1 h2 => ex_lpExact [(0, 5)] cs v h1 h2
  differ := by
    intro cs v k x h
    have : (exNlp x).pt.1 0 = (exLp [(0, 5)] cs).pt.1 0 := by simpa [exO] using h
    change [(exLp [(0, 5)] cs).pt.1 0] = [(exNlp x).pt.1 0]
    rw [this]
  differ01 := by
    intro cs v k x z hz h
    have h' : |(exNlp x).pt.1 0 - z.1 0| ≤ 1 / 10 := by simpa [exO] using h
    change (exMilp cs v).sol = some z at hz
    unfold exMilp at hz
    by_cases hex : ∃ k : ℕ, exS [(0, 5)] cs k
    · rw [dif_pos hex] at hz
      classical
      have hS := Nat.find_spec hex
      simp only [Option.some.injEq] at hz
      subst hz
      have e : (exPt (Nat.find hex)).1 0 = Nat.find hex := exClamp_eq hS.1.1 hS.1.2
      rw [e, (ex_round x).1] at h'
      change [(exPt (Nat.find hex)).1 0] = [(exNlp x).pt.1 0]
      rw [e, (ex_round x).1]
      have : (round (x.1 0) : ℤ) = (Nat.find hex : ℤ) := by
        by_contra hne
        have h1 : 1 ≤ |(round (x.1 0) : ℤ) - (Nat.find hex : ℤ)| := Int.one_le_abs (sub_ne_zero.mpr hne)
        have h2 : (1 : ℚ) ≤ |((round (x.1 0) : ℤ) : ℚ) - ((Nat.find hex : ℕ) : ℚ)| := by exact_mod_cast h1
        linarith
      rw [this]
      simp
    · rw [dif_neg hex] at hz
      simp at hz

/-- The example meets all assumptions of `oa_convex_partial`: whatever the loop did, no solution is missed. -/
example (n : ℕ) (r : OaSt (Pt exP) Cut ⊕ OaSt (Pt exP) Cut) (t : OaSt (Pt exP) Cut)
    (h : performOa exO ⟨1 / 10 ^ 5, 1 / 10 ^ 5, 100, 100⟩ (10 ^ 200) n [] (10 ^ 50) 0 0 = some r) (ht : t = r.elim id id) (hb : t.cutoff ≤ t.bound) :
    ∀ y, Feas exP y → Whole [y.1 0] → t.cutoff ≤ y.1 0 ∨ t.ub - slack (1 / 10 ^ 5) t.ub < y.1 0 :=
  (oa_convex_partial ex_convex ex_exact exW.ints exO (fun _ _ _ => 0) 0 false rfl (fun x _ => ⟨_, (ex_round x).1⟩) ex_oa_solvers (fun x _ => ex_first x) ⟨1 / 10 ^ 5, 1 / 10 ^ 5, 100, 100⟩
    (10 ^ 200) n [] (10 ^ 50) 0 0 (by simp) (fun y _ _ => by
      have := (ex_cols y).1
      change -10 ^ 200 ≤ y.1 0
      have h200 : (0 : ℚ) ≤ 10 ^ 200 := by positivity
      linarith) r t h ht).2.2.2.2 hb

end Verif.Dec.Cvx

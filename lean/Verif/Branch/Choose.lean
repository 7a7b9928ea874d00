import Verif.Branch.Strong

/-!
# C50: choosing the branching variable
`src/Algorithms/Branching/BonChooseVariable.cpp`, `chooseVariable` (598-773), on top of `doStrongBranching`.
Messages (660-675, 762-765) are not modelled.
-/
namespace Verif.Branch

/-- What the function sees of an object: pseudo-costs, `upEstimate()`, `downEstimate()`, `preferredWay()`, whether `infeasibility()` is not zero,
and its branching object with the answers of the solver. -/
structure ObjD where
  up : Side
  down : Side
  upEst : ℚ
  downEst : ℚ
  pref : Int
  viol : Bool
  probe : Probe

/-- Options and counters: `numberStrong_`, `numberStrongRoot_`, `numberStrongDone_`, `minNumberStrongBranch_`, `only_pseudo_when_trusted_`,
`number_not_trusted_`, `numberBeforeTrusted`, `fixVariables`. -/
structure CCfg extends SCfg where
  strong : Int
  strongRoot : Int
  strongDone : Int
  minStrong : Nat
  onlyPseudo : Bool
  notTrusted : Nat
  before : Nat
  fix : Bool

/-- The best candidate so far: `bestObjectIndex_` (`none` is -1), `bestWhichWay_`, `bestTrusted`. -/
structure Best where
  obj : Option Nat
  way : Int
  val : ℚ
deriving DecidableEq

/-- `value > bestTrusted` (650-654, 736-743). -/
def Best.offer (b : Best) (e : Nat × Int × ℚ) : Best := if b.val < e.2.2 then ⟨some e.1, e.2.1, e.2.2⟩ else b

/-- The test at 633-639: must the candidate at position `i` of the list be strong-branched? -/
def mustProbe (c : CCfg) (i : Nat) (o : ObjD) : Bool :=
  decide (c.before = 0) || decide (i < c.minStrong) || (c.onlyPseudo && decide (0 < c.notTrusted)) ||
  (!c.isRoot && (decide (o.up.num < c.before) || decide (o.down.num < c.before))) ||
  (c.isRoot && (decide (o.up.num = 0) && decide (o.down.num = 0)))

/-- Value of a trusted candidate (646-649).  An estimate is NaN (`none`) when its count is zero; `CoinMin(x,y)` is `x<y ? x : y` and `CoinMax(x,y)` is
`x>y ? x : y`, so a NaN in the first argument (up) is dropped and one in the second argument (down) makes the value NaN. -/
def trustedValue (crit : ℚ) : Option ℚ → Option ℚ → Option ℚ
  | some u, some d => some (combine crit u d)
  | none, some d => some (crit * d + (1 - crit) * d)
  | _, none => none

/-- `upEstimate > downEstimate ? 0 : 1` (652). -/
def trustedWay : Option ℚ → Option ℚ → Int
  | some u, some d => if d < u then 0 else 1
  | _, _ => 1

/-- The first loop (631-656): best trusted candidate and the objects put into `results_`. -/
def scanT (c : CCfg) (objs : Nat → ObjD) : List (Nat × Nat) → Best × List Nat → Best × List Nat
  | [], r => r
  | (k, i) :: l, (b, res) =>
    let o := objs k
    if mustProbe c i o then scanT c objs l (b, res ++ [k])
    else
      let u := trustedEst o.up o.upEst
      let d := trustedEst o.down o.downEst
      match trustedValue c.crit u d with
      | none => scanT c objs l (b, res)
      | some v => scanT c objs l (b.offer (k, trustedWay u d, v), res)

/-- State of the loop over the results (682-747). -/
structure RS where
  best : Best
  code : Int
  fixed : Nat
  forced : Option (Nat × Int)
  bounds : Bounds
deriving DecidableEq

/-- A side of a result (684-710, 711-733): its estimate. -/
def resEst (a : Ans) (cutoff obj : ℚ) : ℚ := if a.st ≠ 1 then a.change else expensive cutoff obj

/-- A side of a result (698-709, 722-732): the forced branch to the other side when this one is infeasible. -/
def force (fix : Bool) (k : Nat) (a : Ans) (way : Int) (other : Bounds → Bounds) (s : RS) : RS :=
  if a.st ≠ 1 then s
  else { s with forced := if s.forced.isNone then some (k, way) else s.forced, fixed := s.fixed + 1,
                bounds := if fix then other s.bounds else s.bounds }

/-- One result (683-746). -/
def resStep (c : CCfg) (objs : Nat → ObjD) (cutoff obj : ℚ) (s : RS) (k : Nat) : RS :=
  let o := objs k
  let u := resEst o.probe.ans1 cutoff obj
  let s := force c.fix k o.probe.ans1 0 o.probe.way0 s
  let d := resEst o.probe.ans0 cutoff obj
  let s := force c.fix k o.probe.ans0 1 o.probe.way1 s
  let way := if 0 ≤ o.pref ∧ o.viol = true then o.pref else if d < u then 0 else 1
  let v := combine c.crit u d
  { s with best := s.best.offer (k, way, v), code := if s.best.val < v ∧ s.code ≠ 0 then 2 else s.code }

/-- The result: return code, `bestObjectIndex_`, `bestWhichWay_`, first forced object and way, `numberFixed`, bounds of the solver. -/
structure Choice where
  code : Int
  obj : Option Nat
  way : Int
  forced : Option (Nat × Int)
  fixed : Nat
  bounds : Bounds
deriving DecidableEq

/-- `numberLeft` (608-611, 623). -/
def numberLeft (c : CCfg) (unsat : Nat) : Nat :=
  (min ((if c.isRoot then max c.strong c.strongRoot else c.strong) - c.strongDone) (unsat : Int)).toNat

/-- The part after the first loop (657-768). -/
def decideOn (c : CCfg) (objs : Nat → ObjD) (list : List Nat) (unsat : Nat) (bounds : Bounds) (cutoff obj : ℚ) (b : Best) (res : List Nat) :
    Option Choice :=
  if res = [] then
    some ⟨0, list.head?, b.way, none, 0, bounds⟩
  else
    match doStrong c.toSCfg bounds cutoff (res.map fun k => (objs k).probe) with
    | none => none
    | some t =>
      if 0 ≤ t.code ∧ t.code ≤ 2 then
        let code := if t.code ≠ 0 then (if b.obj.isSome then 3 else 4) else 0
        let s := (res.take t.done).foldl (resStep c objs t.cutoff obj) ⟨b, code, 0, none, t.bounds⟩
        some ⟨if s.fixed = unsat ∧ s.fixed ≠ 0 then 4 else s.code, s.best.obj, s.best.way, s.forced, s.fixed, s.bounds⟩
      else if t.code = 3 then some ⟨0, list.head?, 0, none, 0, t.bounds⟩
      else some ⟨t.code, b.obj, b.way, none, 0, t.bounds⟩

/-- `chooseVariable` (598-773); `unsat` is `numberUnsatisfied_`, `list` is `list_`. -/
def chooseVariable (c : CCfg) (objs : Nat → ObjD) (list : List Nat) (unsat : Nat) (bounds : Bounds) (cutoff obj : ℚ) : Option Choice :=
  if unsat = 0 then some ⟨1, none, -1, none, 0, bounds⟩
  else
    let r := scanT c objs ((list.take (numberLeft c unsat)).zipIdx) (⟨none, -1, -c.huge⟩, [])
    decideOn c objs list unsat bounds cutoff obj r.1 r.2

/-! ## Specification -/

/-- `b` is the first of the entries with the largest value. -/
def FirstMax (l : List (Nat × Int × ℚ)) (b : Nat × Int × ℚ) : Prop :=
  ∃ pre post, l = pre ++ b :: post ∧ (∀ x ∈ pre, x.2.2 < b.2.2) ∧ ∀ x ∈ post, x.2.2 ≤ b.2.2

/-- Candidates looked at: positions and objects. -/
def looked (c : CCfg) (list : List Nat) (unsat : Nat) : List (Nat × Nat) := (list.take (numberLeft c unsat)).zipIdx

/-- Objects that are strong-branched. -/
def probed (c : CCfg) (objs : Nat → ObjD) (l : List (Nat × Nat)) : List Nat :=
  (l.filter fun p => mustProbe c p.2 (objs p.1)).map Prod.fst

/-- The scored trusted candidates: average change per unit times the distance, for both sides. -/
def trustedScores (c : CCfg) (objs : Nat → ObjD) (l : List (Nat × Nat)) : List (Nat × Int × ℚ) :=
  (l.filter fun p => !mustProbe c p.2 (objs p.1)).map fun p =>
    let o := objs p.1
    let u := o.up.total * o.upEst / o.up.num
    let d := o.down.total * o.downEst / o.down.num
    (p.1, if d < u then 0 else 1, combine c.crit u d)

/-- The scored strong-branched candidates: objective changes, infeasible sides counted as expensive. -/
def strongScores (c : CCfg) (objs : Nat → ObjD) (cutoff obj : ℚ) (l : List Nat) : List (Nat × Int × ℚ) :=
  l.map fun k =>
    let o := objs k
    let u := if o.probe.ans1.st = 1 then infCost cutoff obj else o.probe.ans1.change
    let d := if o.probe.ans0.st = 1 then infCost cutoff obj else o.probe.ans0.change
    (k, if 0 ≤ o.pref ∧ o.viol = true then o.pref else if d < u then 0 else 1, combine c.crit u d)

/-- No NaN: a candidate that is not strong-branched has observations on both sides. -/
def NoNaN (c : CCfg) (objs : Nat → ObjD) (l : List (Nat × Nat)) : Prop :=
  ∀ p ∈ l, mustProbe c p.2 (objs p.1) = false → (objs p.1).up.num ≠ 0 ∧ (objs p.1).down.num ≠ 0

/-! ## Lemmas -/

theorem foldl_offer_val (l : List (Nat × Int × ℚ)) (b : Best) : b.val ≤ (l.foldl Best.offer b).val := by
  induction l generalizing b with
  | nil => simp
  | cons e l ih =>
    simp only [List.foldl_cons]
    refine le_trans ?_ (ih _)
    unfold Best.offer
    split
    · exact le_of_lt ‹_›
    · exact le_refl _

theorem foldl_offer (l : List (Nat × Int × ℚ)) (b : Best) :
    (l.foldl Best.offer b = b ∧ ∀ e ∈ l, e.2.2 ≤ b.val) ∨
    ∃ e, FirstMax l e ∧ b.val < e.2.2 ∧ l.foldl Best.offer b = ⟨some e.1, e.2.1, e.2.2⟩ := by
  induction l generalizing b with
  | nil => left; simp
  | cons e l ih =>
    simp only [List.foldl_cons]
    by_cases h : b.val < e.2.2
    · have : b.offer e = ⟨some e.1, e.2.1, e.2.2⟩ := by unfold Best.offer; rw [if_pos h]
      rw [this]
      right
      rcases ih ⟨some e.1, e.2.1, e.2.2⟩ with ⟨h1, h2⟩ | ⟨e', ⟨pre, post, g1, g2, g3⟩, h2, h3⟩
      · exact ⟨e, ⟨[], l, rfl, by simp, h2⟩, h, h1⟩
      · refine ⟨e', ⟨e :: pre, post, by rw [g1]; rfl, ?_, g3⟩, lt_trans h h2, h3⟩
        intro x hx
        rcases List.mem_cons.mp hx with rfl | hx
        · exact h2
        · exact g2 x hx
    · have : b.offer e = b := by unfold Best.offer; rw [if_neg h]
      rw [this]
      have h' := not_lt.mp h
      rcases ih b with ⟨h1, h2⟩ | ⟨e', ⟨pre, post, g1, g2, g3⟩, h2, h3⟩
      · left
        refine ⟨h1, ?_⟩
        intro x hx
        rcases List.mem_cons.mp hx with rfl | hx
        · exact h'
        · exact h2 x hx
      · right
        refine ⟨e', ⟨e :: pre, post, by rw [g1]; rfl, ?_, g3⟩, h2, h3⟩
        intro x hx
        rcases List.mem_cons.mp hx with rfl | hx
        · exact lt_of_le_of_lt h' h2
        · exact g2 x hx

theorem scanT_snd (c : CCfg) (objs : Nat → ObjD) (l : List (Nat × Nat)) (b : Best) (res : List Nat) :
    (scanT c objs l (b, res)).2 = res ++ probed c objs l := by
  induction l generalizing b res with
  | nil => simp [scanT, probed]
  | cons p l ih =>
    obtain ⟨k, i⟩ := p
    unfold scanT
    dsimp only
    by_cases h : mustProbe c i (objs k) = true
    · rw [if_pos h, ih]; simp [probed, h]
    · rw [if_neg h]
      split <;> rw [ih] <;> simp [probed, h]

theorem scanT_fst (c : CCfg) (objs : Nat → ObjD) (l : List (Nat × Nat)) (b : Best) (res : List Nat) (hn : NoNaN c objs l) :
    (scanT c objs l (b, res)).1 = (trustedScores c objs l).foldl Best.offer b := by
  induction l generalizing b res with
  | nil => simp [scanT, trustedScores]
  | cons p l ih =>
    have hn' : NoNaN c objs l := fun q hq => hn q (List.mem_cons_of_mem _ hq)
    have hp := hn p (by simp)
    obtain ⟨k, i⟩ := p
    unfold scanT
    dsimp only at hp ⊢
    by_cases h : mustProbe c i (objs k) = true
    · rw [if_pos h, ih _ _ hn']
      simp [trustedScores, h]
    · have h' : mustProbe c i (objs k) = false := by simpa using h
      obtain ⟨h1, h2⟩ := hp h'
      rw [if_neg h]
      unfold trustedEst
      rw [if_neg h1, if_neg h2]
      dsimp only [trustedValue, trustedWay]
      rw [ih _ _ hn']
      simp [trustedScores, h']

theorem res_best (c : CCfg) (objs : Nat → ObjD) (cutoff obj : ℚ) (l : List Nat) (s : RS) :
    (l.foldl (resStep c objs cutoff obj) s).best = (strongScores c objs cutoff obj l).foldl Best.offer s.best := by
  induction l generalizing s with
  | nil => rfl
  | cons k l ih =>
    simp only [List.foldl_cons, strongScores, List.map_cons]
    rw [ih]
    unfold strongScores
    congr 1
    unfold resStep
    dsimp only
    have hf : ∀ (f : Bool) (a : Ans) (w : Int) (o : Bounds → Bounds) (s : RS), (force f k a w o s).best = s.best := by
      intro f a w o s; unfold force; split <;> rfl
    rw [hf, hf]
    have he : ∀ a : Ans, resEst a cutoff obj = if a.st = 1 then infCost cutoff obj else a.change := by
      intro a; unfold resEst; by_cases h : a.st = 1 <;> simp [h, expensive_eq]
    rw [he, he]

theorem force_fixed (f : Bool) (k : Nat) (a : Ans) (w : Int) (o : Bounds → Bounds) (s : RS) :
    (force f k a w o s).fixed = s.fixed + if a.st = 1 then 1 else 0 := by
  unfold force; by_cases h : a.st = 1 <;> simp [h]

theorem force_code (f : Bool) (k : Nat) (a : Ans) (w : Int) (o : Bounds → Bounds) (s : RS) :
    (force f k a w o s).code = s.code ∧ (force f k a w o s).best = s.best := by
  unfold force; split <;> exact ⟨rfl, rfl⟩

theorem force_bounds (f : Bool) (k : Nat) (a : Ans) (w : Int) (o : Bounds → Bounds) (s : RS) :
    (force f k a w o s).bounds = if f = true ∧ a.st = 1 then o s.bounds else s.bounds := by
  unfold force; by_cases h : a.st = 1 <;> cases f <;> simp [h]

theorem force_forced (f : Bool) (k : Nat) (a : Ans) (w : Int) (o : Bounds → Bounds) (s : RS) :
    (force f k a w o s).forced = s.forced.or (if a.st = 1 then some (k, w) else none) := by
  unfold force; by_cases h : a.st = 1 <;> cases hs : s.forced <;> simp [h, hs]

/-- Infeasible sides of a candidate. -/
def ObjD.infSides (o : ObjD) : Nat := (if o.probe.ans1.st = 1 then 1 else 0) + (if o.probe.ans0.st = 1 then 1 else 0)

theorem res_fixed (c : CCfg) (objs : Nat → ObjD) (cutoff obj : ℚ) (l : List Nat) (s : RS) :
    (l.foldl (resStep c objs cutoff obj) s).fixed = s.fixed + (l.map fun k => (objs k).infSides).sum := by
  induction l generalizing s with
  | nil => simp
  | cons k l ih =>
    simp only [List.foldl_cons, List.map_cons, List.sum_cons]
    rw [ih]
    unfold resStep ObjD.infSides
    dsimp only
    rw [force_fixed, force_fixed]
    omega

theorem res_code (c : CCfg) (objs : Nat → ObjD) (cutoff obj : ℚ) (l : List Nat) (s : RS) :
    (l.foldl (resStep c objs cutoff obj) s).code =
      if s.code = 0 then 0 else if ∃ e ∈ strongScores c objs cutoff obj l, s.best.val < e.2.2 then 2 else s.code := by
  induction l generalizing s with
  | nil => by_cases h : s.code = 0 <;> simp [strongScores, h]
  | cons k l ih =>
    have hb := res_best c objs cutoff obj [k] s
    simp only [List.foldl_cons, List.foldl_nil, strongScores, List.map_cons, List.map_nil] at hb
    simp only [List.foldl_cons]
    rw [ih, hb]
    have he : ∀ a : Ans, resEst a cutoff obj = if a.st = 1 then infCost cutoff obj else a.change := by
      intro a; unfold resEst; by_cases h : a.st = 1 <;> simp [h, expensive_eq]
    have hc : (resStep c objs cutoff obj s k).code = if s.best.val < combine c.crit (resEst (objs k).probe.ans1 cutoff obj)
        (resEst (objs k).probe.ans0 cutoff obj) ∧ s.code ≠ 0 then 2 else s.code := by
      unfold resStep
      dsimp only
      rw [(force_code _ _ _ _ _ _).1, (force_code _ _ _ _ _ _).2, (force_code _ _ _ _ _ _).1, (force_code _ _ _ _ _ _).2]
    rw [hc, he, he]
    by_cases h0 : s.code = 0
    · simp [h0]
    · simp only [strongScores, List.map_cons, List.mem_cons, exists_eq_or_imp]
      by_cases hv : s.best.val < combine c.crit (if (objs k).probe.ans1.st = 1 then infCost cutoff obj else (objs k).probe.ans1.change)
          (if (objs k).probe.ans0.st = 1 then infCost cutoff obj else (objs k).probe.ans0.change)
      · simp [h0, hv]
      · simp [h0, hv, Best.offer]

/-- The bounds after the forced branches, in order: an infeasible up side gives the down branch and conversely. -/
def forcedBounds (objs : Nat → ObjD) (l : List Nat) (b : Bounds) : Bounds :=
  l.foldl (fun b k => let o := (objs k).probe
    let b := if o.ans1.st = 1 then o.way0 b else b
    if o.ans0.st = 1 then o.way1 b else b) b

theorem res_bounds (c : CCfg) (objs : Nat → ObjD) (cutoff obj : ℚ) (l : List Nat) (s : RS) :
    (l.foldl (resStep c objs cutoff obj) s).bounds = if c.fix then forcedBounds objs l s.bounds else s.bounds := by
  induction l generalizing s with
  | nil => simp [forcedBounds]
  | cons k l ih =>
    simp only [List.foldl_cons, forcedBounds]
    rw [ih]
    unfold resStep
    dsimp only
    rw [force_bounds, force_bounds]
    cases c.fix <;> simp [forcedBounds]

/-- The forced branches, in order. -/
def forcedList (objs : Nat → ObjD) (l : List Nat) : List (Nat × Int) :=
  l.flatMap fun k => (if (objs k).probe.ans1.st = 1 then [(k, 0)] else []) ++ (if (objs k).probe.ans0.st = 1 then [(k, 1)] else [])

theorem res_forced (c : CCfg) (objs : Nat → ObjD) (cutoff obj : ℚ) (l : List Nat) (s : RS) :
    (l.foldl (resStep c objs cutoff obj) s).forced = s.forced.or (forcedList objs l).head? := by
  induction l generalizing s with
  | nil => simp [forcedList]
  | cons k l ih =>
    simp only [List.foldl_cons]
    rw [ih]
    unfold resStep
    dsimp only
    rw [force_forced, force_forced]
    simp only [forcedList, List.flatMap_cons]
    by_cases h1 : (objs k).probe.ans1.st = 1 <;> by_cases h0 : (objs k).probe.ans0.st = 1 <;> cases s.forced <;> simp [h1, h0]

/-! ## Properties -/

theorem decide_eq (c : CCfg) (objs : Nat → ObjD) (list : List Nat) (unsat : Nat) (bounds : Bounds) (cutoff obj : ℚ) (hu : unsat ≠ 0)
    (hn : NoNaN c objs (looked c list unsat)) :
    chooseVariable c objs list unsat bounds cutoff obj = decideOn c objs list unsat bounds cutoff obj
      ((trustedScores c objs (looked c list unsat)).foldl Best.offer ⟨none, -1, -c.huge⟩) (probed c objs (looked c list unsat)) := by
  unfold chooseVariable
  rw [if_neg hu]
  dsimp only
  rw [scanT_snd, show (list.take (numberLeft c unsat)).zipIdx = looked c list unsat from rfl, scanT_fst _ _ _ _ _ hn]
  rfl

/-- **C50** (choice, holds).  When strong branching took place, ended in time and did not report an infeasible node, the chosen object and way are
those of the first candidate with the largest score among all candidates examined: the trusted ones (in the order of the list), then the
strong-branched ones.  Infeasible sides count as expensive, a preferred way of the object overrides the way. -/
theorem choose_best (c : CCfg) (objs : Nat → ObjD) (list : List Nat) (unsat : Nat) (bounds : Bounds) (cutoff obj : ℚ) (t : SB) (r : Choice)
    (hu : unsat ≠ 0) (hn : NoNaN c objs (looked c list unsat)) (hp : probed c objs (looked c list unsat) ≠ [])
    (ht : doStrong c.toSCfg bounds cutoff ((probed c objs (looked c list unsat)).map fun k => (objs k).probe) = some t)
    (hc : t.code = 0 ∨ t.code = 1) (hr : chooseVariable c objs list unsat bounds cutoff obj = some r) (S : List (Nat × Int × ℚ))
    (hS : S = trustedScores c objs (looked c list unsat) ++ strongScores c objs t.cutoff obj ((probed c objs (looked c list unsat)).take t.done))
    (hh : ∃ e ∈ S, -c.huge < e.2.2) : ∃ e, FirstMax S e ∧ r.obj = some e.1 ∧ r.way = e.2.1 := by
  rw [decide_eq c objs list unsat bounds cutoff obj hu hn] at hr
  unfold decideOn at hr
  rw [if_neg hp, ht] at hr
  dsimp only at hr
  rw [if_pos (by omega)] at hr
  have hr' := Option.some.inj hr
  subst hr'
  dsimp only
  rw [res_best]
  dsimp only
  rw [← List.foldl_append, ← hS]
  rcases foldl_offer S ⟨none, -1, -c.huge⟩ with ⟨_, h2⟩ | ⟨e, h1, _, h3⟩
  · obtain ⟨e, he, hv⟩ := hh
    exact absurd (h2 e he) (not_le.mpr hv)
  · rw [h3]
    exact ⟨e, h1, rfl, rfl⟩

/-- **C50** (return code, exact) in the situation of `choose_best`: 4 if the infeasible sides are as many as the unsatisfied objects, otherwise 0 if
nothing was found infeasible, otherwise 2 if a strong-branched candidate beats all trusted ones and 3 if not.  The first forced object and
way are those of the first infeasible side, and the bounds are changed by exactly the forced branches if `fixVariables` is set. -/
theorem choose_code (c : CCfg) (objs : Nat → ObjD) (list : List Nat) (unsat : Nat) (bounds : Bounds) (cutoff obj : ℚ) (t : SB) (r : Choice)
    (hu : unsat ≠ 0) (hn : NoNaN c objs (looked c list unsat)) (hp : probed c objs (looked c list unsat) ≠ [])
    (ht : doStrong c.toSCfg bounds cutoff ((probed c objs (looked c list unsat)).map fun k => (objs k).probe) = some t)
    (hc : t.code = 0 ∨ t.code = 1) (hr : chooseVariable c objs list unsat bounds cutoff obj = some r)
    (T S : List (Nat × Int × ℚ)) (P : List Nat) (hP : P = (probed c objs (looked c list unsat)).take t.done)
    (hT : T = trustedScores c objs (looked c list unsat)) (hS : S = strongScores c objs t.cutoff obj P)
    (hh : ∀ e ∈ T ++ S, -c.huge < e.2.2) (hs : ∃ e, e ∈ S) :
    r.fixed = (P.map fun k => (objs k).infSides).sum ∧ r.forced = (forcedList objs P).head? ∧
    r.bounds = (if c.fix then forcedBounds objs P t.bounds else t.bounds) ∧
    (r.fixed = unsat → r.code = 4) ∧ (r.fixed ≠ unsat → t.code = 0 → r.code = 0) ∧
    (r.fixed ≠ unsat → t.code = 1 → (∃ e ∈ S, ∀ x ∈ T, x.2.2 < e.2.2) → r.code = 2) ∧
    (r.fixed ≠ unsat → t.code = 1 → ¬ (∃ e ∈ S, ∀ x ∈ T, x.2.2 < e.2.2) → r.code = 3) := by
  rw [decide_eq c objs list unsat bounds cutoff obj hu hn] at hr
  unfold decideOn at hr
  rw [if_neg hp, ht] at hr
  dsimp only at hr
  rw [if_pos (by omega), ← hP, ← hT] at hr
  have hr' := Option.some.inj hr
  subst hr'
  dsimp only
  rw [res_fixed, res_code, res_bounds, res_forced]
  dsimp only
  rw [← hS]
  simp only [Nat.zero_add, Option.none_or]
  refine ⟨trivial, trivial, trivial, ?_, ?_, ?_, ?_⟩
  · intro h; rw [if_pos ⟨h, by omega⟩]
  · intro h h0; rw [if_neg (by rintro ⟨g, _⟩; exact h g)]; simp [h0]
  all_goals
    intro h h1 hx
    rw [if_neg (by rintro ⟨g, _⟩; exact h g), h1]
    rcases foldl_offer T ⟨none, -1, -c.huge⟩ with ⟨g1, g2⟩ | ⟨e0, ⟨pre, post, g1, g2, g3⟩, g4, g5⟩
  · have hT0 : T = [] := by
      rw [List.eq_nil_iff_forall_not_mem]
      intro e he
      exact absurd (g2 e he) (not_le.mpr (hh e (List.mem_append_left _ he)))
    rw [g1]
    obtain ⟨e, he⟩ := hs
    have : ∃ e ∈ S, -c.huge < e.2.2 := ⟨e, he, hh e (List.mem_append_right _ he)⟩
    simp [this]
  · rw [g5]
    obtain ⟨e, he, hx⟩ := hx
    have : ∃ e ∈ S, e0.2.2 < e.2.2 := ⟨e, he, hx e0 (by rw [g1]; simp)⟩
    simp [this]
  · exfalso
    apply hx
    have hT0 : T = [] := by
      rw [List.eq_nil_iff_forall_not_mem]
      intro e he
      exact absurd (g2 e he) (not_le.mpr (hh e (List.mem_append_left _ he)))
    obtain ⟨e, he⟩ := hs
    exact ⟨e, he, by rw [hT0]; simp⟩
  · rw [g5]
    have : ¬ ∃ e ∈ S, e0.2.2 < e.2.2 := by
      rintro ⟨e, he, hv⟩
      apply hx
      refine ⟨e, he, ?_⟩
      intro x hxT
      rw [g1] at hxT
      rcases List.mem_append.mp hxT with hxT | hxT
      · exact lt_trans (g2 x hxT) hv
      · rcases List.mem_cons.mp hxT with rfl | hxT
        · exact hv
        · exact lt_of_le_of_lt (g3 x hxT) hv
    simp [this]

/-- **C50** (who is strong-branched): a candidate is *trusted* instead exactly when trusting is on, its position is beyond the first `minNumberStrongBranch_`, all objects are trusted
if `only_pseudo_when_trusted` asks for it, and it has enough observations: `numberBeforeTrusted` on both sides below the root, one on some side at the root. -/
theorem mustProbe_iff (c : CCfg) (i : Nat) (o : ObjD) :
    mustProbe c i o = false ↔ c.before ≠ 0 ∧ c.minStrong ≤ i ∧ (c.onlyPseudo = true → c.notTrusted = 0) ∧
      (c.isRoot = false → c.before ≤ o.up.num ∧ c.before ≤ o.down.num) ∧ (c.isRoot = true → ¬ (o.up.num = 0 ∧ o.down.num = 0)) := by
  unfold mustProbe
  cases c.onlyPseudo <;> cases c.isRoot <;> simp <;> tauto

/-- **C50** (how many are looked at): at most `numberStrong_` (at the root: the larger of it and `numberStrongRoot_`) minus those done already, and at most all unsatisfied ones. -/
theorem numberLeft_eq (c : CCfg) (unsat : Nat) (limit : Int) (hl : limit = if c.isRoot = true then max c.strong c.strongRoot else c.strong) :
    (limit ≤ c.strongDone → numberLeft c unsat = 0) ∧ (∀ k : Nat, limit = c.strongDone + k → numberLeft c unsat = min k unsat) := by
  unfold numberLeft
  rw [← hl]
  constructor
  · intro h; omega
  · intro k h; omega

/-- **C50** (not a number, up side): a trusted candidate with observations on the down side only is scored by its down costs alone, and branched up. -/
theorem choose_nan_up (c : CCfg) (o : ObjD) (hu : o.up.num = 0) (hd : o.down.num ≠ 0) :
    trustedValue c.crit (trustedEst o.up o.upEst) (trustedEst o.down o.downEst) = some (o.down.total * o.downEst / o.down.num) ∧
    trustedWay (trustedEst o.up o.upEst) (trustedEst o.down o.downEst) = 1 := by
  unfold trustedEst
  rw [if_pos hu, if_neg hd]
  refine ⟨?_, rfl⟩
  simp only [trustedValue]
  congr 1
  ring

/-- **C50** (no candidate left, time-out, infeasible node): with no unsatisfied object the code is 1 and no object is chosen; when the time runs out the first entry of the list is
branched down; an infeasible node is passed on as -1 with the best trusted candidate; in all three cases there is no forced branch and the bounds are unchanged. -/
theorem choose_other (c : CCfg) (objs : Nat → ObjD) (list : List Nat) (unsat : Nat) (bounds : Bounds) (cutoff obj : ℚ) (r : Choice)
    (hr : chooseVariable c objs list unsat bounds cutoff obj = some r) :
    (unsat = 0 → r = ⟨1, none, -1, none, 0, bounds⟩) ∧
    (∀ t, unsat ≠ 0 → NoNaN c objs (looked c list unsat) → probed c objs (looked c list unsat) ≠ [] → (∀ k, (objs k).probe.Sized bounds.length) →
      doStrong c.toSCfg bounds cutoff ((probed c objs (looked c list unsat)).map fun k => (objs k).probe) = some t →
      (t.code = 3 → r = ⟨0, list.head?, 0, none, 0, bounds⟩) ∧
      (t.code = -1 → r.code = -1 ∧ r.forced = none ∧ r.fixed = 0 ∧ r.bounds = bounds ∧
        ((r.obj = none ∧ r.way = -1 ∧ ∀ e ∈ trustedScores c objs (looked c list unsat), e.2.2 ≤ -c.huge) ∨
         ∃ e, FirstMax (trustedScores c objs (looked c list unsat)) e ∧ r.obj = some e.1 ∧ r.way = e.2.1))) := by
  constructor
  · intro h
    unfold chooseVariable at hr
    rw [if_pos h] at hr
    exact (Option.some.inj hr).symm
  · intro t hu hn hp hz ht
    rw [decide_eq c objs list unsat bounds cutoff obj hu hn] at hr
    unfold decideOn at hr
    rw [if_neg hp, ht] at hr
    dsimp only at hr
    have hb := (strong_restores _ _ _ _ (by intro p hp; obtain ⟨k, _, rfl⟩ := List.mem_map.mp hp; exact hz k) _ ht).1
    constructor
    · intro h
      rw [if_neg (by omega), if_pos h] at hr
      rw [← Option.some.inj hr, hb]
    · intro h
      rw [if_neg (by omega), if_neg (by omega)] at hr
      rw [← Option.some.inj hr]
      refine ⟨h, rfl, rfl, hb, ?_⟩
      rcases foldl_offer (trustedScores c objs (looked c list unsat)) ⟨none, -1, -c.huge⟩ with ⟨h1, h2⟩ | ⟨e', h1, _, h3⟩
      · left; rw [h1]; exact ⟨rfl, rfl, h2⟩
      · right; exact ⟨e', h1, by rw [h3], by rw [h3]⟩

/-- **C50** (the chosen object is a candidate): whenever the call returns an object it is an entry of the list among the first `numberUnsatisfied_`. -/
theorem choose_member (c : CCfg) (objs : Nat → ObjD) (list : List Nat) (unsat : Nat) (bounds : Bounds) (cutoff obj : ℚ) (r : Choice) (k : Nat)
    (hr : chooseVariable c objs list unsat bounds cutoff obj = some r) (hk : r.obj = some k) : k ∈ list.take unsat := by
  unfold chooseVariable at hr
  by_cases hu : unsat = 0
  · rw [if_pos hu] at hr
    rw [← Option.some.inj hr] at hk
    simp at hk
  rw [if_neg hu] at hr
  dsimp only at hr
  have hhead : list.head? = some k → k ∈ list.take unsat := by
    intro h
    cases list with
    | nil => simp at h
    | cons a l =>
      obtain ⟨n, rfl⟩ := Nat.exists_eq_succ_of_ne_zero hu
      simp at h
      simp [h]
  have hoffer : ∀ (l : List (Nat × Int × ℚ)) (b : Best), ((l.foldl Best.offer b).obj = some k → b.obj = some k ∨ ∃ e ∈ l, e.1 = k) := by
    intro l b h
    rcases foldl_offer l b with ⟨g1, _⟩ | ⟨e, ⟨pre, post, g1, _, _⟩, _, g3⟩
    · rw [g1] at h; exact Or.inl h
    · rw [g3] at h
      exact Or.inr ⟨e, by rw [g1]; simp, Option.some.inj h⟩
  have hsub : ∀ x ∈ list.take (numberLeft c unsat), x ∈ list.take unsat := by
    intro x hx
    have hle : numberLeft c unsat ≤ unsat := by unfold numberLeft; omega
    rw [show list.take (numberLeft c unsat) = (list.take unsat).take (numberLeft c unsat) by
      rw [List.take_take, Nat.min_eq_left hle]] at hx
    exact List.mem_of_mem_take hx
  have hT : ∀ (l : List (Nat × Nat)) (b : Best) (res : List Nat), (scanT c objs l (b, res)).1.obj = some k → b.obj = some k ∨ ∃ p ∈ l, p.1 = k := by
    intro l
    induction l with
    | nil => intro b res h; exact Or.inl h
    | cons p l ih =>
      intro b res h
      obtain ⟨k', i⟩ := p
      unfold scanT at h
      dsimp only at h
      have lift : (b.obj = some k ∨ ∃ p ∈ l, p.1 = k) → b.obj = some k ∨ ∃ p ∈ (k', i) :: l, p.1 = k := by
        rintro (h | ⟨p, hp, he⟩)
        · exact Or.inl h
        · exact Or.inr ⟨p, List.mem_cons_of_mem _ hp, he⟩
      split at h
      · exact lift (ih _ _ h)
      · split at h
        · exact lift (ih _ _ h)
        · rcases ih _ _ h with h | ⟨p, hp, he⟩
          · unfold Best.offer at h
            split at h
            · exact Or.inr ⟨(k', i), by simp, Option.some.inj h⟩
            · exact Or.inl h
          · exact Or.inr ⟨p, List.mem_cons_of_mem _ hp, he⟩
  have hlook : ∀ p ∈ looked c list unsat, p.1 ∈ list.take unsat := by
    intro p hp
    exact hsub _ (List.fst_mem_of_mem_zipIdx hp)
  have hTk : (scanT c objs (looked c list unsat) (⟨none, -1, -c.huge⟩, [])).1.obj = some k → k ∈ list.take unsat := by
    intro h
    rcases hT _ _ _ h with h | ⟨p, hp, rfl⟩
    · simp at h
    · exact hlook p hp
  rw [show (list.take (numberLeft c unsat)).zipIdx = looked c list unsat from rfl] at hr
  unfold decideOn at hr
  split at hr
  · rw [← Option.some.inj hr] at hk; exact hhead hk
  · split at hr
    · simp at hr
    · split at hr
      · rw [← Option.some.inj hr] at hk
        dsimp only at hk
        rw [res_best] at hk
        rcases hoffer _ _ hk with h | ⟨e, he, rfl⟩
        · exact hTk h
        · unfold strongScores at he
          obtain ⟨k', hk', rfl⟩ := List.mem_map.mp he
          have := List.mem_of_mem_take hk'
          rw [scanT_snd, List.nil_append] at this
          unfold probed at this
          obtain ⟨p, hp, rfl⟩ := List.mem_map.mp this
          exact hlook p (List.mem_filter.mp hp).1
      · split at hr
        · rw [← Option.some.inj hr] at hk; exact hhead hk
        · rw [← Option.some.inj hr] at hk; exact hTk hk

/-- **C50** (nothing to strong-branch): the first entry of the list is taken, whatever the scores, with the way of the best-scored candidate. -/
theorem choose_untested (c : CCfg) (objs : Nat → ObjD) (list : List Nat) (unsat : Nat) (bounds : Bounds) (cutoff obj : ℚ) (hu : unsat ≠ 0)
    (hn : NoNaN c objs (looked c list unsat)) (hp : probed c objs (looked c list unsat) = []) :
    ∃ r, chooseVariable c objs list unsat bounds cutoff obj = some r ∧ r.code = 0 ∧ r.obj = list.head? ∧ r.bounds = bounds ∧
      ((trustedScores c objs (looked c list unsat) = [] → r.way = -1) ∧
       ((∃ e ∈ trustedScores c objs (looked c list unsat), -c.huge < e.2.2) →
         ∃ e, FirstMax (trustedScores c objs (looked c list unsat)) e ∧ r.way = e.2.1)) := by
  rw [decide_eq c objs list unsat bounds cutoff obj hu hn]
  unfold decideOn
  rw [if_pos hp]
  refine ⟨_, rfl, rfl, rfl, rfl, ?_, ?_⟩
  · intro h; rw [h]; rfl
  · rintro ⟨e, he, hv⟩
    rcases foldl_offer (trustedScores c objs (looked c list unsat)) ⟨none, -1, -c.huge⟩ with ⟨_, h2⟩ | ⟨e', h1, _, h3⟩
    · exact absurd (h2 e he) (not_le.mpr hv)
    · exact ⟨e', h1, by rw [h3]⟩

/-- Two objects: 0 has small costs, mostly downwards; 1 has large ones, mostly upwards. -/
def twoObjs : Nat → ObjD := fun k =>
  if k = 0 then ⟨⟨1, 2⟩, ⟨4, 2⟩, 1/2, 1/2, -1, true, probe01 0 0⟩ else ⟨⟨90, 9⟩, ⟨45, 9⟩, 1/2, 1/2, -1, true, probe01 0 0⟩

/-- Settings below the root with 20 strong-branching candidates and trust after `b` observations. -/
def cfg20 (b : Nat) (root fix : Bool) : CCfg := ⟨⟨root, 0, false, 7/10, 10^200⟩, 20, 0, 0, 0, false, 0, b, fix⟩

/-- **C50** refuted: with both candidates trusted, the first of the list is chosen although the other scores higher, and it is branched in the
direction that is best for the other one. -/
theorem choose_untested_wrong : ∃ r, chooseVariable (cfg20 2 false false) twoObjs [0, 1] 2 [(0, 1), (0, 1)] 100 10 = some r ∧
    r.obj = some 0 ∧ r.way = 0 ∧ trustedScores (cfg20 2 false false) twoObjs (looked (cfg20 2 false false) [0, 1] 2) = [(0, 1, 19/40), (1, 0, 13/4)] := by
  refine ⟨_, rfl, by decide +kernel, by decide +kernel, by decide +kernel⟩

/-- An object never branched on the down side: the other side has observations. -/
def nanObjs : Nat → ObjD := fun k =>
  if k = 0 then ⟨⟨90, 9⟩, ⟨0, 0⟩, 1/2, 1/2, -1, true, probe01 0 0⟩ else ⟨⟨1, 2⟩, ⟨1, 2⟩, 1/2, 1/2, -1, true, probe01 0 0⟩

/-- **C50** (not a number): at the root a candidate with observations on the up side only is neither strong-branched nor ever the best
trusted candidate, whatever its up costs: its estimate is 0/0. -/
theorem choose_nan (c : CCfg) (o : ObjD) (i : Nat) (hroot : c.isRoot = true) (hu : o.up.num ≠ 0) (hd : o.down.num = 0)
    (hb : c.before ≠ 0) (hi : c.minStrong ≤ i) (ho : c.onlyPseudo = false ∨ c.notTrusted = 0) :
    mustProbe c i o = false ∧ trustedValue c.crit (trustedEst o.up o.upEst) (trustedEst o.down o.downEst) = none := by
  constructor
  · unfold mustProbe
    rcases ho with ho | ho <;> simp [hroot, hu, hb, hi, ho]
  · unfold trustedEst
    rw [if_neg hu, if_pos hd]
    rfl

example : ∃ r, chooseVariable (cfg20 2 true false) nanObjs [0, 1] 2 [(0, 1), (0, 1)] 100 10 = some r ∧ r.obj = some 0 ∧ r.way = 1 := by
  exact ⟨_, rfl, by decide +kernel, by decide +kernel⟩

/-- Three objects for strong branching: infeasible on both sides, on the down side, on none. -/
def threeObjs : Nat → ObjD := fun k =>
  ⟨⟨0, 0⟩, ⟨0, 0⟩, 1/2, 1/2, -1, true, if k = 0 then probe01 1 1 else if k = 1 then probe01 1 0 else probe01 0 0⟩

/-- **C50** refuted (code 4, "no other candidates"): three unsatisfied objects; the first is infeasible on both sides, the second on one, the third is
open on both.  The sides are counted, three in all, and the code is 4; moreover the node, proven infeasible, is not reported infeasible. -/
theorem choose_code_four_wrong : ∃ r, chooseVariable (cfg20 2 false false) threeObjs [0, 1, 2] 3 [(0, 1), (0, 1)] 100 10 = some r ∧ r.code = 4 ∧
    (threeObjs 2).infSides = 0 ∧ (threeObjs 0).infSides = 2 := by
  refine ⟨_, rfl, by decide +kernel, by decide +kernel, by decide +kernel⟩

/-- Satisfies the hypotheses of `choose_best` and `choose_code`: one trusted candidate, two strong-branched ones, one of them infeasible downwards. -/
def mixObjs : Nat → ObjD := fun k =>
  if k = 0 then ⟨⟨90, 9⟩, ⟨45, 9⟩, 1/2, 1/2, -1, true, probe01 0 0⟩
  else ⟨⟨0, 0⟩, ⟨0, 0⟩, 1/2, 1/2, -1, true, if k = 1 then probe01 1 0 else probe01 0 0⟩

example : NoNaN (cfg20 2 false true) mixObjs (looked (cfg20 2 false true) [0, 1, 2] 3) ∧
    probed (cfg20 2 false true) mixObjs (looked (cfg20 2 false true) [0, 1, 2] 3) = [1, 2] ∧
    ∃ t r, doStrong (cfg20 2 false true).toSCfg [(0, 1), (0, 1)] 100 ([1, 2].map fun k => (mixObjs k).probe) = some t ∧ t.code = 1 ∧ t.done = 2 ∧
      chooseVariable (cfg20 2 false true) mixObjs [0, 1, 2] 3 [(0, 1), (0, 1)] 100 10 = some r ∧
      r = ⟨2, some 1, 1, some (1, 1), 1, [(1, 1), (0, 1)]⟩ := by
  refine ⟨?_, by decide +kernel, _, _, rfl, by decide +kernel, by decide +kernel, rfl, by decide +kernel⟩
  unfold NoNaN
  decide +kernel

end Verif.Branch

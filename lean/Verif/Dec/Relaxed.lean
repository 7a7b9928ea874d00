import Verif.Dec.Convex
import Mathlib.Tactic.FinCases
/-!
# C317: the OA decomposition with relaxed right-hand sides

The cuts of the interface are relaxed by `oa_rhs_relax` (1e-8 by default; BonOsiTMINLPInterface.cpp:2043-2044), and the MILP solver may stop within a gap.  `Dec/Convex.lean` (C307) has neither.  Here both are
present: the MILP or the LP may then propose the integers of the last NLP again with a value below the cutoff, and the decomposition takes this for the end.  What this can cost is made precise.
-/
namespace Verif.Dec.Cvx
open Verif.Oa Verif.Div Verif.Bab.Search

/-! ## Specification -/

/-- The contract of the solvers with a margin: as `Contract`, but the LP and the MILP may come back to the integers of the NLP just cut at; if they do, their value (and so everything feasible) is not
below the cutoff by more than `mu`. -/
structure LooseContract {X κ : Type} (o : Oracles X κ) (p : Problem X κ) (mu : ℚ) : Prop where
  valid : ∀ x k, ∀ c ∈ o.cuts (o.nlp x k).pt x k, ∀ z, p.feas z → p.sat c z
  bound : ∀ cs v k z, (∀ c ∈ cs, p.sat c z) → p.feas z → p.f z < v → (o.milp cs v k).low ≤ p.f z
  nlp : ∀ x k, (o.nlp x k).optimal = true → p.feas (o.nlp x k).pt ∧ p.f (o.nlp x k).pt = (o.nlp x k).obj
  lpBound : ∀ cs v k z, (o.lp cs v k).optimal = true → (o.lp cs v k).limit = false → (∀ c ∈ cs, p.sat c z) → p.feas z → (o.lp cs v k).obj ≤ p.f z
  againLp : ∀ cs v k x, ((o.nlp x k).optimal = true → v ≤ (o.nlp x k).obj) → (∀ c ∈ o.cuts (o.nlp x k).pt x k, c ∈ cs) → (o.lp cs v k).optimal = true → (o.lp cs v k).limit = false →
    o.differ (o.nlp x k).pt (o.lp cs v k).pt = false → v - mu ≤ (o.lp cs v k).obj
  againMilp : ∀ cs v k x z, ((o.nlp x k).optimal = true → v ≤ (o.nlp x k).obj) → (∀ c ∈ o.cuts (o.nlp x k).pt x k, c ∈ cs) → (o.milp cs v (k + 1)).sol = some z →
    o.differ01 (o.nlp x k).pt z = false → v - mu ≤ (o.milp cs v (k + 1)).low

/-- What the pair (cutoff, bound) promises: every feasible point better than the cutoff by more than `mu` has value at least the bound, or lies within the gap of the upper bound. -/
def LooseSound {X κ : Type} (c : OaCfg) (p : Problem X κ) (mu : ℚ) (s : OaSt X κ) : Prop :=
  ∀ z, p.feas z → p.f z < s.cutoff → s.bound ≤ p.f z ∨ s.ub - slack c.gapTol s.ub < p.f z ∨ s.cutoff - mu ≤ p.f z

/-! ## The loop -/

/-- Invariant of the loop: what holds at every moment. -/
structure LooseBase {X κ : Type} (c : OaCfg) (p : Problem X κ) (mu cutoff0 : ℚ) (s : OaSt X κ) : Prop where
  cutsOk : ∀ k ∈ s.cuts, ∀ z, p.feas z → p.sat k z
  sound : LooseSound c p mu s
  ubOk : (s.found = [] ∧ s.ub = cutoff0 ∧ s.cutoff = cutoff0) ∨ (s.cutoff = newCutoff c.eps s.ub ∧ s.cutoff < s.ub ∧ s.ub ≤ cutoff0 ∧ ∃ x ∈ s.found, p.f x = s.ub)
  foundOk : ∀ x ∈ s.found, p.feas x ∧ s.ub ≤ p.f x

/-- The bound is right for everything below the cutoff. -/
def Strict {X κ : Type} (p : Problem X κ) (s : OaSt X κ) : Prop := ∀ z, p.feas z → p.f z < s.cutoff → s.bound ≤ p.f z

/-- The LP has come back to the integers of the NLP. -/
def Again {X κ : Type} (p : Problem X κ) (mu : ℚ) (s : OaSt X κ) : Prop := s.isInt = false ∧ s.bound = 10 ^ 200 ∧ ∀ z, p.feas z → s.cutoff - mu ≤ p.f z

theorem loose_le {X κ : Type} {c : OaCfg} {p : Problem X κ} {mu k0 : ℚ} {s : OaSt X κ} (h : LooseBase c p mu k0 s) : s.cutoff ≤ s.ub ∧ s.cutoff ≤ k0 := by
  rcases h.ubOk with ⟨_, h1, h2⟩ | ⟨_, h2, h3, _⟩
  · exact ⟨by rw [h1, h2], by rw [h2]⟩
  · exact ⟨h2.le, (h2.trans_le h3).le⟩

theorem loose_nlp {X κ : Type} {o : Oracles X κ} {c : OaCfg} {p : Problem X κ} {mu k0 : ℚ} {s s' : OaSt X κ} (hc : LooseContract o p mu) (hs : Strict p s) (x : X)
    (h : LooseBase c p mu k0 s) (he : afterNlp c s (o.nlp x s.pass) = some s') : LooseBase c p mu k0 s' ∧ Strict p s' ∧ s'.cuts = s.cuts ∧ s'.pass = s.pass ∧
      ((o.nlp x s.pass).optimal = true → s'.cutoff ≤ (o.nlp x s.pass).obj) := by
  unfold afterNlp at he
  split at he
  · rename_i hopt
    dsimp only at he
    split at he
    · rename_i hlt
      have he' := Option.some.inj he
      obtain ⟨hp1, hp2⟩ := hc.nlp x s.pass hopt.1
      have hle := (loose_le h).1
      have hmin : min (o.nlp x s.pass).obj s.ub = (o.nlp x s.pass).obj := min_eq_left (le_of_lt (lt_of_lt_of_le hopt.2 hle))
      rw [hmin] at he' hlt
      subst he'
      have hst : ∀ z, p.feas z → p.f z < newCutoff c.eps (o.nlp x s.pass).obj → s.bound ≤ p.f z := fun z hz hz2 => hs z hz (lt_trans hz2 (lt_trans hlt hopt.2))
      refine ⟨⟨h.cutsOk, fun z hz hz2 => Or.inl (hst z hz hz2), Or.inr ⟨rfl, hlt, ?_, ?_⟩, ?_⟩, hst, rfl, rfl, fun _ => le_of_lt hlt⟩
      · exact (hopt.2.trans_le (loose_le h).2).le
      · exact ⟨(o.nlp x s.pass).pt, by simp, hp2⟩
      · intro y hy
        rcases List.mem_append.mp hy with hy | hy
        · obtain ⟨g1, g2⟩ := h.foundOk y hy
          exact ⟨g1, le_trans (le_of_lt (lt_of_lt_of_le hopt.2 hle)) g2⟩
        · rw [List.mem_singleton.mp hy]
          exact ⟨hp1, by rw [hp2]⟩
    · simp at he
  · rename_i hn
    have he' := Option.some.inj he
    subst he'
    exact ⟨h, hs, rfl, rfl, fun ho => not_lt.mp fun hlt => hn ⟨ho, hlt⟩⟩

theorem loose_lp {X κ : Type} {o : Oracles X κ} {c : OaCfg} {p : Problem X κ} {mu k0 : ℚ} {s s' : OaSt X κ} (hc : LooseContract o p mu) (hs : Strict p s) (x : X)
    (hv : (o.nlp x s.pass).optimal = true → s.cutoff ≤ (o.nlp x s.pass).obj) (h : LooseBase c p mu k0 s) (he : afterLp o s x (o.nlp x s.pass).pt = some s') :
    LooseBase c p mu k0 s' ∧ (Strict p s' ∨ Again p mu s') ∧ s'.cuts = s.cuts ++ o.cuts (o.nlp x s.pass).pt x s.pass ∧ s'.pass = s.pass ∧ s'.cutoff = s.cutoff := by
  unfold afterLp at he
  dsimp only at he
  split at he
  · simp at he
  · have hcut : ∀ k ∈ s.cuts ++ o.cuts (o.nlp x s.pass).pt x s.pass, ∀ z, p.feas z → p.sat k z := by
      intro k hk z hz
      rcases List.mem_append.mp hk with hk | hk
      · exact h.cutsOk k hk z hz
      · exact hc.valid _ _ k hk z hz
    split at he
    · have he' := Option.some.inj he
      subst he'
      exact ⟨⟨hcut, fun z hz hz2 => Or.inl (hs z hz hz2), h.ubOk, h.foundOk⟩, Or.inl hs, rfl, rfl, rfl⟩
    · rename_i hb
      simp only [Bool.or_eq_true, Bool.not_eq_true', not_or, Bool.not_eq_true, Bool.not_eq_false, Bool.and_eq_true, decide_eq_true_eq] at hb
      obtain ⟨⟨⟨h1, h2⟩, h3⟩, h4⟩ := hb
      have hm := hc.againLp (s.cuts ++ o.cuts (o.nlp x s.pass).pt x s.pass) s.cutoff s.pass x hv (fun k hk => List.mem_append_right _ hk) h1 h2 h4
      have hz : ∀ z, p.feas z → s.cutoff - mu ≤ p.f z := fun z hz => hm.trans (hc.lpBound _ _ _ z h1 h2 (fun k hk => hcut k hk z hz) hz)
      have he' := Option.some.inj he
      subst he'
      exact ⟨⟨hcut, fun z hz' _ => Or.inr (Or.inr (hz z hz')), h.ubOk, h.foundOk⟩, Or.inr ⟨rfl, rfl, hz⟩, rfl, rfl, rfl⟩

theorem loose_gap {X κ : Type} {c : OaCfg} {p : Problem X κ} {mu k0 : ℚ} {s : OaSt X κ} (h : LooseBase c p mu k0 s) (ha : Strict p s ∨ Again p mu s) :
    LooseBase c p mu k0 (afterGap c s) ∧ ((afterGap c s).feasible = false ∨ Strict p (afterGap c s) ∨ Again p mu (afterGap c s)) := by
  unfold afterGap
  split
  · rename_i hg
    have hs := gap_slack _ _ _ hg
    refine ⟨⟨h.cutsOk, ?_, h.ubOk, h.foundOk⟩, Or.inl rfl⟩
    intro z hz hz2
    rcases h.sound z hz hz2 with h1 | h1
    · exact Or.inr (Or.inl (lt_of_lt_of_le hs h1))
    · exact Or.inr h1
  · exact ⟨h, Or.inr ha⟩

theorem loose_local {X κ : Type} {o : Oracles X κ} {c : OaCfg} {p : Problem X κ} {mu k0 : ℚ} {s : OaSt X κ} (hc : LooseContract o p mu) (hk0 : k0 ≤ 10 ^ 200) (x : X)
    (hv : (o.nlp x s.pass).optimal = true → s.cutoff ≤ (o.nlp x s.pass).obj) (hcut : ∀ k ∈ o.cuts (o.nlp x s.pass).pt x s.pass, k ∈ s.cuts) (h : LooseBase c p mu k0 s)
    (ha : s.feasible = false ∨ Strict p s ∨ Again p mu s) :
    LooseBase c p mu k0 (localSearch o c s (o.nlp x s.pass).pt) ∧
      ((localSearch o c s (o.nlp x s.pass).pt).isInt = true → (localSearch o c s (o.nlp x s.pass).pt).feasible = true → Strict p (localSearch o c s (o.nlp x s.pass).pt)) := by
  unfold localSearch
  dsimp only
  split
  · rename_i hcond
    rcases ha with hf | hst | hag
    · rw [hcond.1] at hf; cases hf
    · have hb : ∀ z, p.feas z → p.f z < s.cutoff → max s.bound (o.milp s.cuts s.cutoff (s.pass + 1)).low ≤ p.f z := by
        intro z hz hz2
        exact max_le (hst z hz hz2) (hc.bound _ _ _ z (fun k hk => h.cutsOk k hk z hz) hz hz2)
      split
      · rename_i hsame
        refine ⟨⟨h.cutsOk, ?_, h.ubOk, h.foundOk⟩, fun _ hf => by simp at hf⟩
        intro z hz hz2
        right; right
        cases hsol : (o.milp s.cuts s.cutoff (s.pass + 1)).sol with
        | none => rw [hsol] at hsame; simp [sameInts] at hsame
        | some y =>
          have hd : o.differ01 (o.nlp x s.pass).pt y = false := by
            have := hsame.2
            rw [hsol] at this
            simpa [sameInts] using this
          have := hc.againMilp s.cuts s.cutoff s.pass x y hv hcut hsol hd
          exact this.trans ((le_max_right _ _).trans (hb z hz hz2))
      · split
        · exact ⟨⟨h.cutsOk, fun z hz hz2 => Or.inl (hb z hz hz2), h.ubOk, h.foundOk⟩, fun _ _ => hb⟩
        · rename_i hnot
          refine ⟨⟨h.cutsOk, ?_, h.ubOk, h.foundOk⟩, fun _ hf => by simp at hf⟩
          intro z hz hz2
          exact absurd (lt_of_le_of_lt (hb z hz hz2) hz2) hnot
    · obtain ⟨a1, a2, a3⟩ := hag
      have hbig : ¬ max s.bound (o.milp s.cuts s.cutoff (s.pass + 1)).low < s.cutoff := by
        intro hlt
        have h1 := lt_of_le_of_lt (le_max_left s.bound (o.milp s.cuts s.cutoff (s.pass + 1)).low) hlt
        rw [a2] at h1
        exact absurd (h1.trans_le ((loose_le h).2.trans hk0)) (lt_irrefl _)
      rw [if_neg (fun hx => hbig hx.1), if_neg hbig]
      exact ⟨⟨h.cutsOk, fun z hz _ => Or.inr (Or.inr (a3 z hz)), h.ubOk, h.foundOk⟩, fun _ hf => by simp at hf⟩
  · refine ⟨h, fun hi hf => ?_⟩
    rcases ha with hf' | hst | hag
    · rw [hf] at hf'; cases hf'
    · exact hst
    · rw [hag.1] at hi; cases hi

theorem loose_pass {X κ : Type} {o : Oracles X κ} {c : OaCfg} {p : Problem X κ} {mu k0 : ℚ} {s : OaSt X κ} {r : Bool × OaSt X κ} (hc : LooseContract o p mu) (hk0 : k0 ≤ 10 ^ 200)
    (hs : Strict p s) (h : LooseBase c p mu k0 s) (he : oaPass o c s = some r) :
    LooseBase c p mu k0 r.2 ∧ (r.1 = true → r.2.isInt = true → r.2.feasible = true → Strict p r.2) := by
  unfold oaPass at he
  split at he
  · simp at he
  · rename_i x hx
    dsimp only at he
    rw [Option.bind_eq_some_iff] at he
    obtain ⟨s1, h1, he⟩ := he
    rw [Option.map_eq_some_iff] at he
    obtain ⟨s2, h2, he⟩ := he
    obtain ⟨i1, f1, c1, p1, v1⟩ := loose_nlp hc hs x h h1
    rw [← p1] at h2 v1
    obtain ⟨i2, a2, c2, p2, v2⟩ := loose_lp hc f1 x v1 i1 h2
    have upd : ∀ t : OaSt X κ, LooseBase c p mu k0 t → LooseBase c p mu k0 { t with pass := t.pass + 1 } := fun t ht => ⟨ht.1, ht.2, ht.3, ht.4⟩
    split at he
    · rw [← he]; exact ⟨upd _ i2, fun hx => by cases hx⟩
    · obtain ⟨i3, a3⟩ := loose_gap i2 a2
      have hpass : (afterGap c s2).pass = s.pass := by
        have : (afterGap c s2).pass = s2.pass := by unfold afterGap; split <;> rfl
        rw [this, p2, p1]
      have hcuts : (afterGap c s2).cuts = s2.cuts := by unfold afterGap; split <;> rfl
      have hcutoff : (afterGap c s2).cutoff = s1.cutoff := by
        have : (afterGap c s2).cutoff = s2.cutoff := by unfold afterGap; split <;> rfl
        rw [this, v2]
      have := loose_local (o := o) hc hk0 x (s := afterGap c s2) (by rw [hpass, hcutoff, ← p1]; exact v1) (by
        intro k hk
        rw [hpass] at hk
        rw [hcuts, c2, p1]
        exact List.mem_append_right _ hk) i3 a3
      rw [hpass] at this
      rw [← he]
      exact ⟨upd _ this.1, fun _ hi hf => this.2 hi hf⟩

theorem loose_iter {X κ : Type} {o : Oracles X κ} {c : OaCfg} {p : Problem X κ} {mu k0 : ℚ} (hc : LooseContract o p mu) (hk0 : k0 ≤ 10 ^ 200) (n : Nat) : ∀ {s : OaSt X κ} {r : OaSt X κ ⊕ OaSt X κ},
    LooseBase c p mu k0 s → (s.isInt = true → s.feasible = true → Strict p s) → oaIter o c n s = some r → LooseBase c p mu k0 (r.elim id id) := by
  induction n with
  | zero => intro s r h _ he; rw [← Option.some.inj he]; exact h
  | succ n ih =>
    intro s r h hs he
    unfold oaIter at he
    split at he
    · rename_i hw
      simp only [Bool.and_eq_true] at hw
      rw [Option.bind_eq_some_iff] at he
      obtain ⟨q, hq, he⟩ := he
      have hi := loose_pass hc hk0 (hs hw.1 hw.2) h hq
      split at he
      · rename_i hgo
        exact ih hi.1 (hi.2 hgo) he
      · rw [← Option.some.inj he]; exact hi.1
    · rw [← Option.some.inj he]; exact h

/-- **C317.**  Under the contract with a margin, whenever the loop is left or looked at: every feasible point better than the cutoff by more than the margin has value at least the returned bound or lies within
the allowed gap of the upper bound; the points found are feasible, none is better than the upper bound, which is the value of one of them or the cutoff given. -/
theorem oa_sound_loose {X κ : Type} (o : Oracles X κ) (c : OaCfg) (p : Problem X κ) (mu : ℚ) (hc : LooseContract o p mu) (dmax : ℚ) (n : Nat) (cuts : List κ) (cutoff : ℚ) (nLocal nSols : Nat)
    (hm : 0 ≤ mu) (hk : cutoff ≤ 10 ^ 200) (hcuts : ∀ k ∈ cuts, ∀ z, p.feas z → p.sat k z) (hd : ∀ z, p.feas z → -dmax ≤ p.f z) (r : OaSt X κ ⊕ OaSt X κ) (t : OaSt X κ)
    (h : performOa o c dmax n cuts cutoff nLocal nSols = some r) (ht : t = r.elim id id) :
    (∀ z, p.feas z → p.f z < t.cutoff - mu → t.bound ≤ p.f z ∨ t.ub - slack c.gapTol t.ub < p.f z) ∧
    (∀ x ∈ t.found, p.feas x ∧ t.ub ≤ p.f x) ∧
    ((t.found = [] ∧ t.ub = cutoff ∧ t.cutoff = cutoff) ∨ (t.cutoff = newCutoff c.eps t.ub ∧ t.cutoff < t.ub ∧ t.ub ≤ cutoff ∧ ∃ x ∈ t.found, p.f x = t.ub)) := by
  have hb : ∀ z, p.feas z → p.f z < cutoff → max (-dmax) (o.milp cuts cutoff 0).low ≤ p.f z := by
    intro z hz hz2
    exact max_le (hd z hz) (hc.bound _ _ _ z (fun k hk => hcuts k hk z hz) hz hz2)
  have h0 : LooseBase c p mu cutoff (oaInit o dmax cuts cutoff nLocal nSols) := ⟨hcuts, fun z hz hz2 => Or.inl (hb z hz hz2), Or.inl ⟨rfl, rfl, rfl⟩, by simp [oaInit]⟩
  have := loose_iter hc hk n h0 (fun _ _ => hb) h
  rw [← ht] at this
  refine ⟨fun z hz hz2 => ?_, this.foundOk, this.ubOk⟩
  rcases this.sound z hz (by linarith) with h1 | h1 | h1
  · exact Or.inl h1
  · exact Or.inr h1
  · exact absurd hz2 (not_lt.mpr h1)

/-! ## The cuts -/

/-- What an entry of a gradient adds to the upper right-hand side of its cut (BonOsiTMINLPInterface.cpp:1881-1919): entries below `tiny` are left out and estimated with a bound of their column, unless the row
has a lower side too (`other`); those below `vt` are left out silently. -/
def upTerm (P : Prob) (vt : ℚ) (other : Prop) [Decidable other] (x : ℕ → ℚ) (e : ℕ × ℚ) : ℚ :=
  if P.T.tiny ≤ |e.2| then e.2 * x e.1 else if |e.2| < vt then 0 else if other then e.2 * x e.1
  else if 0 < e.2 then e.2 * (x e.1 - P.cl e.1) else e.2 * (x e.1 - P.cu e.1)

/-- The same for the lower right-hand side; `other`: the row has an upper side too. -/
def loTerm (P : Prob) (vt : ℚ) (other : Prop) [Decidable other] (x : ℕ → ℚ) (e : ℕ × ℚ) : ℚ :=
  if P.T.tiny ≤ |e.2| then e.2 * x e.1 else if |e.2| < vt then 0 else if other then e.2 * x e.1
  else if 0 < e.2 then e.2 * (x e.1 - P.cu e.1) else e.2 * (x e.1 - P.cl e.1)

/-- What all entries add. -/
def upSum (P : Prob) (vt : ℚ) (other : Prop) [Decidable other] (x : ℕ → ℚ) (es : List (ℕ × ℚ)) : ℚ := (es.map (upTerm P vt other x)).sum
/-- What all entries add. -/
def loSum (P : Prob) (vt : ℚ) (other : Prop) [Decidable other] (x : ℕ → ℚ) (es : List (ℕ × ℚ)) : ℚ := (es.map (loTerm P vt other x)).sum

/-- What leaving out small entries can cost: each at most its size times the width of its column. -/
def dropBy (P : Prob) (es : List (ℕ × ℚ)) : ℚ := (es.map fun e => if P.T.tiny ≤ |e.2| then 0 else |e.2| * (P.cu e.1 - P.cl e.1)).sum

/-- By how much the upper side of the cut for row `i` at `x` is relaxed (BonOsiTMINLPInterface.cpp:2043-2044): `oa_rhs_relax` times the size of its right-hand side, at least `oa_rhs_relax`. -/
def relaxBy (P : Prob) (x : Pt P) (i : ℕ) : ℚ := P.T.relax * max |P.ru i - P.G i x.1 + upSum P P.T.vt (-P.T.infM < P.rl i) x.1 (rowEntries (P.jac x.1) i)| 1

/-- A nonzero entry below `tiny` belongs to a column with two finite bounds. -/
def Bounded (P : Prob) (e : ℕ × ℚ) : Prop := e.2 = 0 ∨ P.T.tiny ≤ |e.2| ∨ (-P.T.infM < P.cl e.1 ∧ P.cu e.1 < P.T.infM)

/-- The cuts at the points `L` are those of the first-order expansions up to relaxation and small entries: nonzero small derivatives belong to bounded columns, no sum (nor a relaxed right-hand side) runs into the
infinity value. -/
structure Plain (P : Prob) (L : Pt P → Prop) : Prop where
  tols : 0 < P.T.tiny ∧ 0 < P.T.vt ∧ 0 < P.vt ∧ P.T.infM ≤ P.T.inf
  jacBig : ∀ x, L x → ∀ t ∈ P.jac x.1, Bounded P t.2
  gradBig : ∀ x, L x → ∀ e ∈ P.grad x.1, Bounded P e
  upFin : ∀ i < P.m, P.ru i < P.T.infM → ∀ x, L x → ∀ p, p <+: rowEntries (P.jac x.1) i → P.ru i - P.G i x.1 + upSum P P.T.vt (-P.T.infM < P.rl i) x.1 p < P.T.inf
  upRelax : ∀ i < P.m, P.ru i < P.T.infM → ∀ x, L x →
    P.ru i - P.G i x.1 + upSum P P.T.vt (-P.T.infM < P.rl i) x.1 (rowEntries (P.jac x.1) i) + relaxBy P x i < P.T.inf
  loFin : ∀ i < P.m, -P.T.infM < P.rl i → ∀ x, L x → ∀ p, p <+: rowEntries (P.jac x.1) i →
    -P.T.inf < P.rl i - P.G i x.1 + loSum P P.T.vt (P.ru i < P.T.infM) x.1 p ∧ P.rl i - P.G i x.1 + loSum P P.T.vt (P.ru i < P.T.infM) x.1 p ≤ P.T.inf
  objFin : ∀ x, L x → upSum P P.vt False x.1 (P.grad x.1) - P.F x.1 < P.T.inf

/-- `z` satisfies the linear rows, and the expansion at `x` of the nonlinear rows on the sides that are linearised, up to small entries and, on the upper sides, the relaxation. -/
def LinearisedR (P : Prob) (dual : ℕ → ℚ) (x z : Pt P) : Prop :=
  ∀ i < P.m, (P.nonlin i = false → InRow P.T.infM (rowAt P dual x i) (P.G i z.1)) ∧
    (P.nonlin i = true → (UsesUp P.T (rowAt P dual x i) → expand P i x z ≤ P.ru i + relaxBy P x i + dropBy P (rowEntries (P.jac x.1) i)) ∧
      (UsesLo P.T (rowAt P dual x i) → P.rl i - dropBy P (rowEntries (P.jac x.1) i) ≤ expand P i x z))

/-- Two points in a bounded column differ by at most its width. -/
theorem in_width {P : Prob} (x z : Pt P) {j : ℕ} (h : -P.T.infM < P.cl j ∧ P.cu j < P.T.infM) : P.cl j ≤ x.1 j ∧ x.1 j ≤ P.cu j ∧ P.cl j ≤ z.1 j ∧ z.1 j ≤ P.cu j :=
  ⟨(x.2 j).1 h.1, (x.2 j).2 h.2, (z.2 j).1 h.1, (z.2 j).2 h.2⟩

theorem abs_cases (v : ℚ) : (0 < v ∧ |v| = v) ∨ (v ≤ 0 ∧ |v| = -v) := by
  rcases lt_or_ge 0 v with h | h
  · exact Or.inl ⟨h, abs_of_pos h⟩
  · exact Or.inr ⟨h, abs_of_nonpos h⟩

/-- One entry of a row with an upper side. -/
theorem step_up {P : Prob} (h0 : 0 < P.T.tiny) (h1 : 0 < P.T.vt) (x z : Pt P) (r : RowData) (hu : r.ru < P.T.infM) (e : ℕ × ℚ) (he : Bounded P e) (c : Cut) (hc : c.ub < P.T.inf) :
    (oaStep P.T P.cl P.cu x.1 r c e).ub = c.ub + upTerm P P.T.vt (-P.T.infM < r.rl) x.1 e ∧
    act c.co z.1 - c.ub + e.2 * (z.1 e.1 - x.1 e.1) - (if P.T.tiny ≤ |e.2| then 0 else |e.2| * (P.cu e.1 - P.cl e.1)) ≤
      act (oaStep P.T P.cl P.cu x.1 r c e).co z.1 - (oaStep P.T P.cl P.cu x.1 r c e).ub := by
  have happ : ∀ co, act (co ++ [e]) z.1 = act co z.1 + e.2 * z.1 e.1 := by intro co; simp [act]
  by_cases hb : P.T.tiny ≤ |e.2|
  · rw [oaStep_big hb]
    simp only [hc, if_true, upTerm, hb, happ]
    exact ⟨trivial, by linarith⟩
  by_cases hz : e.2 = 0
  · rw [oaStep_zero h0 h1 hz]
    simp only [upTerm, hz, abs_zero, h1, not_le.mpr h0, if_true, if_false]
    exact ⟨by ring, by simp⟩
  have hw := in_width x z ((he.resolve_left hz).resolve_left hb)
  have hfin := (he.resolve_left hz).resolve_left hb
  by_cases hv : |e.2| < P.T.vt
  · have hk : cleanO P.T.infM P.T.tiny P.T.vt e.2 (P.cl e.1) (P.cu e.1) r.rl r.ru (x.1 e.1) c.lb c.ub = ⟨false, e.2, c.lb, c.ub⟩ := by
      unfold cleanO; rw [if_neg hb, if_pos hv]
    simp only [oaStep, hk, upTerm, hb, hv, if_true, if_false, Bool.false_eq_true]
    refine ⟨by ring, ?_⟩
    rcases abs_cases e.2 with ⟨a1, a2⟩ | ⟨a1, a2⟩ <;> rw [a2] <;> nlinarith
  by_cases ho : -P.T.infM < r.rl
  · have hk : cleanO P.T.infM P.T.tiny P.T.vt e.2 (P.cl e.1) (P.cu e.1) r.rl r.ru (x.1 e.1) c.lb c.ub = ⟨true, e.2, c.lb, c.ub⟩ := by
      unfold cleanO
      rw [if_neg hb, if_neg hv, if_neg (fun h => absurd h.2.2 (not_le.mpr hu)), if_neg (fun h => absurd h.2.2 (not_le.mpr ho)), if_neg (fun h => absurd h.2.2 (not_le.mpr hu)),
        if_neg (fun h => absurd h.2.2 (not_le.mpr ho))]
    simp only [oaStep, hk, upTerm, hb, hv, ho, hc, if_true, if_false, happ]
    have := mul_nonneg (abs_nonneg e.2) (by linarith [hw.1, hw.2.1] : 0 ≤ P.cu e.1 - P.cl e.1)
    exact ⟨trivial, by linarith⟩
  · rcases abs_cases e.2 with ⟨a1, a2⟩ | ⟨a1, a2⟩
    · have hk : cleanO P.T.infM P.T.tiny P.T.vt e.2 (P.cl e.1) (P.cu e.1) r.rl r.ru (x.1 e.1) c.lb c.ub = ⟨false, e.2, c.lb, c.ub + e.2 * (x.1 e.1 - P.cl e.1)⟩ := by
        unfold cleanO
        rw [if_neg hb, if_neg hv, if_neg (fun h => absurd h.2.2 (not_le.mpr hu)), if_neg (fun h => h.2.1 a1), if_neg (fun h => absurd h.2.2 (not_le.mpr hu)),
          if_pos ⟨hfin.1, a1, not_lt.mp ho⟩]
      simp only [oaStep, hk, upTerm, hb, hv, ho, a1, if_true, if_false, Bool.false_eq_true]
      refine ⟨trivial, ?_⟩
      rw [a2]; nlinarith
    · have hk : cleanO P.T.infM P.T.tiny P.T.vt e.2 (P.cl e.1) (P.cu e.1) r.rl r.ru (x.1 e.1) c.lb c.ub = ⟨false, e.2, c.lb, c.ub + e.2 * (x.1 e.1 - P.cu e.1)⟩ := by
        unfold cleanO
        rw [if_neg hb, if_neg hv, if_neg (fun h => absurd h.2.2 (not_le.mpr hu)), if_pos ⟨hfin.2, not_lt.mpr a1, not_lt.mp ho⟩]
      simp only [oaStep, hk, upTerm, hb, hv, ho, not_lt.mpr a1, if_false, Bool.false_eq_true]
      refine ⟨trivial, ?_⟩
      rw [a2]; nlinarith

/-- One entry of a row with a lower side. -/
theorem step_lo {P : Prob} (h0 : 0 < P.T.tiny) (h1 : 0 < P.T.vt) (x z : Pt P) (r : RowData) (hl : -P.T.infM < r.rl) (e : ℕ × ℚ) (he : Bounded P e) (c : Cut) (hc : -P.T.inf < c.lb) :
    (oaStep P.T P.cl P.cu x.1 r c e).lb = c.lb + loTerm P P.T.vt (r.ru < P.T.infM) x.1 e ∧
    c.lb - act c.co z.1 - e.2 * (z.1 e.1 - x.1 e.1) - (if P.T.tiny ≤ |e.2| then 0 else |e.2| * (P.cu e.1 - P.cl e.1)) ≤
      (oaStep P.T P.cl P.cu x.1 r c e).lb - act (oaStep P.T P.cl P.cu x.1 r c e).co z.1 := by
  have happ : ∀ co, act (co ++ [e]) z.1 = act co z.1 + e.2 * z.1 e.1 := by intro co; simp [act]
  by_cases hb : P.T.tiny ≤ |e.2|
  · rw [oaStep_big hb]
    simp only [gt_iff_lt, hc, if_true, loTerm, hb, happ]
    exact ⟨trivial, by linarith⟩
  by_cases hz : e.2 = 0
  · rw [oaStep_zero h0 h1 hz]
    simp only [loTerm, hz, abs_zero, h1, not_le.mpr h0, if_true, if_false]
    exact ⟨by ring, by simp⟩
  have hw := in_width x z ((he.resolve_left hz).resolve_left hb)
  have hfin := (he.resolve_left hz).resolve_left hb
  by_cases hv : |e.2| < P.T.vt
  · have hk : cleanO P.T.infM P.T.tiny P.T.vt e.2 (P.cl e.1) (P.cu e.1) r.rl r.ru (x.1 e.1) c.lb c.ub = ⟨false, e.2, c.lb, c.ub⟩ := by
      unfold cleanO; rw [if_neg hb, if_pos hv]
    simp only [oaStep, hk, loTerm, hb, hv, if_true, if_false, Bool.false_eq_true]
    refine ⟨by ring, ?_⟩
    rcases abs_cases e.2 with ⟨a1, a2⟩ | ⟨a1, a2⟩ <;> rw [a2] <;> nlinarith
  by_cases ho : r.ru < P.T.infM
  · have hk : cleanO P.T.infM P.T.tiny P.T.vt e.2 (P.cl e.1) (P.cu e.1) r.rl r.ru (x.1 e.1) c.lb c.ub = ⟨true, e.2, c.lb, c.ub⟩ := by
      unfold cleanO
      rw [if_neg hb, if_neg hv, if_neg (fun h => absurd h.2.2 (not_le.mpr ho)), if_neg (fun h => absurd h.2.2 (not_le.mpr hl)), if_neg (fun h => absurd h.2.2 (not_le.mpr ho)),
        if_neg (fun h => absurd h.2.2 (not_le.mpr hl))]
    simp only [oaStep, hk, loTerm, hb, hv, ho, gt_iff_lt, hc, if_true, if_false, happ]
    have := mul_nonneg (abs_nonneg e.2) (by linarith [hw.1, hw.2.1] : 0 ≤ P.cu e.1 - P.cl e.1)
    exact ⟨trivial, by linarith⟩
  · rcases abs_cases e.2 with ⟨a1, a2⟩ | ⟨a1, a2⟩
    · have hk : cleanO P.T.infM P.T.tiny P.T.vt e.2 (P.cl e.1) (P.cu e.1) r.rl r.ru (x.1 e.1) c.lb c.ub = ⟨false, e.2, c.lb + e.2 * (x.1 e.1 - P.cu e.1), c.ub⟩ := by
        unfold cleanO
        rw [if_neg hb, if_neg hv, if_pos ⟨hfin.2, a1, not_lt.mp ho⟩]
      simp only [oaStep, hk, loTerm, hb, hv, ho, a1, if_true, if_false, Bool.false_eq_true]
      refine ⟨trivial, ?_⟩
      rw [a2]; nlinarith
    · have hk : cleanO P.T.infM P.T.tiny P.T.vt e.2 (P.cl e.1) (P.cu e.1) r.rl r.ru (x.1 e.1) c.lb c.ub = ⟨false, e.2, c.lb + e.2 * (x.1 e.1 - P.cl e.1), c.ub⟩ := by
        unfold cleanO
        rw [if_neg hb, if_neg hv, if_neg (fun h => absurd h.2.1 (not_lt.mpr a1)), if_neg (fun h => absurd h.2.2 (not_le.mpr hl)), if_pos ⟨hfin.1, not_lt.mpr a1, not_lt.mp ho⟩]
      simp only [oaStep, hk, loTerm, hb, hv, ho, not_lt.mpr a1, if_false, Bool.false_eq_true]
      refine ⟨trivial, ?_⟩
      rw [a2]; nlinarith

/-- All entries of a row with an upper side. -/
theorem fold_up {P : Prob} (h0 : 0 < P.T.tiny) (h1 : 0 < P.T.vt) (x z : Pt P) (r : RowData) (hu : r.ru < P.T.infM) : ∀ (es : List (ℕ × ℚ)), (∀ e ∈ es, Bounded P e) → ∀ c : Cut,
    (∀ p, p <+: es → c.ub + upSum P P.T.vt (-P.T.infM < r.rl) x.1 p < P.T.inf) →
    (es.foldl (oaStep P.T P.cl P.cu x.1 r) c).ub = c.ub + upSum P P.T.vt (-P.T.infM < r.rl) x.1 es ∧
    act c.co z.1 - c.ub + lin es x.1 z.1 - dropBy P es ≤ act (es.foldl (oaStep P.T P.cl P.cu x.1 r) c).co z.1 - (es.foldl (oaStep P.T P.cl P.cu x.1 r) c).ub
  | [], _, c, _ => by simp [upSum, lin, dropBy]
  | e :: es, he, c, hp => by
    have hs : ∀ p, upSum P P.T.vt (-P.T.infM < r.rl) x.1 (e :: p) = upTerm P P.T.vt (-P.T.infM < r.rl) x.1 e + upSum P P.T.vt (-P.T.infM < r.rl) x.1 p := by intro p; simp [upSum]
    obtain ⟨s1, s2⟩ := step_up h0 h1 x z r hu e (he e List.mem_cons_self) c (by simpa [upSum] using hp [] List.nil_prefix)
    obtain ⟨i1, i2⟩ := fold_up h0 h1 x z r hu es (fun e' h => he e' (List.mem_cons_of_mem _ h)) (oaStep P.T P.cl P.cu x.1 r c e) (fun p hpp => by
      have := hp (e :: p) (List.cons_prefix_cons.mpr ⟨rfl, hpp⟩)
      rw [hs] at this
      rw [s1]; linarith)
    rw [List.foldl_cons]
    refine ⟨by rw [i1, s1, hs]; ring, ?_⟩
    have hl : lin (e :: es) x.1 z.1 = e.2 * (z.1 e.1 - x.1 e.1) + lin es x.1 z.1 := by simp [lin]
    have hd : dropBy P (e :: es) = (if P.T.tiny ≤ |e.2| then 0 else |e.2| * (P.cu e.1 - P.cl e.1)) + dropBy P es := by simp [dropBy]
    rw [hl, hd]
    linarith

/-- All entries of a row with a lower side. -/
theorem fold_lo {P : Prob} (h0 : 0 < P.T.tiny) (h1 : 0 < P.T.vt) (x z : Pt P) (r : RowData) (hl : -P.T.infM < r.rl) : ∀ (es : List (ℕ × ℚ)), (∀ e ∈ es, Bounded P e) → ∀ c : Cut,
    (∀ p, p <+: es → -P.T.inf < c.lb + loSum P P.T.vt (r.ru < P.T.infM) x.1 p) →
    (es.foldl (oaStep P.T P.cl P.cu x.1 r) c).lb = c.lb + loSum P P.T.vt (r.ru < P.T.infM) x.1 es ∧
    c.lb - act c.co z.1 - lin es x.1 z.1 - dropBy P es ≤ (es.foldl (oaStep P.T P.cl P.cu x.1 r) c).lb - act (es.foldl (oaStep P.T P.cl P.cu x.1 r) c).co z.1
  | [], _, c, _ => by simp [loSum, lin, dropBy]
  | e :: es, he, c, hp => by
    have hs : ∀ p, loSum P P.T.vt (r.ru < P.T.infM) x.1 (e :: p) = loTerm P P.T.vt (r.ru < P.T.infM) x.1 e + loSum P P.T.vt (r.ru < P.T.infM) x.1 p := by intro p; simp [loSum]
    obtain ⟨s1, s2⟩ := step_lo h0 h1 x z r hl e (he e List.mem_cons_self) c (by simpa [loSum] using hp [] List.nil_prefix)
    obtain ⟨i1, i2⟩ := fold_lo h0 h1 x z r hl es (fun e' h => he e' (List.mem_cons_of_mem _ h)) (oaStep P.T P.cl P.cu x.1 r c e) (fun p hpp => by
      have := hp (e :: p) (List.cons_prefix_cons.mpr ⟨rfl, hpp⟩)
      rw [hs] at this
      rw [s1]; linarith)
    rw [List.foldl_cons]
    refine ⟨by rw [i1, s1, hs]; ring, ?_⟩
    have hli : lin (e :: es) x.1 z.1 = e.2 * (z.1 e.1 - x.1 e.1) + lin es x.1 z.1 := by simp [lin]
    have hd : dropBy P (e :: es) = (if P.T.tiny ≤ |e.2| then 0 else |e.2| * (P.cu e.1 - P.cl e.1)) + dropBy P es := by simp [dropBy]
    rw [hli, hd]
    linarith

/-- **C317.**  A point that satisfies the objective cut has an objective variable not below the expansion of the objective, up to small entries. -/
theorem obj_means {P : Prob} {L : Pt P → Prop} (hS : Shape P) (hE : Plain P L) (x z : Pt P) (hL : L x)
    (hs : Sat P.T.inf (objOa P.T P.vt P.cl P.cu x.1 P.n (P.F x.1) (P.grad x.1)) z.1) : P.F x.1 + lin (P.grad x.1) x.1 z.1 - dropBy P (P.grad x.1) ≤ z.1 P.n := by
  have hs := hs.2
  obtain ⟨o1, _, o3⟩ := objOa_exact (T := P.T) (vt := P.vt) (cl := P.cl) (cu := P.cu) (x := x.1) hS.inf hE.tols.2.2.2 P.n (P.F x.1) (P.grad x.1)
  have ha : ∀ (es : List (ℕ × ℚ)), (∀ e ∈ es, Bounded P e) →
      (es.map fun e => if KeptInObj P.T P.vt P.cl P.cu e then e.2 * x.1 e.1 else if |e.2| < P.vt then 0
        else if 0 < e.2 then e.2 * (x.1 e.1 - P.cl e.1) else e.2 * (x.1 e.1 - P.cu e.1)).sum = upSum P P.vt False x.1 es ∧
      lin es x.1 z.1 - dropBy P es ≤ act (es.filter fun e => decide (KeptInObj P.T P.vt P.cl P.cu e)) z.1 - upSum P P.vt False x.1 es := by
    intro es
    induction es with
    | nil => intro _; simp [act, upSum, lin, dropBy]
    | cons e es ih =>
      intro hes
      obtain ⟨i1, i2⟩ := ih (fun e' he => hes e' (List.mem_cons_of_mem _ he))
      have hsum : upSum P P.vt False x.1 (e :: es) = upTerm P P.vt False x.1 e + upSum P P.vt False x.1 es := by simp [upSum]
      have hl : lin (e :: es) x.1 z.1 = e.2 * (z.1 e.1 - x.1 e.1) + lin es x.1 z.1 := by simp [lin]
      have hd : dropBy P (e :: es) = (if P.T.tiny ≤ |e.2| then 0 else |e.2| * (P.cu e.1 - P.cl e.1)) + dropBy P es := by simp [dropBy]
      rw [List.map_cons, List.sum_cons, i1, hsum, hl, hd, List.filter_cons]
      have hcons : act (e :: es.filter fun e => decide (KeptInObj P.T P.vt P.cl P.cu e)) z.1 = e.2 * z.1 e.1 + act (es.filter fun e => decide (KeptInObj P.T P.vt P.cl P.cu e)) z.1 := by simp [act]
      by_cases hb : P.T.tiny ≤ |e.2|
      · have hk : KeptInObj P.T P.vt P.cl P.cu e := Or.inl hb
        rw [if_pos hk, if_pos (decide_eq_true hk), hcons]
        simp only [upTerm, hb, if_true]
        exact ⟨trivial, by linarith⟩
      by_cases hz : e.2 = 0
      · have hk : ¬ KeptInObj P.T P.vt P.cl P.cu e := by
          rintro (h | ⟨h, -⟩)
          · exact hb h
          · rw [hz, abs_zero] at h; exact absurd h (not_le.mpr hE.tols.2.2.1)
        rw [if_neg hk, if_neg (fun h => hk (of_decide_eq_true h))]
        simp only [upTerm, hz, abs_zero, hE.tols.2.2.1, not_le.mpr hE.tols.1, if_true, if_false]
        exact ⟨trivial, by linarith⟩
      have hfin := ((hes e List.mem_cons_self).resolve_left hz).resolve_left hb
      have hw := in_width x z hfin
      have hk : ¬ KeptInObj P.T P.vt P.cl P.cu e := by
        rintro (h | ⟨-, h, h'⟩)
        · exact hb h
        · rcases abs_cases e.2 with ⟨a1, _⟩ | ⟨a1, _⟩
          · exact absurd (h a1) (not_le.mpr hfin.1)
          · exact absurd (h' a1) (not_le.mpr hfin.2)
      rw [if_neg hk, if_neg (fun h => hk (of_decide_eq_true h))]
      simp only [upTerm, hb, if_false]
      refine ⟨trivial, ?_⟩
      rcases abs_cases e.2 with ⟨a1, a2⟩ | ⟨a1, a2⟩
      · by_cases hv : |e.2| < P.vt
        · rw [if_pos hv, a2]; nlinarith
        · rw [if_neg hv, if_pos a1, a2]; nlinarith
      · by_cases hv : |e.2| < P.vt
        · rw [if_pos hv, a2]; nlinarith
        · rw [if_neg hv, if_neg (not_lt.mpr a1), a2]; nlinarith
  obtain ⟨a1, a2⟩ := ha _ (hE.gradBig x hL)
  rw [o1, o3, a1, act_append, act_single] at hs
  have := hE.objFin x hL
  rcases hs with hs | hs <;> linarith

/-- **C317.**  A point satisfies all cuts made at `x` (without a second point), relaxed as the interface relaxes them and without the small entries it leaves out, only if it satisfies the expansions of the
nonlinear rows on the sides used, the upper ones up to `relaxBy`, and its objective variable is not below the expansion of the objective, all up to `dropBy`. -/
theorem cuts_mean_relaxed {P : Prob} {L : Pt P → Prop} (hS : Shape P) (hE : Plain P L) (dual : ℕ → ℚ) (theta : ℚ) (lp : Bool) (x z : Pt P) (hL : L x)
    (h : ∀ c ∈ cutsAt P dual none theta lp x, Sat P.T.inf c z.1) :
    (∀ i < P.m, P.nonlin i = true → (UsesUp P.T (rowAt P dual x i) → expand P i x z ≤ P.ru i + relaxBy P x i + dropBy P (rowEntries (P.jac x.1) i)) ∧
      (UsesLo P.T (rowAt P dual x i) → P.rl i - dropBy P (rowEntries (P.jac x.1) i) ≤ expand P i x z)) ∧
    P.F x.1 + lin (P.grad x.1) x.1 z.1 - dropBy P (P.grad x.1) ≤ z.1 P.n := by
  have hj : ∀ t ∈ P.jac x.1, t.1 < ((List.range P.m).map (rowAt P dual x)).length := by simpa using hS.rows x
  have hrows := oa_rows_exact (T := P.T) (cl := P.cl) (cu := P.cu) (x := x.1) hj theta lp
  have hall := (oa_exact (T := P.T) (cl := P.cl) (cu := P.cu) (x := x.1) (rows := (List.range P.m).map (rowAt P dual x)) (jac := P.jac x.1) none theta lp).2 P.n (P.F x.1)
    (P.grad x.1) P.vt _ hrows
  have hc : cutsAt P dual none theta lp x = (nlRows ((List.range P.m).map (rowAt P dual x)) 0).map (fun p => relaxRhs P.T (rowOa P.T P.cl P.cu x.1 p.1 (rowEntries (P.jac x.1) p.2))) ++
      [objOa P.T P.vt P.cl P.cu x.1 P.n (P.F x.1) (P.grad x.1)] := by
    unfold cutsAt
    rw [Option.map_none, hall]
    simp
  rw [hc] at h
  refine ⟨fun i hi hn => ?_, obj_means hS hE x z hL (h _ (by simp))⟩
  have hs := h (relaxRhs P.T (rowOa P.T P.cl P.cu x.1 (rowAt P dual x i) (rowEntries (P.jac x.1) i))) (by
    refine List.mem_append_left _ (List.mem_map.mpr ⟨(rowAt P dual x i, i), ?_, rfl⟩)
    unfold nlRows
    refine List.mem_filter.mpr ⟨List.mem_zipIdx_iff_getElem?.mpr ?_, hn⟩
    exact (row_get P dual x i _).mpr ⟨hi, rfl⟩)
  obtain ⟨r1, r2, _, r4⟩ := relaxRhs_exact P.T (rowOa P.T P.cl P.cu x.1 (rowAt P dual x i) (rowEntries (P.jac x.1) i))
  have hbd : ∀ e ∈ rowEntries (P.jac x.1) i, Bounded P e := fun e he => hE.jacBig x hL _ (mem_rowEntries he)
  have hco0 : act (initCut P.T (rowAt P dual x i)).co z.1 = 0 := by rw [initCut_co]; rfl
  obtain ⟨h1, h2⟩ := hs
  rw [r1] at h1 h2
  unfold expand
  constructor
  · intro hu
    have hf := hE.upFin i hi hu.1 x hL
    have hub0 : (initCut P.T (rowAt P dual x i)).ub = P.ru i - P.G i x.1 := initCut_ub_of_uses hu
    obtain ⟨f1, f2⟩ := fold_up hE.tols.1 hE.tols.2.1 x z (rowAt P dual x i) hu.1 _ hbd (initCut P.T (rowAt P dual x i)) (fun p hp => by rw [hub0]; exact hf p hp)
    change (rowOa P.T P.cl P.cu x.1 (rowAt P dual x i) (rowEntries (P.jac x.1) i)).ub = _ at f1
    change _ ≤ act (rowOa P.T P.cl P.cu x.1 (rowAt P dual x i) (rowEntries (P.jac x.1) i)).co z.1 - (rowOa P.T P.cl P.cu x.1 (rowAt P dual x i) (rowEntries (P.jac x.1) i)).ub at f2
    rw [hub0] at f1 f2
    rw [f1, hco0] at f2
    have hb := hf _ (List.prefix_refl _)
    rw [r2 (by rw [f1]; exact hb), f1] at h2
    have hr := hE.upRelax i hi hu.1 x hL
    change P.T.inf ≤ P.ru i - P.G i x.1 + upSum P P.T.vt (-P.T.infM < P.rl i) x.1 _ + relaxBy P x i ∨ _ ≤ P.ru i - P.G i x.1 + upSum P P.T.vt (-P.T.infM < P.rl i) x.1 _ + relaxBy P x i at h2
    change 0 - _ + _ - _ ≤ _ - (P.ru i - P.G i x.1 + upSum P P.T.vt (-P.T.infM < P.rl i) x.1 _) at f2
    rcases h2 with h2 | h2
    · linarith
    · linarith
  · intro hl
    have hf := hE.loFin i hi hl.1 x hL
    have hlb0 : (initCut P.T (rowAt P dual x i)).lb = P.rl i - P.G i x.1 := initCut_lb_of_uses hl
    obtain ⟨f1, f2⟩ := fold_lo hE.tols.1 hE.tols.2.1 x z (rowAt P dual x i) hl.1 _ hbd (initCut P.T (rowAt P dual x i)) (fun p hp => by rw [hlb0]; exact (hf p hp).1)
    change (rowOa P.T P.cl P.cu x.1 (rowAt P dual x i) (rowEntries (P.jac x.1) i)).lb = _ at f1
    change _ ≤ (rowOa P.T P.cl P.cu x.1 (rowAt P dual x i) (rowEntries (P.jac x.1) i)).lb - act (rowOa P.T P.cl P.cu x.1 (rowAt P dual x i) (rowEntries (P.jac x.1) i)).co z.1 at f2
    rw [hlb0] at f1 f2
    rw [f1, hco0] at f2
    obtain ⟨hb, hb2⟩ := hf _ (List.prefix_refl _)
    rw [r4 (by rw [f1]; exact hb2), f1] at h1
    change P.rl i - P.G i x.1 + loSum P P.T.vt (P.ru i < P.T.infM) x.1 _ ≤ _ ∨ P.rl i - P.G i x.1 + loSum P P.T.vt (P.ru i < P.T.infM) x.1 _ ≤ _ at h1
    change _ ≤ P.rl i - P.G i x.1 + loSum P P.T.vt (P.ru i < P.T.infM) x.1 _ - _ at f2
    rcases h1 with h1 | h1
    · linarith
    · linarith

/-! ## First-order conditions with multipliers -/

/-- What a set of multipliers `lam` with error `eps` in the stationarity leaves open at `x`: the relaxations and the complementarity gaps, weighted. -/
def margin (P : Prob) (x : Pt P) (lam : ℕ → ℚ) (eps : ℚ) : ℚ :=
  eps + ((List.range P.m).map fun i => if P.nonlin i then max (lam i) 0 * (P.ru i - P.G i x.1 + relaxBy P x i + dropBy P (rowEntries (P.jac x.1) i)) + max (-lam i) 0 * (P.G i x.1 - P.rl i + dropBy P (rowEntries (P.jac x.1) i)) else 0).sum

/-- Multipliers of the linearised rows at `x`, with weight `w` of the objective (1 at an optimum, 0 at an infeasible point), stationary up to `eps` over the points with the same integers that satisfy the
linear rows; they use only the sides that are linearised. -/
structure Kkt (P : Prob) (ints : Pt P → List ℚ) (dual : ℕ → ℚ) (x : Pt P) (w : ℚ) (lam : ℕ → ℚ) (eps : ℚ) : Prop where
  stat : ∀ z, ints z = ints x → (∀ i < P.m, P.nonlin i = false → InRow P.T.infM (rowAt P dual x i) (P.G i z.1)) →
    -eps ≤ w * lin (P.grad x.1) x.1 z.1 + ((List.range P.m).map fun i => if P.nonlin i then lam i * lin (rowEntries (P.jac x.1) i) x.1 z.1 else 0).sum
  up : ∀ i < P.m, P.nonlin i = true → 0 < lam i → UsesUp P.T (rowAt P dual x i)
  lo : ∀ i < P.m, P.nonlin i = true → lam i < 0 → UsesLo P.T (rowAt P dual x i)

theorem sum_le_of_le {l : List ℕ} {f g : ℕ → ℚ} (h : ∀ i ∈ l, f i ≤ g i) : (l.map f).sum ≤ (l.map g).sum := by
  induction l with
  | nil => simp
  | cons a l ih =>
    rw [List.map_cons, List.map_cons, List.sum_cons, List.sum_cons]
    exact add_le_add (h a List.mem_cons_self) (ih fun i hi => h i (List.mem_cons_of_mem _ hi))

/-- **C317.**  With multipliers, no point with the integers of the NLP that satisfies the relaxed linearised rows improves the linearised objective (with the weight `w`) by more than the margin. -/
theorem kkt_margin {P : Prob} {ints : Pt P → List ℚ} {dual : ℕ → ℚ} {x : Pt P} {w : ℚ} {lam : ℕ → ℚ} {eps : ℚ} (h : Kkt P ints dual x w lam eps) (z : Pt P) (hi : ints z = ints x)
    (hl : LinearisedR P dual x z) : -margin P x lam eps ≤ w * lin (P.grad x.1) x.1 z.1 := by
  have h1 := h.stat z hi (fun i hi hn => (hl i hi).1 hn)
  have h2 : ((List.range P.m).map fun i => if P.nonlin i then lam i * lin (rowEntries (P.jac x.1) i) x.1 z.1 else 0).sum ≤
      ((List.range P.m).map fun i => if P.nonlin i then max (lam i) 0 * (P.ru i - P.G i x.1 + relaxBy P x i + dropBy P (rowEntries (P.jac x.1) i)) + max (-lam i) 0 * (P.G i x.1 - P.rl i + dropBy P (rowEntries (P.jac x.1) i)) else 0).sum := by
    refine sum_le_of_le fun i hi => ?_
    have him : i < P.m := List.mem_range.mp hi
    cases hn : P.nonlin i with
    | false => simp
    | true =>
      simp only [if_true]
      obtain ⟨u1, u2⟩ := (hl i him).2 hn
      unfold expand at u1 u2
      rcases lt_trichotomy (lam i) 0 with hlt | he | hgt
      · have := u2 (h.lo i him hn hlt)
        rw [max_eq_right hlt.le, max_eq_left (by linarith)]
        nlinarith
      · rw [he]; simp
      · have := u1 (h.up i him hn hgt)
        rw [max_eq_left hgt.le, max_eq_right (by linarith)]
        nlinarith
  unfold margin
  linarith

/-- First-order conditions with multipliers at the answer of the NLP with fixed integers, up to `mu`: when solved, the margin is at most `mu`; when infeasible, the violation outweighs the relaxation
(negative margin). -/
structure FirstOrderR (P : Prob) (ints : Pt P → List ℚ) (nlp : NlpAns (Pt P)) (dual : ℕ → ℚ) (mu : ℚ) : Prop where
  opt : nlp.optimal = true → ∃ lam eps, Kkt P ints dual nlp.pt 1 lam eps ∧ margin P nlp.pt lam eps + dropBy P (P.grad nlp.pt.1) ≤ mu
  none : nlp.optimal = false → ∃ lam eps, Kkt P ints dual nlp.pt 0 lam eps ∧ margin P nlp.pt lam eps < 0

/-- **C317.**  A point with the integers of an NLP that satisfies its relaxed cuts has an objective variable of at least the value of the NLP less the margin; there is none when the NLP was infeasible by more than
the relaxation. -/
theorem no_return_relaxed {P : Prob} {L : Pt P → Prop} (hS : Shape P) (hE : Plain P L) (ints : Pt P → List ℚ) (a : NlpAns (Pt P)) (dual : ℕ → ℚ) (mu : ℚ) (theta : ℚ) (lp : Bool)
    (hF : FirstOrderR P ints a dual mu) (hLa : L a.pt) (ho : a.optimal = true → a.obj = P.F a.pt.1) (v : ℚ) (hv : a.optimal = true → v ≤ a.obj) (z : Pt P) (hi : ints z = ints a.pt)
    (hc : ∀ c ∈ cutsAt P dual none theta lp a.pt, Sat P.T.inf c z.1)
    (hl : ∀ i < P.m, P.nonlin i = false → (P.ru i < P.T.infM → P.G i z.1 ≤ P.ru i) ∧ (-P.T.infM < P.rl i → P.rl i ≤ P.G i z.1)) : a.optimal = true ∧ v - mu ≤ z.1 P.n := by
  obtain ⟨h1, h2⟩ := cuts_mean_relaxed hS hE dual theta lp a.pt z hLa hc
  have hL : LinearisedR P dual a.pt z := fun i hi' => ⟨fun hn => hl i hi' hn, fun hn => h1 i hi' hn⟩
  cases hopt : a.optimal with
  | true =>
    obtain ⟨lam, eps, hk, hm⟩ := hF.opt hopt
    have := kkt_margin hk z hi hL
    have := hv hopt
    rw [ho hopt] at this
    exact ⟨rfl, by linarith⟩
  | false =>
    obtain ⟨lam, eps, hk, hm⟩ := hF.none hopt
    have := kkt_margin hk z hi hL
    linarith

/-! ## B-OA -/

/-- What is left to be assumed of the MILP, LP and NLP solvers: as `OaSolvers`, but the proposal of the MILP solver may be worse than its lower bound by `gap`. -/
structure OaSolversR (P : Prob) (ints : Pt P → List ℚ) (o : Oracles (Pt P) Cut) (gap : ℚ) : Prop where
  bound : ∀ cs v k z, (∀ c ∈ cs, Sat P.T.inf c z.1) → Feas P z → Whole (ints z) → P.F z.1 < v → (o.milp cs v k).low ≤ P.F z.1
  nlp : ∀ x k, (o.nlp x k).optimal = true → (Feas P (o.nlp x k).pt ∧ Whole (ints (o.nlp x k).pt)) ∧ P.F (o.nlp x k).pt.1 = (o.nlp x k).obj
  milpSol : ∀ cs v k z, (o.milp cs v k).sol = some z → (∀ c ∈ cs, Sat P.T.inf c z.1) ∧
    (∀ i < P.m, P.nonlin i = false → (P.ru i < P.T.infM → P.G i z.1 ≤ P.ru i) ∧ (-P.T.infM < P.rl i → P.rl i ≤ P.G i z.1)) ∧ z.1 P.n ≤ (o.milp cs v k).low + gap
  lpSol : ∀ cs v k, (o.lp cs v k).optimal = true → (o.lp cs v k).limit = false → (∀ c ∈ cs, Sat P.T.inf c (o.lp cs v k).pt.1) ∧
    (∀ i < P.m, P.nonlin i = false → (P.ru i < P.T.infM → P.G i (o.lp cs v k).pt.1 ≤ P.ru i) ∧ (-P.T.infM < P.rl i → P.rl i ≤ P.G i (o.lp cs v k).pt.1)) ∧
    (o.lp cs v k).obj = (o.lp cs v k).pt.1 P.n
  lpBound : ∀ cs v k z, (o.lp cs v k).optimal = true → (o.lp cs v k).limit = false → (∀ c ∈ cs, Sat P.T.inf c z.1) → Feas P z → Whole (ints z) → (o.lp cs v k).obj ≤ P.F z.1
  differ : ∀ cs v k x, o.differ (o.nlp x k).pt (o.lp cs v k).pt = false → ints (o.lp cs v k).pt = ints (o.nlp x k).pt
  differ01 : ∀ cs v k x z, (o.milp cs v (k + 1)).sol = some z → o.differ01 (o.nlp x k).pt z = false → ints z = ints (o.nlp x k).pt

/-- **C317.**  With the relaxed cuts of the interface the contract with a margin holds for convex problems. -/
theorem loose_of_convex {P : Prob} {L : Pt P → Prop} (hP : Convex P L) (hE : Plain P L) (ints : Pt P → List ℚ) (o : Oracles (Pt P) Cut) (dual : Pt P → ℕ → ℕ → ℚ) (theta : ℚ) (lp : Bool) (mu gap : ℚ)
    (hg : 0 ≤ gap) (hc : o.cuts = fun xh x k => cutsAt P (dual x k) none theta lp xh) (hL : ∀ x k, L (o.nlp x k).pt) (hs : OaSolversR P ints o gap)
    (hF : ∀ x k, FirstOrderR P ints (o.nlp x k) (dual x k) mu) : LooseContract o (oaProblem P ints) (mu + gap) where
  valid := by
    intro x k c hcc z hz
    rw [hc] at hcc
    exact (cuts_hold hP _ _ _ _ _ z (hL x k) hz.1).2 c hcc
  bound := fun cs v k z h1 h2 h3 => hs.bound cs v k z h1 h2.1 h2.2 h3
  nlp := hs.nlp
  lpBound := fun cs v k z h1 h2 h3 h4 => hs.lpBound cs v k z h1 h2 h3 h4.1 h4.2
  againLp := by
    intro cs v k x hv hin ho hl hd
    have hi := hs.differ cs v k x hd
    rw [hc] at hin
    obtain ⟨a1, a2, a3⟩ := hs.lpSol cs v k ho hl
    have := (no_return_relaxed hP.toShape hE ints (o.nlp x k) (dual x k) mu theta lp (hF x k) (hL x k) (fun h => (hs.nlp x k h).2.symm) v hv _ hi (fun c h => a1 c (hin c h)) a2).2
    rw [a3]
    linarith
  againMilp := by
    intro cs v k x z hv hin hz hd
    have hi := hs.differ01 cs v k x z hz hd
    rw [hc] at hin
    obtain ⟨a1, a2, a3⟩ := hs.milpSol cs v (k + 1) z hz
    have := (no_return_relaxed hP.toShape hE ints (o.nlp x k) (dual x k) mu theta lp (hF x k) (hL x k) (fun h => (hs.nlp x k h).2.symm) v hv z hi (fun c h => a1 c (hin c h)) a2).2
    linarith

/-- **C317.**  One call of the OA decomposition on a convex problem with the relaxed cuts of the interface, an MILP solver with a gap and multipliers up to `mu`: at every moment no feasible point below the cutoff
by more than `mu + gap` is better than the bound, except within the allowed gap of the decomposition; everything handed over is feasible; and a bound of at least the cutoff means that nothing feasible is below
the cutoff by more than that.  Missing for the full claim: NLPs infeasible by less than the relaxation (`oa_relaxed_refuted`), small coefficients in columns without finite bounds, and the tolerances of the comparisons on integers. -/
theorem oa_relaxed_partial {P : Prob} {L : Pt P → Prop} (hP : Convex P L) (hE : Plain P L) (ints : Pt P → List ℚ) (o : Oracles (Pt P) Cut) (dual : Pt P → ℕ → ℕ → ℚ) (theta : ℚ) (lp : Bool) (mu gap : ℚ)
    (hm : 0 ≤ mu) (hg : 0 ≤ gap) (hc : o.cuts = fun xh x k => cutsAt P (dual x k) none theta lp xh) (hL : ∀ x k, L (o.nlp x k).pt) (hs : OaSolversR P ints o gap)
    (hF : ∀ x k, FirstOrderR P ints (o.nlp x k) (dual x k) mu)
    (c : OaCfg) (dmax : ℚ) (n : ℕ) (cuts : List Cut) (cutoff : ℚ) (hk : cutoff ≤ 10 ^ 200) (nLocal nSols : ℕ)
    (hcuts : ∀ k ∈ cuts, ∀ y, Feas P y → Whole (ints y) → Sat P.T.inf k y.1) (hd : ∀ y, Feas P y → Whole (ints y) → -dmax ≤ P.F y.1)
    (r : OaSt (Pt P) Cut ⊕ OaSt (Pt P) Cut) (t : OaSt (Pt P) Cut) (h : performOa o c dmax n cuts cutoff nLocal nSols = some r) (ht : t = r.elim id id) :
    (∀ y, Feas P y → Whole (ints y) → P.F y.1 < t.cutoff - (mu + gap) → t.bound ≤ P.F y.1 ∨ t.ub - slack c.gapTol t.ub < P.F y.1) ∧
    (∀ x ∈ t.found, (Feas P x ∧ Whole (ints x)) ∧ t.ub ≤ P.F x.1) ∧ t.ub ≤ cutoff ∧ (t.ub < cutoff → ∃ x ∈ t.found, P.F x.1 = t.ub) ∧
    (t.cutoff ≤ t.bound → ∀ y, Feas P y → Whole (ints y) → t.cutoff - (mu + gap) ≤ P.F y.1 ∨ t.ub - slack c.gapTol t.ub < P.F y.1) := by
  have hK := loose_of_convex hP hE ints o dual theta lp mu gap hg hc hL hs hF
  obtain ⟨h1, h2, h3⟩ := oa_sound_loose o c (oaProblem P ints) (mu + gap) hK dmax n cuts cutoff nLocal nSols (add_nonneg hm hg) hk (fun k hk z hz => hcuts k hk z hz.1 hz.2)
    (fun z hz => hd z hz.1 hz.2) r t h ht
  refine ⟨fun y a b => h1 y ⟨a, b⟩, h2, ?_, ?_, ?_⟩
  · rcases h3 with h3 | h3
    · exact h3.2.1.le
    · exact h3.2.2.1
  · intro hlt
    rcases h3 with h3 | h3
    · rw [h3.2.1] at hlt; exact absurd hlt (lt_irrefl _)
    · exact h3.2.2.2
  · intro hb y a b
    by_cases hlt : P.F y.1 < t.cutoff - (mu + gap)
    · rcases h1 y ⟨a, b⟩ hlt with h4 | h4
      · change t.bound ≤ P.F y.1 at h4
        exact absurd hlt (not_lt.mpr (by linarith))
      · exact Or.inr h4
    · exact Or.inl (not_lt.mp hlt)

/-! ## Without small entries -/

theorem upSum_big {P : Prob} {vt : ℚ} {other : Prop} [Decidable other] {x : ℕ → ℚ} : ∀ {es : List (ℕ × ℚ)}, (∀ e ∈ es, e.2 = 0 ∨ P.T.tiny ≤ |e.2|) → upSum P vt other x es = act es x
  | [], _ => by simp [upSum, act]
  | e :: es, h => by
    have ih := upSum_big (P := P) (vt := vt) (other := other) (x := x) (es := es) fun e' he => h e' (List.mem_cons_of_mem _ he)
    have hs : upSum P vt other x (e :: es) = upTerm P vt other x e + upSum P vt other x es := by simp [upSum]
    have ha : act (e :: es) x = e.2 * x e.1 + act es x := by simp [act]
    rw [hs, ha, ih]
    rcases h e List.mem_cons_self with h0 | h0
    · simp [upTerm, h0]
    · simp [upTerm, h0]

theorem loSum_big {P : Prob} {vt : ℚ} {other : Prop} [Decidable other] {x : ℕ → ℚ} : ∀ {es : List (ℕ × ℚ)}, (∀ e ∈ es, e.2 = 0 ∨ P.T.tiny ≤ |e.2|) → loSum P vt other x es = act es x
  | [], _ => by simp [loSum, act]
  | e :: es, h => by
    have ih := loSum_big (P := P) (vt := vt) (other := other) (x := x) (es := es) fun e' he => h e' (List.mem_cons_of_mem _ he)
    have hs : loSum P vt other x (e :: es) = loTerm P vt other x e + loSum P vt other x es := by simp [loSum]
    have ha : act (e :: es) x = e.2 * x e.1 + act es x := by simp [act]
    rw [hs, ha, ih]
    rcases h e List.mem_cons_self with h0 | h0
    · simp [loTerm, h0]
    · simp [loTerm, h0]

theorem dropBy_big {P : Prob} : ∀ {es : List (ℕ × ℚ)}, (∀ e ∈ es, e.2 = 0 ∨ P.T.tiny ≤ |e.2|) → dropBy P es = 0
  | [], _ => by simp [dropBy]
  | e :: es, h => by
    have ih := dropBy_big (P := P) (es := es) fun e' he => h e' (List.mem_cons_of_mem _ he)
    have hd : dropBy P (e :: es) = (if P.T.tiny ≤ |e.2| then 0 else |e.2| * (P.cu e.1 - P.cl e.1)) + dropBy P es := by simp [dropBy]
    rw [hd, ih]
    rcases h e List.mem_cons_self with h0 | h0
    · simp [h0]
    · simp [h0]

theorem relaxBy_big {P : Prob} {x : Pt P} {i : ℕ} (h : ∀ e ∈ rowEntries (P.jac x.1) i, e.2 = 0 ∨ P.T.tiny ≤ |e.2|) :
    relaxBy P x i = P.T.relax * max |P.ru i - P.G i x.1 + act (rowEntries (P.jac x.1) i) x.1| 1 := by
  unfold relaxBy; rw [upSum_big h]

/-- `Plain` for problems whose derivatives are zero or at least `tiny`. -/
structure PlainBig (P : Prob) (L : Pt P → Prop) : Prop where
  tols : 0 < P.T.tiny ∧ 0 < P.T.vt ∧ 0 < P.vt ∧ P.T.infM ≤ P.T.inf
  jacBig : ∀ x, L x → ∀ t ∈ P.jac x.1, t.2.2 = 0 ∨ P.T.tiny ≤ |t.2.2|
  gradBig : ∀ x, L x → ∀ e ∈ P.grad x.1, e.2 = 0 ∨ P.T.tiny ≤ |e.2|
  upFin : ∀ i < P.m, P.ru i < P.T.infM → ∀ x, L x → ∀ p, p <+: rowEntries (P.jac x.1) i → P.ru i - P.G i x.1 + act p x.1 < P.T.inf
  upRelax : ∀ i < P.m, P.ru i < P.T.infM → ∀ x, L x → P.ru i - P.G i x.1 + act (rowEntries (P.jac x.1) i) x.1 + relaxBy P x i < P.T.inf
  loFin : ∀ i < P.m, -P.T.infM < P.rl i → ∀ x, L x → ∀ p, p <+: rowEntries (P.jac x.1) i → -P.T.inf < P.rl i - P.G i x.1 + act p x.1 ∧ P.rl i - P.G i x.1 + act p x.1 ≤ P.T.inf
  objFin : ∀ x, L x → act (P.grad x.1) x.1 - P.F x.1 < P.T.inf

theorem PlainBig.plain {P : Prob} {L : Pt P → Prop} (h : PlainBig P L) : Plain P L where
  tols := h.tols
  jacBig := fun x hx t ht => (h.jacBig x hx t ht).imp_right Or.inl
  gradBig := fun x hx e he => (h.gradBig x hx e he).imp_right Or.inl
  upFin := by
    intro i hi hu x hx p hp
    rw [upSum_big fun e he => h.jacBig x hx _ (mem_rowEntries (hp.subset he))]
    exact h.upFin i hi hu x hx p hp
  upRelax := by
    intro i hi hu x hx
    rw [upSum_big fun e he => h.jacBig x hx _ (mem_rowEntries he)]
    exact h.upRelax i hi hu x hx
  loFin := by
    intro i hi hl x hx p hp
    rw [loSum_big fun e he => h.jacBig x hx _ (mem_rowEntries (hp.subset he))]
    exact h.loFin i hi hl x hx p hp
  objFin := by
    intro x hx
    rw [upSum_big fun e he => h.gradBig x hx e he]
    exact h.objFin x hx

/-! ## A case where the margin is used

`y ∈ {0, 1}`, `x ∈ [0, 10]`, minimise `x + 2y` with `-x - y ≤ -2`, right-hand sides relaxed by 1e-8; the objective variable has index 2. -/

instance (inf : ℚ) (c : Cut) (y : ℕ → ℚ) : Decidable (Sat inf c y) := inferInstanceAs (Decidable (_ ∧ _))

/-- The problem. -/
def mgP : Prob where
  T := ⟨10 ^ 30, 10 ^ 20, 1 / 10 ^ 6, 1 / 10 ^ 17, 1 / 10 ^ 8⟩
  vt := 1 / 10 ^ 15
  n := 2
  cl := fun j => if j = 2 then -10 ^ 30 else 0
  cu := fun j => if j = 0 then 1 else if j = 1 then 10 else if j = 2 then 10 ^ 30 else 0
  m := 1
  nonlin := fun _ => true
  rl := fun _ => -10 ^ 30
  ru := fun _ => -2
  G := fun _ y => -y 1 - y 0
  jac := fun _ => [(0, 0, -1), (0, 1, -1)]
  F := fun y => y 1 + 2 * y 0
  grad := fun _ => [(0, 2), (1, 1)]

/-- The point with `y = 0` or `y = 1`, `x` in its bounds and the objective variable at its value. -/
def mgPt (y : Bool) (x : ℚ) (h : 0 ≤ x ∧ x ≤ 10) : Pt mgP := ⟨fun j => if j = 0 then (if y then 1 else 0) else if j = 1 then x else if j = 2 then x + 2 * (if y then 1 else 0) else 0, by
  intro j
  rcases j with _ | _ | _ | j
  · cases y <;> norm_num [mgP]
  · exact ⟨fun _ => by simpa [mgP] using h.1, fun _ => by simpa [mgP] using h.2⟩
  · constructor <;> intro h <;> exact absurd h (by norm_num [mgP])
  · exact ⟨fun _ => by simp [mgP], fun _ => by simp [mgP]⟩⟩

/-- What the LP with the relaxed cut finds for `y = 0`. -/
def mgA : Pt mgP := mgPt false (2 - 2 / 10 ^ 8) (by norm_num)
/-- The solution of the NLP with `y = 0`. -/
def mgB : Pt mgP := mgPt false 2 (by norm_num)
/-- The solution of the NLP with `y = 1`. -/
def mgC : Pt mgP := mgPt true 1 (by norm_num)

/-- The oracles: the MILP and LP solvers propose `mgA` as long as it satisfies the cuts. -/
def mgO : Oracles (Pt mgP) Cut where
  milp := fun cs _ _ => if ∀ c ∈ cs, Sat mgP.T.inf c mgA.1 then ⟨2 - 2 / 10 ^ 8, some mgA⟩ else ⟨0, none⟩
  nlp := fun x _ => if x.1 0 = 0 then ⟨true, 2, mgB⟩ else ⟨true, 3, mgC⟩
  cuts := fun xh _ _ => cutsAt mgP (fun _ => 1) none 0 false xh
  lp := fun cs _ _ => if ∀ c ∈ cs, Sat mgP.T.inf c mgA.1 then ⟨true, false, 2 - 2 / 10 ^ 8, mgA⟩ else ⟨false, false, 0, mgA⟩
  integral := fun x => decide (x.1 0 = ((round (x.1 0) : ℤ) : ℚ))
  differ := fun a z => decide (a.1 0 ≠ z.1 0)
  differ01 := fun a z => decide (1 / 10 < |a.1 0 - z.1 0|)
  late := fun _ => false

/-- The integer variable. -/
def mgInts (x : Pt mgP) : List ℚ := [x.1 0]
/-- The points linearised at. -/
def mgL (x : Pt mgP) : Prop := x = mgB ∨ x = mgC

theorem mg_cols (y : Pt mgP) : 0 ≤ y.1 0 ∧ y.1 0 ≤ 1 ∧ 0 ≤ y.1 1 :=
  ⟨(y.2 0).1 (by norm_num [mgP]), (y.2 0).2 (by norm_num [mgP]), (y.2 1).1 (by norm_num [mgP])⟩

theorem mg_feas {y : Pt mgP} (h : Feas mgP y) : 2 ≤ y.1 1 + y.1 0 := by
  have : -y.1 1 - y.1 0 ≤ -2 := (h.1 0 (by norm_num [mgP])).1 (by norm_num [mgP])
  linarith

theorem mg_expand (x y : Pt mgP) : expand mgP 0 x y = -y.1 1 - y.1 0 := by
  simp [expand, mgP, rowEntries, lin]; ring

theorem mg_convex : Convex mgP mgL where
  inf := by norm_num [mgP]
  relax := by norm_num [mgP]
  rows := by
    intro x t ht
    have : t = (0, 0, -1) ∨ t = (0, 1, -1) := by simpa [mgP] using ht
    rcases this with rfl | rfl <;> norm_num [mgP]
  up := by
    intro i hi _ _ x y
    have : i = 0 := by simpa [mgP] using hi
    subst this
    rw [mg_expand]
    exact le_rfl
  lo := by intro i _ _ h; exact absurd h (by norm_num [mgP])
  obj := by intro x y; simp [mgP, lin]; linarith
  jacBig := by
    intro x _ t ht
    have : t = (0, 0, -1) ∨ t = (0, 1, -1) := by simpa [mgP] using ht
    rcases this with rfl | rfl <;> norm_num [mgP]
  gradBig := by
    intro x _ e he
    have : e = (0, 2) ∨ e = (1, 1) := by simpa [mgP] using he
    rcases this with rfl | rfl <;> norm_num [mgP]

theorem mg_entries (x : Pt mgP) : rowEntries (mgP.jac x.1) 0 = [(0, -1), (1, -1)] := by simp [rowEntries, mgP]

theorem mg_relaxBy (x : Pt mgP) : relaxBy mgP x 0 = 2 / 10 ^ 8 := by
  rw [relaxBy_big (by rw [mg_entries]; norm_num [mgP]), mg_entries]
  have : mgP.ru 0 - mgP.G 0 x.1 + act [(0, -1), (1, -1)] x.1 = -2 := by simp [mgP, act]; ring
  rw [this]
  norm_num [mgP]

theorem mg_plainB : PlainBig mgP mgL where
  tols := by norm_num [mgP]
  jacBig := by
    intro x _ t ht
    have : t = (0, 0, -1) ∨ t = (0, 1, -1) := by simpa [mgP] using ht
    rcases this with rfl | rfl <;> norm_num [mgP]
  gradBig := by
    intro x _ e he
    have : e = (0, 2) ∨ e = (1, 1) := by simpa [mgP] using he
    rcases this with rfl | rfl <;> norm_num [mgP]
  upFin := by
    intro i hi _ x hx p hp
    have : i = 0 := by simpa [mgP] using hi
    subst this
    rw [mg_entries] at hp
    have hp' : p ∈ [[], [(0, (-1 : ℚ))], [(0, -1), (1, -1)]] := by
      have := (List.mem_inits p _).mpr hp
      simpa using this
    rcases hx with rfl | rfl <;> fin_cases hp' <;> norm_num [mgP, act, mgB, mgC, mgPt]
  upRelax := by
    intro i hi _ x hx
    have : i = 0 := by simpa [mgP] using hi
    subst this
    rw [mg_relaxBy, mg_entries]
    rcases hx with rfl | rfl <;> norm_num [mgP, act, mgB, mgC, mgPt]
  loFin := by intro i _ h; exact absurd h (by norm_num [mgP])
  objFin := by
    intro x _
    simp [mgP, act]
    linarith

theorem mg_plain : Plain mgP mgL := mg_plainB.plain

theorem mg_solvers : OaSolversR mgP mgInts mgO 0 where
  bound := by
    intro cs v k z hs hz _ _
    have h1 := mg_feas hz
    obtain ⟨h2, _, h3⟩ := mg_cols z
    change (if _ then _ else _ : MilpAns (Pt mgP)).low ≤ z.1 1 + 2 * z.1 0
    split <;> dsimp only <;> linarith
  nlp := by
    intro x k _
    have hB : Feas mgP mgB := ⟨fun i hi => by norm_num [mgP, mgB, mgPt], by norm_num [mgP, mgB, mgPt]⟩
    have hC : Feas mgP mgC := ⟨fun i hi => by norm_num [mgP, mgC, mgPt], by norm_num [mgP, mgC, mgPt]⟩
    change (Feas mgP (if _ then _ else _ : NlpAns (Pt mgP)).pt ∧ Whole (mgInts (if _ then _ else _ : NlpAns (Pt mgP)).pt)) ∧
      mgP.F (if _ then _ else _ : NlpAns (Pt mgP)).pt.1 = (if _ then _ else _ : NlpAns (Pt mgP)).obj
    split
    · exact ⟨⟨hB, by intro a ha; exact ⟨0, by simpa [mgInts, mgB, mgPt] using ha⟩⟩, by norm_num [mgP, mgB, mgPt]⟩
    · exact ⟨⟨hC, by intro a ha; exact ⟨1, by simpa [mgInts, mgC, mgPt] using ha⟩⟩, by norm_num [mgP, mgC, mgPt]⟩
  milpSol := by
    intro cs v k z hz
    change (if _ then _ else _ : MilpAns (Pt mgP)).sol = some z at hz
    change _ ∧ _ ∧ z.1 2 ≤ (if _ then _ else _ : MilpAns (Pt mgP)).low + 0
    split at hz
    · rename_i h
      have : mgA = z := Option.some.inj hz
      subst this
      rw [if_pos h]
      exact ⟨h, fun i _ hn => by simp [mgP] at hn, by norm_num [mgA, mgPt]⟩
    · cases hz
  lpSol := by
    intro cs v k ho _
    change (if _ then _ else _ : LpAns (Pt mgP)).optimal = true at ho
    have h : ∀ c ∈ cs, Sat mgP.T.inf c mgA.1 := by
      by_contra h
      rw [if_neg h] at ho
      cases ho
    have e : mgO.lp cs v k = ⟨true, false, 2 - 2 / 10 ^ 8, mgA⟩ := if_pos h
    rw [e]
    exact ⟨h, fun i _ hn => by simp [mgP] at hn, by norm_num [mgA, mgPt, mgP]⟩
  lpBound := by
    intro cs v k z _ _ _ hz _
    have h1 := mg_feas hz
    obtain ⟨h2, _, h3⟩ := mg_cols z
    change (if _ then _ else _ : LpAns (Pt mgP)).obj ≤ z.1 1 + 2 * z.1 0
    split <;> dsimp only <;> linarith
  differ := by
    intro cs v k x h
    have h' : ((mgO.nlp x k).pt).1 0 = ((mgO.lp cs v k).pt).1 0 := by simpa [mgO] using h
    simp only [mgInts, h']
  differ01 := by
    intro cs v k x z hz h
    have hA : z = mgA := by
      change (if _ then _ else _ : MilpAns (Pt mgP)).sol = some z at hz
      split at hz
      · exact (Option.some.inj hz).symm
      · cases hz
    subst hA
    change decide (1 / 10 < |(if x.1 0 = 0 then _ else _ : NlpAns (Pt mgP)).pt.1 0 - mgA.1 0|) = false at h
    change [mgA.1 0] = [(if x.1 0 = 0 then _ else _ : NlpAns (Pt mgP)).pt.1 0]
    split at h
    · rename_i hx; rw [if_pos hx]; norm_num [mgA, mgB, mgPt]
    · exact absurd h (by norm_num [mgA, mgC, mgPt])

theorem mg_first (x : Pt mgP) (k : ℕ) : FirstOrderR mgP mgInts (mgO.nlp x k) (fun _ => 1) (2 / 10 ^ 8) where
  opt := by
    intro _
    refine ⟨fun _ => 1, 0, ⟨?_, ?_, ?_⟩, ?_⟩
    · intro z hz _
      have hz' : z.1 0 = (mgO.nlp x k).pt.1 0 := by simpa [mgInts] using hz
      have hm : List.range mgP.m = [0] := rfl
      rw [hm]
      simp only [List.map_cons, List.map_nil, List.sum_cons, List.sum_nil, mg_entries]
      simp [mgP, lin, hz']
    · intro i hi _ _
      have : i = 0 := by simpa [mgP] using hi
      subst this
      exact ⟨by norm_num [mgP, rowAt], fun _ => by norm_num [rowAt]⟩
    · intro i _ _ h
      norm_num at h
    · have hm : List.range mgP.m = [0] := rfl
      unfold margin
      rw [hm, dropBy_big (P := mgP) (es := mgP.grad _) (by norm_num [mgP])]
      simp only [List.map_cons, List.map_nil, List.sum_cons, List.sum_nil, mg_relaxBy, mg_entries]
      rw [dropBy_big (P := mgP) (es := [(0, -1), (1, -1)]) (by norm_num [mgP])]
      have : mgP.G 0 (if x.1 0 = 0 then ⟨true, 2, mgB⟩ else ⟨true, 3, mgC⟩ : NlpAns (Pt mgP)).pt.1 = -2 := by
        split <;> norm_num [mgP, mgB, mgC, mgPt]
      change mgP.G 0 (mgO.nlp x k).pt.1 = -2 at this
      rw [this]
      norm_num [mgP]
  none := by
    intro h
    change (if x.1 0 = 0 then _ else _ : NlpAns (Pt mgP)).optimal = false at h
    split at h <;> cases h

/-- The example meets all assumptions of `oa_relaxed_partial` with a positive margin: the LP proposes `y = 0` again with a value of `2 - 2e-8` below the cutoff `2 - 2e-10`, and the loop takes this for the end; nothing feasible is
below the cutoff by more than 2e-8. -/
example : (performOa mgO ⟨1 / 10 ^ 10, 1 / 10 ^ 8, 100, 100⟩ (10 ^ 300) 5 [] (10 ^ 50) 0 0).map (fun r => ((r.elim id id).bound, (r.elim id id).cutoff, (r.elim id id).ub, (r.elim id id).pass)) =
      some (10 ^ 50, 2 - 2 / 10 ^ 10, 2, 1) ∧
    ∀ y, Feas mgP y → Whole (mgInts y) → 2 - 2 / 10 ^ 10 - (2 / 10 ^ 8 + 0) ≤ mgP.F y.1 ∨ 2 - slack (1 / 10 ^ 8) 2 < mgP.F y.1 := by
  have hrun : (performOa mgO ⟨1 / 10 ^ 10, 1 / 10 ^ 8, 100, 100⟩ (10 ^ 300) 5 [] (10 ^ 50) 0 0).map
      (fun r => ((r.elim id id).bound, (r.elim id id).cutoff, (r.elim id id).ub, (r.elim id id).pass)) = some (10 ^ 50, 2 - 2 / 10 ^ 10, 2, 1) := by decide +kernel
  refine ⟨hrun, ?_⟩
  obtain ⟨r, hr, he⟩ := Option.map_eq_some_iff.mp hrun
  simp only [Prod.mk.injEq] at he
  obtain ⟨e1, e2, e3, _⟩ := he
  have := (oa_relaxed_partial mg_convex mg_plain mgInts mgO (fun _ _ _ => 1) 0 false (2 / 10 ^ 8) 0 (by norm_num) le_rfl rfl
    (fun x k => by change mgL (if x.1 0 = 0 then _ else _ : NlpAns (Pt mgP)).pt; split; exacts [Or.inl rfl, Or.inr rfl]) mg_solvers mg_first
    ⟨1 / 10 ^ 10, 1 / 10 ^ 8, 100, 100⟩ (10 ^ 300) 5 [] (10 ^ 50) (by norm_num) 0 0 (by simp) (fun y hy _ => by
      obtain ⟨h2, _, h3⟩ := mg_cols y
      change -10 ^ 300 ≤ y.1 1 + 2 * y.1 0
      exact le_trans (by norm_num) (add_nonneg h3 (mul_nonneg (by norm_num) h2))) r _ hr rfl).2.2.2.2
  rw [e1, e2, e3] at this
  exact this (by norm_num)

/-! ## A case with a small coefficient

As above with the row `-x - 1e-7 y ≤ -2` and the objective `x + 1e-7 y`: both coefficients of `y` are below `tiny`, and the column of `y` has the bounds 0 and 1. -/

/-- The problem. -/
def smP : Prob := { mgP with
  G := fun _ y => -y 1 - 1 / 10 ^ 7 * y 0
  jac := fun _ => [(0, 0, -1 / 10 ^ 7), (0, 1, -1)]
  F := fun y => y 1 + 1 / 10 ^ 7 * y 0
  grad := fun _ => [(0, 1 / 10 ^ 7), (1, 1)] }

/-- The point with `y = 0`, the given `x` and the given value of the objective variable. -/
def smPt (x w : ℚ) (h : 0 ≤ x ∧ x ≤ 10) : Pt smP := ⟨fun j => if j = 1 then x else if j = 2 then w else 0, by
  intro j
  rcases j with _ | _ | _ | j
  · norm_num [smP, mgP]
  · exact ⟨fun _ => by simpa [smP, mgP] using h.1, fun _ => by simpa [smP, mgP] using h.2⟩
  · constructor <;> intro h <;> exact absurd h (by norm_num [smP, mgP])
  · exact ⟨fun _ => by simp [smP, mgP], fun _ => by simp [smP, mgP]⟩⟩

/-- The solution of the NLP with `y = 0`. -/
def smB : Pt smP := smPt 2 2 (by norm_num)
/-- The best point of the cuts at `smB` with `y = 0`. -/
def smA : Pt smP := smPt (2 - 1 / 10 ^ 7 - (2 - 1 / 10 ^ 7) / 10 ^ 8) (2 - 1 / 10 ^ 7 - (2 - 1 / 10 ^ 7) / 10 ^ 8) (by norm_num)

theorem sm_entries (x : Pt smP) : rowEntries (smP.jac x.1) 0 = [(0, -1 / 10 ^ 7), (1, -1)] := by simp [rowEntries, smP]

theorem sm_relaxBy : relaxBy smP smB 0 = (2 - 1 / 10 ^ 7) / 10 ^ 8 := by
  unfold relaxBy
  rw [sm_entries]
  norm_num [upSum, upTerm, smP, mgP, smB, smPt, abs_of_pos, abs_of_neg]

theorem sm_dropBy (x : Pt smP) : dropBy smP (rowEntries (smP.jac x.1) 0) = 1 / 10 ^ 7 ∧ dropBy smP (smP.grad x.1) = 1 / 10 ^ 7 := by
  rw [sm_entries]
  constructor <;> norm_num [dropBy, smP, mgP, abs_of_pos, abs_of_neg]

theorem sm_convex : Convex smP (fun x => x = smB) where
  inf := by norm_num [smP, mgP]
  relax := by norm_num [smP, mgP]
  rows := by
    intro x t ht
    have : t = (0, 0, -1 / 10 ^ 7) ∨ t = (0, 1, -1) := by simpa [smP] using ht
    rcases this with rfl | rfl <;> norm_num [smP, mgP]
  up := by
    intro i hi _ _ x y
    have : i = 0 := by simpa [smP, mgP] using hi
    subst this
    unfold expand
    rw [sm_entries]
    simp [lin, smP]
    linarith
  lo := by intro i _ _ h; exact absurd h (by norm_num [smP, mgP])
  obj := by intro x y; simp [smP, lin]; linarith
  jacBig := by
    intro x _ t ht
    have : t = (0, 0, -1 / 10 ^ 7) ∨ t = (0, 1, -1) := by simpa [smP] using ht
    rcases this with rfl | rfl <;> norm_num [smP, mgP, abs_of_neg]
  gradBig := by
    intro x _ e he
    have : e = (0, 1 / 10 ^ 7) ∨ e = (1, 1) := by simpa [smP] using he
    rcases this with rfl | rfl <;> norm_num [smP, mgP, abs_of_pos]

theorem sm_plain : Plain smP (fun x => x = smB) where
  tols := by norm_num [smP, mgP]
  jacBig := by
    intro x _ t ht
    have : t = (0, 0, -1 / 10 ^ 7) ∨ t = (0, 1, -1) := by simpa [smP] using ht
    rcases this with rfl | rfl
    · exact Or.inr (Or.inr (by norm_num [smP, mgP]))
    · exact Or.inr (Or.inl (by norm_num [smP, mgP]))
  gradBig := by
    intro x _ e he
    have : e = (0, 1 / 10 ^ 7) ∨ e = (1, 1) := by simpa [smP] using he
    rcases this with rfl | rfl
    · exact Or.inr (Or.inr (by norm_num [smP, mgP]))
    · exact Or.inr (Or.inl (by norm_num [smP, mgP]))
  upFin := by
    intro i hi _ x hx p hp
    have : i = 0 := by simpa [smP, mgP] using hi
    subst this
    subst hx
    rw [sm_entries] at hp
    have hp' : p ∈ [[], [(0, (-1 / 10 ^ 7 : ℚ))], [(0, -1 / 10 ^ 7), (1, -1)]] := by
      have := (List.mem_inits p _).mpr hp
      simpa using this
    fin_cases hp' <;> norm_num [upSum, upTerm, smP, mgP, smB, smPt, abs_of_pos, abs_of_neg]
  upRelax := by
    intro i hi _ x hx
    have : i = 0 := by simpa [smP, mgP] using hi
    subst this
    subst hx
    rw [sm_relaxBy, sm_entries]
    norm_num [upSum, upTerm, smP, mgP, smB, smPt, abs_of_pos, abs_of_neg]
  loFin := by intro i _ h; exact absurd h (by norm_num [smP, mgP])
  objFin := by
    intro x hx
    subst hx
    norm_num [upSum, upTerm, smP, mgP, smB, smPt, abs_of_pos, abs_of_neg]

theorem sm_first : FirstOrderR smP (fun x => [x.1 0]) ⟨true, 2, smB⟩ (fun _ => 1) ((2 - 1 / 10 ^ 7) / 10 ^ 8 + 2 / 10 ^ 7) where
  opt := by
    intro _
    have hm : List.range smP.m = [0] := rfl
    refine ⟨fun _ => 1, 0, ⟨?_, ?_, ?_⟩, ?_⟩
    · intro z hz _
      rw [hm]
      simp only [List.map_cons, List.map_nil, List.sum_cons, List.sum_nil, sm_entries]
      simp [smP, mgP, lin]
      linarith
    · intro i hi _ _
      have : i = 0 := by simpa [smP, mgP] using hi
      subst this
      exact ⟨by norm_num [smP, mgP, rowAt], fun _ => by norm_num [rowAt]⟩
    · intro i _ _ h
      norm_num at h
    · unfold margin
      rw [hm]
      simp only [List.map_cons, List.map_nil, List.sum_cons, List.sum_nil, sm_relaxBy, (sm_dropBy smB).1, (sm_dropBy smB).2]
      norm_num [smP, mgP, smB, smPt]
  none := by intro h; cases h

/-- The best point of the cuts at the solution of the NLP satisfies them all, and uses up the relaxation and the cost of the small coefficient; all points with `y = 0` that satisfy them are at most the margin better. -/
example : (∀ c ∈ cutsAt smP (fun _ => 1) none 0 false smB, Sat smP.T.inf c smA.1) ∧
    expand smP 0 smB smA = smP.ru 0 + relaxBy smP smB 0 + dropBy smP (rowEntries (smP.jac smB.1) 0) ∧
    ∀ z : Pt smP, z.1 0 = 0 → (∀ c ∈ cutsAt smP (fun _ => 1) none 0 false smB, Sat smP.T.inf c z.1) → 2 - ((2 - 1 / 10 ^ 7) / 10 ^ 8 + 2 / 10 ^ 7) ≤ z.1 2 := by
  refine ⟨by decide +kernel, ?_, ?_⟩
  · rw [sm_relaxBy, (sm_dropBy smB).1]
    unfold expand
    rw [sm_entries]
    norm_num [lin, smP, mgP, smA, smB, smPt]
  · intro z h0 hz
    exact (no_return_relaxed sm_convex.toShape sm_plain (fun x => [x.1 0]) ⟨true, 2, smB⟩ (fun _ => 1) _ 0 false sm_first rfl (fun _ => by norm_num [smP, smB, smPt]) 2 (fun _ => le_rfl) z
      (by simp [h0, smB, smPt]) hz (fun i _ hn => absurd hn (by simp [smP, mgP]))).2

/-! ## An NLP infeasible by less than the relaxation

Minimise the integer `y ∈ [10^6, 10^6 + 1]` with `-y ≤ -1000000.005`: `y = 10^6` violates the row by 0.005, the cut is relaxed by 1e-8 times its right-hand side, 0.01. -/

/-- The problem. -/
def bigP : Prob where
  T := ⟨10 ^ 30, 10 ^ 20, 1 / 10 ^ 6, 1 / 10 ^ 17, 1 / 10 ^ 8⟩
  vt := 1 / 10 ^ 15
  n := 1
  cl := fun j => if j = 0 then 10 ^ 6 else if j = 1 then -10 ^ 30 else 0
  cu := fun j => if j = 0 then 10 ^ 6 + 1 else if j = 1 then 10 ^ 30 else 0
  m := 1
  nonlin := fun _ => true
  rl := fun _ => -10 ^ 30
  ru := fun _ => -(10 ^ 6 + 5 / 1000)
  G := fun _ y => -y 0
  jac := fun _ => [(0, 0, -1)]
  F := fun y => y 0
  grad := fun _ => [(0, 1)]

/-- The two points. -/
def bigPt (up : Bool) : Pt bigP := ⟨fun j => if j ≤ 1 then (if up then 10 ^ 6 + 1 else 10 ^ 6) else 0, by
  intro j
  rcases j with _ | _ | j
  · cases up <;> norm_num [bigP]
  · constructor <;> intro h <;> exact absurd h (by norm_num [bigP])
  · exact ⟨fun _ => by simp [bigP], fun _ => by simp [bigP]⟩⟩

/-- The oracles: exact MILP; LP at its least point if that is `10^6` (and stopped early otherwise); exact NLP. -/
def bigO : Oracles (Pt bigP) Cut where
  milp := fun cs _ _ => if ∀ c ∈ cs, Sat bigP.T.inf c (bigPt false).1 then ⟨10 ^ 6, some (bigPt false)⟩ else
    if ∀ c ∈ cs, Sat bigP.T.inf c (bigPt true).1 then ⟨10 ^ 6 + 1, some (bigPt true)⟩ else ⟨10 ^ 6 + 1, none⟩
  nlp := fun x _ => if x.1 0 ≤ 10 ^ 6 + 1 / 2 then ⟨false, 10 ^ 6, bigPt false⟩ else ⟨true, 10 ^ 6 + 1, bigPt true⟩
  cuts := fun xh _ _ => cutsAt bigP (fun _ => 1) none 0 false xh
  lp := fun cs _ _ => if ∀ c ∈ cs, Sat bigP.T.inf c (bigPt false).1 then ⟨true, false, 10 ^ 6, bigPt false⟩ else ⟨false, false, 0, bigPt false⟩
  integral := fun x => decide (x.1 0 = ((round (x.1 0) : ℤ) : ℚ))
  differ := fun a z => decide (a.1 0 ≠ z.1 0)
  differ01 := fun a z => decide (1 / 10 < |a.1 0 - z.1 0|)
  late := fun _ => false

/-- The integer variable. -/
def bigInts (x : Pt bigP) : List ℚ := [x.1 0]

theorem big_cols (y : Pt bigP) : 10 ^ 6 ≤ y.1 0 ∧ y.1 0 ≤ 10 ^ 6 + 1 :=
  ⟨(y.2 0).1 (by norm_num [bigP]), (y.2 0).2 (by norm_num [bigP])⟩

theorem big_feas {y : Pt bigP} (h : Feas bigP y) : 10 ^ 6 + 5 / 1000 ≤ y.1 0 := by
  have : -y.1 0 ≤ -(10 ^ 6 + 5 / 1000) := (h.1 0 (by norm_num [bigP])).1 (by norm_num [bigP])
  linarith

theorem big_whole {y : Pt bigP} (h : Feas bigP y) (hw : Whole (bigInts y)) : y.1 0 = 10 ^ 6 + 1 := by
  obtain ⟨k, hk⟩ := hw (y.1 0) (by simp [bigInts])
  have h1 := big_feas h
  have h2 := (big_cols y).2
  rw [hk] at h1 h2 ⊢
  have a : (10 ^ 6 : ℤ) < k := by
    have : ((10 ^ 6 : ℤ) : ℚ) < (k : ℚ) := by push_cast; linarith
    exact_mod_cast this
  have b : k ≤ 10 ^ 6 + 1 := by
    have : (k : ℚ) ≤ ((10 ^ 6 + 1 : ℤ) : ℚ) := by push_cast; linarith
    exact_mod_cast this
  have : k = 10 ^ 6 + 1 := by omega
  rw [this]; norm_num

theorem big_up : Feas bigP (bigPt true) ∧ Whole (bigInts (bigPt true)) :=
  ⟨⟨fun i _ => ⟨fun _ => by norm_num [bigP, bigPt], fun h => absurd h (by norm_num [bigP])⟩, by norm_num [bigP, bigPt]⟩,
    fun a ha => ⟨10 ^ 6 + 1, by norm_num [bigInts, bigPt] at ha ⊢; exact ha⟩⟩

theorem big_convex : Convex bigP (fun _ => True) where
  inf := by norm_num [bigP]
  relax := by norm_num [bigP]
  rows := by
    intro x t ht
    have : t = (0, 0, -1) := by simpa [bigP] using ht
    subst this; norm_num [bigP]
  up := by
    intro i hi _ _ x y
    have : i = 0 := by simpa [bigP] using hi
    subst this
    simp [expand, bigP, rowEntries, lin]
  lo := by intro i _ _ h; exact absurd h (by norm_num [bigP])
  obj := by intro x y; simp [bigP, lin]
  jacBig := by
    intro x _ t ht
    have : t = (0, 0, -1) := by simpa [bigP] using ht
    subst this; norm_num [bigP]
  gradBig := by
    intro x _ e he
    have : e = (0, 1) := by simpa [bigP] using he
    subst this; norm_num [bigP]

theorem big_entries (x : Pt bigP) : rowEntries (bigP.jac x.1) 0 = [(0, -1)] := by simp [rowEntries, bigP]

theorem big_plainB : PlainBig bigP (fun _ => True) where
  tols := by norm_num [bigP]
  jacBig := by
    intro x _ t ht
    have : t = (0, 0, -1) := by simpa [bigP] using ht
    subst this; norm_num [bigP]
  gradBig := by
    intro x _ e he
    have : e = (0, 1) := by simpa [bigP] using he
    subst this; norm_num [bigP]
  upFin := by
    intro i hi _ x _ p hp
    have : i = 0 := by simpa [bigP] using hi
    subst this
    rw [big_entries] at hp
    have hp' : p ∈ [[], [(0, (-1 : ℚ))]] := by
      have := (List.mem_inits p _).mpr hp
      simpa using this
    have h2 := (big_cols x).2
    (fin_cases hp' <;> norm_num [bigP, act]); linarith
  upRelax := by
    intro i hi _ x _
    have : i = 0 := by simpa [bigP] using hi
    subst this
    rw [relaxBy_big (by rw [big_entries]; norm_num [bigP]), big_entries]
    have : bigP.ru 0 - bigP.G 0 x.1 + act [(0, -1)] x.1 = -(10 ^ 6 + 5 / 1000) := by simp [bigP, act]
    rw [this]
    norm_num [bigP]
  loFin := by intro i _ h; exact absurd h (by norm_num [bigP])
  objFin := by intro x _; simp [bigP, act]

theorem big_plain : Plain bigP (fun _ => True) := big_plainB.plain

theorem big_solvers : OaSolversR bigP bigInts bigO 0 where
  bound := by
    intro cs v k z hs hz hw _
    have h1 := big_whole hz hw
    change (if _ then _ else if _ then _ else _ : MilpAns (Pt bigP)).low ≤ z.1 0
    rw [h1]
    split
    · norm_num
    · split <;> exact le_rfl
  nlp := by
    intro x k h
    change (if x.1 0 ≤ 10 ^ 6 + 1 / 2 then _ else _ : NlpAns (Pt bigP)).optimal = true at h
    change (Feas bigP (if x.1 0 ≤ 10 ^ 6 + 1 / 2 then _ else _ : NlpAns (Pt bigP)).pt ∧ Whole (bigInts (if x.1 0 ≤ 10 ^ 6 + 1 / 2 then _ else _ : NlpAns (Pt bigP)).pt)) ∧
      bigP.F (if x.1 0 ≤ 10 ^ 6 + 1 / 2 then _ else _ : NlpAns (Pt bigP)).pt.1 = (if x.1 0 ≤ 10 ^ 6 + 1 / 2 then _ else _ : NlpAns (Pt bigP)).obj
    split at h
    · cases h
    · rename_i hn
      rw [if_neg hn]
      exact ⟨big_up, by norm_num [bigP, bigPt]⟩
  milpSol := by
    intro cs v k z hz
    change (if _ then _ else if _ then _ else _ : MilpAns (Pt bigP)).sol = some z at hz
    change _ ∧ _ ∧ z.1 1 ≤ (if _ then _ else if _ then _ else _ : MilpAns (Pt bigP)).low + 0
    split at hz
    · rename_i h
      have : bigPt false = z := Option.some.inj hz
      subst this
      rw [if_pos h]
      exact ⟨h, fun i _ hn => by simp [bigP] at hn, by norm_num [bigPt]⟩
    · rename_i hn
      split at hz
      · rename_i h
        have : bigPt true = z := Option.some.inj hz
        subst this
        rw [if_neg hn, if_pos h]
        exact ⟨h, fun i _ hn => by simp [bigP] at hn, by norm_num [bigPt]⟩
      · cases hz
  lpSol := by
    intro cs v k ho _
    change (if _ then _ else _ : LpAns (Pt bigP)).optimal = true at ho
    have h : ∀ c ∈ cs, Sat bigP.T.inf c (bigPt false).1 := by
      by_contra h
      rw [if_neg h] at ho
      cases ho
    have e : bigO.lp cs v k = ⟨true, false, 10 ^ 6, bigPt false⟩ := if_pos h
    rw [e]
    exact ⟨h, fun i _ hn => by simp [bigP] at hn, by norm_num [bigPt, bigP]⟩
  lpBound := by
    intro cs v k z _ _ _ hz hw
    have h1 := big_whole hz hw
    change (if _ then _ else _ : LpAns (Pt bigP)).obj ≤ z.1 0
    rw [h1]
    split <;> norm_num
  differ := by
    intro cs v k x h
    have h' : ((bigO.nlp x k).pt).1 0 = ((bigO.lp cs v k).pt).1 0 := by simpa [bigO] using h
    simp only [bigInts, h']
  differ01 := by
    intro cs v k x z hz h
    have hA : z = bigPt false ∨ z = bigPt true := by
      change (if _ then _ else if _ then _ else _ : MilpAns (Pt bigP)).sol = some z at hz
      split at hz
      · exact Or.inl (Option.some.inj hz).symm
      · split at hz
        · exact Or.inr (Option.some.inj hz).symm
        · cases hz
    change decide (1 / 10 < |(if x.1 0 ≤ 10 ^ 6 + 1 / 2 then _ else _ : NlpAns (Pt bigP)).pt.1 0 - z.1 0|) = false at h
    change [z.1 0] = [(if x.1 0 ≤ 10 ^ 6 + 1 / 2 then _ else _ : NlpAns (Pt bigP)).pt.1 0]
    split at h
    · rename_i hx
      rw [if_pos hx]
      rcases hA with rfl | rfl
      · rfl
      · exact absurd h (by norm_num [bigPt])
    · rename_i hx
      rw [if_neg hx]
      rcases hA with rfl | rfl
      · exact absurd h (by norm_num [bigPt])
      · rfl

/-- The first-order conditions of the unrelaxed claim (C307) hold, and the NLP answers are right. -/
theorem big_first (x : Pt bigP) (k : ℕ) : FirstOrder bigP bigInts (bigO.nlp x k) (fun _ => 1) where
  opt := by
    intro _ z hz _
    have hz' : z.1 0 = (bigO.nlp x k).pt.1 0 := by simpa [bigInts] using hz
    simp [bigP, lin, hz']
  none := by
    intro h z hz hl
    have hz' : z.1 0 = (bigO.nlp x k).pt.1 0 := by simpa [bigInts] using hz
    have hx : x.1 0 ≤ 10 ^ 6 + 1 / 2 := by
      by_contra hn
      have e : bigO.nlp x k = ⟨true, 10 ^ 6 + 1, bigPt true⟩ := if_neg hn
      rw [e] at h
      cases h
    have e : bigO.nlp x k = ⟨false, 10 ^ 6, bigPt false⟩ := if_pos hx
    rw [e] at hl hz'
    have := ((hl 0 (by norm_num [bigP])).2 rfl).1 ⟨by norm_num [bigP, rowAt], fun _ => by norm_num [rowAt]⟩
    have hz2 : z.1 0 = 10 ^ 6 := hz'.trans (by norm_num [bigPt])
    simp [expand, bigP, rowEntries, lin, hz2] at this
    norm_num [bigPt] at this

/-- **C317 (refuted).**  With the relaxed right-hand sides the OA decomposition can declare a convex problem finished that has a solution, with exact solvers and no tolerance on integers: `y = 10^6` violates the row by 0.005, the NLP says
infeasible, but the cut, relaxed by 1e-8 times its right-hand side, still admits `y = 10^6`; the LP proposes it again, the loop takes the repetition for the end and returns a bound of `1e50`, with no point found; the solution `y = 10^6 + 1`
is lost. -/
theorem oa_relaxed_refuted :
    Convex bigP (fun _ => True) ∧ Plain bigP (fun _ => True) ∧ OaSolversR bigP bigInts bigO 0 ∧ (∀ x k, FirstOrder bigP bigInts (bigO.nlp x k) (fun _ => 1)) ∧
    (bigO.cuts = fun xh _ _ => cutsAt bigP (fun _ => 1) none 0 false xh) ∧
    (∃ r, performOa bigO ⟨1 / 10 ^ 10, 1 / 10 ^ 8, 100, 100⟩ (10 ^ 300) 5 [] (10 ^ 50) 0 0 = some (.inr r) ∧ r.bound = 10 ^ 50 ∧ r.cutoff = 10 ^ 50 ∧ r.found = []) ∧
    Feas bigP (bigPt true) ∧ Whole (bigInts (bigPt true)) ∧ bigP.F (bigPt true).1 = 10 ^ 6 + 1 := by
  refine ⟨big_convex, big_plain, big_solvers, big_first, rfl, ?_, big_up.1, big_up.2, by norm_num [bigP, bigPt]⟩
  have hrun : (performOa bigO ⟨1 / 10 ^ 10, 1 / 10 ^ 8, 100, 100⟩ (10 ^ 300) 5 [] (10 ^ 50) 0 0).map
      (fun r => (r.isLeft, (r.elim id id).bound, (r.elim id id).cutoff, (r.elim id id).found.length)) = some (false, 10 ^ 50, 10 ^ 50, 0) := by decide +kernel
  obtain ⟨r, hr, he⟩ := Option.map_eq_some_iff.mp hrun
  simp only [Prod.mk.injEq] at he
  obtain ⟨e0, e1, e2, e3⟩ := he
  cases r with
  | inl s => cases e0
  | inr s => exact ⟨s, hr, e1, e2, List.length_eq_zero_iff.mp e3⟩

end Verif.Dec.Cvx

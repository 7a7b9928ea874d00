import Verif.Heur.PumpLoop
import Verif.Heur.MilpProps

/-!
# C33, C35, C36, C56: exact descriptions of single steps of the heuristics
-/
namespace Verif.Heur

/-! ### C33: fixings at bounds -/

/-- A column that may be fixed: its value is integral, its bounds differ, and it is at one of them. -/
def Fixable (tol : ℚ) (x : Nat → ℚ) (b : Bnds) (c : Nat) : Prop :=
  (∃ z : ℤ, |(z : ℚ) - x c| ≤ tol) ∧ b.lo c ≠ b.up c ∧ (|b.lo c - x c| ≤ tol ∨ |b.up c - x c| ≤ tol)

/-- The first columns that may be fixed, at most `m` of them. -/
noncomputable def fixable (tol : ℚ) (m : Nat) (x : Nat → ℚ) (b : Bnds) (cols : List Nat) : List Nat := by
  classical exact (cols.filter fun c => decide (Fixable tol x b c)).take m

theorem fixable_congr (tol : ℚ) (m : Nat) (x : Nat → ℚ) (b b' : Bnds) (cols : List Nat) (h : ∀ c ∈ cols, b'.lo c = b.lo c ∧ b'.up c = b.up c) :
    fixable tol m x b' cols = fixable tol m x b cols := by
  unfold fixable
  congr 1
  apply List.filter_congr
  intro c hc
  rw [decide_eq_decide]
  simp only [Fixable, (h c hc).1, (h c hc).2]

theorem fixable_cons (tol : ℚ) (m : Nat) (x : Nat → ℚ) (b : Bnds) (c : Nat) (cols : List Nat) (h : Fixable tol x b c) :
    fixable tol (m + 1) x b (c :: cols) = c :: fixable tol m x b cols := by
  unfold fixable
  rw [List.filter_cons_of_pos (by simpa using h), List.take_succ_cons]

theorem fixable_skip (tol : ℚ) (m : Nat) (x : Nat → ℚ) (b : Bnds) (c : Nat) (cols : List Nat) (h : ¬ Fixable tol x b c) :
    fixable tol m x b (c :: cols) = fixable tol m x b cols := by
  unfold fixable
  rw [List.filter_cons_of_neg (by simpa using h)]

theorem fixable_zero (tol : ℚ) (x : Nat → ℚ) (b : Bnds) (cols : List Nat) : fixable tol 0 x b cols = [] := by
  unfold fixable; rw [List.take_zero]

theorem mem_fixable (tol : ℚ) (m : Nat) (x : Nat → ℚ) (b : Bnds) (cols : List Nat) (c : Nat) (h : c ∈ fixable tol m x b cols) : c ∈ cols ∧ Fixable tol x b c := by
  unfold fixable at h
  have := List.mem_of_mem_take h
  rw [List.mem_filter] at this
  exact ⟨this.1, by simpa using this.2⟩

theorem fixLoop_exact_aux (tol : ℚ) (M : Nat) (x : Nat → ℚ) : ∀ (cols : List Nat) (b : Bnds) (fs : List Fix), cols.Nodup → fs.length ≤ M →
    (fixLoop tol M x cols b fs).2 = fs ++ (fixable tol (M - fs.length) x b cols).map (fun c => if |b.lo c - x c| ≤ tol then (⟨c, b.up c, true⟩ : Fix) else ⟨c, b.lo c, false⟩) ∧
    ∀ c, (fixLoop tol M x cols b fs).1.lo c = (if c ∈ fixable tol (M - fs.length) x b cols ∧ ¬ |b.lo c - x c| ≤ tol then b.up c else b.lo c) ∧
      (fixLoop tol M x cols b fs).1.up c = (if c ∈ fixable tol (M - fs.length) x b cols ∧ |b.lo c - x c| ≤ tol then b.lo c else b.up c)
  | [], b, fs, _, _ => by simp [fixLoop, fixable]
  | i :: is, b, fs, hn, hM => by
    have hni : i ∉ is := (List.nodup_cons.1 hn).1
    have hns : is.Nodup := (List.nodup_cons.1 hn).2
    rw [fixLoop]
    by_cases hc : (!isFrac tol (x i) && decide (fs.length < M)) = true
    · rw [if_pos hc]
      rw [Bool.and_eq_true, Bool.not_eq_true', decide_eq_true_iff, not_isFrac_iff] at hc
      obtain ⟨hI, hlt⟩ := hc
      by_cases hF : Fixable tol x b i
      · obtain ⟨m, hm⟩ : ∃ m, M - fs.length = m + 1 := ⟨M - fs.length - 1, by omega⟩
        rw [hm, fixable_cons _ _ _ _ _ _ hF]
        -- the step
        have hone : ∃ b' f, fixOne tol x i b fs = (b', fs ++ [f]) ∧ f = (if |b.lo i - x i| ≤ tol then (⟨i, b.up i, true⟩ : Fix) else ⟨i, b.lo i, false⟩) ∧
            (∀ c, c ≠ i → b'.lo c = b.lo c ∧ b'.up c = b.up c) ∧ b'.lo i = (if ¬ |b.lo i - x i| ≤ tol then b.up i else b.lo i) ∧
            b'.up i = (if |b.lo i - x i| ≤ tol then b.lo i else b.up i) := by
          unfold fixOne
          by_cases h1 : |b.lo i - x i| ≤ tol
          · rw [if_pos ⟨h1, hF.2.1⟩]
            refine ⟨_, _, rfl, by rw [if_pos h1], ?_, ?_, ?_⟩
            · intro c hc; exact ⟨rfl, if_neg hc⟩
            · rw [if_neg (not_not.2 h1)]; rfl
            · rw [if_pos h1]; exact if_pos rfl
          · rw [if_neg fun h => h1 h.1, if_pos ⟨hF.2.2.resolve_left h1, hF.2.1⟩]
            refine ⟨_, _, rfl, by rw [if_neg h1], ?_, ?_, ?_⟩
            · intro c hc; exact ⟨if_neg hc, rfl⟩
            · rw [if_pos h1]; exact if_pos rfl
            · rw [if_neg h1]; rfl
        obtain ⟨b', f, e, hf, ho, hl, hu⟩ := hone
        rw [e]
        simp only [List.length_append, List.length_singleton]
        by_cases hend : fs.length + 1 = M
        · rw [if_pos hend]
          have hm0 : m = 0 := by omega
          subst hm0
          rw [fixable_zero]
          refine ⟨by simp [hf], fun c => ?_⟩
          by_cases hci : c = i
          · subst hci; simp [hl, hu]
          · simp [hci, (ho c hci).1, (ho c hci).2]
        · rw [if_neg hend]
          obtain ⟨h1, h2⟩ := fixLoop_exact_aux tol M x is b' (fs ++ [f]) hns (by simp; omega)
          have hcong : ∀ k, fixable tol k x b' is = fixable tol k x b is := fun k => fixable_congr _ _ _ _ _ _ fun c hc => ho c fun he => hni (he ▸ hc)
          have hlen : M - (fs ++ [f]).length = m := by simp; omega
          rw [hlen, hcong] at h1 h2
          constructor
          · rw [h1, List.append_assoc, List.map_cons, ← hf, List.singleton_append]
            congr 2
            apply List.map_congr_left
            intro c hc
            have : c ≠ i := fun he => hni (he ▸ (mem_fixable _ _ _ _ _ _ hc).1)
            rw [(ho c this).1, (ho c this).2]
          · intro c
            by_cases hci : c = i
            · subst hci
              have hnf : c ∉ fixable tol m x b is := fun hm => hni (mem_fixable _ _ _ _ _ _ hm).1
              have a1 := (h2 c).1
              have a2 := (h2 c).2
              rw [if_neg fun h => hnf h.1, hl] at a1
              rw [if_neg fun h => hnf h.1, hu] at a2
              rw [a1, a2]
              simp
            · rw [(h2 c).1, (h2 c).2, (ho c hci).1, (ho c hci).2]
              simp [hci]
      · rw [fixable_skip _ _ _ _ _ _ hF]
        have hone : fixOne tol x i b fs = (b, fs) := by
          unfold fixOne
          rw [if_neg fun h => hF ⟨hI, h.2, Or.inl h.1⟩, if_neg fun h => hF ⟨hI, h.2, Or.inr h.1⟩]
        rw [hone]
        simp only
        rw [if_neg (by omega)]
        exact fixLoop_exact_aux tol M x is b fs hns hM
    · rw [if_neg hc]
      obtain ⟨h1, h2⟩ := fixLoop_exact_aux tol M x is b fs hns hM
      have hsk : fixable tol (M - fs.length) x b (i :: is) = fixable tol (M - fs.length) x b is := by
        by_cases hlt : fs.length < M
        · apply fixable_skip
          intro hF
          apply hc
          rw [Bool.and_eq_true, Bool.not_eq_true', decide_eq_true_iff, not_isFrac_iff]
          exact ⟨hF.1, hlt⟩
        · rw [show M - fs.length = 0 by omega, fixable_zero, fixable_zero]
      rw [hsk]
      exact ⟨h1, h2⟩

/-- **C33**: which columns an iteration fixes: the first `maxNumberAtBoundToFix` integer columns with integral values at one of two different bounds; each is fixed at the lower
bound if it is there, otherwise at the upper one, and the other bound is remembered.  Other bounds are untouched. -/
theorem dive_fixings_exact (p : Prob) (d : Dive) (x : Nat → ℚ) (b : Bnds) :
    (start p d x b).2 = (fixable d.tol d.maxFix x b (intCols p)).map (fun c => if |b.lo c - x c| ≤ d.tol then (⟨c, b.up c, true⟩ : Fix) else ⟨c, b.lo c, false⟩) ∧
    ∀ c, (start p d x b).1.lo c = (if c ∈ fixable d.tol d.maxFix x b (intCols p) ∧ ¬ |b.lo c - x c| ≤ d.tol then b.up c else b.lo c) ∧
      (start p d x b).1.up c = (if c ∈ fixable d.tol d.maxFix x b (intCols p) ∧ |b.lo c - x c| ≤ d.tol then b.lo c else b.up c) := by
  have := fixLoop_exact_aux d.tol d.maxFix x (intCols p) b [] (intCols_nodup p) (by simp)
  simpa [start] using this

/-- Instance: columns 0 (at its lower bound), 1 (fixed), 2 (at its upper bound), 3 (at its lower bound) with at most two fixings. -/
example : ((fixLoop (1 / 10) 2 (fun c => if c = 2 then 1 else 0) [0, 1, 2, 3] ⟨fun _ => 0, fun c => if c = 1 then 0 else 1⟩ []).2.map fun f => (f.col, f.orig, f.atLower)) =
    [(0, 1, true), (2, 0, false)] := by decide +kernel

/-- **C33**: the cutoff within the dive: the dive ends with an answer whose value is not below the incumbent (nothing is returned then), and goes on with any other. -/
theorem dive_cutoff (p : Prob) (d : Dive) (fuel k : Nat) (b : Bnds) (x : Nat → ℚ) (hf : ∃ i ∈ intCols p, isFrac d.tol (x i) = true) (j : Nat) (up : Bool)
    (hs : d.sel k b x = some (j, up)) (k' : Nat) (b' : Bnds) (x' : Nat → ℚ) (hi : iterate p d x b k j up = (k', b', some x')) :
    (d.inc ≤ p.f x' → loop p d (fuel + 1) k b x = some (k', b', x')) ∧ (p.f x' < d.inc → loop p d (fuel + 1) k b x = loop p d fuel k' b' x') := by
  have hany : ((intCols p).any fun i => isFrac d.tol (x i)) = true := List.any_eq_true.2 hf
  constructor
  · intro h
    rw [loop, if_pos hany, hs]
    simp only [hi, if_pos h]
  · intro h
    rw [loop, if_pos hany, hs]
    simp only [hi, if_neg (not_le.2 h)]

/-- Instance: an answer exactly as good as the incumbent ends the dive. -/
example : ((loop ⟨1, 0, fun _ => true, fun _ => 0, fun _ => 0, fun x => x 0, fun _ _ => 0⟩ ⟨1 / 10, 0, 1, fun _ _ => some fun _ => 1, fun _ _ _ => some (0, true)⟩ 1 0
    ⟨fun _ => 0, fun _ => 1⟩ (fun _ => 1 / 2)).map fun r => (r.1, r.2.2 0)) = some (1, 1) := by decide +kernel

/-! ### C35: the pump -/

/-- **C35**: when the assertion of a flip fails: in builds with assertions, when the column to flip was moved by the NLP and its previous target is fractional. -/
theorem flipOne_abort_iff (dbg : Bool) (d : Pump) (b : Bnds) (x old y : Nat → ℚ) (c : Nat) (cs : List Nat) :
    flipOne dbg d b x old y (c :: cs) = none ↔ dbg = true ∧ x c ≠ old c ∧ isFrac d.tol (old c) = true := by
  unfold flipOne
  simp only
  rw [moveVal_frac]
  by_cases h : 0 < |x c - old c|
  · rw [if_pos h]
    have h0 : x c ≠ old c := fun e => by rw [e] at h; simp at h
    by_cases h2 : (dbg && isFrac d.tol (old c)) = true
    · rw [if_pos h2]
      rw [Bool.and_eq_true] at h2
      exact ⟨fun _ => ⟨h2.1, h0, h2.2⟩, fun _ => rfl⟩
    · rw [if_neg h2]
      rw [Bool.and_eq_true] at h2
      exact ⟨fun h => (nomatch h), fun h => absurd ⟨h.1, h.2.2⟩ h2⟩
  · rw [if_neg h]
    have h0 : x c = old c := by
      by_contra hne
      exact h (abs_pos.2 (sub_ne_zero.2 hne))
    exact ⟨fun h => (nomatch h), fun h => absurd h0 h.2.1⟩

/-- **C35**: the perturbation: its assertion fails, in builds with assertions, exactly when some column to be stepped has a fractional previous target. -/
theorem perturb_abort_iff (dbg : Bool) (d : Pump) (b : Bnds) (cols : List Nat) (x old : Nat → ℚ) (k : Nat) :
    perturb dbg d b cols x old k = none ↔
      dbg = true ∧ ∃ c ∈ cols, 1 / 2 < |x c - old c| + max 0 (d.rnd k c - 3 / 10) ∧ isFrac d.tol (old c) = true := by
  unfold perturb
  simp only [moveVal_frac]
  constructor
  · intro h
    split_ifs at h with hc
    rw [Bool.and_eq_true, List.any_eq_true] at hc
    obtain ⟨h1, c, h2, h3⟩ := hc
    rw [Bool.and_eq_true, decide_eq_true_iff] at h3
    exact ⟨h1, c, h2, h3⟩
  · rintro ⟨h1, c, h2, h3, h4⟩
    rw [if_pos]
    rw [Bool.and_eq_true, List.any_eq_true]
    exact ⟨h1, c, h2, by rw [Bool.and_eq_true, decide_eq_true_iff]; exact ⟨h3, h4⟩⟩

/-- Point with which iteration `i` starts: the start of the pump or the last answer of the feasibility NLP. -/
def pointAt (d : Pump) (x0 : Nat → ℚ) (log : List (Nat → ℚ)) : Nat → (Nat → ℚ)
  | 0 => x0
  | i + 1 => match log[i]? with
    | some y => (d.feas i y).1
    | none => x0

/-- The target `j` places before position `i` of the log. -/
def before (log : List (Nat → ℚ)) (i j : Nat) : Option (Nat → ℚ) := if j ≤ i then log[i - j]? else none

theorem pumpLoop_log (dbg : Bool) (p : Prob) (d : Pump) (b : Bnds) (x0 : Nat → ℚ) : ∀ (rem : Nat) (x : Nat → ℚ) (old0 : Option (Nat → ℚ)) (olds : List (Option (Nat → ℚ)))
    (log : List (Nat → ℚ)) (x' : Nat → ℚ) (log' : List (Nat → ℚ)), pumpLoop dbg p d b rem x old0 olds log = some (x', log') →
    x = pointAt d x0 log log.length → old0 = before log log.length 1 → olds = [before log log.length 2, before log log.length 3, before log log.length 4] →
    log <+: log' ∧ x' = pointAt d x0 log' log'.length ∧ ∀ i, log.length ≤ i → ∀ y, log'[i]? = some y →
      (∃ c ∈ intCols p, isFrac d.tol (pointAt d x0 log' i c) = true) ∧
      (∀ z, 0 < i → log.length < i → log'[i - 1]? = some z → 1 / 10 ^ 5 ≤ (d.feas (i - 1) z).2) ∧
      target dbg p d b i (pointAt d x0 log' i) (before log' i 1) [before log' i 2, before log' i 3, before log' i 4] = some y
  | 0, x, old0, olds, log, x', log', h, hx, _, _ => by
    simp only [pumpLoop, Option.some.injEq, Prod.mk.injEq] at h
    obtain ⟨rfl, rfl⟩ := h
    refine ⟨List.prefix_rfl, hx, fun i hi y hy => ?_⟩
    rw [List.getElem?_eq_none hi] at hy; cases hy
  | rem + 1, x, old0, olds, log, x', log', h, hx, h0, h1 => by
    rw [pumpLoop] at h
    split_ifs at h with hfr
    · rw [Option.bind_eq_some_iff] at h
      obtain ⟨y, hy, h⟩ := h
      have hlast : (log ++ [y])[log.length]? = some y := by simp
      have hpt : ∀ l, (log ++ [y]) <+: l → pointAt d x0 l log.length = pointAt d x0 log log.length := by
        rintro l ⟨t, rfl⟩
        cases hl : log.length with
        | zero => rfl
        | succ n =>
          simp only [pointAt]
          rw [List.append_assoc, List.getElem?_append_left (by omega)]
      have hbf : ∀ l, (log ++ [y]) <+: l → ∀ j, 0 < j → before l log.length j = before log log.length j := by
        rintro l ⟨t, rfl⟩ j hj
        unfold before
        split_ifs with hjl
        · by_cases hz : log.length = 0
          · omega
          · rw [List.append_assoc, List.getElem?_append_left (by omega)]
        · rfl
      have hfr' : ∃ c ∈ intCols p, isFrac d.tol (x c) = true := List.any_eq_true.1 hfr
      have hgood : ∀ l, (log ++ [y]) <+: l → (∃ c ∈ intCols p, isFrac d.tol (pointAt d x0 l log.length c) = true) ∧
          target dbg p d b log.length (pointAt d x0 l log.length) (before l log.length 1) [before l log.length 2, before l log.length 3, before l log.length 4] = some y := by
        intro l hl
        rw [hpt l hl, hbf l hl 1 (by omega), hbf l hl 2 (by omega), hbf l hl 3 (by omega), hbf l hl 4 (by omega), ← hx, ← h0, ← h1]
        exact ⟨hfr', hy⟩
      split_ifs at h with hv
      · simp only [Option.some.injEq, Prod.mk.injEq] at h
        obtain ⟨rfl, rfl⟩ := h
        refine ⟨⟨[y], rfl⟩, ?_, fun i hi z hz => ?_⟩
        · rw [List.length_append, List.length_singleton, pointAt, hlast]
        · have hlt : i < (log ++ [y]).length := by
            by_contra hge
            rw [List.getElem?_eq_none (by omega)] at hz; cases hz
          have : i = log.length := by simp at hlt; omega
          subst this
          rw [hlast] at hz
          cases hz
          obtain ⟨g1, g2⟩ := hgood _ List.prefix_rfl
          exact ⟨g1, fun _ _ h => absurd h (by omega), g2⟩
      · obtain ⟨r1, r2, r3⟩ := pumpLoop_log dbg p d b x0 rem _ _ _ (log ++ [y]) x' log' h
          (by rw [List.length_append, List.length_singleton, pointAt, hlast])
          (by simp [before])
          (by
            rw [h0, h1]
            have e : ∀ j, 0 < j → before log log.length j = before (log ++ [y]) (log ++ [y]).length (j + 1) := by
              intro j hj
              unfold before
              simp only [List.length_append, List.length_singleton, Nat.add_le_add_iff_right]
              split_ifs with hjl
              · rw [List.getElem?_append_left (by omega)]
                congr 1; omega
              · rfl
            rw [e 1 (by omega), e 2 (by omega), e 3 (by omega)]
            rfl)
        refine ⟨(List.prefix_append _ _).trans r1, r2, fun i hi z hz => ?_⟩
        by_cases hil : i = log.length
        · subst hil
          obtain ⟨g1, g2⟩ := hgood _ r1
          have : log'[log.length]? = some y := by
            obtain ⟨t, rfl⟩ := r1
            simp
          rw [this] at hz
          cases hz
          exact ⟨g1, fun _ _ h => absurd h (by omega), g2⟩
        · obtain ⟨g1, g2, g3⟩ := r3 i (by simp; omega) z hz
          refine ⟨g1, fun w hw0 hw1 hw => ?_, g3⟩
          by_cases hi1 : (log ++ [y]).length < i
          · exact g2 w hw0 hi1 hw
          · have hi2 : i - 1 = log.length := by simp at hi1; omega
            rw [hi2] at hw ⊢
            have : log'[log.length]? = some y := by
              obtain ⟨t, rfl⟩ := r1
              simp
            rw [this] at hw
            cases hw
            exact not_lt.1 hv
    · simp only [Option.some.injEq, Prod.mk.injEq] at h
      obtain ⟨rfl, rfl⟩ := h
      refine ⟨List.prefix_rfl, hx, fun i hi y hy => ?_⟩
      rw [List.getElem?_eq_none hi] at hy; cases hy

/-- **C35**: the sequence of targets, exactly: target `i` is computed, while some integer column of the point is fractional and no feasibility NLP had a value below 1e-5, from
the last answer of the feasibility NLP, the previous target and the three targets before it; the point left at the end is the last answer. -/
theorem pump_log_exact (dbg : Bool) (p : Prob) (d : Pump) (b : Bnds) (x0 x : Nat → ℚ) (log : List (Nat → ℚ))
    (h : pumpLoop dbg p d b 200 x0 none [none, none, none] [] = some (x, log)) :
    x = pointAt d x0 log log.length ∧ ∀ i y, log[i]? = some y →
      (∃ c ∈ intCols p, isFrac d.tol (pointAt d x0 log i c) = true) ∧
      (∀ z, 0 < i → log[i - 1]? = some z → 1 / 10 ^ 5 ≤ (d.feas (i - 1) z).2) ∧
      target dbg p d b i (pointAt d x0 log i) (before log i 1) [before log i 2, before log i 3, before log i 4] = some y := by
  obtain ⟨_, h2, h3⟩ := pumpLoop_log dbg p d b x0 200 x0 none [none, none, none] [] x log h rfl rfl rfl
  refine ⟨h2, fun i y hy => ?_⟩
  obtain ⟨g1, g2, g3⟩ := h3 i (by simp) y hy
  exact ⟨g1, fun z hz => g2 z hz (by simpa using hz), g3⟩

/-- Instance: the pump of the other examples makes targets. -/
example : ((pumpLoop true ⟨1, 0, fun _ => true, fun _ => 0, fun _ => 0, fun x => x 0, fun _ _ => 0⟩
    ⟨1 / 10, 0, 1, [], fun s l => l.insertionSort (fun a b => s b ≤ s a), fun _ _ => 0, fun k _ => (fun _ => 2 / 5, if k = 2 then 0 else 1), fun _ => none⟩ ⟨fun _ => 0, fun _ => 3⟩ 200
    (fun _ => 2 / 5) none [none, none, none] []).map fun r => r.2.map fun y => y 0) = some [0, 1, 0] := by decide +kernel

/-! ### C36, C56 -/

/-- **C36**: without a MILP solution nothing is returned and no cut is added. -/
theorem milp_no_solution (tol inc : ℚ) (p : Prob) (b : Bnds) (solve : Bnds → Option (Nat → ℚ)) (cuts : List NoGood) :
    milpFinish tol inc p b solve cuts none = (cuts, none) := rfl

/-- **C56**: for rows of the form `h(nonlinear columns) + Σ linear`, with the Jacobian entries as coefficients of the linear part: a point that keeps the nonlinear columns of
`x` satisfies a row of the MIP exactly when it satisfies the row of the problem. -/
theorem mip_rows_affine (isLin : Nat → Bool) (ents : List Ent) (srt : List Nat) (h : SortedIdx ents srt) (cols : List Nat) (hn : cols.Nodup)
    (hc : ∀ e ∈ ents, (e.col ∈ cols ↔ isLin e.col = true)) (q : (Nat → ℚ) → Nat → ℚ)
    (hq : ∀ u v : Nat → ℚ, (∀ c, isLin c = false → u c = v c) → q u = q v) (x w : Nat → ℚ) (hw : ∀ c, isLin c = false → w c = x c) (r k : Nat)
    (hr : rank (hasLinear isLin ents) r = some k) (gl gu : Nat → Option ℚ) (g : (Nat → ℚ) → Nat → ℚ) (hg : ∀ u, g u = fun i => q u i + linAct isLin ents u i) :
    Within (mipBound (g (zeroLinear isLin x)) gl r) (mipBound (g (zeroLinear isLin x)) gu r) (mipAct isLin ents srt cols w k) ↔ Within (gl r) (gu r) (g w r) := by
  apply mip_rows_exact isLin ents srt h cols hn hc g x w r k hr
  have h0 : linAct isLin ents (zeroLinear isLin x) r = 0 := by
    unfold linAct
    apply List.sum_eq_zero
    intro v hv
    obtain ⟨e, he, rfl⟩ := List.mem_map.1 hv
    have := (List.mem_filter.1 he).2
    rw [Bool.and_eq_true] at this
    simp [zeroLinear, this.2]
  have hz : q (zeroLinear isLin x) = q w := hq _ _ fun c hc' => by simp [zeroLinear, hc', hw c hc']
  rw [hg, hg]
  simp only
  rw [h0, hz, add_zero]

end Verif.Heur

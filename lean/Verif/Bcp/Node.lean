import Verif.Bcp.Select
/-!
# Model of what happens around a node
(experimental/Bcp/BM_lp.cpp:99-100, 200-288, 312-328, BM_lp_branch.cpp:38-166, 910-927, 992-1003, BM_tm.cpp:137-205, 258-271, BM.cpp:65-98)

Depths and qualities of nodes are those given by BCP.  Parameter sets of BCP hold no value for an entry that was not set.
-/
namespace Verif.Bcp

/-! ## Counting failures -/

/-- One solve (BM_lp_branch.cpp:46-68): the counter, and whether the node is dropped. -/
def failStep (maxF : Int) (n : ℕ) (failed : Bool) : ℕ × Bool :=
  if failed then (n + 1, decide (maxF ≤ (n + 1 : ℕ))) else (0, false)

/-- The solves from some node down to one of its descendants: a child starts with the counter of its parent (BM_lp_branch.cpp:992-1003,
BM_lp.cpp:99-100), a node solved again goes on with its own. -/
def failPath (maxF : Int) : ℕ → List Bool → ℕ × Bool
  | n, [] => (n, false)
  | n, f :: fs =>
    let r := failStep maxF n f
    if r.2 then r else failPath maxF r.1 fs

/-- The path from the root (BM_tm.cpp:137-144). -/
def fromRoot (maxF : Int) (fs : List Bool) : ℕ × Bool := failPath maxF 0 fs

theorem infix_split (K : ℕ) (a l : List Bool) :
    List.replicate K true <:+: a ++ false :: l ↔ List.replicate K true <:+: a ∨ List.replicate K true <:+: l := by
  constructor
  · rintro ⟨s, t, h⟩
    rw [List.append_eq_append_iff] at h
    rcases h with ⟨a', h1, _⟩ | ⟨c', h1, h2⟩
    · exact Or.inl ⟨s, a', h1.symm⟩
    · cases c' with
      | nil => exact Or.inl ⟨s, [], by simpa using h1⟩
      | cons c c' =>
        simp only [List.cons_append, List.cons.injEq] at h2
        obtain ⟨rfl, rfl⟩ := h2
        rw [List.append_eq_append_iff] at h1
        rcases h1 with ⟨a', _, h3⟩ | ⟨e, _, h3⟩
        · have : false ∈ List.replicate K true := by rw [h3]; simp
          rw [List.mem_replicate] at this
          cases this.2
        · cases e with
          | nil =>
            have : false ∈ List.replicate K true := by
              simp only [List.nil_append] at h3; rw [← h3]; simp
            rw [List.mem_replicate] at this
            cases this.2
          | cons x e =>
            simp only [List.cons_append, List.cons.injEq] at h3
            exact Or.inr ⟨e, t, by rw [h3.2]⟩
  · rintro (⟨s, t, h⟩ | ⟨s, t, h⟩)
    · exact ⟨s, t ++ false :: l, by rw [← h]; simp⟩
    · exact ⟨a ++ false :: s, t, by rw [← h]; simp⟩

theorem path_general (maxF : Int) : ∀ (l : List Bool) (n : ℕ), n < (max 1 maxF).toNat →
    ((failPath maxF n l).2 = true ↔ List.replicate (max 1 maxF).toNat true <:+: List.replicate n true ++ l) ∧
    ((failPath maxF n l).2 = false → (failPath maxF n l).1 = ((List.replicate n true ++ l).reverse.takeWhile id).length)
  | [], n, hn => by
    refine ⟨?_, ?_⟩
    · constructor
      · intro h; cases h
      · intro h
        have := h.length_le
        simp at this
        omega
    · intro _
      simp [failPath]
  | f :: l, n, hn => by
    cases f with
    | true =>
      have e : List.replicate n true ++ true :: l = List.replicate (n + 1) true ++ l := by
        rw [List.replicate_succ']; simp
      rw [e, failPath]
      simp only [failStep, if_true]
      by_cases hd : maxF ≤ ((n + 1 : ℕ) : Int)
      · have hK : (max 1 maxF).toNat = n + 1 := by omega
        rw [decide_eq_true hd, if_pos rfl, hK]
        refine ⟨⟨fun _ => ⟨[], l, by simp⟩, fun _ => rfl⟩, fun h => by cases h⟩
      · rw [decide_eq_false hd, if_neg (by simp)]
        exact path_general maxF l (n + 1) (by omega)
    | false =>
      rw [failPath]
      simp only [failStep, Bool.false_eq_true, if_false]
      obtain ⟨i1, i2⟩ := path_general maxF l 0 (by omega)
      rw [infix_split]
      refine ⟨?_, ?_⟩
      · rw [i1]
        simp only [List.replicate_zero, List.nil_append]
        constructor
        · exact Or.inr
        · rintro (h | h)
          · have := h.length_le
            simp at this
            omega
          · exact h
      · intro h
        rw [i2 h]
        simp only [List.replicate_zero, List.nil_append, List.reverse_append, List.reverse_cons, List.append_assoc, List.cons_append]
        congr 1
        induction l.reverse with
        | nil => simp
        | cons x xs ih => cases x <;> simp_all

/-- **C158.** On the way from the root to a node, a solve drops its node exactly when as many solves in a row have failed as the parameter says
(at least one); a success in between starts the count again. -/
theorem dropped_iff (maxF : Int) (fs : List Bool) :
    (fromRoot maxF fs).2 = true ↔ List.replicate (max 1 maxF).toNat true <:+: fs := by
  unfold fromRoot
  simpa using (path_general maxF fs 0 (by omega)).1

/-- **C158.** As long as no node is dropped the counter is the number of failures since the last success. -/
theorem counter_exact (maxF : Int) (fs : List Bool) (h : (fromRoot maxF fs).2 = false) :
    (fromRoot maxF fs).1 = (fs.reverse.takeWhile id).length := by
  unfold fromRoot at *
  simpa using (path_general maxF fs 0 (by omega)).2 h

/-- **C158 (refuted).** A node is dropped as fathomed after five failures whatever it contains: here the only solution. -/
theorem failures_drop_solution : (fromRoot 5 [true, true, true, true, true]).2 = true ∧
    Wanted (fun x => x 0 = 1) (fun _ => 1) (fun _ => false) [0] sq (fun _ => 1) := by
  refine ⟨by decide, rfl, ?_, ?_, rfl⟩
  · intro j; simp [sq]
  · intro c _; exact ⟨1, by norm_num⟩

/-! ## Order of the candidate nodes -/

/-- `BMSearchTreeCompareBest` (BM_tm.cpp:258-271) on quality and depth; `g` is 1e-8. -/
def before (g : ℚ) (x y : ℚ × ℕ) : Bool := x.1 < y.1 - g ∨ (x.1 ≤ y.1 + g ∧ y.2 < x.2)

/-- **C159.** No node comes before itself, nor do two nodes come before each other. -/
theorem before_asymm (g : ℚ) (hg : 0 ≤ g) (x y : ℚ × ℕ) (h : before g x y = true) : before g y x = false := by
  simp only [before, Bool.decide_or, Bool.decide_and, Bool.or_eq_true, Bool.and_eq_true, decide_eq_true_eq, Bool.or_eq_false_iff,
    Bool.and_eq_false_iff, decide_eq_false_iff_not, not_lt, not_le] at *
  rcases h with h | ⟨h1, h2⟩
  · refine ⟨by linarith, Or.inl (by linarith)⟩
  · refine ⟨by linarith, Or.inr (by omega)⟩

/-- **C159 (partial).** For qualities that are equal or differ by more than the gap, better quality comes first, then larger depth. -/
theorem before_lex_partial (g : ℚ) (hg : 0 ≤ g) (x y : ℚ × ℕ) (h : x.1 = y.1 ∨ g < |x.1 - y.1|) :
    before g x y = true ↔ x.1 < y.1 ∨ (x.1 = y.1 ∧ y.2 < x.2) := by
  simp only [before, Bool.decide_or, Bool.decide_and, Bool.or_eq_true, Bool.and_eq_true, decide_eq_true_eq]
  rcases h with h | h
  · rw [h]
    constructor
    · rintro (c | ⟨_, c⟩)
      · linarith
      · exact Or.inr ⟨rfl, c⟩
    · rintro (c | ⟨_, c⟩)
      · exact absurd c (lt_irrefl _)
      · exact Or.inr ⟨by linarith, c⟩
  · rcases lt_abs.1 h with c | c
    · constructor
      · rintro (d | ⟨d, _⟩) <;> linarith
      · rintro (d | ⟨d, _⟩) <;> linarith
    · constructor
      · intro _; left; linarith
      · intro _; left; linarith

/-- **C159 (refuted).** The comparison is no ordering: of three nodes each comes before the next in a circle, so that none is the best. -/
theorem before_circle (g : ℚ) (hg : 0 < g) : before g (0, 0) (3 / 2 * g, 2) = true ∧ before g (3 / 2 * g, 2) (3 / 4 * g, 1) = true ∧
    before g (3 / 4 * g, 1) (0, 0) = true := by
  refine ⟨?_, ?_, ?_⟩ <;>
    simp only [before, Bool.decide_or, Bool.decide_and, Bool.or_eq_true, Bool.and_eq_true, decide_eq_true_eq]
  · left; linarith
  · right; exact ⟨by linarith, by decide⟩
  · right; exact ⟨by linarith, by decide⟩

/-! ## Pseudo-costs sent -/

/-- The change for one side (BM_lp_branch.cpp:134-146 and 148-160): flags are compared as a whole; `none` is not sent.  Division by zero,
which gives no number, is `undef`. -/
def sideUpd (cutoff objv : ℚ) (o : ℕ) (up ev : Bool) (r : Option Ans) (ch : Option ℚ) : Except Err (Option Upd) :=
  if ev = false then .ok none
  else
    match r with
    | none => .error .undef
    | some a =>
      if a.aband = true ∧ a.opt = false ∧ a.inf = false then .ok none
      else
        match ch with
        | none => .error .undef
        | some c =>
          if c = 0 then .error .undef
          else
            .ok (some ⟨o, up,
              (if a.aband = false ∧ a.opt = true ∧ a.inf = false then a.obj - objv
               else if cutoff < 10 ^ 50 then 2 * (cutoff - objv) else 2 * |objv|) / c⟩)

/-- `send_pseudo_cost_update` (BM_lp_branch.cpp:122-166): the entries of the message. -/
def updates (cutoff objv : ℚ) (sb : ℕ → SbRes) : List ℕ → Except Err (List Upd)
  | [] => .ok []
  | o :: os =>
    match sideUpd cutoff objv o false (sb o).evD (sb o).rD (sb o).chD, sideUpd cutoff objv o true (sb o).evU (sb o).rU (sb o).chU,
      updates cutoff objv sb os with
    | .ok d, .ok u, .ok us => .ok (d.toList ++ u.toList ++ us)
    | _, _, _ => .error .undef

/-- Whether a side's answer tells something, and the change of the objective it stands for. -/
def told (cutoff objv : ℚ) (a : Ans) : Option ℚ :=
  match a.aband, a.opt, a.inf with
  | true, false, false => none
  | false, true, false => some (a.obj - objv)
  | _, _, _ => some (if cutoff < 10 ^ 50 then 2 * (cutoff - objv) else 2 * |objv|)

theorem sideUpd_exact (cutoff objv : ℚ) (r : SbRes) (o : ℕ) (up : Bool)
    (h : (r.way up).1 = true → ∃ a c, (r.way up).2 = (some a, some c) ∧ c ≠ 0) :
    ∃ q, sideUpd cutoff objv o up (r.way up).1 (r.way up).2.1 (r.way up).2.2 = .ok q ∧
      ∀ u, u ∈ q.toList ↔ ∃ a c e, (r.way up) = (true, some a, some c) ∧ told cutoff objv a = some e ∧ u = ⟨o, up, e / c⟩ := by
  unfold sideUpd
  cases hev : (r.way up).1 with
  | false =>
    refine ⟨none, by simp, ?_⟩
    intro u
    simp only [Option.toList_none, List.not_mem_nil, false_iff]
    rintro ⟨a, c, e, h1, _⟩
    rw [h1] at hev
    cases hev
  | true =>
    obtain ⟨a, c, h2, hc⟩ := h hev
    have hw : r.way up = (true, some a, some c) := by rw [← h2, ← hev]
    rw [if_neg (by simp), h2]
    dsimp only
    have key : ∀ u (e : ℚ), told cutoff objv a = some e →
        (u ∈ (some (⟨o, up, e / c⟩ : Upd)).toList ↔ ∃ a c e, (r.way up) = (true, some a, some c) ∧ told cutoff objv a = some e ∧ u = ⟨o, up, e / c⟩) := by
      intro u e he
      simp only [Option.toList_some, List.mem_singleton]
      constructor
      · intro hu; exact ⟨a, c, e, hw, he, hu⟩
      · rintro ⟨a', c', e', h1, h3, h4⟩
        rw [hw] at h1
        simp only [Prod.mk.injEq, true_and, Option.some.injEq] at h1
        obtain ⟨rfl, rfl⟩ := h1
        rw [he] at h3
        injection h3 with h3
        rw [h4, h3]
    by_cases ha : a.aband = true ∧ a.opt = false ∧ a.inf = false
    · rw [if_pos ha]
      refine ⟨none, rfl, ?_⟩
      intro u
      simp only [Option.toList_none, List.not_mem_nil, false_iff]
      rintro ⟨a', c', e, h1, h3, _⟩
      rw [hw] at h1
      simp only [Prod.mk.injEq, true_and, Option.some.injEq] at h1
      rw [← h1.1, told, ha.1, ha.2.1, ha.2.2] at h3
      cases h3
    · rw [if_neg ha, if_neg hc]
      refine ⟨_, rfl, ?_⟩
      intro u
      refine key u _ ?_
      rcases a with ⟨a1, a2, a3, a4, a5, a6⟩
      cases a1 <;> cases a2 <;> cases a3 <;> simp_all [told]

/-- **C160.** The update sent has exactly one entry for every side evaluated that was not given up: the change of the objective, or what
stands for it when the side is infeasible, divided by the change of the variable. -/
theorem updates_exact (cutoff objv : ℚ) (sb : ℕ → SbRes) : ∀ (os : List ℕ), os.Nodup →
    (∀ o ∈ os, ∀ w, ((sb o).way w).1 = true → ∃ a c, ((sb o).way w).2 = (some a, some c) ∧ c ≠ 0) →
    ∃ us, updates cutoff objv sb os = .ok us ∧ (us.map fun u => (u.obj, u.up)).Nodup ∧
      ∀ u, u ∈ us ↔ u.obj ∈ os ∧ ∃ a c e, (sb u.obj).way u.up = (true, some a, some c) ∧ told cutoff objv a = some e ∧ u.chg = e / c
  | [], _, _ => ⟨[], rfl, by simp, by simp⟩
  | o :: os, hn, h => by
    rw [List.nodup_cons] at hn
    obtain ⟨us, h1, h2, h3⟩ := updates_exact cutoff objv sb os hn.2 (fun o' ho' => h o' (by simp [ho']))
    obtain ⟨d, d1, d2⟩ := sideUpd_exact cutoff objv (sb o) o false (h o (by simp) false)
    obtain ⟨u, u1, u2⟩ := sideUpd_exact cutoff objv (sb o) o true (h o (by simp) true)
    rw [way_false] at d1
    rw [way_true] at u1
    have hd : ∀ x ∈ d.toList, x.obj = o ∧ x.up = false := by
      intro x hx
      obtain ⟨_, _, _, _, _, rfl⟩ := (d2 x).1 hx
      exact ⟨rfl, rfl⟩
    have hu : ∀ x ∈ u.toList, x.obj = o ∧ x.up = true := by
      intro x hx
      obtain ⟨_, _, _, _, _, rfl⟩ := (u2 x).1 hx
      exact ⟨rfl, rfl⟩
    have one : ∀ q : Option Upd, (q.toList.map fun u => (u.obj, u.up)).Nodup := by
      intro q; cases q <;> simp
    refine ⟨d.toList ++ u.toList ++ us, by rw [updates, d1, u1, h1], ?_, ?_⟩
    · rw [List.map_append, List.map_append, List.nodup_append, List.nodup_append]
      refine ⟨⟨one d, one u, ?_⟩, h2, ?_⟩
      · intro a ha b hb hab
        obtain ⟨x, hx, rfl⟩ := List.mem_map.1 ha
        obtain ⟨y, hy, rfl⟩ := List.mem_map.1 hb
        have := congrArg Prod.snd hab
        simp only [(hd x hx).2, (hu y hy).2] at this
        cases this
      · intro a ha b hb hab
        obtain ⟨y, hy, rfl⟩ := List.mem_map.1 hb
        have hy' := ((h3 y).1 hy).1
        have : a.1 = o := by
          rw [List.mem_append] at ha
          rcases ha with ha | ha
          · obtain ⟨x, hx, rfl⟩ := List.mem_map.1 ha; exact (hd x hx).1
          · obtain ⟨x, hx, rfl⟩ := List.mem_map.1 ha; exact (hu x hx).1
        rw [hab] at this
        exact hn.1 (this ▸ hy')
    · intro x
      rw [List.mem_append, List.mem_append, d2, u2, h3]
      constructor
      · rintro ((⟨a, c, e, k1, k2, rfl⟩ | ⟨a, c, e, k1, k2, rfl⟩) | ⟨k1, k2⟩)
        · exact ⟨by simp, a, c, e, k1, k2, rfl⟩
        · exact ⟨by simp, a, c, e, k1, k2, rfl⟩
        · exact ⟨by simp [k1], k2⟩
      · rintro ⟨k1, a, c, e, k2, k3, k4⟩
        rcases List.mem_cons.1 k1 with k | k
        · left
          rcases x with ⟨xo, xu, xc⟩
          dsimp only at *
          subst k k4
          cases xu
          · exact Or.inl ⟨a, c, e, k2, k3, rfl⟩
          · exact Or.inr ⟨a, c, e, k2, k3, rfl⟩
        · exact Or.inr ⟨k, a, c, e, k2, k3, k4⟩

/-- **C160 (refuted).** A side stopped at a limit has none of the three flags: it is taken for infeasible, a change of 2 (cutoff − objective)
is sent for it. -/
theorem limit_taken_for_infeasible :
    updates 100 1 (fun _ => ⟨true, false, some (ansOf ⟨false, false, false, 3, 9, 0⟩), none, some (1 / 2), none⟩) [0] =
      .ok [⟨0, false, 396⟩] := by
  have : updates 100 1 (fun _ => ⟨true, false, some (ansOf ⟨false, false, false, 3, 9, 0⟩), none, some (1 / 2), none⟩) [0] =
      .ok [⟨0, false, (2 * (100 - 1)) / (1 / 2)⟩] := by
    simp [updates, sideUpd, ansOf]
    norm_num
  rw [this]
  norm_num

/-- **C160 (refuted).** A side with a better value than the node (a local solution of a nonconvex problem) makes a negative pseudo-cost. -/
theorem negative_pseudo_cost :
    updates 100 1 (fun _ => ⟨true, false, some (ansOf ⟨false, true, false, -3, 9, 0⟩), none, some (1 / 2), none⟩) [0] =
      .ok [⟨0, false, -8⟩] := by
  have : updates 100 1 (fun _ => ⟨true, false, some (ansOf ⟨false, true, false, -3, 9, 0⟩), none, some (1 / 2), none⟩) [0] =
      .ok [⟨0, false, (-3 - 1) / (1 / 2)⟩] := by
    simp [updates, sideUpd, ansOf]
  rw [this]
  norm_num

/-! ## Bounds handed back to BCP -/

/-- Bounds changed by strong branching are set in the node (BM_lp_branch.cpp:910-927): `old` and `new` bounds of the NLP, `vars` those of
the node. -/
def propagate (ret : Int) (old new vars : Box) : Box :=
  if ret < 0 then
    ⟨fun i => if old.lo i ≠ new.lo i ∨ old.up i ≠ new.up i then new.lo i else vars.lo i,
     fun i => if old.lo i ≠ new.lo i ∨ old.up i ≠ new.up i then new.up i else vars.up i⟩
  else vars

theorem fixFeas_flag (over : ℚ → Bool) (sb : ℕ → SbRes) : ∀ (os : List Obj) (B B' : Box) (g : Bool),
    fixFeas over sb os (B, g) = .ok (B', false) → B' = B ∧ g = false
  | [], B, B', g, h => by
    simp only [fixFeas, Except.ok.injEq, Prod.mk.injEq] at h
    exact ⟨h.1.symm, h.2⟩
  | o :: os, B, B', g, h => by
    rw [fixFeas] at h
    cases hd : (if (sb o.ind).evD then (rd (sb o.ind).rD).map (fath over) else Except.ok false) with
    | error e => rw [hd] at h; cases h
    | ok d =>
      cases hu : (if (sb o.ind).evU then (rd (sb o.ind).rU).map (fath over) else Except.ok false) with
      | error e => rw [hd, hu] at h; cases h
      | ok u =>
        rw [hd, hu] at h
        obtain ⟨k1, k2⟩ := fixFeas_flag over sb os _ _ _ h
        cases d <;> cases u <;> simp_all

/-- **C161.** After the step the node has the bounds of the NLP in every column, whatever the code returned. -/
theorem bounds_propagated (dbg : Bool) (over : ℚ → Bool) (P : Sel) (sb : ℕ → SbRes) (inf feas : List Obj) (B : Box) (r : Out)
    (hr : process dbg over P sb inf feas B = .ok r) (c : ℕ) :
    (propagate r.ret B r.box B).lo c = r.box.lo c ∧ (propagate r.ret B r.box B).up c = r.box.up c := by
  unfold propagate
  by_cases hneg : r.ret < 0
  · rw [if_pos hneg]
    dsimp only
    by_cases hc : B.lo c ≠ r.box.lo c ∨ B.up c ≠ r.box.up c
    · rw [if_pos hc, if_pos hc]
      exact ⟨rfl, rfl⟩
    · rw [if_neg hc, if_neg hc]
      push Not at hc
      exact hc
  · rw [if_neg hneg]
    suffices h : r.box = B by rw [h]; exact ⟨rfl, rfl⟩
    unfold process at hr
    cases hs : scan dbg over sb inf with
    | error e => rw [hs] at hr; cases hr
    | ok o =>
      cases o with
      | none =>
        rw [hs] at hr
        injection hr with hr
        rw [← hr]
      | some n =>
        rw [hs] at hr
        dsimp only at hr
        cases h1 : fixInf over sb inf (B, false) with
        | error e => rw [h1] at hr; cases hr
        | ok q =>
          obtain ⟨B1, f2⟩ := q
          rw [h1] at hr
          dsimp only at hr
          cases h3 : fixFeas over sb feas (B1, false) with
          | error e => rw [h3] at hr; cases hr
          | ok q =>
            obtain ⟨B2, f1⟩ := q
            rw [h3] at hr
            dsimp only at hr
            cases f2 with
            | true =>
              rw [if_pos rfl] at hr
              injection hr with hr
              rw [← hr] at hneg
              exact absurd (show (-1 : Int) < 0 by decide) hneg
            | false =>
              rw [if_neg (by simp)] at hr
              cases h4 : choose P sb inf with
              | error e => rw [h4] at hr; cases hr
              | ok b =>
                rw [h4] at hr
                injection hr with hr
                cases f1 with
                | true =>
                  rw [← hr] at hneg
                  exact absurd (show (-1 : Int) < 0 by decide) hneg
                | false =>
                  rw [← hr]
                  have k1 := (fixFeas_flag over sb feas B1 B2 false h3).1
                  have k2 : B1 = B := by
                    clear h3 hr h4 k1
                    have gen : ∀ (os : List Obj) (B B' : Box) (g : Bool), fixInf over sb os (B, g) = .ok (B', false) → B' = B ∧ g = false := by
                      intro os
                      induction os with
                      | nil =>
                        intro B B' g h
                        simp only [fixInf, Except.ok.injEq, Prod.mk.injEq] at h
                        exact ⟨h.1.symm, h.2⟩
                      | cons o os ih =>
                        intro B B' g h
                        rw [fixInf] at h
                        by_cases he : evaluated (sb o.ind) = false
                        · rw [if_pos he] at h
                          exact ih _ _ _ h
                        · rw [if_neg he] at h
                          cases hd : (sb o.ind).rD with
                          | none => rw [hd] at h; cases h
                          | some d =>
                            cases hu : (sb o.ind).rU with
                            | none => rw [hd, hu] at h; cases h
                            | some u =>
                              rw [hd, hu] at h
                              obtain ⟨k1, k2⟩ := ih _ _ _ h
                              cases hfd : fath over d <;> cases hfu : fath over u <;> simp_all
                    exact (gen inf B B1 false h1).1
                  rw [k1, k2]

/-! ## Solutions written -/

/-- The dense vector of `write_AMPL_solution` (BM_tm.cpp:172-187): entries are index, whether the variable is integer, value; `none`: an
index beyond the columns. -/
def dense (n : ℕ) (sol : List (ℕ × Bool × ℚ)) : Option (List ℚ) :=
  sol.foldl (fun d e => d.bind fun d => if e.1 < d.length then some (d.set e.1 (if e.2.1 then (⌊e.2.2 + 1 / 2⌋ : ℚ) else e.2.2)) else none)
    (some (List.replicate n 0))

theorem dense_general : ∀ (sol : List (ℕ × Bool × ℚ)) (d : List ℚ), (sol.map (·.1)).Nodup → (∀ e ∈ sol, e.1 < d.length) →
    ∃ r, sol.foldl (fun d e => d.bind fun d => if e.1 < d.length then some (d.set e.1 (if e.2.1 then (⌊e.2.2 + 1 / 2⌋ : ℚ) else e.2.2)) else none)
      (some d) = some r ∧ r.length = d.length ∧
      (∀ e ∈ sol, r[e.1]? = some (if e.2.1 then (⌊e.2.2 + 1 / 2⌋ : ℚ) else e.2.2)) ∧
      ∀ j, (∀ e ∈ sol, e.1 ≠ j) → r[j]? = d[j]?
  | [], d, _, _ => ⟨d, rfl, rfl, by simp, by simp⟩
  | e :: sol, d, hn, hl => by
    rw [List.map_cons, List.nodup_cons] at hn
    have he := hl e (by simp)
    obtain ⟨r, h1, h2, h3, h4⟩ := dense_general sol (d.set e.1 (if e.2.1 then (⌊e.2.2 + 1 / 2⌋ : ℚ) else e.2.2)) hn.2
      (fun x hx => by rw [List.length_set]; exact hl x (by simp [hx]))
    refine ⟨r, ?_, by rw [h2, List.length_set], ?_, ?_⟩
    · rw [List.foldl_cons, Option.bind_some, if_pos he]
      exact h1
    · intro x hx
      rcases List.mem_cons.1 hx with c | c
      · subst c
        rw [h4 x.1 (fun y hy c => hn.1 (List.mem_map.2 ⟨y, hy, c⟩)), List.getElem?_set_self he]
      · exact h3 x c
    · intro j hj
      rw [h4 j (fun y hy => hj y (by simp [hy])), List.getElem?_set_ne (hj e (by simp))]

/-- **C162.** The vector written has the value of every entry, rounded to the nearest integer for integer variables, and 0 elsewhere. -/
theorem dense_exact (n : ℕ) (sol : List (ℕ × Bool × ℚ)) (hn : (sol.map (·.1)).Nodup) (hl : ∀ e ∈ sol, e.1 < n) :
    ∃ r, dense n sol = some r ∧ r.length = n ∧ (∀ e ∈ sol, e.2.1 = false → r[e.1]? = some e.2.2) ∧
      (∀ e ∈ sol, e.2.1 = true → ∀ k : Int, |e.2.2 - k| < 1 / 2 → r[e.1]? = some (k : ℚ)) ∧
      ∀ j < n, (∀ e ∈ sol, e.1 ≠ j) → r[j]? = some 0 := by
  obtain ⟨r, h1, h2, h3, h4⟩ := dense_general sol (List.replicate n 0) hn (by simpa using hl)
  refine ⟨r, h1, by simpa using h2, ?_, ?_, ?_⟩
  · intro e he hi
    rw [h3 e he, hi]
    rfl
  · intro e he hi k hk
    rw [h3 e he, hi, if_pos rfl]
    have : ⌊e.2.2 + 1 / 2⌋ = k := by
      rw [Int.floor_eq_iff]
      rw [abs_lt] at hk
      constructor <;> linarith
    rw [this]
  · intro j hj hne
    rw [h4 j hne]
    simp [hj]

/-- The entries of a solution of the hybrid algorithm (BM_lp.cpp:229-237). -/
def hybridEntries (tol : ℚ) (isInt : ℕ → Bool) (x : List ℚ) : List (ℕ × Bool × ℚ) :=
  (x.zipIdx.filter fun p => tol < p.1).map fun p => (p.2, isInt p.2, p.1)

/-- **C162 (partial).** A solution of the hybrid algorithm without negative values, and with its positive values above the tolerance, is
written as found. -/
theorem hybrid_written_partial (tol : ℚ) (x : List ℚ) (hx : ∀ v ∈ x, v = 0 ∨ tol < v) :
    dense x.length (hybridEntries tol (fun _ => false) x) = some x := by
  have hmem : ∀ e, e ∈ hybridEntries tol (fun _ => false) x ↔ ∃ v, x[e.1]? = some v ∧ tol < v ∧ e = (e.1, false, v) := by
    intro e
    simp only [hybridEntries, List.mem_map, List.mem_filter, decide_eq_true_eq]
    constructor
    · rintro ⟨p, ⟨h1, h2⟩, rfl⟩
      exact ⟨p.1, (List.mem_zipIdx_iff_getElem? (x := p)).1 h1, h2, rfl⟩
    · rintro ⟨v, h1, h2, h3⟩
      exact ⟨(v, e.1), ⟨List.mem_zipIdx_iff_getElem?.2 h1, h2⟩, h3.symm⟩
  have hnd : ((hybridEntries tol (fun _ => false) x).map (·.1)).Nodup := by
    unfold hybridEntries
    rw [List.map_map]
    have : (x.zipIdx.map Prod.snd).Nodup := by
      rw [List.zipIdx_map_snd]
      exact List.nodup_range'
    exact this.sublist ((List.filter_sublist).map _)
  obtain ⟨r, h1, h2, h3, _, h5⟩ := dense_exact x.length (hybridEntries tol (fun _ => false) x) hnd (by
    intro e he
    obtain ⟨v, hv, _⟩ := (hmem e).1 he
    exact (List.getElem?_eq_some_iff.1 hv).1)
  rw [h1]
  congr 1
  refine List.ext_getElem? ?_
  intro j
  by_cases hj : j < x.length
  · by_cases hv : tol < x[j]
    · have := h3 (j, false, x[j]) ((hmem _).2 ⟨x[j], List.getElem?_eq_getElem hj, hv, rfl⟩) rfl
      dsimp only at this
      rw [this, List.getElem?_eq_getElem hj]
    · rw [h5 j hj, List.getElem?_eq_getElem hj]
      · rcases hx x[j] (List.getElem_mem hj) with c | c
        · rw [c]
        · exact absurd c hv
      · intro e he c
        obtain ⟨v, hv1, hv2, _⟩ := (hmem e).1 he
        rw [c, List.getElem?_eq_getElem hj] at hv1
        injection hv1 with hv1
        rw [hv1] at hv
        exact hv hv2
  · rw [List.getElem?_eq_none (by omega), List.getElem?_eq_none (by omega)]

/-- **C162 (refuted).** Negative values are left out (`solverSol[i] > tolerance` without absolute value): −3 is written as 0. -/
theorem negative_lost : dense 2 (hybridEntries (1 / 10 ^ 6) (fun _ => false) [-3, 2]) = some [0, 2] := by decide +kernel

/-! ## Lower bounds, cuts, parameters -/

/-- `compute_lower_bound` (BM_lp.cpp:312-328); `none`: `bd` is not set. -/
def lowerBound (pureBB : Bool) (old objval : ℚ) : Option ℚ := if pureBB then some (max objval old) else none

/-- **C163 (partial).** In pure branch and bound the bound never gets worse, and is valid if the parent's bound and the value of the node
are. -/
theorem lower_bound_partial (old objval opt : ℚ) : ∃ b, lowerBound true old objval = some b ∧ old ≤ b ∧ objval ≤ b ∧
    (old ≤ opt → objval ≤ opt → b ≤ opt) := ⟨_, rfl, le_max_right _ _, le_max_left _ _, fun h1 h2 => max_le h2 h1⟩

/-- **C163 (refuted).** In the hybrid algorithm the bound is computed from a variable that is never set. -/
theorem hybrid_bound_unset (old objval : ℚ) : lowerBound false old objval = none := rfl

/-- Generators called by `generate_cuts_in_lp` (BM_lp.cpp:255-275): frequencies of all generators, the random numbers `CoinDrand48()`;
`none`: there is no generator and the iterator goes before the first.  -/
def called (freqs : List Int) (drand : ℕ → ℚ) : Option (List ℕ) :=
  if freqs = [] then none
  else some ((List.range (freqs.length - 1)).filter fun i => 1 - drand i < ((freqs[i]?).getD 0 : Int))

/-- **C164.** A generator is called exactly if it is not the last one and its frequency is at least 2, or 1 and the random number not 0. -/
theorem called_exact (freqs : List Int) (hne : freqs ≠ []) (drand : ℕ → ℚ) (hd : ∀ i, 0 ≤ drand i ∧ drand i < 1) :
    ∃ l, called freqs drand = some l ∧ ∀ i, i ∈ l ↔ i + 1 < freqs.length ∧ ∃ f, freqs[i]? = some f ∧ (2 ≤ f ∨ (f = 1 ∧ drand i ≠ 0)) := by
  refine ⟨_, by rw [called, if_neg hne], ?_⟩
  intro i
  simp only [List.mem_filter, List.mem_range, decide_eq_true_eq]
  have key : ∀ f : Int, (1 - drand i < (f : ℚ)) ↔ (2 ≤ f ∨ (f = 1 ∧ drand i ≠ 0)) := by
    intro f
    constructor
    · intro h
      by_cases h2 : 2 ≤ f
      · exact Or.inl h2
      · have : (0 : ℚ) < f := by linarith [(hd i).2]
        have h0 : 0 < f := by exact_mod_cast this
        have h1 : f = 1 := by omega
        refine Or.inr ⟨h1, ?_⟩
        intro c
        rw [h1, c] at h
        norm_num at h
    · rintro (h | ⟨rfl, h⟩)
      · have : (2 : ℚ) ≤ f := by exact_mod_cast h
        linarith [(hd i).1]
      · have : 0 < drand i := lt_of_le_of_ne (hd i).1 (Ne.symm h)
        push_cast
        linarith
  constructor
  · rintro ⟨h1, h2⟩
    have hi : i < freqs.length := by omega
    rw [List.getElem?_eq_getElem hi] at h2
    exact ⟨by omega, freqs[i], List.getElem?_eq_getElem hi, (key _).1 h2⟩
  · rintro ⟨h1, f, h2, h3⟩
    refine ⟨by omega, ?_⟩
    rw [h2]
    exact (key f).2 h3

/-- **C164 (refuted).** A frequency means "every k nodes" elsewhere, a negative one "at the root only": here a generator with frequency 5 is
called at every node and one with frequency −1 at none, not even the root. -/
theorem frequency_not_respected (drand : ℕ → ℚ) (hd : ∀ i, 0 ≤ drand i ∧ drand i < 1) : called [5, -1, 1] drand = some [0] := by
  have h0 := hd 0
  have h1 := hd 1
  have e : List.range ([5, -1, 1] : List Int).length.pred = [0, 1] := rfl
  show some (([0, 1] : List ℕ).filter _) = _
  congr 1
  rw [List.filter_cons_of_pos (by simp; linarith), List.filter_cons_of_neg (by simp; linarith)]
  rfl

/-- The integer parameters (BM.hpp:68-86). -/
inductive IntPar where
  | usePseudoCosts
  | decreasingSort
  | preferHigh
  | numFail
  | sbRoot
  | sbTree
  | sbMaxLevel
  deriving DecidableEq

/-- Parameters with a keyword (BM.cpp:72-79). -/
def keyword : IntPar → Option String
  | .usePseudoCosts => some "BM_UsePseudoCosts"
  | .decreasingSort => some "BM_DecreasingSortInSetupList"
  | .preferHigh => some "BM_PreferHighCombinationInBranching"
  | .numFail => some "BM_NumNlpFailureMax"
  | _ => none

/-- Defaults (BM.cpp:92-95). -/
def default : IntPar → Option Int
  | .usePseudoCosts => some 1
  | .decreasingSort => some 1
  | .preferHigh => some 0
  | .numFail => some 5
  | _ => none

/-- Value of a parameter after reading a file that gives values to keywords; `none`: never set. -/
def parVal (file : String → Option Int) (p : IntPar) : Option Int :=
  match (keyword p).bind file with
  | some v => some v
  | none => default p

/-- The number of branches tried (BM_lp_branch.cpp:784-797) with the parameters read as needed. -/
def limitOf (get : IntPar → Option Int) (index pidNum branchNum : Int) : Option Int :=
  if index = 0 then (get .sbRoot).map fun r => limit index 0 r 0 pidNum branchNum
  else (get .sbMaxLevel).bind fun m =>
    if index < m then (get .sbTree).map fun t => limit index m 0 t pidNum branchNum else some (limit index m 0 0 pidNum branchNum)

/-- The same with the parameters of a file. -/
def limitPar (file : String → Option Int) : Int → Int → Int → Option Int := limitOf (parVal file)

/-- **C165** which of the three parameters are needed: in the root the first, elsewhere the level, and the third only below that level. -/
theorem limit_needs (get : IntPar → Option Int) (index pidNum branchNum : Int) :
    (∀ r, index = 0 → get .sbRoot = some r → limitOf get index pidNum branchNum = some (min branchNum r)) ∧
    (index = 0 → get .sbRoot = none → limitOf get index pidNum branchNum = none) ∧
    (index ≠ 0 → get .sbMaxLevel = none → limitOf get index pidNum branchNum = none) ∧
    (∀ m, index ≠ 0 → get .sbMaxLevel = some m → m ≤ index → limitOf get index pidNum branchNum = some (if 0 < pidNum then pidNum + 1 else 0)) ∧
    (∀ m t, index ≠ 0 → get .sbMaxLevel = some m → index < m → get .sbTree = some t → limitOf get index pidNum branchNum = some (min branchNum (max (pidNum + 1) t))) ∧
    (∀ m, index ≠ 0 → get .sbMaxLevel = some m → index < m → get .sbTree = none → limitOf get index pidNum branchNum = none) := by
  refine ⟨?_, ?_, ?_, ?_, ?_, ?_⟩ <;> intros <;> simp_all [limitOf, limit, not_lt.2]

example : limitOf (fun p => if p = .sbRoot then some 3 else none) 0 1 7 = some 3 := by decide

/-- **C165 (partial).** Each of the four parameters with a keyword has the value given in the file, or its default; their keywords differ. -/
theorem parameters_partial (file : String → Option Int) : (∀ p k, keyword p = some k → (∀ v, file k = some v → parVal file p = some v) ∧
    (file k = none → ∃ d, default p = some d ∧ parVal file p = some d)) ∧
    (∀ p q, keyword p = keyword q → keyword p ≠ none → p = q) := by
  refine ⟨?_, ?_⟩
  · intro p k hk
    refine ⟨?_, ?_⟩
    · intro v hv
      simp [parVal, hk, hv]
    · intro hn
      cases p <;> simp_all [keyword, parVal, default]
  · intro p q h hn
    cases p <;> cases q <;> simp_all [keyword]

/-- **C165 (refuted).** The three parameters of strong branching have neither keyword nor default: for every parameter file and at every node
the number of branches tried depends on a value never set. -/
theorem limit_unset (file : String → Option Int) (index pidNum branchNum : Int) : limitPar file index pidNum branchNum = none := by
  unfold limitPar limitOf
  split_ifs <;> rfl

/-! ## Examples -/

example : fromRoot 2 [true, false, true] = (1, false) ∧ fromRoot 2 [true, false, true, true, false] = (2, true) := by decide

/-- With the parameter 0 or 1 the first failure drops the node. -/
example : (fromRoot 0 [false, true]).2 = true ∧ (fromRoot 1 [false, true]).2 = true ∧ (fromRoot 0 [false, false]).2 = false := by decide

example : before (1 / 10 ^ 8) (1, 3) (2, 7) = true ∧ before (1 / 10 ^ 8) (1, 3) (1, 2) = true ∧ before (1 / 10 ^ 8) (1, 3) (1, 3) = false := by
  decide +kernel

/-- A record with an optimal down and an infeasible up branch meets the hypotheses of the theorem on updates. -/
example : ∀ w, ((⟨true, true, some ⟨false, true, false, 4, 3, 0⟩, some ⟨false, false, true, 0, 3, 0⟩, some (1 / 2), some (1 / 2)⟩ : SbRes).way w).1 = true →
    ∃ a c, ((⟨true, true, some ⟨false, true, false, 4, 3, 0⟩, some ⟨false, false, true, 0, 3, 0⟩, some (1 / 2), some (1 / 2)⟩ : SbRes).way w).2 =
      (some a, some c) ∧ c ≠ 0 := by
  intro w _
  cases w
  · exact ⟨_, _, rfl, by norm_num⟩
  · exact ⟨_, _, rfl, by norm_num⟩

example : dense 3 [(2, true, 29 / 10), (0, false, 7 / 2)] = some [7 / 2, 0, 3] := by decide +kernel

example : called [1, 2, 0, 7] (fun _ => 1 / 3) = some [0, 1] := by decide +kernel

example : parVal (fun k => if k = "BM_NumNlpFailureMax" then some 9 else none) .numFail = some 9 ∧
    parVal (fun _ => none) .numFail = some 5 := by decide

/-- The only error met in forming an update is the use of a value that was never set or a division by zero. -/
theorem sideUpd_error (cutoff objv : ℚ) (o : ℕ) (up ev : Bool) (r : Option Ans) (ch : Option ℚ) (e : Err) (h : sideUpd cutoff objv o up ev r ch = .error e) :
    e = .undef ∧ ev = true ∧ (r = none ∨ ch = none ∨ ch = some 0) := by
  unfold sideUpd at h
  by_cases hev : ev = false
  · rw [if_pos hev] at h; cases h
  · rw [if_neg hev] at h
    have hev' : ev = true := by simpa using hev
    cases r with
    | none => simp only [Except.error.injEq] at h; exact ⟨h.symm, hev', Or.inl rfl⟩
    | some a =>
      simp only at h
      split at h
      · cases h
      · cases ch with
        | none => simp only [Except.error.injEq] at h; exact ⟨h.symm, hev', Or.inr (Or.inl rfl)⟩
        | some c =>
          simp only at h
          split at h
          · rename_i hc; simp only [Except.error.injEq] at h; exact ⟨h.symm, hev', Or.inr (Or.inr (by rw [hc]))⟩
          · cases h

example : sideUpd 10 0 1 true true (some ⟨false, true, false, 4, 3, 0⟩) (some 0) = .error .undef := by decide +kernel

/-- **C165** values without a parameter file: pseudo costs are used, the order is decreasing, low combinations are preferred, five failures. -/
theorem defaults_exact : parVal (fun _ => none) .usePseudoCosts = some 1 ∧ parVal (fun _ => none) .decreasingSort = some 1 ∧
    parVal (fun _ => none) .preferHigh = some 0 ∧ parVal (fun _ => none) .numFail = some 5 := ⟨rfl, rfl, rfl, rfl⟩

end Verif.Bcp

import Verif.Nway.Object
/-! # C128–C130: strong branching on n-way objects

experimental/RobotBonmin/BonNWayChoose.cpp: `chooseVariable` 357-473, `doStrongBranching` 484-588, the bounds set up by `setupList` 210-217;
BonNWayObject.hpp: `var_branched_on`, `seq_branched_on` 176-186.

`lower_` and `upper_` of the branching information are those of the solver.  Solving is a function of the bounds.  The order of a branching object is found by any sort.
Scores, pseudo-costs and the time are parameters.  `none` stands for a failed assertion or an access out of range. -/
namespace Verif.Nway

/-- What a solve reports. -/
inductive Outcome
  | infeasible
  | optimal (v : ℚ)
  | other (v : ℚ)

/-- Test for an infeasible branch (BonNWayChoose.cpp:524-525). -/
def Outcome.pruned (o : Outcome) (cutoff : ℚ) : Bool :=
  match o with
  | .infeasible => true
  | .optimal v => decide (cutoff < v)
  | .other _ => false

/-- `getObjValue` (522); not used for infeasible branches. -/
def Outcome.value : Outcome → ℚ
  | .infeasible => 0
  | .optimal v => v
  | .other v => v

/-- `do_fixings_`, cutoff, value recorded for infeasible branches, and whether the depth is 0. -/
structure Cfg where
  fix : ℕ
  cutoff : ℚ
  big : ℚ
  root : Bool

/-- Value recorded for infeasible branches (507-509). -/
def bigVal (mult cutoff obj : ℚ) : ℚ :=
  let b := if 10 ^ 10 < mult * cutoff then 10 * obj else mult * cutoff
  b + |b| * (1 / 100000)

/-- `saveLower`, `saveUpper`, the row of `bounds_` and `n_can_be_fixed`. -/
structure SB where
  sv : Box
  row : List ℚ
  fixed : ℕ

/-- Body of the loop (514-551), branch `i`.  The row has the size of `unit_changes`. -/
def sbStep (N : Obj) (b : Branching) (solve : Box → Outcome) (g : Cfg) (i : ℕ) (s : SB) : Option SB :=
  (b.branch N i s.sv).bind fun x => (b.seqBranchedOn i).bind fun q => (N.members[q]?).bind fun v =>
    if q < s.row.length then
      let p := (solve x).pruned g.cutoff
      let f : Bool := p && decide (1 < g.fix)
      some ⟨if f then ⟨s.sv.lo, Function.update s.sv.up v (s.sv.lo v)⟩ else s.sv, if g.root then s.row.set q (if p then g.big else (solve x).value) else s.row, if f then s.fixed + 1 else s.fixed⟩
    else none

/-- The loop (512-552): `n` branches from number `i` on. -/
def sbLoop (N : Obj) (b : Branching) (solve : Box → Outcome) (g : Cfg) : ℕ → ℕ → SB → Option SB
  | 0, _, s => some s
  | n + 1, i, s => (sbStep N b solve g i s).bind (sbLoop N b solve g n (i + 1))

/-- Code returned (576-587). -/
def sbCode (number fixed : ℕ) (late : Bool) : ℤ := if fixed = number then -1 else if fixed ≠ 0 then 1 else if late then 3 else 0

/-- `doStrongBranching` (484-588) for a branching object. -/
def strong (N : Obj) (b : Branching) (solve : Box → Outcome) (g : Cfg) (late : Bool) (x : Box) (row : List ℚ) : Option (SB × ℤ) :=
  (sbLoop N b solve g b.number 0 ⟨x, row, 0⟩).map fun s => (s, sbCode b.number s.fixed late)

/-- Loop over the members of an object in the quick fixing (383-390) from number `j` on; the second component counts fixings. -/
def quickMembers (row : List ℚ) (cutoff : ℚ) : List ℕ → ℕ → Box × ℕ → Option (Box × ℕ)
  | [], _, a => some a
  | c :: cs, j, (x, n) =>
    if x.up c < x.lo c + 1 / 2 then quickMembers row cutoff cs (j + 1) (x, n)
    else (row[j]?).bind fun r => if cutoff < r then quickMembers row cutoff cs (j + 1) (⟨x.lo, Function.update x.up c (x.lo c)⟩, n + 1) else quickMembers row cutoff cs (j + 1) (x, n)

/-- The quick fixing (376-391) over the objects on the list. -/
def quickFix (objs : List Obj) (rows : List (List ℚ)) (cutoff : ℚ) : List ℕ → Box × ℕ → Option (Box × ℕ)
  | [], a => some a
  | i :: is, a => (objs[i]?).bind fun N => (rows[i]?).bind fun row => (quickMembers row cutoff N.members 0 a).bind (quickFix objs rows cutoff is)

/-- Result of `chooseVariable`. -/
structure Choice where
  code : ℤ
  best : Option ℕ
  box : Box
  rows : List (List ℚ)

/-- Everything `chooseVariable` gets that is fixed during the call. -/
structure Env where
  objs : List Obj
  prio : ℕ → ℤ
  create : Obj → Info → Option Branching
  solve : Box → Outcome
  score : ℕ → ℚ
  late : ℕ → Bool
  depth : ℤ
  sol : ℕ → ℚ
  tol : ℚ
  g : Cfg

/-- Loop of `chooseVariable` (435-470); `bp` is `bestPriority`, `bs` the best score (`none` = -COIN_DBL_MAX), `first` the head of the list. -/
def chooseLoop (e : Env) (first : ℕ) : List ℕ → ℤ → Option ℚ → Choice → Option Choice
  | [], _, _, r => some r
  | i :: is, bp, bs, r => (e.objs[i]?).bind fun N => (r.rows[i]?).bind fun row =>
    if e.prio i < bp then some r
    else (e.create N ⟨r.box, e.sol, e.tol, e.g.cutoff, e.depth⟩).bind fun b => (strong N b e.solve e.g (e.late i) r.box row).bind fun q =>
      let rows := r.rows.set i q.1.row
      if q.2 = -1 then some ⟨-1, r.best, q.1.sv, rows⟩
      else
        let code := if 1 < e.g.fix ∧ q.2 = 1 ∧ e.g.root then 2 else r.code
        let win : Bool := match bs with
          | none => true
          | some v => decide (v < e.score i)
        let best := if win then some i else r.best
        if q.2 = 3 then some ⟨3, some (best.getD first), q.1.sv, rows⟩
        else chooseLoop e first is (e.prio i) (if win then some (e.score i) else bs) ⟨code, best, q.1.sv, rows⟩

/-- `chooseVariable` (357-473).  `unsat` are the objects on the list, `onList` how many of them `numberOnList_` admits, `quick` the condition of line 368. -/
def choose (e : Env) (unsat : List ℕ) (onList : ℕ) (quick : Bool) (x : Box) (rows : List (List ℚ)) : Option Choice :=
  match unsat with
  | [] => some ⟨1, none, x, rows⟩
  | first :: _ =>
    if quick then
      (if 1 < e.g.fix then quickFix e.objs rows e.g.cutoff unsat (x, 0) else some (x, 0)).map fun a => ⟨if a.2 ≠ 0 then 2 else 0, some first, a.1, rows⟩
    else chooseLoop e first (unsat.take onList) 0 none ⟨0, none, x, rows⟩

/-! ## Specification -/

/-- The solver is right: no feasible point in bounds found infeasible, and no better value than the one found. -/
def Right (Feas : (ℕ → ℚ) → Prop) (f : (ℕ → ℚ) → ℚ) (solve : Box → Outcome) : Prop :=
  ∀ x y, Feas y → InBox x y → match solve x with
    | .infeasible => False
    | .optimal v => v ≤ f y
    | .other _ => True

/-- In every feasible point exactly one member of the object is 1, and its consequences are 0. -/
def OneOf (Feas : (ℕ → ℚ) → Prop) (N : Obj) : Prop := ∀ x y, Feas y → InBox x y → ∃ k, Sol N x y k

/-- A recorded row is valid up to a cutoff: whenever the entry of a member exceeds a later cutoff, so does every solution with the member at 1. -/
def ValidRow (Feas : (ℕ → ℚ) → Prop) (f : (ℕ → ℚ) → ℚ) (N : Obj) (x : Box) (row : List ℚ) (c0 : ℚ) : Prop :=
  ∀ y k, Feas y → Sol N x y k → ∀ r, row[k]? = some r → ∀ c', c' ≤ c0 → c' < r → c' < f y

/-! ## Lemmas -/

theorem Sol.sub {N : Obj} {x x' : Box} {y : ℕ → ℚ} {k : ℕ} (h : Sol N x y k) (hx : InBox x' y) : Sol N x' y k := ⟨hx, h.mem, h.one, h.zero, h.conseq⟩

/-- The branch of the member that is 1 can be made and keeps the solution, even if other members have been fixed since. -/
theorem kept_up (N : Obj) (x : Box) (hb : Binary N x) (order : List ℕ) (hn : order.Nodup) (hr : ∀ j ∈ order, ∃ c, N.members[j]? = some c) (y : ℕ → ℚ) (k : ℕ) (hy : Sol N x y k) (i : ℕ) (hi : order[i]? = some k) :
    ∃ x', Branching.branchOn N ⟨order, []⟩ (some i) x = some x' ∧ InBox x' y := by
  obtain ⟨hlt, hik⟩ := List.getElem?_eq_some_iff.1 hi
  have hsplit : order = order.take i ++ k :: order.drop (i + 1) := by
    rw [← hik, List.getElem_cons_drop, List.take_append_drop]
  have hlen : (order.take i).length = i := by simp; omega
  generalize order.take i = pre at *
  generalize order.drop (i + 1) = post at *
  subst hsplit
  subst hlen
  obtain ⟨c, hc⟩ := hr k (by simp)
  have hcm := List.mem_of_getElem? hc
  have hup : x.up c = 1 := by
    have := (hy.box c).2
    rw [hy.one c hc] at this
    rcases hb.up c hcm with h | h
    · rw [h] at this; norm_num at this
    · exact h
  have hne : ∀ l, (l = pre ∨ l = post) → ∀ d ∈ N.cols l, d ≠ c ∧ y d = 0 ∧ x.lo d = 0 := by
    intro l hl d hd
    obtain ⟨q, hq, hqd⟩ := (N.mem_cols l d).1 hd
    have hqk : q ≠ k := by
      rintro rfl
      simp only [List.nodup_append, List.nodup_cons, List.mem_cons] at hn
      grind
    exact ⟨fun e => hqk (index_inj hb.nodup (e ▸ hqd) hc), hy.zero q d hqk hqd, hb.lo d (List.mem_of_getElem? hqd)⟩
  have hlo : ∀ j ∈ pre, ∃ c, N.members[j]? = some c ∧ -(10 ^ 20) < x.lo c := by
    intro j hj
    obtain ⟨d, hd⟩ := hr j (by simp [hj])
    exact ⟨d, hd, by rw [hb.lo d (List.mem_of_getElem? hd)]; norm_num⟩
  have hcpre : c ∉ N.cols pre := fun h => (hne pre (by simp) c h).1 rfl
  have hup1 : (x.down (N.cols pre)).up c = 1 := by simp [Box.down, hcpre, hup]
  have hcons : ∀ d ∈ N.conseq k, d ≠ c ∧ y d = 0 ∧ x.lo d = 0 := fun d hd => ⟨fun e => hb.apart k d hd (e ▸ hcm), hy.conseq d hd, by
    have h1 := (hy.box d).1
    rw [hy.conseq d hd] at h1
    exact le_antisymm h1 (hb.conseqLo k d hd)⟩
  unfold Branching.branchOn
  simp only
  rw [branchLoop_split N _ pre _ 0 x (fun q hq h => by rw [Option.some.injEq] at h; omega) hlo, Nat.zero_add, branchLoop, hc, Option.bind_some, if_neg (by simp), if_pos (by rw [hup1]; norm_num), hup1,
    conseq_apply N k _ (fun cs h => by rw [hb.cons cs h]; exact (List.getElem?_eq_some_iff.1 hc).1), applyCons_ok, Option.bind_some, branchLoop_down, Option.bind_some, if_pos (by simp), skipLoop]
  · refine ⟨_, rfl, ?_⟩
    intro d
    simp only [Box.down]
    refine ⟨?_, ?_⟩
    · by_cases e : d = c
      · subst e; rw [Function.update_self, hy.one d hc]
      · rw [Function.update_of_ne e]; exact (hy.box d).1
    · by_cases h1 : d ∈ N.cols post
      · obtain ⟨e, h2, h3⟩ := hne post (by simp) d h1
        simp [h1, Function.update_of_ne e, h2, h3]
      · by_cases h4 : d ∈ N.conseq k
        · obtain ⟨e, h2, h3⟩ := hcons d h4
          simp [h1, h4, Function.update_of_ne e, h2, h3]
        · by_cases h5 : d ∈ N.cols pre
          · obtain ⟨e, h2, h3⟩ := hne pre (by simp) d h5
            simp [h1, h4, h5, h2, h3]
          · simpa [h1, h4, h5] using (hy.box d).2
  · intro q _ h
    rw [Option.some.injEq] at h
    omega
  · intro j hj
    obtain ⟨d, hd⟩ := hr j (by simp [hj])
    have := hne post (by simp) d ((N.mem_cols post d).2 ⟨j, hj, hd⟩)
    refine ⟨d, hd, ?_⟩
    simp only [Box.down, Function.update_of_ne this.1, this.2.2]
    norm_num
  · intro d hd
    obtain ⟨e, -, h3⟩ := hcons d hd
    simp only [Box.down, Function.update_of_ne e, h3]
    norm_num

theorem Binary.fix {N : Obj} {x : Box} (h : Binary N x) (v : ℕ) : Binary N ⟨x.lo, Function.update x.up v (x.lo v)⟩ := by
  refine ⟨h.nodup, h.lo, fun c hc => ?_, h.cons, h.apart, h.conseqLo⟩
  by_cases e : c = v
  · subst e; left; simp [h.lo c hc]
  · simpa [e] using h.up c hc

theorem sbStep_none_beyond (N : Obj) (b : Branching) (solve : Box → Outcome) (g : Cfg) (s : SB) (i : ℕ) (h : b.order.length ≤ i) : sbStep N b solve g i s = none := by
  unfold sbStep Branching.seqBranchedOn
  rw [List.getElem?_eq_none h]
  cases b.branch N i s.sv <;> rfl

theorem sbLoop_add (N : Obj) (b : Branching) (solve : Box → Outcome) (g : Cfg) : ∀ (m n i : ℕ) (s : SB), sbLoop N b solve g (m + n) i s = (sbLoop N b solve g m i s).bind (sbLoop N b solve g n (i + m))
  | 0, n, i, s => by simp [sbLoop]
  | m + 1, n, i, s => by
    rw [Nat.add_right_comm, sbLoop, sbLoop, Option.bind_assoc]
    congr 1
    funext s'
    rw [sbLoop_add N b solve g m n (i + 1) s', show i + 1 + m = i + (m + 1) by omega]

/-- What one branch keeps. -/
theorem sbStep_keeps (N : Obj) (order : List ℕ) (solve : Box → Outcome) (g : Cfg) (Feas : (ℕ → ℚ) → Prop) (f : (ℕ → ℚ) → ℚ) (hS : Right Feas f solve) (hn : order.Nodup)
    (hr : ∀ j ∈ order, ∃ c, N.members[j]? = some c) (i : ℕ) (s s1 : SB) (hb : Binary N s.sv) (h1 : sbStep N ⟨order, []⟩ solve g i s = some s1) :
    ∃ x q v, Branching.branch N ⟨order, []⟩ i s.sv = some x ∧ order[i]? = some q ∧ N.members[q]? = some v ∧ q < s.row.length ∧
      s1.row = (if g.root then s.row.set q (if (solve x).pruned g.cutoff then g.big else (solve x).value) else s.row) ∧
      Binary N s1.sv ∧ s1.sv.lo = s.sv.lo ∧ (∀ c, s1.sv.up c = s.sv.up c ∨ (1 < g.fix ∧ c = v ∧ s1.sv.up c = s.sv.lo c)) ∧ s1.row.length = s.row.length ∧ s.fixed ≤ s1.fixed ∧ s1.fixed ≤ s.fixed + 1 ∧
      (g.fix ≤ 1 → s1.fixed = s.fixed) ∧
      (∀ y k, Feas y → f y ≤ g.cutoff → Sol N s.sv y k → Sol N s1.sv y k ∧ (k = q → s1.fixed = s.fixed ∧ (solve x).pruned g.cutoff = false ∧ InBox x y)) := by
  unfold sbStep at h1
  simp only [Option.bind_eq_some_iff] at h1
  obtain ⟨x, hx, q, hq, v, hv, h1⟩ := h1
  have hq' : order[i]? = some q := hq
  by_cases hlen : q < s.row.length
  swap
  · rw [if_neg hlen] at h1; cases h1
  rw [if_pos hlen, Option.some.injEq] at h1
  have hvm := List.mem_of_getElem? hv
  have hgood : ∀ y, Feas y → f y ≤ g.cutoff → Sol N s.sv y q → (solve x).pruned g.cutoff = false ∧ InBox x y := by
    intro y hF hfy hy
    obtain ⟨x', hx', hin'⟩ := kept_up N s.sv hb order hn hr y q hy i hq'
    have hbr : Branching.branch N ⟨order, []⟩ i s.sv = some x' := by
      unfold Branching.branch Branching.which
      simpa using hx'
    rw [hx] at hbr
    obtain rfl := Option.some.inj hbr
    refine ⟨?_, hin'⟩
    have hsound := hS x y hF hin'
    unfold Outcome.pruned
    cases ho : solve x with
    | infeasible => rw [ho] at hsound; exact absurd hsound id
    | optimal w => rw [ho] at hsound; simp only at hsound; simp only [decide_eq_false_iff_not, not_lt]; linarith
    | other w => rfl
  refine ⟨x, q, v, hx, hq', hv, hlen, by subst h1; rfl, ?_⟩
  subst h1
  by_cases hf : ((solve x).pruned g.cutoff && decide (1 < g.fix)) = true
  · have hf' := hf
    rw [Bool.and_eq_true, decide_eq_true_eq] at hf'
    simp only [hf, if_true]
    refine ⟨hb.fix v, trivial, fun c => ?_, ?_, by omega, le_refl _, fun h => by omega, fun y k hF hfy hy => ?_⟩
    · by_cases e : c = v
      · subst e; right; exact ⟨hf'.2, rfl, by simp⟩
      · left; simp [e]
    · split_ifs <;> simp
    · have hkq : k ≠ q := by
        rintro rfl
        have := (hgood y hF hfy hy).1
        rw [hf'.1] at this
        cases this
      refine ⟨hy.sub fun d => ⟨(hy.box d).1, ?_⟩, fun e => absurd e hkq⟩
      by_cases e : d = v
      · subst e
        simp only [Function.update_self]
        rw [hy.zero q d (Ne.symm hkq) hv, hb.lo d hvm]
      · simpa [e] using (hy.box d).2
  · simp only [hf, Bool.false_eq_true, if_false]
    refine ⟨hb, trivial, fun c => Or.inl trivial, ?_, le_refl _, by omega, fun _ => trivial, fun y k hF hfy hy => ⟨hy, fun e => ⟨trivial, ?_⟩⟩⟩
    · split_ifs <;> simp
    · subst e; exact hgood y hF hfy hy

/-- What the loop keeps: lower bounds, sizes, kinds of bounds and every good solution; it fixes only members in the order. -/
theorem sbLoop_keeps (N : Obj) (order : List ℕ) (solve : Box → Outcome) (g : Cfg) (Feas : (ℕ → ℚ) → Prop) (f : (ℕ → ℚ) → ℚ) (hS : Right Feas f solve) (hn : order.Nodup)
    (hr : ∀ j ∈ order, ∃ c, N.members[j]? = some c) : ∀ (n i : ℕ) (s s' : SB), i + n = order.length → Binary N s.sv → sbLoop N ⟨order, []⟩ solve g n i s = some s' →
    Binary N s'.sv ∧ s'.sv.lo = s.sv.lo ∧ (∀ c, s'.sv.up c = s.sv.up c ∨ (1 < g.fix ∧ c ∈ N.cols (order.drop i) ∧ s'.sv.up c = s.sv.lo c)) ∧ s'.row.length = s.row.length ∧ s.fixed ≤ s'.fixed ∧ s'.fixed ≤ s.fixed + n ∧
    (g.fix ≤ 1 → s'.fixed = s.fixed) ∧
    (∀ y k, Feas y → f y ≤ g.cutoff → Sol N s.sv y k → Sol N s'.sv y k ∧ (k ∈ order.drop i → s'.fixed < s.fixed + n)) ∧
    (∀ k, k ∉ order.drop i → s'.row[k]? = s.row[k]?) ∧ (g.root = false → s'.row = s.row) ∧
    (g.root → (∀ x v, solve x ≠ .other v) → ∀ y k, Feas y → Sol N s.sv y k → k ∈ order.drop i → ∀ r, s'.row[k]? = some r → ∀ c', c' ≤ g.cutoff → c' < r → c' < f y)
  | 0, i, s, s', hi, hb, h => by
    simp only [sbLoop, Option.some.injEq] at h
    subst h
    have hd : order.drop i = [] := List.drop_eq_nil_of_le (by omega)
    rw [hd]
    refine ⟨hb, rfl, fun c => Or.inl rfl, rfl, le_refl _, le_refl _, fun _ => rfl, fun y k _ _ hy => ⟨hy, fun hk => by simp at hk⟩, fun _ _ => rfl, fun _ => rfl, fun _ _ y k _ _ hk => by simp at hk⟩
  | n + 1, i, s, s', hin, hb, h => by
    rw [sbLoop, Option.bind_eq_some_iff] at h
    obtain ⟨s1, h1, h⟩ := h
    have hlt : i < order.length := by omega
    have hdrop : order.drop i = order[i] :: order.drop (i + 1) := (List.getElem_cons_drop hlt).symm
    obtain ⟨x, q, v, hx, hq', hv, hql, hrow, g1, g2, g3, g4, g5, g6, g7, g8⟩ := sbStep_keeps N order solve g Feas f hS hn hr i s s1 hb h1
    have hqi : order[i] = q := (List.getElem?_eq_some_iff.1 hq').2
    have hvc : v ∈ N.cols (order.drop i) := (N.mem_cols _ v).2 ⟨q, by rw [hdrop, hqi]; simp, hv⟩
    have hqn : q ∉ order.drop (i + 1) := by
      have := List.Nodup.sublist (List.drop_sublist i order) hn
      rw [hdrop, hqi, List.nodup_cons] at this
      exact this.1
    obtain ⟨k1, k2, k3, k4, k5, k6, k7, k8, k9, k10, k11⟩ := sbLoop_keeps N order solve g Feas f hS hn hr n (i + 1) s1 s' (by omega) g1 h
    refine ⟨k1, k2.trans g2, fun c => ?_, k4.trans g4, by omega, by omega, fun hg => (k7 hg).trans (g7 hg), fun y k hF hfy hy => ?_, fun k hk => ?_, fun hg => ?_, fun hg hno y k hF hy hk r hrk c' hc' hcr => ?_⟩
    · rcases k3 c with h3 | ⟨h31, h32, h33⟩
      · rcases g3 c with h4 | ⟨h41, rfl, h42⟩
        · left; rw [h3, h4]
        · right; exact ⟨h41, hvc, by rw [h3, h42]⟩
      · right
        refine ⟨h31, ?_, by rw [h33, g2]⟩
        obtain ⟨j, hj, hjc⟩ := (N.mem_cols _ c).1 h32
        exact (N.mem_cols _ c).2 ⟨j, by rw [hdrop]; exact List.mem_cons_of_mem _ hj, hjc⟩
    · obtain ⟨hy1, hk1⟩ := g8 y k hF hfy hy
      obtain ⟨hy2, hk2⟩ := k8 y k hF hfy hy1
      refine ⟨hy2, fun hk => ?_⟩
      rw [hdrop, hqi, List.mem_cons] at hk
      rcases hk with rfl | hk
      · have := (hk1 rfl).1; omega
      · have := hk2 hk; omega
    · rw [hdrop, hqi, List.mem_cons, not_or] at hk
      rw [k9 k hk.2, hrow]
      split_ifs
      · rw [List.getElem?_set_ne (Ne.symm hk.1)]
      · rw [List.getElem?_set_ne (Ne.symm hk.1)]
      · rfl
    · rw [k10 hg, hrow, hg]; rfl
    · by_contra hcon
      have hfy : f y ≤ g.cutoff := le_trans (not_lt.1 hcon) hc'
      obtain ⟨hy1, hk1⟩ := g8 y k hF hfy hy
      rw [hdrop, hqi, List.mem_cons] at hk
      rcases hk with rfl | hk
      · obtain ⟨-, hp, hin'⟩ := hk1 rfl
        rw [k9 k hqn, hrow, if_pos hg, List.getElem?_set_self hql, hp] at hrk
        simp only [Bool.false_eq_true, if_false, Option.some.injEq] at hrk
        have hsound := hS x y hF hin'
        cases ho : solve x with
        | infeasible => rw [ho] at hsound; exact hsound
        | optimal w => rw [ho] at hsound hrk; simp only [Outcome.value] at hsound hrk; linarith
        | other w => exact hno x w ho
      · exact hcon (k11 hg hno y k hF hy1 hk r hrk c' hc' hcr)

/-! ## C128: strong branching -/

/-- **C128 (proved part).** Without skipped members, strong branching with a solver that is right keeps every solution not worse than the cutoff: it changes only upper bounds of members to their lower
bounds, and reports the node infeasible only if no such solution is in the node or its member had been fathomed. -/
theorem strong_keeps_partial (N : Obj) (s : Info) (b : Branching) (hc : N.Creates s b) (hsk : b.skipped = []) (hb : Binary N s.box) (solve : Box → Outcome) (g : Cfg) (Feas : (ℕ → ℚ) → Prop) (f : (ℕ → ℚ) → ℚ) (hS : Right Feas f solve)
    (late : Bool) (row : List ℚ) (r : SB) (code : ℤ) (h : strong N b solve g late s.box row = some (r, code)) :
    r.sv.lo = s.box.lo ∧ (∀ c, r.sv.up c = s.box.up c ∨ (1 < g.fix ∧ c ∈ N.members ∧ r.sv.up c = s.box.lo c)) ∧
    (∀ y k, Feas y → f y ≤ g.cutoff → Sol N s.box y k → Sol N r.sv y k ∧ (code = -1 → ∃ c, N.members[k]? = some c ∧ N.kind s k c = some .fathomed)) := by
  obtain ⟨order, sk⟩ := b
  simp only at hsk
  subst hsk
  have hf := creates_free N s _ hc hb
  simp only [List.append_nil] at hf
  have hnum : Branching.number ⟨order, []⟩ = order.length := by simp [Branching.number]
  unfold strong at h
  rw [Option.map_eq_some_iff, hnum] at h
  obtain ⟨s', hs', he⟩ := h
  rw [Prod.mk.injEq] at he
  obtain ⟨rfl, rfl⟩ := he
  obtain ⟨-, h2, h3, -, h5, h6, -, h8, -⟩ := sbLoop_keeps N order solve g Feas f hS hf.nodup (fun j hj => by obtain ⟨c, hc, -⟩ := hf.mem j hj; exact ⟨c, hc⟩) order.length 0 _ s' (by omega) hb hs'
  refine ⟨h2, fun c => ?_, fun y k hF hfy hy => ?_⟩
  · rcases h3 c with h | ⟨h1, h4, h7⟩
    · exact Or.inl h
    · exact Or.inr ⟨h1, Free.cols_sub h4, h7⟩
  · obtain ⟨h9, h10⟩ := h8 y k hF hfy hy
    refine ⟨h9, fun hcode => ?_⟩
    refine ⟨_, List.getElem?_eq_getElem hy.mem, ?_⟩
    by_contra hnf
    have hk := sol_listed N s _ hc hb y k _ (List.getElem?_eq_getElem hy.mem) hy hnf
    simp only [List.append_nil] at hk
    have hlt := h10 (by simpa using hk)
    simp only [Nat.zero_add] at hlt
    unfold sbCode at hcode
    rw [if_neg (by omega)] at hcode
    split_ifs at hcode

/-- **C128.** With skipped members strong branching always fails: the last branch has no member in the order, and the order is read beyond its end. -/
theorem strong_skipped_undefined (N : Obj) (b : Branching) (hsk : b.skipped ≠ []) (solve : Box → Outcome) (g : Cfg) (late : Bool) (x : Box) (row : List ℚ) : strong N b solve g late x row = none := by
  unfold strong
  have hnum : b.number = b.order.length + 1 := by simp [Branching.number, hsk]
  rw [hnum, sbLoop_add]
  cases h : sbLoop N b solve g b.order.length 0 ⟨x, row, 0⟩ with
  | none => rfl
  | some s =>
    simp only [Option.bind_some, Nat.zero_add, sbLoop]
    rw [sbStep_none_beyond N b solve g s b.order.length (le_refl _)]
    rfl

/-- Members are skipped only below the depth of the setting. -/
theorem no_skipped (N : Obj) (s : Info) (b : Branching) (hc : N.Creates s b) (hd : s.depth ≤ N.frac) : b.skipped = [] := by
  obtain ⟨r, hr, -, -, hs⟩ := hc
  have h2 : r.2 = [] := by
    apply List.eq_nil_iff_forall_not_mem.2
    intro j hj
    obtain ⟨c, -, -, hk⟩ := ((createLoop_spec N s N.members 0 r hr).2.1 j).1 hj
    unfold Obj.kind at hk
    by_cases h1 : s.box.lo c < s.box.up c
    · rw [if_pos h1, Option.map_eq_some_iff] at hk
      obtain ⟨fl, -, hfl⟩ := hk
      rw [if_neg (show ¬ N.frac < s.depth by omega), ite_self] at hfl
      split_ifs at hfl
    · rw [if_neg h1] at hk; cases hk
  rw [hs]
  obtain ⟨l, sk⟩ := r
  simp only at h2
  subst h2
  rfl

/-! ## C129: bounds recorded at the root -/

/-- **C129 (proved part).** The bounds recorded by strong branching at the root on an object without earlier bounds are valid for all later cutoffs, if the solver is right and always either solves
the problem or proves it infeasible. -/
theorem root_bounds_valid_partial (N : Obj) (s : Info) (b : Branching) (hc : N.Creates s b) (hsk : b.skipped = []) (hb : Binary N s.box) (hnb : N.bounds = []) (solve : Box → Outcome) (g : Cfg) (hg : g.root = true)
    (Feas : (ℕ → ℚ) → Prop) (f : (ℕ → ℚ) → ℚ) (hS : Right Feas f solve) (hno : ∀ x v, solve x ≠ .other v) (late : Bool) (row : List ℚ) (r : SB) (code : ℤ) (h : strong N b solve g late s.box row = some (r, code)) :
    ValidRow Feas f N s.box r.row g.cutoff := by
  obtain ⟨order, sk⟩ := b
  simp only at hsk
  subst hsk
  have hf := creates_free N s _ hc hb
  simp only [List.append_nil] at hf
  have hnum : Branching.number ⟨order, []⟩ = order.length := by simp [Branching.number]
  unfold strong at h
  rw [Option.map_eq_some_iff, hnum] at h
  obtain ⟨s', hs', he⟩ := h
  rw [Prod.mk.injEq] at he
  obtain ⟨rfl, rfl⟩ := he
  obtain ⟨-, -, -, -, -, -, -, -, -, -, h11⟩ := sbLoop_keeps N order solve g Feas f hS hf.nodup (fun j hj => by obtain ⟨c, hc, -⟩ := hf.mem j hj; exact ⟨c, hc⟩) order.length 0 _ s' (by omega) hb hs'
  intro y k hF hy rr hrr c' hc' hcr
  have hk := sol_listed N s _ hc hb y k _ (List.getElem?_eq_getElem hy.mem) hy (by
    unfold Obj.kind
    rw [if_pos hnb]
    split_ifs <;> simp)
  simp only [List.append_nil] at hk
  exact h11 hg hno y k hF hy (by simpa using hk) rr hrr c' hc' hcr

/-- Closed form of the quick fixing of one object. -/
theorem quickMembers_spec (row : List ℚ) (cutoff : ℚ) : ∀ (cs : List ℕ) (j : ℕ) (x : Box) (n : ℕ) (x' : Box) (n' : ℕ), cs.Nodup → quickMembers row cutoff cs j (x, n) = some (x', n') →
    x'.lo = x.lo ∧ (∀ c, x'.up c = x.up c ∨ ∃ (q : ℕ) (r : ℚ), cs[q]? = some c ∧ row[j + q]? = some r ∧ cutoff < r ∧ x'.up c = x.lo c) ∧
    (∀ (q c : ℕ) (r : ℚ), cs[q]? = some c → row[j + q]? = some r → cutoff < r → x.lo c + 1 / 2 ≤ x.up c → x'.up c = x.lo c ∧ n < n') ∧ n ≤ n' ∧ (n' = n → x' = x)
  | [], j, x, n, x', n', _, h => by
    simp only [quickMembers, Option.some.injEq, Prod.mk.injEq] at h
    obtain ⟨rfl, rfl⟩ := h
    simp
  | c0 :: cs, j, x, n, x', n', hnd, h => by
    rw [List.nodup_cons] at hnd
    rw [quickMembers] at h
    by_cases h1 : x.up c0 < x.lo c0 + 1 / 2
    · rw [if_pos h1] at h
      obtain ⟨g1, g2, g3, g4, g5⟩ := quickMembers_spec row cutoff cs (j + 1) x n x' n' hnd.2 h
      refine ⟨g1, fun c => ?_, fun q c r hq hr hl hf => ?_, g4, g5⟩
      · rcases g2 c with h | ⟨q, r, hq, hr, hl, hu⟩
        · exact Or.inl h
        · exact Or.inr ⟨q + 1, r, by simpa using hq, by rw [show j + (q + 1) = j + 1 + q by omega]; exact hr, hl, hu⟩
      · cases q with
        | zero =>
          rw [List.getElem?_cons_zero, Option.some.injEq] at hq
          subst hq
          exact absurd h1 (not_lt.2 hf)
        | succ q =>
          rw [List.getElem?_cons_succ] at hq
          exact g3 q c r hq (by rw [show j + 1 + q = j + (q + 1) by omega]; exact hr) hl hf
    · rw [if_neg h1, Option.bind_eq_some_iff] at h
      obtain ⟨r0, hr0, h⟩ := h
      by_cases h2 : cutoff < r0
      · rw [if_pos h2] at h
        obtain ⟨g1, g2, g3, g4, g5⟩ := quickMembers_spec row cutoff cs (j + 1) _ (n + 1) x' n' hnd.2 h
        have hx'0 : x'.up c0 = x.lo c0 := by
          rcases g2 c0 with h | ⟨q, r, hq, -⟩
          · rw [h]; simp
          · exact absurd (List.mem_of_getElem? hq) hnd.1
        refine ⟨g1, fun c => ?_, fun q c r hq hr hl hf => ?_, by omega, fun e => by omega⟩
        · by_cases hc : c = c0
          · subst hc
            exact Or.inr ⟨0, r0, by simp, by simpa using hr0, h2, hx'0⟩
          · rcases g2 c with h | ⟨q, r, hq, hr, hl, hu⟩
            · left; rw [h]; simp [hc]
            · exact Or.inr ⟨q + 1, r, by simpa using hq, by rw [show j + (q + 1) = j + 1 + q by omega]; exact hr, hl, hu⟩
        · cases q with
          | zero =>
            rw [List.getElem?_cons_zero, Option.some.injEq] at hq
            subst hq
            exact ⟨hx'0, by omega⟩
          | succ q =>
            rw [List.getElem?_cons_succ] at hq
            have hne : c ≠ c0 := fun e => hnd.1 (e ▸ List.mem_of_getElem? hq)
            obtain ⟨h3, h4⟩ := g3 q c r hq (by rw [show j + 1 + q = j + (q + 1) by omega]; exact hr) hl (by simpa [hne] using hf)
            exact ⟨h3, by omega⟩
      · rw [if_neg h2] at h
        obtain ⟨g1, g2, g3, g4, g5⟩ := quickMembers_spec row cutoff cs (j + 1) x n x' n' hnd.2 h
        refine ⟨g1, fun c => ?_, fun q c r hq hr hl hf => ?_, g4, g5⟩
        · rcases g2 c with h | ⟨q, r, hq, hr, hl, hu⟩
          · exact Or.inl h
          · exact Or.inr ⟨q + 1, r, by simpa using hq, by rw [show j + (q + 1) = j + 1 + q by omega]; exact hr, hl, hu⟩
        · cases q with
          | zero =>
            rw [Nat.add_zero, hr0, Option.some.injEq] at hr
            subst hr
            exact absurd hl h2
          | succ q =>
            rw [List.getElem?_cons_succ] at hq
            exact g3 q c r hq (by rw [show j + 1 + q = j + (q + 1) by omega]; exact hr) hl hf

/-- **C129.** The quick fixing of an object fixes exactly the free members whose recorded bound exceeds the cutoff. -/
theorem quick_exact (N : Obj) (hn : N.members.Nodup) (row : List ℚ) (cutoff : ℚ) (x x' : Box) (n : ℕ) (hf : ∀ c ∈ N.members, x.lo c = x.up c ∨ x.lo c + 1 / 2 ≤ x.up c) (h : quickMembers row cutoff N.members 0 (x, 0) = some (x', n)) :
    x'.lo = x.lo ∧ (∀ c, ((∃ (j : ℕ) (r : ℚ), N.members[j]? = some c ∧ row[j]? = some r ∧ cutoff < r) → x'.up c = x.lo c) ∧
      ((¬ ∃ (j : ℕ) (r : ℚ), N.members[j]? = some c ∧ row[j]? = some r ∧ cutoff < r) → x'.up c = x.up c)) ∧ (n = 0 → x' = x) := by
  obtain ⟨g1, g2, g3, -, g5⟩ := quickMembers_spec row cutoff N.members 0 x 0 x' n hn h
  simp only [Nat.zero_add] at g2 g3
  refine ⟨g1, fun c => ⟨fun hc => ?_, fun hc => ?_⟩, g5⟩
  · obtain ⟨j, r, hj, hr, hl⟩ := hc
    rcases hf c (List.mem_of_getElem? hj) with h | h
    · rcases g2 c with h' | ⟨_, _, _, _, _, h'⟩
      · rw [h', h]
      · exact h'
    · exact (g3 j c r hj hr hl h).1
  · rcases g2 c with h' | ⟨q, r, hq, hr, hl, -⟩
    · exact h'
    · exact absurd ⟨q, r, hq, hr, hl⟩ hc

theorem Binary.shrink {N : Obj} {x x' : Box} (h : Binary N x) (hl : x'.lo = x.lo) (hu : ∀ c, x'.up c = x.up c ∨ x'.up c = x.lo c) : Binary N x' := by
  refine ⟨h.nodup, fun c hc => by rw [hl]; exact h.lo c hc, fun c hc => ?_, h.cons, h.apart, fun j i hi => by rw [hl]; exact h.conseqLo j i hi⟩
  rcases hu c with e | e
  · rw [e]; exact h.up c hc
  · rw [e]; exact Or.inl (h.lo c hc)

theorem Binary.halves {N : Obj} {x : Box} (h : Binary N x) : ∀ c ∈ N.members, x.lo c = x.up c ∨ x.lo c + 1 / 2 ≤ x.up c := by
  intro c hc
  rcases h.up c hc with e | e
  · left; rw [h.lo c hc, e]
  · right; rw [h.lo c hc, e]; norm_num

/-- **C129 (proved part).** With valid rows, recorded at a root whose bounds contain those of the node and with a cutoff not below the present one, the quick fixing keeps every solution not worse than
the cutoff. -/
theorem quick_keeps_partial (objs : List Obj) (rows : List (List ℚ)) (cutoff c0 : ℚ) (hc0 : cutoff ≤ c0) (Feas : (ℕ → ℚ) → Prop) (f : (ℕ → ℚ) → ℚ) (x0 : Box) (hO : ∀ N ∈ objs, OneOf Feas N)
    (hV : ∀ (i : ℕ) N row, objs[i]? = some N → rows[i]? = some row → ValidRow Feas f N x0 row c0) : ∀ (is : List ℕ) (x : Box) (n : ℕ) (x' : Box) (n' : ℕ), (∀ N ∈ objs, Binary N x) → (∀ y, InBox x y → InBox x0 y) →
    quickFix objs rows cutoff is (x, n) = some (x', n') → x'.lo = x.lo ∧ (∀ c, x'.up c = x.up c ∨ x'.up c = x.lo c) ∧ ∀ y, Feas y → f y ≤ cutoff → InBox x y → InBox x' y
  | [], x, n, x', n', _, _, h => by
    simp only [quickFix, Option.some.injEq, Prod.mk.injEq] at h
    obtain ⟨rfl, rfl⟩ := h
    exact ⟨rfl, fun c => Or.inl rfl, fun y _ _ h => h⟩
  | i :: is, x, n, x', n', hB, hx, h => by
    simp only [quickFix, Option.bind_eq_some_iff] at h
    obtain ⟨N, hN, row, hrow, ⟨x1, n1⟩, h1, h⟩ := h
    have hNm := List.mem_of_getElem? hN
    have hb := hB N hNm
    obtain ⟨g1, g2, -, -, -⟩ := quickMembers_spec row cutoff N.members 0 x n x1 n1 hb.nodup h1
    have g2' : ∀ c, x1.up c = x.up c ∨ x1.up c = x.lo c := fun c => by
      rcases g2 c with h | ⟨_, _, _, _, _, h⟩
      · exact Or.inl h
      · exact Or.inr h
    have hgood : ∀ y, Feas y → f y ≤ cutoff → InBox x y → InBox x1 y := by
      intro y hF hfy hy c
      obtain ⟨k, hk⟩ := hO N hNm x y hF hy
      refine ⟨by rw [g1]; exact (hy c).1, ?_⟩
      rcases g2 c with h | ⟨q, r, hq, hr, hl, hu⟩
      · rw [h]; exact (hy c).2
      · rw [Nat.zero_add] at hr
        by_cases hqk : q = k
        · subst hqk
          have := hV i N row hN hrow y q hF (hk.sub (hx y hy)) r hr cutoff hc0 hl
          linarith
        · rw [hu, hk.zero q c hqk hq, hb.lo c (List.mem_of_getElem? hq)]
    have hsub : ∀ y, InBox x1 y → InBox x0 y := fun y hy => hx y fun c => ⟨by rw [← g1]; exact (hy c).1, by
      rcases g2' c with h | h
      · rw [← h]; exact (hy c).2
      · have h1 := (hy c).1; have h2 := (hy c).2
        rcases g2 c with h' | ⟨q, r, hq, hr, hl, hu⟩
        · rw [← h']; exact h2
        · have hcm := List.mem_of_getElem? hq
          rcases hb.up c hcm with e | e <;> rw [e] <;> rw [h, hb.lo c hcm] at h2 <;> linarith⟩
    obtain ⟨k1, k2, k3⟩ := quick_keeps_partial objs rows cutoff c0 hc0 Feas f x0 hO hV is x1 n1 x' n' (fun M hM => (hB M hM).shrink g1 g2') hsub h
    refine ⟨k1.trans g1, fun c => ?_, fun y hF hfy hy => k3 y hF hfy (hgood y hF hfy hy)⟩
    rcases k2 c with h | h
    · rw [h]; exact g2' c
    · right; rw [h, g1]

/-! ## C128 and C130: `chooseVariable` -/

/-- What is assumed of a call of `chooseVariable`: sound parts, objects about binaries of which exactly one is 1, no skipping at this depth, and valid bounds kept in the objects. -/
structure Ok (e : Env) (Feas : (ℕ → ℚ) → Prop) (f : (ℕ → ℚ) → ℚ) (x : Box) : Prop where
  create : ∀ N s b, e.create N s = some b → N.Creates s b
  right : Right Feas f e.solve
  one : ∀ N ∈ e.objs, OneOf Feas N
  binary : ∀ N ∈ e.objs, Binary N x
  deep : ∀ N ∈ e.objs, e.depth ≤ N.frac
  bounds : ∀ N ∈ e.objs, N.bounds = [] ∨ ValidRow Feas f N x N.bounds e.g.cutoff

theorem fathomed_bound (N : Obj) (s : Info) (k c : ℕ) (h : N.kind s k c = some .fathomed) : N.bounds ≠ [] ∧ ∃ r, N.bounds[k]? = some r ∧ s.cutoff < r := by
  unfold Obj.kind at h
  by_cases h1 : s.box.lo c < s.box.up c
  · rw [if_pos h1, Option.map_eq_some_iff] at h
    obtain ⟨fl, hfl, h2⟩ := h
    by_cases hb : N.bounds = []
    · rw [if_pos hb, Option.some.injEq] at hfl
      subst hfl
      simp only [Bool.false_eq_true, if_false] at h2
      split_ifs at h2
    · rw [if_neg hb, Option.map_eq_some_iff] at hfl
      obtain ⟨r, hr, he⟩ := hfl
      refine ⟨hb, r, hr, ?_⟩
      by_contra hn
      have : fl = false := by rw [← he]; simpa using hn
      subst this
      simp only [Bool.false_eq_true, if_false] at h2
      split_ifs at h2
  · rw [if_neg h1] at h; cases h

theorem Ok.shrink {e : Env} {Feas : (ℕ → ℚ) → Prop} {f : (ℕ → ℚ) → ℚ} {x x' : Box} (h : Ok e Feas f x) (hl : x'.lo = x.lo) (hu : ∀ c, x'.up c = x.up c ∨ (x'.up c = x.lo c ∧ x.lo c ≤ x.up c)) : Ok e Feas f x' := by
  refine ⟨h.create, h.right, h.one, fun N hN => (h.binary N hN).shrink hl (fun c => (hu c).imp_right And.left), h.deep, fun N hN => (h.bounds N hN).imp_right fun hv y k hF hy => hv y k hF (hy.sub fun c => ?_)⟩
  have := hy.box c
  rw [hl] at this
  refine ⟨this.1, ?_⟩
  rcases hu c with e | ⟨e, e'⟩
  · rw [← e]; exact this.2
  · rw [e] at this; exact le_trans this.2 e'

theorem chooseLoop_keeps (e : Env) (Feas : (ℕ → ℚ) → Prop) (f : (ℕ → ℚ) → ℚ) (first : ℕ) : ∀ (is : List ℕ) (bp : ℤ) (bs : Option ℚ) (r r' : Choice), Ok e Feas f r.box → chooseLoop e first is bp bs r = some r' →
    ∀ y, Feas y → f y ≤ e.g.cutoff → InBox r.box y → r.code ≠ -1 → InBox r'.box y ∧ r'.code ≠ -1
  | [], bp, bs, r, r', _, h, y, _, _, hy, hc => by
    simp only [chooseLoop, Option.some.injEq] at h
    subst h
    exact ⟨hy, hc⟩
  | i :: is, bp, bs, r, r', hok, h, y, hF, hfy, hy, hc => by
    simp only [chooseLoop, Option.bind_eq_some_iff] at h
    obtain ⟨N, hN, row, hrow, h⟩ := h
    by_cases hp : e.prio i < bp
    · rw [if_pos hp, Option.some.injEq] at h
      subst h
      exact ⟨hy, hc⟩
    · rw [if_neg hp, Option.bind_eq_some_iff] at h
      obtain ⟨b, hb, h⟩ := h
      rw [Option.bind_eq_some_iff] at h
      obtain ⟨⟨sb, code⟩, hst, h⟩ := h
      have hNm := List.mem_of_getElem? hN
      have hcr := hok.create _ _ _ hb
      have hsk := no_skipped N _ b hcr (hok.deep N hNm)
      obtain ⟨h1, h2, h3⟩ := strong_keeps_partial N _ b hcr hsk (hok.binary N hNm) e.solve e.g Feas f hok.right (e.late i) row sb code hst
      obtain ⟨k, hk⟩ := hok.one N hNm r.box y hF hy
      obtain ⟨h4, h5⟩ := h3 y k hF hfy hk
      have hcode : code ≠ -1 := by
        intro hcode
        obtain ⟨c, -, hfa⟩ := h5 hcode
        obtain ⟨hne, rr, hrr, hlt⟩ := fathomed_bound N _ k c hfa
        rcases hok.bounds N hNm with h | h
        · exact hne h
        · have := h y k hF hk rr hrr e.g.cutoff (le_refl _) hlt
          linarith
      simp only [hcode, if_false] at h
      have hok' : Ok e Feas f sb.sv := hok.shrink h1 fun c => by
        rcases h2 c with h | ⟨-, hm, h⟩
        · exact Or.inl h
        · right
          refine ⟨h, ?_⟩
          have hbN := hok.binary N hNm
          show r.box.lo c ≤ r.box.up c
          rcases hbN.up c hm with e | e <;> rw [hbN.lo c hm, e]
          norm_num
      by_cases h6 : code = 3
      · simp only [h6, if_true, Option.some.injEq] at h
        subst h
        exact ⟨h4.box, by simp⟩
      · simp only [h6, if_false] at h
        refine chooseLoop_keeps e Feas f first is _ _ _ r' hok' h y hF hfy h4.box ?_
        simp only
        split_ifs
        · simp
        · exact hc

/-- **C128 (proved part).** If members are not skipped at this depth, bounds kept in the objects are valid and the solver is right, `chooseVariable` with strong branching keeps every solution of the node
not worse than the cutoff and does not report the node infeasible if there is one. -/
theorem choose_keeps_partial (e : Env) (Feas : (ℕ → ℚ) → Prop) (f : (ℕ → ℚ) → ℚ) (unsat : List ℕ) (onList : ℕ) (x : Box) (rows : List (List ℚ)) (r : Choice) (hok : Ok e Feas f x) (h : choose e unsat onList false x rows = some r)
    (y : ℕ → ℚ) (hF : Feas y) (hfy : f y ≤ e.g.cutoff) (hy : InBox x y) : InBox r.box y ∧ r.code ≠ -1 := by
  unfold choose at h
  cases unsat with
  | nil =>
    simp only [Option.some.injEq] at h
    subst h
    exact ⟨hy, by simp⟩
  | cons first us =>
    simp only [Bool.false_eq_true, if_false] at h
    exact chooseLoop_keeps e Feas f first _ 0 none ⟨0, none, x, rows⟩ r hok h y hF hfy hy (by simp)

theorem chooseLoop_codes (e : Env) (first : ℕ) (us : List ℕ) (hfirst : first ∈ us) : ∀ (is : List ℕ) (bp : ℤ) (bs : Option ℚ) (r r' : Choice), (∀ i ∈ is, i ∈ us) → (∀ i, r.best = some i → i ∈ us) → (bs = none ↔ r.best = none) →
    (r.code = 0 ∨ (r.code = 2 ∧ 1 < e.g.fix ∧ e.g.root = true)) → chooseLoop e first is bp bs r = some r' →
    (r'.code = -1 ∨ r'.code = 0 ∨ (r'.code = 2 ∧ 1 < e.g.fix ∧ e.g.root = true) ∨ r'.code = 3) ∧ (∀ i, r'.best = some i → i ∈ us) ∧ (r'.code ≠ -1 → r'.best = none → r.best = none ∧ (is = [] ∨ ∃ i is', is = i :: is' ∧ e.prio i < bp))
  | [], bp, bs, r, r', _, hb, _, hc, h => by
    simp only [chooseLoop, Option.some.injEq] at h
    subst h
    refine ⟨?_, hb, fun _ h => ⟨h, Or.inl rfl⟩⟩
    rcases hc with h | h
    · exact Or.inr (Or.inl h)
    · exact Or.inr (Or.inr (Or.inl h))
  | i :: is, bp, bs, r, r', hsub, hb, hbs, hc, h => by
    simp only [chooseLoop, Option.bind_eq_some_iff] at h
    obtain ⟨N, -, row, -, h⟩ := h
    by_cases hp : e.prio i < bp
    · rw [if_pos hp, Option.some.injEq] at h
      subst h
      refine ⟨?_, hb, fun _ h => ⟨h, Or.inr ⟨i, is, rfl, hp⟩⟩⟩
      rcases hc with h | h
      · exact Or.inr (Or.inl h)
      · exact Or.inr (Or.inr (Or.inl h))
    · rw [if_neg hp, Option.bind_eq_some_iff] at h
      obtain ⟨b, -, h⟩ := h
      rw [Option.bind_eq_some_iff] at h
      obtain ⟨⟨sb, code⟩, -, h⟩ := h
      by_cases h1 : code = -1
      · simp only [h1, if_true, Option.some.injEq] at h
        subst h
        exact ⟨Or.inl rfl, hb, fun h => absurd rfl h⟩
      · simp only [h1, if_false] at h
        generalize hw : (match bs with | none => true | some v => decide (v < e.score i)) = win at h
        have hbest : ∀ j, (if win = true then some i else r.best) = some j → j ∈ us := by
          intro j hj
          split_ifs at hj
          · obtain rfl := Option.some.inj hj; exact hsub _ (by simp)
          · exact hb j hj
        have hnone : (if win = true then some i else r.best) ≠ none := by
          split_ifs with hwin
          · simp
          · intro hr
            rw [hbs.2 hr] at hw
            exact hwin hw.symm
        by_cases h6 : code = 3
        · simp only [h6, if_true, Option.some.injEq] at h
          subst h
          refine ⟨Or.inr (Or.inr (Or.inr rfl)), fun j hj => ?_, fun _ h => by simp at h⟩
          simp only [Option.some.injEq] at hj
          cases hq : (if win = true then some i else r.best) with
          | none => exact absurd hq hnone
          | some q => rw [hq] at hj; simp only [Option.getD_some] at hj; subst hj; exact hbest _ hq
        · simp only [h6, if_false] at h
          obtain ⟨g1, g2, g3⟩ := chooseLoop_codes e first us hfirst is _ _ _ r' (fun j hj => hsub j (by simp [hj])) hbest (by
            constructor
            · intro hh
              split_ifs at hh with hwin
              rw [hh] at hw
              exact absurd hw.symm hwin
            · intro hh; exact absurd hh hnone) (by
            simp only
            split_ifs with h7
            · exact Or.inr ⟨rfl, h7.1, h7.2.2⟩
            · exact hc) h
          exact ⟨g1, g2, fun hne hn => absurd (g3 hne hn).1 hnone⟩

/-- **C130 (proved part).** The code is 1 exactly if no object is unsatisfied; otherwise it is -1, 0, 2 or 3, an object named is one of the unsatisfied ones, and if objects are admitted for strong branching and
their priorities are not negative, a code other than -1 comes with an object. -/
theorem choose_codes_partial (e : Env) (unsat : List ℕ) (onList : ℕ) (quick : Bool) (x : Box) (rows : List (List ℚ)) (r : Choice) (h : choose e unsat onList quick x rows = some r) :
    (r.code = 1 ↔ unsat = []) ∧ (unsat ≠ [] → r.code = -1 ∨ r.code = 0 ∨ r.code = 2 ∨ r.code = 3) ∧ (∀ i, r.best = some i → i ∈ unsat) ∧
    (unsat ≠ [] → r.code ≠ -1 → quick = true ∨ (0 < onList ∧ ∀ i ∈ unsat, 0 ≤ e.prio i) → r.best ≠ none) ∧
    (r.code = 2 → 1 < e.g.fix ∧ (quick = true ∨ e.g.root = true)) := by
  unfold choose at h
  cases unsat with
  | nil =>
    simp only [Option.some.injEq] at h
    subst h
    simp
  | cons first us =>
    simp only at h
    by_cases hq : quick = true
    · rw [if_pos hq, Option.map_eq_some_iff] at h
      obtain ⟨a, ha, rfl⟩ := h
      refine ⟨?_, fun _ => ?_, ?_, ?_, ?_⟩
      · simp only [reduceCtorEq, iff_false]
        split_ifs <;> simp
      · simp only; split_ifs <;> simp
      · simp
      · simp
      · simp only
        intro h2
        refine ⟨?_, Or.inl hq⟩
        by_contra hf
        rw [if_neg hf, Option.some.injEq] at ha
        subst ha
        simp at h2
    · rw [if_neg hq] at h
      obtain ⟨g1, g2, g3⟩ := chooseLoop_codes e first (first :: us) (by simp) _ 0 none _ r (fun i hi => List.mem_of_mem_take hi) (by simp) (by simp) (Or.inl rfl) h
      refine ⟨?_, fun _ => ?_, g2, fun _ hne hor => ?_, fun h2 => ?_⟩
      · simp only [reduceCtorEq, iff_false]
        rcases g1 with h | h | ⟨h, -⟩ | h <;> rw [h] <;> simp
      · rcases g1 with h | h | ⟨h, -⟩ | h
        · exact Or.inl h
        · exact Or.inr (Or.inl h)
        · exact Or.inr (Or.inr (Or.inl h))
        · exact Or.inr (Or.inr (Or.inr h))
      · rcases hor with h | ⟨h, hpr⟩
        · exact absurd h hq
        · intro hn
          rcases (g3 hne hn).2 with he | ⟨i, is', he, hlt⟩
          · rw [List.take_eq_nil_iff] at he
            rcases he with he | he
            · omega
            · cases he
          · have : i ∈ first :: us := List.mem_of_mem_take (he ▸ List.mem_cons_self)
            exact absurd (hpr i this) (not_le.2 hlt)
      · rcases g1 with h | h | ⟨-, h⟩ | h
        · rw [h] at h2; norm_num at h2
        · rw [h] at h2; norm_num at h2
        · exact ⟨h.1, Or.inr h.2⟩
        · rw [h] at h2; norm_num at h2

/-! ## Cases -/

theorem sbStep_row (N : Obj) (b : Branching) (solve : Box → Outcome) (g : Cfg) (i : ℕ) (s s1 : SB) (h : sbStep N b solve g i s = some s1) : s1.row.length = s.row.length ∧ ∃ q, b.order[i]? = some q ∧ q < s.row.length := by
  unfold sbStep at h
  simp only [Option.bind_eq_some_iff] at h
  obtain ⟨x, -, q, hq, v, -, h⟩ := h
  by_cases hl : q < s.row.length
  · rw [if_pos hl, Option.some.injEq] at h
    refine ⟨?_, q, hq, hl⟩
    subst h
    by_cases hr : g.root = true <;> simp [hr]
  · rw [if_neg hl] at h; cases h

theorem sbLoop_row (N : Obj) (b : Branching) (solve : Box → Outcome) (g : Cfg) : ∀ (n i : ℕ) (s s' : SB), sbLoop N b solve g n i s = some s' → ∀ p, i ≤ p → p < i + n → ∃ q, b.order[p]? = some q ∧ q < s.row.length
  | 0, i, s, s', _, p, h1, h2 => by omega
  | n + 1, i, s, s', h, p, h1, h2 => by
    rw [sbLoop, Option.bind_eq_some_iff] at h
    obtain ⟨s1, hs1, h⟩ := h
    obtain ⟨hl, q, hq, hlt⟩ := sbStep_row N b solve g i s s1 hs1
    rcases Nat.eq_or_lt_of_le h1 with rfl | hlt'
    · exact ⟨q, hq, hlt⟩
    · rw [← hl]; exact sbLoop_row N b solve g n (i + 1) s1 s' h p hlt' (by omega)

/-- **C128 (refuted).** The rows have as many entries as there are n-way objects, not members: an object that branches on a member with a number not below that count is an access out of range. -/
theorem row_too_short (N : Obj) (b : Branching) (solve : Box → Outcome) (g : Cfg) (late : Bool) (x : Box) (row : List ℚ) (h : ∃ j ∈ b.order, row.length ≤ j) : strong N b solve g late x row = none := by
  obtain ⟨j, hj, hl⟩ := h
  obtain ⟨p, hp, hpj⟩ := List.getElem_of_mem hj
  unfold strong
  cases hs : sbLoop N b solve g b.number 0 ⟨x, row, 0⟩ with
  | none => rfl
  | some s' =>
    obtain ⟨q, hq, hlt⟩ := sbLoop_row N b solve g _ _ _ s' hs p (Nat.zero_le _) (by unfold Branching.number; omega)
    rw [List.getElem?_eq_getElem hp, hpj, Option.some.injEq] at hq
    subst hq
    simp only at hlt
    omega

/-- A single object with two members: there is one row with one entry, so the second member is out of range. -/
example (solve : Box → Outcome) (g : Cfg) (x : Box) : strong ⟨[0, 1], none, [], false, 0⟩ ⟨[0, 1], []⟩ solve g false x [g.cutoff] = none := row_too_short _ _ _ _ _ _ _ ⟨1, by simp, by simp⟩

/-- **C128 (refuted).** With the settings of the constructor, strong branching one level below the root reads beyond the order of the branching object as soon as two members are 0 and free. -/
theorem strong_below_root_fails : ∃ (N : Obj) (s : Info) (b : Branching), N.Creates s b ∧ N.frac = 0 ∧ s.depth = 1 ∧ ∀ solve g late row, strong N b solve g late s.box row = none :=
  ⟨exObj, exInfo 1, ⟨[0, 1], [2, 3]⟩, exCreates, rfl, rfl, fun solve g late row => strong_skipped_undefined exObj ⟨[0, 1], [2, 3]⟩ (by simp) solve g late _ row⟩

/-- Points with exactly one of two binaries at 1. -/
def pairFeas (y : ℕ → ℚ) : Prop := (y 0 = 1 ∧ y 1 = 0) ∨ (y 0 = 0 ∧ y 1 = 1)

/-- The object with these two members. -/
def pairObj : Obj := ⟨[0, 1], none, [], false, 5⟩

theorem pairOne : OneOf pairFeas pairObj := by
  rintro x y (⟨h0, h1⟩ | ⟨h0, h1⟩) hx
  · refine ⟨0, hx, by simp [pairObj], fun c hc => ?_, fun j c hj hc => ?_, fun i hi => by simp [Obj.conseq, pairObj] at hi⟩
    · simp [pairObj] at hc; rw [← hc]; exact h0
    · match j with
      | 0 => exact absurd rfl hj
      | 1 => simp [pairObj] at hc; rw [← hc]; exact h1
      | j + 2 => simp [pairObj] at hc
  · refine ⟨1, hx, by simp [pairObj], fun c hc => ?_, fun j c hj hc => ?_, fun i hi => by simp [Obj.conseq, pairObj] at hi⟩
    · simp [pairObj] at hc; rw [← hc]; exact h1
    · match j with
      | 0 => simp [pairObj] at hc; rw [← hc]; exact h0
      | 1 => exact absurd rfl hj
      | j + 2 => simp [pairObj] at hc

theorem pairBinary : Binary pairObj ⟨fun _ => 0, fun _ => 1⟩ := ⟨by decide, fun _ _ => rfl, fun _ _ => Or.inr rfl, fun _ h => by simp [pairObj] at h, fun _ _ h => by simp [Obj.conseq, pairObj] at h, fun _ _ h => by simp [Obj.conseq, pairObj] at h⟩

/-- A point at which both are 1/2. -/
def pairInfo : Info := ⟨⟨fun _ => 0, fun _ => 1⟩, fun _ => 1 / 2, 1 / 100, 10, 0⟩

theorem pairCreates : pairObj.Creates pairInfo ⟨[0, 1], []⟩ := by
  refine ⟨([0, 1], []), ?_, List.Perm.refl _, ?_, rfl⟩
  · norm_num [createLoop, Obj.kind, pairObj, pairInfo]
  · norm_num [Obj.key, pairObj, pairInfo, Info.value]

/-- A right solver that finds the branch with the first member at 1 infeasible, for the problem in which the second member must be 1. -/
def pairSolve (x : Box) : Outcome := if 1 / 2 < x.lo 0 then .infeasible else .optimal 3

theorem pairRight : Right (fun y => y 0 = 0 ∧ y 1 = 1) (fun _ => 3) pairSolve := by
  intro x y h hx
  unfold pairSolve
  have := (hx 0).1
  rw [h.1] at this
  rw [if_neg (by linarith)]

/-- Strong branching on it: the first member is fixed to 0, and the bounds are recorded. -/
example : ∃ r, strong pairObj ⟨[0, 1], []⟩ pairSolve ⟨3, 10, 99, true⟩ false pairInfo.box [10, 10] = some (r, 1) ∧ r.sv.up 0 = 0 ∧ r.sv.up 1 = 1 ∧ r.row = [99, 3] := by
  norm_num [strong, sbLoop, sbStep, Branching.number, Branching.branch, Branching.branchOn, Branching.which, branchLoop, skipLoop, Obj.applyConsequence, pairObj, pairInfo, pairSolve, Branching.seqBranchedOn, Function.update, Outcome.pruned, Outcome.value, sbCode]

/-- **C129 (refuted): solves that fail.** The value of a solve that neither succeeds nor proves infeasibility is recorded as a bound: with a value 1000 left by the solver, solutions of value 0 count as
worse than 500. -/
theorem failed_solve_recorded : ∃ (N : Obj) (s : Info) (b : Branching) (solve : Box → Outcome) (g : Cfg) (r : SB) (code : ℤ) (Feas : (ℕ → ℚ) → Prop) (f : (ℕ → ℚ) → ℚ), N.Creates s b ∧ b.skipped = [] ∧ Binary N s.box ∧ N.bounds = [] ∧
    g.root = true ∧ OneOf Feas N ∧ Right Feas f solve ∧ strong N b solve g false s.box [g.cutoff, g.cutoff] = some (r, code) ∧ ¬ ValidRow Feas f N s.box r.row g.cutoff := by
  refine ⟨pairObj, pairInfo, ⟨[0, 1], []⟩, fun _ => .other 1000, ⟨3, 800, 2400, true⟩, ⟨pairInfo.box, [1000, 1000], 0⟩, 0, pairFeas, fun _ => 0, pairCreates, rfl, pairBinary, rfl, rfl, pairOne, fun _ _ _ _ => trivial, ?_, ?_⟩
  · norm_num [strong, sbLoop, sbStep, Branching.number, Branching.branch, Branching.branchOn, Branching.which, branchLoop, skipLoop, Obj.applyConsequence, pairObj, pairInfo, Branching.seqBranchedOn, Function.update, Outcome.pruned, Outcome.value, sbCode]
  · intro h
    have hF : pairFeas (fun i => if i = 0 then 1 else 0) := Or.inl ⟨by simp, by simp⟩
    have hS : Sol pairObj pairInfo.box (fun i => if i = 0 then 1 else 0) 0 := by
      refine ⟨fun i => ?_, by simp [pairObj], fun c hc => ?_, fun j c hj hc => ?_, fun i hi => by simp [Obj.conseq, pairObj] at hi⟩
      · simp only [pairInfo]; split_ifs <;> norm_num
      · simp [pairObj] at hc; simp [← hc]
      · match j with
        | 0 => exact absurd rfl hj
        | 1 => simp [pairObj] at hc; simp [← hc]
        | j + 2 => simp [pairObj] at hc
    have := h _ 0 hF hS 1000 rfl 500 (by norm_num) (by norm_num)
    norm_num at this

/-- **C129 (refuted): objects not evaluated at the root.** Their row still has the cutoff of the root in every entry (210-217).  As soon as the cutoff has improved, the quick fixing sets all their members
to 0, and the node has no solution left. -/
theorem unevaluated_fixed (N : Obj) (hn : N.members.Nodup) (c0 cutoff : ℚ) (hc : cutoff < c0) (m : ℕ) (hm : N.members.length ≤ m) (x x' : Box) (n : ℕ) (hb : Binary N x)
    (h : quickMembers (List.replicate m c0) cutoff N.members 0 (x, 0) = some (x', n)) (y : ℕ → ℚ) (k : ℕ) : ¬ Sol N x' y k := by
  intro hy
  obtain ⟨g1, g2, -⟩ := quick_exact N hn _ cutoff x x' n hb.halves h
  have hk := List.getElem?_eq_getElem hy.mem
  have hup := (g2 _).1 ⟨k, c0, hk, List.getElem?_replicate_of_lt (lt_of_lt_of_le hy.mem hm), hc⟩
  have hkm := hy.mem
  have h1 := (hy.box N.members[k]).2
  rw [hy.one _ hk, hup, hb.lo _ (List.getElem_mem hy.mem)] at h1
  norm_num at h1

/-- Such a call: one object with two free members, cutoff 10 at the root and 5 now, with fixing allowed "in strong branching only" (2): both members are fixed although no branching was tried. -/
theorem all_members_fixed : ∃ (e : Env) (r : Choice), e.objs = [pairObj] ∧ e.g.cutoff = 5 ∧ e.g.fix = 2 ∧ choose e [0] 1 true pairInfo.box [[10, 10]] = some r ∧ r.code = 2 ∧ r.box.up 0 = 0 ∧ r.box.up 1 = 0 := by
  refine ⟨⟨[pairObj], fun _ => 1, fun _ _ => none, fun _ => .infeasible, fun _ => 0, fun _ => false, 1, fun _ => 1 / 2, 1 / 100, ⟨2, 5, 15, false⟩⟩, ⟨2, some 0, ⟨fun _ => 0, Function.update (Function.update (fun _ => 1) 0 0) 1 0⟩, [[10, 10]]⟩, rfl, rfl, rfl, ?_, rfl, ?_, ?_⟩
  · norm_num [choose, quickFix, quickMembers, pairObj, pairInfo, Function.update]
  · norm_num [Function.update]
  · norm_num [Function.update]

/-- **C130 (refuted): no candidate.** If no object is admitted for strong branching (`number_strong_branch` 0), the code is 0, "we have a candidate", without an object. -/
theorem no_candidate (e : Env) (unsat : List ℕ) (hu : unsat ≠ []) (x : Box) (rows : List (List ℚ)) : choose e unsat 0 false x rows = some ⟨0, none, x, rows⟩ := by
  cases unsat with
  | nil => exact absurd rfl hu
  | cons a l => simp [choose, chooseLoop]

/-- **C130 (refuted): fixings not told.** Below the root strong branching fixes members and the code is 0. -/
theorem fixing_not_told : ∃ (e : Env) (r : Choice), e.g.root = false ∧ choose e [0] 1 false pairInfo.box [[10, 10]] = some r ∧ r.code = 0 ∧ pairInfo.box.up 0 = 1 ∧ r.box.up 0 = 0 := by
  refine ⟨⟨[pairObj], fun _ => 1, fun _ _ => some ⟨[0, 1], []⟩, pairSolve, fun _ => 0, fun _ => false, 1, fun _ => 1 / 2, 1 / 100, ⟨3, 10, 30, false⟩⟩, ?_⟩
  norm_num [choose, chooseLoop, strong, sbLoop, sbStep, Branching.number, Branching.branch, Branching.branchOn, Branching.which, branchLoop, skipLoop, Obj.applyConsequence, pairObj, pairInfo, pairSolve, Branching.seqBranchedOn, Function.update, Outcome.pruned, Outcome.value, sbCode]

open Classical in
/-- A call of `chooseVariable` that meets the assumptions. -/
noncomputable def pairEnv : Env := ⟨[pairObj], fun _ => 1, fun N s => if N.Creates s ⟨[0, 1], []⟩ then some ⟨[0, 1], []⟩ else none, pairSolve, fun _ => 0, fun _ => false, 0, fun _ => 1 / 2, 1 / 100, ⟨3, 10, 30, true⟩⟩

example : Ok pairEnv (fun y => y 0 = 0 ∧ y 1 = 1) (fun _ => 3) pairInfo.box :=
  ⟨fun N s b h => by
    unfold pairEnv at h
    simp only at h
    split_ifs at h with hc
    obtain rfl := Option.some.inj h
    exact hc, pairRight, fun N hN => by simp [pairEnv] at hN; subst hN; exact fun x y h hx => pairOne x y (Or.inr h) hx, fun N hN => by simp [pairEnv] at hN; subst hN; exact pairBinary,
    fun N hN => by simp [pairEnv] at hN; subst hN; norm_num [pairObj, pairEnv], fun N hN => by simp [pairEnv] at hN; subst hN; exact Or.inl rfl⟩

example : ∃ r, choose pairEnv [0] 1 false pairInfo.box [[10, 10]] = some r ∧ r.code = 2 ∧ r.best = some 0 ∧ r.box.up 0 = 0 ∧ r.box.up 1 = 1 := by
  have hc : pairObj.Creates ⟨⟨fun _ => 0, fun _ => 1⟩, fun _ => 1 / 2, 1 / 100, 10, 0⟩ ⟨[0, 1], []⟩ := pairCreates
  simp only [choose, chooseLoop, List.take_succ_cons, List.take_zero, pairEnv, pairInfo, List.getElem?_cons_zero, Option.bind_some, hc, if_true]
  norm_num [strong, sbLoop, sbStep, Branching.number, Branching.branch, Branching.branchOn, Branching.which, branchLoop, skipLoop, Obj.applyConsequence, pairObj, pairInfo, pairSolve, Branching.seqBranchedOn, Function.update, Outcome.pruned, Outcome.value, sbCode]

/-- Every branch that is fixed is counted once. -/
theorem sbLoop_count (N : Obj) (order : List ℕ) (solve : Box → Outcome) (g : Cfg) (hm : N.members.Nodup) (hn : order.Nodup) : ∀ (n i : ℕ) (s s' : SB), i + n = order.length →
    (∀ j ∈ order.drop i, ∃ c, N.members[j]? = some c ∧ s.sv.up c ≠ s.sv.lo c) → sbLoop N ⟨order, []⟩ solve g n i s = some s' →
    s'.sv.lo = s.sv.lo ∧ (∀ c, c ∉ N.cols (order.drop i) → s'.sv.up c = s.sv.up c) ∧ s'.fixed = s.fixed + (order.drop i).countP (fun j => (N.members[j]?).any fun c => decide (s'.sv.up c = s'.sv.lo c))
  | 0, i, s, s', hi, _, h => by
    simp only [sbLoop, Option.some.injEq] at h
    subst h
    have hd : order.drop i = [] := List.drop_eq_nil_of_le (by omega)
    simp [hd]
  | n + 1, i, s, s', hi, hf, h => by
    rw [sbLoop, Option.bind_eq_some_iff] at h
    obtain ⟨s1, h1, h⟩ := h
    have hlt : i < order.length := by omega
    have hdrop : order.drop i = order[i] :: order.drop (i + 1) := (List.getElem_cons_drop hlt).symm
    unfold sbStep at h1
    simp only [Option.bind_eq_some_iff] at h1
    obtain ⟨x, hx, q, hq, v, hv, h1⟩ := h1
    have hq' : order[i]? = some q := hq
    have hqi : order[i] = q := (List.getElem?_eq_some_iff.1 hq').2
    rw [hdrop, hqi] at hf ⊢
    have hqn : q ∉ order.drop (i + 1) := by
      have := List.Nodup.sublist (List.drop_sublist i order) hn
      rw [hdrop, hqi, List.nodup_cons] at this
      exact this.1
    have hvn : v ∉ N.cols (order.drop (i + 1)) := by
      intro hc
      obtain ⟨j, hj, hjv⟩ := (N.mem_cols _ v).1 hc
      have he : j = q := by
        obtain ⟨hj1, hj2⟩ := List.getElem?_eq_some_iff.1 hjv
        obtain ⟨hq1, hq2⟩ := List.getElem?_eq_some_iff.1 hv
        exact (hm.getElem_inj_iff).1 (hj2.trans hq2.symm)
      exact hqn (he ▸ hj)
    by_cases hlen : q < s.row.length
    swap
    · rw [if_neg hlen] at h1; cases h1
    rw [if_pos hlen, Option.some.injEq] at h1
    have hlo : s1.sv.lo = s.sv.lo := by rw [← h1]; dsimp only; split_ifs <;> rfl
    have hup : ∀ c, c ≠ v → s1.sv.up c = s.sv.up c := by
      intro c hc
      rw [← h1]; dsimp only
      split_ifs
      · simp [hc]
      · rfl
    have hother : ∀ j ∈ order.drop (i + 1), ∃ c, N.members[j]? = some c ∧ s1.sv.up c ≠ s1.sv.lo c := by
      intro j hj
      obtain ⟨c, hc, hne⟩ := hf j (List.mem_cons_of_mem _ hj)
      refine ⟨c, hc, ?_⟩
      have hcv : c ≠ v := by
        rintro rfl
        exact hvn ((N.mem_cols _ c).2 ⟨j, hj, hc⟩)
      rw [hup c hcv, hlo]
      exact hne
    obtain ⟨k1, k2, k3⟩ := sbLoop_count N order solve g hm hn n (i + 1) s1 s' (by omega) hother h
    refine ⟨k1.trans hlo, fun c hc => ?_, ?_⟩
    · have hc1 : c ∉ N.cols (order.drop (i + 1)) := by
        intro hm
        obtain ⟨j, hj, hjc⟩ := (N.mem_cols _ c).1 hm
        exact hc ((N.mem_cols _ c).2 ⟨j, List.mem_cons_of_mem _ hj, hjc⟩)
      have hcv : c ≠ v := by
        rintro rfl
        exact hc ((N.mem_cols _ c).2 ⟨q, by simp, hv⟩)
      rw [k2 c hc1, hup c hcv]
    · rw [List.countP_cons, hv, k3]
      have hv' : s'.sv.up v = s1.sv.up v := k2 v hvn
      obtain ⟨c, hc, hne⟩ := hf q (by simp)
      rw [hv, Option.some.injEq] at hc
      subst hc
      simp only [Option.any_some, hv', k1, decide_eq_true_eq]
      by_cases hp : ((solve x).pruned g.cutoff && decide (1 < g.fix)) = true
      · have e1 : s1.fixed = s.fixed + 1 := by rw [← h1]; simp [hp]
        have e2 : s1.sv.up v = s1.sv.lo v := by rw [← h1]; simp [hp]
        rw [e1, if_pos e2]; omega
      · have e1 : s1.fixed = s.fixed := by rw [← h1]; simp only [hp]; rfl
        have e2 : s1.sv.up v ≠ s1.sv.lo v := by rw [hlo, ← h1]; simp only [hp]; exact hne
        rw [e1, if_neg e2]; omega

/-- **C130.** The code of strong branching (576-587): -1 exactly if every listed member has been fixed, 1 if some but not all have, otherwise 3 or 0 depending on the time alone. -/
theorem strong_code (N : Obj) (s : Info) (b : Branching) (hc : N.Creates s b) (hsk : b.skipped = []) (hb : Binary N s.box) (solve : Box → Outcome) (g : Cfg) (late : Bool) (row : List ℚ) (r : SB) (code : ℤ)
    (h : strong N b solve g late s.box row = some (r, code)) :
    (code = -1 ↔ ∀ j ∈ b.order, ∃ c, N.members[j]? = some c ∧ r.sv.up c = r.sv.lo c) ∧
    (code = 1 ↔ (∃ j ∈ b.order, ∃ c, N.members[j]? = some c ∧ r.sv.up c = r.sv.lo c) ∧ ∃ j ∈ b.order, ∃ c, N.members[j]? = some c ∧ r.sv.up c ≠ r.sv.lo c) ∧
    (code = 3 ↔ (b.order ≠ [] ∧ ∀ j ∈ b.order, ∃ c, N.members[j]? = some c ∧ r.sv.up c ≠ r.sv.lo c) ∧ late = true) ∧
    (code = 0 ↔ (b.order ≠ [] ∧ ∀ j ∈ b.order, ∃ c, N.members[j]? = some c ∧ r.sv.up c ≠ r.sv.lo c) ∧ late = false) := by
  obtain ⟨order, sk⟩ := b
  simp only at hsk
  subst hsk
  have hf := creates_free N s _ hc hb
  simp only [List.append_nil] at hf
  have hnum : Branching.number ⟨order, []⟩ = order.length := by simp [Branching.number]
  unfold strong at h
  rw [Option.map_eq_some_iff, hnum] at h
  obtain ⟨s', hs', he⟩ := h
  rw [Prod.mk.injEq] at he
  obtain ⟨rfl, rfl⟩ := he
  obtain ⟨-, -, hcnt⟩ := sbLoop_count N order solve g hb.nodup hf.nodup order.length 0 _ s' (by omega) (fun j hj => by
    obtain ⟨c, hc, hu⟩ := hf.mem j (by simpa using hj)
    refine ⟨c, hc, ?_⟩
    rw [hu, hb.lo c (List.mem_of_getElem? hc)]
    norm_num) hs'
  simp only [List.drop_zero, Nat.zero_add] at hcnt
  have hmem : ∀ j ∈ order, ∃ c, N.members[j]? = some c := fun j hj => by obtain ⟨c, hc, -⟩ := hf.mem j hj; exact ⟨c, hc⟩
  have hall : s'.fixed = order.length ↔ ∀ j ∈ order, ∃ c, N.members[j]? = some c ∧ s'.sv.up c = s'.sv.lo c := by
    rw [hcnt, List.countP_eq_length]
    refine forall₂_congr fun j hj => ?_
    obtain ⟨c, hc⟩ := hmem j hj
    simp [hc]
  have hzero : s'.fixed = 0 ↔ ∀ j ∈ order, ∃ c, N.members[j]? = some c ∧ s'.sv.up c ≠ s'.sv.lo c := by
    rw [hcnt, List.countP_eq_zero]
    refine forall₂_congr fun j hj => ?_
    obtain ⟨c, hc⟩ := hmem j hj
    simp [hc]
  have hsome : s'.fixed ≠ 0 ↔ ∃ j ∈ order, ∃ c, N.members[j]? = some c ∧ s'.sv.up c = s'.sv.lo c := by
    rw [Ne, hzero]
    push Not
    refine exists_congr fun j => and_congr_right fun hj => ?_
    obtain ⟨c, hc⟩ := hmem j hj
    simp [hc]
  have hnall : s'.fixed ≠ order.length ↔ ∃ j ∈ order, ∃ c, N.members[j]? = some c ∧ s'.sv.up c ≠ s'.sv.lo c := by
    rw [Ne, hall]
    push Not
    refine exists_congr fun j => and_congr_right fun hj => ?_
    obtain ⟨c, hc⟩ := hmem j hj
    simp [hc]
  have hne : order ≠ [] ↔ order.length ≠ 0 := by simp
  dsimp only
  rw [← hall, ← hzero, ← hsome, ← hnall, hne]
  unfold sbCode
  by_cases e1 : s'.fixed = order.length
  · rw [if_pos e1]
    refine ⟨by simp [e1], by simp [e1], ?_, ?_⟩ <;> simp only [e1] <;> constructor <;> intro hh
    · cases hh
    · omega
    · cases hh
    · omega
  · rw [if_neg e1]
    by_cases e2 : s'.fixed = 0
    · rw [if_neg (by simpa using e2)]
      have e3 : order.length ≠ 0 := fun hh => e1 (e2.trans hh.symm)
      cases late <;> simp [e2, e3] <;> omega
    · rw [if_pos e2]
      simp [e1, e2]

/-- **C129.** The value recorded for infeasible branches (507-509): for a cutoff that is positive and not huge it lies above the cutoff, so that the members found infeasible are fixed again at every later node. -/
theorem big_values (mult cutoff obj : ℚ) (hm : 1 ≤ mult) :
    (0 < cutoff → mult * cutoff ≤ 10 ^ 10 → bigVal mult cutoff obj = mult * cutoff * (100001 / 100000) ∧ cutoff < bigVal mult cutoff obj) ∧
    (cutoff ≤ 0 → bigVal mult cutoff obj = mult * cutoff * (99999 / 100000)) ∧
    (10 ^ 10 < mult * cutoff → bigVal mult cutoff obj = 10 * obj + |obj| * (1 / 10000)) := by
  refine ⟨fun h1 h2 => ?_, fun h1 => ?_, fun h1 => ?_⟩
  · have hp : 0 < mult * cutoff := by positivity
    have he : bigVal mult cutoff obj = mult * cutoff * (100001 / 100000) := by
      unfold bigVal
      rw [if_neg (not_lt.2 h2)]
      dsimp only
      rw [abs_of_pos hp]; ring
    refine ⟨he, ?_⟩
    rw [he]
    nlinarith
  · have hp : mult * cutoff ≤ 0 := mul_nonpos_of_nonneg_of_nonpos (by linarith) h1
    unfold bigVal
    rw [if_neg (not_lt.2 (by linarith))]
    dsimp only
    rw [abs_of_nonpos hp]; ring
  · unfold bigVal
    rw [if_pos h1]
    dsimp only
    have h10 : |10 * obj| = 10 * |obj| := by
      rcases le_total 0 obj with h | h
      · rw [abs_of_nonneg h, abs_of_nonneg (by linarith)]
      · rw [abs_of_nonpos h, abs_of_nonpos (by linarith)]; ring
    rw [h10]; ring

/-- **C129.** With a cutoff of -1 and a multiplier of 2 or more (the default is 3, 114-117), the value recorded for an infeasible branch lies below the cutoff: the branch counts as good, and is not fixed by
recorded bounds; the same with a huge cutoff and a small objective value. -/
theorem big_below_cutoff : (∀ mult obj : ℚ, 2 ≤ mult → bigVal mult (-1) obj < -1) ∧ bigVal 2 (10 ^ 11) 1 < 10 ^ 11 := by
  refine ⟨fun mult obj h => ?_, ?_⟩
  · rw [(big_values mult (-1) obj (by linarith)).2.1 (by norm_num)]
    linarith
  · rw [(big_values 2 (10 ^ 11) 1 (by norm_num)).2.2 (by norm_num)]
    norm_num

/-- **The code after one object.**  Answer -1 of strong branching (all branches gone): -1; answer 3 (no time left): 3; answer 1 (some branches gone): 2 at the root with fixing; else the code is that of the objects before. -/
theorem code_of_object (e : Env) (first i : ℕ) (bp : ℤ) (bs : Option ℚ) (r r' : Choice) (N : _) (row : _) (b : _) (q : _) (hN : e.objs[i]? = some N) (hr : r.rows[i]? = some row) (hp : bp ≤ e.prio i)
    (hb : e.create N ⟨r.box, e.sol, e.tol, e.g.cutoff, e.depth⟩ = some b) (hq : strong N b e.solve e.g (e.late i) r.box row = some q) (h : chooseLoop e first [i] bp bs r = some r') :
    (q.2 = -1 → r'.code = -1) ∧ (q.2 = 3 → r'.code = 3) ∧ (q.2 = 1 → r'.code = if 1 < e.g.fix ∧ e.g.root = true then 2 else r.code) ∧ (q.2 ≠ -1 → q.2 ≠ 3 → q.2 ≠ 1 → r'.code = r.code) := by
  simp only [chooseLoop, hN, hr, hb, hq, Option.bind_some, if_neg (not_lt.mpr hp)] at h
  refine ⟨fun h1 => ?_, fun h1 => ?_, fun h1 => ?_, fun h1 h2 h3 => ?_⟩
  · rw [if_pos h1] at h; cases h; rfl
  · rw [if_neg (by rw [h1]; decide), if_pos h1] at h; cases h; rfl
  · rw [if_neg (by rw [h1]; decide), if_neg (by rw [h1]; decide)] at h; cases h; simp [h1]
  · rw [if_neg h1, if_neg h2] at h; cases h; simp [h3]

end Verif.Nway

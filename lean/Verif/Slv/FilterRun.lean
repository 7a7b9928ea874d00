import Mathlib.Data.List.Basic
import Mathlib.Data.Int.Notation
import Mathlib.Algebra.Order.Ring.Rat
import Mathlib.Tactic.Linarith
import Mathlib.Tactic.NormNum
import Mathlib.Tactic.Ring

/-!
# Solver objects for filterSQP (`src/Interfaces/Filter/BonFilterSolver.cpp`)
Several solver objects and several problems live at the same time; filterSQP itself reads file-level variables (the problem evaluated by the call-backs, its structure) and common blocks
(tolerances), which all objects share.  filterSQP is an arbitrary function of what it can read.
-/
namespace Verif.Slv.Filter

/-- A problem object (`TNLP`) at one moment: sizes, an opaque value for its sparsity structure, bounds of variables and constraints, starting point. -/
structure Prob where
  n : ℕ
  m : ℕ
  nnzH : ℕ
  pattern : ℕ
  lo : List ℚ
  up : List ℚ
  start : List ℚ
deriving DecidableEq, Repr

/-- The common blocks filled from options (cpp:526-529). -/
structure Com where
  ubd : ℚ
  tt : ℚ
  eps : ℚ
  infty : ℚ
deriving DecidableEq, Repr

/-- The options read in `cachedInfo::initialize` (cpp:422-448, 526-533). -/
structure Opts where
  com : Com
  rhoInit : ℚ
  maxiter : ℤ
  kmax : ℤ
  mlp : ℕ
  mxlws : ℕ
deriving DecidableEq, Repr

/-- The parts of a `FilterWarmStart` the solver uses. -/
structure Ws where
  x : List ℚ
  lam : List ℚ
  lws : List ℤ
  istat : List ℤ
  empty : Bool
deriving DecidableEq, Repr

/-- `cachedInfo` (`BonFilterSolver.hpp:182-325`); `none` entries of `x` and `lws` are not initialised. -/
structure Cache where
  prob : ℕ
  n : ℕ
  m : ℕ
  nnzH : ℕ
  pattern : ℕ
  lwsLen : ℕ
  maxiter : ℤ
  rho : ℚ
  lo : List ℚ
  up : List ℚ
  x : List (Option ℚ)
  lam : List ℚ
  lws : List (Option ℤ)
  useWarm : Bool
deriving DecidableEq, Repr

/-- A `FilterSolver` (`BonFilterSolver.hpp:179-181, 328`). -/
structure Obj where
  opts : Opts
  warm : Option Ws
  cache : Option Cache
deriving DecidableEq, Repr

/-- The file-level variables `tnlpSolved`, `nnz_h` and the structure arrays (cpp:40-47), and the common blocks. -/
structure Glob where
  tnlp : ℕ
  nnzH : ℕ
  pattern : ℕ
  com : Com
deriving DecidableEq, Repr

/-- All that filterSQP can read when it is called (cpp:692-700). -/
structure Call where
  n : ℕ
  m : ℕ
  ifail : ℤ
  rho : ℚ
  maxiter : ℤ
  lo : List ℚ
  up : List ℚ
  x : List (Option ℚ)
  lam : List ℚ
  lws : List (Option ℤ)
  glob : Glob
deriving DecidableEq, Repr

/-- What it writes. -/
structure Ans where
  ifail : ℤ
  f : ℚ
  rstat4 : ℚ
  x : List ℚ
  lam : List ℚ
  lws : List ℤ
deriving DecidableEq, Repr

/-- One solve: who asked for it, for which problem, what filterSQP was given, what it answered and to which problem the solution is delivered. -/
structure Entry where
  who : ℕ
  asked : ℕ
  call : Call
  ans : Ans
  delivered : ℕ
deriving DecidableEq, Repr

structure World where
  probs : ℕ → Prob
  slv : ℕ → Obj
  glob : Glob
  log : List Entry

/-- `cachedInfo::initialize` (cpp:402-570): the sizes of the work array (cpp:422-431, 511-513), uninitialised `x` and `lws`, zero multipliers. -/
def fresh (p : ℕ) (P : Prob) (o : Opts) : Cache :=
  { prob := p, n := P.n, m := P.m, nnzH := P.nnzH, pattern := P.pattern
    lwsLen := 13 * P.n + 4 * P.m + o.mlp + (P.nnzH + 8 + 2 * P.n + P.m) + (if o.kmax = -1 then P.n else min o.kmax.toNat P.n) + 113 + o.mxlws
    maxiter := o.maxiter, rho := o.rhoInit, lo := P.lo, up := P.up
    x := List.replicate P.n none, lam := List.replicate (P.n + P.m) 0
    lws := List.replicate (13 * P.n + 4 * P.m + o.mlp + (P.nnzH + 8 + 2 * P.n + P.m) + (if o.kmax = -1 then P.n else min o.kmax.toNat P.n) + 113 + o.mxlws) none
    useWarm := false }

/-- The file-level variables and common blocks after `initialize`. -/
def freshGlob (p : ℕ) (P : Prob) (o : Opts) : Glob := ⟨p, P.nnzH, P.pattern, o.com⟩

/-- Copying an array over the beginning of another one. -/
def overlay {α : Type} (w l : List α) : List α := w ++ l.drop w.length

/-- `cachedInfo::load_ws` (cpp:646-660); nothing checks the sizes, so a larger array writes outside. -/
def load (w : Option Ws) (c : Cache) : Option Cache :=
  match w with
  | none => some c
  | some w =>
    if w.x.length ≤ c.n ∧ w.lam.length ≤ c.n + c.m ∧ w.lws.length ≤ c.lwsLen then
      some { c with x := overlay (w.x.map some) c.x, lam := overlay w.lam c.lam, lws := overlay (w.lws.map some) c.lws, useWarm := true }
    else none

/-- `cachedInfo::optimize` (cpp:662-715) inside `callOptimizer`: the starting point is asked for (with the cached sizes) unless a warm start is loaded; the radius is reset to 10;
an uninitialised starting point is undefined behaviour. -/
def optimize (F : (ℕ → Prob) → Call → Ans) (W : World) (who asked : ℕ) (c : Cache) : Option (Cache × Entry) :=
  let c' : Option (Cache × ℤ) :=
    if c.useWarm then some ({ c with useWarm := false }, -1)
    else if (W.probs c.prob).n = c.n ∧ (W.probs c.prob).m = c.m then some ({ c with x := (W.probs c.prob).start.map some }, 0) else none
  match c' with
  | none => none
  | some (c, i) =>
    if c.x.all Option.isSome then
      let call : Call := ⟨c.n, c.m, i, 10, c.maxiter, c.lo, c.up, c.x, c.lam, c.lws, W.glob⟩
      let a := F W.probs call
      some ({ c with rho := 10, x := a.x.map some, lam := a.lam, lws := a.lws.map some }, ⟨who, asked, call, a, c.prob⟩)
    else none

/-- Storing the result of a solve. -/
def done (W : World) (i : ℕ) (r : Option (Cache × Entry)) : Option World :=
  r.map fun r => { W with slv := Function.update W.slv i { W.slv i with cache := some r.1 }, log := r.2 :: W.log }

inductive Op
  | change (p : ℕ) (P : Prob)
  | options (i : ℕ) (o : Opts)
  | create (i : ℕ) (o : Opts)
  | clone (i j : ℕ)
  | optimize (i p : ℕ)
  | reoptimize (i p : ℕ)
  | setWarm (i p : ℕ) (w : Option Ws)
  | disable (i : ℕ)
  | enable (i : ℕ)

/-- `OptimizeTNLP` (cpp:364-371). -/
def optimizeTNLP (F : (ℕ → Prob) → Call → Ans) (W : World) (i p : ℕ) : Option World :=
  let keep := match (W.slv i).cache with | some c => c.useWarm | none => false
  let W' : World := if keep then W else { W with glob := freshGlob p (W.probs p) (W.slv i).opts }
  let c0 := if keep then ((W.slv i).cache.getD (fresh p (W.probs p) (W.slv i).opts)) else fresh p (W.probs p) (W.slv i).opts
  match load (W.slv i).warm c0 with
  | none => none
  | some c => done W' i (optimize F W' i p c)

/-- `ReOptimizeTNLP` (cpp:375-397): without a cache the pointer is null; with assertions on the problem must be the one of the cache; the bounds are read with the cached sizes. -/
def reoptimizeTNLP (dbg : Bool) (F : (ℕ → Prob) → Call → Ans) (W : World) (i p : ℕ) : Option World :=
  match (W.slv i).cache with
  | none => none
  | some c =>
    if dbg ∧ c.prob ≠ p then none
    else match load (W.slv i).warm c with
      | none => none
      | some c =>
        if (W.probs p).n = c.n ∧ (W.probs p).m = c.m then
          let c := { c with lo := (W.probs p).lo, up := (W.probs p).up }
          let W' := { W with glob := { W.glob with tnlp := p, nnzH := c.nnzH, pattern := c.pattern } }
          done W' i (optimize F W' i p c)
        else none

/-- `setWarmStart` (cpp:737-756) for a null pointer or a warm start of its own class. -/
def setWarmStart (W : World) (i p : ℕ) (w : Option Ws) : World :=
  let s := W.slv i
  let new := w.isNone || s.cache.isNone
  let s : Obj := if new then { s with cache := some (fresh p (W.probs p) s.opts) } else s
  let g : Glob := if new then freshGlob p (W.probs p) s.opts else W.glob
  let s : Obj := match w with | none => s | some w => { s with warm := if w.empty then none else some w }
  { W with slv := Function.update W.slv i s, glob := g }

/-- One operation; the copy constructor copies options and warm start, not the cache (cpp:295-301); `disableWarmStart` forgets the warm start, `enableWarmStart` does nothing
(`BonFilterSolver.hpp:118-125`). -/
def step (dbg : Bool) (F : (ℕ → Prob) → Call → Ans) (W : World) : Op → Option World
  | .change p P => some { W with probs := Function.update W.probs p P }
  | .options i o => some { W with slv := Function.update W.slv i { W.slv i with opts := o } }
  | .create i o => some { W with slv := Function.update W.slv i ⟨o, none, none⟩ }
  | .clone i j => some { W with slv := Function.update W.slv j { W.slv i with cache := none } }
  | .optimize i p => optimizeTNLP F W i p
  | .reoptimize i p => reoptimizeTNLP dbg F W i p
  | .setWarm i p w => some (setWarmStart W i p w)
  | .disable i => some { W with slv := Function.update W.slv i { W.slv i with warm := none } }
  | .enable _ => some W

def run (dbg : Bool) (F : (ℕ → Prob) → Call → Ans) (W : World) : List Op → Option World
  | [] => some W
  | op :: ops => (step dbg F W op).bind fun W => run dbg F W ops

/-- A world before anything happened: nothing cached, nothing solved. -/
def Init (W : World) : Prop := (∀ i, (W.slv i).cache = none) ∧ W.log = []

/-- `OsiTMINLPInterface::resolve` up to its solve with a usable warm start (BonOsiTMINLPInterface.cpp:2860-2874); `duals` says whether the problem has initial multipliers. -/
def resolve (dbg : Bool) (F : (ℕ → Prob) → Call → Ans) (W : World) (i p : ℕ) (w : Ws) (duals : Bool) : Option World :=
  run dbg F W [.setWarm i p (some w), if duals then .enable i else .disable i, .reoptimize i p]

/-! ## Results -/

/-- Nothing is loaded between two operations. -/
def Clean (W : World) : Prop := ∀ i c, (W.slv i).cache = some c → c.useWarm = false

theorem optimize_clean {F : (ℕ → Prob) → Call → Ans} {W : World} {w a : ℕ} {c c' : Cache} {e : Entry} (h : optimize F W w a c = some (c', e)) : c'.useWarm = false := by
  unfold optimize at h
  dsimp only at h
  cases hu : c.useWarm <;> simp only [hu, Bool.false_eq_true, if_false, if_true] at h
  · split_ifs at h with h1
    · simp at h
      obtain ⟨rfl, _⟩ := h
      rfl
  · simp at h
    obtain ⟨_, rfl, _⟩ := h
    rfl

theorem done_clean {W W' : World} {i : ℕ} {r : Option (Cache × Entry)} (h : done W i r = some W') (hW : Clean W) (hr : ∀ c e, r = some (c, e) → c.useWarm = false) : Clean W' := by
  unfold done at h
  cases r with
  | none => simp at h
  | some r =>
    simp only [Option.map_some, Option.some.injEq] at h
    subst h
    intro j c hc
    dsimp only at hc
    by_cases hj : j = i
    · subst hj
      rw [Function.update_self] at hc
      simp only [Option.some.injEq] at hc
      subst hc
      exact hr r.1 r.2 rfl
    · rw [Function.update_of_ne hj] at hc
      exact hW j c hc

theorem step_clean {dbg : Bool} {F : (ℕ → Prob) → Call → Ans} {W W' : World} {op : Op} (hW : Clean W) (h : step dbg F W op = some W') : Clean W' := by
  have upd : ∀ (i : ℕ) (s : Obj) (V : World), (∀ c, s.cache = some c → c.useWarm = false) → V.slv = Function.update W.slv i s → Clean V := by
    intro i s V hs hV j c hc
    rw [hV] at hc
    by_cases hj : j = i
    · subst hj
      rw [Function.update_self] at hc
      exact hs c hc
    · rw [Function.update_of_ne hj] at hc
      exact hW j c hc
  cases op with
  | change p P => simp only [step, Option.some.injEq] at h; subst h; exact hW
  | options i o => simp only [step, Option.some.injEq] at h; subst h; exact upd i { W.slv i with opts := o } _ (fun c hc => hW i c hc) rfl
  | create i o => simp only [step, Option.some.injEq] at h; subst h; exact upd i _ _ (fun c hc => by simp at hc) rfl
  | clone i j => simp only [step, Option.some.injEq] at h; subst h; exact upd j _ _ (fun c hc => by simp at hc) rfl
  | disable i => simp only [step, Option.some.injEq] at h; subst h; exact upd i { W.slv i with warm := none } _ (fun c hc => hW i c hc) rfl
  | enable i => simp only [step, Option.some.injEq] at h; subst h; exact hW
  | setWarm i p w =>
    simp only [step, Option.some.injEq] at h
    subst h
    refine upd i _ _ ?_ rfl
    intro c hc
    have : ∀ s : Obj, s = (if (w.isNone || (W.slv i).cache.isNone) = true then { W.slv i with cache := some (fresh p (W.probs p) (W.slv i).opts) } else W.slv i) →
        ∀ c, s.cache = some c → c.useWarm = false := by
      intro s hs c hc
      split_ifs at hs
      · subst hs
        simp only [Option.some.injEq] at hc
        subst hc
        rfl
      · subst hs
        exact hW i c hc
    cases w with
    | none => exact this _ rfl c hc
    | some w => exact this _ rfl c hc
  | optimize i p =>
    simp only [step, optimizeTNLP] at h
    split at h
    · cases h
    · refine done_clean h ?_ (fun c e he => optimize_clean he)
      split_ifs
      all_goals exact hW
  | reoptimize i p =>
    simp only [step, reoptimizeTNLP] at h
    split at h
    · cases h
    · split_ifs at h with h1
      split at h
      · cases h
      · split_ifs at h with h2
        exact done_clean h (by exact hW) (fun c e he => optimize_clean he)

theorem run_clean {dbg : Bool} {F : (ℕ → Prob) → Call → Ans} {W W' : World} {ops : List Op} (hW : Clean W) (h : run dbg F W ops = some W') : Clean W' := by
  induction ops generalizing W with
  | nil => simp only [run, Option.some.injEq] at h; exact h ▸ hW
  | cons op ops ih =>
    simp only [run] at h
    cases hs : step dbg F W op with
    | none => simp [hs] at h
    | some V =>
      simp only [hs, Option.bind_some] at h
      exact ih (step_clean hW hs) h

/-- A world reached from a start by operations. -/
def Reach (dbg : Bool) (F : (ℕ → Prob) → Call → Ans) (W : World) : Prop := ∃ W0 ops, Init W0 ∧ run dbg F W0 ops = some W

theorem reach_clean {dbg : Bool} {F : (ℕ → Prob) → Call → Ans} {W : World} (h : Reach dbg F W) : Clean W := by
  obtain ⟨W0, ops, ⟨h1, _⟩, h2⟩ := h
  refine run_clean (fun i c hc => ?_) h2
  rw [h1 i] at hc
  cases hc

theorem optimizeTNLP_clean {F : (ℕ → Prob) → Call → Ans} {W : World} (hW : Clean W) (i p : ℕ) :
    optimizeTNLP F W i p = match load (W.slv i).warm (fresh p (W.probs p) (W.slv i).opts) with
      | none => none
      | some c => done { W with glob := freshGlob p (W.probs p) (W.slv i).opts } i
          (optimize F { W with glob := freshGlob p (W.probs p) (W.slv i).opts } i p c) := by
  have : (match (W.slv i).cache with | some c => c.useWarm | none => false) = false := by
    cases hc : (W.slv i).cache with
    | none => rfl
    | some c => exact hW i c hc
  unfold optimizeTNLP
  simp only [this, Bool.false_eq_true, if_false]

/-- C83: a solve without warm start works on the present problem from its starting point, with the options of the object, whatever happened before; only the radius is not the option's. -/
theorem optimize_cold (dbg : Bool) (F : (ℕ → Prob) → Call → Ans) (W : World) (hW : Reach dbg F W) (i p : ℕ) (hw : (W.slv i).warm = none) :
    ∃ W' a lws, step dbg F W (.optimize i p) = some W' ∧ W'.probs = W.probs ∧
      W'.log = ⟨i, p, ⟨(W.probs p).n, (W.probs p).m, 0, 10, (W.slv i).opts.maxiter, (W.probs p).lo, (W.probs p).up, (W.probs p).start.map some,
        List.replicate ((W.probs p).n + (W.probs p).m) 0, lws, ⟨p, (W.probs p).nnzH, (W.probs p).pattern, (W.slv i).opts.com⟩⟩, a, p⟩ :: W.log := by
  simp only [step]
  rw [optimizeTNLP_clean (reach_clean hW)]
  simp only [hw, load, optimize, fresh, Bool.false_eq_true, if_false, and_self, if_true, done, freshGlob]
  have : ((W.probs p).start.map some).all Option.isSome = true := by simp
  simp only [this, if_true, Option.map_some]
  exact ⟨_, _, _, rfl, rfl, rfl⟩

/-- C83: a solve with a warm start is defined exactly if the warm start has the sizes of the problem, and then begins from it. -/
theorem optimize_warm (dbg : Bool) (F : (ℕ → Prob) → Call → Ans) (W : World) (hW : Reach dbg F W) (i p : ℕ) (w : Ws) (hw : (W.slv i).warm = some w) :
    (w.x.length = (W.probs p).n ∧ w.lam.length ≤ (W.probs p).n + (W.probs p).m ∧ w.lws.length ≤ (fresh p (W.probs p) (W.slv i).opts).lwsLen →
      ∃ W' a lws, step dbg F W (.optimize i p) = some W' ∧ W'.log = ⟨i, p, ⟨(W.probs p).n, (W.probs p).m, -1, 10, (W.slv i).opts.maxiter, (W.probs p).lo, (W.probs p).up, w.x.map some,
        w.lam ++ List.replicate ((W.probs p).n + (W.probs p).m - w.lam.length) 0, lws, ⟨p, (W.probs p).nnzH, (W.probs p).pattern, (W.slv i).opts.com⟩⟩, a, p⟩ :: W.log ∧
        ∀ k : ℕ, k < w.lws.length → lws[k]? = (w.lws[k]?).map some) ∧
    (¬ (w.x.length = (W.probs p).n ∧ w.lam.length ≤ (W.probs p).n + (W.probs p).m ∧ w.lws.length ≤ (fresh p (W.probs p) (W.slv i).opts).lwsLen) →
      step dbg F W (.optimize i p) = none) := by
  simp only [step]
  rw [optimizeTNLP_clean (reach_clean hW)]
  constructor
  · rintro ⟨h1, h2, h3⟩
    have hl : w.x.length ≤ (fresh p (W.probs p) (W.slv i).opts).n := by simp only [fresh]; omega
    have hm : w.lam.length ≤ (fresh p (W.probs p) (W.slv i).opts).n + (fresh p (W.probs p) (W.slv i).opts).m := by simp only [fresh]; omega
    simp only [hw, load, hl, hm, h3, and_self, if_true, optimize, done, overlay]
    have hx : (w.x.map some ++ (fresh p (W.probs p) (W.slv i).opts).x.drop (w.x.map some).length) = w.x.map some := by
      simp only [fresh, List.length_map, List.drop_replicate, h1, Nat.sub_self, List.replicate_zero, List.append_nil]
    have hlam : w.lam ++ (fresh p (W.probs p) (W.slv i).opts).lam.drop w.lam.length = w.lam ++ List.replicate ((W.probs p).n + (W.probs p).m - w.lam.length) 0 := by
      simp only [fresh, List.drop_replicate]
    rw [hx, hlam]
    have : (w.x.map some).all Option.isSome = true := by simp
    simp only [this, if_true, Option.map_some]
    refine ⟨_, _, _, rfl, rfl, ?_⟩
    intro k hk
    rw [List.getElem?_append_left (by simpa using hk), List.getElem?_map]
  · intro h
    by_cases h1 : w.x.length ≤ (fresh p (W.probs p) (W.slv i).opts).n ∧ w.lam.length ≤ (fresh p (W.probs p) (W.slv i).opts).n + (fresh p (W.probs p) (W.slv i).opts).m ∧
        w.lws.length ≤ (fresh p (W.probs p) (W.slv i).opts).lwsLen
    · obtain ⟨ha, hb, hc⟩ := h1
      have hlt : w.x.length < (W.probs p).n := by
        have ha' : w.x.length ≤ (W.probs p).n := ha
        rcases Nat.lt_or_eq_of_le ha' with h' | h'
        · exact h'
        · exact absurd ⟨h', hb, hc⟩ h
      simp only [hw, load, ha, hb, hc, and_self, if_true, optimize, done, overlay]
      have : (w.x.map some ++ (fresh p (W.probs p) (W.slv i).opts).x.drop (w.x.map some).length).all Option.isSome = false := by
        rw [Bool.eq_false_iff]
        intro hall
        rw [List.all_eq_true] at hall
        have := hall none (by
          simp only [fresh, List.length_map, List.drop_replicate, List.mem_append, List.mem_replicate]
          right
          exact ⟨by omega, trivial⟩)
        simp at this
      simp only [this, Bool.false_eq_true, if_false, Option.map_none]
    · simp only [hw, load, if_neg h1]

/-- C83: solving again.  The sizes, structure and iteration limit are those of the cache, the bounds and the problem evaluated those of the argument, the tolerances whatever the last
`initialize` of any object left. -/
theorem reoptimize_exact (dbg : Bool) (F : (ℕ → Prob) → Call → Ans) (W : World) (hW : Reach dbg F W) (i p : ℕ) (c : Cache) (hc : (W.slv i).cache = some c)
    (hw : (W.slv i).warm = none) (hp : c.prob = p) (hn : (W.probs p).n = c.n) (hm : (W.probs p).m = c.m) :
    ∃ W' a, step dbg F W (.reoptimize i p) = some W' ∧
      W'.log = ⟨i, p, ⟨c.n, c.m, 0, 10, c.maxiter, (W.probs p).lo, (W.probs p).up, (W.probs p).start.map some, c.lam, c.lws,
        ⟨p, c.nnzH, c.pattern, W.glob.com⟩⟩, a, p⟩ :: W.log := by
  have hu := reach_clean hW i c hc
  have : ((W.probs p).start.map some).all Option.isSome = true := by simp
  have hd : ¬ (dbg = true ∧ c.prob ≠ p) := fun h => h.2 hp
  subst hp
  simp only [step, reoptimizeTNLP, hc, hw, load, if_neg hd, hn, hm, and_self, if_true, optimize, hu, Bool.false_eq_true, if_false, done, this, Option.map_some]
  exact ⟨_, _, rfl, rfl⟩

/-- C83: solving again is undefined exactly without a cache, for another problem (with assertions on), for another size, or with a warm start that does not fit. -/
theorem reoptimize_defined_iff (F : (ℕ → Prob) → Call → Ans) (W : World) (i p : ℕ) (hw : (W.slv i).warm = none) (hW : Clean W) :
    (step true F W (.reoptimize i p)).isSome ↔ ∃ c, (W.slv i).cache = some c ∧ c.prob = p ∧ (W.probs p).n = c.n ∧ (W.probs p).m = c.m := by
  simp only [step, reoptimizeTNLP]
  cases hc : (W.slv i).cache with
  | none => simp
  | some c =>
    have hu := hW i c hc
    simp only [hw, load, Option.some.injEq, exists_eq_left', true_and]
    by_cases hp : c.prob = p
    · by_cases hd : (W.probs p).n = c.n ∧ (W.probs p).m = c.m
      · have : ((W.probs p).start.map some).all Option.isSome = true := by simp
        simp only [hp, ne_eq, not_true, if_false, hd, and_self, if_true, optimize, hu, Bool.false_eq_true, done, this, Option.map_some, Option.isSome_some]
      · simp only [hp, ne_eq, not_true, if_false, hd, Option.isSome_none, Bool.false_eq_true, true_and]
    · simp [hp]

theorem optimize_entry {F : (ℕ → Prob) → Call → Ans} {W : World} {w a : ℕ} {c c' : Cache} {e : Entry} (h : optimize F W w a c = some (c', e)) :
    e.asked = a ∧ e.who = w ∧ e.call.rho = 10 ∧ e.call.glob = W.glob ∧ e.delivered = c.prob ∧ c'.prob = c.prob ∧ e.ans = F W.probs e.call := by
  unfold optimize at h
  dsimp only at h
  cases hu : c.useWarm <;> simp only [hu, Bool.false_eq_true, if_false, if_true] at h
  · split_ifs at h with h1
    · simp at h
      obtain ⟨rfl, rfl⟩ := h
      exact ⟨rfl, rfl, rfl, rfl, rfl, rfl, rfl⟩
  · simp at h
    obtain ⟨_, rfl, rfl⟩ := h
    exact ⟨rfl, rfl, rfl, rfl, rfl, rfl, rfl⟩

/-- What holds of every solve with assertions on. -/
def Good (e : Entry) : Prop := e.call.glob.tnlp = e.asked ∧ e.delivered = e.asked ∧ e.call.rho = 10

theorem done_log {W W' : World} {i : ℕ} {r : Option (Cache × Entry)} (h : done W i r = some W') : ∃ c e, r = some (c, e) ∧ W'.log = e :: W.log := by
  unfold done at h
  cases r with
  | none => simp at h
  | some r => simp only [Option.map_some, Option.some.injEq] at h; subst h; exact ⟨r.1, r.2, rfl, rfl⟩

theorem load_prob {w : Option Ws} {c c' : Cache} (h : load w c = some c') : c'.prob = c.prob := by
  unfold load at h
  cases w with
  | none => simp only [Option.some.injEq] at h; subst h; rfl
  | some w => dsimp only at h; split_ifs at h; simp only [Option.some.injEq] at h; subst h; rfl

theorem step_good {F : (ℕ → Prob) → Call → Ans} {W W' : World} {op : Op} (hc : Clean W) (hl : ∀ e ∈ W.log, Good e) (h : step true F W op = some W') : ∀ e ∈ W'.log, Good e := by
  cases op with
  | optimize i p =>
    simp only [step] at h
    rw [optimizeTNLP_clean hc] at h
    split at h
    · cases h
    · rename_i c hlo
      obtain ⟨c', e, he, hlog⟩ := done_log h
      obtain ⟨h1, h2, h3, h4, h5, -, -⟩ := optimize_entry he
      have := load_prob hlo
      rw [hlog]
      intro e' he'
      rcases List.mem_cons.mp he' with rfl | he'
      · exact ⟨by rw [h4, h1]; rfl, by rw [h5, this, h1]; rfl, h3⟩
      · exact hl e' he'
  | reoptimize i p =>
    simp only [step, reoptimizeTNLP] at h
    split at h
    · cases h
    · rename_i c0 hc0
      split_ifs at h with h1
      split at h
      · cases h
      · rename_i c hlo
        split_ifs at h with h2
        obtain ⟨c', e, he, hlog⟩ := done_log h
        obtain ⟨ha, hb, hr, hg, hd, -, -⟩ := optimize_entry he
        have hp := load_prob hlo
        have h1' : c0.prob = p := by by_contra hh; exact h1 ⟨trivial, hh⟩
        rw [hlog]
        intro e' he'
        rcases List.mem_cons.mp he' with rfl | he'
        · exact ⟨by rw [hg, ha], by rw [hd, ha]; exact hp.trans h1', hr⟩
        · exact hl e' he'
  | change p P => simp only [step, Option.some.injEq] at h; subst h; exact hl
  | options i o => simp only [step, Option.some.injEq] at h; subst h; exact hl
  | create i o => simp only [step, Option.some.injEq] at h; subst h; exact hl
  | clone i j => simp only [step, Option.some.injEq] at h; subst h; exact hl
  | disable i => simp only [step, Option.some.injEq] at h; subst h; exact hl
  | enable i => simp only [step, Option.some.injEq] at h; subst h; exact hl
  | setWarm i p w => simp only [step, Option.some.injEq] at h; subst h; exact hl

/-- C83: in every history of any number of objects and problems, each solve evaluates the problem it was asked for and delivers the solution to it. -/
theorem solves_right_problem (F : (ℕ → Prob) → Call → Ans) (W : World) (hW : Reach true F W) : ∀ e ∈ W.log, e.call.glob.tnlp = e.asked ∧ e.delivered = e.asked := by
  obtain ⟨W0, ops, ⟨h1, h2⟩, h3⟩ := hW
  have hc : Clean W0 := fun i c hc => by rw [h1 i] at hc; cases hc
  have hl : ∀ e ∈ W0.log, Good e := by rw [h2]; intro e he; cases he
  suffices ∀ e ∈ W.log, Good e from fun e he => ⟨(this e he).1, (this e he).2.1⟩
  clear h1 h2
  induction ops generalizing W0 with
  | nil => simp only [run, Option.some.injEq] at h3; exact h3 ▸ hl
  | cons op ops ih =>
    simp only [run] at h3
    cases hs : step true F W0 op with
    | none => simp [hs] at h3
    | some V =>
      simp only [hs, Option.bind_some] at h3
      exact ih V h3 (step_clean hc hs) (step_good hc hl hs)

/-- C83, the initial trust region: the option `rho_init` never reaches filterSQP; every solve of every history begins with radius 10. -/
theorem rho_init_ignored (F : (ℕ → Prob) → Call → Ans) (W : World) (hW : Reach true F W) : ∀ e ∈ W.log, e.call.rho = 10 := by
  obtain ⟨W0, ops, ⟨h1, h2⟩, h3⟩ := hW
  have hc : Clean W0 := fun i c hc => by rw [h1 i] at hc; cases hc
  have hl : ∀ e ∈ W0.log, Good e := by rw [h2]; intro e he; cases he
  suffices ∀ e ∈ W.log, Good e from fun e he => (this e he).2.2
  clear h1 h2
  induction ops generalizing W0 with
  | nil => simp only [run, Option.some.injEq] at h3; exact h3 ▸ hl
  | cons op ops ih =>
    simp only [run] at h3
    cases hs : step true F W0 op with
    | none => simp [hs] at h3
    | some V =>
      simp only [hs, Option.bind_some] at h3
      exact ih V h3 (step_clean hc hs) (step_good hc hl hs)

/-- A problem with one variable and no constraint. -/
def exProb (s : ℚ) : Prob := ⟨1, 0, 0, 7, [0], [5], [s]⟩
def exOpts (e : ℚ) : Opts := ⟨⟨100, 5 / 4, e, 10 ^ 20⟩, 1, 1000, -1, 0, 0⟩
def exF : (ℕ → Prob) → Call → Ans := fun _ c => ⟨0, 0, 0, [3], [0], List.replicate c.lws.length 9⟩
def exWorld : World := ⟨fun _ => exProb 2, fun i => ⟨exOpts (i + 1), none, none⟩, ⟨0, 0, 0, ⟨0, 0, 0, 0⟩⟩, []⟩

/-- C83, refuted for the tolerances: an object whose option `eps` is 1 solves again after another object (with `eps` 2) has been used, and gets the tolerance of that one. -/
theorem reoptimize_foreign_tolerance :
    ((run true exF exWorld [.optimize 0 0, .optimize 1 1, .reoptimize 0 0]).map fun W => W.log.map fun e => (e.who, e.call.glob.com.eps)) = some [(0, 2), (1, 2), (0, 1)] := by
  decide +kernel

/-- C83: the tolerances of a repeated solve are the object's own if no other `initialize` came in between. -/
theorem reoptimize_tolerance_partial (dbg : Bool) (F : (ℕ → Prob) → Call → Ans) (W W1 W2 : World) (hW : Reach dbg F W) (i p : ℕ)
    (h1 : step dbg F W (.optimize i p) = some W1) (h2 : step dbg F W1 (.reoptimize i p) = some W2) :
    ∃ e l, W2.log = e :: l ∧ e.call.glob = ⟨p, (W.probs p).nnzH, (W.probs p).pattern, (W.slv i).opts.com⟩ := by
  simp only [step] at h1
  rw [optimizeTNLP_clean (reach_clean hW)] at h1
  split at h1
  · cases h1
  · rename_i c hlo
    unfold done at h1
    cases ho : optimize F { W with glob := freshGlob p (W.probs p) (W.slv i).opts } i p c with
    | none => simp [ho] at h1
    | some r =>
      obtain ⟨c1, e1⟩ := r
      simp only [ho, Option.map_some, Option.some.injEq] at h1
      subst h1
      have hstruct : c1.nnzH = c.nnzH ∧ c1.pattern = c.pattern := by
        unfold optimize at ho
        dsimp only at ho
        cases hu : c.useWarm <;> simp only [hu, Bool.false_eq_true, if_false, if_true] at ho
        · split_ifs at ho with h1
          · simp at ho
            obtain ⟨rfl, _⟩ := ho
            exact ⟨rfl, rfl⟩
        · simp at ho
          obtain ⟨_, rfl, _⟩ := ho
          exact ⟨rfl, rfl⟩
      have lstruct : ∀ (w : Option Ws) (c c' : Cache), load w c = some c' → c'.nnzH = c.nnzH ∧ c'.pattern = c.pattern := by
        intro w c c' h
        unfold load at h
        cases w with
        | none => simp only [Option.some.injEq] at h; subst h; exact ⟨rfl, rfl⟩
        | some w => dsimp only at h; split_ifs at h; simp only [Option.some.injEq] at h; subst h; exact ⟨rfl, rfl⟩
      simp only [step, reoptimizeTNLP, Function.update_self] at h2
      split_ifs at h2 with h3
      split at h2
      · cases h2
      · rename_i c2 hl2
        split_ifs at h2 with h4
        obtain ⟨c', e, he, hlog⟩ := done_log h2
        obtain ⟨-, -, -, hg, -⟩ := optimize_entry he
        refine ⟨e, _, hlog, ?_⟩
        obtain ⟨a1, a2⟩ := lstruct _ _ _ hl2
        obtain ⟨b1, b2⟩ := lstruct _ _ _ hlo
        rw [hg]
        simp only [Glob.mk.injEq, true_and]
        refine ⟨?_, ?_, rfl⟩
        · rw [a1, hstruct.1, b1]; rfl
        · rw [a2, hstruct.2, b2]; rfl

/-- C83, warm starts: after `setWarmStart(NULL)` the solver still begins from the warm start set before. -/
theorem null_keeps_warm (dbg : Bool) (F : (ℕ → Prob) → Call → Ans) (W : World) (i p : ℕ) :
    ∃ W', step dbg F W (.setWarm i p none) = some W' ∧ (W'.slv i).warm = (W.slv i).warm := by
  refine ⟨_, rfl, ?_⟩
  simp [setWarmStart]

/-- An instance of it: the solve after clearing the warm start begins at the point 4 of the old one (with `ifail` −1), not at the problem's own point 2. -/
theorem null_warm_used :
    ((run true exF exWorld [.setWarm 0 0 (some ⟨[4], [0], [], [], false⟩), .setWarm 0 0 none, .optimize 0 0]).map fun W => W.log.map fun e => (e.call.ifail, e.call.x)) =
      some [(-1, [some 4])] := by decide +kernel

/-- C83: a set warm start is used by the following solves until it is replaced or disabled. -/
theorem setWarm_exact (dbg : Bool) (F : (ℕ → Prob) → Call → Ans) (W : World) (i p : ℕ) (w : Ws) :
    ∃ W', step dbg F W (.setWarm i p (some w)) = some W' ∧ (W'.slv i).warm = (if w.empty then none else some w) ∧ (W'.slv i).opts = (W.slv i).opts ∧
      (W'.slv i).cache = some ((W.slv i).cache.getD (fresh p (W.probs p) (W.slv i).opts)) ∧ W'.log = W.log ∧ W'.probs = W.probs ∧ ∀ j, j ≠ i → W'.slv j = W.slv j := by
  refine ⟨_, rfl, ?_, ?_, ?_, rfl, rfl, ?_⟩
  · simp [setWarmStart]
  · simp only [setWarmStart, Function.update_self]
    split_ifs <;> rfl
  · simp only [setWarmStart, Function.update_self]
    cases hc : (W.slv i).cache with
    | none => simp
    | some c => simp [hc]
  · intro j hj
    simp only [setWarmStart, Function.update_of_ne hj]

theorem run_append {dbg : Bool} {F : (ℕ → Prob) → Call → Ans} {W : World} (a b : List Op) : run dbg F W (a ++ b) = (run dbg F W a).bind fun W => run dbg F W b := by
  induction a generalizing W with
  | nil => rfl
  | cons op a ih =>
    simp only [List.cons_append, run]
    cases step dbg F W op with
    | none => rfl
    | some V => simp only [Option.bind_some, ih]

theorem reach_step {dbg : Bool} {F : (ℕ → Prob) → Call → Ans} {W W' : World} {op : Op} (h : Reach dbg F W) (hs : step dbg F W op = some W') : Reach dbg F W' := by
  obtain ⟨W0, ops, h1, h2⟩ := h
  refine ⟨W0, ops ++ [op], h1, ?_⟩
  rw [run_append, h2]
  simp only [Option.bind_some, run, hs]

/-- C83: solving again with a warm start of the right size begins from it. -/
theorem reoptimize_warm (dbg : Bool) (F : (ℕ → Prob) → Call → Ans) (W : World) (i p : ℕ) (c : Cache) (w : Ws) (hc : (W.slv i).cache = some c)
    (hw : (W.slv i).warm = some w) (hp : c.prob = p) (hn : (W.probs p).n = c.n) (hm : (W.probs p).m = c.m) (hx : w.x.length = c.n) (hxc : c.x.length = c.n)
    (hl : w.lam.length ≤ c.n + c.m) (hlw : w.lws.length ≤ c.lwsLen) :
    ∃ W' a lws, step dbg F W (.reoptimize i p) = some W' ∧
      W'.log = ⟨i, p, ⟨c.n, c.m, -1, 10, c.maxiter, (W.probs p).lo, (W.probs p).up, w.x.map some, w.lam ++ c.lam.drop w.lam.length, lws,
        ⟨p, c.nnzH, c.pattern, W.glob.com⟩⟩, a, p⟩ :: W.log := by
  have hd : ¬ (dbg = true ∧ c.prob ≠ p) := fun h => h.2 hp
  have hov : w.x.map some ++ c.x.drop (w.x.map some).length = w.x.map some := by
    rw [List.length_map, hx, ← hxc, List.drop_length, List.append_nil]
  have hall : (w.x.map some).all Option.isSome = true := by simp
  subst hp
  simp only [step, reoptimizeTNLP, hc, hw, load, if_neg hd, hx, le_refl, hl, hlw, and_self, if_true, hn, hm, optimize, overlay, hov, hall, done, Option.map_some]
  exact ⟨_, _, _, rfl, rfl⟩

/-- C84, refuted: `OsiTMINLPInterface::resolve` gives the warm start to the solver and then, as the problem has no initial multipliers (nothing sets them for filterSQP), disables it, which
makes the solver forget it: the solve is a cold one from the problem's starting point. -/
theorem resolve_drops_warm (dbg : Bool) (F : (ℕ → Prob) → Call → Ans) (W : World) (hW : Reach dbg F W) (i p : ℕ) (w : Ws) (c : Cache)
    (hc : (W.slv i).cache = some c) (hp : c.prob = p) (hn : (W.probs p).n = c.n) (hm : (W.probs p).m = c.m) :
    ∃ W' e, resolve dbg F W i p w false = some W' ∧ W'.log = e :: W.log ∧ e.call.ifail = 0 ∧ e.call.x = (W.probs p).start.map some := by
  obtain ⟨W1, h1, -, -, hc1, hlog, hpr, -⟩ := setWarm_exact dbg F W i p w
  have h2 : step dbg F W1 (.disable i) = some { W1 with slv := Function.update W1.slv i { W1.slv i with warm := none } } := rfl
  have hR := reach_step (reach_step hW h1) h2
  rw [hc, Option.getD_some] at hc1
  obtain ⟨W', a, h3, h4⟩ := reoptimize_exact dbg F _ hR i p c (by simp [hc1]) (by simp) hp (by simpa [hpr] using hn) (by simpa [hpr] using hm)
  refine ⟨W', _, ?_, h4.trans (by rw [hlog]), rfl, ?_⟩
  · simp only [resolve, run, h1, h2, Option.bind_some, Bool.false_eq_true, if_false, h3]
  · simp only [hpr]

/-- C84: with initial multipliers present the warm start is used. -/
theorem resolve_warm_partial (dbg : Bool) (F : (ℕ → Prob) → Call → Ans) (W : World) (i p : ℕ) (w : Ws) (c : Cache)
    (hc : (W.slv i).cache = some c) (hp : c.prob = p) (hn : (W.probs p).n = c.n) (hm : (W.probs p).m = c.m) (he : w.empty = false) (hx : w.x.length = c.n) (hxc : c.x.length = c.n)
    (hl : w.lam.length ≤ c.n + c.m) (hlw : w.lws.length ≤ c.lwsLen) :
    ∃ W' e, resolve dbg F W i p w true = some W' ∧ W'.log = e :: W.log ∧ e.call.ifail = -1 ∧ e.call.x = w.x.map some := by
  obtain ⟨W1, h1, hw1, -, hc1, hlog, hpr, -⟩ := setWarm_exact dbg F W i p w
  have h2 : step dbg F W1 (.enable i) = some W1 := rfl
  rw [hc, Option.getD_some] at hc1
  rw [he] at hw1
  obtain ⟨W', a, l, h3, h4⟩ := reoptimize_warm dbg F W1 i p c w hc1 hw1 hp (by rw [hpr]; exact hn) (by rw [hpr]; exact hm) hx hxc hl hlw
  refine ⟨W', _, ?_, h4.trans (by rw [hlog]), rfl, rfl⟩
  simp only [resolve, run, h1, h2, Option.bind_some, if_true, h3]

/-- An instance: the warm start at 4 is given, the solve begins at the problem's point 2. -/
theorem resolve_ignores_warm :
    (((run true exF exWorld [.optimize 0 0]).bind fun W => resolve true exF W 0 0 ⟨[4], [0], [], [], false⟩ false).map fun W => W.log.map fun e => (e.call.ifail, e.call.x)) =
      some [(0, [some 2]), (0, [some 2])] ∧
    (((run true exF exWorld [.optimize 0 0]).bind fun W => resolve true exF W 0 0 ⟨[4], [0], [], [], false⟩ true).map fun W => W.log.map fun e => (e.call.ifail, e.call.x)) =
      some [(-1, [some 4]), (0, [some 2])] := by decide +kernel

/-- A copy has no cache: solving again with it before a first solve dereferences a null pointer, unless a warm start has been set. -/
theorem clone_reoptimize (dbg : Bool) (F : (ℕ → Prob) → Call → Ans) (W : World) (i j p : ℕ) :
    run dbg F W [.clone i j, .reoptimize j p] = none := by
  simp only [run, step, Option.bind_some, reoptimizeTNLP, Function.update_self, Option.bind_none]

/-! ## Status and multipliers -/

/-- `TNLPSolver::ReturnStatus` values the function can return, and Ipopt's `SolverReturn` passed to `finalize_solution`. -/
inductive Ret | solvedOptimal | unbounded | provenInfeasible | iterationLimit | externalException | exception
deriving DecidableEq, Repr
inductive IpRet | success | diverging | localInfeasibility | maxiter | internalError
deriving DecidableEq, Repr

/-- The switch of `callOptimizer` (cpp:578-610); the first case 1 has no `break` and falls into the following ones. -/
def retOf (ifail : ℤ) : Ret × IpRet :=
  if ifail = 0 then (.solvedOptimal, .success)
  else if ifail = 1 ∨ ifail = 2 ∨ ifail = 3 ∨ ifail = 4 then (.provenInfeasible, .localInfeasibility)
  else if ifail = 5 ∨ ifail = 6 ∨ ifail = 8 then (.iterationLimit, .maxiter)
  else if ifail = 7 then (.externalException, .internalError)
  else (.exception, .internalError)

/-- The objective value reported: after `ifail` 3 it is replaced by `rstat[4]` (cpp:710-712). -/
def objOf (a : Ans) : ℚ := if a.ifail = 3 then a.rstat4 else a.f

/-- What `callOptimizer` hands to `finalize_solution` (cpp:612-639): multipliers with the sign of Ipopt. -/
structure Final where
  status : IpRet
  x : List ℚ
  zL : List ℚ
  zU : List ℚ
  lam : List ℚ
  f : ℚ
deriving DecidableEq, Repr

/-- cpp:612-639; the arrays have the sizes of the cache. -/
def finalOf (n m : ℕ) (lo up : ℕ → ℚ) (a : Ans) : Final :=
  { status := (retOf a.ifail).2, x := a.x
    zL := (List.range n).map fun i => if a.x.getD i 0 = lo i then max 0 (a.lam.getD i 0) else 0
    zU := (List.range n).map fun i => if a.x.getD i 0 = up i then max 0 (-a.lam.getD i 0) else 0
    lam := (List.range m).map fun j => -a.lam.getD (n + j) 0
    f := objOf a }

/-- C82: which codes of filterSQP give which status. -/
theorem status_exact (i : ℤ) :
    ((retOf i).1 = .solvedOptimal ↔ i = 0) ∧ ((retOf i).1 = .provenInfeasible ↔ 1 ≤ i ∧ i ≤ 4) ∧ ((retOf i).1 = .iterationLimit ↔ i = 5 ∨ i = 6 ∨ i = 8) ∧
    ((retOf i).1 = .externalException ↔ i = 7) ∧ ((retOf i).1 = .exception ↔ i < 0 ∨ 9 ≤ i) := by
  unfold retOf
  split_ifs with h1 h2 h3 h4 <;> simp only [false_iff, true_iff] <;> omega

/-- C82: the status given to the problem and the one returned say the same. -/
theorem status_agree (i : ℤ) :
    ((retOf i).2 = .success ↔ (retOf i).1 = .solvedOptimal) ∧ ((retOf i).2 = .localInfeasibility ↔ (retOf i).1 = .provenInfeasible) ∧
    ((retOf i).2 = .maxiter ↔ (retOf i).1 = .iterationLimit) ∧ ((retOf i).2 = .internalError ↔ (retOf i).1 = .externalException ∨ (retOf i).1 = .exception) := by
  unfold retOf
  split_ifs <;> simp

/-- C82, refuted for unbounded problems: code 1 (unbounded, as the code itself says at cpp:587) is returned as proven infeasible. -/
theorem unbounded_is_infeasible : retOf 1 = (.provenInfeasible, .localInfeasibility) := by decide

/-- C82: `unbounded` is never returned. -/
theorem unbounded_never (i : ℤ) : (retOf i).1 ≠ .unbounded ∧ (retOf i).2 ≠ .diverging := by
  unfold retOf
  split_ifs <;> simp

/-- The full claim of C82 for a code `i`: infeasible and unbounded are reported as such. -/
def Truthful (i : ℤ) : Prop := ((retOf i).1 = .provenInfeasible ↔ 2 ≤ i ∧ i ≤ 4) ∧ ((retOf i).1 = .unbounded ↔ i = 1)

/-- C82: the report is truthful for every code but 1. -/
theorem truthful_iff_partial (i : ℤ) : Truthful i ↔ i ≠ 1 := by
  unfold Truthful
  rw [(status_exact i).2.1]
  have := (unbounded_never i).1
  constructor
  · rintro ⟨h1, h2⟩ rfl
    exact this (h2.mpr rfl)
  · intro h
    refine ⟨by omega, ⟨fun h' => absurd h' this, fun h' => absurd h' h⟩⟩

/-- C82: the value reported. -/
theorem objective_exact (n m : ℕ) (lo up : ℕ → ℚ) (a : Ans) :
    (a.ifail = 3 → (finalOf n m lo up a).f = a.rstat4) ∧ (a.ifail ≠ 3 → (finalOf n m lo up a).f = a.f) ∧ (finalOf n m lo up a).x = a.x ∧
    (finalOf n m lo up a).status = (retOf a.ifail).2 := by
  refine ⟨fun h => ?_, fun h => ?_, rfl, rfl⟩
  · exact if_pos h
  · exact if_neg h

/-- C85: the multipliers delivered, entry by entry. -/
theorem multipliers_exact (n m : ℕ) (lo up : ℕ → ℚ) (a : Ans) :
    (finalOf n m lo up a).zL.length = n ∧ (finalOf n m lo up a).zU.length = n ∧ (finalOf n m lo up a).lam.length = m ∧
    (∀ i, i < n → (finalOf n m lo up a).zL[i]? = some (if a.x.getD i 0 = lo i then max 0 (a.lam.getD i 0) else 0)) ∧
    (∀ i, i < n → (finalOf n m lo up a).zU[i]? = some (if a.x.getD i 0 = up i then max 0 (-a.lam.getD i 0) else 0)) ∧
    (∀ j, j < m → (finalOf n m lo up a).lam[j]? = some (-a.lam.getD (n + j) 0)) := by
  simp only [finalOf, List.length_map, List.length_range, true_and]
  refine ⟨fun i hi => ?_, fun i hi => ?_, fun i hi => ?_⟩ <;> rw [List.getElem?_map, List.getElem?_range hi] <;> rfl

/-- C85: bound multipliers are nonnegative and vanish away from the bound. -/
theorem multipliers_complementary (n m : ℕ) (lo up : ℕ → ℚ) (a : Ans) (i : ℕ) (hi : i < n) :
    0 ≤ (finalOf n m lo up a).zL.getD i 0 ∧ 0 ≤ (finalOf n m lo up a).zU.getD i 0 ∧
    (finalOf n m lo up a).zL.getD i 0 * (a.x.getD i 0 - lo i) = 0 ∧ (finalOf n m lo up a).zU.getD i 0 * (up i - a.x.getD i 0) = 0 := by
  obtain ⟨-, -, -, h1, h2, -⟩ := multipliers_exact n m lo up a
  have e1 : (finalOf n m lo up a).zL.getD i 0 = if a.x.getD i 0 = lo i then max 0 (a.lam.getD i 0) else 0 := by
    rw [List.getD_eq_getElem?_getD, h1 i hi]; rfl
  have e2 : (finalOf n m lo up a).zU.getD i 0 = if a.x.getD i 0 = up i then max 0 (-a.lam.getD i 0) else 0 := by
    rw [List.getD_eq_getElem?_getD, h2 i hi]; rfl
  rw [e1, e2]
  refine ⟨?_, ?_, ?_, ?_⟩
  · split_ifs <;> simp
  · split_ifs <;> simp
  · split_ifs with h
    · rw [h]; ring
    · ring
  · split_ifs with h
    · rw [h]; ring
    · ring

/-- Stationarity in filterSQP's convention: the gradient is a combination of the active bounds and the constraint gradients. -/
def StationaryF (n m : ℕ) (g : ℕ → ℚ) (J : ℕ → ℕ → ℚ) (lam : ℕ → ℚ) : Prop :=
  ∀ i, i < n → g i = lam i + ((List.range m).map fun j => lam (n + j) * J j i).sum

/-- Stationarity in Ipopt's convention (what users of the interface rely on). -/
def StationaryI (n m : ℕ) (g : ℕ → ℚ) (J : ℕ → ℕ → ℚ) (zL zU lam : ℕ → ℚ) : Prop :=
  ∀ i, i < n → g i + ((List.range m).map fun j => lam j * J j i).sum - zL i + zU i = 0

/-- C85: if filterSQP's multipliers are stationary and its bound multipliers belong to bounds met exactly, the delivered ones are stationary in Ipopt's convention. -/
theorem multipliers_stationary_partial (n m : ℕ) (lo up g : ℕ → ℚ) (J : ℕ → ℕ → ℚ) (a : Ans) (hs : StationaryF n m g J (fun k => a.lam.getD k 0))
    (hl : ∀ i, i < n → 0 < a.lam.getD i 0 → a.x.getD i 0 = lo i) (hu : ∀ i, i < n → a.lam.getD i 0 < 0 → a.x.getD i 0 = up i) :
    StationaryI n m g J (fun i => (finalOf n m lo up a).zL.getD i 0) (fun i => (finalOf n m lo up a).zU.getD i 0) (fun j => (finalOf n m lo up a).lam.getD j 0) := by
  intro i hi
  obtain ⟨-, -, -, h1, h2, h3⟩ := multipliers_exact n m lo up a
  have e1 : (finalOf n m lo up a).zL.getD i 0 = if a.x.getD i 0 = lo i then max 0 (a.lam.getD i 0) else 0 := by
    rw [List.getD_eq_getElem?_getD, h1 i hi]; rfl
  have e2 : (finalOf n m lo up a).zU.getD i 0 = if a.x.getD i 0 = up i then max 0 (-a.lam.getD i 0) else 0 := by
    rw [List.getD_eq_getElem?_getD, h2 i hi]; rfl
  have e3 : ((List.range m).map fun j => (finalOf n m lo up a).lam.getD j 0 * J j i).sum = -((List.range m).map fun j => a.lam.getD (n + j) 0 * J j i).sum := by
    have : ∀ l : List ℕ, (∀ j ∈ l, j < m) →
        (l.map fun j => (finalOf n m lo up a).lam.getD j 0 * J j i).sum = -(l.map fun j => a.lam.getD (n + j) 0 * J j i).sum := by
      intro l
      induction l with
      | nil => intro _; simp
      | cons j l ih =>
        intro hl
        rw [List.map_cons, List.sum_cons, List.map_cons, List.sum_cons, ih fun k hk => hl k (List.mem_cons_of_mem _ hk)]
        have : (finalOf n m lo up a).lam.getD j 0 = -a.lam.getD (n + j) 0 := by
          rw [List.getD_eq_getElem?_getD, h3 j (hl j List.mem_cons_self)]; rfl
        rw [this]
        ring
    exact this _ fun j hj => List.mem_range.mp hj
  have hsi := hs i hi
  dsimp only at hsi ⊢
  rw [e1, e2, e3, hsi]
  have : (if a.x.getD i 0 = lo i then max 0 (a.lam.getD i 0) else 0) - (if a.x.getD i 0 = up i then max 0 (-a.lam.getD i 0) else 0) = a.lam.getD i 0 := by
    rcases lt_trichotomy (a.lam.getD i 0) 0 with h | h | h
    · rw [if_pos (hu i hi h), max_eq_left h.le, max_eq_right (by linarith)]
      split_ifs <;> ring
    · rw [h]; simp
    · rw [if_pos (hl i hi h), max_eq_right h.le, max_eq_left (by linarith)]
      split_ifs <;> ring
  linarith

/-- An answer with one variable at its lower bound 0 up to a rounding error and multiplier 1. -/
def exAns : Ans := ⟨0, 0, 0, [1 / 10 ^ 9], [1], []⟩

/-- C85, refuted without exact equality: the variable is one billionth away from its bound, the multiplier is dropped and stationarity is lost. -/
theorem multiplier_lost :
    StationaryF 1 0 (fun _ => 1) (fun _ _ => 0) (fun k => exAns.lam.getD k 0) ∧ (finalOf 1 0 (fun _ => 0) (fun _ => 1) exAns).zL = [0] ∧
    ¬ StationaryI 1 0 (fun _ => 1) (fun _ _ => 0) (fun i => (finalOf 1 0 (fun _ => 0) (fun _ => 1) exAns).zL.getD i 0)
      (fun i => (finalOf 1 0 (fun _ => 0) (fun _ => 1) exAns).zU.getD i 0) (fun j => (finalOf 1 0 (fun _ => 0) (fun _ => 1) exAns).lam.getD j 0) := by
  have z : (finalOf 1 0 (fun _ => 0) (fun _ => 1) exAns).zL = [0] := by decide +kernel
  have u : (finalOf 1 0 (fun _ => 0) (fun _ => 1) exAns).zU = [0] := by decide +kernel
  refine ⟨?_, z, ?_⟩
  · intro i hi
    have : i = 0 := by omega
    subst this
    decide +kernel
  · intro h
    have := h 0 (by norm_num)
    rw [z, u] at this
    simp at this

/-- The hypotheses of `multipliers_stationary_partial` are met: a variable at its lower bound 0, one constraint with multiplier 2. -/
example : StationaryF 1 1 (fun _ => 7) (fun _ _ => 3) (fun k => (⟨0, 0, 0, [0], [1, 2], []⟩ : Ans).lam.getD k 0) ∧
    (finalOf 1 1 (fun _ => 0) (fun _ => 1) ⟨0, 0, 0, [0], [1, 2], []⟩) = ⟨.success, [0], [1], [0], [-2], 0⟩ := by
  refine ⟨?_, by decide +kernel⟩
  intro i hi
  have : i = 0 := by omega
  subst this
  decide +kernel
example : (finalOf 1 0 (fun _ => 0) (fun _ => 1) ⟨3, 5, 6, [0], [1], []⟩).f = 6 := by decide +kernel

/-- The hypotheses of the theorems on histories are met: two objects, two problems, warm starts. -/
example : Reach true exF exWorld := ⟨exWorld, [], ⟨fun _ => rfl, rfl⟩, rfl⟩
example : ((run true exF exWorld [.change 1 (exProb 1), .setWarm 1 1 (some ⟨[4], [0], [], [], false⟩), .optimize 1 1, .disable 1, .reoptimize 1 1, .clone 1 2, .optimize 2 1]).map
    fun W => W.log.map fun e => (e.who, e.call.ifail, e.call.x)) =
    some [(2, 0, [some 1]), (1, 0, [some 1]), (1, -1, [some 4])] := by decide +kernel
example : (run true exF exWorld [.setWarm 0 0 (some ⟨[4, 4], [0], [], [], false⟩), .optimize 0 0]).isNone = true := by decide +kernel
example : (run true exF exWorld [.setWarm 0 0 (some ⟨[], [0], [], [], false⟩), .optimize 0 0]).isNone = true := by decide +kernel

/-- A repeated solve of a problem whose size changed in between (a cut was added) is undefined. -/
theorem resized_reoptimize :
    (run true exF exWorld [.optimize 0 0, .change 0 ⟨1, 1, 0, 7, [0, 0], [5, 1], [2]⟩, .reoptimize 0 0]).isNone = true := by decide +kernel

/-- C82: the cache made for a problem: as many variables and multipliers as the problem has (and constraints), all multipliers 0, and an integer workspace of `15n + 5m + nnz(H) + 121` plus the
options' `mlp`, `mxlws` and the maximal null-space dimension; the option -1 stands for `n`, and a larger one than `n` is cut. -/
theorem fresh_sizes (p : ℕ) (P : Prob) (o : Opts) (kmax : ℕ) (hk : (o.kmax = -1 ∧ kmax = P.n) ∨ (0 ≤ o.kmax ∧ (kmax : ℤ) ≤ o.kmax ∧ kmax ≤ P.n ∧ ((kmax : ℤ) = o.kmax ∨ kmax = P.n))) :
    (fresh p P o).lwsLen = 15 * P.n + 5 * P.m + P.nnzH + o.mlp + kmax + 121 + o.mxlws ∧ (fresh p P o).lws.length = (fresh p P o).lwsLen ∧ (∀ v ∈ (fresh p P o).lws, v = none) ∧
      (fresh p P o).x.length = P.n ∧ (∀ v ∈ (fresh p P o).x, v = none) ∧ (fresh p P o).lam.length = P.n + P.m ∧ (∀ v ∈ (fresh p P o).lam, v = 0) ∧
      (fresh p P o).n = P.n ∧ (fresh p P o).m = P.m ∧ (fresh p P o).nnzH = P.nnzH ∧ (fresh p P o).pattern = P.pattern ∧ (fresh p P o).prob = p ∧ (fresh p P o).useWarm = false ∧
      (fresh p P o).maxiter = o.maxiter ∧ (fresh p P o).rho = o.rhoInit ∧ (fresh p P o).lo = P.lo ∧ (fresh p P o).up = P.up := by
  have hk' : (if o.kmax = -1 then P.n else min o.kmax.toNat P.n) = kmax := by
    rcases hk with ⟨h1, h2⟩ | ⟨h0, h1, h2, h3⟩
    · rw [if_pos h1, h2]
    · rw [if_neg (by omega)]; omega
  refine ⟨?_, ?_, ?_, ?_, ?_, ?_, ?_, rfl, rfl, rfl, rfl, rfl, rfl, rfl, rfl, rfl, rfl⟩
  · simp only [fresh, hk']; ring
  · simp only [fresh, List.length_replicate]
  · intro v hv; exact List.eq_of_mem_replicate hv
  · simp only [fresh, List.length_replicate]
  · intro v hv; exact List.eq_of_mem_replicate hv
  · simp only [fresh, List.length_replicate]
  · intro v hv; exact List.eq_of_mem_replicate hv
example : (fresh 0 ⟨2, 1, 3, 0, [0, 0, 0], [1, 1, 1], [0, 0]⟩ ⟨⟨0, 0, 0, 0⟩, 1, 10, 1, 5, 7⟩).lwsLen = 30 + 5 + 3 + 5 + 1 + 121 + 7 := by decide

/-- C83: setting a warm start changes the globals of the solver exactly when it makes the arrays anew: for the null pointer, or if there were none. -/
theorem warm_globals (dbg : Bool) (F : (ℕ → Prob) → Call → Ans) (W : World) (i p : ℕ) (w : Option Ws) :
    ∃ W', step dbg F W (.setWarm i p w) = some W' ∧ W'.log = W.log ∧ W'.probs = W.probs ∧
      (w = none ∨ (W.slv i).cache = none → W'.glob = freshGlob p (W.probs p) (W.slv i).opts ∧ (W'.slv i).cache = some (fresh p (W.probs p) (W.slv i).opts)) ∧
      (w ≠ none → (W.slv i).cache ≠ none → W'.glob = W.glob ∧ (W'.slv i).cache = (W.slv i).cache) := by
  refine ⟨_, rfl, rfl, rfl, ?_, ?_⟩
  · intro h
    have : (w.isNone || (W.slv i).cache.isNone) = true := by rcases h with h | h <;> simp [h]
    simp only [setWarmStart, Function.update_self, this, if_true]
    cases w <;> simp
  · intro h1 h2
    have : (w.isNone || (W.slv i).cache.isNone) = false := by
      cases w with
      | none => exact absurd rfl h1
      | some w => cases hc : (W.slv i).cache with
        | none => exact absurd hc h2
        | some c => rfl
    simp only [setWarmStart, Function.update_self, this, Bool.false_eq_true, if_false]
    cases w <;> simp

end Verif.Slv.Filter

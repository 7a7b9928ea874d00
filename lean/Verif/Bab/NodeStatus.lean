import Mathlib.Data.Nat.Basic
import Mathlib.Data.List.Basic

/-!
# Failure counting along a branch
`src/CbcBonmin/BonCbcNlpStrategy.cpp`, `src/CbcBonmin/BonCbcNode.cpp`
-/
namespace Verif.Bab

/-- The answers of the NLP solver the code asks for at a node: `isAbandoned()`, `isProvenPrimalInfeasible()`,
`isIterationLimitReached()`. -/
structure Flags where
  abandoned : Bool
  infeasible : Bool
  iterLimit : Bool
deriving DecidableEq

/-- `sequenceOfInfeasiblesSize_`, `sequenceOfUnsolvedSize_` of a `BonCbcPartialNodeInfo`. -/
structure Counts where
  inf : Nat
  uns : Nat
deriving DecidableEq

/-- The node information of the parent.  `CbcNlpStrategy::fullNodeInfo` (BonCbcNlpStrategy.cpp:57-62) makes a plain
`CbcFullNodeInfo` for the root, which carries no counters; every other node gets a `BonCbcPartialNodeInfo` (64-71). -/
inductive Parent where
  | root
  | node (c : Counts)
deriving DecidableEq

def Parent.counts : Parent → Counts
  | .root => ⟨0, 0⟩
  | .node c => c

/-- Constructor of BonCbcPartialNodeInfo from the current state (BonCbcNode.cpp:100-135). -/
def childInfo (p : Parent) (f : Flags) : Counts where
  uns := if f.abandoned || f.iterLimit then p.counts.uns + 1 else 0
  inf := if f.infeasible then p.counts.inf + 1 else 0

/-- Options `max_consecutive_failures`, `max_consecutive_infeasible`, `nlp_failure_behavior` (0 = stop). -/
structure Cfg where
  maxFailure : Nat
  maxInfeasible : Nat
  pretend : Bool
deriving DecidableEq

/-- What `status` tells Cbc: -1 no effect, 0 treat as optimal (after `forceBranchable`), 2 treat as infeasible (after
`forceInfeasible`), or the exception `UnsolvedError`. -/
inductive Verdict where
  | noEffect | branch | fathom | throws
deriving DecidableEq

/-- CbcNlpStrategy::status (BonCbcNlpStrategy.cpp:78-155); messages are left out.  Result: verdict and `hasFailed_`. -/
def status (cfg : Cfg) (hasFailed : Bool) (p : Parent) (f : Flags) : Verdict × Bool :=
  match p with
  | .root => (.noEffect, hasFailed)
  | .node c =>
    let solved := !f.abandoned
    let feasible := !(!f.abandoned && f.infeasible)
    let uns := if f.abandoned then c.uns + 1 else c.uns
    let inf := if !f.abandoned && f.infeasible then c.inf + 1 else c.inf
    let r1 := if decide (inf < cfg.maxInfeasible) && solved && !feasible then Verdict.branch else .noEffect
    let r2 := if !solved && decide (uns ≤ cfg.maxFailure) then Verdict.branch else r1
    if f.abandoned && decide (uns > cfg.maxFailure) then
      if cfg.pretend then (.fathom, true) else (.throws, true)
    else (r2, hasFailed)

/-- How Cbc uses the verdict (`CbcModel::resolve`): the node is explored when the verdict is 0, or when there is no
verdict and the solver proved optimality, modelled as: neither abandoned nor infeasible. -/
def proceeds (v : Verdict) (f : Flags) : Bool :=
  match v with
  | .branch => true
  | .noEffect => !f.abandoned && !f.infeasible
  | .fathom => false
  | .throws => false

/-- Follow a branch of the tree from the root: the outcomes of the nodes at depth 1, 2, …; each node that is explored becomes
the parent of the next one.  Result: was every node explored, and `hasFailed_`. -/
def walk (cfg : Cfg) : Bool → Parent → List Flags → Bool × Bool
  | hf, _, [] => (true, hf)
  | hf, p, f :: fs =>
    let r := status cfg hf p f
    if proceeds r.1 f then walk cfg r.2 (.node (childInfo p f)) fs else (false, r.2)

end Verif.Bab

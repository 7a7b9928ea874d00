import Verif.Div.Model

/-! What is demanded of a tree of open nodes: the vocabulary of C21-C24, independent of how the trees work. -/
namespace Verif.Div

/-- The nodes an operation puts into the tree. -/
def Op.pushed : Op → List Node
  | .push x _ => [x]
  | _ => []

/-- The cutoffs an operation is given. -/
def Op.cutoffs : Op → List ℚ
  | .best c _ => [c]
  | .clean c => [c]
  | _ => []


/-- The open nodes in a tree. -/
def Diver.inside (s : Diver) : List Node := s.next.toList ++ s.nodes
def Probed.inside (s : Probed) : List Node := s.next.toList ++ s.cand.toList ++ s.nodes
def Dfs.inside (s : Dfs) : List Node := s.dive ++ s.nodes

/-- Conservation: what was in the tree or was put into it is still there, was handed out, or was deleted,
each node exactly once; and a node is deleted only when its bound reached a cutoff the tree was given. -/
def Conserved (before : List Node) (ops : List Op) (after : List Node) (log : Log) : Prop :=
  (after ++ log.handed ++ log.deleted).Perm (before ++ ops.flatMap Op.pushed) ∧
  ∀ x ∈ log.deleted, ∃ c ∈ ops.flatMap Op.cutoffs, c ≤ x.obj

end Verif.Div

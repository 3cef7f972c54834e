import Verif.Model.Syntax
import Verif.Spec.Tree
/-
Specification: the graph of a model's nodes.
-/
namespace Goexpdt

/-- Node `i` is not a leaf, and one of its children is node `j`. -/
def ChildOf (nodes : List Node) (i j : Nat) : Prop :=
  ∃ n m, nodes[i]? = some n ∧ nodes[j]? = some m ∧ n.childless = false ∧ (n.zChild = (j : Int) ∨ n.oChild = (j : Int))

/-- Node `j` can be reached from node `i` in one or more steps. -/
inductive Below (nodes : List Node) : Nat → Nat → Prop
  | child {i j : Nat} : ChildOf nodes i j → Below nodes i j
  | step {i j k : Nat} : ChildOf nodes i j → Below nodes j k → Below nodes i k

/-- No node can be reached from itself. -/
def Acyclic (nodes : List Node) : Prop := ∀ i, ¬ Below nodes i i

/-- The atom walks down the model for a constant without checking that it ends. -/
def Atom.walks : Atom → Bool
  | .isnode (.const _) _ => true
  | _ => false

/-- Some predicate of the query walks down the model. -/
def Query.walks : Query → Bool
  | .nil => false
  | .atom a => a.walks
  | .and q1 q2 => q1.walks || q2.walks
  | .or q1 q2 => q1.walks || q2.walks
  | .not q => q.walks
  | .withVar _ q => q.walks
  | .forallG _ q => q.walks

end Goexpdt

import Verif.Spec.Preds
import Verif.Spec.Sat
import Verif.Spec.Formula
/-
Specification: models in which nodes may have several parents.
-/
namespace Goexpdt.Spec

/-- The node slice is a decision diagram of the given dimension, whose paths are those of the tree `T`: node 0 is the root, features are in
range and no path decides twice on a feature. A node may have several parents, and there may be nodes that cannot be reached. -/
structure IsDiagram (dim : Nat) (nodes : List Node) (T : DTree) : Prop where
  laid : LaysOut nodes T
  root : T.root = 0
  range : ∀ f ∈ T.feats, f < dim
  once : T.ReadOnce

/-- The nodes to which some completion of `e` may lead from node 0, if a feature that is not defined may have another value every time it is
decided on. -/
inductive Follows (nodes : List Node) (e : PInst) : Nat → Prop
  | root : Follows nodes e 0
  | zero {i j : Nat} {n : Node} : Follows nodes e i → nodes[i]? = some n → n.childless = false → e n.feat.toNat ≠ some true →
      n.zChild = (j : Int) → Follows nodes e j
  | one {i j : Nat} {n : Node} : Follows nodes e i → nodes[i]? = some n → n.childless = false → e n.feat.toNat ≠ some false →
      n.oChild = (j : Int) → Follows nodes e j

/-- The CNF says whether `P` is true: all valuations satisfy it, or none does. -/
def Tells (k : CNF) (P : Prop) : Prop := (P → ∀ β, Models β k) ∧ (¬ P → ¬ Satisfiable k)

end Goexpdt.Spec

import Verif.Spec.Formula
/-
Specification: what the library reads of a model.
-/
namespace Goexpdt
open Spec

/-- What a node says: a leaf has a class, any other node decides on a feature and has two children. A node with a
negative child is a leaf. -/
def Node.content (n : Node) : Bool ⊕ (Int × Int × Int) :=
  if n.zChild < 0 ∨ n.oChild < 0 then .inl n.value else .inr (n.feat, n.zChild, n.oChild)

/-- No part of the query speaks about the model. -/
def Query.modelFree : Query → Bool
  | .nil => true
  | .atom a => !a.onModel
  | .and q1 q2 => q1.modelFree && q2.modelFree
  | .or q1 q2 => q1.modelFree && q2.modelFree
  | .not q => q.modelFree
  | .withVar _ q => q.modelFree
  | .forallG _ _ => false

end Goexpdt

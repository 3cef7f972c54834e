import Verif.Spec.Solver
/-
Specification: chains of better and better instances.
-/
namespace Goexpdt
open Spec

/-- The constants of dimension `d` in the list satisfy `F`, and each is better (`R`) than the one before it. -/
structure Improving (d : Nat) (F : PInst → Prop) (R : PInst → PInst → Prop) (ch : List (List FeatV)) : Prop where
  good : ∀ b ∈ ch, GoodVals d b ∧ F (den b)
  linked : ∀ i a b, ch[i]? = some a → ch[i + 1]? = some b → R (den b) (den a)

/-- The query has no guarded universal quantifier. -/
def Query.noForall : Query → Bool
  | .nil => true
  | .atom _ => true
  | .and q1 q2 => q1.noForall && q2.noForall
  | .or q1 q2 => q1.noForall && q2.noForall
  | .not q => q.noForall
  | .withVar _ q => q.noForall
  | .forallG _ _ => false

end Goexpdt

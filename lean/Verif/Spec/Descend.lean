import Verif.Spec.Marking
import Verif.Spec.OwnReported
/- The way down a model that the values of a constant give. -/
namespace Goexpdt.Spec

/-- From one node to another along edges for the values of `e`. -/
inductive Leads (nodes : List Node) (e : PInst) : Nat → Nat → Prop
  | here (i : Nat) : Leads nodes e i i
  | on {i f j k : Nat} {b : Bool} : Edge nodes i f b j → e f = some b → Leads nodes e j k → Leads nodes e i k

/-- The way ends at the node: it is a leaf, or decides on a feature that is not known. -/
def Stops (nodes : List Node) (e : PInst) (i : Nat) : Prop := ∀ f b j, Edge nodes i f b j → e f ≠ some b

/-- The way down from the root ends. -/
def WayEnds (nodes : List Node) (e : PInst) : Prop := ∃ i, Leads nodes e 0 i ∧ Stops nodes e i

/-- All known features are decided on on the way down from the root. -/
def AllDecided (d : Nat) (nodes : List Node) (e : PInst) : Prop :=
  ∀ f < d, e f = none ∨ ∃ i b j, Leads nodes e 0 i ∧ Edge nodes i f b j

end Goexpdt.Spec

namespace Goexpdt
open Spec

/-- isnode.Const on any model. -/
def descendPred (d : Nat) (nodes : List Node) (c : QConst) (g : Option (QVar → QVar)) : Pred where
  encode := (Atom.isnode (.const c) g).encode
  terms := [.const c]
  says ρ := AllDecided d nodes (ρ (.const c))
  admits stack := WayEnds nodes (den (resolve stack c))
  aux _ _ := []

end Goexpdt

import Verif.Spec.Open
/-
Specification: what the table tests of the repository ask.
-/
namespace Goexpdt
open Spec

/-- The value that the pins ask a variable to have, where the scopes `stack` are open. -/
def pinVal (stack : List Scope) (ps : List (QVar × QConst)) (x : QVar) : PInst :=
  match ps.find? (·.1 = x) with
  | some p => den (resolve stack p.2)
  | none => bot

/-- The partial instance a term stands for if the variables are pinned. -/
def Term.pinned (stack : List Scope) (ps : List (QVar × QConst)) : Term → PInst
  | .const c => den (resolve stack c)
  | .var x => pinVal stack ps x

end Goexpdt

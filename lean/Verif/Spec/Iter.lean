import Verif.Model.Walk
import Verif.Spec.Tree
/-
Specification: complete runs of the walk over a model's nodes.
-/
namespace Goexpdt

/-- The states right after the successive calls of `Next` that report a node, until `Next` reports
the end. -/
inductive Iterates (nodes : List Node) : WalkSt → List WalkSt → Prop
  | done {w} : walkNext nodes (nextFuel nodes) w = .ok none → Iterates nodes w []
  | step {w w' ws} : walkNext nodes (nextFuel nodes) w = .ok (some w') → Iterates nodes w' ws →
      Iterates nodes w (w' :: ws)

/-- The states the loop passes through from `w0`. -/
inductive Passes (nodes : List Node) (w0 : WalkSt) : WalkSt → Prop
  | start : Passes nodes w0 w0
  | moved {w w'} : Passes nodes w0 w → walkStep nodes w = (.moved, w') → Passes nodes w0 w'
  | visited {w w'} : Passes nodes w0 w → walkStep nodes w = (.visited, w') → Passes nodes w0 w'

end Goexpdt

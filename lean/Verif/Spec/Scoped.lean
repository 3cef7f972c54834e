import Verif.Spec.Solver
import Verif.Spec.Ground
/-
Specification: formulas and orders for `ComputeOptim` in which variables can be declared several times.
-/
namespace Goexpdt
open Spec

/-- The conditions of `C66` on the queries that `ComputeOptim` encodes, given formula `f` and order `o`. -/
structure Explores (d : Nat) (nodes : List Node) (T : DTree) (v : QVar) (f : Query) (o : QConst → Query) : Prop where
  sound : (Query.withVar v f).Sound d nodes T
  wellScoped : (Query.withVar v f).WellScoped
  soundNext : ∀ b, GoodVals d b → (Query.withVar v (.and f (o { val := b }))).Sound d nodes T
  wellScopedNext : ∀ b, GoodVals d b → (Query.withVar v (.and f (o { val := b }))).WellScoped

end Goexpdt

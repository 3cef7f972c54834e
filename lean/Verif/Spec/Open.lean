import Verif.Spec.Meaning
import Verif.Spec.Fo
/-
Specification: queries that are encoded where scopes are open.
-/
namespace Goexpdt
open Spec

/-- A context over the model in which the scopes `stack` are open, no variable is recorded, and none of the names has been
declared. -/
structure ReadyIn (d : Nat) (nodes : List Node) (stack : List Scope) (names : List QVar) (s : Ctx) : Prop where
  vm : VMok s
  dim : s.dim = d
  nodes : s.nodes = nodes
  scopes : s.scopes = stack
  vars : s.vars = []
  fresh : ∀ n ∈ names, ¬ Declared s n

/-- The conditions of C39 on a query that is encoded where the scopes `stack` are open. -/
structure Query.GoodIn (d : Nat) (nodes : List Node) (T : DTree) (depth : QVar → Nat) (stack : List Scope) (q : Query) : Prop where
  dim : 0 < d
  fits : q.Fits d nodes T depth [] stack
  clean : Hygienic d T (q.names d T stack) (q.uses d T depth stack)

/-- A program that opens scopes by `AddScope` and `SetScope`. -/
def openScopes (s : Ctx) : List Scope → Ctx
  | [] => s
  | g :: gs => openScopes ((s.addScope g.target).setScope g.vIdx g.value).2 gs

/-- A program that closes `n` scopes by `PopScope`. -/
def closeScopes (s : Ctx) : Nat → Ctx
  | 0 => s
  | n + 1 => closeScopes s.popScope.2 n

/-- The values that open scopes give to constants; the outermost scope with the name counts. -/
def guardVals (stack : List Scope) (id : List Char) : Option PInst :=
  (stack.find? fun g => g.target == id).map fun g => den g.value

/-- The conditions of C40 on a query that is encoded where the scopes `stack` are open. -/
structure Query.PlainIn (stack : List Scope) (q : Query) : Prop where
  positive : q.Positive
  distinct : q.binders.Nodup
  names : ∀ x ∈ q.binders, sep ∉ x
  guards : q.GuardsApart (stack.map (·.target)).reverse
  targets : ∀ g ∈ stack, sep ∉ g.target

end Goexpdt

import Verif.Model.Query
/-
Specification: histories of calls on a context. A history is a list of calls of the state-changing
methods of the `QContext` interface, with arbitrary arguments.
-/
namespace Goexpdt.Spec

/-- A call of a state-changing context method. -/
inductive Op where
  | cnfVar (vr : VarRep)
  | updateTopV (v : Int)
  | addVar (v : QVar)
  | addScope (tgt : List Char)
  | popScope
  | setScope (i : Int) (val : List FeatV)
  | reset
  deriving DecidableEq, Repr

/-- The context after a call. -/
def Op.exec : Op → Ctx → Ctx
  | .cnfVar vr, s => (s.cnfVar vr).2
  | .updateTopV v, s => (s.updateTopV v).2
  | .addVar v, s => s.addVar v
  | .addScope t, s => s.addScope t
  | .popScope, s => s.popScope.2
  | .setScope i val, s => (s.setScope i val).2
  | .reset, s => s.reset

/-- The context after a history. -/
def run (ops : List Op) (s : Ctx) : Ctx := ops.foldl (fun s op => op.exec s) s

/-- Histories in which scopes are pushed and popped in a balanced way, `n` scopes being open at the
start, `SetScope` is only used on scopes opened in the history, and `Reset` is not called. -/
def balanced : Nat → List Op → Prop
  | n, [] => n = 0
  | n, .addScope _ :: ops => balanced (n + 1) ops
  | n, .popScope :: ops => 0 < n ∧ balanced (n - 1) ops
  | n, .setScope _ _ :: ops => 0 < n ∧ balanced n ops
  | _, .reset :: _ => False
  | n, .cnfVar _ :: ops => balanced n ops
  | n, .updateTopV _ :: ops => balanced n ops
  | n, .addVar _ :: ops => balanced n ops

/-- The number of open scopes after a history of calls on a new context. -/
def openAfter (h : List Op) : Nat :=
  h.foldl (fun n op => match op with
    | .addScope _ => n + 1
    | .popScope => n - 1
    | .reset => 0
    | _ => n) 0

/-- Some variable is declared in an open scope that is not closed later in the history. -/
def Leaves (h : List Op) (v : QVar) : Prop :=
  ∃ pre post, h = pre ++ .addVar v :: post ∧ 0 < openAfter pre ∧ ∀ p, p <+: post → openAfter pre ≤ openAfter (pre ++ .addVar v :: p)

end Goexpdt.Spec

import Verif.Spec.DiagramWalk
import Verif.Spec.Repeats
import Verif.Spec.Iter
/- What queries say where a quantifier ranges over any list of instances, and which instances the walk reports on trees that decide on a
feature several times. -/
namespace Goexpdt.Spec

/-- The walk over the model reports these nodes with these instances. -/
def Reported (d : Nat) (nodes : List Node) (ps : List (Nat × PInst)) : Prop :=
  ∃ w0 ws, newNodeAsValuesIter d nodes = .ok w0 ∧ Iterates nodes w0 ws ∧ ps = ws.map fun w => (w.cp, den w.t)

/-- The scopes of all iterations of a quantifier over `ps`. -/
def scopesIn (d : Nat) (ps : List (Nat × PInst)) (id : List Char) : List Scope := ps.zipIdx.map fun p => scopeAt d id p.2 p.1

/-- The last decision of a way on a feature. -/
def lastOn (f : Nat) : List (Nat × Bool) → Option Bool
  | [] => none
  | t :: w => match lastOn f w with
    | some b => some b
    | none => if t.1 = f then some t.2 else none

def PInst.unset (e : PInst) (f : Nat) : PInst := fun i => if i = f then none else e i

/-- The nodes in pre-order with what is known when they are reached, if coming back to a node makes its feature unknown; and what is known at
the end. -/
def DTree.kept : DTree → PInst → List (Nat × PInst) × PInst
  | .leaf i _, e => ([(i, e)], e)
  | .node i f z o, e =>
    let a := z.kept (e.set f false)
    let b := o.kept (a.2.set f true)
    ((i, e) :: (a.1 ++ b.1), b.2.unset f)

end Goexpdt.Spec

namespace Goexpdt
open Spec

/-- What a predicate says about its arguments where dfs compares the instances `ps`. (The others do not look at the model: those that do, isnode
and allcomp, are not in the fragment.) -/
def Atom.saysIn (d : Nat) (nodes : List Node) (ps : List (Nat × PInst)) (ρ : Term → PInst) : Atom → Prop
  | .dfs t => TellsApart d nodes ps (ρ t)
  | .isnode _ _ => False
  | .allcomp _ _ _ => False
  | a => a.says d (.leaf 0 false) ρ

/-- What a query says where a quantifier ranges over `ps`. -/
def Query.semIn (d : Nat) (nodes : List Node) (ps : List (Nat × PInst)) (depth : QVar → Nat) (σ : Asg) : List Scope → Query → Prop
  | _, .nil => False
  | stack, .atom a => a.saysIn d nodes ps fun t => (t.res depth stack).den σ
  | stack, .and q1 q2 => q1.semIn d nodes ps depth σ stack ∧ q2.semIn d nodes ps depth σ stack
  | stack, .or q1 q2 => q1.semIn d nodes ps depth σ stack ∨ q2.semIn d nodes ps depth σ stack
  | stack, .not q => ¬ q.semIn d nodes ps depth σ stack
  | stack, .withVar _ q => q.semIn d nodes ps depth σ stack
  | stack, .forallG c q => ∀ g ∈ scopesIn d ps c.id, q.semIn d nodes ps depth σ (stack ++ [g])

/-- The scoped names of the variables a query declares. -/
def Query.namesIn (d : Nat) (ps : List (Nat × PInst)) : List Scope → Query → List QVar
  | _, .nil => []
  | _, .atom _ => []
  | stack, .and q1 q2 => q1.namesIn d ps stack ++ q2.namesIn d ps stack
  | stack, .or q1 q2 => q1.namesIn d ps stack ++ q2.namesIn d ps stack
  | stack, .not q => q.namesIn d ps stack
  | stack, .withVar x q => (x ++ suffix stack) :: q.namesIn d ps stack
  | stack, .forallG c q => (scopesIn d ps c.id).flatMap fun g => q.namesIn d ps (stack ++ [g])

/-- The auxiliary variables of all predicates of a query. -/
def Query.usesIn (d : Nat) (ps : List (Nat × PInst)) (depth : QVar → Nat) : List Scope → Query → List (QVar × Role)
  | _, .nil => []
  | stack, .atom a => a.uses depth stack
  | stack, .and q1 q2 => q1.usesIn d ps depth stack ++ q2.usesIn d ps depth stack
  | stack, .or q1 q2 => q1.usesIn d ps depth stack ++ q2.usesIn d ps depth stack
  | stack, .not q => q.usesIn d ps depth stack
  | stack, .withVar _ q => q.usesIn d ps depth stack
  | stack, .forallG c q => (scopesIn d ps c.id).flatMap fun g => q.usesIn d ps depth (stack ++ [g])

/-- The predicate is not isnode or allcomp. -/
def Atom.nodeless : Atom → Bool
  | .isnode _ _ => false
  | .allcomp _ _ _ => false
  | _ => true

/-- The predicate is dfs. -/
def Atom.isDfs : Atom → Bool
  | .dfs _ => true
  | _ => false

/-- The query can be encoded where the open scopes are `stack` and the variables `Γ` are declared. If it has dfs, a leaf is reported. -/
def Query.FitsIn (d : Nat) (nodes : List Node) (ps : List (Nat × PInst)) (depth : QVar → Nat) : List QVar → List Scope → Query → Prop
  | _, _, .nil => False
  | Γ, stack, .atom a => a.FitsOn d Γ stack ∧ a.nodeless = true ∧
      (a.isDfs = true → ∃ p ∈ ps, ∃ n, nodes[p.1]? = some n ∧ n.childless = true)
  | Γ, stack, .and q1 q2 => q1.FitsIn d nodes ps depth Γ stack ∧ q2.FitsIn d nodes ps depth Γ stack
  | Γ, stack, .or q1 q2 => q1.FitsIn d nodes ps depth Γ stack ∧ q2.FitsIn d nodes ps depth Γ stack
  | Γ, stack, .not q => q.FitsIn d nodes ps depth Γ stack
  | Γ, stack, .withVar x q => depth x = stack.length ∧ q.FitsIn d nodes ps depth (x :: Γ) stack
  | Γ, stack, .forallG c q => ∀ g ∈ scopesIn d ps c.id, q.FitsIn d nodes ps depth Γ (stack ++ [g])

/-- The conditions of `C100` on a closed query and on the model. -/
structure Query.GoodReported (d : Nat) (nodes : List Node) (ps : List (Nat × PInst)) (depth : QVar → Nat) (q : Query) : Prop where
  dim : 0 < d
  reported : Reported d nodes ps
  fits : q.FitsIn d nodes ps depth [] []
  clean : Hygienic d (.leaf 0 false) (q.namesIn d ps []) (q.usesIn d ps depth [])

end Goexpdt

import Verif.Spec.Diagram
import Verif.Spec.Meaning
/- What the walk over the nodes reports when nodes may have several parents. -/
namespace Goexpdt.Spec

/-- The entries that no entry for the same node comes before. -/
def firstOf : List (Nat × α) → List (Nat × α)
  | [] => []
  | p :: l => p :: (firstOf l).filter fun q => q.1 ≠ p.1

/-- The first path to each node, paths being ordered by what they decide, zero before one. -/
def firstPaths (T : DTree) : List (Nat × PInst) := firstOf (T.nodeInsts bot)

/-- The scopes of all iterations of a quantifier, one for each node. -/
def firstScopes (d : Nat) (T : DTree) (id : List Char) : List Scope :=
  (firstPaths T).zipIdx.map fun p => scopeAt d id p.2 p.1

/-- The features `e` defines tell apart the paths to leafs of different class among `ps`. -/
def TellsApart (d : Nat) (nodes : List Node) (ps : List (Nat × PInst)) (e : PInst) : Prop :=
  ∀ p ∈ ps, ∀ q ∈ ps, ∀ n m, nodes[p.1]? = some n → nodes[q.1]? = some m → n.childless = true → m.childless = true →
    n.value = true → m.value = false → ∃ i < d, e i ≠ none ∧ p.2 i ≠ none ∧ q.2 i ≠ none ∧ p.2 i ≠ q.2 i

end Goexpdt.Spec

namespace Goexpdt
open Spec

/-- What a predicate says about its arguments, where nodes may have several parents: sufficient sets of features are judged by the first
paths only. -/
def Atom.saysOn (d : Nat) (nodes : List Node) (T : DTree) (ρ : Term → PInst) : Atom → Prop
  | .dfs t => TellsApart d nodes (firstPaths T) (ρ t)
  | a => a.says d T ρ

/-- What a query says: as `Query.sem`, but a quantifier ranges over the first paths. -/
def Query.semOn (d : Nat) (nodes : List Node) (T : DTree) (depth : QVar → Nat) (σ : Asg) : List Scope → Query → Prop
  | _, .nil => False
  | stack, .atom a => a.saysOn d nodes T fun t => (t.res depth stack).den σ
  | stack, .and q1 q2 => q1.semOn d nodes T depth σ stack ∧ q2.semOn d nodes T depth σ stack
  | stack, .or q1 q2 => q1.semOn d nodes T depth σ stack ∨ q2.semOn d nodes T depth σ stack
  | stack, .not q => ¬ q.semOn d nodes T depth σ stack
  | stack, .withVar _ q => q.semOn d nodes T depth σ stack
  | stack, .forallG c q => ∀ g ∈ firstScopes d T c.id, q.semOn d nodes T depth σ (stack ++ [g])

/-- The scoped names of the variables a query declares. -/
def Query.namesOn (d : Nat) (T : DTree) : List Scope → Query → List QVar
  | _, .nil => []
  | _, .atom _ => []
  | stack, .and q1 q2 => q1.namesOn d T stack ++ q2.namesOn d T stack
  | stack, .or q1 q2 => q1.namesOn d T stack ++ q2.namesOn d T stack
  | stack, .not q => q.namesOn d T stack
  | stack, .withVar x q => (x ++ suffix stack) :: q.namesOn d T stack
  | stack, .forallG c q => (firstScopes d T c.id).flatMap fun g => q.namesOn d T (stack ++ [g])

/-- The auxiliary variables of all predicates of a query. -/
def Query.usesOn (d : Nat) (T : DTree) (depth : QVar → Nat) : List Scope → Query → List (QVar × Role)
  | _, .nil => []
  | stack, .atom a => a.uses depth stack
  | stack, .and q1 q2 => q1.usesOn d T depth stack ++ q2.usesOn d T depth stack
  | stack, .or q1 q2 => q1.usesOn d T depth stack ++ q2.usesOn d T depth stack
  | stack, .not q => q.usesOn d T depth stack
  | stack, .withVar _ q => q.usesOn d T depth stack
  | stack, .forallG c q => (firstScopes d T c.id).flatMap fun g => q.usesOn d T depth (stack ++ [g])

/-- The predicate does not ask for nodes by means of an auxiliary variable. -/
def Atom.unmarked : Atom → Bool
  | .isnode (.var _) _ => false
  | .allcomp (.var _) _ _ => false
  | _ => true

/-- The predicate can be encoded where the open scopes are `stack` and the variables `Γ` are declared: as `Atom.Fits`, without the
condition that the model is a tree. -/
structure Atom.FitsOn (d : Nat) (Γ : List QVar) (stack : List Scope) (a : Atom) : Prop where
  vars : ∀ x ∈ a.vars, x ∈ Γ
  consts : ∀ c ∈ Spec.Atom.consts a, (resolve stack c).length = d ∧ ValidVals (resolve stack c)
  gens : Spec.Atom.nilGen a = false
  pref : a.PrefOk d
  prefne : Spec.Atom.PrefsNonempty a
  regular : a.Regular d stack
  unmarked : a.unmarked = true

/-- The query can be encoded where the open scopes are `stack` and the variables `Γ` are declared. -/
def Query.FitsOn (d : Nat) (T : DTree) (depth : QVar → Nat) : List QVar → List Scope → Query → Prop
  | _, _, .nil => False
  | Γ, stack, .atom a => a.FitsOn d Γ stack
  | Γ, stack, .and q1 q2 => q1.FitsOn d T depth Γ stack ∧ q2.FitsOn d T depth Γ stack
  | Γ, stack, .or q1 q2 => q1.FitsOn d T depth Γ stack ∧ q2.FitsOn d T depth Γ stack
  | Γ, stack, .not q => q.FitsOn d T depth Γ stack
  | Γ, stack, .withVar x q => depth x = stack.length ∧ q.FitsOn d T depth (x :: Γ) stack
  | Γ, stack, .forallG c q => ∀ g ∈ firstScopes d T c.id, q.FitsOn d T depth Γ (stack ++ [g])

/-- The conditions of `C99` on a closed query and on the model. -/
structure Query.GoodOn (d : Nat) (nodes : List Node) (T : DTree) (depth : QVar → Nat) (q : Query) : Prop where
  dim : 0 < d
  diagram : IsDiagram d nodes T
  accepted : ∃ w, newNodeAsValuesIter d nodes = .ok w
  fits : q.FitsOn d T depth [] []
  clean : Hygienic d T (q.namesOn d T []) (q.usesOn d T depth [])

end Goexpdt

import Verif.Spec.Settle
import Verif.Spec.Closed
import Verif.Spec.Diagram
/-
Specification: what isnode.Var and allcomp.Var say on any model, also with shared nodes, cycles, and nodes that cannot be reached.

Both predicates number one auxiliary variable per node of the model, and say with clauses for the edges of the model which of the nodes are
marked. On a tree there is one such marking for every instance. In general there may be none or several.
-/
namespace Goexpdt
open Spec

/-- Node `i` decides on feature `f`, and its child for the value `b` is node `j`. -/
def Edge (nodes : List Node) (i f : Nat) (b : Bool) (j : Nat) : Prop :=
  ∃ n, nodes[i]? = some n ∧ n.isLeaf = false ∧ n.feat = (f : Int) ∧ (if b then n.oChild else n.zChild) = (j : Int)

/-- The marked nodes if the values `A` are followed: the root, and a child exactly if its parent is marked and its value is followed. This is
demanded for every parent of the child. -/
structure Marking (nodes : List Node) (A : Nat → Bool → Prop) (R : Nat → Prop) : Prop where
  root : R 0
  edge : ∀ i f b j, Edge nodes i f b j → (R j ↔ R i ∧ A f b)

/-- The values that isnode follows: those of the instance. -/
def HasVal (e : PInst) (f : Nat) (b : Bool) : Prop := e f = some b

/-- The values that allcomp follows: those that the instance does not exclude. -/
def MayHave (e : PInst) (f : Nat) (b : Bool) : Prop := e f ≠ some (!b)

/-- A predicate with auxiliary variables that do not depend on the nodes: its terms and generators are as they must be, and `role` gives the
purpose of its auxiliary variables, which are not among `xs`. -/
def Atom.Aux (d : Nat) (xs : List QVar) (role : QVar → Option Role) (a : Atom) : Prop :=
  a.Fits d [] (.leaf 0 true) xs [] ∧ ∀ u ∈ a.uses (fun _ => 0) [], role u.1 = some u.2 ∧ u.1 ∉ xs

/-- Quantifier-free queries over the variables `xs`, made from subsumption, full, cons, lel, hepr, leh, isnode.Var, allcomp.Var, and
allcomp.Const; the generated names are not among `xs`, and those with a `role` are not used for marks. The variables may be declared again. -/
def Query.Marks (d : Nat) (xs : List QVar) (role : QVar → Option Role) : Query → Prop
  | .atom (.subs t1 t2) => t1.Ok d xs ∧ t2.Ok d xs
  | .atom (.full t) => t.Ok d xs
  | .atom (.cons t1 t2) => t1.Ok d xs ∧ t2.Ok d xs
  | .atom (.isnode (.var x) (some g)) => x ∈ xs ∧ g x ∉ xs ∧ role (g x) = none
  | .atom (.allcomp (.var x) _ (some g)) => x ∈ xs ∧ g x ∉ xs ∧ role (g x) = none
  | .atom (.allcomp (.const c) _ _) => c.val.length = d ∧ ValidVals c.val
  | .atom (.lel t1 t2 g) => (Atom.lel t1 t2 g).Aux d xs role
  | .atom (.hepr t1 t2 p g) => (Atom.hepr t1 t2 p g).Aux d xs role
  | .atom (.leh t1 t2 t3 g eg) => (Atom.leh t1 t2 t3 g eg).Aux d xs role
  | .and q1 q2 => q1.Marks d xs role ∧ q2.Marks d xs role
  | .or q1 q2 => q1.Marks d xs role ∧ q2.Marks d xs role
  | .not q => q.Marks d xs role
  | .withVar x q => x ∈ xs ∧ q.Marks d xs role
  | _ => False

/-- The sets of marked nodes `μ`, one for every generated name, are as the predicates of the query demand. They do so wherever they occur. -/
def Query.marked (nodes : List Node) (σ : Asg) (μ : QVar → Nat → Prop) : Query → Prop
  | .atom (.isnode (.var x) (some g)) => Marking nodes (HasVal (σ x)) (μ (g x))
  | .atom (.allcomp (.var x) _ (some g)) => Marking nodes (MayHave (σ x)) (μ (g x))
  | .and q1 q2 => q1.marked nodes σ μ ∧ q2.marked nodes σ μ
  | .or q1 q2 => q1.marked nodes σ μ ∧ q2.marked nodes σ μ
  | .not q => q.marked nodes σ μ
  | .withVar _ q => q.marked nodes σ μ
  | _ => True

/-- What the query says about the instances `σ` and the marked nodes `μ`. -/
def Query.tells (d : Nat) (nodes : List Node) (σ : Asg) (μ : QVar → Nat → Prop) : Query → Prop
  | .atom (.subs t1 t2) => Subsumes d (t1.under σ) (t2.under σ)
  | .atom (.full t) => Full d (t.under σ)
  | .atom (.cons t1 t2) => Cons d (t1.under σ) (t2.under σ)
  | .atom (.isnode (.var x) (some g)) => ∀ f < d, σ x f = none ∨ ∃ i b j, Edge nodes i f b j ∧ μ (g x) i
  | .atom (.allcomp (.var x) v (some g)) => ∀ u n, nodes[u]? = some n → n.isLeaf = true → μ (g x) u → n.value = v
  | .atom (.allcomp (.const c) v _) => ∀ u n, Follows nodes (den c.val) u → nodes[u]? = some n → n.childless = true → n.value = v
  | .atom (.lel t1 t2 _) => LEL d (t1.under σ) (t2.under σ)
  | .atom (.hepr t1 t2 p _) => HEPR (p.map Int.toNat) (t1.under σ) (t2.under σ)
  | .atom (.leh t1 t2 t3 _ _) => LEH d (t1.under σ) (t2.under σ) (t3.under σ)
  | .and q1 q2 => q1.tells d nodes σ μ ∧ q2.tells d nodes σ μ
  | .or q1 q2 => q1.tells d nodes σ μ ∨ q2.tells d nodes σ μ
  | .not q => ¬ q.tells d nodes σ μ
  | .withVar _ q => q.tells d nodes σ μ
  | _ => False

/-- Node `w` has to be marked if node `u` is. -/
inductive Linked (nodes : List Node) (A : Nat → Bool → Prop) (u : Nat) : Nat → Prop
  | refl : Linked nodes A u u
  | down {i f : Nat} {b : Bool} {j : Nat} : Linked nodes A u i → Edge nodes i f b j → A f b → Linked nodes A u j
  | up {i f : Nat} {b : Bool} {j : Nat} : Linked nodes A u j → Edge nodes i f b j → Linked nodes A u i

/-- Node `u` can be marked: all edges to the nodes that have to be marked then are followed. -/
def Free (nodes : List Node) (A : Nat → Bool → Prop) (u : Nat) : Prop :=
  ∀ i f b j, Linked nodes A u j → Edge nodes i f b j → A f b

end Goexpdt

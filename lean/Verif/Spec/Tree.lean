import Verif.Model.Query
/-
Specification: partial instances, decision trees and their layout in a node slice.
-/
namespace Goexpdt

/-- A child is missing. -/
def Node.childless (n : Node) : Bool := decide (n.zChild < 0) || decide (n.oChild < 0)

end Goexpdt

namespace Goexpdt.Spec

/-- A partial instance: for every feature a truth value or bottom (`none`). Only the features below
the dimension matter. -/
abbrev PInst := Nat → Option Bool

/-- The partial instance without any feature. -/
def bot : PInst := fun _ => none

/-- `e` with feature `f` set to `b`. -/
def PInst.set (e : PInst) (f : Nat) (b : Bool) : PInst := fun i => if i = f then some b else e i

/-- Two partial instances of dimension `d` are the same. -/
def Same (d : Nat) (e e' : PInst) : Prop := ∀ i < d, e i = e' i

/-- A feature value of the code as a value of a partial instance. -/
def featDen (v : FeatV) : Option Bool :=
  if v = BOT then none else if v = ZERO then some false else some true

/-- The partial instance a slice of feature values stands for. -/
def den (vs : List FeatV) : PInst := fun i =>
  match vs[i]? with
  | some v => featDen v
  | none => none

/-- The feature values a constant may hold. -/
def ValidVals (vs : List FeatV) : Prop := ∀ v ∈ vs, v = BOT ∨ v = ZERO ∨ v = ONE

/-- Binary decision trees; every node carries the index it has in the node slice. -/
inductive DTree where
  | leaf (idx : Nat) (val : Bool)
  | node (idx feat : Nat) (z o : DTree)
  deriving DecidableEq, Repr

namespace DTree

/-- Index of the root. -/
def root : DTree → Nat
  | leaf i _ => i
  | node i _ _ _ => i

/-- The indexes of all nodes, in pre-order. -/
def indexes : DTree → List Nat
  | leaf i _ => [i]
  | node i _ z o => i :: (z.indexes ++ o.indexes)

/-- The features decided on. -/
def feats : DTree → List Nat
  | leaf _ _ => []
  | node _ f z o => f :: (z.feats ++ o.feats)

/-- No path from the root decides twice on a feature. -/
def ReadOnce : DTree → Prop
  | leaf _ _ => True
  | node _ f z o => f ∉ z.feats ∧ f ∉ o.feats ∧ z.ReadOnce ∧ o.ReadOnce

/-- The partial instances of the nodes in pre-order, with the node's index; `e` is the one of the
root. The instance of a node assigns the features decided on above the node according to the path
that leads to it. -/
def nodeInsts (e : PInst) : DTree → List (Nat × PInst)
  | leaf i _ => [(i, e)]
  | node i f z o => (i, e) :: (z.nodeInsts (e.set f false) ++ o.nodeInsts (e.set f true))

/-- The class the tree gives to a total instance. -/
def classify (x : Nat → Bool) : DTree → Bool
  | leaf _ v => v
  | node _ f z o => if x f then o.classify x else z.classify x

end DTree

/-- The node slice holds the tree at the indexes it mentions. -/
def LaysOut (nodes : List Node) : DTree → Prop
  | .leaf i v => ∃ n, nodes[i]? = some n ∧ n.childless = true ∧ n.value = v
  | .node i f z o => (∃ n, nodes[i]? = some n ∧ n.childless = false ∧ n.feat = f ∧
      n.zChild = z.root ∧ n.oChild = o.root) ∧ LaysOut nodes z ∧ LaysOut nodes o

/-- The node slice is a decision tree of the given dimension: node 0 is the root, no node has two
parents, features are in range and no path decides twice on a feature. -/
structure IsTree (dim : Nat) (nodes : List Node) (T : DTree) : Prop where
  laid : LaysOut nodes T
  root : T.root = 0
  nodup : T.indexes.Nodup
  range : ∀ f ∈ T.feats, f < dim
  once : T.ReadOnce

/-- The same without the condition on the paths: they may decide on a feature several times. -/
structure IsRawTree (dim : Nat) (nodes : List Node) (T : DTree) : Prop where
  laid : LaysOut nodes T
  root : T.root = 0
  nodup : T.indexes.Nodup
  range : ∀ f ∈ T.feats, f < dim

theorem IsTree.raw {dim : Nat} {nodes : List Node} {T : DTree} (h : IsTree dim nodes T) : IsRawTree dim nodes T :=
  ⟨h.laid, h.root, h.nodup, h.range⟩

/-- Every node of the slice belongs to the tree. -/
def Covers (nodes : List Node) (T : DTree) : Prop := ∀ i < nodes.length, i ∈ T.indexes

/-- Nodes reachable from node 0 by following the children of internal nodes. -/
inductive Reach (nodes : List Node) : Nat → Prop
  | root : Reach nodes 0
  | zero {i j : Nat} {n : Node} : Reach nodes i → nodes[i]? = some n → n.childless = false →
      n.zChild = (j : Int) → Reach nodes j
  | one {i j : Nat} {n : Node} : Reach nodes i → nodes[i]? = some n → n.childless = false →
      n.oChild = (j : Int) → Reach nodes j

end Goexpdt.Spec

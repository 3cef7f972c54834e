import Verif.Spec.Tree
/-
Specification: the predicates on partial instances that the components of /repo/query/predicates and
/repo/query/extensions are meant to express. `d` is the dimension, `T` the decision tree.
-/
namespace Goexpdt.Spec

/-- Every feature `e` defines has the same value in `e'`. -/
def Subsumes (d : Nat) (e e' : PInst) : Prop := ∀ i < d, e i ≠ none → e i = e' i

/-- The number of features below `d` that satisfy `p`. -/
def countFeats (d : Nat) (p : Nat → Bool) : Nat := (List.range d).countP p

/-- The number of undefined features. -/
def numBot (d : Nat) (e : PInst) : Nat := countFeats d fun i => (e i).isNone

/-- `e1` has at least as many undefined features as `e2`. -/
def LEL (d : Nat) (e1 e2 : PInst) : Prop := numBot d e2 ≤ numBot d e1

/-- All features are defined. -/
def Full (d : Nat) (e : PInst) : Prop := ∀ i < d, e i ≠ none

/-- No feature is defined differently. -/
def Cons (d : Nat) (e e' : PInst) : Prop := ∀ i < d, e i ≠ none → e' i ≠ none → e i = e' i

/-- `e` is the partial instance of a node of the tree. -/
def IsNode (d : Nat) (T : DTree) (e : PInst) : Prop := ∃ p ∈ T.nodeInsts bot, Same d p.2 e

/-- The total instance `x` completes `e`. -/
def Completes (d : Nat) (x : Nat → Bool) (e : PInst) : Prop := ∀ i < d, ∀ b, e i = some b → x i = b

/-- The tree gives class `b` to all completions of `e`. -/
def AllComp (d : Nat) (T : DTree) (b : Bool) (e : PInst) : Prop :=
  ∀ x, Completes d x e → T.classify x = b

/-- The defined features of `e` are sufficient for the class: however they are set, all completions
have the same class. -/
def DFS (d : Nat) (T : DTree) (e : PInst) : Prop :=
  ∀ e', (∀ i < d, e' i = none ↔ e i = none) → ∃ b, AllComp d T b e'

/-- At the first of the features of `pref` that one of the instances defines and the other does not,
it is `e1` that defines it. -/
def HEPR (pref : List Nat) (e1 e2 : PInst) : Prop :=
  ∀ pre f post, pref = pre ++ f :: post → (∀ g ∈ pre, e1 g = none ↔ e2 g = none) →
    ¬ (e1 f = none ∧ e2 f ≠ none)

/-- The comparison as the package comment of hepr describes it: all features of `pref` are defined in both, or at the first that is
undefined in one of them it is defined in `e1`. -/
def HEPRComment (pref : List Nat) (e1 e2 : PInst) : Prop :=
  (∀ f ∈ pref, e1 f ≠ none ∧ e2 f ≠ none) ∨
  ∃ pre f post, pref = pre ++ f :: post ∧ (∀ g ∈ pre, e1 g ≠ none ∧ e2 g ≠ none) ∧ (e1 f = none ∨ e2 f = none) ∧ e1 f ≠ none

/-- The number of features in which the instances differ. -/
def hamming (d : Nat) (e e' : PInst) : Nat := countFeats d fun i => e i != e' i

/-- All three are full and `e2` is at most as far from `e1` as `e3` is. -/
def LEH (d : Nat) (e1 e2 e3 : PInst) : Prop :=
  Full d e1 ∧ Full d e2 ∧ Full d e3 ∧ hamming d e1 e2 ≤ hamming d e1 e3

end Goexpdt.Spec

import Verif.Spec.Ground
/-
Specification: queries as they are encoded.

`leh` does not always say what it should: in two cases the code answers "true" without looking at the variable (C34). What CNFs say about
queries with such predicates is what the queries say if these predicates are replaced by "true".
-/
namespace Goexpdt
open Spec

/-- Where the open scopes are `stack`, the constant defines all features. -/
def Total (stack : List Scope) (c : QConst) : Bool := (resolve stack c).all (· != BOT)

/-- The cases of `leh` in which the code answers "true" without looking at the variable. -/
def Atom.blind (d : Nat) (stack : List Scope) : Atom → Bool
  | .leh (.const c1) (.const c2) (.var _) _ _ =>
      Total stack c1 && Total stack c2 && hamming d (den (resolve stack c1)) (den (resolve stack c2)) == 0
  | .leh (.const c1) (.var _) (.const c3) _ _ =>
      Total stack c1 && Total stack c3 && hamming d (den (resolve stack c1)) (den (resolve stack c3)) == d
  | _ => false

/-- What a predicate says as it is encoded. -/
def Atom.encoded (d : Nat) (T : DTree) (stack : List Scope) (ρ : Term → PInst) (a : Atom) : Prop := a.says d T ρ ∨ a.blind d stack = true

/-- The auxiliary variables that appear in the clauses of a predicate. (`leh` has none if a constant is not full, or if it is blind.) -/
def Atom.emits (d : Nat) (depth : QVar → Nat) (stack : List Scope) (a : Atom) : List (QVar × Role) :=
  match a with
  | .leh .. => if (Spec.Atom.consts a).all (Total stack) && !a.blind d stack then a.uses depth stack else []
  | _ => a.uses depth stack

/-- The predicate can be encoded where the open scopes are `stack` and the variables `Γ` are declared: `Atom.Fits`, but any `leh` will do. -/
structure Atom.Loose (d : Nat) (nodes : List Node) (T : DTree) (Γ : List QVar) (stack : List Scope) (a : Atom) : Prop where
  vars : ∀ x ∈ a.vars, x ∈ Γ
  consts : ∀ c ∈ Spec.Atom.consts a, (resolve stack c).length = d ∧ ValidVals (resolve stack c)
  gens : Spec.Atom.nilGen a = false
  pref : a.PrefOk d
  prefne : Spec.Atom.PrefsNonempty a
  tree : a.onModel = true → IsTree d nodes T ∧ Covers nodes T

namespace Ground

/-- What a query says about an assignment as it is encoded. -/
def encoded (d : Nat) (T : DTree) (σ : Asg) : Ground → Prop
  | .nil => False
  | .tt => True
  | .atom a lv stack => a.encoded d T stack fun t => (t.res lv stack).den σ
  | .and g1 g2 => g1.encoded d T σ ∧ g2.encoded d T σ
  | .or g1 g2 => g1.encoded d T σ ∨ g2.encoded d T σ
  | .not g => ¬ g.encoded d T σ
  | .decl _ g => g.encoded d T σ

/-- The auxiliary variables that appear in the clauses of a query. -/
def emits (d : Nat) : Ground → List (QVar × Role)
  | .nil => []
  | .tt => []
  | .atom a lv stack => a.emits d lv stack
  | .and g1 g2 => g1.emits d ++ g2.emits d
  | .or g1 g2 => g1.emits d ++ g2.emits d
  | .not g => g.emits d
  | .decl _ g => g.emits d

/-- The predicates fit, and names are declared before they are used, in the order of the text. -/
def Loose (d : Nat) (nodes : List Node) (T : DTree) : List QVar → Ground → Prop
  | _, .nil => False
  | _, .tt => True
  | Γ, .atom a lv stack => a.Loose d nodes T a.vars stack ∧ ∀ x ∈ a.vars, x ++ suffix (stack.take (lv x)) ∈ Γ
  | Γ, .and g1 g2 => g1.Loose d nodes T Γ ∧ g2.Loose d nodes T (g1.names ++ Γ)
  | Γ, .or g1 g2 => g1.Loose d nodes T Γ ∧ g2.Loose d nodes T (g1.names ++ Γ)
  | Γ, .not g => g.Loose d nodes T Γ
  | Γ, .decl n g => g.Loose d nodes T (n :: Γ)

/-- No predicate is blind. -/
def sighted (d : Nat) : Ground → Bool
  | .nil => true
  | .tt => true
  | .atom a _ stack => !a.blind d stack
  | .and g1 g2 => g1.sighted d && g2.sighted d
  | .or g1 g2 => g1.sighted d && g2.sighted d
  | .not g => g.sighted d
  | .decl _ g => g.sighted d

end Ground

end Goexpdt

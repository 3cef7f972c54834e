import Verif.Spec.Fo
/-
Specification: what a query says when names are declared more than once.

The context gives a name to every occurrence of a variable: `AddVar` records the depth of the innermost open quantifier, if none is
recorded, until that quantifier ends. `Query.ground` replaces the quantifiers by one copy of their body for every node of the tree, and every
declaration by the name that it gets. What the result says is then a matter of names only.
-/
namespace Goexpdt
open Spec

/-- The depths recorded for variables; 0 if none is. -/
abbrev Levels := QVar → Nat

/-- Declaring `x` at depth `k`. -/
def Levels.declare (lv : Levels) (k : Nat) (x : QVar) : Levels := fun y => if y = x ∧ lv x = 0 then k else lv y

/-- The depths recorded after a query at depth `k`: those of variables declared in a guarded quantifier are forgotten at its end. -/
def Query.levels (k : Nat) : Levels → Query → Levels
  | lv, .nil => lv
  | lv, .atom _ => lv
  | lv, .and q1 q2 => q2.levels k (q1.levels k lv)
  | lv, .or q1 q2 => q2.levels k (q1.levels k lv)
  | lv, .not q => q.levels k lv
  | lv, .withVar x q => q.levels k (lv.declare k x)
  | lv, .forallG _ _ => lv

/-- A query without quantifiers over nodes, with the names of all declarations, and the depths recorded at every predicate. -/
inductive Ground where
  | nil
  | tt
  | atom (a : Atom) (lv : Levels) (stack : List Scope)
  | and (g1 g2 : Ground)
  | or (g1 g2 : Ground)
  | not (g : Ground)
  | decl (n : QVar) (g : Ground)

/-- The conjunction of a list. -/
def Ground.conj : List Ground → Ground
  | [] => .tt
  | g :: gs => .and g (.conj gs)

/-- `f` applied `i` times. -/
def times {α : Type} (f : α → α) : Nat → α → α
  | 0, a => a
  | i + 1, a => f (times f i a)

/-- A query where the open scopes are `stack` and the recorded depths are `lv`. What is recorded in an iteration of a quantifier is still
there in the next. -/
def Query.ground (d : Nat) (T : DTree) : List Scope → Levels → Query → Ground
  | _, _, .nil => .nil
  | stack, lv, .atom a => .atom a lv stack
  | stack, lv, .and q1 q2 => .and (q1.ground d T stack lv) (q2.ground d T stack (q1.levels stack.length lv))
  | stack, lv, .or q1 q2 => .or (q1.ground d T stack lv) (q2.ground d T stack (q1.levels stack.length lv))
  | stack, lv, .not q => .not (q.ground d T stack lv)
  | stack, lv, .withVar x q =>
      let lv := lv.declare stack.length x
      .decl (x ++ suffix (stack.take (lv x))) (q.ground d T stack lv)
  | stack, lv, .forallG c q => .conj ((scopesOf d T c.id).mapIdx fun i g =>
      q.ground d T (stack ++ [g]) (times (fun lv => q.levels (stack.length + 1) lv) i lv))

namespace Ground

/-- What is said about an assignment. -/
def sem (d : Nat) (T : DTree) (σ : Asg) : Ground → Prop
  | .nil => False
  | .tt => True
  | .atom a lv stack => a.says d T fun t => (t.res lv stack).den σ
  | .and g1 g2 => g1.sem d T σ ∧ g2.sem d T σ
  | .or g1 g2 => g1.sem d T σ ∨ g2.sem d T σ
  | .not g => ¬ g.sem d T σ
  | .decl _ g => g.sem d T σ

/-- The declared names. -/
def names : Ground → List QVar
  | .nil => []
  | .tt => []
  | .atom _ _ _ => []
  | .and g1 g2 => g1.names ++ g2.names
  | .or g1 g2 => g1.names ++ g2.names
  | .not g => g.names
  | .decl n g => n :: g.names

/-- The auxiliary variables. -/
def uses : Ground → List (QVar × Role)
  | .nil => []
  | .tt => []
  | .atom a lv stack => a.uses lv stack
  | .and g1 g2 => g1.uses ++ g2.uses
  | .or g1 g2 => g1.uses ++ g2.uses
  | .not g => g.uses
  | .decl _ g => g.uses

/-- The predicates fit, and names are declared before they are used, in the order of the text. (`Γ` are the names declared before.) A
declaration does not have to be around the uses. -/
def Fits (d : Nat) (nodes : List Node) (T : DTree) : List QVar → Ground → Prop
  | _, .nil => False
  | _, .tt => True
  | Γ, .atom a lv stack => a.Fits d nodes T a.vars stack ∧ ∀ x ∈ a.vars, x ++ suffix (stack.take (lv x)) ∈ Γ
  | Γ, .and g1 g2 => g1.Fits d nodes T Γ ∧ g2.Fits d nodes T (g1.names ++ Γ)
  | Γ, .or g1 g2 => g1.Fits d nodes T Γ ∧ g2.Fits d nodes T (g1.names ++ Γ)
  | Γ, .not g => g.Fits d nodes T Γ
  | Γ, .decl n g => g.Fits d nodes T (n :: Γ)

end Ground

/-- The query contains a guarded quantifier. -/
def Query.loops : Query → Bool
  | .nil => false
  | .atom _ => false
  | .and q1 q2 => q1.loops || q2.loops
  | .or q1 q2 => q1.loops || q2.loops
  | .not q => q.loops
  | .withVar _ q => q.loops
  | .forallG _ _ => true

/-- The query at the outermost level. -/
def Query.flat (d : Nat) (T : DTree) (q : Query) : Ground := q.ground d T [] fun _ => 0

/-- The conditions of `C65` on a query. -/
structure Query.Sound (d : Nat) (nodes : List Node) (T : DTree) (q : Query) : Prop where
  dim : 0 < d
  tree : q.loops = true → IsTree d nodes T ∧ Covers nodes T
  fits : (q.flat d T).Fits d nodes T []
  clean : Hygienic d T (q.flat d T).names (q.flat d T).uses

/-! ### first-order semantics -/

/-- Every occurrence of a variable gets the name of the innermost declaration around it. `lv` are the depths recorded, `lex` those of the
innermost declarations, `k` is the depth of the position. Both the first and the later iterations of quantifiers count. -/
def Query.Lexical : Nat → Levels → Levels → Query → Prop
  | _, _, _, .nil => True
  | _, lv, lex, .atom a => ∀ x ∈ a.vars, lv x = lex x
  | k, lv, lex, .and q1 q2 => q1.Lexical k lv lex ∧ q2.Lexical k (q1.levels k lv) lex
  | k, lv, lex, .or q1 q2 => q1.Lexical k lv lex ∧ q2.Lexical k (q1.levels k lv) lex
  | k, lv, lex, .not q => q.Lexical k lv lex
  | k, lv, lex, .withVar x q => lv.declare k x x = k ∧ q.Lexical k (lv.declare k x) (upd lex x k)
  | k, lv, lex, .forallG _ q => q.Lexical (k + 1) lv lex ∧ q.Lexical (k + 1) (q.levels (k + 1) lv) lex

/-- The declarations of a query: variable, and the constants of the quantifiers around it. -/
def Query.places : List (List Char) → Query → List (QVar × List (List Char))
  | _, .nil => []
  | _, .atom _ => []
  | ids, .and q1 q2 => q1.places ids ++ q2.places ids
  | ids, .or q1 q2 => q1.places ids ++ q2.places ids
  | ids, .not q => q.places ids
  | ids, .withVar x q => (x, ids) :: q.places ids
  | ids, .forallG c q => q.places (ids ++ [c.id])

/-- Variables are used where they are declared. -/
def Query.Closed : List QVar → Query → Prop
  | _, .nil => True
  | Γ, .atom a => ∀ x ∈ a.vars, x ∈ Γ
  | Γ, .and q1 q2 => q1.Closed Γ ∧ q2.Closed Γ
  | Γ, .or q1 q2 => q1.Closed Γ ∧ q2.Closed Γ
  | Γ, .not q => q.Closed Γ
  | Γ, .withVar x q => q.Closed (x :: Γ)
  | Γ, .forallG _ q => q.Closed Γ

/-- The conditions of `C66` beyond those of `C65`. A variable may be declared several times, in different quantifiers. -/
structure Query.WellScoped (q : Query) : Prop where
  positive : q.Positive
  closed : q.Closed []
  lexical : q.Lexical 0 (fun _ => 0) (fun _ => 0)
  distinct : (q.places []).Nodup
  names : ∀ x ∈ q.binders, sep ∉ x
  guards : q.GuardsApart []

end Goexpdt

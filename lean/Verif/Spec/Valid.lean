import Verif.Spec.Formula
/-
Specification: the queries that can be encoded.
-/
namespace Goexpdt.Spec

/-- The length of the value that a constant has where scopes with the given names and lengths of values are open, the outermost
scope first. -/
def lengthIn (opened : List (List Char × Nat)) (c : QConst) : Nat :=
  match opened.find? (fun p => p.1 == c.id) with
  | some p => p.2
  | none => c.val.length

/-- A predicate that can be encoded: it has the generators that it uses, its constants have the dimension of the model, its preference
consists of different features of the model, and is not empty if there is a variable. -/
structure Atom.Valid (d : Nat) (opened : List (List Char × Nat)) (a : Atom) : Prop where
  gens : Atom.nilGen a = false
  dims : ∀ c ∈ Atom.consts a, lengthIn opened c = d
  pref : a.PrefOk d
  prefne : Atom.PrefsNonempty a

/-- A query that can be encoded: nothing is nil, and the predicates can be encoded where they are. -/
def Query.Valid (d : Nat) : List (List Char × Nat) → Query → Prop
  | _, .nil => False
  | o, .atom a => Atom.Valid d o a
  | o, .and q1 q2 => Query.Valid d o q1 ∧ Query.Valid d o q2
  | o, .or q1 q2 => Query.Valid d o q1 ∧ Query.Valid d o q2
  | o, .not q => Query.Valid d o q
  | o, .withVar _ q => Query.Valid d o q
  | o, .forallG c q => Query.Valid d (o ++ [(c.id, d)]) q

end Goexpdt.Spec

import Verif.Spec.Meaning
/-
Specification: syntactic conditions on a query under which the names of its auxiliary variables do not
clash (property C54). Nothing here refers to scopes, encodings or the meaning of queries.
-/
namespace Goexpdt
open Spec

/-- The record separator of ASCII. -/
def recSep : Char := '\x1e'

/-- Names of the form `tag`, separator, name. -/
def tagged1 (tag : List Char) (v : QVar) : QVar := tag ++ recSep :: v

/-- Names of the form `tag`, separator, smaller name, separator, larger name, in lexicographic order. -/
def tagged2 (tag : List Char) (v1 v2 : QVar) : QVar :=
  if v1 < v2 then tag ++ recSep :: (v1 ++ recSep :: v2) else tag ++ recSep :: (v2 ++ recSep :: v1)

/-- Names of the form `tag` and three names with separators. -/
def tagged3 (tag : List Char) (p v1 v2 : QVar) : QVar := tag ++ recSep :: (p ++ recSep :: (v1 ++ recSep :: v2))

/-- The tags of the generators. -/
structure Tags where
  count : List Char
  node : List Char
  comp : List Char
  pref : List Char
  dist : List Char
  same : List Char

/-- The tags do not contain the separator and differ, except perhaps those of isnode and allcomp. -/
structure Tags.Ok (t : Tags) : Prop where
  sep : ∀ x ∈ [t.count, t.node, t.comp, t.pref, t.dist, t.same], recSep ∉ x
  node : [t.count, t.node, t.pref, t.dist, t.same].Nodup
  comp : [t.count, t.comp, t.pref, t.dist, t.same].Nodup

/-- The tags of the generators in query/internal/test/auxvar.go. -/
def testTags : Tags where
  count := "botc".toList
  node := "reach".toList
  comp := "reach".toList
  pref := "fp".toList
  dist := "hdist".toList
  same := "eqf".toList

/-- A variable name: no separator, and the first character does not occur in the keys of constants. -/
def NameOk (x : QVar) : Prop := recSep ∉ x ∧ ∃ c l, x = c :: l ∧ c ∉ ['_', '0', '1']

/-- The predicate uses the generators with the tags `t` wherever it uses one, and is not of the type
`leh.ConstVarConst`. -/
def Atom.Tidy (t : Tags) : Atom → Prop
  | .lel (.const _) (.const _) _ => True
  | .lel _ _ g => g = some (tagged1 t.count)
  | .isnode (.var _) g => g = some (tagged1 t.node)
  | .allcomp (.var _) _ g => g = some (tagged1 t.comp)
  | .hepr (.const _) (.const _) _ _ => True
  | .hepr _ _ _ g => g = some (tagged3 t.pref)
  | .leh (.const _) (.const _) (.const _) _ _ => True
  | .leh (.const _) (.var _) (.const _) _ _ => False
  | .leh (.const _) _ _ g _ => g = some (tagged2 t.dist)
  | .leh (.var _) (.const _) (.const _) g _ => g = some (tagged2 t.dist)
  | .leh (.var _) _ _ g e => g = some (tagged2 t.dist) ∧ e = some (tagged2 t.same)
  | _ => True

/-- The generators, the declared variables and the names of the guarded quantifiers are as required. -/
def Query.Tidy (t : Tags) : Query → Prop
  | .nil => True
  | .atom a => a.Tidy t
  | .and q1 q2 => q1.Tidy t ∧ q2.Tidy t
  | .or q1 q2 => q1.Tidy t ∧ q2.Tidy t
  | .not q => q.Tidy t
  | .withVar x q => NameOk x ∧ q.Tidy t
  | .forallG c q => recSep ∉ c.id ∧ q.Tidy t

/-- The predicates of a query. -/
def Query.atoms : Query → List Atom
  | .nil => []
  | .atom a => [a]
  | .and q1 q2 => q1.atoms ++ q2.atoms
  | .or q1 q2 => q1.atoms ++ q2.atoms
  | .not q => q.atoms
  | .withVar _ q => q.atoms
  | .forallG _ q => q.atoms

/-- isnode.Var. -/
def Atom.isNodeVar : Atom → Bool
  | .isnode (.var _) _ => true
  | _ => false

/-- allcomp.Var. -/
def Atom.isCompVar : Atom → Bool
  | .allcomp (.var _) _ _ => true
  | _ => false

/-- The preference order of a predicate. -/
def Atom.prefs : Atom → List (List Int)
  | .hepr _ _ p _ => [p]
  | _ => []

/-- The names of different preference orders in the query differ, and isnode and allcomp do not share
auxiliary variables. -/
structure Query.Separate (t : Tags) (q : Query) : Prop where
  prefs : ∀ p ∈ q.atoms.flatMap Atom.prefs, ∀ p' ∈ q.atoms.flatMap Atom.prefs, prefVar p = prefVar p' → p = p'
  reach : t.node ≠ t.comp ∨ q.atoms.any Atom.isNodeVar = false ∨ q.atoms.any Atom.isCompVar = false

/-- In `leh.ConstConstVar` the constants are not ones that a guarded quantifier with a name in `ids` replaces. -/
def Atom.Uncaptured (ids : List (List Char)) : Atom → Prop
  | .leh (.const c1) (.const c2) (.var _) _ _ => c1.id ∉ ids ∧ c2.id ∉ ids
  | _ => True

/-- The predicate speaks about declared variables and constants of dimension `d`, and is not one of the
cases that the code decides wrongly. -/
structure Atom.Scoped (d : Nat) (Γ : List QVar) (ids : List (List Char)) (a : Atom) : Prop where
  vars : ∀ x ∈ a.vars, x ∈ Γ
  consts : ∀ c ∈ Spec.Atom.consts a, GoodVals d c.val
  pref : a.PrefOk d
  prefne : Spec.Atom.PrefsNonempty a
  regular : a.Regular d []
  uncaptured : a.Uncaptured ids

/-- There is no nil, variables are used where they are declared, every variable is declared below as
many guarded quantifiers as `depth` says, and the predicates are as required. `ids` are the names of
the enclosing guarded quantifiers. -/
def Query.Scoped (d : Nat) (depth : QVar → Nat) : List QVar → List (List Char) → Query → Prop
  | _, _, .nil => False
  | Γ, ids, .atom a => a.Scoped d Γ ids
  | Γ, ids, .and q1 q2 => q1.Scoped d depth Γ ids ∧ q2.Scoped d depth Γ ids
  | Γ, ids, .or q1 q2 => q1.Scoped d depth Γ ids ∧ q2.Scoped d depth Γ ids
  | Γ, ids, .not q => q.Scoped d depth Γ ids
  | Γ, ids, .withVar x q => depth x = ids.length ∧ q.Scoped d depth (x :: Γ) ids
  | Γ, ids, .forallG c q => q.Scoped d depth Γ (ids ++ [c.id])

end Goexpdt

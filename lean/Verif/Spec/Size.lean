import Verif.Model.Syntax
/-
Specification: the size of a formula and of a query.
-/
namespace Goexpdt

/-- How many numbers the DIMACS lines of the clauses contain: the literals and the final zeros. -/
def Spec.weight (cls : List Clause) : Nat := (cls.map fun cl => cl.length + 1).sum

/-- The size of a formula: how many numbers its DIMACS lines contain. -/
def CNF.weight (c : CNF) : Nat := Spec.weight c.sClauses + Spec.weight c.cClauses

/-- The number of operators and predicates of a query. -/
def Query.size : Query → Nat
  | .nil => 1
  | .atom _ => 1
  | .and q1 q2 => size q1 + size q2 + 1
  | .or q1 q2 => size q1 + size q2 + 1
  | .not q => size q + 1
  | .withVar _ q => size q + 1
  | .forallG _ q => size q + 1

/-- How deeply guarded quantifiers are nested. -/
def Query.rank : Query → Nat
  | .nil => 0
  | .atom _ => 0
  | .and q1 q2 => max (rank q1) (rank q2)
  | .or q1 q2 => max (rank q1) (rank q2)
  | .not q => rank q
  | .withVar _ q => rank q
  | .forallG _ q => rank q + 1

/-- `r` nested guarded quantifiers around a predicate. -/
def nested (c : QConst) (a : Atom) : Nat → Query
  | 0 => .atom a
  | r + 1 => .forallG c (nested c a r)

end Goexpdt

import Verif.Model.Syntax
import Verif.Spec.History
/-
Specification: the contexts a program can get by public calls, and parts of queries.
-/
namespace Goexpdt.Spec

/-- Contexts reachable from a new one by calls of context methods and by encoding queries, whatever
their outcomes. -/
inductive Reachable (d : Nat) (nodes : List Node) : Ctx → Prop
  | new : Reachable d nodes (BasicQContext d nodes)
  | call {s : Ctx} (op : Op) : Reachable d nodes s → Reachable d nodes (op.exec s)
  | encode {s : Ctx} (q : Query) : Reachable d nodes s → Reachable d nodes (q.encode s).2

/-- The same without calls of `Reset`. -/
inductive ReachableNR (d : Nat) (nodes : List Node) : Ctx → Prop
  | new : ReachableNR d nodes (BasicQContext d nodes)
  | call {s : Ctx} (op : Op) : op ≠ .reset → ReachableNR d nodes s → ReachableNR d nodes (op.exec s)
  | encode {s : Ctx} (q : Query) : ReachableNR d nodes s → ReachableNR d nodes (q.encode s).2

/-- The constants of a term. -/
def Term.consts : Term → List QConst
  | .const c => [c]
  | .var _ => []

/-- The constants of a predicate. -/
def Atom.consts : Atom → List QConst
  | .subs t1 t2 => Term.consts t1 ++ Term.consts t2
  | .lel t1 t2 _ => Term.consts t1 ++ Term.consts t2
  | .isnode t _ => Term.consts t
  | .full t => Term.consts t
  | .cons t1 t2 => Term.consts t1 ++ Term.consts t2
  | .allcomp t _ _ => Term.consts t
  | .dfs t => Term.consts t
  | .hepr t1 t2 _ _ => Term.consts t1 ++ Term.consts t2
  | .leh t1 t2 t3 _ _ => Term.consts t1 ++ Term.consts t2 ++ Term.consts t3

/-- A term is a variable. -/
def Term.isVar : Term → Bool
  | .const _ => false
  | .var _ => true

/-- A generator that the type of the predicate has is nil. (Types without variables have no
generators; `leh` uses the feature equality variables when the first and another argument are
variables.) -/
def Atom.nilGen : Atom → Bool
  | .lel t1 t2 g => (Term.isVar t1 || Term.isVar t2) && g.isNone
  | .isnode t g => Term.isVar t && g.isNone
  | .allcomp t _ g => Term.isVar t && g.isNone
  | .hepr t1 t2 _ g => (Term.isVar t1 || Term.isVar t2) && g.isNone
  | .leh t1 t2 t3 g e => ((Term.isVar t1 || Term.isVar t2 || Term.isVar t3) && g.isNone) ||
      (Term.isVar t1 && (Term.isVar t2 || Term.isVar t3) && e.isNone)
  | _ => false

/-- A child of the query (not of its children) is nil. -/
def Query.nilChild : Query → Bool
  | .and q1 q2 => isNil q1 || isNil q2
  | .or q1 q2 => isNil q1 || isNil q2
  | .not q => isNil q
  | .withVar _ q => isNil q
  | .forallG _ q => isNil q
  | _ => false
where
  /-- the nil interface value -/
  isNil : Query → Bool
    | .nil => true
    | _ => false

/-- Somewhere in the query there is a nil child, a nil generator or a constant for which `bad`
holds. -/
def Query.Defect (bad : Atom → Prop) : Query → Prop
  | .nil => True
  | .atom a => bad a
  | .and q1 q2 => Query.Defect bad q1 ∨ Query.Defect bad q2
  | .or q1 q2 => Query.Defect bad q1 ∨ Query.Defect bad q2
  | .not q => Query.Defect bad q
  | .withVar _ q => Query.Defect bad q
  | .forallG _ q => Query.Defect bad q

/-- The preference order is not empty in the types of `hepr` with a variable. -/
def Atom.PrefsNonempty : Atom → Prop
  | .hepr (.const _) (.const _) _ _ => True
  | .hepr _ _ p _ => p ≠ []
  | _ => True

/-- The same for all predicates in a query. -/
def Query.PrefsNonempty : Query → Prop
  | .nil => True
  | .atom a => Atom.PrefsNonempty a
  | .and q1 q2 => Query.PrefsNonempty q1 ∧ Query.PrefsNonempty q2
  | .or q1 q2 => Query.PrefsNonempty q1 ∧ Query.PrefsNonempty q2
  | .not q => Query.PrefsNonempty q
  | .withVar _ q => Query.PrefsNonempty q
  | .forallG _ q => Query.PrefsNonempty q

end Goexpdt.Spec

import Verif.Spec.Meaning
/-
Specification: first-order semantics of queries. `WithVar x q` is "there is a partial instance x such
that q", `ForAllGuarded c q` is "for every node of the tree, with c its instance, q".
-/
namespace Goexpdt
open Spec

/-- The value of a term, where `env` gives the values of variables and `guards` those of the constants
bound by guarded quantifiers. -/
def Term.val (env : QVar → PInst) (guards : List Char → Option PInst) : Term → PInst
  | .const c => (guards c.id).getD (den c.val)
  | .var x => env x

/-- `f` with the value at `k` replaced. -/
def upd {κ α : Type} [DecidableEq κ] (f : κ → α) (k : κ) (a : α) : κ → α := fun k' => if k' = k then a else f k'

/-- Truth of a query in first-order semantics. -/
def Query.fo (d : Nat) (T : DTree) : (QVar → PInst) → (List Char → Option PInst) → Query → Prop
  | _, _, .nil => False
  | env, guards, .atom a => a.says d T (Term.val env guards)
  | env, guards, .and q1 q2 => q1.fo d T env guards ∧ q2.fo d T env guards
  | env, guards, .or q1 q2 => q1.fo d T env guards ∨ q2.fo d T env guards
  | env, guards, .not q => ¬ q.fo d T env guards
  | env, guards, .withVar x q => ∃ e : PInst, q.fo d T (upd env x e) guards
  | env, guards, .forallG c q => ∀ p ∈ T.nodeInsts bot, q.fo d T env (upd guards c.id (some p.2))

/-- The variables a query declares. -/
def Query.binders : Query → List QVar
  | .nil => []
  | .atom _ => []
  | .and q1 q2 => q1.binders ++ q2.binders
  | .or q1 q2 => q1.binders ++ q2.binders
  | .not q => q.binders
  | .withVar x q => x :: q.binders
  | .forallG _ q => q.binders

/-- Nothing is declared below a negation. -/
def Query.Positive : Query → Prop
  | .nil => True
  | .atom _ => True
  | .and q1 q2 => q1.Positive ∧ q2.Positive
  | .or q1 q2 => q1.Positive ∧ q2.Positive
  | .not q => q.binders = []
  | .withVar _ q => q.Positive
  | .forallG _ q => q.Positive

/-- Nested guarded quantifiers bind constants with different names, none of which contains the
separator. -/
def Query.GuardsApart : List (List Char) → Query → Prop
  | _, .nil => True
  | _, .atom _ => True
  | ids, .and q1 q2 => q1.GuardsApart ids ∧ q2.GuardsApart ids
  | ids, .or q1 q2 => q1.GuardsApart ids ∧ q2.GuardsApart ids
  | ids, .not q => q.GuardsApart ids
  | ids, .withVar _ q => q.GuardsApart ids
  | ids, .forallG c q => c.id ∉ ids ∧ sep ∉ c.id ∧ q.GuardsApart (c.id :: ids)

/-- The conditions of `C40` beyond those of `C39`. -/
structure Query.Plain (q : Query) : Prop where
  positive : q.Positive
  distinct : q.binders.Nodup
  names : ∀ x ∈ q.binders, sep ∉ x
  guards : q.GuardsApart []

end Goexpdt

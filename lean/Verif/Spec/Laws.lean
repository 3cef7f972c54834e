import Verif.Spec.Tidy
/-
Specification: laws of logic, applied anywhere in a query (property C92).
-/
namespace Goexpdt
open Spec

/-- No predicate of the query is about the variable. -/
def Query.Without (x : QVar) (q : Query) : Prop := ∀ a ∈ q.atoms, x ∉ a.vars

/-- The queries differ by laws of logic. The last four let a declaration move outwards; since `WithVar` only declares, it may also move out of a
negation (C40 says when this is the meaning in first-order logic). -/
inductive Law : Query → Query → Prop
  | refl (q) : Law q q
  | symm {p q} : Law p q → Law q p
  | trans {p q r} : Law p q → Law q r → Law p r
  | and {p p' q q'} : Law p p' → Law q q' → Law (.and p q) (.and p' q')
  | or {p p' q q'} : Law p p' → Law q q' → Law (.or p q) (.or p' q')
  | not {p p'} : Law p p' → Law (.not p) (.not p')
  | withVar (x) {p p'} : Law p p' → Law (.withVar x p) (.withVar x p')
  | forallG (c) {p p'} : Law p p' → Law (.forallG c p) (.forallG c p')
  | andComm (p q) : Law (.and p q) (.and q p)
  | orComm (p q) : Law (.or p q) (.or q p)
  | andAssoc (p q r) : Law (.and (.and p q) r) (.and p (.and q r))
  | orAssoc (p q r) : Law (.or (.or p q) r) (.or p (.or q r))
  | andSelf (p) : Law (.and p p) p
  | orSelf (p) : Law (.or p p) p
  | notNot (p) : Law (.not (.not p)) p
  | notAnd (p q) : Law (.not (.and p q)) (.or (.not p) (.not q))
  | notOr (p q) : Law (.not (.or p q)) (.and (.not p) (.not q))
  | andOr (p q r) : Law (.and p (.or q r)) (.or (.and p q) (.and p r))
  | orAnd (p q r) : Law (.or p (.and q r)) (.and (.or p q) (.or p r))
  | guardAnd (c p q) : Law (.forallG c (.and p q)) (.and (.forallG c p) (.forallG c q))
  | swapVar (x y p) : Law (.withVar x (.withVar y p)) (.withVar y (.withVar x p))
  | andVar (x p) {q} : q.Without x → Law (.and (.withVar x p) q) (.withVar x (.and p q))
  | orVar (x p) {q} : q.Without x → Law (.or (.withVar x p) q) (.withVar x (.or p q))
  | notVar (x p) : Law (.not (.withVar x p)) (.withVar x (.not p))

end Goexpdt

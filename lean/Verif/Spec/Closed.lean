import Verif.Spec.Meaning
/-
Specification: exactness of a query with its variables declared at the top.
-/
namespace Goexpdt
open Spec

/-- `WithVar x1 (WithVar x2 (… q))`. -/
def declare : List QVar → Query → Query
  | [], q => q
  | x :: xs, q => .withVar x (declare xs q)

/-- The partial instance a term stands for outside of guarded quantifiers. -/
def Term.under (σ : Asg) : Term → PInst
  | .const c => den c.val
  | .var x => σ x

/-- A term over the variables `xs` and constants of dimension `d`. -/
def Term.Ok (d : Nat) (xs : List QVar) : Term → Prop
  | .const c => c.val.length = d ∧ ValidVals c.val
  | .var x => x ∈ xs

/-- In every context over the model in which none of the variables has been declared, the query is
encoded by a CNF that is faithful to `P`. -/
def Exactly (d : Nat) (nodes : List Node) (xs : List QVar) (q : Query) (P : Asg → Prop) : Prop :=
  ∀ s, Ready d nodes xs s → ∃ c s', q.encode s = (.ok c, s') ∧ WF c ∧ Faithful d xs P s' c

/-- The key by which a term appears in the names of auxiliary variables outside of guarded
quantifiers. -/
def Term.keyUnder : Term → QVar
  | .const c => c.asString
  | .var x => x

/-- The names a generator gives to the variables `xs` are different from each other and from `xs`. -/
def FreshGen (xs : List QVar) (g : QVar → QVar) : Prop := ∀ x ∈ xs, g x ∉ xs ∧ ∀ y ∈ xs, g y = g x → y = x

/-- Different unordered pairs of `ks` have different names. -/
def PairGen (ks : List QVar) (g : QVar → QVar → QVar) : Prop :=
  ∀ a ∈ ks, ∀ b ∈ ks, ∀ a' ∈ ks, ∀ b' ∈ ks, g a b = g a' b' → (a = a' ∧ b = b') ∨ (a = b' ∧ b = a')

/-- The generators of `leh` and the keys of constants do not clash with the variables or each other;
`ks` are the variables and the keys of the constants. -/
structure LehGens (xs : List QVar) (ts : List Term) (ks : List QVar) (g e : QVar → QVar → QVar) : Prop where
  all : xs ++ ts.map Term.keyUnder ⊆ ks
  pair : PairGen ks g
  pairE : PairGen ks e
  notVar : ∀ a ∈ ks, ∀ b ∈ ks, g a b ∉ xs ∧ e a b ∉ xs
  apart : ∀ a ∈ ks, ∀ b ∈ ks, ∀ a' ∈ ks, ∀ b' ∈ ks, g a b ≠ e a' b'
  keys : ∀ c, Term.const c ∈ ts → c.asString ∉ xs

end Goexpdt

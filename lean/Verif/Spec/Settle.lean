import Verif.Spec.Encoded
/-
Specification: auxiliary variables that get two meanings.

Nothing stops two predicates from naming an auxiliary variable alike. What the CNF of such a query says can still be told: the consistency
clauses of both predicates must hold, so the assignments that remain are those for which both meanings are the same.
-/
namespace Goexpdt
open Spec

/-- The consistency clauses leave no choice for the triples of an auxiliary variable with this purpose. (The features of two variables are
compared only as far as both are defined.) -/
def Role.settled : Role → Bool
  | .same _ _ => false
  | .dist _ (.name _) => false
  | _ => true

/-- The same, for this assignment: features can be compared if all of them are defined. -/
def Role.clear (d : Nat) (σ : Asg) : Role → Prop
  | .same n m => Full d (σ n) ∧ Full d (σ m)
  | .dist t (.name m) => Full d (t.den σ) ∧ Full d (σ m)
  | _ => True

/-- The auxiliary variables of a predicate for which its consistency clauses leave no choice. -/
def Atom.settles (d : Nat) (depth : QVar → Nat) (stack : List Scope) (a : Atom) : List (QVar × Role) :=
  match a with
  | .leh .. => (a.emits d depth stack).filter (·.2.settled)
  | _ => a.emits d depth stack

/-- The auxiliary variables for which the consistency clauses leave no choice. -/
def Ground.settles (d : Nat) : Ground → List (QVar × Role)
  | .nil => []
  | .tt => []
  | .atom a lv stack => a.settles d lv stack
  | .and g1 g2 => g1.settles d ++ g2.settles d
  | .or g1 g2 => g1.settles d ++ g2.settles d
  | .not g => g.settles d
  | .decl _ g => g.settles d

/-- The conditions of `C75` on a query: those of `C65`, except that auxiliary variables may have several meanings, and that `leh` may be
used in any way. -/
structure Query.Encodable (d : Nat) (nodes : List Node) (T : DTree) (q : Query) : Prop where
  dim : 0 < d
  tree : q.loops = true → IsTree d nodes T ∧ Covers nodes T
  fits : (q.flat d T).Loose d nodes T []
  apart : ∀ u ∈ (q.flat d T).emits d, u.1 ∉ (q.flat d T).names

/-- What the CNF `c`, encoded into context `s'`, says about the instances named `names` if the auxiliary variables `uses` may have several
meanings, of which those of `settles` are enforced. -/
structure Shared (d : Nat) (nodes : List Node) (T : DTree) (names : List QVar) (P : Asg → Prop) (settles uses : List (QVar × Role)) (s' : Ctx)
    (c : CNF) : Prop where
  /-- the consistency clauses make all names stand for instances … -/
  reads : ∀ β, ConTrue β c → ∃ σ : Asg, ∀ n ∈ names, Reads d s' β n (σ n)
  /-- … and exclude those for which the enforced meanings contradict each other … -/
  settled : ∀ β σ, ConTrue β c → (∀ n ∈ names, Reads d s' β n (σ n)) → Coherent d nodes T settles σ
  /-- … but none for which no meanings do -/
  con : ∀ σ, Coherent d nodes T uses σ → ∃ β, ConTrue β c ∧ ∀ n ∈ names, Reads d s' β n (σ n)
  /-- under them the semantic clauses decide `P` -/
  sem : ∀ β σ, ConTrue β c → (∀ n ∈ names, Reads d s' β n (σ n)) → (SemTrue β c ↔ P σ)

/-- The instance defines the features on a path of the tree to a leaf. -/
def Lands (e : PInst) : DTree → Prop
  | .leaf _ _ => True
  | .node _ f z o => (e f = some false ∧ Lands e z) ∨ (e f = some true ∧ Lands e o)

/-- An auxiliary variable has one meaning, except that `isnode` and `allcomp` may share theirs for one variable. -/
def NodesShared (uses : List (QVar × Role)) : Prop :=
  ∀ u ∈ uses, ∀ u' ∈ uses, u'.1 = u.1 → u'.2 = u.2 ∨
    ∃ n, (u.2 = .onPath n ∧ u'.2 = .reach n) ∨ (u.2 = .reach n ∧ u'.2 = .onPath n)

/-- The variables for which `isnode` and `allcomp` share auxiliary variables. -/
def sharedBy (uses : List (QVar × Role)) (n : QVar) : Prop := ∃ a, (a, Role.onPath n) ∈ uses ∧ (a, Role.reach n) ∈ uses

end Goexpdt

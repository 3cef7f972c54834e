import Verif.Spec.Formula
/-
Specification: what a whole query says, and the conditions under which its encoding is claimed to be
exact.

A query variable declared below guarded quantifiers stands for one instance per combination of
iterations; these copies have different scoped names. `Query.sem` reads a query over an assignment
of partial instances to scoped names.
-/
namespace Goexpdt
open Spec

/-- The feature values of a partial instance. -/
def valsOf (d : Nat) (e : PInst) : List FeatV := (List.range d).map fun i => valOf (e i)

/-- The scope of the `i`-th iteration over the nodes of the tree, in which the constant named `id`
has the value of that node's instance. -/
def scopeAt (d : Nat) (id : List Char) (i : Nat) (p : Nat × PInst) : Scope := ⟨id, valsOf d p.2, i⟩

/-- The scopes of all iterations. -/
def scopesOf (d : Nat) (T : DTree) (id : List Char) : List Scope :=
  (T.nodeInsts bot).zipIdx.map fun p => scopeAt d id p.2 p.1

/-- What a query says about an assignment, where the open scopes are `stack`: `WithVar` only
declares, `ForAllGuarded` ranges over the nodes of the tree. -/
def Query.sem (d : Nat) (T : DTree) (depth : QVar → Nat) (σ : Asg) : List Scope → Query → Prop
  | _, .nil => False
  | stack, .atom a => a.says d T fun t => (t.res depth stack).den σ
  | stack, .and q1 q2 => q1.sem d T depth σ stack ∧ q2.sem d T depth σ stack
  | stack, .or q1 q2 => q1.sem d T depth σ stack ∨ q2.sem d T depth σ stack
  | stack, .not q => ¬ q.sem d T depth σ stack
  | stack, .withVar _ q => q.sem d T depth σ stack
  | stack, .forallG c q => ∀ g ∈ scopesOf d T c.id, q.sem d T depth σ (stack ++ [g])

/-- The scoped names of the variables a query declares. -/
def Query.names (d : Nat) (T : DTree) : List Scope → Query → List QVar
  | _, .nil => []
  | _, .atom _ => []
  | stack, .and q1 q2 => q1.names d T stack ++ q2.names d T stack
  | stack, .or q1 q2 => q1.names d T stack ++ q2.names d T stack
  | stack, .not q => q.names d T stack
  | stack, .withVar x q => (x ++ suffix stack) :: q.names d T stack
  | stack, .forallG c q => (scopesOf d T c.id).flatMap fun g => q.names d T (stack ++ [g])

/-- The auxiliary variables of all predicates of a query. -/
def Query.uses (d : Nat) (T : DTree) (depth : QVar → Nat) : List Scope → Query → List (QVar × Role)
  | _, .nil => []
  | stack, .atom a => a.uses depth stack
  | stack, .and q1 q2 => q1.uses d T depth stack ++ q2.uses d T depth stack
  | stack, .or q1 q2 => q1.uses d T depth stack ++ q2.uses d T depth stack
  | stack, .not q => q.uses d T depth stack
  | stack, .withVar _ q => q.uses d T depth stack
  | stack, .forallG c q => (scopesOf d T c.id).flatMap fun g => q.uses d T depth (stack ++ [g])

/-- The query can be encoded where the open scopes are `stack` and the variables `Γ` are declared:
there is no nil, variables are used where they are declared, every variable is declared at the one
depth `depth` gives, and the predicates fit. -/
def Query.Fits (d : Nat) (nodes : List Node) (T : DTree) (depth : QVar → Nat) :
    List QVar → List Scope → Query → Prop
  | _, _, .nil => False
  | Γ, stack, .atom a => a.Fits d nodes T Γ stack
  | Γ, stack, .and q1 q2 => q1.Fits d nodes T depth Γ stack ∧ q2.Fits d nodes T depth Γ stack
  | Γ, stack, .or q1 q2 => q1.Fits d nodes T depth Γ stack ∧ q2.Fits d nodes T depth Γ stack
  | Γ, stack, .not q => q.Fits d nodes T depth Γ stack
  | Γ, stack, .withVar x q => depth x = stack.length ∧ q.Fits d nodes T depth (x :: Γ) stack
  | Γ, stack, .forallG c q => IsTree d nodes T ∧ Covers nodes T ∧
      ∀ g ∈ scopesOf d T c.id, q.Fits d nodes T depth Γ (stack ++ [g])

/-- The names of auxiliary variables do not clash: they are not names of declared variables, and an
auxiliary name has one meaning only. -/
def Hygienic (d : Nat) (T : DTree) (names : List QVar) (uses : List (QVar × Role)) : Prop :=
  ∀ u ∈ uses, u.1 ∉ names ∧
    ∀ u' ∈ uses, u'.1 = u.1 → ∀ σ i v, u'.2.mean d T σ i v = u.2.mean d T σ i v

/-- Under `σ` no auxiliary variable is meant to say two different things. -/
def Coherent (d : Nat) (nodes : List Node) (T : DTree) (uses : List (QVar × Role)) (σ : Asg) : Prop :=
  ∀ u ∈ uses, ∀ u' ∈ uses, u'.1 = u.1 → ∀ i v, u.2.range d nodes i v → u'.2.range d nodes i v →
    u'.2.mean d T σ i v = u.2.mean d T σ i v

/-- The conditions of `C39` on a closed query. -/
structure Query.Good (d : Nat) (nodes : List Node) (T : DTree) (depth : QVar → Nat) (q : Query) : Prop where
  dim : 0 < d
  fits : q.Fits d nodes T depth [] []
  clean : Hygienic d T (q.names d T []) (q.uses d T depth [])

/-- A context over the model in which a closed query with the declared names `names` can be encoded
from the start: no scope is open, no variable is recorded, and none of the names has been declared
before. -/
structure Ready (d : Nat) (nodes : List Node) (names : List QVar) (s : Ctx) : Prop where
  vm : VMok s
  dim : s.dim = d
  nodes : s.nodes = nodes
  scopes : s.scopes = []
  vars : s.vars = []
  fresh : ∀ n ∈ names, ¬ Declared s n

/-- The CNF `c`, encoded into context `s'`, is faithful to the statement `P` about the instances named
`names`. -/
structure Faithful (d : Nat) (names : List QVar) (P : Asg → Prop) (s' : Ctx) (c : CNF) : Prop where
  /-- satisfiability of the CNF is satisfiability of `P` -/
  sat : Satisfiable c ↔ ∃ σ, P σ
  /-- every model of the CNF is an assignment that makes `P` true -/
  decode : ∀ β, Models β c → ∃ σ, P σ ∧ ∀ n ∈ names, Reads d s' β n (σ n)
  /-- every assignment that makes `P` true is represented by a model of the CNF -/
  encode : ∀ σ, P σ → ∃ β, Models β c ∧ ∀ n ∈ names, Reads d s' β n (σ n)
  /-- the consistency clauses make all names stand for instances … -/
  reads : ∀ β, ConTrue β c → ∃ σ : Asg, ∀ n ∈ names, Reads d s' β n (σ n)
  /-- … and exclude no assignment -/
  con : ∀ σ : Asg, ∃ β, ConTrue β c ∧ ∀ n ∈ names, Reads d s' β n (σ n)
  /-- under them the semantic clauses decide `P` -/
  sem : ∀ β σ, ConTrue β c → (∀ n ∈ names, Reads d s' β n (σ n)) → (SemTrue β c ↔ P σ)

/-- The CNF `c`, encoded into context `s'`, says `P` about the instances named `names`. (This is less than `Faithful`: the consistency
clauses may be part of what is said.) -/
structure Says (d : Nat) (names : List QVar) (P : Asg → Prop) (s' : Ctx) (c : CNF) : Prop where
  /-- satisfiability of the CNF is satisfiability of `P` -/
  sat : Satisfiable c ↔ ∃ σ, P σ
  /-- every model of the CNF is an assignment that makes `P` true -/
  decode : ∀ β, Models β c → ∃ σ, P σ ∧ ∀ n ∈ names, Reads d s' β n (σ n)
  /-- every assignment that makes `P` true is represented by a model of the CNF -/
  encode : ∀ σ, P σ → ∃ β, Models β c ∧ ∀ n ∈ names, Reads d s' β n (σ n)

end Goexpdt

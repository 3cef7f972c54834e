import Verif.Spec.State
import Verif.Spec.Symb
import Verif.Spec.Tree
/-
Specification: what it means that the encoding of a component captures a proposition about the
partial instances its variables stand for.
-/
namespace Goexpdt
open Spec

/-- The feature value that stands for a value of a partial instance. -/
def valOf : Option Bool → FeatV
  | none => BOT
  | some false => ZERO
  | some true => ONE

/-- The feature values. -/
def featVals : List FeatV := [BOT, ZERO, ONE]

/-- An assignment of partial instances to scoped variable names. -/
abbrev Asg := QVar → PInst

/-- What is fixed for a whole encoding: the model, which names stand for instances and which of them may be
declared, what the triples
of the other (auxiliary) names are meant to say, at which depth of nested loops each query
variable is declared, and for which assignments the auxiliary names can mean all that they are meant to say. -/
structure World where
  dim : Nat
  nodes : List Node
  /-- scoped names of declared variables -/
  isInst : QVar → Prop
  /-- scoped names that components are allowed to declare -/
  may : QVar → Prop
  /-- `mean n σ i v`: the intended truth value of the triple `(n, i, v)` -/
  mean : QVar → Asg → Int → Int → Bool
  depth : QVar → Nat
  /-- the assignments for which no auxiliary name is meant to say two different things -/
  dom : Asg → Prop
  dim_pos : 0 < dim
  inst_mean : ∀ n, isInst n → ∀ σ (i : Nat), ∀ v ∈ featVals,
    mean n σ i v = decide (valOf (σ n i) = v)

/-- The name of query variable `x` where the open scopes are `stack`. -/
def World.nm (W : World) (stack : List Scope) (x : QVar) : QVar :=
  x ++ suffix (stack.take (W.depth x))

/-- The name has been declared: `WithVar` has added the clauses that make it an instance. -/
def Declared (s : Ctx) (n : QVar) : Prop := Named s ⟨n, 0, BOT⟩

/-- The valuation assigns instance `e` to the name `n`. -/
def Reads (d : Nat) (s : Ctx) (β : Val) (n : QVar) (e : PInst) : Prop :=
  ∀ i < d, ∀ v ∈ featVals, symVal s β ⟨n, (i : Nat), v⟩ = decide (valOf (e i) = v)

/-- The contexts in which a component with free query variables `Γ` may be encoded. -/
structure Pre (W : World) (Γ : List QVar) (s : Ctx) : Prop where
  vm : VMok s
  dim : s.dim = W.dim
  nodes : s.nodes = W.nodes
  scope : ScopeOk s
  fn : VarsFun s
  /-- declared variables are declared for all features -/
  inst : ∀ n, W.isInst n → Declared s n → ∀ i < W.dim, ∀ v ∈ featVals, Named s ⟨n, (i : Nat), v⟩
  depth : ∀ x k, mapGet s.vars x = some k → k = W.depth x
  free : ∀ x ∈ Γ, (W.depth x = 0 ∨ mapGet s.vars x = some (W.depth x)) ∧
    W.depth x ≤ s.scopes.length ∧ W.isInst (W.nm s.scopes x) ∧ Declared s (W.nm s.scopes x)

/-- The declared names stand for the instances of `σ`. -/
def Agree (W : World) (s : Ctx) (β : Val) (σ : Asg) : Prop :=
  ∀ n, W.isInst n → Declared s n → Reads W.dim s β n (σ n)

/-- All triples have the truth values they are meant to have under `σ`, and `σ` is an assignment for which they can. -/
def Canon (W : World) (s : Ctx) (β : Val) (σ : Asg) : Prop :=
  W.dom σ ∧ ∀ vr, Named s vr → symVal s β vr = W.mean vr.v σ vr.idx vr.val

/-- `β'` differs from `β` only at numbers between `m` and the top variable that belong to no triple. -/
def SameNamed (m : Int) (s : Ctx) (β β' : Val) : Prop :=
  ∀ k : Nat, ((k : Int) ≤ m ∨ s.topv < (k : Int) ∨ ∃ vr, mapGet s.vmap vr = some (k : Int)) → β' k = β k

/-- The changes of the context that an encoding may make: new triples are numbered, and variables of
the innermost scope are recorded. -/
structure Moves (W : World) (Γ : List QVar) (s s' : Ctx) : Prop where
  pre : Pre W Γ s'
  ext : Ext s s'
  scopes : s'.scopes = s.scopes
  keep : ∀ x k, mapGet s.vars x = some k → mapGet s'.vars x = some k
  new : ∀ x k, mapGet s'.vars x = some k →
    mapGet s.vars x = some k ∨ (k = s.scopes.length ∧ 0 < s.scopes.length)
  /-- only names that may be declared are declared -/
  decl : ∀ n, W.isInst n → Declared s' n → Declared s n ∨ W.may n

/-- The outcome of an encoding from `s` to `s'` with result `c` captures `P`. -/
structure Post (W : World) (Γ : List QVar) (s s' : Ctx) (c : CNF) (P : Asg → Prop) : Prop where
  moves : Moves W Γ s s'
  wf : WF c
  top : c.tv ≤ s'.topv
  /-- under the consistency clauses, names declared by the component stand for instances -/
  inst : ∀ β, ConTrue β c → ∀ n, W.isInst n → Declared s' n → ¬ Declared s n →
    ∃ e, Reads W.dim s' β n e
  /-- under the consistency clauses, the semantic clauses say `P` -/
  sem : ∀ β σ, ConTrue β c → Agree W s' β σ → (SemTrue β c ↔ P σ)
  /-- the consistency clauses can be satisfied, for every assignment in `W.dom` -/
  con : ∀ β σ, Canon W s' β σ → ∃ β', SameNamed s.topv s' β β' ∧ ConTrue β' c

/-- The component captures `P` wherever the open scopes are `stack` and the variables `Γ` are
declared. -/
def Captures (W : World) (Γ : List QVar) (stack : List Scope) (act : M CNF) (P : Asg → Prop) : Prop :=
  ∀ s, Pre W Γ s → s.scopes = stack → ∃ c s', act s = (.ok c, s') ∧ Post W Γ s s' c P

end Goexpdt

import Verif.Spec.Solver
import Verif.Spec.Ground
/-
Specification: contexts on which queries have been evaluated before.
-/
namespace Goexpdt
open Spec

/-- A context over the model, as it is between evaluations: no scope is open and no variable is recorded. The names may have been declared
before, but then for all features. -/
structure Reused (d : Nat) (nodes : List Node) (names : List QVar) (s : Ctx) : Prop where
  vm : VMok s
  dim : s.dim = d
  nodes : s.nodes = nodes
  scopes : s.scopes = []
  vars : s.vars = []
  whole : ∀ n ∈ names, Declared s n → ∀ i < d, ∀ v ∈ featVals, Named s ⟨n, (i : Nat), v⟩

/-- The CNF `c`, encoded from context `s` into context `s'`, does not exclude an assignment that makes `P` true, and says `P` of all names
if those declared in `s` stand for instances. -/
structure Permits (d : Nat) (names : List QVar) (P : Asg → Prop) (s s' : Ctx) (c : CNF) : Prop where
  /-- every assignment that makes `P` true is represented by a model of the CNF -/
  encode : ∀ σ, P σ → ∃ β, Models β c ∧ ∀ n ∈ names, Reads d s' β n (σ n)
  /-- a model of the CNF in which the names from before are instances is an assignment that makes `P` true -/
  decode : ∀ β, Models β c → (∀ n ∈ names, Declared s n → ∃ e, Reads d s' β n e) → ∃ σ, P σ ∧ ∀ n ∈ names, Reads d s' β n (σ n)

/-- `sat` computes `b` only if this is the truth value of `P`, without error, in every context in which the names may have been declared before. -/
def Leans {S : Type} (d : Nat) (nodes : List Node) (names : List QVar) (b : Bool) (sat : SatM S) (P : Prop) : Prop :=
  ∀ st s, Reused d nodes names s → ∃ a st' s', sat st s = (.ok a, st', s') ∧ (a = b → (b = true ↔ P)) ∧ Reused d nodes names s'

/-- The names of the query are among `names`, and none of its auxiliary variables is. -/
def Query.Within (d : Nat) (T : DTree) (names : List QVar) (q : Query) : Prop :=
  (∀ n ∈ (q.flat d T).names, n ∈ names) ∧ ∀ u ∈ (q.flat d T).uses, u.1 ∉ names

/-- `Step` only returns nil or `UnsatError` if the encoding succeeded. -/
def Careful {S : Type} (sv : Solver S) : Prop :=
  ∀ act st s, (∃ c, (act s).1 = .ok c) ∨ ∃ e, (sv.step (some act) st s).1 = .error (.other e)

/-- `Values` only returns constants without a name that consist of features, and changes nothing in the context but the numbering. -/
def Tidy {S : Type} (sv : Solver S) : Prop :=
  ∀ vs st s ks st' s', VMok s → sv.values vs st s = (.ok ks, st', s') →
    (∀ k ∈ ks, k.id = [] ∧ ValidVals k.val) ∧ s'.dim = s.dim ∧ s'.nodes = s.nodes ∧ s'.scopes = s.scopes ∧ s'.vars = s.vars

/-- The order cannot be encoded for a constant that does not have `d` features (outside of all scopes). -/
def Refuses (d : Nat) (ord : QConst → Query) : Prop :=
  ∀ b : List FeatV, b.length ≠ d → ∀ s : Ctx, s.dim = d ∧ s.scopes = [] → ∃ e, ((ord { val := b }).encode s).1 = .error e

end Goexpdt

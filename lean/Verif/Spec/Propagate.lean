import Verif.Spec.Symb
import Verif.Spec.Contract
/-
Specification: unit propagation, the inference SAT solvers do between decisions.
-/
namespace Goexpdt.Spec
open Goexpdt

/-- Unit propagation finds the literal: it is in a clause, and the negations of all other literals of the clause have been found. -/
inductive Forced (cls : List Clause) : Int → Prop where
  | unit (cl : Clause) (l : Int) : cl ∈ cls → l ∈ cl → (∀ k ∈ cl, k ≠ l → Forced cls (-k)) → Forced cls l

/-- Unit propagation ends in a conflict: the negations of all literals of a clause have been found. -/
def Refuted (cls : List Clause) : Prop := ∃ cl ∈ cls, ∀ l ∈ cl, Forced cls (-l)

/-- The literals that fix the instances of query variables, as clauses of one literal. -/
def given (d : Nat) (names : List QVar) (s : Ctx) (σ : Asg) : List Clause :=
  names.flatMap fun n => (List.range d).flatMap fun i => featVals.map fun v =>
    [if valOf (σ n i) = v then num s ⟨n, (i : Nat), v⟩ else -num s ⟨n, (i : Nat), v⟩]

/-- Of these literals the positive ones, which say what values the features have: one per feature. -/
def chosen (d : Nat) (names : List QVar) (s : Ctx) (σ : Asg) : List Clause :=
  names.flatMap fun n => (List.range d).map fun i => [num s ⟨n, (i : Nat), valOf (σ n i)⟩]

end Goexpdt.Spec

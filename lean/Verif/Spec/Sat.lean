import Verif.Model.CNF
/-
Specification: meaning of CNF formulas. A valuation maps variable numbers to truth values, as a
SAT solver does.
-/
namespace Goexpdt.Spec

/-- A valuation of the CNF variables. -/
abbrev Val := Nat → Bool

/-- A literal `v > 0` is true if the variable `v` is; a literal `v < 0` if `-v` is false.
(Literal 0 does not occur in DIMACS formulas; here it is read as a negative literal.) -/
def litTrue (β : Val) (l : Int) : Prop :=
  if l > 0 then β l.natAbs = true else β l.natAbs = false

/-- A clause is true if one of its literals is. -/
def clauseTrue (β : Val) (cl : Clause) : Prop := ∃ l ∈ cl, litTrue β l

/-- A set of clauses is true if all of them are. -/
def clausesTrue (β : Val) (cls : List Clause) : Prop := ∀ cl ∈ cls, clauseTrue β cl

/-- The semantic clauses of a CNF hold. -/
def SemTrue (β : Val) (c : CNF) : Prop := clausesTrue β c.sClauses

/-- The consistency clauses of a CNF hold. -/
def ConTrue (β : Val) (c : CNF) : Prop := clausesTrue β c.cClauses

/-- A valuation satisfies a CNF (what the SAT solver looks for: all clauses). -/
def Models (β : Val) (c : CNF) : Prop := SemTrue β c ∧ ConTrue β c

/-- The formula is satisfiable. -/
def Satisfiable (c : CNF) : Prop := ∃ β, Models β c

/-- `v` bounds (in absolute value) every literal of the clauses. -/
def BoundedBy (v : Int) (cls : List Clause) : Prop := ∀ cl ∈ cls, ∀ l ∈ cl, (l.natAbs : Int) ≤ v

/-- No literal is 0. -/
def NonZero (cls : List Clause) : Prop := ∀ cl ∈ cls, ∀ l ∈ cl, l ≠ 0

/-! The notions above are decidable for a given valuation (used in the concrete examples only). -/

instance (β : Val) (l : Int) : Decidable (litTrue β l) := by unfold litTrue; infer_instance
instance (β : Val) (cl : Clause) : Decidable (clauseTrue β cl) := by
  unfold clauseTrue; infer_instance
instance (β : Val) (cls : List Clause) : Decidable (clausesTrue β cls) := by
  unfold clausesTrue; infer_instance
instance (β : Val) (c : CNF) : Decidable (SemTrue β c) := by unfold SemTrue; infer_instance
instance (β : Val) (c : CNF) : Decidable (ConTrue β c) := by unfold ConTrue; infer_instance
instance (β : Val) (c : CNF) : Decidable (Models β c) := by unfold Models; infer_instance
instance (v : Int) (cls : List Clause) : Decidable (BoundedBy v cls) := by
  unfold BoundedBy; infer_instance
instance (cls : List Clause) : Decidable (NonZero cls) := by unfold NonZero; infer_instance

end Goexpdt.Spec

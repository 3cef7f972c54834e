import Verif.Spec.Settle
/-
Specification: how many models a CNF has.
-/
namespace Goexpdt
open Spec

/-- The valuations agree on all variables that occur in the CNF. -/
def SameOn (β β' : Val) (c : CNF) : Prop := ∀ cl ∈ c.sClauses ++ c.cClauses, ∀ l ∈ cl, β l.natAbs = β' l.natAbs

/-- The assignments give the names the same instances. -/
def SameInsts (d : Nat) (names : List QVar) (σ σ' : Asg) : Prop := ∀ n ∈ names, Same d (σ n) (σ' n)

/-- There are `k` things with property `P`, no two of which are the same in the sense of `R`. -/
def AtLeast {α : Type} (R : α → α → Prop) (P : α → Prop) (k : Nat) : Prop :=
  ∃ l : List α, l.length = k ∧ (∀ a ∈ l, P a) ∧ l.Pairwise fun a b => ¬ R a b

/-- The predicate compares the distance of two variables with another distance. -/
def Atom.measures : Atom → Bool
  | .leh (.var _) (.var _) _ _ _ => true
  | .leh (.var _) _ (.var _) _ _ => true
  | _ => false

def Query.measures : Query → Bool
  | .nil => false
  | .atom a => a.measures
  | .and q1 q2 => q1.measures || q2.measures
  | .or q1 q2 => q1.measures || q2.measures
  | .not q => q.measures
  | .withVar _ q => q.measures
  | .forallG _ q => q.measures

/-- The query as encoded, and what sharing auxiliary variables adds to it (C75), is true. -/
def Query.Answer (d : Nat) (nodes : List Node) (T : DTree) (q : Query) (σ : Asg) : Prop :=
  (q.flat d T).encoded d T σ ∧ Coherent d nodes T ((q.flat d T).emits d) σ

/-- Where the query is true, instances whose distance matters are full. -/
def Query.FullWhere (d : Nat) (T : DTree) (q : Query) : Prop :=
  ∀ σ, (q.flat d T).encoded d T σ → ∀ u ∈ (q.flat d T).emits d, u.2.clear d σ

end Goexpdt

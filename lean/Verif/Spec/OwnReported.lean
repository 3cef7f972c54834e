import Verif.Spec.Reported
import Verif.Spec.Diagram
/- Queries with predicates of any kind where a quantifier ranges over any list of instances, and the library's queries on trees that decide on a
feature several times. -/
namespace Goexpdt
open Spec

namespace OQuery

/-- What the query says about an assignment, where quantifiers range over `ps`. -/
def semOver (d : Nat) (ps : List (Nat × PInst)) (depth : QVar → Nat) (σ : Asg) : List Scope → OQuery → Prop
  | stack, .pred p => p.says fun t => (t.res depth stack).den σ
  | stack, .and q1 q2 => q1.semOver d ps depth σ stack ∧ q2.semOver d ps depth σ stack
  | stack, .or q1 q2 => q1.semOver d ps depth σ stack ∨ q2.semOver d ps depth σ stack
  | stack, .not q => ¬ q.semOver d ps depth σ stack
  | stack, .withVar _ q => q.semOver d ps depth σ stack
  | stack, .forallG c q => ∀ g ∈ scopesIn d ps c.id, q.semOver d ps depth σ (stack ++ [g])

/-- The auxiliary variables of all predicates. -/
def auxOver (d : Nat) (ps : List (Nat × PInst)) (depth : QVar → Nat) : List Scope → OQuery → List (QVar × Purpose)
  | stack, .pred p => p.aux depth stack
  | stack, .and q1 q2 => q1.auxOver d ps depth stack ++ q2.auxOver d ps depth stack
  | stack, .or q1 q2 => q1.auxOver d ps depth stack ++ q2.auxOver d ps depth stack
  | stack, .not q => q.auxOver d ps depth stack
  | stack, .withVar _ q => q.auxOver d ps depth stack
  | stack, .forallG c q => (scopesIn d ps c.id).flatMap fun g => q.auxOver d ps depth (stack ++ [g])

/-- Predicates meet their contract and are used where they may be, variables are declared before they are used, and at the depth `depth` gives. -/
def FitsOver (d : Nat) (nodes : List Node) (ps : List (Nat × PInst)) (depth : QVar → Nat) : List QVar → List Scope → OQuery → Prop
  | Γ, stack, .pred p => p.Meets d nodes ∧ (∀ x, .var x ∈ p.terms → x ∈ Γ) ∧ (∀ c, .const c ∈ p.terms → GoodVals d (resolve stack c)) ∧
      p.admits stack
  | Γ, stack, .and q1 q2 => q1.FitsOver d nodes ps depth Γ stack ∧ q2.FitsOver d nodes ps depth Γ stack
  | Γ, stack, .or q1 q2 => q1.FitsOver d nodes ps depth Γ stack ∧ q2.FitsOver d nodes ps depth Γ stack
  | Γ, stack, .not q => q.FitsOver d nodes ps depth Γ stack
  | Γ, stack, .withVar x q => depth x = stack.length ∧ q.FitsOver d nodes ps depth (x :: Γ) stack
  | Γ, stack, .forallG c q => ∀ g ∈ scopesIn d ps c.id, q.FitsOver d nodes ps depth Γ (stack ++ [g])

/-- The conditions on a closed query and on the model: it passes validation, the query fits, and the names of auxiliary variables do not clash. -/
structure GoodOver (d : Nat) (nodes : List Node) (ps : List (Nat × PInst)) (depth : QVar → Nat) (q : OQuery) : Prop where
  dim : 0 < d
  reported : Reported d nodes ps
  fits : q.FitsOver d nodes ps depth [] []
  clean : ∀ u ∈ q.auxOver d ps depth [], u.1 ∉ q.skel.namesIn d ps [] ∧ ∀ u' ∈ q.auxOver d ps depth [], u'.1 = u.1 →
    ∀ σ i v, u.2.range i v → u'.2.range i v → u'.2.mean σ i v = u.2.mean σ i v

end OQuery

/-- allcomp.Const on any model: the leafs to which the edges that its constant allows lead from the root are of the class. -/
def followPred (nodes : List Node) (c : QConst) (b : Bool) (g : Option (QVar → QVar)) : Pred where
  encode := (Atom.allcomp (.const c) b g).encode
  terms := [.const c]
  says ρ := ∀ i n, Follows nodes (ρ (.const c)) i → nodes[i]? = some n → n.childless = true → n.value = b
  admits _ := True
  aux _ _ := []

/-! ### the library on trees that decide on a feature several times -/

/-- What the predicates of the library say there: isnode and allcomp are about ways (C85), and dfs compares the leafs as they are reported. -/
def Atom.keptSays (d : Nat) (nodes : List Node) (T : DTree) (ρ : Term → PInst) : Atom → Prop
  | .dfs t => TellsApart d nodes (T.kept bot).1 (ρ t)
  | a => a.rawSays d T ρ

/-- What a query says there. -/
def Query.keptSem (d : Nat) (nodes : List Node) (T : DTree) (depth : QVar → Nat) (σ : Asg) : List Scope → Query → Prop
  | _, .nil => False
  | stack, .atom a => a.keptSays d nodes T fun t => (t.res depth stack).den σ
  | stack, .and q1 q2 => q1.keptSem d nodes T depth σ stack ∧ q2.keptSem d nodes T depth σ stack
  | stack, .or q1 q2 => q1.keptSem d nodes T depth σ stack ∨ q2.keptSem d nodes T depth σ stack
  | stack, .not q => ¬ q.keptSem d nodes T depth σ stack
  | stack, .withVar _ q => q.keptSem d nodes T depth σ stack
  | stack, .forallG c q => ∀ g ∈ scopesIn d (T.kept bot).1 c.id, q.keptSem d nodes T depth σ (stack ++ [g])

/-- The auxiliary variables of all predicates of a query there. -/
noncomputable def Query.keptAux (d : Nat) (nodes : List Node) (T : DTree) (depth : QVar → Nat) : List Scope → Query → List (QVar × Purpose)
  | _, .nil => []
  | stack, .atom a => a.rawAux d nodes T depth stack
  | stack, .and q1 q2 => q1.keptAux d nodes T depth stack ++ q2.keptAux d nodes T depth stack
  | stack, .or q1 q2 => q1.keptAux d nodes T depth stack ++ q2.keptAux d nodes T depth stack
  | stack, .not q => q.keptAux d nodes T depth stack
  | stack, .withVar _ q => q.keptAux d nodes T depth stack
  | stack, .forallG c q => (scopesIn d (T.kept bot).1 c.id).flatMap fun g => q.keptAux d nodes T depth (stack ++ [g])

/-- Variables are declared before they are used, constants have the dimension of the model, and no generator is missing. -/
def Query.KeptFits (d : Nat) (T : DTree) (depth : QVar → Nat) : List QVar → List Scope → Query → Prop
  | _, _, .nil => False
  | Γ, stack, .atom a => (∀ x ∈ a.vars, x ∈ Γ) ∧ (∀ c ∈ Spec.Atom.consts a, GoodVals d (resolve stack c)) ∧ Spec.Atom.nilGen a = false ∧
      a.PrefOk d ∧ Spec.Atom.PrefsNonempty a ∧ a.Regular d stack
  | Γ, stack, .and q1 q2 => q1.KeptFits d T depth Γ stack ∧ q2.KeptFits d T depth Γ stack
  | Γ, stack, .or q1 q2 => q1.KeptFits d T depth Γ stack ∧ q2.KeptFits d T depth Γ stack
  | Γ, stack, .not q => q.KeptFits d T depth Γ stack
  | Γ, stack, .withVar x q => depth x = stack.length ∧ q.KeptFits d T depth (x :: Γ) stack
  | Γ, stack, .forallG c q => ∀ g ∈ scopesIn d (T.kept bot).1 c.id, q.KeptFits d T depth Γ (stack ++ [g])

/-- The predicates on the model are below an even number of negations (for `true`; an odd number for `false`), and there are no quantifiers. -/
def Query.Sides : Bool → Query → Prop
  | _, .nil => False
  | b, .atom a => a.onModel = true → b = true
  | b, .and q1 q2 => q1.Sides b ∧ q2.Sides b
  | b, .or q1 q2 => q1.Sides b ∧ q2.Sides b
  | b, .not q => q.Sides !b
  | b, .withVar _ q => q.Sides b
  | _, .forallG _ _ => False

/-- The conditions of `C101_query` on a closed query. -/
structure Query.GoodKept (d : Nat) (nodes : List Node) (T : DTree) (depth : QVar → Nat) (q : Query) : Prop where
  dim : 0 < d
  tree : IsRawTree d nodes T
  covers : Covers nodes T
  fits : q.KeptFits d T depth [] []
  clean : ∀ u ∈ q.keptAux d nodes T depth [], u.1 ∉ q.namesIn d (T.kept bot).1 [] ∧ ∀ u' ∈ q.keptAux d nodes T depth [], u'.1 = u.1 →
    ∀ σ i v, u.2.range i v → u'.2.range i v → u'.2.mean σ i v = u.2.mean σ i v

end Goexpdt

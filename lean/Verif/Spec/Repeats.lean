import Verif.Spec.Own
/-
Specification: trees in which a path may decide on a feature several times.
-/
namespace Goexpdt.Spec

/-- The nodes of a tree, each with the decisions on the way to it. -/
def DTree.ways : DTree → List (Nat × List (Nat × Bool))
  | .leaf i _ => [(i, [])]
  | .node i f z o => (i, []) :: (z.ways.map (fun p => (p.1, (f, false) :: p.2)) ++ o.ways.map (fun p => (p.1, (f, true) :: p.2)))

/-- The classes of its leafs, each with the decisions on the way to it. -/
def DTree.leafWays : DTree → List (Bool × List (Nat × Bool))
  | .leaf _ v => [(v, [])]
  | .node _ f z o => z.leafWays.map (fun p => (p.1, (f, false) :: p.2)) ++ o.leafWays.map (fun p => (p.1, (f, true) :: p.2))

/-- The instance makes all decisions of the way. -/
def Takes (e : PInst) (w : List (Nat × Bool)) : Prop := ∀ t ∈ w, e t.1 = some t.2

/-- The instance makes none of the decisions of the way differently. Undefined features allow both decisions, every time anew. -/
def Allows (e : PInst) (w : List (Nat × Bool)) : Prop := ∀ t ∈ w, e t.1 ≠ some (!t.2)

/-- The instance allows only ways to leafs of class `b`. -/
def OnlyTo (T : DTree) (b : Bool) (e : PInst) : Prop := ∀ p ∈ T.leafWays, Allows e p.2 → p.1 = b

/-- There is a node such that the instance makes exactly the decisions on the way to it. -/
def EndsWay (d : Nat) (T : DTree) (e : PInst) : Prop := ∃ p ∈ T.ways, ∀ i < d, ∀ b, e i = some b ↔ (i, b) ∈ p.2

end Goexpdt.Spec

namespace Goexpdt
open Spec

/-- What the predicates of the library say on such trees. -/
def Atom.rawSays (d : Nat) (T : DTree) (ρ : Term → PInst) : Atom → Prop
  | .isnode t _ => EndsWay d T (ρ t)
  | .allcomp t b _ => OnlyTo T b (ρ t)
  | a => a.says d T ρ

open Classical in
/-- The auxiliary variables, where those of isnode and allcomp are about ways. -/
noncomputable def Atom.rawAux (d : Nat) (nodes : List Node) (T : DTree) (depth : QVar → Nat) (stack : List Scope) : Atom → List (QVar × Purpose)
  | .isnode (.var x) (some g) => let n := x ++ suffix (stack.take (depth x))
      [(g n, ⟨fun i v => i = 0 ∧ 0 ≤ v ∧ v < nodes.length, fun σ _ v => decide (∃ p ∈ T.ways, (p.1 : Int) = v ∧ Takes (σ n) p.2)⟩)]
  | .allcomp (.var x) _ (some g) => let n := x ++ suffix (stack.take (depth x))
      [(g n, ⟨fun i v => i = 0 ∧ 0 ≤ v ∧ v < nodes.length, fun σ _ v => decide (∃ p ∈ T.ways, (p.1 : Int) = v ∧ Allows (σ n) p.2)⟩)]
  | a => (a.uses depth stack).map fun u => (u.1, ⟨u.2.range d nodes, fun σ i v => u.2.mean d T σ i v⟩)

/-- The library's predicate on such trees. -/
noncomputable def Atom.rawPred (d : Nat) (nodes : List Node) (T : DTree) (a : Atom) : Pred where
  encode := a.encode
  terms := a.vars.map .var ++ (Spec.Atom.consts a).map .const
  says ρ := a.rawSays d T ρ
  admits stack := a.Regular d stack
  aux depth stack := a.rawAux d nodes T depth stack

/-- The predicate does not need the instances of the leafs: it is not deterministic.DFS. -/
def Atom.leafless : Atom → Bool
  | .dfs _ => false
  | _ => true

/-- A query of the library, with its predicates as they are on such trees. (A missing query is replaced, but `RawFits` does not allow it.) -/
noncomputable def Query.raw (d : Nat) (nodes : List Node) (T : DTree) : Query → OQuery
  | .nil => .pred ((Atom.full (.const {})).rawPred d nodes T)
  | .atom a => .pred (a.rawPred d nodes T)
  | .and q1 q2 => .and (q1.raw d nodes T) (q2.raw d nodes T)
  | .or q1 q2 => .or (q1.raw d nodes T) (q2.raw d nodes T)
  | .not q => .not (q.raw d nodes T)
  | .withVar x q => .withVar x (q.raw d nodes T)
  | .forallG c q => .forallG c (q.raw d nodes T)

/-- Truth in first-order semantics, with isnode and allcomp as they are on such trees. -/
def Query.rawFo (d : Nat) (T : DTree) : (QVar → PInst) → (List Char → Option PInst) → Query → Prop
  | _, _, .nil => False
  | env, guards, .atom a => a.rawSays d T (Term.val env guards)
  | env, guards, .and q1 q2 => q1.rawFo d T env guards ∧ q2.rawFo d T env guards
  | env, guards, .or q1 q2 => q1.rawFo d T env guards ∨ q2.rawFo d T env guards
  | env, guards, .not q => ¬ q.rawFo d T env guards
  | env, guards, .withVar x q => ∃ e : PInst, q.rawFo d T (upd env x e) guards
  | env, guards, .forallG c q => ∀ p ∈ T.nodeInsts bot, q.rawFo d T env (upd guards c.id (some p.2))

/-- Without deterministic.DFS and guarded quantifiers; variables are declared before they are used, and at depth 0; constants have the
dimension of the model; no generator is missing. -/
def Query.RawFits (d : Nat) (nodes : List Node) (T : DTree) : List QVar → Query → Prop
  | _, .nil => False
  | Γ, .atom a => a.leafless = true ∧ (∀ x ∈ a.vars, x ∈ Γ) ∧ (∀ c ∈ Spec.Atom.consts a, GoodVals d c.val) ∧ Spec.Atom.nilGen a = false ∧
      a.PrefOk d ∧ Spec.Atom.PrefsNonempty a ∧ a.Regular d [] ∧ (a.onModel = true → IsRawTree d nodes T ∧ Covers nodes T)
  | Γ, .and q1 q2 => q1.RawFits d nodes T Γ ∧ q2.RawFits d nodes T Γ
  | Γ, .or q1 q2 => q1.RawFits d nodes T Γ ∧ q2.RawFits d nodes T Γ
  | Γ, .not q => q.RawFits d nodes T Γ
  | Γ, .withVar x q => q.RawFits d nodes T (x :: Γ)
  | _, .forallG _ _ => False

/-- The names of auxiliary variables are not names of variables, and no two auxiliary variables with different purposes share a name. -/
def Query.RawClean (d : Nat) (nodes : List Node) (T : DTree) (q : Query) : Prop :=
  ∀ u ∈ (q.raw d nodes T).aux d T (fun _ => 0) [], u.1 ∉ q.names d T [] ∧ ∀ u' ∈ (q.raw d nodes T).aux d T (fun _ => 0) [], u'.1 = u.1 →
    ∀ σ i v, u.2.range i v → u'.2.range i v → u'.2.mean σ i v = u.2.mean σ i v

/-- isnode and allcomp are used positively (`pos = true`) or negatively only. -/
def Query.Polar : Bool → Query → Prop
  | _, .nil => True
  | pos, .atom (.isnode _ _) => pos = true
  | pos, .atom (.allcomp _ _ _) => pos = true
  | _, .atom _ => True
  | pos, .and q1 q2 => q1.Polar pos ∧ q2.Polar pos
  | pos, .or q1 q2 => q1.Polar pos ∧ q2.Polar pos
  | pos, .not q => q.Polar (!pos)
  | pos, .withVar _ q => q.Polar pos
  | pos, .forallG _ q => q.Polar pos

end Goexpdt

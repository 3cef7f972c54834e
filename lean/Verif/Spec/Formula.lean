import Verif.Spec.Contract
import Verif.Spec.Preds
import Verif.Spec.Reachable
/-
Specification: what queries say about an assignment of partial instances to scoped names, the
auxiliary variables they use, and the conditions under which their encoding is claimed to be exact.
-/
namespace Goexpdt
open Spec

/-- The values of a constant of the right dimension with valid values. -/
def GoodVals (d : Nat) (vs : List FeatV) : Prop := vs.length = d ∧ ValidVals vs

/-- The value of a constant where the open scopes are `stack`: the value of the outermost scope with
its name, if there is one. -/
def resolve (stack : List Scope) (c : QConst) : List FeatV :=
  match stack.find? (fun g => g.target == c.id) with
  | some g => g.value
  | none => c.val

/-- A term with its variable replaced by the scoped name, or its constant by the value. -/
inductive RTerm where
  | name (n : QVar)
  | vals (vs : List FeatV)
  deriving DecidableEq

/-- The partial instance a term stands for. -/
def RTerm.den (σ : Asg) : RTerm → PInst
  | .name n => σ n
  | .vals vs => Spec.den vs

/-- A term in a position where the open scopes are `stack`. -/
def Term.res (depth : QVar → Nat) (stack : List Scope) : Term → RTerm
  | .const c => .vals (resolve stack c)
  | .var x => .name (x ++ suffix (stack.take (depth x)))

/-- What a predicate says about its arguments. -/
def Atom.says (d : Nat) (T : DTree) (ρ : Term → PInst) : Atom → Prop
  | .subs t1 t2 => Subsumes d (ρ t1) (ρ t2)
  | .lel t1 t2 _ => LEL d (ρ t1) (ρ t2)
  | .isnode t _ => IsNode d T (ρ t)
  | .full t => Full d (ρ t)
  | .cons t1 t2 => Cons d (ρ t1) (ρ t2)
  | .allcomp t b _ => AllComp d T b (ρ t)
  | .dfs t => DFS d T (ρ t)
  | .hepr t1 t2 p _ => HEPR (p.map Int.toNat) (ρ t1) (ρ t2)
  | .leh t1 t2 t3 _ _ => LEH d (ρ t1) (ρ t2) (ρ t3)

/-! ### auxiliary variables -/

/-- The purposes of auxiliary variables. -/
inductive Role where
  /-- `(i, j)`: exactly `j` of the features up to `i` are undefined -/
  | bots (n : QVar)
  /-- `(0, u)`: the instance of node `u` subsumes the variable's -/
  | onPath (n : QVar)
  /-- `(0, u)`: the instance of node `u` is consistent with the variable's -/
  | reach (n : QVar)
  /-- `(0, k)`: `HEPR` for the preferences from position `k` on -/
  | rank (pref : List Nat) (t1 t2 : RTerm)
  /-- `(i, j)`: exactly `j` of the features up to `i` differ -/
  | dist (t1 t2 : RTerm)
  /-- `(i, 0)`: the features at `i` are equal -/
  | same (n1 n2 : QVar)
  deriving DecidableEq

open Classical in
/-- The intended truth value of the triple `(i, v)` of an auxiliary variable. -/
noncomputable def Role.mean (d : Nat) (T : DTree) (σ : Asg) (i v : Int) : Role → Bool
  | .bots n => decide ((countFeats (i.toNat + 1) fun k => (σ n k).isNone : Int) = v)
  | .onPath n => decide (∃ p ∈ T.nodeInsts bot, (p.1 : Int) = v ∧ Subsumes d p.2 (σ n))
  | .reach n => decide (∃ p ∈ T.nodeInsts bot, (p.1 : Int) = v ∧ Cons d p.2 (σ n))
  | .rank pref t1 t2 => decide (HEPR (pref.drop v.toNat) (t1.den σ) (t2.den σ))
  | .dist t1 t2 => decide ((countFeats (i.toNat + 1) fun k => t1.den σ k != t2.den σ k : Int) = v)
  | .same n1 n2 => decide (σ n1 i.toNat = σ n2 i.toNat)

/-- The key of a constant in the name of an auxiliary variable. -/
def keyOf (stack : List Scope) (c : QConst) : QVar := (⟨c.id, resolve stack c⟩ : QConst).asString

/-- The key of a term in the name of an auxiliary variable. -/
def Term.key (depth : QVar → Nat) (stack : List Scope) : Term → QVar
  | .const c => keyOf stack c
  | .var x => x ++ suffix (stack.take (depth x))

/-- The auxiliary variables of a predicate, with their purposes. In `leh` with a variable in the
second position only, the distance to the first constant is named after the third. -/
def Atom.uses (depth : QVar → Nat) (stack : List Scope) : Atom → List (QVar × Role)
  | .lel t1 t2 (some g) => [t1, t2].flatMap fun t =>
      match t.res depth stack with
      | .name n => [(g n, .bots n)]
      | .vals _ => []
  | .isnode (.var x) (some g) => let n := x ++ suffix (stack.take (depth x)); [(g n, .onPath n)]
  | .allcomp (.var x) _ (some g) => let n := x ++ suffix (stack.take (depth x)); [(g n, .reach n)]
  | .hepr (.const _) (.const _) _ _ => []
  | .hepr t1 t2 p (some g) =>
      [(g (prefVar p) (Term.key depth stack t1) (Term.key depth stack t2),
        .rank (p.map Int.toNat) (Term.res depth stack t1) (Term.res depth stack t2))]
  | .leh (.const _) (.const _) (.const _) _ _ => []
  | .leh (.const c1) (.const _) (.var x) (some g) _ =>
      let n := x ++ suffix (stack.take (depth x))
      [(g n (keyOf stack c1), .dist (.name n) (.vals (resolve stack c1)))]
  | .leh (.const c1) (.var x) (.const c3) (some g) _ =>
      let n := x ++ suffix (stack.take (depth x))
      [(g n (keyOf stack c3), .dist (.name n) (.vals (resolve stack c1)))]
  | .leh (.const c) (.var x) (.var y) (some g) _ =>
      [x, y].map fun x =>
        let n := x ++ suffix (stack.take (depth x))
        (g n (keyOf stack c), .dist (.name n) (.vals (resolve stack c)))
  | .leh (.var x) (.const c1) (.const c2) (some g) _ =>
      let n := x ++ suffix (stack.take (depth x))
      [c1, c2].map fun c => (g n (keyOf stack c), .dist (.name n) (.vals (resolve stack c)))
  | .leh (.var x) t2 t3 (some g) (some e) =>
      let n := x ++ suffix (stack.take (depth x))
      [t2, t3].flatMap fun t =>
        (g n (Term.key depth stack t), .dist (.name n) (Term.res depth stack t)) ::
        match Term.res depth stack t with
        | .name m => [(e n m, .same n m)]
        | .vals _ => []
  | _ => []

/-- The triples an auxiliary variable with this purpose has. -/
def Role.range (d : Nat) (nodes : List Node) (i v : Int) : Role → Prop
  | .bots _ => 0 ≤ i ∧ i < d ∧ 0 ≤ v ∧ v ≤ d
  | .dist _ _ => 0 ≤ i ∧ i < d ∧ 0 ≤ v ∧ v ≤ d
  | .same _ _ => 0 ≤ i ∧ i < d ∧ v = 0
  | .onPath _ => i = 0 ∧ 0 ≤ v ∧ v < nodes.length
  | .reach _ => i = 0 ∧ 0 ≤ v ∧ v < nodes.length
  | .rank pref _ _ => i = 0 ∧ 0 ≤ v ∧ v < pref.length

/-- The name is an auxiliary one whose triples are meant to say what the role says. -/
def Plays (W : World) (T : DTree) (a : QVar) (ρ : Role) : Prop :=
  ¬ W.isInst a ∧ ∀ σ, W.dom σ → ∀ i v, ρ.range W.dim W.nodes i v → W.mean a σ i v = ρ.mean W.dim T σ i v

/-! ### conditions on predicates -/

/-- The variables of a term. -/
def Term.vars : Term → List QVar
  | .const _ => []
  | .var x => [x]

/-- The variables of a predicate. -/
def Atom.vars : Atom → List QVar
  | .subs t1 t2 => t1.vars ++ t2.vars
  | .lel t1 t2 _ => t1.vars ++ t2.vars
  | .isnode t _ => t.vars
  | .full t => t.vars
  | .cons t1 t2 => t1.vars ++ t2.vars
  | .allcomp t _ _ => t.vars
  | .dfs t => t.vars
  | .hepr t1 t2 _ _ => t1.vars ++ t2.vars
  | .leh t1 t2 t3 _ _ => t1.vars ++ t2.vars ++ t3.vars

/-- The predicate speaks about the decision tree. -/
def Atom.onModel : Atom → Bool
  | .isnode _ _ => true
  | .allcomp _ _ _ => true
  | .dfs _ => true
  | _ => false

/-- The preference order consists of different features. -/
def Atom.PrefOk (d : Nat) : Atom → Prop
  | .hepr _ _ p _ => (∀ i ∈ p, 0 ≤ i ∧ i < d) ∧ p.Nodup
  | _ => True

/-- The two cases of `leh` in which the code answers "true" without looking at the variable are
excluded: equal first constants (`ConstConstVar`), first and third constant that differ everywhere
(`ConstVarConst`). -/
def Atom.Regular (d : Nat) (stack : List Scope) : Atom → Prop
  | .leh (.const c1) (.const c2) (.var _) _ _ =>
      Full d (den (resolve stack c1)) → Full d (den (resolve stack c2)) →
        hamming d (den (resolve stack c1)) (den (resolve stack c2)) ≠ 0
  | .leh (.const c1) (.var _) (.const c3) _ _ =>
      Full d (den (resolve stack c1)) → Full d (den (resolve stack c3)) →
        hamming d (den (resolve stack c1)) (den (resolve stack c3)) ≠ d
  | _ => True

/-- The predicate can be encoded where the open scopes are `stack` and the variables `Γ` are
declared. -/
structure Atom.Fits (d : Nat) (nodes : List Node) (T : DTree) (Γ : List QVar) (stack : List Scope)
    (a : Atom) : Prop where
  vars : ∀ x ∈ a.vars, x ∈ Γ
  consts : ∀ c ∈ Spec.Atom.consts a, (resolve stack c).length = d ∧ ValidVals (resolve stack c)
  gens : Spec.Atom.nilGen a = false
  pref : a.PrefOk d
  prefne : Spec.Atom.PrefsNonempty a
  regular : a.Regular d stack
  tree : a.onModel = true → IsTree d nodes T ∧ Covers nodes T

end Goexpdt

import Verif.Spec.Solver
/-
Specification: queries with predicates of the user's own.

The interfaces of the library are public, so queries can contain components that are not the library's. Here a predicate is any component, with
what it says, the auxiliary variables it uses, and the conditions under which it is claimed to say it; `Pred.Meets` is what its author has to
guarantee.
-/
namespace Goexpdt
open Spec

/-- The purpose of an auxiliary variable: which triples it has, and what they are meant to say. -/
structure Purpose where
  range : Int → Int → Prop
  mean : Asg → Int → Int → Bool

structure Pred where
  /-- the method `Encoding` -/
  encode : M CNF
  /-- the variables and constants it looks at -/
  terms : List Term
  /-- what it says, given the instances for which the terms stand -/
  says : (Term → PInst) → Prop
  /-- where it may be used: the values of the open scopes must be admissible -/
  admits : List Scope → Prop
  /-- the auxiliary variables it uses, where the variables are declared at the given depths and the scopes are open -/
  aux : (QVar → Nat) → List Scope → List (QVar × Purpose)

/-- What the author of a predicate has to guarantee: it depends on the features of its terms, and its encoding captures what it says (this is the
contract of C19), wherever its variables are declared, its constants have the dimension of the model, and its auxiliary variables mean what they
are meant to. -/
structure Pred.Meets (d : Nat) (nodes : List Node) (p : Pred) : Prop where
  reads : ∀ ρ ρ' : Term → PInst, (∀ t ∈ p.terms, Same d (ρ t) (ρ' t)) → (p.says ρ ↔ p.says ρ')
  captures : ∀ (W : World) (Γ : List QVar) (stack : List Scope), W.dim = d → W.nodes = nodes →
    (∀ x, .var x ∈ p.terms → x ∈ Γ) → (∀ c, .const c ∈ p.terms → GoodVals d (resolve stack c)) → p.admits stack →
    (∀ u ∈ p.aux W.depth stack, ¬ W.isInst u.1 ∧ ∀ σ, W.dom σ → ∀ i v, u.2.range i v → W.mean u.1 σ i v = u.2.mean σ i v) →
    Captures W Γ stack p.encode (fun σ => p.says fun t => (t.res W.depth stack).den σ)

/-- Queries with predicates of any kind. -/
inductive OQuery where
  | pred (p : Pred)
  | and (q1 q2 : OQuery)
  | or (q1 q2 : OQuery)
  | not (q : OQuery)
  | withVar (x : QVar) (q : OQuery)
  | forallG (c : QConst) (q : OQuery)

namespace OQuery

/-- The library's operators over the predicates. -/
def encode : OQuery → M CNF
  | .pred p => p.encode
  | .and q1 q2 => encAnd (some q1.encode) (some q2.encode)
  | .or q1 q2 => encOr (some q1.encode) (some q2.encode)
  | .not q => encNot (some q.encode)
  | .withVar x q => encWithVar x (some q.encode)
  | .forallG c q => encForall c (some q.encode)

/-- The query with a predicate without variables in place of each of its own: it declares the same variables and has the same quantifiers. -/
def skel : OQuery → Query
  | .pred _ => .atom (.full (.const {}))
  | .and q1 q2 => .and q1.skel q2.skel
  | .or q1 q2 => .or q1.skel q2.skel
  | .not q => .not q.skel
  | .withVar x q => .withVar x q.skel
  | .forallG c q => .forallG c q.skel

/-- Truth in first-order semantics. -/
def fo (T : DTree) : (QVar → PInst) → (List Char → Option PInst) → OQuery → Prop
  | env, guards, .pred p => p.says (Term.val env guards)
  | env, guards, .and q1 q2 => q1.fo T env guards ∧ q2.fo T env guards
  | env, guards, .or q1 q2 => q1.fo T env guards ∨ q2.fo T env guards
  | env, guards, .not q => ¬ q.fo T env guards
  | env, guards, .withVar x q => ∃ e : PInst, q.fo T (upd env x e) guards
  | env, guards, .forallG c q => ∀ p ∈ T.nodeInsts bot, q.fo T env (upd guards c.id (some p.2))

/-- What the query says about an assignment, where the open scopes are `stack`. -/
def sem (d : Nat) (T : DTree) (depth : QVar → Nat) (σ : Asg) : List Scope → OQuery → Prop
  | stack, .pred p => p.says fun t => (t.res depth stack).den σ
  | stack, .and q1 q2 => q1.sem d T depth σ stack ∧ q2.sem d T depth σ stack
  | stack, .or q1 q2 => q1.sem d T depth σ stack ∨ q2.sem d T depth σ stack
  | stack, .not q => ¬ q.sem d T depth σ stack
  | stack, .withVar _ q => q.sem d T depth σ stack
  | stack, .forallG c q => ∀ g ∈ scopesOf d T c.id, q.sem d T depth σ (stack ++ [g])

/-- The auxiliary variables of all predicates. -/
def aux (d : Nat) (T : DTree) (depth : QVar → Nat) : List Scope → OQuery → List (QVar × Purpose)
  | stack, .pred p => p.aux depth stack
  | stack, .and q1 q2 => q1.aux d T depth stack ++ q2.aux d T depth stack
  | stack, .or q1 q2 => q1.aux d T depth stack ++ q2.aux d T depth stack
  | stack, .not q => q.aux d T depth stack
  | stack, .withVar _ q => q.aux d T depth stack
  | stack, .forallG c q => (scopesOf d T c.id).flatMap fun g => q.aux d T depth (stack ++ [g])

/-- Predicates meet their contract and are used where they may be, variables are declared before they are used, and at the depth `depth` gives. -/
def Fits (d : Nat) (nodes : List Node) (T : DTree) (depth : QVar → Nat) : List QVar → List Scope → OQuery → Prop
  | Γ, stack, .pred p => p.Meets d nodes ∧ (∀ x, .var x ∈ p.terms → x ∈ Γ) ∧ (∀ c, .const c ∈ p.terms → GoodVals d (resolve stack c)) ∧
      p.admits stack
  | Γ, stack, .and q1 q2 => q1.Fits d nodes T depth Γ stack ∧ q2.Fits d nodes T depth Γ stack
  | Γ, stack, .or q1 q2 => q1.Fits d nodes T depth Γ stack ∧ q2.Fits d nodes T depth Γ stack
  | Γ, stack, .not q => q.Fits d nodes T depth Γ stack
  | Γ, stack, .withVar x q => depth x = stack.length ∧ q.Fits d nodes T depth (x :: Γ) stack
  | Γ, stack, .forallG c q => IsTree d nodes T ∧ Covers nodes T ∧ ∀ g ∈ scopesOf d T c.id, q.Fits d nodes T depth Γ (stack ++ [g])

/-- The scoped names of the variables it declares. -/
def names (d : Nat) (T : DTree) (q : OQuery) : List QVar := q.skel.names d T []

/-- The conditions on a closed query: it fits, and the names of auxiliary variables do not clash. -/
structure Good (d : Nat) (nodes : List Node) (T : DTree) (depth : QVar → Nat) (q : OQuery) : Prop where
  dim : 0 < d
  fits : q.Fits d nodes T depth [] []
  clean : ∀ u ∈ q.aux d T depth [], u.1 ∉ q.names d T ∧ ∀ u' ∈ q.aux d T depth [], u'.1 = u.1 →
    ∀ σ i v, u.2.range i v → u'.2.range i v → u'.2.mean σ i v = u.2.mean σ i v

/-- The library's predicate, with its auxiliary variables. -/
noncomputable def _root_.Goexpdt.Atom.pred (d : Nat) (nodes : List Node) (T : DTree) (a : Atom) : Pred where
  encode := a.encode
  terms := a.vars.map .var ++ (Spec.Atom.consts a).map .const
  says := a.says d T
  admits stack := a.Regular d stack
  aux depth stack := (a.uses depth stack).map fun u => (u.1, ⟨u.2.range d nodes, fun σ i v => u.2.mean d T σ i v⟩)

/-- What ComputeOptim is given: a formula and an order with predicates of any kind. -/
structure Optimises (d : Nat) (nodes : List Node) (T : DTree) (depth : QVar → Nat) (v : QVar) (f : OQuery) (o : QConst → OQuery) : Prop where
  good : (OQuery.withVar v f).Good d nodes T depth
  plain : (OQuery.withVar v f).skel.Plain
  goodNext : ∀ b, GoodVals d b → (OQuery.withVar v (.and f (o { val := b }))).Good d nodes T depth
  plainNext : ∀ b, GoodVals d b → (OQuery.withVar v (.and f (o { val := b }))).skel.Plain

/-- What a query says about the instance `v`. -/
def about (T : DTree) (v : QVar) (q : OQuery) (e : PInst) : Prop := q.fo T (upd (fun _ => bot) v e) (fun _ => none)

end OQuery

/-! ### predicates given by clauses -/

/-- Look up the names of the variables, then continue. -/
def withNames : List QVar → ((QVar → QVar) → M CNF) → M CNF
  | [], k => k id
  | x :: xs, k => do
    let v ← M.scopeVar x
    withNames xs fun f => k (upd f x v)

/-- A literal over features of variables, with the variable replaced by its name. -/
def SLit.named (f : QVar → QVar) (l : SLit) : SLit := ⟨l.pos, ⟨f l.vr.v, l.vr.idx, l.vr.val⟩⟩

/-- The clauses over features of the variables `xs`, as a component. -/
def clauseEncode (xs : List QVar) (cls : List SClause) : M CNF :=
  withNames xs fun f => emitF (cls.map (·.map (SLit.named f))) []

/-- What such clauses say: in every clause a feature has a value, or does not have it. -/
def clauseSays (cls : List SClause) (ρ : QVar → PInst) : Prop :=
  ∀ c ∈ cls, ∃ l ∈ c, (valOf (ρ l.vr.v l.vr.idx.toNat) = l.vr.val ↔ l.pos = true)

/-- The clauses are about features of the variables `xs` below the dimension. -/
def Within (d : Nat) (xs : List QVar) (cls : List SClause) : Prop :=
  ∀ c ∈ cls, ∀ l ∈ c, l.vr.v ∈ xs ∧ (∃ i < d, l.vr.idx = (i : Nat)) ∧ l.vr.val ∈ featVals

/-- The predicate given by clauses. -/
def clausePred (xs : List QVar) (cls : List SClause) : Pred where
  encode := clauseEncode xs cls
  terms := xs.map .var
  says ρ := clauseSays cls fun x => ρ (.var x)
  admits _ := True
  aux _ _ := []

end Goexpdt

import Verif.Model.Iface
import Verif.Spec.Meaning
import Verif.Spec.Renaming
import Verif.Spec.Fo
/-
Specification: what an implementation of the interface `QContext` has to guarantee. This is the contract that the comments in
query/scoper.go, query/varmanager.go and query/model.go describe, made precise.
-/
namespace Goexpdt
open Spec

/-- What matters of the state of a context: the open scopes (the outermost first), how many of them were open when a variable was initialised,
the numbers that triples have been given, and the largest number that is in use. -/
structure View where
  scopes : List Scope
  level : QVar → Nat
  num : VarRep → Option Int
  top : Int

/-- Where a variable is declared: for each of the scopes around the declaration its target and the index of its value. -/
abbrev ScopePath := List (List Char × Int)

def pathOf (gs : List Scope) : ScopePath := gs.map fun g => (g.target, g.vIdx)

/-- A call of a method returns normally, with a result as described, and leaves a state as described. -/
def Returns {σ α : Type} (inv : σ → Prop) (view : σ → View) (r : Except Err α × σ) (res : α → View → Prop) : Prop :=
  ∃ a s', r = (.ok a, s') ∧ inv s' ∧ res a (view s')

/-- The contract of `QContext` for a model with `d` features and the nodes `nodes`. `inv` are the states in which the context can be; `name`
gives the variables that `ScopeVar` returns. -/
structure CtxContract {σ : Type} (d : Nat) (nodes : List Node) (I : QContext σ) (inv : σ → Prop) (view : σ → View) (name : QVar → ScopePath → QVar) :
    Prop where
  /-- `Dim` and `Nodes` return the same every time -/
  dim : ∀ s, inv s → Returns inv view (I.dim s) fun a w => a = d ∧ w = view s
  nodes : ∀ s, inv s → Returns inv view (I.nodes s) fun a w => a = nodes ∧ w = view s
  /-- `ScopeVar` gives the name of the variable inside of the scopes that were open when it was initialised -/
  scopeVar : ∀ s x, inv s → (view s).level x ≤ (view s).scopes.length →
    Returns inv view (I.scopeVar x s) fun a w => a = name x (pathOf ((view s).scopes.take ((view s).level x))) ∧ w = view s
  /-- `AddVar` assigns a variable to the innermost scope, unless it is assigned to one already -/
  addVar : ∀ s x, inv s → Returns inv view (I.addVar x s) fun _ w =>
    w = { view s with level := fun y => if y = x ∧ (view s).level x = 0 then (view s).scopes.length else (view s).level y }
  /-- `ScopeConst` gives the value of the outermost scope that targets the constant, or else its own -/
  scopeConst : ∀ s c, inv s → Returns inv view (I.scopeConst c s) fun a w => a.1.val = resolve (view s).scopes c ∧ w = view s
  /-- `AddScope` opens a scope -/
  addScope : ∀ s t, inv s → Returns inv view (I.addScope t s) fun _ w =>
    w = { view s with scopes := (view s).scopes ++ [{ target := t }] }
  /-- `PopScope` closes the innermost scope and forgets its variables -/
  popScope : ∀ s gs g, inv s → (view s).scopes = gs ++ [g] → Returns inv view (I.popScope s) fun _ w =>
    w = { view s with scopes := gs, level := fun y => if (view s).level y = gs.length + 1 then 0 else (view s).level y }
  /-- `SetScope` gives the innermost scope a value and its index -/
  setScope : ∀ s i val gs g, inv s → (view s).scopes = gs ++ [g] → Returns inv view (I.setScope i val s) fun _ w =>
    w = { view s with scopes := gs ++ [{ g with vIdx := i, value := val }] }
  /-- `TopV` gives the largest number in use -/
  topV : ∀ s, inv s → Returns inv view (I.topV s) fun a w => a = (view s).top ∧ w = view s
  /-- `UpdateTopV` makes the numbers up to `v` count as used -/
  updateTopV : ∀ s v, inv s → Returns inv view (I.updateTopV v s) fun _ w => (view s).top ≤ w.top ∧ v ≤ w.top ∧
    w = { view s with top := w.top }
  /-- `CNFVar` gives a triple the same number every time … -/
  known : ∀ s vr n, inv s → (view s).num vr = some n → Returns inv view (I.cnfVar vr s) fun a w => a = n ∧ w = view s
  /-- … and a new triple a number that is larger than all that are in use -/
  new : ∀ s vr, inv s → (view s).num vr = none → Returns inv view (I.cnfVar vr s) fun a w => (view s).top < a ∧ a ≤ w.top ∧
    w = { view s with num := upd (view s).num vr (some a), top := w.top }
  /-- `CNFVarExists` tells whether a triple has a number -/
  exist : ∀ s vr, inv s → Returns inv view (I.cnfVarExists vr s) fun a w => a = ((view s).num vr).isSome ∧ w = view s

/-- A state of a context that has not been used: no scopes, no variables, no numbers. -/
structure Unused {σ : Type} (inv : σ → Prop) (view : σ → View) (s : σ) : Prop where
  inv : inv s
  scopes : (view s).scopes = []
  level : ∀ x, (view s).level x = 0
  num : ∀ vr, (view s).num vr = none
  top : 0 ≤ (view s).top

/-! ### Names -/

/-- The names of the variable `x`, in the basic context and in the other one, below quantifiers with names in `ids`. -/
def NameR (name : QVar → ScopePath → QVar) (ids : List (List Char)) (x a a' : QVar) : Prop :=
  ∃ gs : List Scope, (∀ g ∈ gs, g.target ∈ ids) ∧ a = x ++ suffix gs ∧ a' = name x (pathOf gs)

/-- What a generator gets for an argument: the name of the variable, or the values of a constant. -/
def Term.KeyG (name : QVar → ScopePath → QVar) (ids : List (List Char)) : Term → QVar → QVar → Prop
  | .var x, a, a' => NameR name ids x a a'
  | .const _, a, a' => ∃ c : QConst, a = c.asString ∧ a' = c.asString

/-- The generators of a predicate give related names, where they are used. -/
def Atom.GensR (name : QVar → ScopePath → QVar) (ids : List (List Char)) (R : QVar → QVar → Prop) : Atom → Prop
  | .lel t1 t2 (some g) => ∀ t ∈ [t1, t2], t.IsVar → ∀ a a', t.KeyG name ids a a' → R (g a) (g a')
  | .isnode t (some g) => t.IsVar → ∀ a a', t.KeyG name ids a a' → R (g a) (g a')
  | .allcomp t _ (some g) => t.IsVar → ∀ a a', t.KeyG name ids a a' → R (g a) (g a')
  | .hepr t1 t2 p (some g) => t1.IsVar ∨ t2.IsVar → ∀ a a' b b', t1.KeyG name ids a a' → t2.KeyG name ids b b' →
      R (g (prefVar p) a b) (g (prefVar p) a' b')
  | .leh t1 t2 t3 g e =>
      (∀ g', g = some g' → ∀ t ∈ [t1, t2, t3], ∀ u ∈ [t1, t2, t3], t.IsVar → ∀ a a' b b', t.KeyG name ids a a' → u.KeyG name ids b b' → R (g' a b) (g' a' b')) ∧
      ∀ e', e = some e' → ∀ t ∈ [t2, t3], t1.IsVar → t.IsVar → ∀ a a' b b', t1.KeyG name ids a a' → t.KeyG name ids b b' → R (e' a b) (e' a' b')
  | _ => True

/-- `R` relates the names of the query in the basic context to those in the other one, one to one: the names of variables, and the names of
auxiliary variables that the generators of the query make of them. -/
structure Query.NamesFit (name : QVar → ScopePath → QVar) (R : QVar → QVar → Prop) (q : Query) : Prop where
  oneOne : OneOne R
  var : ∀ x ∈ q.varNames, ∀ a a', NameR name q.idNames x a a' → R a a'
  gens : ∀ a ∈ q.atoms, a.GensR name q.idNames R

/-- In the context, the numbers of `n` say that it stands for the instance `e`. -/
def ReadsIn (d : Nat) (w : View) (β : Val) (n : QVar) (e : PInst) : Prop :=
  ∀ i < d, ∀ v ∈ featVals, ∃ k, w.num ⟨n, (i : Nat), v⟩ = some k ∧ β k.toNat = decide (valOf (e i) = v)

/-- The CNF `c`, encoded with a context that is left in a state with the view `w`, is faithful to the statement `P` about the instances
named `names` in the basic context. `R` gives the names in the other context. (`Faithful` for other contexts.) -/
structure FaithfulIn (d : Nat) (R : QVar → QVar → Prop) (names : List QVar) (P : Asg → Prop) (w : View) (c : CNF) : Prop where
  named : ∀ n ∈ names, ∃ n', R n n'
  sat : Satisfiable c ↔ ∃ σ, P σ
  decode : ∀ β, Models β c → ∃ σ, P σ ∧ ∀ n ∈ names, ∀ n', R n n' → ReadsIn d w β n' (σ n)
  encode : ∀ σ, P σ → ∃ β, Models β c ∧ ∀ n ∈ names, ∀ n', R n n' → ReadsIn d w β n' (σ n)
  reads : ∀ β, ConTrue β c → ∃ σ : Asg, ∀ n ∈ names, ∀ n', R n n' → ReadsIn d w β n' (σ n)
  con : ∀ σ : Asg, ∃ β, ConTrue β c ∧ ∀ n ∈ names, ∀ n', R n n' → ReadsIn d w β n' (σ n)
  sem : ∀ β σ, ConTrue β c → (∀ n ∈ names, ∀ n', R n n' → ReadsIn d w β n' (σ n)) → (SemTrue β c ↔ P σ)

/-- The names that `ScopeVar` gives to the variables `vs` below quantifiers named `ids`: different ones for different variables and places,
without the separator that the generators of auxiliary variables use, and not like the keys of constants. -/
structure NamesApart (name : QVar → ScopePath → QVar) (vs : List QVar) (ids : List (List Char)) : Prop where
  ok : ∀ x ∈ vs, ∀ p : ScopePath, (∀ g ∈ p, g.1 ∈ ids) → NameOk (name x p)
  inj : ∀ x ∈ vs, ∀ y ∈ vs, ∀ p p' : ScopePath, (∀ g ∈ p, g.1 ∈ ids) → (∀ g ∈ p', g.1 ∈ ids) → name x p = name y p' → x = y ∧ p = p'

/-- The separators do not occur in the names of the query. -/
structure Query.Plainly (q : Query) : Prop where
  vars : ∀ x ∈ q.varNames, NameOk x ∧ sep ∉ x
  ids : ∀ i ∈ q.idNames, IdOk i

end Goexpdt

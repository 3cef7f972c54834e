import Verif.Model.IfaceCompute
import Verif.Spec.Iface
import Verif.Spec.Solver
/-
Specification: solvers and computations that work with an implementation of `QContext` of the user's own.
-/
namespace Goexpdt
open Spec Over

variable {S σ : Type}

/-- `Reset`, called when all scopes are closed, leaves a context that has not been used. -/
def Resets (I : QContext σ) (inv : σ → Prop) (view : σ → View) : Prop :=
  ∀ s, inv s → (view s).scopes = [] → (∀ x, (view s).level x = 0) → ∃ s', I.reset s = (.ok (), s') ∧ Unused inv view s'

/-! ### Solvers -/

/-- `Values` reads the instances that `β` gives to variables. -/
def RecallsIn (sv : SolverG S σ) (inv : σ → Prop) (view : σ → View) (d : Nat) (st : S) (t : σ) (β : Val) : Prop :=
  ∀ (vs : List QVar) (es : QVar → PInst),
    (∀ v ∈ vs, (∀ i < d, ∀ k ∈ featVals, ∀ n, (view t).num ⟨v, (i : Nat), k⟩ = some n → 0 < n) ∧ ReadsIn d (view t) β v (es v)) →
    ∃ st' t', sv.values vs st t = (.ok (vs.map fun v => { val := valsOf d (es v) }), st', t') ∧ inv t' ∧ view t' = view t

/-- The solver never gives a wrong answer (but it may fail), as `Correct`. -/
def CorrectIn (sv : SolverG S σ) (inv : σ → Prop) (view : σ → View) (d : Nat) : Prop :=
  ∀ (act : MG σ CNF) (st : S) (t t' : σ) (c : CNF), act t = (.ok c, t') → WF c → inv t' →
    match sv.step (some act) st t with
    | (.ok (), st', t'') => (inv t'' ∧ view t'' = view t') ∧ ∃ β, Models β c ∧ RecallsIn sv inv view d st' t'' β
    | (.error .unsat, _, t'') => (inv t'' ∧ view t'' = view t') ∧ ¬ Satisfiable c
    | (.error (.other _), _, _) => True

/-- The solver never fails on an encoding that succeeds, as `Reliable`. -/
def ReliableIn (sv : SolverG S σ) (inv : σ → Prop) : Prop :=
  ∀ (act : MG σ CNF) (st : S) (t t' : σ) (c : CNF), act t = (.ok c, t') → WF c → inv t' → ∀ e, (sv.step (some act) st t).1 ≠ .error (.other e)

/-- `cnt` counts the calls of `Step`. -/
structure CountsIn (sv : SolverG S σ) (cnt : S → Nat) : Prop where
  step : ∀ q st s, cnt (sv.step q st s).2.1 = cnt st + 1
  values : ∀ vs st s, cnt (sv.values vs st s).2.1 = cnt st

/-- A solver for the basic context is a solver for contexts whose states are those of the basic one. -/
def Solver.over (sv : Solver S) : SolverG S Ctx := ⟨sv.values, sv.step⟩

/-! ### Queries -/

/-- The query meets the conditions of C39, and its names in the basic context and in the other one correspond by `R`. -/
structure Query.UsableIn (d : Nat) (nodes : List Node) (T : DTree) (depth : QVar → Nat) (name : QVar → ScopePath → QVar) (ids : List (List Char))
    (R : QVar → QVar → Prop) (q : Query) : Prop where
  good : q.Good d nodes T depth
  inside : ∀ i ∈ q.idNames, i ∈ ids
  var : ∀ x ∈ q.varNames, ∀ a a', NameR name ids x a a' → R a a'
  gens : ∀ a ∈ q.atoms, a.GensR name ids R

/-- The states in which the context can be after some queries have been encoded, one after the other, where no query declares a name that an
earlier one uses. The list has the names (in the basic context) that they use. -/
inductive After (d : Nat) (nodes : List Node) (T : DTree) (name : QVar → ScopePath → QVar) (ids : List (List Char)) (R : QVar → QVar → Prop)
    (I : QContext σ) (inv : σ → Prop) (view : σ → View) : List QVar → σ → Prop
  | new {t} : Unused inv view t → After d nodes T name ids R I inv view [] t
  | query {us t depth c t'} {q : Query} : After d nodes T name ids R I inv view us t → q.UsableIn d nodes T depth name ids R →
      (∀ n ∈ q.names d T [], n ∉ us) → Over.encode I q t = (.ok c, t') →
      After d nodes T name ids R I inv view (us ++ q.touches d T depth) t'
  | same {us t t'} : After d nodes T name ids R I inv view us t → inv t' → view t' = view t → After d nodes T name ids R I inv view us t'

/-- The conditions on the queries that `ComputeOptim` encodes, given formula `f` and order `o`, as `Optimises`; in the context, the variable has
the name that `ComputeOptim` asks the solver for. -/
structure OptimisesIn (d : Nat) (nodes : List Node) (T : DTree) (depth : QVar → Nat) (name : QVar → ScopePath → QVar) (ids : List (List Char))
    (R : QVar → QVar → Prop) (v : QVar) (f : Query) (o : QConst → Query) : Prop where
  first : (Query.withVar v f).UsableIn d nodes T depth name ids R
  plain : (Query.withVar v f).Plain
  next : ∀ b, GoodVals d b → (Query.withVar v (.and f (o { val := b }))).UsableIn d nodes T depth name ids R
  plainNext : ∀ b, GoodVals d b → (Query.withVar v (.and f (o { val := b }))).Plain
  self : name v [] = v

/-! ### Boolean combinations -/

/-- An element of a combination of queries, as `Elem`. -/
structure ElemG (S σ : Type) where
  sat : SatG S σ
  need : List QVar
  touch : List QVar
  holds : Prop

/-- The query, or its negation. -/
def ElemG.query (I : QContext σ) (sv : SolverG S σ) (d : Nat) (T : DTree) (depth : QVar → Nat) (q : Query) (negated : Bool) : ElemG S σ where
  sat := Over.atomSat sv (Over.comp I q) negated
  need := q.names d T []
  touch := q.touches d T depth
  holds := q.fo d T (fun _ => bot) (fun _ => none) ↔ negated = false

/-- The conjunction of elements. -/
def ElemG.and (es : List (ElemG S σ)) : ElemG S σ where
  sat := Over.andSat (es.map fun e => some e.sat)
  need := es.flatMap ElemG.need
  touch := es.flatMap ElemG.touch
  holds := ∀ e ∈ es, e.holds

/-- The disjunction of elements. -/
def ElemG.or (es : List (ElemG S σ)) : ElemG S σ where
  sat := Over.orSat (es.map fun e => some e.sat)
  need := es.flatMap ElemG.need
  touch := es.flatMap ElemG.touch
  holds := ∃ e ∈ es, e.holds

/-- The method `Sat` of the element returns the truth value it stands for and no error, in every state after queries that use none of the names
the element declares; and it leaves such a state. -/
def ElemG.Right (d : Nat) (nodes : List Node) (T : DTree) (name : QVar → ScopePath → QVar) (ids : List (List Char)) (R : QVar → QVar → Prop)
    (I : QContext σ) (inv : σ → Prop) (view : σ → View) (e : ElemG S σ) : Prop :=
  ∀ us st t, After d nodes T name ids R I inv view us t → (∀ n ∈ e.need, n ∉ us) →
    ∃ b st' us' t', e.sat st t = (.ok b, st', t') ∧ (b = true ↔ e.holds) ∧ After d nodes T name ids R I inv view us' t' ∧
      ∀ n ∈ us', n ∈ us ∨ n ∈ e.touch

/-- No element needs a name that an earlier element may use. -/
def ApartG (es : List (ElemG S σ)) : Prop :=
  es.Pairwise fun e1 e2 => ∀ n ∈ e2.need, n ∉ e1.touch

end Goexpdt

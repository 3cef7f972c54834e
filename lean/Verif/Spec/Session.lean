import Verif.Spec.Scoped
/-
Specification: programs that make several calls on one context and one solver.
-/
namespace Goexpdt
open Spec

/-- The names of all triples in the encoding of a query whose variables may be declared several times: declared and auxiliary variables. -/
def Query.marks (d : Nat) (T : DTree) (q : Query) : List QVar :=
  (q.flat d T).names ++ (q.flat d T).uses.map Prod.fst

/-- The query, or its negation. -/
def Elem.scoped {S : Type} (sv : Solver S) (d : Nat) (T : DTree) (q : Query) (negated : Bool) : Elem S where
  sat := atomSat sv q.comp negated
  need := (q.flat d T).names
  touch := q.marks d T
  holds := q.fo d T (fun _ => bot) (fun _ => none) ↔ negated = false

/-- The element computes the truth value it stands for, in every context over the model in which none of the names it needs has been declared, and
declares only names in `touch`; or it returns an error, but not if the solver is reliable. -/
def Elem.Safe {S : Type} (d : Nat) (nodes : List Node) (sv : Solver S) (e : Elem S) : Prop :=
  ∀ st s, Ready d nodes e.need s →
    (∃ b st' s', e.sat st s = (.ok b, st', s') ∧ (b = true ↔ e.holds) ∧ Ready d nodes [] s' ∧
      ∀ n, Declared s' n → Declared s n ∨ n ∈ e.touch) ∨
    ((∃ err, (e.sat st s).1 = .error err) ∧ ¬ Reliable sv)

namespace Session

/-- What a call returns. -/
inductive Answer where
  | sat (b : Bool)
  | optim (o : OptOutput)
  | found (k : Option QConst)

/-- A call on a context: what it does, the names that must not have been declared, those that it may declare, and which answers are right. -/
structure Call (S : Type) where
  act : S → Ctx → Except Err Answer × S × Ctx
  need : List QVar
  touch : QVar → Prop
  right : Answer → Prop

/-- The evaluation of a query or a combination of queries. -/
def Call.sat {S : Type} (e : Elem S) : Call S where
  act st s := match e.sat st s with
    | (.error err, st, s) => (.error err, st, s)
    | (.ok b, st, s) => (.ok (.sat b), st, s)
  need := e.need
  touch := (· ∈ e.touch)
  right a := ∃ b, a = .sat b ∧ (b = true ↔ e.holds)

/-- The search for an instance `v` that satisfies the formula `f` and is optimal in the order `o`. The temporary file can be created; `fuel`
bounds the number of rounds. -/
def Call.optim {S : Type} (sv : Solver S) (d : Nat) (T : DTree) (v : QVar) (f : Query) (o : QConst → Query) (fuel : Nat) : Call S where
  act st s := match computeOptim sv (fun _ => f.comp) (fun _ k => (o k).comp) v true fuel st s with
    | (.error err, st, s) => (.error err, st, s)
    | (.ok r, st, s) => (.ok (.optim r), st, s)
  need := ((Query.withVar v f).flat d T).names
  touch n := n ∈ (Query.withVar v f).marks d T ∨ ∃ b, GoodVals d b ∧ n ∈ (Query.withVar v (.and f (o { val := b }))).marks d T
  right a := ∃ r, a = .optim r ∧ (r.found = true ↔ ∃ e, f.about d T v e) ∧
    (r.found = true → GoodVals d r.value.val ∧ f.about d T v (den r.value.val) ∧
      ∀ e, f.about d T v e → ¬ (o { val := r.value.val }).about d T v e)

/-- The search for any instance `v` that satisfies the formula `f`: `Step`, and `Values` if there is one. -/
def Call.find {S : Type} (sv : Solver S) (d : Nat) (T : DTree) (v : QVar) (f : Query) : Call S where
  act st s := match sv.step (Query.withVar v f).comp st s with
    | (.error .unsat, st, s) => (.ok (.found none), st, s)
    | (.error (.other err), st, s) => (.error err, st, s)
    | (.ok (), st, s) =>
      match sv.values [v] st s with
      | (.error err, st, s) => (.error err, st, s)
      | (.ok ks, st, s) => (.ok (.found ks.head?), st, s)
  need := ((Query.withVar v f).flat d T).names
  touch n := n ∈ (Query.withVar v f).marks d T
  right a := (a = .found none ∧ ∀ e, ¬ f.about d T v e) ∨ ∃ k, a = .found (some k) ∧ GoodVals d k.val ∧ f.about d T v (den k.val)

/-- In every context over the model in which none of the names it needs has been declared, the call gives a right answer and declares only
names in `touch`; or it returns an error, but not if the solver is reliable. -/
def Call.Safe {S : Type} (d : Nat) (nodes : List Node) (sv : Solver S) (c : Call S) : Prop :=
  ∀ st s, Ready d nodes c.need s →
    (∃ a st' s', c.act st s = (.ok a, st', s') ∧ c.right a ∧ Ready d nodes [] s' ∧ ∀ n, Declared s' n → Declared s n ∨ c.touch n) ∨
    ((∃ err, (c.act st s).1 = .error err) ∧ ¬ Reliable sv)

/-- A step of a program: a call, or `Reset` of the context. -/
inductive Move (S : Type) where
  | call (c : Call S)
  | reset

/-- The answers of a program that stops at the first error, and this error. -/
def answers {S : Type} : List (Move S) → S → Ctx → List (Call S × Answer) × Option Err
  | [], _, _ => ([], none)
  | .reset :: ps, st, s => answers ps st s.reset
  | .call c :: ps, st, s =>
    match c.act st s with
    | (.error err, _, _) => ([], some err)
    | (.ok a, st, s) => ((c, a) :: (answers ps st s).1, (answers ps st s).2)

/-- The calls of a program. -/
def calls {S : Type} : List (Move S) → List (Call S)
  | [] => []
  | .reset :: ps => calls ps
  | .call c :: ps => c :: calls ps

/-- No call needs a name that has been declared since the last `Reset`; `old` are those declared before the program starts. -/
def Distinct {S : Type} : (QVar → Prop) → List (Move S) → Prop
  | _, [] => True
  | _, .reset :: ps => Distinct (fun _ => False) ps
  | old, .call c :: ps => (∀ n ∈ c.need, ¬ old n) ∧ Distinct (fun n => old n ∨ c.touch n) ps

end Session

end Goexpdt

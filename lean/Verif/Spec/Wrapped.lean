import Verif.Model.Wrapped
/- What it means that an answer comes from the solver. -/
namespace Goexpdt.Errs.Spec

/-- `UnsatError` is the error, or somewhere inside of it. -/
inductive Wraps : GoErr → Prop where
  | self : Wraps .unsat
  | inside (pre : String) {e : GoErr} (h : Wraps e) : Wraps (.wrap pre e)
  | left {a b : GoErr} (h : Wraps a) : Wraps (.join a b)
  | right {a b : GoErr} (h : Wraps b) : Wraps (.join a b)

/-- The encoding of `q` fails with an error that wraps `UnsatError` in no context. -/
def Quiet (q : CompE) : Prop :=
  ∀ act, q = some act → ∀ s e s', act s = (.error (.err e), s') → ¬ Wraps e

/-- In this call of `Step` the query is encoded without an error, the formula is written, and the
executable is run on it and ends with exit code `code`. -/
def Said (env : Env) (q : CompE) (s : Ctx) (code : Int) : Prop :=
  ∃ act c s' f out err, q = some act ∧ act s = (.ok c, s') ∧ c.toFile env.create = (true, some f) ∧
    env.run f.content = .exited code out err

/-- The components of the user that occur in a query. -/
def owns : UQuery → List (ME CNF)
  | .own x => [x]
  | .nil | .atom _ => []
  | .and q1 q2 | .or q1 q2 => owns q1 ++ owns q2
  | .not q | .withVar _ q | .forallG _ q => owns q

/-- An outcome with the text of its error only. -/
def plain {α : Type} : Except Fail α → Except Err α
  | .ok a => .ok a
  | .error (.err e) => .error (.msg e.text)
  | .error (.panic s) => .error (.panic s)
  | .error .diverge => .error .diverge

/-- A component with the texts of its errors only. -/
def plainComp (q : CompE) : Comp := q.map fun act s => (plain (act s).1, (act s).2)

end Goexpdt.Errs.Spec

import Verif.Model.Compute
import Verif.Model.Syntax
/-
Model of /repo/query/internal/test/solver.go, and of the queries that the table tests of the predicates run with it.
-/
namespace Goexpdt.Helpers
open Goexpdt

/-- How a test ends: it goes on without a complaint; `t.Errorf` or `t.Fatalf` was called; or the program ends with a panic, or
never. -/
inductive TestEnd where
  | passed
  | errorf (s : String)
  | fatal (s : String)
  | aborted (e : Err)
  deriving DecidableEq, Repr

/-- solver.go:52-74 `runSolver`. -/
def testRunSolver : Run → Except String Int
  | .exited code _ stderr =>
    if code = 0 then .error "Solver exit code could not be recovered"
    else if code ≠ 10 ∧ code ≠ 20 then .error (String.ofList stderr)
    else .ok code
  | .failed msg => .error msg

/-- solver.go:39-50 `runFormulaTest`, given the run of the solver. -/
def runFormulaTest (code : Int) (r : Run) : TestEnd :=
  match testRunSolver r with
  | .error s => .fatal ("Solver exec error: " ++ s)
  | .ok ec => if ec ≠ code then .errorf s!"Wrong answer. Expected exit code {code} but got {ec}" else .passed

/-- solver.go:24-37 `EncodeAndRun`, with a non-nil context. `create` is what `ToFile` meets (see `CNF.toFile`), `run` the run of the
executable given the content of the file. The directory is new for every call, so the file is; the text of an error of `ToFile` is
left out. -/
def encodeAndRun (create : Option (Option (Nat × Nat))) (run : List Char → Run) (f : Comp) (code : Int) (s : Ctx) : TestEnd :=
  match f with
  | none => .aborted (.panic "nil pointer dereference")
  | some act =>
    match (act s).1 with
    | .error (.msg m) => .fatal ("Formula encoding error: " ++ m)
    | .error e => .aborted e
    | .ok c =>
      match c.toFile create with
      | (true, some file) => runFormulaTest code (run file.content)
      | _ => .fatal "CNF writing error"

/-- For instance query/predicates/subsumption/var_var_test.go:31-43: the variables are made equal to constants, from the first to
the last, and then the formula under test follows. -/
def pinBody : List (QVar × QConst) → Query → Query
  | [], f => f
  | (x, c) :: ps, f =>
    .and (.and (.atom (.subs (.var x) (.const c))) (.atom (.subs (.const c) (.var x)))) (pinBody ps f)

/-- For instance query/predicates/subsumption/var_var_test.go:26-45, query/extensions/leh/var_var_var_test.go:35-64: the variables
are declared first. -/
def pinned (ps : List (QVar × QConst)) (f : Query) : Query := (ps.map (·.1)).foldr .withVar (pinBody ps f)

/-- For instance query/predicates/subsumption/var_var_test.go:21-24: the formula under test, negated if `neg` is set. -/
def underTest (neg : Bool) (a : Atom) : Query := if neg then .not (.atom a) else .atom a

end Goexpdt.Helpers

import Verif.Model.Compute
import Verif.Model.Syntax
/-
Model of the programs in /repo/examples and of the query in /repo/README.md. The solver is a parameter
(the programs create one with `compute.BinSolver`). What is printed is a list of characters; the functions that return
it are those with `Main` in their name, which also create the solver.
-/
namespace Goexpdt.Examples

/-! ### examples/computation.go -/

/-- examples/computation.go:68-70 `reachableVarGen`. -/
def reachableVarGen (v : QVar) : QVar := 'r' :: v

/-- examples/computation.go:76-88, the nodes of `tree`. -/
def compNodes : List Node :=
  [{ feat := 0, zChild := 1, oChild := 6 },
   { feat := 1, zChild := 2, oChild := 5 },
   { feat := 2, zChild := 3, oChild := 4 },
   { value := true, zChild := NoChild, oChild := NoChild },
   { value := true, zChild := NoChild, oChild := NoChild },
   { value := true, zChild := NoChild, oChild := NoChild },
   { feat := 2, zChild := 7, oChild := 8 },
   { value := false, zChild := NoChild, oChild := NoChild },
   { feat := 1, zChild := 9, oChild := 10 },
   { value := true, zChild := NoChild, oChild := NoChild },
   { value := false, zChild := NoChild, oChild := NoChild }]

/-- examples/computation.go:101-130 `sufficientReason`, for a constant `c`. -/
def sufficientReason (c : QConst) (v : QVar) : Query :=
  .withVar v (.and (.atom (.subs (.var v) (.const c)))
    (.and
      (.or (.not (.atom (.allcomp (.const c) true none))) (.atom (.allcomp (.var v) true (some reachableVarGen))))
      (.or (.not (.atom (.allcomp (.const c) false none))) (.atom (.allcomp (.var v) false (some reachableVarGen))))))

/-- examples/computation.go:132-137 `strictSubsumption`. -/
def strictSubsumption (v : QVar) (u : QConst) : Query :=
  .and (.atom (.subs (.var v) (.const u))) (.not (.atom (.subs (.const u) (.var v))))

/-- examples/computation.go:148-157, the computation for a model and a constant. -/
def computation {S : Type} (sv : Solver S) (c : QConst) (v : QVar) (tmp : Bool) (fuel : Nat) (st : S) (ctx : Ctx) :
    Except Err OptOutput × S × Ctx :=
  computeOptim sv (fun v => (sufficientReason c v).comp) (fun v u => (strictSubsumption v u).comp) v tmp fuel st ctx

/-- examples/computation.go:72-167 `ComputationExample`. -/
def computationExample {S : Type} (sv : Solver S) (tmp : Bool) (fuel : Nat) (st : S) : Except Err OptOutput × S × Ctx :=
  computation sv { val := [ZERO, ONE, ONE] } ['x'] tmp fuel st (BasicQContext 3 compNodes)

/-- `panic(err)` for an error that was returned. -/
def panicWith : Err → Err
  | .msg m => .panic m
  | e => e

/-- `strings.Split(s, "")` (standard library): one string per character. -/
def splitChars (s : List Char) : List (List Char) := s.map fun c => [c]

/-- `fmt.Sprintf("%s", l)` (standard library) for a slice of strings: in brackets, with spaces between them. -/
def formatStrings (l : List (List Char)) : List Char := '[' :: List.intercalate [' '] l ++ [']']

/-- examples/computation.go:143-166, for a model, a constant and a variable: the solver is created, the computation made and its
result printed. `stat` is the error of `os.Stat`, if it fails. -/
def computationMain (stat : Option String) (env : Nat → Env) (c : QConst) (v : QVar) (tmp : Bool) (fuel : Nat) (ctx : Ctx) :
    Except Err (List Char) :=
  match newBinSolver stat env with
  | .error err => .error (panicWith err)
  | .ok (sv, st) =>
    match (computation sv c v tmp fuel st ctx).1 with
    | .error err => .error (panicWith err)
    | .ok output =>
      if output.found then .ok ("Value found: ".toList ++ formatStrings (splitChars output.value.asString) ++ ['\n'])
      else .ok "No value exists.\n".toList

/-! ### examples/evaluation.go -/

/-- examples/evaluation.go:63-65 `botCountVarGen`. -/
def botCountVarGen (v : QVar) : QVar := 'c' :: 'b' :: 'o' :: 't' :: v

/-- examples/evaluation.go:71-87, the nodes of `tree`. -/
def evalNodes : List Node :=
  [{ feat := 0, zChild := 1, oChild := 8 },
   { feat := 1, zChild := 2, oChild := 5 },
   { feat := 2, zChild := 3, oChild := 4 },
   { value := false, zChild := NoChild, oChild := NoChild },
   { value := false, zChild := NoChild, oChild := NoChild },
   { feat := 2, zChild := 6, oChild := 7 },
   { value := true, zChild := NoChild, oChild := NoChild },
   { value := true, zChild := NoChild, oChild := NoChild },
   { feat := 2, zChild := 9, oChild := 12 },
   { feat := 1, zChild := 10, oChild := 11 },
   { value := false, zChild := NoChild, oChild := NoChild },
   { value := true, zChild := NoChild, oChild := NoChild },
   { feat := 1, zChild := 13, oChild := 14 },
   { value := false, zChild := NoChild, oChild := NoChild },
   { value := true, zChild := NoChild, oChild := NoChild }]

/-- examples/evaluation.go:102-124 `qry`, for a constant `c` and a variable `y`. -/
def evalQuery (c : QConst) (y : QVar) : Query :=
  .or (.not (.atom (.dfs (.const c))))
    (.withVar y (.and (.atom (.dfs (.var y)))
      (.and (.atom (.lel (.var y) (.const c) (some botCountVarGen)))
        (.not (.atom (.lel (.const c) (.var y) (some botCountVarGen)))))))

/-- examples/evaluation.go:135-143, the evaluation for a constant and a variable. -/
def evaluation {S : Type} (sv : Solver S) (c : QConst) (y : QVar) (st : S) (ctx : Ctx) : Except Err Bool × S × Ctx :=
  atomSat sv (evalQuery c y).comp true st ctx

/-- examples/evaluation.go:67-146 `EvaluationExample`. -/
def evaluationExample {S : Type} (sv : Solver S) (st : S) : Except Err Bool × S × Ctx :=
  evaluation sv { val := [BOT, ZERO, BOT] } ['y'] st (BasicQContext 3 evalNodes)

/-- examples/evaluation.go:130-145, for a constant and a variable: the solver is created, the query evaluated and the result printed. -/
def evaluationMain (stat : Option String) (env : Nat → Env) (c : QConst) (y : QVar) (ctx : Ctx) : Except Err (List Char) :=
  match newBinSolver stat env with
  | .error err => .error (panicWith err)
  | .ok (sv, st) =>
    match (evaluation sv c y st ctx).1 with
    | .error err => .error (panicWith err)
    | .ok result => .ok ((if result then "true" else "false").toList ++ ['\n'])

/-! ### README.md -/

/-- README.md:71-87 `qry`. -/
def readmeQuery : Query :=
  .withVar ['x'] (.and (.not (.atom (.full (.var ['x'])))) (.atom (.allcomp (.var ['x']) false (some reachableVarGen))))

/-- README.md:116-133, the evaluation of `qry`. -/
def readme {S : Type} (sv : Solver S) (st : S) (ctx : Ctx) : Except Err Bool × S × Ctx :=
  atomSat sv readmeQuery.comp false st ctx

end Goexpdt.Examples

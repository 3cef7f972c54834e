import Verif.Model.Gen
import Verif.Model.Syntax
/-
What the tests of the repository use: a SAT solver in place of kissat, and the wrapping of the formulas.
Nothing here is a proof; no theorem depends on this file.
-/
namespace Goexpdt.Tests

/-- Make the literal `l` true. -/
def assume (l : Int) (cs : List Clause) : List Clause :=
  (cs.filter fun c => !c.contains l).map fun c => c.filter (· ≠ -l)

/-- Search with unit propagation. The fuel is a bound on the number of variables. -/
def search : Nat → List Clause → Bool
  | 0, cs => cs.isEmpty
  | n + 1, cs =>
    if cs.isEmpty then true
    else if cs.any (·.isEmpty) then false
    else match cs.find? (·.length = 1) with
      | some (l :: _) => search n (assume l cs)
      | _ => match cs with
        | (l :: _) :: _ => search n (assume l cs) || search n (assume (-l) cs)
        | _ => false

/-- query/internal/test/solver.go:21-37 `EncodeAndRun`: the exit code of the solver, or 0 after an error. -/
def encodeAndRun (q : Query) (ctx : Ctx) : Nat :=
  match (q.encode ctx).1 with
  | .error _ => 0
  | .ok c => if search (c.tv.toNat + 1) (c.sClauses ++ c.cClauses) then 10 else 20

/-- One argument of a predicate in a test: the variable or constant it uses. -/
inductive Arg where
  | lit
  | guarded
  | var
  deriving DecidableEq

/-- Names of the arguments of a test. -/
def argName : Nat → List Char
  | 0 => ['x']
  | 1 => ['y']
  | _ => ['z']

/-- The term of the `i`-th argument with the given value. -/
def Arg.term (i : Nat) (val : List FeatV) : Arg → Term
  | .lit => .const { val := val }
  | .guarded => .const { id := argName i }
  | .var => .var (argName i)

/-- The context of a test: one scope per guarded argument. -/
def testCtx (dim : Nat) (nodes : List Node) (args : List (Nat × Arg × List FeatV)) : Ctx :=
  args.foldl (fun ctx a => match a.2.1 with
    | .guarded => ((ctx.addScope (argName a.1)).setScope (a.1 + 1) a.2.2).2
    | _ => ctx) (BasicQContext dim nodes)

/-- The formula of a test: variables are declared and forced to be equal to the values of the row. -/
def testQuery (f : Query) (args : List (Nat × Arg × List FeatV)) : Query :=
  let vars := args.filter (·.2.1 = .var)
  let body := vars.foldr (fun a q =>
    let x := Term.var (argName a.1)
    let c := Term.const { val := a.2.2 }
    .and (.and (.atom (.subs x c)) (.atom (.subs c x))) q) f
  vars.foldr (fun a q => .withVar (argName a.1) q) body

/-- A row of a table: dimension, values, preference and expected exit code. -/
structure Row where
  dim : Nat
  vals : List (List FeatV)
  pref : List Int := []
  code : Nat

/-- All ways to choose how the arguments are given. -/
def kinds : Nat → List (List Arg)
  | 0 => [[]]
  | n + 1 => (kinds n).flatMap fun ks => [.lit :: ks, .guarded :: ks, .var :: ks]

/-- Run one row for one choice of the arguments. -/
def Row.run (r : Row) (nodes : List Node) (atom : List Term → List Int → Atom) (neg : Bool) (ks : List Arg) : Bool :=
  let args := (List.range r.vals.length).zip (ks.zip r.vals)
  let f := Query.atom (atom (args.map fun a => a.2.1.term a.1 a.2.2) r.pref)
  encodeAndRun (testQuery (if neg then .not f else f) args) (testCtx r.dim nodes args) == r.code

/-- Run a table for every choice of the arguments. -/
def runTable (n : Nat) (t : List Row) (nodes : List Node) (atom : List Term → List Int → Atom) (neg : Bool) : Bool :=
  t.all fun r => r.vals.length == n && (kinds n).all fun ks => r.run nodes atom neg ks

end Goexpdt.Tests

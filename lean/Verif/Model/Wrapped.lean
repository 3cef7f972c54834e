import Verif.Model.Syntax
import Verif.Model.Compute
/-
Errors as values that wrap others.

`Model/Query.lean` keeps of an error its text, and `Model/Compute.lean` takes `errors.Is(err, UnsatError)` for
a pattern match on the outcome of the solver. Here an error keeps what it wraps, so that `errors.Is` is
computed as the standard library computes it, and the query may contain components of the user whose
method `Encoding` returns whatever error it likes, `compute.UnsatError` among them. The logical operators,
`binSolver.Step`, `QDTFAtom.Sat` and `ComputeOptim` are modelled a second time with these errors.

Simplifications: errors of the library's own predicates and of the operating system are leaves with a text
(none of them wraps `UnsatError`, as packages query, cnf and os do not know it). An error of the user is a
tree of `fmt.Errorf("…: %w", err)` and `errors.Join(err1, err2)` over leaves; a type with its own method
`Is` counts as `unsat` or as `new`.
-/
namespace Goexpdt.Errs

/-- A non-nil Go error. -/
inductive GoErr where
  /-- `errors.New(s)`, or any other error that wraps nothing -/
  | new (s : String)
  /-- compute/solver.go:14-15 `UnsatError` -/
  | unsat
  /-- `fmt.Errorf("pre: %w", e)` -/
  | wrap (pre : String) (e : GoErr)
  /-- `errors.Join(a, b)` -/
  | join (a b : GoErr)
  deriving DecidableEq, Repr

/-- The method `Error`. -/
def GoErr.text : GoErr → String
  | .new s => s
  | .unsat => "Formula is not satisfiable"
  | .wrap pre e => pre ++ ": " ++ e.text
  | .join a b => a.text ++ "\n" ++ b.text

/-- `errors.Is(err, compute.UnsatError)` (standard library, errors/wrap.go). -/
def GoErr.isUnsat : GoErr → Bool
  | .new _ => false
  | .unsat => true
  | .wrap _ e => e.isUnsat
  | .join a b => a.isUnsat || b.isUnsat

/-- Outcome other than normal return; compare `Err`. -/
inductive Fail where
  | err (e : GoErr)
  | panic (s : String)
  | diverge
  deriving DecidableEq, Repr

/-- `errors.Is(err, UnsatError)` of what a call returned. A panic is not returned. -/
def Fail.isUnsat : Fail → Bool
  | .err e => e.isUnsat
  | _ => false

/-- `fmt.Errorf("pre: %w", err)`. -/
def Fail.wrap (pre : String) : Fail → Fail
  | .err e => .err (.wrap pre e)
  | f => f

/-- An outcome of the other model files. -/
def ofErr : Err → Fail
  | .msg s => .err (.new s)
  | .panic s => .panic s
  | .diverge => .diverge

/-- Computations on a context; compare `M`. -/
def ME (α : Type) := Ctx → Except Fail α × Ctx

namespace ME

instance : Monad ME where
  pure a := fun s => (.ok a, s)
  bind x f := fun s =>
    match x s with
    | (.ok a, s') => f a s'
    | (.error e, s') => (.error e, s')

/-- A computation of the other model files. -/
def ofM {α : Type} (x : M α) : ME α := fun s =>
  match x s with
  | (.ok a, s') => (.ok a, s')
  | (.error e, s') => (.error (ofErr e), s')

def throw {α : Type} (f : Fail) : ME α := fun s => (.error f, s)

/-- The deferred `fmt.Errorf("pre: %w", err)`. -/
def wrapErr {α : Type} (pre : String) (x : ME α) : ME α := fun s =>
  match x s with
  | (.ok a, s') => (.ok a, s')
  | (.error e, s') => (.error (e.wrap pre), s')

end ME

/-- A value of the interface type `LogOpQ`, or `Encodable` (query/logop/logop.go:13-18,
compute/solver.go:17-23). -/
abbrev CompE := Option (ME CNF)

/-- query/logop/and.go:45-57 `And.buildEncoding`. -/
def andBuild (q1 q2 : ME CNF) : ME CNF := do
  let cnf1 ← ME.wrapErr "Q1" q1
  let cnf2 ← ME.wrapErr "Q2" q2
  pure (cnf1.conjunction cnf2)

/-- query/logop/and.go:21-43 `And.Encoding` with a non-nil context. -/
def encAnd (q1 q2 : CompE) : ME CNF := ME.wrapErr "And" <|
  match q1, q2 with
  | none, _ => ME.throw (.err (.new "Invalid encoding of nil child (1)"))
  | some _, none => ME.throw (.err (.new "Invalid encoding of nil child (2)"))
  | some q1, some q2 => andBuild q1 q2

/-- query/logop/or.go:45-71 `Or.buildEncoding`. -/
def orBuild (q1 q2 : ME CNF) : ME CNF := do
  let cnf1 ← ME.wrapErr "Q1" q1
  let cnf2 ← ME.wrapErr "Q2" q2
  let top ← ME.ofM M.topV
  let cnf1 := cnf1.negate (some top)
  ME.ofM (M.updateTopV cnf1.topV)
  let top ← ME.ofM M.topV
  let cnf2 := cnf2.negate (some top)
  ME.ofM (M.updateTopV cnf2.topV)
  let top ← ME.ofM M.topV
  let ncnf := (cnf1.conjunction cnf2).negate (some top)
  ME.ofM (M.updateTopV ncnf.topV)
  pure ncnf

/-- query/logop/or.go:21-43 `Or.Encoding` with a non-nil context. -/
def encOr (q1 q2 : CompE) : ME CNF := ME.wrapErr "Or" <|
  match q1, q2 with
  | none, _ => ME.throw (.err (.new "Invalid encoding of nil child (1)"))
  | some _, none => ME.throw (.err (.new "Invalid encoding of nil child (2)"))
  | some q1, some q2 => orBuild q1 q2

/-- query/logop/not.go:39-49 `Not.buildEncoding`. -/
def notBuild (q : ME CNF) : ME CNF := do
  let ncnf ← q
  let top ← ME.ofM M.topV
  let ncnf := ncnf.negate (some top)
  ME.ofM (M.updateTopV ncnf.topV)
  pure ncnf

/-- query/logop/not.go:18-37 `Not.Encoding` with a non-nil context. -/
def encNot (q : CompE) : ME CNF := ME.wrapErr "Not" <|
  match q with
  | none => ME.throw (.err (.new "Invalid encoding of nil child"))
  | some q => notBuild q

/-- query/logop/with_var.go:45-56 `WithVar.buildEncoding`. -/
def withVarBuild (x : QVar) (q : ME CNF) : ME CNF := do
  let icnf ← ME.ofM (encodeI x)
  let ccnf ← q
  pure (icnf.conjunction ccnf)

/-- query/logop/with_var.go:20-43 `WithVar.Encoding` with a non-nil context. -/
def encWithVar (x : QVar) (q : CompE) : ME CNF := ME.wrapErr "WithVar" <|
  match q with
  | none => ME.throw (.err (.new "Invalid encoding of nil child"))
  | some q => do
    ME.ofM (M.addVar x)
    withVarBuild x q

/-- query/logop/forallguarded.go:184-197, the loop of `buildEncoding`; see `Goexpdt.forallLoop`. -/
def forallLoop (q : ME CNF) (nodes : List Node) : Nat → WalkSt → Int → CNF → ME CNF
  | 0, _, _, _ => ME.throw .diverge
  | fuel + 1, w, i, ncnf =>
    match walkNext nodes (nextFuel nodes) w with
    | .error e => ME.throw (ofErr e)
    | .ok none => pure ncnf
    | .ok (some w') => do
      ME.ofM (M.setScope i w'.t)
      let icnf ← q
      forallLoop q nodes fuel w' (i + 1) (ncnf.conjunction icnf)

/-- query/logop/forallguarded.go:178-199, the body of `buildEncoding`. -/
def forallBody (q : ME CNF) : ME CNF := do
  let d ← ME.ofM M.dim
  let nodes ← ME.ofM M.nodes
  let iter ← ME.ofM (M.lift (newNodeAsValuesIter d nodes))
  forallLoop q nodes (nodes.length + 1) iter 0 {}

/-- query/logop/forallguarded.go:173-175, `errors.Join(err, perr)`, where `err` may be nil. -/
def joinErr {α : Type} (r : Except Fail α) (perr : Fail) : Except Fail α :=
  match r, perr with
  | .ok _, e => .error e
  | .error (.err a), .err b => .error (.err (.join a b))
  | .error e, _ => .error e

/-- query/logop/forallguarded.go:164-200 `ForAllGuarded.buildEncoding`. -/
def forallBuild (c : QConst) (q : ME CNF) : ME CNF := fun s =>
  let r := forallBody q (s.addScope c.id)
  match r.2.popScope with
  | (.ok (), s') => (r.1, s')
  | (.error perr, s') => (joinErr r.1 (ofErr perr), s')

/-- query/logop/forallguarded.go:142-162 `ForAllGuarded.Encoding` with a non-nil context. -/
def encForall (c : QConst) (q : CompE) : ME CNF := ME.wrapErr "ForAllGuarded" <|
  match q with
  | none => ME.throw (.err (.new "Invalid encoding of nil child"))
  | some q => forallBuild c q

/-- Queries with components of the user, given by their method `Encoding`. -/
inductive UQuery where
  | own (x : ME CNF)
  | nil
  | atom (a : Atom)
  | and (q1 q2 : UQuery)
  | or (q1 q2 : UQuery)
  | not (q : UQuery)
  | withVar (x : QVar) (q : UQuery)
  | forallG (c : QConst) (q : UQuery)

/-- A query as a value of the interface type. -/
def UQuery.comp : UQuery → CompE
  | .own x => some x
  | .nil => none
  | .atom a => some (ME.ofM a.encode)
  | .and q1 q2 => some (encAnd q1.comp q2.comp)
  | .or q1 q2 => some (encOr q1.comp q2.comp)
  | .not q => some (encNot q.comp)
  | .withVar x q => some (encWithVar x q.comp)
  | .forallG c q => some (encForall c q.comp)

/-- A query of the library. -/
def UQuery.ofQuery : Query → UQuery
  | .nil => .nil
  | .atom a => .atom a
  | .and q1 q2 => .and (ofQuery q1) (ofQuery q2)
  | .or q1 q2 => .or (ofQuery q1) (ofQuery q2)
  | .not q => .not (ofQuery q)
  | .withVar x q => .withVar x (ofQuery q)
  | .forallG c q => .forallG c (ofQuery q)

/-- compute/solver.go:25-34 `type Solver interface`. -/
structure SolverE (S : Type) where
  values : List QVar → S → Ctx → Except Fail (List QConst) × S × Ctx
  step : CompE → S → Ctx → Except Fail Unit × S × Ctx

/-- compute/solver.go:56-92 `binSolver.Step`; see `Goexpdt.binStep`. -/
def binStep (env : Env) (q : CompE) (st : BinSt) (s : Ctx) : Except Fail Unit × BinSt × Ctx :=
  let st := { st with calls := st.calls + 1 }
  match env.temp with
  | some msg => (.error (.err (.new msg)), st, s)
  | none =>
    match q with
    | none => (.error (.panic "nil pointer dereference"), st, s)
    | some act =>
      match act s with
      | (.error e, s) => (.error e, st, s)
      | (.ok c, s) =>
        match c.toFile env.create with
        | (true, some f) =>
          match runSolver (env.run f.content) with
          | .error e => (.error (ofErr e), st, s)
          | .ok (code, output) =>
            if code = 20 then (.error (.err .unsat), st, s)
            else (.ok (), { st with output := output }, s)
        | _ => (.error (.err (.new "write error")), st, s)

/-- compute/solver.go:120-135 `binSolver.Values`. -/
def binValues (vs : List QVar) (st : BinSt) (s : Ctx) : Except Fail (List QConst) × BinSt × Ctx :=
  match Goexpdt.binValues vs st s with
  | (.ok cs, st, s) => (.ok cs, st, s)
  | (.error e, st, s) => (.error (ofErr e), st, s)

/-- compute/solver.go:56-135, the methods of `*binSolver`. -/
def binSolver (env : Nat → Env) : SolverE BinSt where
  values := binValues
  step q st s := binStep (env st.calls) q st s

/-- compute/boolcomb.go:53-79 `QDTFAtom.Sat`. -/
def atomSat {S : Type} (sv : SolverE S) (q : CompE) (negated : Bool) (st : S) (s : Ctx) :
    Except Fail Bool × S × Ctx :=
  match sv.step q st s with
  | (.error f, st, s) => if f.isUnsat then (.ok negated, st, s) else (.error f, st, s)
  | (.ok (), st, s) => (.ok (!negated), st, s)

/-- compute/optimum.go:67-95, the loop and the final return; see `Goexpdt.optimLoop`. -/
def optimLoop {S : Type} (sv : SolverE S) (fg : QVar → CompE) (og : QVar → QConst → CompE) (v : QVar) :
    Nat → Nat → S → Ctx → Except Fail OptOutput × S × Ctx
  | 0, _, st, s => (.error .diverge, st, s)
  | fuel + 1, steps, st, s =>
    let steps := steps + 1
    match sv.values [v] st s with
    | (.error e, st, s) => (.error e, st, s)
    | (.ok [], st, s) => (.error (.panic "index out of range"), st, s.reset)
    | (.ok (b :: _), st, s) =>
      let s := s.reset
      match sv.step (some (encWithVar v (some (encAnd (fg v) (og v b))))) st s with
      | (.error f, st, s) => if f.isUnsat then (.ok ⟨true, b, steps⟩, st, s) else (.error f, st, s)
      | (.ok (), st, s) => optimLoop sv fg og v fuel steps st s

/-- compute/optimum.go:36-96 `ComputeOptim`; see `Goexpdt.computeOptim`. -/
def computeOptim {S : Type} (sv : SolverE S) (fg : QVar → CompE) (og : QVar → QConst → CompE) (v : QVar)
    (tmp : Bool) (fuel : Nat) (st : S) (s : Ctx) : Except Fail OptOutput × S × Ctx :=
  if !tmp then (.ok {}, st, s)
  else
    match sv.step (some (encWithVar v (fg v))) st s with
    | (.error f, st, s) => if f.isUnsat then (.ok ⟨false, {}, 1⟩, st, s) else (.error f, st, s)
    | (.ok (), st, s) => optimLoop sv fg og v fuel 1 st s

end Goexpdt.Errs

import Verif.Model.LogOp
/-
Model of /repo/compute (package compute).

Simplifications, for the whole file: the error `UnsatError` is a constructor of its own, so that
`errors.Is(err, UnsatError)` is a pattern match (an `Encoding` method that itself returns
`UnsatError` is modelled in `Model/Wrapped.lean`); texts are lists of characters; contexts are not nil; temporary files
have no names here (they do in `Model/Files.lean`).
-/
namespace Goexpdt

/-- The error of a call of `Step`. -/
inductive StepErr where
  /-- compute/solver.go:14-15 `UnsatError` -/
  | unsat
  | other (e : Err)
  deriving DecidableEq, Repr

/-- compute/solver.go:25-34 `type Solver interface`. `S` is the state of the implementation; the
context is changed in place. A nil query is `none`. -/
structure Solver (S : Type) where
  values : List QVar → S → Ctx → Except Err (List QConst) × S × Ctx
  step : Comp → S → Ctx → Except StepErr Unit × S × Ctx

/-! ### binSolver -/

/-- How a run of the solver's executable ends: with an exit code (negative if it was killed by a signal),
or not at all. -/
inductive Run where
  | exited (code : Int) (stdout stderr : List Char)
  | failed (msg : String)
  deriving DecidableEq, Repr

/-- What the environment does during a call of `Step`. -/
structure Env where
  /-- the error of `os.CreateTemp`, if it fails -/
  temp : Option String
  /-- `ToFile`: see `CNF.toFile` -/
  create : Option (Option (Nat × Nat))
  /-- the run of the executable, given the content of the file -/
  run : List Char → Run

/-- compute/solver.go:38-41 `type binSolver struct`. `calls` counts the calls of `Step` (it does not
exist in the code). The path is part of the environment. -/
structure BinSt where
  output : List Char := []
  calls : Nat := 0
  deriving DecidableEq, Repr

/-- compute/solver.go:94-118 `runSolver`. `cmd.Run` returns nil exactly if the exit code is 0. -/
def runSolver : Run → Except Err (Int × List Char)
  | .exited code stdout stderr =>
    if code = 0 then .error (.msg "Solver exit code could not be recovered")
    else if code ≠ 10 ∧ code ≠ 20 then .error (.msg (String.ofList stderr))
    else .ok (code, stdout)
  | .failed msg => .error (.msg msg)

/-- compute/solver.go:56-92 `binSolver.Step`, in environment `env`. -/
def binStep (env : Env) (q : Comp) (st : BinSt) (s : Ctx) : Except StepErr Unit × BinSt × Ctx :=
  let st := { st with calls := st.calls + 1 }
  match env.temp with
  | some msg => (.error (.other (.msg msg)), st, s)
  | none =>
    match q with
    | none => (.error (.other (.panic "nil pointer dereference")), st, s)
    | some act =>
      match act s with
      | (.error e, s) => (.error (.other e), st, s)
      | (.ok c, s) =>
        match c.toFile env.create with
        | (true, some f) =>
          match runSolver (env.run f.content) with
          | .error e => (.error (.other e), st, s)
          | .ok (code, output) =>
            if code = 20 then (.error .unsat, st, s)
            else (.ok (), { st with output := output }, s)
        | _ => (.error (.other (.msg "write error")), st, s)

/-- `bytes.Split(s, sep)` (standard library) for a separator of one character. -/
def splitOn (sep : Char) : List Char → List (List Char)
  | [] => [[]]
  | c :: cs =>
    if c = sep then [] :: splitOn sep cs
    else
      match splitOn sep cs with
      | [] => [[c]]
      | p :: ps => (c :: p) :: ps

/-- The digits of a decimal numeral. -/
def atoiDigits (acc : Nat) : List Char → Option Nat
  | [] => some acc
  | c :: cs =>
    if 48 ≤ c.toNat ∧ c.toNat ≤ 57 then atoiDigits (acc * 10 + (c.toNat - 48)) cs else none

/-- `strconv.Atoi` (standard library): optional sign, then at least one digit. Simplification: no range
error, `int` is unbounded. -/
def atoi : List Char → Except Err Int
  | '-' :: c :: cs =>
    match atoiDigits 0 (c :: cs) with
    | some n => .ok (-(n : Int))
    | none => .error (.msg "strconv.Atoi: invalid syntax")
  | '+' :: c :: cs =>
    match atoiDigits 0 (c :: cs) with
    | some n => .ok n
    | none => .error (.msg "strconv.Atoi: invalid syntax")
  | [] => .error (.msg "strconv.Atoi: invalid syntax")
  | c :: cs =>
    match atoiDigits 0 (c :: cs) with
    | some n => .ok n
    | none => .error (.msg "strconv.Atoi: invalid syntax")

/-- compute/solver.go:195-201 `iAbs`. -/
def iAbs (v : Int) : Int := if v > 0 then v else -v

/-- compute/solver.go:152-161, the inner loop of `varValueFromBytes`: the literals of one line. The maps
are association lists; the latest entry comes first. -/
def scanLits (vfilter : List Int) (vval : List (Int × Bool)) : List (List Char) → Except Err (List (Int × Bool))
  | [] => .ok vval
  | vb :: vbs =>
    match atoi vb with
    | .error e => .error e
    | .ok val =>
      let absVal := iAbs val
      if absVal ∈ vfilter then scanLits vfilter ((absVal, decide (val > 0)) :: vval) vbs
      else scanLits vfilter vval vbs

/-- compute/solver.go:148-162, the outer loop: the lines that begin with `v` (118). `line[2:]` panics if
the line has one character only. -/
def scanLines (vfilter : List Int) (vval : List (Int × Bool)) : List (List Char) → Except Err (List (Int × Bool))
  | [] => .ok vval
  | [] :: lines => scanLines vfilter vval lines
  | (c :: cs) :: lines =>
    if c ≠ 'v' then scanLines vfilter vval lines
    else
      match cs with
      | [] => .error (.panic "slice bounds out of range")
      | _ :: rest =>
        match scanLits vfilter vval (splitOn ' ' rest) with
        | .error e => .error e
        | .ok vval => scanLines vfilter vval lines

/-- compute/solver.go:182-193 `variableFilter`; the result lists the keys. `is` are the loop indexes. -/
def variableFilter (v : QVar) : List Nat → M (List Int)
  | [] => pure []
  | i :: is => do
    let a ← M.cnfVar ⟨v, i, BOT⟩
    let b ← M.cnfVar ⟨v, i, ZERO⟩
    let c ← M.cnfVar ⟨v, i, ONE⟩
    let rest ← variableFilter v is
    return a :: b :: c :: rest

/-- compute/solver.go:164-177, the loop over the features. A missing map entry reads as false. -/
def readFeats (v : QVar) (vval : List (Int × Bool)) : List Nat → M (List FeatV)
  | [] => pure []
  | i :: is => do
    let a ← M.cnfVar ⟨v, i, BOT⟩
    if (mapGet vval a).getD false then
      let rest ← readFeats v vval is
      return BOT :: rest
    else
      let b ← M.cnfVar ⟨v, i, ONE⟩
      if (mapGet vval b).getD false then
        let rest ← readFeats v vval is
        return ONE :: rest
      else
        let c ← M.cnfVar ⟨v, i, ZERO⟩
        if (mapGet vval c).getD false then
          let rest ← readFeats v vval is
          return ZERO :: rest
        else readFeats v vval is

/-- compute/solver.go:137-180 `varValueFromBytes`. -/
def varValueFromBytes (out : List Char) (v : QVar) : M QConst := do
  let d ← M.dim
  let vfilter ← variableFilter v (List.range d)
  let vval ← M.lift (scanLines vfilter [] (splitOn '\n' out))
  let feats ← readFeats v vval (List.range d)
  return { val := feats }

/-- compute/solver.go:120-135 `binSolver.Values`: the loop. -/
def binValuesLoop (out : List Char) : List QVar → M (List QConst)
  | [] => pure []
  | v :: vs => do
    let c ← varValueFromBytes out v
    let rest ← binValuesLoop out vs
    return c :: rest

/-- compute/solver.go:120-135 `binSolver.Values`. -/
def binValues (vs : List QVar) (st : BinSt) (s : Ctx) : Except Err (List QConst) × BinSt × Ctx :=
  match binValuesLoop st.output vs s with
  | (r, s) => (r, st, s)

/-- compute/solver.go:56-135, the methods of `*binSolver`: the solver in an environment that behaves
as `env k` during the `k`-th call of `Step`. -/
def binSolver (env : Nat → Env) : Solver BinSt where
  values := binValues
  step q st s := binStep (env st.calls) q st s

/-- compute/solver.go:43-54 `BinSolver`. `stat` is the error of `os.Stat`, if it fails; the state is that of the new
value. -/
def newBinSolver (stat : Option String) (env : Nat → Env) : Except Err (Solver BinSt × BinSt) :=
  match stat with
  | some msg => .error (.msg msg)
  | none => .ok (binSolver env, {})

/-! ### Boolean combinations -/

/-- compute/boolcomb.go:9-15 `type QDTFCombinator interface`: the method `Sat` of a value, with the solver's
state. -/
abbrev SatM (S : Type) := S → Ctx → Except Err Bool × S × Ctx

/-- compute/boolcomb.go:20-33 `AndCombinator.Sat`. A nil element is `none`. -/
def andSat {S : Type} : List (Option (SatM S)) → SatM S
  | [], st, s => (.ok true, st, s)
  | none :: _, st, s => (.error (.panic "nil pointer dereference"), st, s)
  | some elem :: es, st, s =>
    match elem st s with
    | (.error e, st, s) => (.error e, st, s)
    | (.ok sat, st, s) => if !sat then (.ok false, st, s) else andSat es st s

/-- compute/boolcomb.go:38-51 `OrCombinator.Sat`. -/
def orSat {S : Type} : List (Option (SatM S)) → SatM S
  | [], st, s => (.ok false, st, s)
  | none :: _, st, s => (.error (.panic "nil pointer dereference"), st, s)
  | some elem :: es, st, s =>
    match elem st s with
    | (.error e, st, s) => (.error e, st, s)
    | (.ok sat, st, s) => if sat then (.ok true, st, s) else orSat es st s

/-- compute/boolcomb.go:53-79 `QDTFAtom.Sat`. -/
def atomSat {S : Type} (sv : Solver S) (q : Comp) (negated : Bool) : SatM S := fun st s =>
  match sv.step q st s with
  | (.error .unsat, st, s) => (.ok negated, st, s)
  | (.error (.other e), st, s) => (.error e, st, s)
  | (.ok (), st, s) => (.ok (!negated), st, s)

/-! ### ComputeOptim -/

/-- compute/optimum.go:11-20 `type OptOutput struct`. -/
structure OptOutput where
  found : Bool := false
  value : QConst := {}
  calls : Nat := 0
  deriving DecidableEq, Repr

/-- compute/optimum.go:67-95, the loop and the final return. `fuel` bounds the number of rounds; when it is
used up the loop is taken not to end. -/
def optimLoop {S : Type} (sv : Solver S) (fg : QVar → Comp) (og : QVar → QConst → Comp) (v : QVar) :
    Nat → Nat → S → Ctx → Except Err OptOutput × S × Ctx
  | 0, _, st, s => (.error .diverge, st, s)
  | fuel + 1, steps, st, s =>
    let steps := steps + 1
    match sv.values [v] st s with
    | (.error e, st, s) => (.error e, st, s)
    | (.ok [], st, s) => (.error (.panic "index out of range"), st, s.reset)
    | (.ok (b :: _), st, s) =>
      let s := s.reset
      match sv.step (some (encWithVar v (some (encAnd (fg v) (og v b))))) st s with
      | (.error .unsat, st, s) => (.ok ⟨true, b, steps⟩, st, s)
      | (.error (.other e), st, s) => (.error e, st, s)
      | (.ok (), st, s) => optimLoop sv fg og v fuel steps st s

/-- compute/optimum.go:36-96 `ComputeOptim`. `tmp` is whether `os.CreateTemp` succeeds (line 48); when it
does not, the code returns no error. `fg` and `og` are Go functions that return an `Encodable`, or nil. -/
def computeOptim {S : Type} (sv : Solver S) (fg : QVar → Comp) (og : QVar → QConst → Comp) (v : QVar)
    (tmp : Bool) (fuel : Nat) (st : S) (s : Ctx) : Except Err OptOutput × S × Ctx :=
  if !tmp then (.ok {}, st, s)
  else
    match sv.step (some (encWithVar v (fg v))) st s with
    | (.error .unsat, st, s) => (.ok ⟨false, {}, 1⟩, st, s)
    | (.error (.other e), st, s) => (.error e, st, s)
    | (.ok (), st, s) => optimLoop sv fg og v fuel 1 st s

end Goexpdt

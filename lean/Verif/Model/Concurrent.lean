import Verif.Model.Files
/-
Model of /repo/compute/solver.go:56-92, boolcomb.go:20-79, optimum.go:36-96 and cnf/cnf.go:210-243 as programs that run at the same time
as others, in goroutines of the same process or in other processes: what a program does to the files is a sequence of operations, and other
programs may do theirs between any two of them. What goes on in memory takes no turn: every goroutine has a context and a solver of its own
here, and the package's variables (compute/solver.go:15, cnf/cnf.go:39-47) are not written to.

Simplifications: file handles are left out (`Model/Files.lean` has them); the solver's process reads its input in one turn; operations that
fail without an effect take no turn.
-/
namespace Goexpdt

/-- The content of the files, by path. -/
abbrev Disk := Path → Option (List Char)

/-- `d` with another entry at `p`. -/
def Disk.put (d : Disk) (p : Path) (c : Option (List Char)) : Disk := fun p' => if p' = p then c else d p'

/-- What a goroutine is about to do to the files. -/
inductive Prog (α : Type) where
  /-- nothing more; the result -/
  | ret (a : α)
  /-- `os.CreateTemp("", "tmp.cnf")` (standard library), which fails with `fail` if there is one -/
  | temp (fail : Option String) (k : Except String Path → Prog α)
  /-- `os.Create` (standard library) of a file that exists: its content is lost -/
  | create (p : Path) (k : Prog α)
  /-- `WriteString` (standard library): `text` is appended -/
  | write (p : Path) (text : List Char) (k : Prog α)
  /-- the solver's process reads its input -/
  | read (p : Path) (k : Option (List Char) → Prog α)
  /-- `os.Remove` (standard library) -/
  | remove (p : Path) (k : Prog α)

/-- One after the other. -/
def Prog.bind {α β : Type} : Prog α → (α → Prog β) → Prog β
  | .ret a, f => f a
  | .temp fail k, f => .temp fail fun r => (k r).bind f
  | .create p k, f => .create p (k.bind f)
  | .write p text k, f => .write p text (k.bind f)
  | .read p k, f => .read p fun c => (k c).bind f
  | .remove p k, f => .remove p (k.bind f)

/-! ### cnf.ToFile -/

/-- cnf/cnf.go:220-240, the texts that `ToFile` writes, one call of `WriteString` each. -/
def CNF.texts (c : CNF) : List (List Char) :=
  dimacsHeader c :: (c.sClauses ++ c.cClauses).map fun cl => clauseToDIMACS cl ++ ['\n']

/-- cnf/cnf.go:219-242, the calls of `WriteString`: up to the first that fails (see `FileSt.write`). -/
def writesP (p : Path) : Option (Nat × Nat) → List (List Char) → Prog Bool
  | _, [] => .ret true
  | none, t :: ts => .write p t (writesP p none ts)
  | some (0, n), t :: _ => .write p (t.dropLast.take n) (.ret false)
  | some (k + 1, n), t :: ts => .write p t (writesP p (some (k, n)) ts)

/-- cnf/cnf.go:210-243 `CNF.ToFile`; `create` as in `CNF.toFile`. -/
def toFileP (create : Option (Option (Nat × Nat))) (p : Path) (c : CNF) : Prog Bool :=
  match create with
  | none => .ret false
  | some budget => .create p (writesP p budget c.texts)

/-! ### binSolver -/

/-- compute/solver.go:70-91, `binSolver.Step` after the temporary file is created at path `p`. -/
def stepBodyP (env : Env) (p : Path) (q : Comp) (st : BinSt) (s : Ctx) : Prog (Except StepErr Unit × BinSt × Ctx) :=
  match q with
  | none => .ret (.error (.other (.panic "nil pointer dereference")), st, s)
  | some act =>
    match act s with
    | (.error e, s) => .ret (.error (.other e), st, s)
    | (.ok c, s) => (toFileP env.create p c).bind fun written =>
      if !written then .ret (.error (.other (.msg "write error")), st, s)
      else .read p fun content =>
        match runSolver (match content with
            | some text => env.run text
            | none => .failed "no such file") with
        | .error e => .ret (.error (.other e), st, s)
        | .ok (code, output) =>
          if code = 20 then .ret (.error .unsat, st, s)
          else .ret (.ok (), { st with output := output }, s)

/-- compute/solver.go:65-68 and optimum.go:52-55, the deferred function; `rm` is whether `os.Remove` succeeds. -/
def cleanupP {α : Type} (rm : Bool) (p : Path) (a : α) : Prog α := if rm then .remove p (.ret a) else .ret a

/-- compute/solver.go:56-92 `binSolver.Step`. Deferred functions do not run if the encoding runs forever. -/
def stepP (env : Env) (rm : Bool) (q : Comp) (st : BinSt) (s : Ctx) : Prog (Except StepErr Unit × BinSt × Ctx) :=
  let st := { st with calls := st.calls + 1 }
  .temp env.temp fun
    | .error msg => .ret (.error (.other (.msg msg)), st, s)
    | .ok p => (stepBodyP env p q st s).bind fun
      | (.error (.other .diverge), st, s) => .ret (.error (.other .diverge), st, s)
      | r => cleanupP rm p r

/-- What the environment does during the calls of `Step` of one solver, by number: see `Env`; and whether `os.Remove` succeeds. -/
structure EnvP where
  env : Nat → Env
  rm : Nat → Bool

/-- `Step` of a solver in the environment `e`. -/
def EnvP.step (e : EnvP) (q : Comp) (st : BinSt) (s : Ctx) : Prog (Except StepErr Unit × BinSt × Ctx) :=
  stepP (e.env st.calls) (e.rm st.calls) q st s

/-! ### Boolean combinations -/

/-- compute/boolcomb.go:9-15 `type QDTFCombinator interface`: the method `Sat` of a value. -/
abbrev SatP := BinSt → Ctx → Prog (Except Err Bool × BinSt × Ctx)

/-- compute/boolcomb.go:20-33 `AndCombinator.Sat`. -/
def andSatP : List (Option SatP) → SatP
  | [], st, s => .ret (.ok true, st, s)
  | none :: _, st, s => .ret (.error (.panic "nil pointer dereference"), st, s)
  | some elem :: es, st, s => (elem st s).bind fun
    | (.error e, st, s) => .ret (.error e, st, s)
    | (.ok sat, st, s) => if !sat then .ret (.ok false, st, s) else andSatP es st s

/-- compute/boolcomb.go:38-51 `OrCombinator.Sat`. -/
def orSatP : List (Option SatP) → SatP
  | [], st, s => .ret (.ok false, st, s)
  | none :: _, st, s => .ret (.error (.panic "nil pointer dereference"), st, s)
  | some elem :: es, st, s => (elem st s).bind fun
    | (.error e, st, s) => .ret (.error e, st, s)
    | (.ok sat, st, s) => if sat then .ret (.ok true, st, s) else orSatP es st s

/-- compute/boolcomb.go:53-79 `QDTFAtom.Sat`. -/
def atomSatP (e : EnvP) (q : Comp) (negated : Bool) : SatP := fun st s =>
  (e.step q st s).bind fun
    | (.error .unsat, st, s) => .ret (.ok negated, st, s)
    | (.error (.other e), st, s) => .ret (.error e, st, s)
    | (.ok (), st, s) => .ret (.ok (!negated), st, s)

/-! ### ComputeOptim -/

/-- compute/optimum.go:67-95, the loop and the final return; `fuel` as in `optimLoop`. -/
def optimLoopP (e : EnvP) (fg : QVar → Comp) (og : QVar → QConst → Comp) (v : QVar) :
    Nat → Nat → BinSt → Ctx → Prog (Except Err OptOutput × BinSt × Ctx)
  | 0, _, st, s => .ret (.error .diverge, st, s)
  | fuel + 1, steps, st, s =>
    let steps := steps + 1
    match binValues [v] st s with
    | (.error e, st, s) => .ret (.error e, st, s)
    | (.ok [], st, s) => .ret (.error (.panic "index out of range"), st, s.reset)
    | (.ok (b :: _), st, s) =>
      let s := s.reset
      (e.step (some (encWithVar v (some (encAnd (fg v) (og v b))))) st s).bind fun
        | (.error .unsat, st, s) => .ret (.ok ⟨true, b, steps⟩, st, s)
        | (.error (.other e), st, s) => .ret (.error e, st, s)
        | (.ok (), st, s) => optimLoopP e fg og v fuel steps st s

/-- compute/optimum.go:57-95, `ComputeOptim` after the temporary file is created. -/
def optimBodyP (e : EnvP) (fg : QVar → Comp) (og : QVar → QConst → Comp) (v : QVar) (fuel : Nat) (st : BinSt) (s : Ctx) :
    Prog (Except Err OptOutput × BinSt × Ctx) :=
  (e.step (some (encWithVar v (fg v))) st s).bind fun
    | (.error .unsat, st, s) => .ret (.ok ⟨false, {}, 1⟩, st, s)
    | (.error (.other e), st, s) => .ret (.error e, st, s)
    | (.ok (), st, s) => optimLoopP e fg og v fuel 1 st s

/-- compute/optimum.go:36-96 `ComputeOptim`. `temp` is the error of `os.CreateTemp` (line 48), if it fails, and `rm` whether `os.Remove`
succeeds (line 54). -/
def computeOptimP (temp : Option String) (rm : Bool) (e : EnvP) (fg : QVar → Comp) (og : QVar → QConst → Comp) (v : QVar) (fuel : Nat)
    (st : BinSt) (s : Ctx) : Prog (Except Err OptOutput × BinSt × Ctx) :=
  .temp temp fun
    | .error _ => .ret (.ok {}, st, s)
    | .ok p => (optimBodyP e fg og v fuel st s).bind fun
      | (.error .diverge, st, s) => .ret (.error .diverge, st, s)
      | r => cleanupP rm p r

/-! ### Goroutines -/

/-- A value of type `QDTFCombinator` (compute/boolcomb.go:9-79): an atom, or a list of elements, which may be nil. -/
inductive Comb where
  | atom (q : Comp) (negated : Bool)
  | and (es : List (Option Comb))
  | or (es : List (Option Comb))

mutual
/-- compute/boolcomb.go:20-79, the method `Sat` of a value. -/
def Comb.satP (e : EnvP) : Comb → SatP
  | .atom q negated => atomSatP e q negated
  | .and es => andSatP (Comb.satsP e es)
  | .or es => orSatP (Comb.satsP e es)

/-- `Sat` of the elements. -/
def Comb.satsP (e : EnvP) : List (Option Comb) → List (Option SatP)
  | [] => []
  | none :: es => none :: Comb.satsP e es
  | some c :: es => some (Comb.satP e c) :: Comb.satsP e es
end

/-- What a goroutine does with the package: calls of `Step`, of `Sat` and of `ComputeOptim`, with a solver in the environment `e` whose
state is `st`, and computations in between. What is called may depend on all that was returned before. (`Values`, `Encoding` and `Reset` do
nothing to files; they are computations here.) -/
inductive Goroutine (α : Type) where
  | done (a : α)
  | step (e : EnvP) (q : Comp) (st : BinSt) (s : Ctx) (k : Except StepErr Unit × BinSt × Ctx → Goroutine α)
  | sat (e : EnvP) (c : Comb) (st : BinSt) (s : Ctx) (k : Except Err Bool × BinSt × Ctx → Goroutine α)
  | optim (temp : Option String) (rm : Bool) (e : EnvP) (fg : QVar → Comp) (og : QVar → QConst → Comp) (v : QVar) (fuel : Nat)
      (st : BinSt) (s : Ctx) (k : Except Err OptOutput × BinSt × Ctx → Goroutine α)

/-- What it does to the files. -/
def Goroutine.prog {α : Type} : Goroutine α → Prog α
  | .done a => .ret a
  | .step e q st s k => (e.step q st s).bind fun r => (k r).prog
  | .sat e c st s k => (c.satP e st s).bind fun r => (k r).prog
  | .optim temp rm e fg og v fuel st s k => (computeOptimP temp rm e fg og v fuel st s).bind fun r => (k r).prog

end Goexpdt

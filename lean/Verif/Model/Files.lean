import Verif.Model.Compute
/-
Model of /repo/compute/solver.go:56-92 and optimum.go:48-55 with the files behind them: temporary files have names, are written
by name, read by the solver's process by name, and removed by deferred functions. (`Model/Compute.lean` has the same functions
without the files.)

Simplifications: no other process changes the files in between; deferred functions run when a function returns or panics, and not if
it runs forever; the solver's process changes no files.
-/
namespace Goexpdt

/-- A path. -/
abbrev Path := List Char

/-- The files (path and content, every path once), and the paths of the open file handles of the program. -/
structure FS where
  files : List (Path × List Char) := []
  handles : List Path := []
  deriving DecidableEq, Repr

namespace FS

/-- The paths in use. -/
def paths (fs : FS) : List Path := fs.files.map (·.1)

/-- The content of a file. -/
def read (fs : FS) (p : Path) : Option (List Char) := mapGet fs.files p

/-- `fs` with the given content at a path. -/
def put (fs : FS) (p : Path) (content : List Char) : FS :=
  { fs with files :=
      if p ∈ fs.paths then fs.files.map (fun f => if f.1 = p then (p, content) else f) else (p, content) :: fs.files }

/-- `os.Remove` (standard library), when it succeeds. -/
def remove (fs : FS) (p : Path) : FS := { fs with files := fs.files.filter (fun f => f.1 ≠ p) }

/-- A new handle. -/
def openH (fs : FS) (p : Path) : FS := { fs with handles := p :: fs.handles }

/-- `Close` (standard library). -/
def closeH (fs : FS) (p : Path) : FS := { fs with handles := fs.handles.erase p }

end FS

/-- What the operating system does during a call. -/
structure OS where
  /-- `os.CreateTemp`: the path of the new file, or an error -/
  temp : FS → Except String Path
  /-- `os.Create` and the writes in `ToFile`: see `CNF.toFile` -/
  create : Option (Option (Nat × Nat))
  /-- the run of the executable, given the content of the file -/
  run : List Char → Run
  /-- whether `os.Remove` succeeds -/
  remove : Bool

/-- `os.CreateTemp("", "tmp.cnf")` (standard library): a new empty file, open. -/
def createTemp (os : OS) (fs : FS) : Except String Path × FS :=
  match os.temp fs with
  | .error msg => (.error msg, fs)
  | .ok p => (.ok p, (fs.put p []).openH p)

/-- compute/solver.go:65-68 and optimum.go:52-55, the deferred function. Both errors are ignored. -/
def cleanup (os : OS) (p : Path) (fs : FS) : FS :=
  let fs := fs.closeH p
  if os.remove then fs.remove p else fs

/-- cnf/cnf.go:210-243 `CNF.ToFile`: true for a nil error. The handle is closed by a deferred call. -/
def toFileAt (os : OS) (p : Path) (c : CNF) (fs : FS) : Bool × FS :=
  match c.toFile os.create with
  | (ok, none) => (ok, fs)
  | (ok, some f) => (ok, (((fs.put p []).openH p).put p f.content).closeH p)

/-- compute/solver.go:70-91, the rest of `binSolver.Step` after the temporary file is created at path `p`. -/
def stepBody (os : OS) (p : Path) (q : Comp) (st : BinSt) (s : Ctx) (fs : FS) : Except StepErr Unit × BinSt × Ctx × FS :=
  match q with
  | none => (.error (.other (.panic "nil pointer dereference")), st, s, fs)
  | some act =>
    match act s with
    | (.error e, s) => (.error (.other e), st, s, fs)
    | (.ok c, s) =>
      match toFileAt os p c fs with
      | (false, fs) => (.error (.other (.msg "write error")), st, s, fs)
      | (true, fs) =>
        -- the process reads the file whose path it is given
        match runSolver (match fs.read p with
            | some text => os.run text
            | none => .failed "no such file") with
        | .error e => (.error (.other e), st, s, fs)
        | .ok (code, output) =>
          if code = 20 then (.error .unsat, st, s, fs)
          else (.ok (), { st with output := output }, s, fs)

/-- compute/solver.go:56-92 `binSolver.Step`. -/
def stepFS (os : OS) (q : Comp) (st : BinSt) (s : Ctx) (fs : FS) : Except StepErr Unit × BinSt × Ctx × FS :=
  let st := { st with calls := st.calls + 1 }
  match createTemp os fs with
  | (.error msg, fs) => (.error (.other (.msg msg)), st, s, fs)
  | (.ok p, fs) =>
    match stepBody os p q st s fs with
    | (.error (.other .diverge), st, s, fs) => (.error (.other .diverge), st, s, fs)
    | (r, st, s, fs) => (r, st, s, cleanup os p fs)

/-- The solver that runs an executable, with its files; during the `k`-th call of `Step` the operating system behaves as `os k`. -/
def fsSolver (os : Nat → OS) : Solver (BinSt × FS) where
  values vs st s :=
    match binValues vs st.1 s with
    | (r, b, s) => (r, (b, st.2), s)
  step q st s :=
    match stepFS (os st.1.calls) q st.1 s st.2 with
    | (r, b, s, fs) => (r, (b, fs), s)

/-- compute/optimum.go:36-96 `ComputeOptim` with the temporary file that it creates (and does not use). `os0` is what the operating system
does about this file. -/
def computeOptimFS (os0 : OS) (os : Nat → OS) (fg : QVar → Comp) (og : QVar → QConst → Comp) (v : QVar) (fuel : Nat)
    (st : BinSt) (s : Ctx) (fs : FS) : Except Err OptOutput × BinSt × Ctx × FS :=
  match createTemp os0 fs with
  | (.error _, fs) => (.ok {}, st, s, fs)
  | (.ok p, fs) =>
    match computeOptim (fsSolver os) fg og v true fuel (st, fs) s with
    | (.error .diverge, st, s) => (.error .diverge, st.1, s, st.2)
    | (r, st, s) => (r, st.1, s, cleanup os0 p st.2)

end Goexpdt

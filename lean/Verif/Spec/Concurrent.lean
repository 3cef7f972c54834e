import Verif.Model.Concurrent
/-
What it means that goroutines run at the same time.
-/
namespace Goexpdt.Spec

variable {α : Type}

/-- One operation of a goroutine changes the files and leaves the rest of its program. `theirs` are the paths that other processes use.
`os.CreateTemp` chooses any path that no file has and that no other process uses. -/
inductive DiskOp (theirs : Path → Prop) : Disk → Prog α → Disk → Prog α → Prop where
  | tempFails (d : Disk) (msg : String) (k : Except String Path → Prog α) : DiskOp theirs d (.temp (some msg) k) d (k (.error msg))
  | temp (d : Disk) (k : Except String Path → Prog α) (p : Path) (new : d p = none) (ours : ¬ theirs p) :
      DiskOp theirs d (.temp none k) (d.put p (some [])) (k (.ok p))
  | create (d : Disk) (p : Path) (k : Prog α) : DiskOp theirs d (.create p k) (d.put p (some [])) k
  | write (d : Disk) (p : Path) (text : List Char) (k : Prog α) :
      DiskOp theirs d (.write p text k) (d.put p ((d p).map (· ++ text))) k
  | read (d : Disk) (p : Path) (k : Option (List Char) → Prog α) : DiskOp theirs d (.read p k) d (k (d p))
  | remove (d : Disk) (p : Path) (k : Prog α) : DiskOp theirs d (.remove p k) (d.put p none) k

/-- One of the goroutines does its next operation. -/
inductive OurTurn (theirs : Path → Prop) : Disk → List (Prog α) → Disk → List (Prog α) → Prop where
  | mk (i : Nat) (d : Disk) (ps : List (Prog α)) (p : Prog α) (d' : Disk) (p' : Prog α) (at_i : ps[i]? = some p)
      (op : DiskOp theirs d p d' p') : OurTurn theirs d ps d' (ps.set i p')

/-- A part of an execution, in which the goroutines take turns in any order, and other processes do what they want with their files at any
time. -/
inductive Execution (theirs : Path → Prop) : Disk → List (Prog α) → Disk → List (Prog α) → Prop where
  | refl (d : Disk) (ps : List (Prog α)) : Execution theirs d ps d ps
  | ours {d d' d'' : Disk} {ps ps' ps'' : List (Prog α)} (before : Execution theirs d ps d' ps') (turn : OurTurn theirs d' ps' d'' ps'') :
      Execution theirs d ps d'' ps''
  | others {d d' d'' : Disk} {ps ps' : List (Prog α)} (before : Execution theirs d ps d' ps') (same : ∀ p, ¬ theirs p → d'' p = d' p) :
      Execution theirs d ps d'' ps'

mutual
/-- `Sat` without files, see `Model/Compute.lean`. -/
def _root_.Goexpdt.Comb.alone (e : EnvP) : Comb → SatM BinSt
  | .atom q negated => atomSat (binSolver e.env) q negated
  | .and es => andSat (Comb.alones e es)
  | .or es => orSat (Comb.alones e es)

/-- `Sat` of the elements. -/
def _root_.Goexpdt.Comb.alones (e : EnvP) : List (Option Comb) → List (Option (SatM BinSt))
  | [] => []
  | none :: es => none :: Comb.alones e es
  | some c :: es => some (Comb.alone e c) :: Comb.alones e es
end

/-- The result of a goroutine that is alone, with the package's functions of `Model/Compute.lean`, which know no files. -/
def _root_.Goexpdt.Goroutine.alone : Goroutine α → α
  | .done a => a
  | .step e q st s k => (k ((binSolver e.env).step q st s)).alone
  | .sat e c st s k => (k (c.alone e st s)).alone
  | .optim temp _ e fg og v fuel st s k => (k (computeOptim (binSolver e.env) fg og v temp.isNone fuel st s)).alone

/-- None of the calls runs forever, and `os.Remove` always succeeds. -/
def _root_.Goexpdt.Goroutine.Clean : Goroutine α → Prop
  | .done _ => True
  | .step e q st s k => (∀ i, e.rm i = true) ∧ ((binSolver e.env).step q st s).1 ≠ .error (.other .diverge) ∧
      (k ((binSolver e.env).step q st s)).Clean
  | .sat e c st s k => (∀ i, e.rm i = true) ∧ (c.alone e st s).1 ≠ .error .diverge ∧ (k (c.alone e st s)).Clean
  | .optim temp rm e fg og v fuel st s k => rm = true ∧ (∀ i, e.rm i = true) ∧
      (computeOptim (binSolver e.env) fg og v temp.isNone fuel st s).1 ≠ .error .diverge ∧
      (k (computeOptim (binSolver e.env) fg og v temp.isNone fuel st s)).Clean

/-- All goroutines have ended. -/
def AllDone (ps : List (Prog α)) : Prop := ∀ p ∈ ps, ∃ a, p = .ret a

end Goexpdt.Spec

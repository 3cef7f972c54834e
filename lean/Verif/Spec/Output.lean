import Verif.Spec.Solver
import Verif.Spec.Numeral
/-
Specification: outputs of SAT solvers as the library reads them, and solvers that print part of a solution or nothing.
-/
namespace Goexpdt
open Spec

/-- Words joined by spaces. -/
def joinWords : List (List Char) → List Char
  | [] => []
  | [w] => w
  | w :: w' :: ws => w ++ ' ' :: joinWords (w' :: ws)

/-- A line of an output: one that does not begin with `v`, or `v`, a character, and one or more numerals with single spaces in between. -/
inductive AnyLine where
  | other (text : List Char)
  | vals (c : Char) (ws : List (List Char × Int))

def AnyLine.text : AnyLine → List Char
  | .other t => t
  | .vals c ws => 'v' :: c :: joinWords (ws.map (·.1))

def AnyLine.Ok : AnyLine → Prop
  | .other t => '\n' ∉ t ∧ t.head? ≠ some 'v'
  | .vals c ws => c ≠ '\n' ∧ ws ≠ [] ∧ ∀ w ∈ ws, Numeral w.1 w.2

/-- The numbers in the line. -/
def AnyLine.lits : AnyLine → List Int
  | .other _ => []
  | .vals _ ws => ws.map (·.2)

/-- The output consists of such lines, and its numbers are `lits`. -/
def Reports (lits : List Int) (out : List Char) : Prop :=
  ∃ ls : List AnyLine, out = joinLines (ls.map AnyLine.text) ∧ (∀ l ∈ ls, l.Ok) ∧ lits = ls.flatMap AnyLine.lits

/-- The output has `v` alone on a line, and nothing wrong before it. -/
def BareV (out : List Char) : Prop :=
  ∃ (ls : List AnyLine) (rest : List (List Char)), out = joinLines (ls.map AnyLine.text ++ ['v'] :: rest) ∧ (∀ l ∈ ls, l.Ok) ∧ ∀ l ∈ rest, '\n' ∉ l

/-- The literals do not contradict each other, and every clause contains one of them. -/
structure Implicant (lits : List Int) (cls : List Clause) : Prop where
  consistent : ∀ k ∈ lits, k ≠ 0 → -k ∉ lits
  covers : ∀ cl ∈ cls, ∃ l ∈ cl, l ∈ lits

/-- The executable solves every DIMACS text, but it need not print the whole solution: literals that make all clauses true suffice, in any
order, repeated or not, on any number of lines. -/
def Answers (run : List Char → Run) : Prop :=
  ∀ text n m cls, readDimacs text = some (n, m, cls) → BoundedBy n cls → NonZero cls →
    (∃ out err lits, run text = .exited 10 out err ∧ Implicant lits cls ∧ Reports lits out) ∨
    (∃ out err, run text = .exited 20 out err ∧ ¬ ∃ β, clausesTrue β cls)

/-- The executable exits with 10 or 20, as it should, and prints anything. -/
def Judges (run : List Char → Run) : Prop :=
  ∀ text n m cls, readDimacs text = some (n, m, cls) → BoundedBy n cls → NonZero cls →
    (∃ out err, run text = .exited 10 out err ∧ ∃ β, clausesTrue β cls) ∨
    (∃ out err, run text = .exited 20 out err ∧ ¬ ∃ β, clausesTrue β cls)

end Goexpdt

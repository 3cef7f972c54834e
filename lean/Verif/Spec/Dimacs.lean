import Verif.Model.CNF
/-
Specification: a reader for the DIMACS CNF format, written from the format's description and
independent of the writer: the file is a sequence of tokens separated by white space, the header is
`p cnf <variables> <clauses>`, then integers; every 0 ends a clause.
-/
namespace Goexpdt.Spec

/-- Split a text into its white-space separated tokens; `cur` is the token being read. -/
def tokens (cur : List Char) : List Char → List (List Char)
  | [] => if cur = [] then [] else [cur]
  | c :: cs =>
    if c = ' ' ∨ c = '\n' then
      if cur = [] then tokens [] cs else cur :: tokens [] cs
    else tokens (cur ++ [c]) cs

/-- Read a digit. -/
def readDigit (c : Char) : Option Nat :=
  if '0'.toNat ≤ c.toNat ∧ c.toNat ≤ '9'.toNat then some (c.toNat - '0'.toNat) else none

/-- Read a sequence of digits, most significant first. -/
def readDigits (acc : Nat) : List Char → Option Nat
  | [] => some acc
  | c :: cs =>
    match readDigit c with
    | some d => readDigits (acc * 10 + d) cs
    | none => none

/-- Read a decimal integer with optional minus sign. -/
def readInt : List Char → Option Int
  | [] => none
  | '-' :: c :: cs => (readDigits 0 (c :: cs)).map (fun n => -(n : Int))
  | c :: cs => (readDigits 0 (c :: cs)).map (fun n => (n : Int))

/-- Group integer tokens into clauses; every clause must be ended by a 0. -/
def readClauses (cur : Clause) : List (List Char) → Option (List Clause)
  | [] => if cur = [] then some [] else none
  | t :: ts =>
    match readInt t with
    | none => none
    | some v =>
      if v = 0 then (readClauses [] ts).map (cur :: ·) else readClauses (cur ++ [v]) ts

/-- Read a DIMACS file: declared number of variables, declared number of clauses, clauses. -/
def readDimacs (text : List Char) : Option (Int × Int × List Clause) :=
  match tokens [] text with
  | ['p'] :: ['c', 'n', 'f'] :: nv :: nc :: rest =>
    match readInt nv, readInt nc, readClauses [] rest with
    | some v, some n, some cls => some (v, n, cls)
    | _, _, _ => none
  | _ => none

end Goexpdt.Spec

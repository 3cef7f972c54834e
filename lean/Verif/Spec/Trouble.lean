import Verif.Spec.Valid
/-
Specification: what the error for a query that cannot be encoded says.
-/
namespace Goexpdt.Spec

/-- What goes wrong with a query: an error with the given text, or a panic. -/
inductive Trouble where
  | error (text : String)
  | panic
  deriving DecidableEq

/-- Trouble in a part with the given label. -/
def Trouble.at (label : String) : Trouble → Trouble
  | .error text => .error (label ++ ": " ++ text)
  | .panic => .panic

/-- The first constant whose value does not have length `d`. Constants are counted from one. -/
def wrongDim (d : Nat) (opened : List (List Char × Nat)) (cs : List QConst) : Option String :=
  (cs.zipIdx.find? fun p => lengthIn opened p.1 != d).map fun p =>
    "constant" ++ toString (p.2 + 1) ++ ": wrong dim " ++ toString (lengthIn opened p.1) ++ " (" ++ toString d ++ " feats in context)"

/-- The first entry of a preference that is not a feature, or has occurred before. -/
def wrongPref (d : Nat) (p : List Int) : Option String :=
  (p.zipIdx.find? fun e => decide (¬ (0 ≤ e.1 ∧ e.1 < (d : Int)) ∨ e.1 ∈ p.take e.2)).map fun e =>
    if 0 ≤ e.1 ∧ e.1 < (d : Int) then "Invalid duplicate preference '" ++ toString e.1 ++ "'"
    else "Preference feature index out of range '" ++ toString e.1 ++ "'"

/-- The trouble with a predicate: a missing generator, else the first wrong entry of its preference, else the first constant of
wrong dimension, else an empty preference if there is a variable. -/
def Atom.trouble (d : Nat) (opened : List (List Char × Nat)) (a : Atom) : Option Trouble :=
  if Atom.nilGen a then some (.error "Invalid nil var generation function")
  else match prefTrouble a with
  | some t => some (.error t)
  | none =>
    match wrongDim d opened (Atom.consts a) with
    | some t => some (.error t)
    | none => if emptyPref a then some .panic else none
where
  prefTrouble : Atom → Option String
    | .hepr _ _ p _ => wrongPref d p
    | _ => none
  emptyPref : Atom → Bool
    | .hepr t1 t2 p _ => (Term.isVar t1 || Term.isVar t2) && p.isEmpty
    | _ => false

/-- The trouble of an operator with one part, which is nil or has the given trouble. -/
def oneTrouble (isNil : Bool) (t : Option Trouble) : Option Trouble :=
  if isNil then some (.error "Invalid encoding of nil child") else t

/-- The trouble of an operator with two parts: that of the first one comes first, but both are looked at for nil before. -/
def twoTrouble (nil1 nil2 : Bool) (t1 t2 : Option Trouble) : Option Trouble :=
  if nil1 then some (.error "Invalid encoding of nil child (1)")
  else if nil2 then some (.error "Invalid encoding of nil child (2)")
  else match t1 with
  | some t => some (t.at "Q1")
  | none => t2.map (Trouble.at "Q2")

/-- The trouble with a query, where scopes with the given names and lengths of values are open: the first in the order of the
parts, labelled with the operators around it. -/
def Query.trouble (d : Nat) : List (List Char × Nat) → Query → Option Trouble
  | _, .nil => some .panic
  | o, .atom a => Atom.trouble d o a
  | o, .and q1 q2 => (twoTrouble (isNil q1) (isNil q2) (Query.trouble d o q1) (Query.trouble d o q2)).map (Trouble.at "And")
  | o, .or q1 q2 => (twoTrouble (isNil q1) (isNil q2) (Query.trouble d o q1) (Query.trouble d o q2)).map (Trouble.at "Or")
  | o, .not q => (oneTrouble (isNil q) (Query.trouble d o q)).map (Trouble.at "Not")
  | o, .withVar _ q => (oneTrouble (isNil q) (Query.trouble d o q)).map (Trouble.at "WithVar")
  | o, .forallG c q => (oneTrouble (isNil q) (Query.trouble d (o ++ [(c.id, d)]) q)).map (Trouble.at "ForAllGuarded")
where
  isNil : Query → Bool
    | .nil => true
    | _ => false

/-- The result of an encoding is as described: a CNF if there is no trouble, else this trouble. -/
def Turns (r : Except Err CNF) : Option Trouble → Prop
  | none => ∃ c, r = .ok c
  | some (.error text) => r = .error (.msg text)
  | some .panic => ∃ m, r = .error (.panic m)

end Goexpdt.Spec

import Verif.Spec.Dimacs
/-
Specification: decimal numerals with an optional sign.
-/
namespace Goexpdt.Spec

/-- The number that decimal digits stand for. -/
def decVal : List Char → Nat
  | [] => 0
  | c :: cs => (c.toNat - '0'.toNat) * 10 ^ cs.length + decVal cs

/-- One digit or more. -/
def Digits (ds : List Char) : Prop := ds ≠ [] ∧ ∀ c ∈ ds, '0' ≤ c ∧ c ≤ '9'

/-- The word `w` is a numeral for `v`. -/
def Numeral (w : List Char) (v : Int) : Prop :=
  ∃ ds, Digits ds ∧ ((w = ds ∨ w = '+' :: ds) ∧ v = decVal ds ∨ w = '-' :: ds ∧ v = -(decVal ds : Int))

end Goexpdt.Spec

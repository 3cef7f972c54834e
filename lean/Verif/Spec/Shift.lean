import Verif.Spec.Formula
/-
Specification: renumbering of CNF variables.
-/
namespace Goexpdt
open Spec

/-- The literal of the variable whose number is larger by `k`. -/
def shiftLit (k : Int) (l : Int) : Int := if 0 < l then l + k else if l < 0 then l - k else 0

/-- The same in all clauses. -/
def shiftClauses (k : Int) (cls : List Clause) : List Clause := cls.map fun cl => cl.map (shiftLit k)

/-- Two outcomes of an encoding that differ by the numbers of the variables only. Of two CNFs the second is the first with all numbers
larger by `k`; so is its top variable, unless both top variables are 0. -/
def ShiftedBy (k : Int) : Except Err CNF → Except Err CNF → Prop
  | .ok c, .ok c' => c'.sClauses = shiftClauses k c.sClauses ∧ c'.cClauses = shiftClauses k c.cClauses ∧
      (c'.tv = c.tv + k ∨ c.tv = 0 ∧ c'.tv = 0)
  | .error e, .error e' => e' = e
  | _, _ => False

/-- The context before any variable was numbered in it. -/
def unnumbered (s : Ctx) : Ctx := { s with topv := 0, vmap := [] }

/-- The context `s` with all numbers larger by those of the context `t`, and with the numbers of `t`. -/
def onTopOf (t s : Ctx) : Ctx :=
  { s with topv := s.topv + t.topv, vmap := s.vmap.map (fun p => (p.1, p.2 + t.topv)) ++ t.vmap }

/-- No triple has a number in both contexts. -/
def ApartFrom (t s : Ctx) : Prop := ∀ vr, mapGet t.vmap vr = none ∨ mapGet s.vmap vr = none

end Goexpdt

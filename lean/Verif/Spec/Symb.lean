import Verif.Model.Sym
import Verif.Spec.Sat
/-
Specification: truth of clauses over triples (variable name, index, value).
-/
namespace Goexpdt
open Spec

/-- A literal over triples is true. -/
def slTrue (ν : VarRep → Bool) (l : SLit) : Prop := ν l.vr = l.pos

/-- A clause over triples is true. -/
def scTrue (ν : VarRep → Bool) (c : SClause) : Prop := ∃ l ∈ c, slTrue ν l

/-- All clauses are true. -/
def ssTrue (ν : VarRep → Bool) (cls : List SClause) : Prop := ∀ c ∈ cls, scTrue ν c

/-- The triples that occur in clauses. -/
def usedIn (cls : List SClause) (vr : VarRep) : Prop := ∃ c ∈ cls, ∃ l ∈ c, l.vr = vr

/-- The semantic clauses of a list of steps. -/
def semOf : List Step → List SClause
  | [] => []
  | .touch _ :: st => semOf st
  | .sem cls :: st => cls ++ semOf st
  | .con _ :: st => semOf st

/-- The consistency clauses of a list of steps. -/
def conOf : List Step → List SClause
  | [] => []
  | .touch _ :: st => conOf st
  | .sem _ :: st => conOf st
  | .con cls :: st => cls ++ conOf st

/-- All clauses that are built. -/
def allOf : List Step → List SClause
  | [] => []
  | .touch cls :: st => cls ++ allOf st
  | .sem cls :: st => cls ++ allOf st
  | .con cls :: st => cls ++ allOf st

/-- The number of a triple in a context. -/
def num (s : Ctx) (vr : VarRep) : Int := (mapGet s.vmap vr).getD 0

/-- The triple is numbered. -/
def Named (s : Ctx) (vr : VarRep) : Prop := ∃ n, mapGet s.vmap vr = some n

/-- The valuation of the triples given by one of the integers. -/
def symVal (s : Ctx) (β : Val) : VarRep → Bool := fun vr => β (num s vr).natAbs

end Goexpdt

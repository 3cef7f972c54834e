import Verif.Tests.Solve
/-
The tables of tests of the repository (query/predicates/*/tables_test.go and
query/extensions/*/tables_test.go), run on the model. Every row is run for every choice between literal
constants, constants of a scope and variables, which includes the tests of the repository. These are
tests of the model, not proofs: they show that the model gives the answers that the authors of the code
expect from the code.
-/
namespace Goexpdt.Tests

instance : Inhabited Term := ⟨.var []⟩

/-- query/predicates/subsumption/tables_test.go:9 `SubsumptionPTT`. -/
def subsumptionPTT : List Row :=
  [{ dim := 3, vals := [[ONE, BOT, BOT], [ONE, BOT, ZERO]], code := 10 },
   { dim := 3, vals := [[ONE, BOT, BOT], [ZERO, BOT, ZERO]], code := 20 },
   { dim := 3, vals := [[ONE, ZERO, ZERO], [ONE, BOT, BOT]], code := 20 },
   { dim := 3, vals := [[BOT, BOT, BOT], [ONE, ZERO, ONE]], code := 10 },
   { dim := 3, vals := [[BOT, BOT, ZERO], [ONE, BOT, ONE]], code := 20 },
   { dim := 3, vals := [[ONE, ONE, ONE], [ONE, ONE, ONE]], code := 10 },
   { dim := 3, vals := [[ONE, ZERO, ZERO], [ONE, ZERO, ONE]], code := 20 },
   { dim := 3, vals := [[ONE, ZERO, ZERO], [ONE, ZERO, ONE]], code := 20 }]

#guard runTable 2 subsumptionPTT [] (fun ts _ => .subs ts[0]! ts[1]!) false

/-- query/predicates/subsumption/tables_test.go:69 `SubsumptionNTT`. -/
def subsumptionNTT : List Row :=
  [{ dim := 3, vals := [[ONE, BOT, BOT], [ONE, BOT, ZERO]], code := 20 },
   { dim := 3, vals := [[ONE, BOT, BOT], [ZERO, BOT, ZERO]], code := 10 },
   { dim := 3, vals := [[ONE, ZERO, ZERO], [ONE, BOT, BOT]], code := 10 },
   { dim := 3, vals := [[BOT, BOT, BOT], [ONE, ZERO, ONE]], code := 20 },
   { dim := 3, vals := [[BOT, BOT, ZERO], [ONE, BOT, ONE]], code := 10 },
   { dim := 3, vals := [[ONE, ONE, ONE], [ONE, ONE, ONE]], code := 20 },
   { dim := 3, vals := [[ONE, ZERO, ZERO], [ONE, ZERO, ONE]], code := 10 },
   { dim := 3, vals := [[ONE, ZERO, ZERO], [ONE, ZERO, ONE]], code := 10 }]

#guard runTable 2 subsumptionNTT [] (fun ts _ => .subs ts[0]! ts[1]!) true

/-- query/predicates/lel/tables_test.go:8 `LELPTT`. -/
def lELPTT : List Row :=
  [{ dim := 3, vals := [[ONE, BOT, BOT], [ONE, BOT, ZERO]], code := 10 },
   { dim := 3, vals := [[BOT, BOT, BOT], [ONE, ONE, ZERO]], code := 10 },
   { dim := 3, vals := [[ONE, BOT, BOT], [BOT, BOT, ONE]], code := 10 },
   { dim := 3, vals := [[ONE, ONE, ZERO], [ZERO, ONE, ONE]], code := 10 },
   { dim := 3, vals := [[ONE, BOT, ZERO], [BOT, BOT, ZERO]], code := 20 },
   { dim := 3, vals := [[ONE, ONE, ZERO], [ONE, BOT, BOT]], code := 20 },
   { dim := 3, vals := [[ONE, ONE, ONE], [BOT, BOT, BOT]], code := 20 }]

#guard runTable 2 lELPTT [] (fun ts _ => .lel ts[0]! ts[1]! (some VarGenBotCount)) false

/-- query/predicates/lel/tables_test.go:60 `LELNTT`. -/
def lELNTT : List Row :=
  [{ dim := 3, vals := [[ONE, BOT, BOT], [ONE, BOT, ZERO]], code := 20 },
   { dim := 3, vals := [[BOT, BOT, BOT], [ONE, ONE, ZERO]], code := 20 },
   { dim := 3, vals := [[ONE, BOT, BOT], [BOT, BOT, ONE]], code := 20 },
   { dim := 3, vals := [[ONE, ONE, ZERO], [ZERO, ONE, ONE]], code := 20 },
   { dim := 3, vals := [[ONE, BOT, ZERO], [BOT, BOT, ZERO]], code := 10 },
   { dim := 3, vals := [[ONE, ONE, ZERO], [ONE, BOT, BOT]], code := 10 },
   { dim := 3, vals := [[ONE, ONE, ONE], [BOT, BOT, BOT]], code := 10 }]

#guard runTable 2 lELNTT [] (fun ts _ => .lel ts[0]! ts[1]! (some VarGenBotCount)) true

/-- query/predicates/isnode/tables_test.go:338 `IsNodeTree`. -/
def isNodeTree : List Node :=
  [{ feat := 0, zChild := 1, oChild := 6 },
   { feat := 1, zChild := 2, oChild := 5 },
   { feat := 2, zChild := 3, oChild := 4 },
   { value := true, zChild := NoChild, oChild := NoChild },
   { value := false, zChild := NoChild, oChild := NoChild },
   { value := true, zChild := NoChild, oChild := NoChild },
   { feat := 2, zChild := 7, oChild := 8 },
   { value := false, zChild := NoChild, oChild := NoChild },
   { feat := 1, zChild := 9, oChild := 10 },
   { value := true, zChild := NoChild, oChild := NoChild },
   { value := true, zChild := NoChild, oChild := NoChild }]

/-- query/predicates/isnode/tables_test.go:8 `IsNodePTT`. -/
def isNodePTT : List Row :=
  [{ dim := 3, vals := [[BOT, BOT, BOT]], code := 10 },
   { dim := 3, vals := [[ZERO, BOT, BOT]], code := 10 },
   { dim := 3, vals := [[ONE, BOT, BOT]], code := 10 },
   { dim := 3, vals := [[ZERO, ZERO, BOT]], code := 10 },
   { dim := 3, vals := [[ONE, BOT, ONE]], code := 10 },
   { dim := 3, vals := [[ZERO, ZERO, ZERO]], code := 10 },
   { dim := 3, vals := [[ZERO, ZERO, ONE]], code := 10 },
   { dim := 3, vals := [[ZERO, ONE, BOT]], code := 10 },
   { dim := 3, vals := [[ONE, BOT, ZERO]], code := 10 },
   { dim := 3, vals := [[ONE, ZERO, ONE]], code := 10 },
   { dim := 3, vals := [[ONE, ONE, ONE]], code := 10 },
   { dim := 3, vals := [[ZERO, ONE, ZERO]], code := 20 },
   { dim := 3, vals := [[ZERO, ONE, ONE]], code := 20 },
   { dim := 3, vals := [[ONE, ZERO, ZERO]], code := 20 },
   { dim := 3, vals := [[ONE, ONE, ZERO]], code := 20 },
   { dim := 3, vals := [[BOT, BOT, ZERO]], code := 20 },
   { dim := 3, vals := [[BOT, BOT, ONE]], code := 20 },
   { dim := 3, vals := [[BOT, ZERO, ZERO]], code := 20 },
   { dim := 3, vals := [[BOT, ONE, ZERO]], code := 20 },
   { dim := 3, vals := [[BOT, ZERO, ONE]], code := 20 },
   { dim := 3, vals := [[BOT, ONE, ONE]], code := 20 },
   { dim := 3, vals := [[ONE, ONE, BOT]], code := 20 },
   { dim := 3, vals := [[ONE, ZERO, BOT]], code := 20 },
   { dim := 3, vals := [[BOT, ZERO, BOT]], code := 20 },
   { dim := 3, vals := [[BOT, ONE, BOT]], code := 20 },
   { dim := 3, vals := [[ZERO, BOT, ZERO]], code := 20 },
   { dim := 3, vals := [[ZERO, BOT, ONE]], code := 20 }]

#guard runTable 1 isNodePTT isNodeTree (fun ts _ => .isnode ts[0]! (some VarGenNodeReach)) false

/-- query/predicates/isnode/tables_test.go:173 `IsNodeNTT`. -/
def isNodeNTT : List Row :=
  [{ dim := 3, vals := [[BOT, BOT, BOT]], code := 20 },
   { dim := 3, vals := [[ZERO, BOT, BOT]], code := 20 },
   { dim := 3, vals := [[ONE, BOT, BOT]], code := 20 },
   { dim := 3, vals := [[ZERO, ZERO, BOT]], code := 20 },
   { dim := 3, vals := [[ONE, BOT, ONE]], code := 20 },
   { dim := 3, vals := [[ZERO, ZERO, ZERO]], code := 20 },
   { dim := 3, vals := [[ZERO, ZERO, ONE]], code := 20 },
   { dim := 3, vals := [[ZERO, ONE, BOT]], code := 20 },
   { dim := 3, vals := [[ONE, BOT, ZERO]], code := 20 },
   { dim := 3, vals := [[ONE, ZERO, ONE]], code := 20 },
   { dim := 3, vals := [[ONE, ONE, ONE]], code := 20 },
   { dim := 3, vals := [[ZERO, ONE, ZERO]], code := 10 },
   { dim := 3, vals := [[ZERO, ONE, ONE]], code := 10 },
   { dim := 3, vals := [[ONE, ZERO, ZERO]], code := 10 },
   { dim := 3, vals := [[ONE, ONE, ZERO]], code := 10 },
   { dim := 3, vals := [[BOT, BOT, ZERO]], code := 10 },
   { dim := 3, vals := [[BOT, BOT, ONE]], code := 10 },
   { dim := 3, vals := [[BOT, ZERO, ZERO]], code := 10 },
   { dim := 3, vals := [[BOT, ONE, ZERO]], code := 10 },
   { dim := 3, vals := [[BOT, ZERO, ONE]], code := 10 },
   { dim := 3, vals := [[BOT, ONE, ONE]], code := 10 },
   { dim := 3, vals := [[ONE, ONE, BOT]], code := 10 },
   { dim := 3, vals := [[ONE, ZERO, BOT]], code := 10 },
   { dim := 3, vals := [[BOT, ZERO, BOT]], code := 10 },
   { dim := 3, vals := [[BOT, ONE, BOT]], code := 10 },
   { dim := 3, vals := [[ZERO, BOT, ZERO]], code := 10 },
   { dim := 3, vals := [[ZERO, BOT, ONE]], code := 10 }]

#guard runTable 1 isNodeNTT isNodeTree (fun ts _ => .isnode ts[0]! (some VarGenNodeReach)) true

/-- query/extensions/full/tables_test.go:8 `FullPTT`. -/
def fullPTT : List Row :=
  [{ dim := 3, vals := [[BOT, ONE, ZERO]], code := 20 },
   { dim := 3, vals := [[ONE, BOT, ONE]], code := 20 },
   { dim := 3, vals := [[ZERO, ONE, BOT]], code := 20 },
   { dim := 3, vals := [[ZERO, ONE, ONE]], code := 10 }]

#guard runTable 1 fullPTT [] (fun ts _ => .full ts[0]!) false

/-- query/extensions/full/tables_test.go:35 `FullNTT`. -/
def fullNTT : List Row :=
  [{ dim := 3, vals := [[BOT, ONE, ZERO]], code := 10 },
   { dim := 3, vals := [[ONE, BOT, ONE]], code := 10 },
   { dim := 3, vals := [[ZERO, ONE, BOT]], code := 10 },
   { dim := 3, vals := [[ZERO, ONE, ONE]], code := 20 }]

#guard runTable 1 fullNTT [] (fun ts _ => .full ts[0]!) true

/-- query/extensions/cons/tables_test.go:8 `ConsPTT`. -/
def consPTT : List Row :=
  [{ dim := 3, vals := [[ONE, BOT, BOT], [ONE, BOT, ZERO]], code := 10 },
   { dim := 3, vals := [[ONE, BOT, BOT], [ZERO, BOT, ZERO]], code := 20 },
   { dim := 3, vals := [[ONE, BOT, BOT], [ONE, ONE, ZERO]], code := 10 },
   { dim := 3, vals := [[ONE, BOT, BOT], [ZERO, ONE, ZERO]], code := 20 },
   { dim := 3, vals := [[ONE, ONE, ZERO], [ONE, BOT, BOT]], code := 10 },
   { dim := 3, vals := [[ZERO, ONE, ZERO], [ZERO, BOT, ONE]], code := 20 },
   { dim := 3, vals := [[ONE, ONE, ZERO], [ONE, ONE, ZERO]], code := 10 },
   { dim := 3, vals := [[ZERO, ONE, ZERO], [ZERO, ZERO, ONE]], code := 20 }]

#guard runTable 2 consPTT [] (fun ts _ => .cons ts[0]! ts[1]!) false

/-- query/extensions/cons/tables_test.go:67 `ConsNTT`. -/
def consNTT : List Row :=
  [{ dim := 3, vals := [[ONE, BOT, BOT], [ONE, BOT, ZERO]], code := 20 },
   { dim := 3, vals := [[ONE, BOT, BOT], [ZERO, BOT, ZERO]], code := 10 },
   { dim := 3, vals := [[ONE, BOT, BOT], [ONE, ONE, ZERO]], code := 20 },
   { dim := 3, vals := [[ONE, BOT, BOT], [ZERO, ONE, ZERO]], code := 10 },
   { dim := 3, vals := [[ONE, ONE, ZERO], [ONE, BOT, BOT]], code := 20 },
   { dim := 3, vals := [[ZERO, ONE, ZERO], [ZERO, BOT, ONE]], code := 10 },
   { dim := 3, vals := [[ONE, ONE, ZERO], [ONE, ONE, ZERO]], code := 20 },
   { dim := 3, vals := [[ZERO, ONE, ZERO], [ZERO, ZERO, ONE]], code := 10 }]

#guard runTable 2 consNTT [] (fun ts _ => .cons ts[0]! ts[1]!) true

/-- query/extensions/allcomp/tables_test.go:668 `AllCompTree`. -/
def allCompTree : List Node :=
  [{ feat := 0, zChild := 1, oChild := 6 },
   { feat := 1, zChild := 2, oChild := 5 },
   { feat := 2, zChild := 3, oChild := 4 },
   { value := true, zChild := NoChild, oChild := NoChild },
   { value := true, zChild := NoChild, oChild := NoChild },
   { value := true, zChild := NoChild, oChild := NoChild },
   { feat := 2, zChild := 7, oChild := 8 },
   { value := false, zChild := NoChild, oChild := NoChild },
   { feat := 1, zChild := 9, oChild := 10 },
   { value := true, zChild := NoChild, oChild := NoChild },
   { value := false, zChild := NoChild, oChild := NoChild }]

/-- query/extensions/allcomp/tables_test.go:8 `AllPosPTT`. -/
def allPosPTT : List Row :=
  [{ dim := 3, vals := [[BOT, BOT, BOT]], code := 20 },
   { dim := 3, vals := [[ZERO, BOT, BOT]], code := 10 },
   { dim := 3, vals := [[ONE, BOT, BOT]], code := 20 },
   { dim := 3, vals := [[ZERO, ZERO, BOT]], code := 10 },
   { dim := 3, vals := [[ZERO, ONE, BOT]], code := 10 },
   { dim := 3, vals := [[ONE, ZERO, BOT]], code := 20 },
   { dim := 3, vals := [[ONE, ONE, BOT]], code := 20 },
   { dim := 3, vals := [[ZERO, ZERO, ZERO]], code := 10 },
   { dim := 3, vals := [[ZERO, ZERO, ONE]], code := 10 },
   { dim := 3, vals := [[ZERO, ONE, ZERO]], code := 10 },
   { dim := 3, vals := [[ZERO, ONE, ONE]], code := 10 },
   { dim := 3, vals := [[ONE, ZERO, ZERO]], code := 20 },
   { dim := 3, vals := [[ONE, ZERO, ONE]], code := 10 },
   { dim := 3, vals := [[ONE, ONE, ZERO]], code := 20 },
   { dim := 3, vals := [[ONE, ONE, ONE]], code := 20 },
   { dim := 3, vals := [[BOT, ZERO, BOT]], code := 20 },
   { dim := 3, vals := [[BOT, ONE, BOT]], code := 20 },
   { dim := 3, vals := [[BOT, ZERO, ZERO]], code := 20 },
   { dim := 3, vals := [[BOT, ZERO, ONE]], code := 10 },
   { dim := 3, vals := [[BOT, ONE, ZERO]], code := 20 },
   { dim := 3, vals := [[BOT, ONE, ONE]], code := 20 },
   { dim := 3, vals := [[BOT, BOT, ZERO]], code := 20 },
   { dim := 3, vals := [[BOT, BOT, ONE]], code := 20 },
   { dim := 3, vals := [[ZERO, BOT, ZERO]], code := 10 },
   { dim := 3, vals := [[ZERO, BOT, ONE]], code := 10 },
   { dim := 3, vals := [[ONE, BOT, ZERO]], code := 20 },
   { dim := 3, vals := [[ONE, BOT, ONE]], code := 20 }]

#guard runTable 1 allPosPTT allCompTree (fun ts _ => .allcomp ts[0]! true (some VarGenNodeReach)) false

/-- query/extensions/allcomp/tables_test.go:173 `AllPosNTT`. -/
def allPosNTT : List Row :=
  [{ dim := 3, vals := [[BOT, BOT, BOT]], code := 10 },
   { dim := 3, vals := [[ZERO, BOT, BOT]], code := 20 },
   { dim := 3, vals := [[ONE, BOT, BOT]], code := 10 },
   { dim := 3, vals := [[ZERO, ZERO, BOT]], code := 20 },
   { dim := 3, vals := [[ZERO, ONE, BOT]], code := 20 },
   { dim := 3, vals := [[ONE, ZERO, BOT]], code := 10 },
   { dim := 3, vals := [[ONE, ONE, BOT]], code := 10 },
   { dim := 3, vals := [[ZERO, ZERO, ZERO]], code := 20 },
   { dim := 3, vals := [[ZERO, ZERO, ONE]], code := 20 },
   { dim := 3, vals := [[ZERO, ONE, ZERO]], code := 20 },
   { dim := 3, vals := [[ZERO, ONE, ONE]], code := 20 },
   { dim := 3, vals := [[ONE, ZERO, ZERO]], code := 10 },
   { dim := 3, vals := [[ONE, ZERO, ONE]], code := 20 },
   { dim := 3, vals := [[ONE, ONE, ZERO]], code := 10 },
   { dim := 3, vals := [[ONE, ONE, ONE]], code := 10 },
   { dim := 3, vals := [[BOT, ZERO, BOT]], code := 10 },
   { dim := 3, vals := [[BOT, ONE, BOT]], code := 10 },
   { dim := 3, vals := [[BOT, ZERO, ZERO]], code := 10 },
   { dim := 3, vals := [[BOT, ZERO, ONE]], code := 20 },
   { dim := 3, vals := [[BOT, ONE, ZERO]], code := 10 },
   { dim := 3, vals := [[BOT, ONE, ONE]], code := 10 },
   { dim := 3, vals := [[BOT, BOT, ZERO]], code := 10 },
   { dim := 3, vals := [[BOT, BOT, ONE]], code := 10 },
   { dim := 3, vals := [[ZERO, BOT, ZERO]], code := 20 },
   { dim := 3, vals := [[ZERO, BOT, ONE]], code := 20 },
   { dim := 3, vals := [[ONE, BOT, ZERO]], code := 10 },
   { dim := 3, vals := [[ONE, BOT, ONE]], code := 10 }]

#guard runTable 1 allPosNTT allCompTree (fun ts _ => .allcomp ts[0]! true (some VarGenNodeReach)) true

/-- query/extensions/allcomp/tables_test.go:338 `AllNegPTT`. -/
def allNegPTT : List Row :=
  [{ dim := 3, vals := [[BOT, BOT, BOT]], code := 20 },
   { dim := 3, vals := [[ZERO, BOT, BOT]], code := 20 },
   { dim := 3, vals := [[ONE, BOT, BOT]], code := 20 },
   { dim := 3, vals := [[ZERO, ZERO, BOT]], code := 20 },
   { dim := 3, vals := [[ZERO, ONE, BOT]], code := 20 },
   { dim := 3, vals := [[ONE, ZERO, BOT]], code := 20 },
   { dim := 3, vals := [[ONE, ONE, BOT]], code := 10 },
   { dim := 3, vals := [[ZERO, ZERO, ZERO]], code := 20 },
   { dim := 3, vals := [[ZERO, ZERO, ONE]], code := 20 },
   { dim := 3, vals := [[ZERO, ONE, ZERO]], code := 20 },
   { dim := 3, vals := [[ZERO, ONE, ONE]], code := 20 },
   { dim := 3, vals := [[ONE, ZERO, ZERO]], code := 10 },
   { dim := 3, vals := [[ONE, ZERO, ONE]], code := 20 },
   { dim := 3, vals := [[ONE, ONE, ZERO]], code := 10 },
   { dim := 3, vals := [[ONE, ONE, ONE]], code := 10 },
   { dim := 3, vals := [[BOT, ZERO, BOT]], code := 20 },
   { dim := 3, vals := [[BOT, ONE, BOT]], code := 20 },
   { dim := 3, vals := [[BOT, ZERO, ZERO]], code := 20 },
   { dim := 3, vals := [[BOT, ZERO, ONE]], code := 20 },
   { dim := 3, vals := [[BOT, ONE, ZERO]], code := 20 },
   { dim := 3, vals := [[BOT, ONE, ONE]], code := 20 },
   { dim := 3, vals := [[BOT, BOT, ZERO]], code := 20 },
   { dim := 3, vals := [[BOT, BOT, ONE]], code := 20 },
   { dim := 3, vals := [[ZERO, BOT, ZERO]], code := 20 },
   { dim := 3, vals := [[ZERO, BOT, ONE]], code := 20 },
   { dim := 3, vals := [[ONE, BOT, ZERO]], code := 10 },
   { dim := 3, vals := [[ONE, BOT, ONE]], code := 20 }]

#guard runTable 1 allNegPTT allCompTree (fun ts _ => .allcomp ts[0]! false (some VarGenNodeReach)) false

/-- query/extensions/allcomp/tables_test.go:503 `AllNegNTT`. -/
def allNegNTT : List Row :=
  [{ dim := 3, vals := [[BOT, BOT, BOT]], code := 10 },
   { dim := 3, vals := [[ZERO, BOT, BOT]], code := 10 },
   { dim := 3, vals := [[ONE, BOT, BOT]], code := 10 },
   { dim := 3, vals := [[ZERO, ZERO, BOT]], code := 10 },
   { dim := 3, vals := [[ZERO, ONE, BOT]], code := 10 },
   { dim := 3, vals := [[ONE, ZERO, BOT]], code := 10 },
   { dim := 3, vals := [[ONE, ONE, BOT]], code := 20 },
   { dim := 3, vals := [[ZERO, ZERO, ZERO]], code := 10 },
   { dim := 3, vals := [[ZERO, ZERO, ONE]], code := 10 },
   { dim := 3, vals := [[ZERO, ONE, ZERO]], code := 10 },
   { dim := 3, vals := [[ZERO, ONE, ONE]], code := 10 },
   { dim := 3, vals := [[ONE, ZERO, ZERO]], code := 20 },
   { dim := 3, vals := [[ONE, ZERO, ONE]], code := 10 },
   { dim := 3, vals := [[ONE, ONE, ZERO]], code := 20 },
   { dim := 3, vals := [[ONE, ONE, ONE]], code := 20 },
   { dim := 3, vals := [[BOT, ZERO, BOT]], code := 10 },
   { dim := 3, vals := [[BOT, ONE, BOT]], code := 10 },
   { dim := 3, vals := [[BOT, ZERO, ZERO]], code := 10 },
   { dim := 3, vals := [[BOT, ZERO, ONE]], code := 10 },
   { dim := 3, vals := [[BOT, ONE, ZERO]], code := 10 },
   { dim := 3, vals := [[BOT, ONE, ONE]], code := 10 },
   { dim := 3, vals := [[BOT, BOT, ZERO]], code := 10 },
   { dim := 3, vals := [[BOT, BOT, ONE]], code := 10 },
   { dim := 3, vals := [[ZERO, BOT, ZERO]], code := 10 },
   { dim := 3, vals := [[ZERO, BOT, ONE]], code := 10 },
   { dim := 3, vals := [[ONE, BOT, ZERO]], code := 20 },
   { dim := 3, vals := [[ONE, BOT, ONE]], code := 10 }]

#guard runTable 1 allNegNTT allCompTree (fun ts _ => .allcomp ts[0]! false (some VarGenNodeReach)) true

/-- query/extensions/dfs/tables_test.go:134 `DFSTree`. -/
def dFSTree : List Node :=
  [{ feat := 0, zChild := 1, oChild := 8 },
   { feat := 1, zChild := 2, oChild := 5 },
   { feat := 2, zChild := 3, oChild := 4 },
   { value := false, zChild := NoChild, oChild := NoChild },
   { value := false, zChild := NoChild, oChild := NoChild },
   { feat := 2, zChild := 6, oChild := 7 },
   { value := true, zChild := NoChild, oChild := NoChild },
   { value := true, zChild := NoChild, oChild := NoChild },
   { feat := 2, zChild := 9, oChild := 12 },
   { feat := 1, zChild := 10, oChild := 11 },
   { value := false, zChild := NoChild, oChild := NoChild },
   { value := true, zChild := NoChild, oChild := NoChild },
   { feat := 1, zChild := 13, oChild := 14 },
   { value := false, zChild := NoChild, oChild := NoChild },
   { value := true, zChild := NoChild, oChild := NoChild }]

/-- query/extensions/dfs/tables_test.go:8 `DFSPTT`. -/
def dFSPTT : List Row :=
  [{ dim := 3, vals := [[ZERO, ZERO, ZERO]], code := 10 },
   { dim := 3, vals := [[ONE, ZERO, ZERO]], code := 10 },
   { dim := 3, vals := [[ONE, ZERO, ONE]], code := 10 },
   { dim := 3, vals := [[BOT, ONE, BOT]], code := 10 },
   { dim := 3, vals := [[BOT, ZERO, BOT]], code := 10 },
   { dim := 3, vals := [[BOT, ZERO, ONE]], code := 10 },
   { dim := 3, vals := [[ONE, ZERO, BOT]], code := 10 },
   { dim := 3, vals := [[ZERO, BOT, BOT]], code := 20 },
   { dim := 3, vals := [[ZERO, BOT, ONE]], code := 20 },
   { dim := 3, vals := [[BOT, BOT, ONE]], code := 20 }]

#guard runTable 1 dFSPTT dFSTree (fun ts _ => .dfs ts[0]!) false

/-- query/extensions/dfs/tables_test.go:71 `DFSNTT`. -/
def dFSNTT : List Row :=
  [{ dim := 3, vals := [[ZERO, ZERO, ZERO]], code := 20 },
   { dim := 3, vals := [[ONE, ZERO, ZERO]], code := 20 },
   { dim := 3, vals := [[ONE, ZERO, ONE]], code := 20 },
   { dim := 3, vals := [[BOT, ONE, BOT]], code := 20 },
   { dim := 3, vals := [[BOT, ZERO, BOT]], code := 20 },
   { dim := 3, vals := [[BOT, ZERO, ONE]], code := 20 },
   { dim := 3, vals := [[ONE, ZERO, BOT]], code := 20 },
   { dim := 3, vals := [[ZERO, BOT, BOT]], code := 10 },
   { dim := 3, vals := [[ZERO, BOT, ONE]], code := 10 },
   { dim := 3, vals := [[BOT, BOT, ONE]], code := 10 }]

#guard runTable 1 dFSNTT dFSTree (fun ts _ => .dfs ts[0]!) true

/-- query/extensions/hepr/tables_test.go:14 `HEPRPTT`. -/
def hEPRPTT : List Row :=
  [{ dim := 4, vals := [[BOT, BOT, BOT, BOT], [ZERO, ZERO, ZERO, ZERO]], pref := [0], code := 20 },
   { dim := 4, vals := [[BOT, BOT, BOT, ONE], [ZERO, ZERO, ZERO, ZERO]], pref := [0], code := 20 },
   { dim := 4, vals := [[BOT, ONE, BOT, ONE], [ZERO, ZERO, ZERO, ZERO]], pref := [0], code := 20 },
   { dim := 4, vals := [[ONE, ONE, BOT, ONE], [ZERO, ZERO, ZERO, ZERO]], pref := [0], code := 10 },
   { dim := 4, vals := [[ONE, ONE, ONE, ONE], [ZERO, ZERO, ZERO, ZERO]], pref := [0], code := 10 },
   { dim := 4, vals := [[BOT, BOT, ONE, ONE], [BOT, ZERO, ZERO, BOT]], pref := [0, 2, 3], code := 10 },
   { dim := 4, vals := [[BOT, BOT, ZERO, ONE], [BOT, ZERO, ZERO, BOT]], pref := [0, 1, 3], code := 20 },
   { dim := 4, vals := [[ONE, ONE, ZERO, ONE], [ONE, ZERO, ZERO, ONE]], pref := [0, 1, 3, 2], code := 10 },
   { dim := 4, vals := [[ONE, BOT, ZERO, ONE], [ONE, ZERO, ZERO, BOT]], pref := [0, 3, 2, 1], code := 10 },
   { dim := 4, vals := [[BOT, BOT, ZERO, ONE], [ONE, ZERO, BOT, BOT]], pref := [0, 3, 2, 1], code := 20 },
   { dim := 4, vals := [[ZERO, ONE, BOT, ONE], [ONE, BOT, ZERO, ONE]], pref := [3, 1, 0], code := 10 },
   { dim := 4, vals := [[ZERO, BOT, ONE, ONE], [ONE, ZERO, BOT, ONE]], pref := [3, 0, 1], code := 20 }]

#guard runTable 2 hEPRPTT [] (fun ts p => .hepr ts[0]! ts[1]! p (some VarGenFeaturePreference)) false

/-- query/extensions/hepr/tables_test.go:113 `HEPRNTT`. -/
def hEPRNTT : List Row :=
  [{ dim := 4, vals := [[BOT, BOT, BOT, BOT], [ZERO, ZERO, ZERO, ZERO]], pref := [0], code := 10 },
   { dim := 4, vals := [[BOT, BOT, BOT, ONE], [ZERO, ZERO, ZERO, ZERO]], pref := [0], code := 10 },
   { dim := 4, vals := [[BOT, ONE, BOT, ONE], [ZERO, ZERO, ZERO, ZERO]], pref := [0], code := 10 },
   { dim := 4, vals := [[ONE, ONE, BOT, ONE], [ZERO, ZERO, ZERO, ZERO]], pref := [0], code := 20 },
   { dim := 4, vals := [[ONE, ONE, ONE, ONE], [ZERO, ZERO, ZERO, ZERO]], pref := [0], code := 20 },
   { dim := 4, vals := [[BOT, BOT, ONE, ONE], [BOT, ZERO, ZERO, BOT]], pref := [0, 2, 3], code := 20 },
   { dim := 4, vals := [[BOT, BOT, ZERO, ONE], [BOT, ZERO, ZERO, BOT]], pref := [0, 1, 3], code := 10 },
   { dim := 4, vals := [[ONE, ONE, ZERO, ONE], [ONE, ZERO, ZERO, ONE]], pref := [0, 1, 3, 2], code := 20 },
   { dim := 4, vals := [[ONE, BOT, ZERO, ONE], [ONE, ZERO, ZERO, BOT]], pref := [0, 3, 2, 1], code := 20 },
   { dim := 4, vals := [[BOT, BOT, ZERO, ONE], [ONE, ZERO, BOT, BOT]], pref := [0, 3, 2, 1], code := 10 },
   { dim := 4, vals := [[ZERO, ONE, BOT, ONE], [ONE, BOT, ZERO, ONE]], pref := [3, 1, 0], code := 20 },
   { dim := 4, vals := [[ZERO, BOT, ONE, ONE], [ONE, ZERO, BOT, ONE]], pref := [3, 0, 1], code := 10 }]

#guard runTable 2 hEPRNTT [] (fun ts p => .hepr ts[0]! ts[1]! p (some VarGenFeaturePreference)) true

/-- query/extensions/leh/tables_test.go:8 `LEHPTT`. -/
def lEHPTT : List Row :=
  [{ dim := 3, vals := [[ZERO, ZERO, ZERO], [ZERO, ZERO, ONE], [ONE, ONE, ZERO]], code := 10 },
   { dim := 3, vals := [[ZERO, ZERO, ZERO], [ZERO, ZERO, ONE], [ZERO, ONE, ONE]], code := 10 },
   { dim := 3, vals := [[ZERO, ZERO, ZERO], [ZERO, ZERO, ONE], [ONE, ZERO, ZERO]], code := 10 },
   { dim := 3, vals := [[ZERO, ZERO, ZERO], [ZERO, ZERO, ONE], [ZERO, ONE, ZERO]], code := 10 },
   { dim := 3, vals := [[ZERO, ZERO, ZERO], [ZERO, ZERO, ONE], [ZERO, ZERO, ONE]], code := 10 },
   { dim := 3, vals := [[ZERO, ZERO, ZERO], [ONE, ZERO, ONE], [ZERO, ZERO, ONE]], code := 20 },
   { dim := 3, vals := [[ONE, BOT, BOT], [ONE, ONE, ZERO], [ONE, ONE, ZERO]], code := 20 },
   { dim := 3, vals := [[ONE, ZERO, ZERO], [ONE, ONE, BOT], [ONE, ONE, ZERO]], code := 20 },
   { dim := 3, vals := [[ONE, ONE, ONE], [ONE, ONE, ZERO], [ONE, BOT, ZERO]], code := 20 }]

#guard runTable 3 lEHPTT [] (fun ts _ => .leh ts[0]! ts[1]! ts[2]! (some VarGenHammingDistance) (some VarGenEqualFeat)) false

/-- query/extensions/leh/tables_test.go:83 `LEHNTT`. -/
def lEHNTT : List Row :=
  [{ dim := 3, vals := [[ZERO, ZERO, ZERO], [ZERO, ZERO, ONE], [ONE, ONE, ZERO]], code := 20 },
   { dim := 3, vals := [[ZERO, ZERO, ZERO], [ZERO, ZERO, ONE], [ZERO, ONE, ONE]], code := 20 },
   { dim := 3, vals := [[ZERO, ZERO, ZERO], [ZERO, ZERO, ONE], [ONE, ZERO, ZERO]], code := 20 },
   { dim := 3, vals := [[ZERO, ZERO, ZERO], [ZERO, ZERO, ONE], [ZERO, ONE, ZERO]], code := 20 },
   { dim := 3, vals := [[ZERO, ZERO, ZERO], [ZERO, ZERO, ONE], [ZERO, ZERO, ONE]], code := 20 },
   { dim := 3, vals := [[ZERO, ZERO, ZERO], [ONE, ZERO, ONE], [ZERO, ZERO, ONE]], code := 10 },
   { dim := 3, vals := [[ONE, BOT, BOT], [ONE, ONE, ZERO], [ONE, ONE, ZERO]], code := 10 },
   { dim := 3, vals := [[ONE, ZERO, ZERO], [ONE, ONE, BOT], [ONE, ONE, ZERO]], code := 10 },
   { dim := 3, vals := [[ONE, ONE, ONE], [ONE, ONE, ZERO], [ONE, BOT, ZERO]], code := 10 }]

#guard runTable 3 lEHNTT [] (fun ts _ => .leh ts[0]! ts[1]! ts[2]! (some VarGenHammingDistance) (some VarGenEqualFeat)) true

end Goexpdt.Tests

import Verif.Model.Query
/-
Model of the helpers of the repository's tests: /repo/query/internal/test/clauses.go, mocktree.go, trivial.go.
(auxvar.go is in `Verif.Model.Gen`; solver.go is in `Verif.Model.TestRun`; ttable.go has only types.)
-/
namespace Goexpdt.Helpers
open Goexpdt

/-- clauses.go:38 `b.WriteRune(rune(v))`: the conversion to int32 keeps the lower 32 bits, and `WriteRune` (standard
library) writes U+FFFD for what is not a Unicode scalar value. A string is the list of its characters here; UTF-8 is
injective. -/
def rune (v : Int) : Char :=
  let r := (v % 4294967296).toNat
  if r.isValidChar then Char.ofNat r else Char.ofNat 65533

/-- clauses.go:36-45 `clauseId`. The builder is passed by value and has not been written to, so each call begins with an
empty one. -/
def clauseId (c : Clause) : List Char := itoa c.length ++ c.map rune

/-- clauses.go:11-34 `equalClauseSlice`. The keys of the map `ct1` are the ids of the clauses of `cs1`. -/
def equalClauseSlice (cs1 cs2 : List Clause) : Bool :=
  if cs1.length ≠ cs2.length then false
  else
    let ct1 := cs1.map clauseId
    let ct2 := cs2.map clauseId
    ct1.all fun k => ct2.contains k

/-- clauses.go:47-59 `ValidClauses`: the test goes on without error. -/
def validClauses (sc cc esc ecc : List Clause) : Bool :=
  equalClauseSlice sc esc && equalClauseSlice cc ecc

/-- mocktree.go:14-25 `NewMockTree`: the conditions on a node. -/
def mockNodeInvalid (dim : Int) (n : Node) : Bool :=
  let invF := decide (n.feat < 0) || decide (n.feat ≥ dim)
  let invC := decide (n.feat < 0) || decide (n.feat ≥ dim)
  invF || invC

/-- mocktree.go:14-25 `NewMockTree`. -/
def newMockTree (dim : Int) (nodes : List Node) : Except Err (Int × List Node) :=
  if nodes.any (mockNodeInvalid dim) then .error (.msg "Invalid node at mocktree initialization")
  else .ok (dim, nodes)

/-- trivial.go:10-15 `Trivial.Encoding`. -/
def trivial (t : Bool) : M CNF := if t then pure TrueCNF else pure FalseCNF

end Goexpdt.Helpers

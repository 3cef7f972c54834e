import Verif.Tests.Solve
import Verif.Model.Compute
/-
The other tests of the repository (cnf/cnf_test.go, query/logop/*_test.go, compute/*_test.go), run on
the model. Clauses are compared as lists, order included. These are tests of the model, not proofs.
-/
namespace Goexpdt.Tests

/-- Compare the fields of a CNF. -/
def fields (c : CNF) (s k : List Clause) (tv : Int) : Bool := c.sClauses == s && c.cClauses == k && c.tv == tv

/-! ### cnf/cnf_test.go -/

-- :29-37 `TestCNF_Negate_Empty`
#guard fields (CNF.negate { tv := 0 }) [[]] [] 0
-- :39-49 `TestCNF_Negate_SingleClauseEmpty`
#guard fields (CNF.negate { tv := 3, sClauses := [[]], cClauses := [[1, 2, 3]] }) [] [[1, 2, 3]] 3
-- :51-61 `TestCNF_Negate_SingleLiteral`
#guard fields (CNF.negate { tv := 3, sClauses := [[1]], cClauses := [[1, 2, 3]] }) [[-1]] [[1, 2, 3]] 3
-- :63-78 `TestCNF_Negate_SingleClause`
#guard fields (CNF.negate { tv := 3, sClauses := [[1, 2]], cClauses := [[1, 2, 3]] }) [[4]]
  [[1, 2, 3], [-1, -4], [-2, -4], [1, 2, 4]] 4
-- :80-101 `TestCNF_Negate_MultipleClauses`
#guard fields (CNF.negate { tv := 3, sClauses := [[1, 2], [-2, 3]], cClauses := [[1, 2, 3]] }) [[6]]
  [[1, 2, 3], [-1, -4], [-2, -4], [1, 2, 4], [2, -5], [-3, -5], [-2, 3, 5], [-4, 6], [-5, 6], [4, 5, -6]] 6
-- :103-115 `TestCNF_Conjunctions`
#guard fields (CNF.conjunction { tv := 3, sClauses := [[1, 2], [2, 3]], cClauses := [[1, 2]] }
  { tv := 4, sClauses := [[-3, 4]] }) [[1, 2], [2, 3], [-3, 4]] [[1, 2]] 4
-- :117-127 `TestCNF_ExtendSemantic`
#guard fields (CNF.appendSemantics { tv := 2, sClauses := [[1, 2]] } [[2, 3], [-3, 4]]) [[1, 2], [2, 3], [-3, 4]] [] 4
-- :129-139 `TestCNF_ExtendConsistency`
#guard fields (CNF.appendConsistency { tv := 2, sClauses := [[1, 2]] } [[2, 3], [-3, 4]]) [[1, 2]] [[2, 3], [-3, 4]] 4

/-- The CNF of `TestCNF_ToBytes` and `TestCNF_ToFile`. -/
def writtenCNF : CNF :=
  CNF.appendConsistency (FromClauses [[1, 2], [3, 4], [-1, 2]]) [[1, 2, 3, 4], [-1, -2], [4]]

-- :141-155 `TestCNF_ToBytes`
#guard writtenCNF.toBytes == "p cnf 4 6\n1 2 0\n3 4 0\n-1 2 0\n1 2 3 4 0\n-1 -2 0\n4 0\n".toList
-- :157-183 `TestCNF_ToFile`
#guard match writtenCNF.toFile (some none) with
  | (ok, some f) => ok && f.content == writtenCNF.toBytes
  | _ => false

/-! ### query/logop -/

/-- query/internal/test/trivial.go `Trivial`. -/
def trivial (b : Bool) : Comp := some (M.lift (.ok (if b then TrueCNF else FalseCNF)))

/-- The clauses that declare `n` variables of one feature. -/
def declared (n : Nat) : List Clause :=
  (List.range n).flatMap fun (i : Nat) =>
    let k : Int := 3 * i
    [[k + 1, k + 2, k + 3], [-(k + 1), -(k + 2)], [-(k + 1), -(k + 3)], [-(k + 2), -(k + 3)]]

/-- Run an encoding and compare its clauses. -/
def gives (act : M CNF) (ctx : Ctx) (s k : List Clause) : Bool :=
  match (act ctx).1 with
  | .ok c => c.sClauses == s && c.cClauses == k
  | .error _ => false

/-- Run an encoding and compare its error. -/
def fails (act : M CNF) (ctx : Ctx) (msg : String) : Bool :=
  match (act ctx).1 with
  | .ok _ => false
  | .error e => e == .msg msg

/-- Compare the error of an encoding without context. -/
def failsNil (r : Except Err CNF) (msg : String) : Bool :=
  match r with
  | .ok _ => false
  | .error e => e == .msg msg

/-- The context of most tests: one feature, no nodes. -/
def ctx1 : Ctx := BasicQContext 1 []

def wx (b : Bool) : Comp := some (encWithVar ['x'] (trivial b))
def wy (b : Bool) : Comp := some (encWithVar ['y'] (trivial b))

-- and_test.go:12-38, 40-66, 68-94
#guard gives (encAnd (wx true) (wy true)) ctx1 [] (declared 2)
#guard gives (encAnd (wx false) (wy false)) ctx1 [[], []] (declared 2)
#guard gives (encAnd (wx true) (wy false)) ctx1 [[]] (declared 2)
-- and_test.go:96-140
#guard failsNil (nilCtxBinary "And" (trivial true) (trivial true)) "And: Invalid encoding with nil ctx"
#guard fails (encAnd none (trivial true)) ctx1 "And: Invalid encoding of nil child (1)"
#guard fails (encAnd (trivial true) none) ctx1 "And: Invalid encoding of nil child (2)"
-- or_test.go:12-94
#guard gives (encOr (wx true) (wy true)) ctx1 [] (declared 2)
#guard gives (encOr (wx false) (wy false)) ctx1 [[]] (declared 2)
#guard gives (encOr (wx true) (wy false)) ctx1 [] (declared 2)
-- or_test.go:96-140
#guard failsNil (nilCtxBinary "Or" (trivial true) (trivial true)) "Or: Invalid encoding with nil ctx"
#guard fails (encOr none (trivial true)) ctx1 "Or: Invalid encoding of nil child (1)"
#guard fails (encOr (trivial true) none) ctx1 "Or: Invalid encoding of nil child (2)"
-- not_test.go
#guard gives (encNot (wx false)) ctx1 [] (declared 1)
#guard failsNil (nilCtxUnary "Not" (trivial true)) "Not: Invalid encoding with nil ctx"
#guard fails (encNot none) ctx1 "Not: Invalid encoding of nil child"
-- with_var_test.go
#guard gives (encWithVar ['x'] (wy false)) ctx1 [[]] (declared 2)
#guard
  let ctx := ((ctx1.addScope ['T']).setScope 1 [BOT]).2
  match encWithVar ['x'] (trivial true) ctx with
  | (.ok _, ctx) => match ctx.scopeVar ['x'] with
    | .ok v => v ≠ ['x']
    | .error _ => false
  | _ => false
#guard failsNil (nilCtxUnary "WithVar" (trivial true)) "WithVar: Invalid encoding with nil ctx"
#guard fails (encWithVar ['x'] none) ctx1 "WithVar: Invalid encoding of nil child"

/-- The model of forallguarded_test.go:27-34 and 66-73. -/
def fork : List Node :=
  [{ feat := 0, zChild := 1, oChild := 2 }, { zChild := NoChild, oChild := NoChild },
   { zChild := NoChild, oChild := NoChild }]

-- forallguarded_test.go:26-52 `TestForAllGuarded_Encoding`
#guard gives (encForall { id := ['x'] } (wy true)) (BasicQContext 1 fork) [] (declared 3)

/-- forallguarded_test.go:54-63 `isBot`. -/
def isBot (x : QVar) : Comp := some do
  let v ← M.scopeVar x
  let l ← M.cnfVar ⟨v, 0, BOT⟩
  pure (FromClauses [[l]])

-- forallguarded_test.go:65-109 `TestForAllGuarded_Encoding_Alternation`. The test expects the literals
-- 3, 15 and 27 for BOT; this depends on the order in which `WithVar` numbers the values of a feature.
-- The test's `variable_clauses` expects other consistency clauses; see DESIGN.md.
#guard gives
  (encForall { id := ['x'] } (some (encWithVar ['y'] (some (encForall { id := ['z'] } (some (encWithVar ['w'] (isBot ['y']))))))))
  (BasicQContext 1 fork) [[3], [3], [3], [15], [15], [15], [27], [27], [27]] (declared 12)

/-- forallguarded_test.go:111-131 `fagVerifyConst`. -/
def verifyConst (c : QConst) : Comp := some do
  let sc ← M.scopeConst c
  let _ ← M.cnfVar ⟨[], 0, BOT⟩
  let _ ← M.cnfVar ⟨[], 0, ONE⟩
  let _ ← M.cnfVar ⟨[], 0, ZERO⟩
  let clause ← sc.val.mapM fun ft => M.cnfVar ⟨[], 0, ft⟩
  pure (CNF.appendConsistency {} [clause])

-- forallguarded_test.go:133-173 `TestForAllGuarded_Encoding_Iterator`
#guard gives (encForall { id := ['x'] } (verifyConst { id := ['x'] }))
  (BasicQContext 2
    [{ feat := 0, zChild := 2, oChild := 1 }, { zChild := NoChild, oChild := NoChild },
     { feat := 1, zChild := 3, oChild := 4 }, { zChild := NoChild, oChild := NoChild },
     { zChild := NoChild, oChild := NoChild }])
  [] [[1, 1], [3, 1], [3, 3], [3, 2], [2, 1]]
-- forallguarded_test.go:175-205
#guard failsNil (nilCtxUnary "ForAllGuarded" (trivial true)) "ForAllGuarded: Invalid encoding with nil ctx"
#guard fails (encForall { id := ['x'] } none) (BasicQContext 0 []) "ForAllGuarded: Invalid encoding of nil child"

/-! ### compute -/

/-- A solver for the tests: it answers with `search`. -/
def model : Nat → Nat → List Clause → List Int
  | 0, _, _ => []
  | n + 1, k, cs =>
    let l : Int := k
    if search (n + 2) (assume l cs) then l :: model n (k + 1) (assume l cs)
    else -l :: model n (k + 1) (assume (-l) cs)

/-- Read the clauses of a DIMACS file that the library wrote. -/
def readFile (text : List Char) : Nat × List Clause :=
  let lines := (splitOn '\n' text).filter (· ≠ [])
  let nums (l : List Char) : List Int := (splitOn ' ' l).filterMap fun w => (atoi w).toOption
  (((lines.head?.map nums).getD []).headD 0 |>.toNat, lines.tail.map fun l => (nums l).dropLast)

/-- The run of the solver on a file. -/
def searchRun (text : List Char) : Run :=
  let (n, cs) := readFile text
  if search (n + 1) cs then
    .exited 10 ("s SATISFIABLE\nv ".toList ++ (model n 1 cs).flatMap (fun l => itoa l ++ [' ']) ++ "0\n".toList) []
  else .exited 20 "s UNSATISFIABLE\n".toList []

/-- `compute.BinSolver("/kissat")`. -/
def solver : Solver BinSt := binSolver fun _ => ⟨none, some none, searchRun⟩

/-- compute/boolcomb_test.go:13-18 `satQDTFAttom`. -/
def satAtom : SatM BinSt := atomSat solver (Query.atom (.lel (.const { val := [BOT] }) (.const { val := [ONE] }) none)).comp false
/-- compute/boolcomb_test.go:19-24 `unsatQDTFAttom`. -/
def unsatAtom : SatM BinSt := atomSat solver (Query.atom (.lel (.const { val := [ONE] }) (.const { val := [BOT] }) none)).comp false

/-- Run a combination and compare its answer. -/
def answers (c : SatM BinSt) (b : Bool) : Bool :=
  match (c {} ctx1).1 with
  | .ok r => r == b
  | .error _ => false

-- boolcomb_test.go:27-126
#guard answers (andSat [some satAtom, some satAtom]) true
#guard answers (andSat [some satAtom, some unsatAtom]) false
#guard answers (orSat [some satAtom, some unsatAtom]) true
#guard answers (orSat [some unsatAtom, some unsatAtom]) false
#guard answers satAtom true
#guard answers (atomSat solver (Query.atom (.lel (.const { val := [BOT] }) (.const { val := [ONE] }) none)).comp true) false

/-- compute/optimum_test.go:18-29 `lelFormula`. -/
def lelFormula (v : QVar) : Comp :=
  (Query.and (.atom (.subs (.var v) (.const { val := [ONE, ONE, ONE] })))
    (.not (.atom (.subs (.var v) (.const { val := [BOT, BOT, BOT] }))))).comp

/-- compute/optimum_test.go:31-38 `lelOrder`. -/
def lelOrder (v : QVar) (c : QConst) : Comp :=
  (Query.and (.atom (.lel (.var v) (.const c) (some VarGenBotCount)))
    (.not (.atom (.lel (.const c) (.var v) (some VarGenBotCount))))).comp

-- optimum_test.go:40-70 `TestCompute_LEL`
#guard match (computeOptim solver lelFormula lelOrder ['x'] true 20 {} (BasicQContext 3 [])).1 with
  | .ok out => out.found && [[BOT, BOT, ONE], [BOT, ONE, BOT], [ONE, BOT, BOT]].contains out.value.val
  | .error _ => false

end Goexpdt.Tests

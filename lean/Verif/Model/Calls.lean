import Verif.Model.Syntax
import Verif.Model.Alias
/-
The encodings of /repo/query as sequences of calls of the exported API of package cnf, whose effect on memory
is given by `Verif.Model.Alias`. `Verif.Model.Preds`, `Ext` and `LogOp` compute CNFs as immutable values; here a
CNF is the number of the call whose result it is, and the same code makes the calls. Used for property C58.

Simplifications: a predicate builds every list of clauses that it passes to package cnf in slices of its own
(`clauses := []cnf.Clause{}` and `append`), whose spare capacities are arbitrary here; loops that append clauses
one call at a time are modelled by arbitrary cuts of the list of clauses into calls.
-/
namespace Goexpdt

/-- How a predicate makes its CNF. -/
inductive Plan where
  /-- `return cnf.CNF{}, nil` and `return cnf.TrueCNF, nil` -/
  | zero
  /-- `return cnf.FalseCNF, nil` -/
  | no
  /-- `ncnf := cnf.FromClauses(cls)` followed by the steps -/
  | start (cls : List SClause) (st : List Step)
  /-- `ncnf := cnf.CNF{}` followed by the steps -/
  | steps (st : List Step)

/-- The plan, with immutable values. -/
def Plan.exec : Plan → M CNF
  | .zero => retTrue
  | .no => retFalse
  | .start cls st => emitF cls st
  | .steps st => emit st

/-- query/predicates/subsumption/const_const.go:16-41 `ConstConst.Encoding`. -/
def subsConstConstPlan (i1 i2 : QConst) : M Plan := do
  let sc1 ← M.scopeConst i1
  let sc2 ← M.scopeConst i2
  validateM [sc1, sc2]
  M.lift (indexed (upto sc1.val.length) [sc2])
  if subsCC sc1.val sc2.val then pure .zero else pure .no

/-- query/predicates/subsumption/const_var.go:16-41 `ConstVar.Encoding`. -/
def subsConstVarPlan (i1 : QConst) (i2 : QVar) : M Plan := do
  let sv ← M.scopeVar i2
  let sc ← M.scopeConst i1
  validateM [sc]
  let d ← M.dim
  pure <| .start (subsConstVarClauses d sc sv) []

/-- query/predicates/subsumption/var_const.go:16-54 `VarConst.Encoding`. -/
def subsVarConstPlan (i1 : QVar) (i2 : QConst) : M Plan := do
  let sv ← M.scopeVar i1
  let sc ← M.scopeConst i2
  validateM [sc]
  let d ← M.dim
  pure <| .start (subsVarConstClauses d sv sc) []

/-- query/predicates/subsumption/var_var.go:16-43 `VarVar.Encoding`. -/
def subsVarVarPlan (i1 i2 : QVar) : M Plan := do
  let sv1 ← M.scopeVar i1
  let sv2 ← M.scopeVar i2
  let d ← M.dim
  pure <| .start (subsVarVarClauses d sv1 sv2) []

/-- query/predicates/lel/const_const.go:17-37 `ConstConst.Encoding`. -/
def lelConstConstPlan (i1 i2 : QConst) : M Plan := do
  let sc1 ← M.scopeConst i1
  let sc2 ← M.scopeConst i2
  validateM [sc1, sc2]
  if sc1.botCount < sc2.botCount then pure .no else pure .zero

/-- query/predicates/lel/const_var.go:20-49 `ConstVar.Encoding`. -/
def lelConstVarPlan (i1 : QConst) (i2 : QVar) (gen : Option (QVar → QVar)) : M Plan :=
  match gen with
  | none => M.throw errNilGen
  | some gen => do
    let sv ← M.scopeVar i2
    let sc ← M.scopeConst i1
    let svCount := gen sv
    validateM [sc]
    let d ← M.dim
    pure <| .steps [.con (varBotCountClauses d sv svCount), .sem (lelConstVarSem d sc svCount)]

/-- query/predicates/lel/var_const.go:20-49 `VarConst.Encoding`. -/
def lelVarConstPlan (i1 : QVar) (i2 : QConst) (gen : Option (QVar → QVar)) : M Plan :=
  match gen with
  | none => M.throw errNilGen
  | some gen => do
    let sv ← M.scopeVar i1
    let sc ← M.scopeConst i2
    let svCount := gen sv
    validateM [sc]
    let d ← M.dim
    pure <| .steps [.con (varBotCountClauses d sv svCount), .sem (lelVarConstSem d sc svCount)]

/-- query/predicates/lel/var_var.go:20-55 `VarVar.Encoding`. -/
def lelVarVarPlan (i1 i2 : QVar) (gen : Option (QVar → QVar)) : M Plan :=
  match gen with
  | none => M.throw errNilGen
  | some gen => do
    let sv1 ← M.scopeVar i1
    let sv2 ← M.scopeVar i2
    let svCount1 := gen sv1
    let svCount2 := gen sv2
    let d ← M.dim
    pure <| .steps [.con (varBotCountClauses d sv1 svCount1), .con (varBotCountClauses d sv2 svCount2),
      .sem (lelVarVarSem d svCount1 svCount2)]

/-- query/predicates/isnode/const.go:16-88 `Const.Encoding`. -/
def isnodeConstPlan (i : QConst) : M Plan := do
  let sc ← M.scopeConst i
  validateM [sc]
  let d ← M.dim
  let nodes ← M.nodes
  if nodes.length = 0 then M.throw errEmptyModel
  else do
    let visited ← M.lift (isnodeLoop d sc nodes (nodes.length + 1) (nodeAt nodes 0)
      (newVisitRecord sc))
    if allFeatsVisited visited then pure .zero else pure .no

/-- query/predicates/isnode/var.go:18-96 `Var.Encoding`. -/
def isnodeVarPlan (i : QVar) (gen : Option (QVar → QVar)) : M Plan :=
  match gen with
  | none => M.throw errNilGen
  | some gen => do
    let nodes ← M.nodes
    if nodes.length = 0 then M.throw errEmptyModel
    else do
      let d ← M.dim
      let sv ← M.scopeVar i
      let svReach := gen sv
      if !featsInRange d nodes then M.throw (.panic "index out of range")
      else pure <| .steps [.touch (isnodeFclOrder d nodes sv svReach), .sem (isnodeFcl d nodes sv svReach),
        .con [[P svReach 0 0]], .con (isnodeProp nodes sv svReach)]

/-- query/extensions/full/const.go:15-34 `Const.Encoding`. -/
def fullConstPlan (i : QConst) : M Plan := do
  let sc ← M.scopeConst i
  validateM [sc]
  if fullC sc.val then pure .zero else pure .no

/-- query/extensions/full/var.go:15-33 `Var.Encoding`. -/
def fullVarPlan (i : QVar) : M Plan := do
  let sv ← M.scopeVar i
  let d ← M.dim
  pure <| .start (varFullClauses d sv) []

/-- query/extensions/cons/const_const.go:16-44 `ConstConst.Encoding`. -/
def consConstConstPlan (i1 i2 : QConst) : M Plan := do
  let sc1 ← M.scopeConst i1
  let sc2 ← M.scopeConst i2
  validateM [sc1, sc2]
  let d ← M.dim
  M.lift (indexed (upto d) [sc1, sc2])
  if consCC d sc1 sc2 then pure .zero else pure .no

/-- query/extensions/cons/const_var.go:46-50 and query/extensions/cons/var_const.go:46-50. -/
def consConstRetPlan (cls : List SClause) : M Plan :=
  if cls.length = 0 then pure .zero else pure <| .start cls []

/-- query/extensions/cons/const_var.go:16-51 `ConstVar.Encoding`. -/
def consConstVarPlan (i1 : QConst) (i2 : QVar) : M Plan := do
  let sc ← M.scopeConst i1
  let sv ← M.scopeVar i2
  validateM [sc]
  let d ← M.dim
  consConstRetPlan (consConstClauses d sc sv)

/-- query/extensions/cons/var_const.go:16-51 `VarConst.Encoding`. -/
def consVarConstPlan (i1 : QVar) (i2 : QConst) : M Plan := do
  let sv ← M.scopeVar i1
  let sc ← M.scopeConst i2
  validateM [sc]
  let d ← M.dim
  consConstRetPlan (consConstClauses d sc sv)

/-- query/extensions/cons/var_var.go:16-44 `VarVar.Encoding`. -/
def consVarVarPlan (i1 i2 : QVar) : M Plan := do
  let sv1 ← M.scopeVar i1
  let sv2 ← M.scopeVar i2
  let d ← M.dim
  pure <| .start (consVarVarClauses d sv1 sv2) []

/-- query/extensions/allcomp/const.go:20-84 `Const.Encoding`. -/
def allcompConstPlan (i : QConst) (leaf : Bool) : M Plan := do
  let sc ← M.scopeConst i
  validateM [sc]
  let d ← M.dim
  let nodes ← M.nodes
  if nodes.length = 0 then M.throw errEmptyModel
  else do
    let b ← M.lift (acLoop d sc leaf nodes (nodes.length + 2) [] [nodeAt nodes 0])
    if b then pure .zero else pure .no

/-- query/extensions/allcomp/var.go:22-98 `Var.Encoding`. -/
def allcompVarPlan (i : QVar) (leaf : Bool) (gen : Option (QVar → QVar)) : M Plan :=
  match gen with
  | none => M.throw errNilGen
  | some gen => do
    let nodes ← M.nodes
    if nodes.length = 0 then M.throw errEmptyModel
    else do
      let sv ← M.scopeVar i
      let svReach := gen sv
      pure <| .steps (.con [[P svReach 0 0]] ::
        (rng 0 nodes.length).map (allcompStep leaf nodes sv svReach))

/-- query/extensions/dfs/const.go:15-50 `Const.Encoding`. -/
def dfsConstPlan (i : QConst) : M Plan := do
  let sc ← M.scopeConst i
  validateM [sc]
  let d ← M.dim
  let nodes ← M.nodes
  let leafs ← M.lift (leafsAsConsts d nodes)
  if leafs.1.length = 0 ∧ leafs.2.length = 0 then M.throw errEmptyModel
  else do
    let b ← M.lift (dfsOuter sc leafs.2 leafs.1)
    if b then pure .zero else pure .no

/-- query/extensions/dfs/var.go:15-47 `Var.Encoding`. -/
def dfsVarPlan (i : QVar) : M Plan := do
  let sv ← M.scopeVar i
  let d ← M.dim
  let nodes ← M.nodes
  let leafs ← M.lift (leafsAsConsts d nodes)
  if leafs.1.length = 0 ∧ leafs.2.length = 0 then M.throw errEmptyModel
  else do
    let cls ← M.lift (dfsClauses d sv (leafs.1.flatMap fun p => leafs.2.map fun n => (p, n)))
    pure <| .start cls []

/-- query/extensions/hepr/const_const.go:18-50 `ConstConst.Encoding`. -/
def heprConstConstPlan (i1 i2 : QConst) (pref : List Int) : M Plan := do
  let d ← M.dim
  M.lift (validatePref pref d)
  let sc1 ← M.scopeConst i1
  let sc2 ← M.scopeConst i2
  validateM [sc1, sc2]
  M.lift (indexed pref [sc1, sc2])
  if pref.length = 0 then pure .zero
  else if heprCC sc1 sc2 pref then pure .zero else pure .no

/-- query/extensions/hepr/const_var.go:22-110 `ConstVar.Encoding`. -/
def heprConstVarPlan (i1 : QConst) (i2 : QVar) (pref : List Int)
    (gen : Option (QVar → QVar → QVar → QVar)) : M Plan :=
  match gen with
  | none => M.throw errNilGen
  | some gen => do
    let d ← M.dim
    M.lift (validatePref pref d)
    let sc ← M.scopeConst i1
    let sv ← M.scopeVar i2
    let cvp := gen (prefVar pref) sc.asString sv
    validateM [sc]
    M.lift (indexed pref [sc])
    if pref.length = 0 then M.throw (.panic "index out of range")
    else pure <| .steps [.con (heprConstVarCon sc sv cvp pref), .sem [[P cvp 0 0]]]

/-- query/extensions/hepr/var_const.go:22-109 `VarConst.Encoding`. -/
def heprVarConstPlan (i1 : QVar) (i2 : QConst) (pref : List Int)
    (gen : Option (QVar → QVar → QVar → QVar)) : M Plan :=
  match gen with
  | none => M.throw errNilGen
  | some gen => do
    let d ← M.dim
    M.lift (validatePref pref d)
    let sv ← M.scopeVar i1
    let sc ← M.scopeConst i2
    let vcp := gen (prefVar pref) sv sc.asString
    validateM [sc]
    M.lift (indexed pref [sc])
    if pref.length = 0 then M.throw (.panic "index out of range")
    else pure <| .steps [.con (heprVarConstCon sv sc vcp pref), .sem [[P vcp 0 0]]]

/-- query/extensions/hepr/var_var.go:22-101 `VarVar.Encoding`. -/
def heprVarVarPlan (i1 i2 : QVar) (pref : List Int)
    (gen : Option (QVar → QVar → QVar → QVar)) : M Plan :=
  match gen with
  | none => M.throw errNilGen
  | some gen => do
    let d ← M.dim
    M.lift (validatePref pref d)
    let sv1 ← M.scopeVar i1
    let sv2 ← M.scopeVar i2
    let vvp := gen (prefVar pref) sv1 sv2
    if pref.length = 0 then M.throw (.panic "index out of range")
    else pure <| .steps [.con (heprVarVarCon sv1 sv2 vvp pref), .sem [[P vvp 0 0]]]

/-- query/extensions/leh/const_const_const.go:18-57 `ConstConstConst.Encoding`. -/
def lehConstConstConstPlan (i1 i2 i3 : QConst) : M Plan := do
  let sc1 ← M.scopeConst i1
  let sc2 ← M.scopeConst i2
  let sc3 ← M.scopeConst i3
  validateM [sc1, sc2, sc3]
  if !sc1.isFull || !sc2.isFull || !sc3.isFull then pure .no
  else
    match hammingDistCC sc1 sc2 with
    | .error _ => pure .zero
    | .ok hd12 =>
      match hammingDistCC sc1 sc3 with
      | .error _ => pure .zero
      | .ok hd13 => if hd12 > hd13 then pure .no else pure .zero

/-- query/extensions/leh/const_const_var.go:23-74 `ConstConstVar.Encoding`. -/
def lehConstConstVarPlan (i1 i2 : QConst) (i3 : QVar) (gen : Option (QVar → QVar → QVar)) : M Plan :=
  match gen with
  | none => M.throw errNilGen
  | some gen => do
    let d ← M.dim
    let sc1 ← M.scopeConst i1
    let sc2 ← M.scopeConst i2
    let sv ← M.scopeVar i3
    let vc1hd := gen sv sc1.asString
    validateM [sc1, sc2]
    if !sc1.isFull || !sc2.isFull then pure .no
    else do
      let cchd ← M.lift (hammingDistCC sc1 sc2)
      if cchd = 0 then pure .zero
      else do
        let hd ← M.lift (hammingDistVC d sv sc1 vc1hd)
        pure <| .start (varFullClauses d sv) [.con hd,
          .sem ((rng 0 cchd).map fun (i : Nat) => [N vc1hd (d - 1) i])]

/-- query/extensions/leh/const_var_const.go:23-74 `ConstVarConst.Encoding`. -/
def lehConstVarConstPlan (i1 : QConst) (i2 : QVar) (i3 : QConst) (gen : Option (QVar → QVar → QVar)) :
    M Plan :=
  match gen with
  | none => M.throw errNilGen
  | some gen => do
    let d ← M.dim
    let sc1 ← M.scopeConst i1
    let sc2 ← M.scopeConst i3
    let sv ← M.scopeVar i2
    let vc1hd := gen sv sc2.asString
    validateM [sc1, sc2]
    if !sc1.isFull || !sc2.isFull then pure .no
    else do
      let cchd ← M.lift (hammingDistCC sc1 sc2)
      if cchd = d then pure .zero
      else do
        let hd ← M.lift (hammingDistVC d sv sc1 vc1hd)
        pure <| .start (varFullClauses d sv) [.con hd,
          .sem ((rng (cchd + 1) (d + 1)).map fun (i : Nat) => [N vc1hd (d - 1) i])]

/-- query/extensions/leh/const_var_var.go:22-78 `ConstVarVar.Encoding`. -/
def lehConstVarVarPlan (i1 : QConst) (i2 i3 : QVar) (gen : Option (QVar → QVar → QVar)) : M Plan :=
  match gen with
  | none => M.throw errNilGen
  | some gen => do
    let d ← M.dim
    let sc ← M.scopeConst i1
    let sv1 ← M.scopeVar i2
    let sv2 ← M.scopeVar i3
    let v1chd := gen sv1 sc.asString
    let v2chd := gen sv2 sc.asString
    validateM [sc]
    if !sc.isFull then pure .no
    else do
      let hd1 ← M.lift (hammingDistVC d sv1 sc v1chd)
      let hd2 ← M.lift (hammingDistVC d sv2 sc v2chd)
      pure <| .steps [.sem (varFullClauses d sv1), .sem (varFullClauses d sv2), .con hd1, .con hd2,
        .sem (hdLeSem d v1chd v2chd)]

/-- query/extensions/leh/var_const_const.go:23-76 `VarConstConst.Encoding`. -/
def lehVarConstConstPlan (i1 : QVar) (i2 i3 : QConst) (gen : Option (QVar → QVar → QVar)) : M Plan :=
  match gen with
  | none => M.throw errNilGen
  | some gen => do
    let d ← M.dim
    let sc1 ← M.scopeConst i2
    let sc2 ← M.scopeConst i3
    let sv ← M.scopeVar i1
    let vc1hd := gen sv sc1.asString
    let vc2hd := gen sv sc2.asString
    validateM [sc1, sc2]
    if !sc1.isFull || !sc2.isFull then pure .no
    else do
      let hd1 ← M.lift (hammingDistVC d sv sc1 vc1hd)
      let hd2 ← M.lift (hammingDistVC d sv sc2 vc2hd)
      pure <| .start (varFullClauses d sv) [.con hd1, .con hd2, .sem (hdLeSem d vc1hd vc2hd)]

/-- query/extensions/leh/var_const_var.go:27-81 `VarConstVar.Encoding`. -/
def lehVarConstVarPlan (i1 : QVar) (i2 : QConst) (i3 : QVar) (gen eqGen : Option (QVar → QVar → QVar)) :
    M Plan :=
  match gen, eqGen with
  | some gen, some eqGen => do
    let d ← M.dim
    let sc ← M.scopeConst i2
    let sv1 ← M.scopeVar i1
    let sv2 ← M.scopeVar i3
    let v1chd := gen sv1 sc.asString
    let vvhd := gen sv1 sv2
    let vvef := eqGen sv1 sv2
    validateM [sc]
    if !sc.isFull then pure .no
    else do
      let hd ← M.lift (hammingDistVC d sv1 sc v1chd)
      pure <| .steps [.sem (varFullClauses d sv1), .sem (varFullClauses d sv2), .touch hd,
        .con (fullVarEqualClauses d sv1 sv2 vvef), .con (hammingDistVV d vvhd vvef), .con hd,
        .sem (hdLeSem d v1chd vvhd)]
  | _, _ => M.throw errNilGen

/-- query/extensions/leh/var_var_const.go:27-77 `VarVarConst.Encoding`. -/
def lehVarVarConstPlan (i1 i2 : QVar) (i3 : QConst) (gen eqGen : Option (QVar → QVar → QVar)) :
    M Plan :=
  match gen, eqGen with
  | some gen, some eqGen => do
    let d ← M.dim
    let sv1 ← M.scopeVar i1
    let sv2 ← M.scopeVar i2
    let sc ← M.scopeConst i3
    let v1chd := gen sv1 sc.asString
    let vvhd := gen sv1 sv2
    let vvef := eqGen sv1 sv2
    validateM [sc]
    if !sc.isFull then pure .no
    else do
      let hd ← M.lift (hammingDistVC d sv1 sc v1chd)
      pure <| .steps [.sem (varFullClauses d sv1), .sem (varFullClauses d sv2), .touch hd,
        .con (fullVarEqualClauses d sv1 sv2 vvef), .con (hammingDistVV d vvhd vvef), .con hd,
        .sem (hdLeSem d vvhd v1chd)]
  | _, _ => M.throw errNilGen

/-- query/extensions/leh/var_var_var.go:27-71 `VarVarVar.Encoding`. -/
def lehVarVarVarPlan (i1 i2 i3 : QVar) (gen eqGen : Option (QVar → QVar → QVar)) : M Plan :=
  match gen, eqGen with
  | some gen, some eqGen => do
    let d ← M.dim
    let sv1 ← M.scopeVar i1
    let sv2 ← M.scopeVar i2
    let sv3 ← M.scopeVar i3
    let v1v2dh := gen sv1 sv2
    let v1v3dh := gen sv1 sv3
    let v1v2ef := eqGen sv1 sv2
    let v1v3ef := eqGen sv1 sv3
    pure <| .steps [.sem (varFullClauses d sv1), .sem (varFullClauses d sv2), .sem (varFullClauses d sv3),
      .con (fullVarEqualClauses d sv1 sv2 v1v2ef), .con (fullVarEqualClauses d sv1 sv3 v1v3ef),
      .con (hammingDistVV d v1v2dh v1v2ef), .con (hammingDistVV d v1v3dh v1v3ef),
      .sem (hdLeSem d v1v2dh v1v3dh)]
  | _, _ => M.throw errNilGen

/-- The plan of a predicate. -/
def Atom.plan : Atom → M Plan
  | .subs (.const c1) (.const c2) => subsConstConstPlan c1 c2
  | .subs (.const c) (.var x) => subsConstVarPlan c x
  | .subs (.var x) (.const c) => subsVarConstPlan x c
  | .subs (.var x) (.var y) => subsVarVarPlan x y
  | .lel (.const c1) (.const c2) _ => lelConstConstPlan c1 c2
  | .lel (.const c) (.var x) g => lelConstVarPlan c x g
  | .lel (.var x) (.const c) g => lelVarConstPlan x c g
  | .lel (.var x) (.var y) g => lelVarVarPlan x y g
  | .isnode (.const c) _ => isnodeConstPlan c
  | .isnode (.var x) g => isnodeVarPlan x g
  | .full (.const c) => fullConstPlan c
  | .full (.var x) => fullVarPlan x
  | .cons (.const c1) (.const c2) => consConstConstPlan c1 c2
  | .cons (.const c) (.var x) => consConstVarPlan c x
  | .cons (.var x) (.const c) => consVarConstPlan x c
  | .cons (.var x) (.var y) => consVarVarPlan x y
  | .allcomp (.const c) b _ => allcompConstPlan c b
  | .allcomp (.var x) b g => allcompVarPlan x b g
  | .dfs (.const c) => dfsConstPlan c
  | .dfs (.var x) => dfsVarPlan x
  | .hepr (.const c1) (.const c2) p _ => heprConstConstPlan c1 c2 p
  | .hepr (.const c) (.var x) p g => heprConstVarPlan c x p g
  | .hepr (.var x) (.const c) p g => heprVarConstPlan x c p g
  | .hepr (.var x) (.var y) p g => heprVarVarPlan x y p g
  | .leh (.const c1) (.const c2) (.const c3) _ _ => lehConstConstConstPlan c1 c2 c3
  | .leh (.const c1) (.const c2) (.var x) g _ => lehConstConstVarPlan c1 c2 x g
  | .leh (.const c1) (.var x) (.const c2) g _ => lehConstVarConstPlan c1 x c2 g
  | .leh (.const c) (.var x) (.var y) g _ => lehConstVarVarPlan c x y g
  | .leh (.var x) (.const c1) (.const c2) g _ => lehVarConstConstPlan x c1 c2 g
  | .leh (.var x) (.const c) (.var y) g e => lehVarConstVarPlan x c y g e
  | .leh (.var x) (.var y) (.const c) g e => lehVarVarConstPlan x y c g e
  | .leh (.var x) (.var y) (.var z) g e => lehVarVarVarPlan x y z g e

namespace Alias

/-- What a program does not determine: how much `append` allocates, the spare capacity of every clause
and list of clauses that a predicate makes (by the number of the call), and where its list of clauses is cut. -/
structure Policy where
  grow : Grow
  spare : Nat → Nat → Nat
  room : Nat → Nat
  cut : Nat → List Clause → List (List Clause)
  cut_all : ∀ n cls, (cut n cls).flatten = cls

/-- Actions on a context that make calls of package cnf; the second part of the state is the list of the calls so
far. -/
def HM (α : Type) := Ctx → List Op → Except Err α × Ctx × List Op

namespace HM

/-- Sequence, stopping at an error. -/
def bind' {α β : Type} (x : HM α) (f : α → HM β) : HM β := fun s ops =>
  match x s ops with
  | (.ok a, s', ops') => f a s' ops'
  | (.error e, s', ops') => (.error e, s', ops')

instance : Monad HM where
  pure a := fun s ops => (.ok a, s, ops)
  bind := bind'

/-- An action that makes no calls. -/
def ofM {α : Type} (x : M α) : HM α := fun s ops => ((x s).1, (x s).2, ops)

/-- A call of package cnf. Its result is named by its number. -/
def call (op : Op) : HM Nat := fun s ops => (.ok ops.length, s, ops ++ [op])

/-- `M.wrapErr` -/
def wrapErr {α : Type} (pre : String) (x : HM α) : HM α := fun s ops =>
  let r := x s ops
  ((M.wrapErr pre (fun _ => (r.1, r.2.1)) s).1, r.2)

end HM

open HM

variable (A : Policy)

/-- cnf/cnf.go:56-60 `CNF.TopV` of the result of a call, as it is in memory. -/
def topOf (i : Nat) : HM Int := fun s ops => (.ok ((run A.grow ops).vals.getD i {}).tv, s, ops)

/-- Clauses with their spare capacities in call `n`. -/
def Policy.fresh (n : Nat) (cls : List Clause) : List (Clause × Nat) :=
  cls.mapIdx fun k cl => (cl, A.spare n k)

/-- Some calls of `AppendSemantics`. -/
def semCalls (i : Nat) : List (List Clause) → HM Nat
  | [] => pure i
  | cls :: rest => do
    let n ← call (.appendSemantics i (A.fresh i cls))
    semCalls n rest

/-- Some calls of `AppendConsistency`. -/
def conCalls (i : Nat) : List (List Clause) → HM Nat
  | [] => pure i
  | cls :: rest => do
    let n ← call (.appendConsistency i (A.fresh i cls))
    conCalls n rest

/-- `emitFrom` -/
def stepCalls (i : Nat) : List Step → HM Nat
  | [] => pure i
  | .touch cls :: st => do
    let _ ← ofM (allocClauses cls)
    stepCalls i st
  | .sem cls :: st => do
    let ks ← ofM (allocClauses cls)
    let n ← semCalls A i (A.cut i ks)
    stepCalls n st
  | .con cls :: st => do
    let ks ← ofM (allocClauses cls)
    let n ← conCalls A i (A.cut i ks)
    stepCalls n st

/-- `Plan.exec` -/
def planCalls : Plan → HM Nat
  | .zero => call .zero
  | .no => call .falseCNF
  | .start cls st => do
    let ks ← ofM (allocClauses cls)
    let n ← fun s ops => call (.fromClauses (A.fresh ops.length ks) (A.room ops.length)) s ops
    stepCalls A n st
  | .steps st => do
    let n ← call .zero
    stepCalls A n st

/-- The method `Encoding` of a predicate. -/
def atomCalls (a : Atom) : HM Nat := do
  let p ← ofM a.plan
  planCalls A p

/-- A value of the interface type `LogOpQ`. -/
abbrev HComp := Option (HM Nat)

/-- query/logop/and.go:45-57 `And.buildEncoding`. -/
def andCalls (q1 q2 : HM Nat) : HM Nat := do
  let cnf1 ← wrapErr "Q1" q1
  let cnf2 ← wrapErr "Q2" q2
  call (.conjunction cnf1 cnf2)

/-- query/logop/and.go:21-43 `And.Encoding`. -/
def hAnd (q1 q2 : HComp) : HM Nat := wrapErr "And" <|
  match q1, q2 with
  | none, _ => ofM (M.throw (.msg "Invalid encoding of nil child (1)"))
  | some _, none => ofM (M.throw (.msg "Invalid encoding of nil child (2)"))
  | some q1, some q2 => andCalls q1 q2

/-- `ncnf = ncnf.Negate(ctx.TopV())` and `ctx.UpdateTopV(ncnf.TopV())` (query/logop/or.go:57-68,
query/logop/not.go:45-46). -/
def negCalls (i : Nat) : HM Nat := do
  let top ← ofM M.topV
  let n ← call (.negate i (some top))
  let tv ← topOf A n
  ofM (M.updateTopV tv)
  pure n

/-- query/logop/or.go:45-71 `Or.buildEncoding`. -/
def orCalls (q1 q2 : HM Nat) : HM Nat := do
  let cnf1 ← wrapErr "Q1" q1
  let cnf2 ← wrapErr "Q2" q2
  let cnf1 ← negCalls A cnf1
  let cnf2 ← negCalls A cnf2
  let n ← call (.conjunction cnf1 cnf2)
  negCalls A n

/-- query/logop/or.go:21-43 `Or.Encoding`. -/
def hOr (q1 q2 : HComp) : HM Nat := wrapErr "Or" <|
  match q1, q2 with
  | none, _ => ofM (M.throw (.msg "Invalid encoding of nil child (1)"))
  | some _, none => ofM (M.throw (.msg "Invalid encoding of nil child (2)"))
  | some q1, some q2 => orCalls A q1 q2

/-- query/logop/not.go:39-49 `Not.buildEncoding`. -/
def notCalls (q : HM Nat) : HM Nat := do
  let ncnf ← q
  negCalls A ncnf

/-- query/logop/not.go:18-37 `Not.Encoding`. -/
def hNot (q : HComp) : HM Nat := wrapErr "Not" <|
  match q with
  | none => ofM (M.throw (.msg "Invalid encoding of nil child"))
  | some q => notCalls A q

/-- query/logop/with_var.go:85-101. -/
def onePerFeatCalls (v : QVar) : Nat → Nat → Nat → HM Nat
  | _, 0, ncnf => pure ncnf
  | i, n + 1, ncnf => do
    let z1 ← ofM (M.cnfVar ⟨v, i, ZERO⟩)
    let o1 ← ofM (M.cnfVar ⟨v, i, ONE⟩)
    let z2 ← ofM (M.cnfVar ⟨v, i, ZERO⟩)
    let b2 ← ofM (M.cnfVar ⟨v, i, BOT⟩)
    let o3 ← ofM (M.cnfVar ⟨v, i, ONE⟩)
    let b3 ← ofM (M.cnfVar ⟨v, i, BOT⟩)
    let ncnf ← call (.appendConsistency ncnf (A.fresh ncnf [[-z1, -o1], [-z2, -b2], [-o3, -b3]]))
    onePerFeatCalls v (i + 1) n ncnf

/-- query/logop/with_var.go:58-104 `WithVar.encodeI`. -/
def encodeICalls (x : QVar) : HM Nat := do
  let v ← ofM (M.scopeVar x)
  let ex ← ofM (M.cnfVarExists ⟨v, 0, BOT⟩)
  if ex then call .zero
  else do
    let d ← ofM M.dim
    let cls ← ofM (reqAllFeats v 0 d)
    let n ← call .zero
    let n ← call (.appendConsistency n (A.fresh n cls))
    onePerFeatCalls A v 0 d n

/-- query/logop/with_var.go:45-56 `WithVar.buildEncoding`. -/
def withVarCalls (x : QVar) (q : HM Nat) : HM Nat := do
  let icnf ← encodeICalls A x
  let ccnf ← q
  call (.conjunction icnf ccnf)

/-- query/logop/with_var.go:20-43 `WithVar.Encoding`. -/
def hWithVar (x : QVar) (q : HComp) : HM Nat := wrapErr "WithVar" <|
  match q with
  | none => ofM (M.throw (.msg "Invalid encoding of nil child"))
  | some q => do
    ofM (M.addVar x)
    withVarCalls A x q

/-- query/logop/forallguarded.go:184-197. -/
def forallCalls (q : HM Nat) (nodes : List Node) : Nat → WalkSt → Int → Nat → HM Nat
  | 0, _, _, _ => ofM (M.throw .diverge)
  | fuel + 1, w, i, ncnf =>
    match walkNext nodes (nextFuel nodes) w with
    | .error e => ofM (M.throw e)
    | .ok none => pure ncnf
    | .ok (some w') => do
      ofM (M.setScope i w'.t)
      let icnf ← q
      let ncnf ← call (.conjunction ncnf icnf)
      forallCalls q nodes fuel w' (i + 1) ncnf

/-- query/logop/forallguarded.go:178-199. -/
def forallBodyCalls (q : HM Nat) : HM Nat := do
  let d ← ofM M.dim
  let nodes ← ofM M.nodes
  let iter ← ofM (M.lift (newNodeAsValuesIter d nodes))
  let n ← call .zero
  forallCalls q nodes (nodes.length + 1) iter 0 n

/-- query/logop/forallguarded.go:164-200 `ForAllGuarded.buildEncoding`. -/
def forallBuildCalls (c : QConst) (q : HM Nat) : HM Nat := fun s ops =>
  let r := forallBodyCalls q (s.addScope c.id) ops
  match r.2.1.popScope with
  | (.ok (), s') => (r.1, s', r.2.2)
  | (.error perr, s') => (joinErr r.1 perr, s', r.2.2)

/-- query/logop/forallguarded.go:142-162 `ForAllGuarded.Encoding`. -/
def hForall (c : QConst) (q : HComp) : HM Nat := wrapErr "ForAllGuarded" <|
  match q with
  | none => ofM (M.throw (.msg "Invalid encoding of nil child"))
  | some q => forallBuildCalls c q

/-- A query as a value of the interface type `LogOpQ`. -/
def hcomp : Query → HComp
  | .nil => none
  | .atom a => some (atomCalls A a)
  | .and q1 q2 => some (hAnd (hcomp q1) (hcomp q2))
  | .or q1 q2 => some (hOr A (hcomp q1) (hcomp q2))
  | .not q => some (hNot A (hcomp q))
  | .withVar x q => some (hWithVar A x (hcomp q))
  | .forallG c q => some (hForall c (hcomp q))

/-- The call `q.Encoding(ctx)`. -/
def encodeCalls (q : Query) : HM Nat :=
  match hcomp A q with
  | none => ofM (M.throw (.panic "nil pointer dereference"))
  | some act => act

/-- Encodings one after the other, every one in a context of its own choice (which may be the one that an
earlier one has left). -/
def encodeAll : List (Ctx × Query) → List Op → List (Except Err Nat × Ctx) × List Op
  | [], ops => ([], ops)
  | (s, q) :: jobs, ops =>
    let r := encodeCalls A q s ops
    let rest := encodeAll jobs r.2.2
    ((r.1, r.2.1) :: rest.1, rest.2)

end Alias
end Goexpdt

import Verif.Model.Sym
/-
Model of /repo/query/predicates: subsumption, lel, isnode. Every definition is the method `Encoding`
of the type named in its comment, for a non-nil context.

The generator fields (functions from variables to variables) are `Option`s of pure functions, `none`
being nil.
-/
namespace Goexpdt

/-! ### subsumption -/

/-- query/predicates/subsumption/const_const.go:34-38, the loop, as "no feature makes it return
false". -/
def subsCC (vs ws : List FeatV) : Bool :=
  match vs, ws with
  | ft :: vs, w :: ws => if ft ≠ BOT ∧ ft ≠ w then false else subsCC vs ws
  | _, _ => true

/-- query/predicates/subsumption/const_const.go:16-41 `ConstConst.Encoding`. -/
def subsConstConst (i1 i2 : QConst) : M CNF := do
  let sc1 ← M.scopeConst i1
  let sc2 ← M.scopeConst i2
  validateM [sc1, sc2]
  M.lift (indexed (upto sc1.val.length) [sc2])
  if subsCC sc1.val sc2.val then retTrue else retFalse

/-- query/predicates/subsumption/const_var.go:30-38. -/
def subsConstVarClauses (d : Nat) (sc : QConst) (sv : QVar) : List SClause :=
  (rng 0 d).flatMap fun i => if sc.at i ≠ BOT then [[P sv i (sc.at i)]] else []

/-- query/predicates/subsumption/const_var.go:16-41 `ConstVar.Encoding`. -/
def subsConstVar (i1 : QConst) (i2 : QVar) : M CNF := do
  let sv ← M.scopeVar i2
  let sc ← M.scopeConst i1
  validateM [sc]
  let d ← M.dim
  emitF (subsConstVarClauses d sc sv) []

/-- query/predicates/subsumption/var_const.go:30-51. -/
def subsVarConstClauses (d : Nat) (sv : QVar) (sc : QConst) : List SClause :=
  (rng 0 d).flatMap fun (i : Nat) =>
    if sc.at i = ONE then [[N sv i ZERO]]
    else if sc.at i = ZERO then [[N sv i ONE]]
    else [[N sv i ONE], [N sv i ZERO]]

/-- query/predicates/subsumption/var_const.go:16-54 `VarConst.Encoding`. -/
def subsVarConst (i1 : QVar) (i2 : QConst) : M CNF := do
  let sv ← M.scopeVar i1
  let sc ← M.scopeConst i2
  validateM [sc]
  let d ← M.dim
  emitF (subsVarConstClauses d sv sc) []

/-- query/predicates/subsumption/var_var.go:26-40. -/
def subsVarVarClauses (d : Nat) (sv1 sv2 : QVar) : List SClause :=
  (rng 0 d).flatMap fun (i : Nat) =>
    [[N sv1 i ONE, P sv2 i ONE], [N sv1 i ZERO, P sv2 i ZERO]]

/-- query/predicates/subsumption/var_var.go:16-43 `VarVar.Encoding`. -/
def subsVarVar (i1 i2 : QVar) : M CNF := do
  let sv1 ← M.scopeVar i1
  let sv2 ← M.scopeVar i2
  let d ← M.dim
  emitF (subsVarVarClauses d sv1 sv2) []

/-! ### lel -/

/-- query/predicates/lel/utils.go:21-64, the body of the first loop for `i`. -/
def botCountStep (v cv : QVar) (i : Nat) : List SClause :=
  [[N cv i 0, N v i BOT], [N cv i 0, P cv (i - 1) 0], [N cv (i - 1) 0, P v i BOT, P cv i 0]] ++
  (rng 1 (i + 2)).flatMap fun (j : Nat) =>
    [[N cv i j, P cv (i - 1) (j - 1), N v i BOT],
     [P cv i j, N cv (i - 1) (j - 1), N v i BOT],
     [N cv i j, P cv (i - 1) j, P v i BOT],
     [P cv i j, N cv (i - 1) j, P v i BOT]]

/-- query/predicates/lel/utils.go:66-70: `(cv, i, j)` is false for `j ≥ i + 2`. The same loop is in
query/extensions/leh/utils.go:100-104 and 169-173. -/
def countTooBig (d : Nat) (cv : QVar) : List SClause :=
  (rng 0 d).flatMap fun i => (rng (i + 2) (d + 1)).map fun (j : Nat) => [N cv i j]

/-- query/predicates/lel/utils.go:8-93 `varBotCountClauses`. -/
def varBotCountClauses (d : Nat) (v cv : QVar) : List SClause :=
  (rng 1 d).flatMap (botCountStep v cv) ++ countTooBig d cv ++
  [[N cv 0 1, P v 0 BOT], [N v 0 BOT, P cv 0 1], [N cv 0 0, N v 0 BOT], [P v 0 BOT, P cv 0 0]]

/-- query/predicates/lel/const_const.go:17-37 `ConstConst.Encoding`. -/
def lelConstConst (i1 i2 : QConst) : M CNF := do
  let sc1 ← M.scopeConst i1
  let sc2 ← M.scopeConst i2
  validateM [sc1, sc2]
  if sc1.botCount < sc2.botCount then retFalse else retTrue

/-- query/predicates/lel/const_var.go:42-46: the semantic clauses. -/
def lelConstVarSem (d : Nat) (sc : QConst) (svCount : QVar) : List SClause :=
  (rng (sc.botCount + 1) (d + 1)).map fun (i : Nat) => [N svCount (d - 1) i]

/-- query/predicates/lel/const_var.go:20-49 `ConstVar.Encoding`. -/
def lelConstVar (i1 : QConst) (i2 : QVar) (gen : Option (QVar → QVar)) : M CNF :=
  match gen with
  | none => M.throw errNilGen
  | some gen => do
    let sv ← M.scopeVar i2
    let sc ← M.scopeConst i1
    let svCount := gen sv
    validateM [sc]
    let d ← M.dim
    emit [.con (varBotCountClauses d sv svCount), .sem (lelConstVarSem d sc svCount)]

/-- query/predicates/lel/var_const.go:42-46: the semantic clauses. -/
def lelVarConstSem (d : Nat) (sc : QConst) (svCount : QVar) : List SClause :=
  (rng 0 sc.botCount).map fun (i : Nat) => [N svCount (d - 1) i]

/-- query/predicates/lel/var_const.go:20-49 `VarConst.Encoding`. -/
def lelVarConst (i1 : QVar) (i2 : QConst) (gen : Option (QVar → QVar)) : M CNF :=
  match gen with
  | none => M.throw errNilGen
  | some gen => do
    let sv ← M.scopeVar i1
    let sc ← M.scopeConst i2
    let svCount := gen sv
    validateM [sc]
    let d ← M.dim
    emit [.con (varBotCountClauses d sv svCount), .sem (lelVarConstSem d sc svCount)]

/-- query/predicates/lel/var_var.go:41-52: the semantic clauses. -/
def lelVarVarSem (d : Nat) (svCount1 svCount2 : QVar) : List SClause :=
  (rng 0 d).map fun (i : Nat) =>
    N svCount1 (d - 1) i :: (rng 0 (i + 1)).map fun (j : Nat) => P svCount2 (d - 1) j

/-- query/predicates/lel/var_var.go:20-55 `VarVar.Encoding`. -/
def lelVarVar (i1 i2 : QVar) (gen : Option (QVar → QVar)) : M CNF :=
  match gen with
  | none => M.throw errNilGen
  | some gen => do
    let sv1 ← M.scopeVar i1
    let sv2 ← M.scopeVar i2
    let svCount1 := gen sv1
    let svCount2 := gen sv2
    let d ← M.dim
    emit [.con (varBotCountClauses d sv1 svCount1), .con (varBotCountClauses d sv2 svCount2),
      .sem (lelVarVarSem d svCount1 svCount2)]

/-! ### isnode -/

/-- query/predicates/isnode/const.go:90-105 `newVisitRecord`. -/
def newVisitRecord (c : QConst) : List Nat := c.val.map fun ft => if ft = BOT then 1 else 0

/-- query/predicates/isnode/const.go:107-116 `allFeatsVisited`. -/
def allFeatsVisited (vr : List Nat) : Bool := vr.foldl (· + ·) 0 == vr.length

/-- query/predicates/isnode/const.go:39-80, the loop; returns the visit record at `break`. The code
has no bound (it loops forever on a cyclic model, see `C28`); the fuel is the number of turns. -/
def isnodeLoop (dim : Nat) (sc : QConst) (nodes : List Node) :
    Nat → Node → List Nat → Except Err (List Nat)
  | 0, _, _ => .error .diverge
  | fuel + 1, node, visited =>
    if node.isLeaf then .ok visited
    else if node.feat < 0 ∨ node.feat ≥ dim then
      .error (.msg s!"Node's feature {node.feat} is out of range [0, {(dim : Int) - 1}]")
    else match indexed [node.feat] [sc] with
    | .error e => .error e
    | .ok () =>
      if sc.at node.feat.toNat = BOT then .ok visited
      else
        let visited := visited.set node.feat.toNat 1
        if sc.at node.feat.toNat = ZERO then
          if node.zChild < 0 ∨ node.zChild ≥ nodes.length then
            .error (.msg s!"Node's ZChild out of bounds {node.zChild}")
          else isnodeLoop dim sc nodes fuel (nodeAt nodes node.zChild.toNat) visited
        else if node.oChild < 0 ∨ node.oChild ≥ nodes.length then
          .error (.msg s!"Node's OChild out of bounds {node.oChild}")
        else isnodeLoop dim sc nodes fuel (nodeAt nodes node.oChild.toNat) visited

/-- query/predicates/isnode/const.go:16-88 `Const.Encoding`. The walk visits no node twice unless it
loops forever, so `len(nodes) + 1` turns decide whether it terminates (theorem `C28_fuel`). -/
def isnodeConst (i : QConst) : M CNF := do
  let sc ← M.scopeConst i
  validateM [sc]
  let d ← M.dim
  let nodes ← M.nodes
  if nodes.length = 0 then M.throw errEmptyModel
  else do
    let visited ← M.lift (isnodeLoop d sc nodes (nodes.length + 1) (nodeAt nodes 0)
      (newVisitRecord sc))
    if allFeatsVisited visited then retTrue else retFalse

/-- query/predicates/isnode/var.go:42-53: `fcl`, the clause of feature `f`: its bottom variable and
the reach variables of the internal nodes that decide on `f`, in the order of the nodes. -/
def isnodeFcl (d : Nat) (nodes : List Node) (sv svReach : QVar) : List SClause :=
  (rng 0 d).map fun (f : Nat) =>
    P sv f BOT :: ((rng 0 nodes.length).filter fun i =>
        !(nodeAt nodes i).isLeaf && (nodeAt nodes i).feat == (f : Int)).map
      fun (i : Nat) => P svReach 0 i

/-- query/predicates/isnode/var.go:44-53: the order in which the variables of `fcl` are numbered:
the bottom variables, then the reach variables of the internal nodes. -/
def isnodeFclOrder (d : Nat) (nodes : List Node) (sv svReach : QVar) : List SClause :=
  (rng 0 d).map (fun (f : Nat) => [P sv f BOT]) ++
  ((rng 0 nodes.length).filter fun i => !(nodeAt nodes i).isLeaf).map
    fun (i : Nat) => [P svReach 0 i]

/-- query/predicates/isnode/var.go:61-93: the propagation clauses. -/
def isnodeProp (nodes : List Node) (sv svReach : QVar) : List SClause :=
  (rng 0 nodes.length).flatMap fun (i : Nat) =>
    let node := nodeAt nodes i
    if node.isLeaf then []
    else
      [[N sv node.feat ZERO, N svReach 0 i, P svReach 0 node.zChild],
       [N sv node.feat ONE, N svReach 0 i, P svReach 0 node.oChild],
       [N svReach 0 node.oChild, P svReach 0 i],
       [N svReach 0 node.oChild, P sv node.feat ONE],
       [N svReach 0 node.zChild, P svReach 0 i],
       [N svReach 0 node.zChild, P sv node.feat ZERO]]

/-- `fcl[node.Feat]` of query/predicates/isnode/var.go:52 is in range for every internal node. -/
def featsInRange (d : Nat) (nodes : List Node) : Bool :=
  nodes.all fun n => n.isLeaf || (decide (0 ≤ n.feat) && decide (n.feat < d))

/-- query/predicates/isnode/var.go:18-96 `Var.Encoding`. -/
def isnodeVar (i : QVar) (gen : Option (QVar → QVar)) : M CNF :=
  match gen with
  | none => M.throw errNilGen
  | some gen => do
    let nodes ← M.nodes
    if nodes.length = 0 then M.throw errEmptyModel
    else do
      let d ← M.dim
      let sv ← M.scopeVar i
      let svReach := gen sv
      if !featsInRange d nodes then M.throw (.panic "index out of range")
      else emit [.touch (isnodeFclOrder d nodes sv svReach), .sem (isnodeFcl d nodes sv svReach),
        .con [[P svReach 0 0]], .con (isnodeProp nodes sv svReach)]

end Goexpdt

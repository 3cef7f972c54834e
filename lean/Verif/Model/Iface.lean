import Verif.Model.Syntax
/-
The components of queries over an arbitrary context. All `Encoding` methods of the library get a value of the interface type
`query.QContext`; the rest of the model fixes it to the context of `BasicQContext`. Here it is any implementation: a state and what the
methods of the interface do with it. The functions below are those of `Model/LogOp.lean`, `Model/Sym.lean`, `Model/Preds.lean` and
`Model/Ext.lean` word by word, with the methods of the context `I` in place of those of the basic one; with `I` the basic context they
are the same functions (`C87_basic`).

Simplifications: the same as there. A method of the user's context may do anything with its state and may panic. The slices it is given or
returns are values here: that a context keeps the slice passed to `SetScope`, or changes one it has returned, is not modelled. `Dim` and `Nodes`
are read where the model of the basic context reads them (the code calls `ctx.Dim()` again in loop conditions).
-/
namespace Goexpdt

/-- query/context.go:5-11 `type QContext interface`, with the embedded query/scoper.go:9-34 `Scoper`, query/varmanager.go:7-23
`VarManager` and query/model.go:3-11 `Model`. `σ` is the state of the implementation. A method without an error in its result has
an error in the model only when it panics. (`Reset` is not called by the components, only by `ComputeOptim`, see
`Model/IfaceCompute.lean`.) -/
structure QContext (σ : Type) where
  scopeVar : QVar → σ → Except Err QVar × σ
  addVar : QVar → σ → Except Err Unit × σ
  scopeConst : QConst → σ → Except Err (QConst × Bool) × σ
  addScope : List Char → σ → Except Err Unit × σ
  popScope : σ → Except Err Unit × σ
  setScope : Int → List FeatV → σ → Except Err Unit × σ
  topV : σ → Except Err Int × σ
  updateTopV : Int → σ → Except Err Bool × σ
  cnfVar : VarRep → σ → Except Err Int × σ
  cnfVarExists : VarRep → σ → Except Err Bool × σ
  dim : σ → Except Err Nat × σ
  nodes : σ → Except Err (List Node) × σ
  reset : σ → Except Err Unit × σ

/-- query/context.go:13-17 `baseQContext` as an implementation of the interface. -/
def basicI : QContext Ctx where
  scopeVar v s := (s.scopeVar v, s)
  addVar v s := (.ok (), s.addVar v)
  scopeConst c s := (.ok (s.scopeConst c), s)
  addScope t s := (.ok (), s.addScope t)
  popScope s := s.popScope
  setScope i val s := s.setScope i val
  topV s := (.ok s.topV, s)
  updateTopV v s := (.ok (s.updateTopV v).1, (s.updateTopV v).2)
  cnfVar vr s := (.ok (s.cnfVar vr).1, (s.cnfVar vr).2)
  cnfVarExists vr s := (.ok (s.cnfVarExists vr), s)
  dim s := (.ok s.dim, s)
  nodes s := (.ok s.nodes, s)
  reset s := (.ok (), s.reset)

/-- Computations on a context with state `σ` that may return an error (or panic), as `M`. -/
def MG (σ α : Type) := σ → Except Err α × σ

namespace MG

/-- Sequencing: an error stops the computation. -/
def bind' {σ α β : Type} (x : MG σ α) (f : α → MG σ β) : MG σ β := fun s =>
  match x s with
  | (.ok a, s') => f a s'
  | (.error e, s') => (.error e, s')

instance {σ : Type} : Monad (MG σ) where
  pure a := fun s => (.ok a, s)
  bind := bind'

/-- A computation that does not use the context. -/
def lift {σ α : Type} (r : Except Err α) : MG σ α := fun s => (r, s)

/-- Return an error. -/
def throw {σ α : Type} (e : Err) : MG σ α := fun s => (.error e, s)

/-- `defer func() { if err != nil { err = fmt.Errorf("pre: %w", err) } }()`. -/
def wrapErr {σ α : Type} (pre : String) (x : MG σ α) : MG σ α := fun s =>
  match x s with
  | (.ok a, s') => (.ok a, s')
  | (.error e, s') => (.error (e.wrap pre), s')

end MG

namespace Over

variable {σ : Type}

/-- A value of the interface type `LogOpQ` (query/logop/logop.go:13-18). -/
abbrev CompG (σ : Type) := Option (MG σ CNF)

/-- `ctx.Dim()` -/
def dim (I : QContext σ) : MG σ Nat := I.dim
/-- `ctx.Nodes()` -/
def nodes (I : QContext σ) : MG σ (List Node) := I.nodes
/-- `ctx.TopV()` -/
def topV (I : QContext σ) : MG σ Int := I.topV
/-- `ctx.UpdateTopV(v)`, result ignored -/
def updateTopV (I : QContext σ) (v : Int) : MG σ Unit := fun s =>
  match I.updateTopV v s with
  | (.ok _, s') => (.ok (), s')
  | (.error e, s') => (.error e, s')
/-- `ctx.CNFVar(v, idx, val)` -/
def cnfVar (I : QContext σ) (vr : VarRep) : MG σ Int := I.cnfVar vr
/-- `ctx.CNFVarExists(v, idx, val)` -/
def cnfVarExists (I : QContext σ) (vr : VarRep) : MG σ Bool := I.cnfVarExists vr
/-- `ctx.ScopeVar(v)` -/
def scopeVar (I : QContext σ) (v : QVar) : MG σ QVar := I.scopeVar v
/-- `ctx.ScopeConst(c)`, with `ok` ignored -/
def scopeConst (I : QContext σ) (c : QConst) : MG σ QConst := fun s =>
  match I.scopeConst c s with
  | (.ok r, s') => (.ok r.1, s')
  | (.error e, s') => (.error e, s')
/-- `ctx.AddVar(v)` -/
def addVar (I : QContext σ) (v : QVar) : MG σ Unit := I.addVar v
/-- `ctx.SetScope(i, val)` -/
def setScope (I : QContext σ) (i : Int) (val : List FeatV) : MG σ Unit := I.setScope i val

/-! ### Clauses -/

/-- Evaluate a literal. -/
def allocLit (I : QContext σ) (l : SLit) : MG σ Int := do
  let n ← cnfVar I l.vr
  pure (if l.pos then n else -n)

/-- Evaluate the literals of a clause from left to right. -/
def allocClause (I : QContext σ) : SClause → MG σ Clause
  | [] => pure []
  | l :: ls => do
    let n ← allocLit I l
    let ns ← allocClause I ls
    pure (n :: ns)

/-- Evaluate clauses from left to right. -/
def allocClauses (I : QContext σ) : List SClause → MG σ (List Clause)
  | [] => pure []
  | c :: cs => do
    let k ← allocClause I c
    let ks ← allocClauses I cs
    pure (k :: ks)

/-- Run the steps on `ncnf`. -/
def emitFrom (I : QContext σ) (ncnf : CNF) : List Step → MG σ CNF
  | [] => pure ncnf
  | .touch cls :: st => do
    let _ ← allocClauses I cls
    emitFrom I ncnf st
  | .sem cls :: st => do
    let ks ← allocClauses I cls
    emitFrom I (ncnf.appendSemantics ks) st
  | .con cls :: st => do
    let ks ← allocClauses I cls
    emitFrom I (ncnf.appendConsistency ks) st

/-- Run the steps on the empty CNF. -/
def emit (I : QContext σ) (st : List Step) : MG σ CNF := emitFrom I {} st

/-- `ncnf := cnf.FromClauses(cls)` followed by the steps. -/
def emitF (I : QContext σ) (cls : List SClause) (st : List Step) : MG σ CNF := do
  let ks ← allocClauses I cls
  emitFrom I (FromClauses ks) st

/-- `return cnf.FalseCNF, nil` (cnf/cnf.go: `FalseCNF` has the one empty semantic clause). -/
def retFalse : MG σ CNF := pure FalseCNF

/-- `return cnf.TrueCNF, nil` -/
def retTrue : MG σ CNF := pure TrueCNF

/-- `ctx.ScopeConst(c)` for each of the constants, then `query.ValidateConstsDim(ctx.Dim(), …)`. -/
def validateM (I : QContext σ) (cs : List QConst) : MG σ Unit := do
  let d ← dim I
  MG.lift (ValidateConstsDim d cs)

/-! ### query/logop -/

/-- query/logop/and.go:45-57 `And.buildEncoding`. -/
def andBuild (q1 q2 : MG σ CNF) : MG σ CNF := do
  let cnf1 ← MG.wrapErr "Q1" q1
  let cnf2 ← MG.wrapErr "Q2" q2
  pure (cnf1.conjunction cnf2)

/-- query/logop/and.go:21-43 `And.Encoding` with a non-nil context. -/
def encAnd (q1 q2 : CompG σ) : MG σ CNF := MG.wrapErr "And" <|
  match q1, q2 with
  | none, _ => MG.throw (.msg "Invalid encoding of nil child (1)")
  | some _, none => MG.throw (.msg "Invalid encoding of nil child (2)")
  | some q1, some q2 => andBuild q1 q2

/-- query/logop/or.go:45-71 `Or.buildEncoding`. -/
def orBuild (I : QContext σ) (q1 q2 : MG σ CNF) : MG σ CNF := do
  let cnf1 ← MG.wrapErr "Q1" q1
  let cnf2 ← MG.wrapErr "Q2" q2
  let top ← topV I
  let cnf1 := cnf1.negate (some top)
  updateTopV I cnf1.topV
  let top ← topV I
  let cnf2 := cnf2.negate (some top)
  updateTopV I cnf2.topV
  let top ← topV I
  let ncnf := (cnf1.conjunction cnf2).negate (some top)
  updateTopV I ncnf.topV
  pure ncnf

/-- query/logop/or.go:21-43 `Or.Encoding` with a non-nil context. -/
def encOr (I : QContext σ) (q1 q2 : CompG σ) : MG σ CNF := MG.wrapErr "Or" <|
  match q1, q2 with
  | none, _ => MG.throw (.msg "Invalid encoding of nil child (1)")
  | some _, none => MG.throw (.msg "Invalid encoding of nil child (2)")
  | some q1, some q2 => orBuild I q1 q2

/-- query/logop/not.go:39-49 `Not.buildEncoding`. -/
def notBuild (I : QContext σ) (q : MG σ CNF) : MG σ CNF := do
  let ncnf ← q
  let top ← topV I
  let ncnf := ncnf.negate (some top)
  updateTopV I ncnf.topV
  pure ncnf

/-- query/logop/not.go:18-37 `Not.Encoding` with a non-nil context. -/
def encNot (I : QContext σ) (q : CompG σ) : MG σ CNF := MG.wrapErr "Not" <|
  match q with
  | none => MG.throw (.msg "Invalid encoding of nil child")
  | some q => notBuild I q

/-- query/logop/with_var.go:70-81, the loop building `reqAllFeats`, from feature `i` on with `n`
features left. -/
def reqAllFeats (I : QContext σ) (v : QVar) : Nat → Nat → MG σ (List Clause)
  | _, 0 => pure []
  | i, n + 1 => do
    let z ← cnfVar I ⟨v, i, ZERO⟩
    let o ← cnfVar I ⟨v, i, ONE⟩
    let b ← cnfVar I ⟨v, i, BOT⟩
    let rest ← reqAllFeats I v (i + 1) n
    pure ([z, o, b] :: rest)

/-- query/logop/with_var.go:85-101, the loop appending `reqOnePerFeat`. -/
def reqOnePerFeat (I : QContext σ) (v : QVar) : Nat → Nat → CNF → MG σ CNF
  | _, 0, ncnf => pure ncnf
  | i, n + 1, ncnf => do
    let z1 ← cnfVar I ⟨v, i, ZERO⟩
    let o1 ← cnfVar I ⟨v, i, ONE⟩
    let z2 ← cnfVar I ⟨v, i, ZERO⟩
    let b2 ← cnfVar I ⟨v, i, BOT⟩
    let o3 ← cnfVar I ⟨v, i, ONE⟩
    let b3 ← cnfVar I ⟨v, i, BOT⟩
    reqOnePerFeat I v (i + 1) n (ncnf.appendConsistency [[-z1, -o1], [-z2, -b2], [-o3, -b3]])

/-- query/logop/with_var.go:58-104 `WithVar.encodeI`. -/
def encodeI (I : QContext σ) (x : QVar) : MG σ CNF := do
  let v ← scopeVar I x
  let ex ← cnfVarExists I ⟨v, 0, BOT⟩
  if ex then pure {}
  else do
    let d ← dim I
    let cls ← reqAllFeats I v 0 d
    reqOnePerFeat I v 0 d (({} : CNF).appendConsistency cls)

/-- query/logop/with_var.go:45-56 `WithVar.buildEncoding`. -/
def withVarBuild (I : QContext σ) (x : QVar) (q : MG σ CNF) : MG σ CNF := do
  let icnf ← encodeI I x
  let ccnf ← q
  pure (icnf.conjunction ccnf)

/-- query/logop/with_var.go:20-43 `WithVar.Encoding` with a non-nil context. -/
def encWithVar (I : QContext σ) (x : QVar) (q : CompG σ) : MG σ CNF := MG.wrapErr "WithVar" <|
  match q with
  | none => MG.throw (.msg "Invalid encoding of nil child")
  | some q => do
    addVar I x
    withVarBuild I x q

/-- query/logop/forallguarded.go:184-197, the loop of `buildEncoding`; `fuel` bounds the number of
visited nodes (see `C17_terminates`). -/
def forallLoop (I : QContext σ) (q : MG σ CNF) (nodes : List Node) : Nat → WalkSt → Int → CNF → MG σ CNF
  | 0, _, _, _ => MG.throw .diverge
  | fuel + 1, w, i, ncnf =>
    match walkNext nodes (nextFuel nodes) w with
    | .error e => MG.throw e
    | .ok none => pure ncnf
    | .ok (some w') => do
      setScope I i w'.t
      let icnf ← q
      forallLoop I q nodes fuel w' (i + 1) (ncnf.conjunction icnf)

/-- query/logop/forallguarded.go:178-199, the body of `buildEncoding` between the deferred
`PopScope` and the end. -/
def forallBody (I : QContext σ) (q : MG σ CNF) : MG σ CNF := do
  let d ← dim I
  let nodes ← nodes I
  let iter ← MG.lift (newNodeAsValuesIter d nodes)
  forallLoop I q nodes (nodes.length + 1) iter 0 {}

/-- query/logop/forallguarded.go:164-200 `ForAllGuarded.buildEncoding`: the scope is pushed, the body runs, and the deferred function
pops the scope whatever the outcome is. (`AddScope` is called before the deferred function is registered.) -/
def forallBuild (I : QContext σ) (c : QConst) (q : MG σ CNF) : MG σ CNF := fun s =>
  match I.addScope c.id s with
  | (.error e, s1) => (.error e, s1)
  | (.ok (), s1) =>
    let r := forallBody I q s1
    match I.popScope r.2 with
    | (.ok (), s') => (r.1, s')
    | (.error perr, s') => (joinErr r.1 perr, s')

/-- query/logop/forallguarded.go:142-162 `ForAllGuarded.Encoding` with a non-nil context. -/
def encForall (I : QContext σ) (c : QConst) (q : CompG σ) : MG σ CNF := MG.wrapErr "ForAllGuarded" <|
  match q with
  | none => MG.throw (.msg "Invalid encoding of nil child")
  | some q => forallBuild I c q

/-! ### query/predicates -/

/-- query/predicates/subsumption/const_const.go:16-41 `ConstConst.Encoding`. -/
def subsConstConst (I : QContext σ) (i1 i2 : QConst) : MG σ CNF := do
  let sc1 ← scopeConst I i1
  let sc2 ← scopeConst I i2
  validateM I [sc1, sc2]
  MG.lift (indexed (upto sc1.val.length) [sc2])
  if subsCC sc1.val sc2.val then retTrue else retFalse

/-- query/predicates/subsumption/const_var.go:16-41 `ConstVar.Encoding`. -/
def subsConstVar (I : QContext σ) (i1 : QConst) (i2 : QVar) : MG σ CNF := do
  let sv ← scopeVar I i2
  let sc ← scopeConst I i1
  validateM I [sc]
  let d ← dim I
  emitF I (subsConstVarClauses d sc sv) []

/-- query/predicates/subsumption/var_const.go:16-54 `VarConst.Encoding`. -/
def subsVarConst (I : QContext σ) (i1 : QVar) (i2 : QConst) : MG σ CNF := do
  let sv ← scopeVar I i1
  let sc ← scopeConst I i2
  validateM I [sc]
  let d ← dim I
  emitF I (subsVarConstClauses d sv sc) []

/-- query/predicates/subsumption/var_var.go:16-43 `VarVar.Encoding`. -/
def subsVarVar (I : QContext σ) (i1 i2 : QVar) : MG σ CNF := do
  let sv1 ← scopeVar I i1
  let sv2 ← scopeVar I i2
  let d ← dim I
  emitF I (subsVarVarClauses d sv1 sv2) []

/-- query/predicates/lel/const_const.go:17-37 `ConstConst.Encoding`. -/
def lelConstConst (I : QContext σ) (i1 i2 : QConst) : MG σ CNF := do
  let sc1 ← scopeConst I i1
  let sc2 ← scopeConst I i2
  validateM I [sc1, sc2]
  if sc1.botCount < sc2.botCount then retFalse else retTrue

/-- query/predicates/lel/const_var.go:20-49 `ConstVar.Encoding`. -/
def lelConstVar (I : QContext σ) (i1 : QConst) (i2 : QVar) (gen : Option (QVar → QVar)) : MG σ CNF :=
  match gen with
  | none => MG.throw errNilGen
  | some gen => do
    let sv ← scopeVar I i2
    let sc ← scopeConst I i1
    let svCount := gen sv
    validateM I [sc]
    let d ← dim I
    emit I [.con (varBotCountClauses d sv svCount), .sem (lelConstVarSem d sc svCount)]

/-- query/predicates/lel/var_const.go:20-49 `VarConst.Encoding`. -/
def lelVarConst (I : QContext σ) (i1 : QVar) (i2 : QConst) (gen : Option (QVar → QVar)) : MG σ CNF :=
  match gen with
  | none => MG.throw errNilGen
  | some gen => do
    let sv ← scopeVar I i1
    let sc ← scopeConst I i2
    let svCount := gen sv
    validateM I [sc]
    let d ← dim I
    emit I [.con (varBotCountClauses d sv svCount), .sem (lelVarConstSem d sc svCount)]

/-- query/predicates/lel/var_var.go:20-55 `VarVar.Encoding`. -/
def lelVarVar (I : QContext σ) (i1 i2 : QVar) (gen : Option (QVar → QVar)) : MG σ CNF :=
  match gen with
  | none => MG.throw errNilGen
  | some gen => do
    let sv1 ← scopeVar I i1
    let sv2 ← scopeVar I i2
    let svCount1 := gen sv1
    let svCount2 := gen sv2
    let d ← dim I
    emit I [.con (varBotCountClauses d sv1 svCount1), .con (varBotCountClauses d sv2 svCount2),
      .sem (lelVarVarSem d svCount1 svCount2)]

/-- query/predicates/isnode/const.go:16-88 `Const.Encoding`. The walk visits no node twice unless it
loops forever, so `len(nodes) + 1` turns decide whether it terminates (theorem `C28_fuel`). -/
def isnodeConst (I : QContext σ) (i : QConst) : MG σ CNF := do
  let sc ← scopeConst I i
  validateM I [sc]
  let d ← dim I
  let nodes ← nodes I
  if nodes.length = 0 then MG.throw errEmptyModel
  else do
    let visited ← MG.lift (isnodeLoop d sc nodes (nodes.length + 1) (nodeAt nodes 0)
      (newVisitRecord sc))
    if allFeatsVisited visited then retTrue else retFalse

/-- query/predicates/isnode/var.go:18-96 `Var.Encoding`. -/
def isnodeVar (I : QContext σ) (i : QVar) (gen : Option (QVar → QVar)) : MG σ CNF :=
  match gen with
  | none => MG.throw errNilGen
  | some gen => do
    let nodes ← nodes I
    if nodes.length = 0 then MG.throw errEmptyModel
    else do
      let d ← dim I
      let sv ← scopeVar I i
      let svReach := gen sv
      if !featsInRange d nodes then MG.throw (.panic "index out of range")
      else emit I [.touch (isnodeFclOrder d nodes sv svReach), .sem (isnodeFcl d nodes sv svReach),
        .con [[P svReach 0 0]], .con (isnodeProp nodes sv svReach)]

/-! ### query/extensions -/

/-- query/extensions/full/const.go:15-34 `Const.Encoding`. -/
def fullConst (I : QContext σ) (i : QConst) : MG σ CNF := do
  let sc ← scopeConst I i
  validateM I [sc]
  if fullC sc.val then retTrue else retFalse

/-- query/extensions/full/var.go:15-33 `Var.Encoding`. -/
def fullVar (I : QContext σ) (i : QVar) : MG σ CNF := do
  let sv ← scopeVar I i
  let d ← dim I
  emitF I (varFullClauses d sv) []

/-- query/extensions/cons/const_const.go:16-44 `ConstConst.Encoding`. -/
def consConstConst (I : QContext σ) (i1 i2 : QConst) : MG σ CNF := do
  let sc1 ← scopeConst I i1
  let sc2 ← scopeConst I i2
  validateM I [sc1, sc2]
  let d ← dim I
  MG.lift (indexed (upto d) [sc1, sc2])
  if consCC d sc1 sc2 then retTrue else retFalse

/-- query/extensions/cons/const_var.go:46-50 and query/extensions/cons/var_const.go:46-50. -/
def consConstRet (I : QContext σ) (cls : List SClause) : MG σ CNF :=
  if cls.length = 0 then retTrue else emitF I cls []

/-- query/extensions/cons/const_var.go:16-51 `ConstVar.Encoding`. -/
def consConstVar (I : QContext σ) (i1 : QConst) (i2 : QVar) : MG σ CNF := do
  let sc ← scopeConst I i1
  let sv ← scopeVar I i2
  validateM I [sc]
  let d ← dim I
  consConstRet I (consConstClauses d sc sv)

/-- query/extensions/cons/var_const.go:16-51 `VarConst.Encoding`. -/
def consVarConst (I : QContext σ) (i1 : QVar) (i2 : QConst) : MG σ CNF := do
  let sv ← scopeVar I i1
  let sc ← scopeConst I i2
  validateM I [sc]
  let d ← dim I
  consConstRet I (consConstClauses d sc sv)

/-- query/extensions/cons/var_var.go:16-44 `VarVar.Encoding`. -/
def consVarVar (I : QContext σ) (i1 i2 : QVar) : MG σ CNF := do
  let sv1 ← scopeVar I i1
  let sv2 ← scopeVar I i2
  let d ← dim I
  emitF I (consVarVarClauses d sv1 sv2) []

/-- query/extensions/allcomp/const.go:20-84 `Const.Encoding`. -/
def allcompConst (I : QContext σ) (i : QConst) (leaf : Bool) : MG σ CNF := do
  let sc ← scopeConst I i
  validateM I [sc]
  let d ← dim I
  let nodes ← nodes I
  if nodes.length = 0 then MG.throw errEmptyModel
  else do
    let b ← MG.lift (acLoop d sc leaf nodes (nodes.length + 2) [] [nodeAt nodes 0])
    if b then retTrue else retFalse

/-- query/extensions/allcomp/var.go:22-98 `Var.Encoding`. -/
def allcompVar (I : QContext σ) (i : QVar) (leaf : Bool) (gen : Option (QVar → QVar)) : MG σ CNF :=
  match gen with
  | none => MG.throw errNilGen
  | some gen => do
    let nodes ← nodes I
    if nodes.length = 0 then MG.throw errEmptyModel
    else do
      let sv ← scopeVar I i
      let svReach := gen sv
      emit I (.con [[P svReach 0 0]] ::
        (rng 0 nodes.length).map (allcompStep leaf nodes sv svReach))

/-- query/extensions/dfs/const.go:15-50 `Const.Encoding`. -/
def dfsConst (I : QContext σ) (i : QConst) : MG σ CNF := do
  let sc ← scopeConst I i
  validateM I [sc]
  let d ← dim I
  let nodes ← nodes I
  let leafs ← MG.lift (leafsAsConsts d nodes)
  if leafs.1.length = 0 ∧ leafs.2.length = 0 then MG.throw errEmptyModel
  else do
    let b ← MG.lift (dfsOuter sc leafs.2 leafs.1)
    if b then retTrue else retFalse

/-- query/extensions/dfs/var.go:15-47 `Var.Encoding`. -/
def dfsVar (I : QContext σ) (i : QVar) : MG σ CNF := do
  let sv ← scopeVar I i
  let d ← dim I
  let nodes ← nodes I
  let leafs ← MG.lift (leafsAsConsts d nodes)
  if leafs.1.length = 0 ∧ leafs.2.length = 0 then MG.throw errEmptyModel
  else do
    let cls ← MG.lift (dfsClauses d sv (leafs.1.flatMap fun p => leafs.2.map fun n => (p, n)))
    emitF I cls []

/-- query/extensions/hepr/const_const.go:18-50 `ConstConst.Encoding`. -/
def heprConstConst (I : QContext σ) (i1 i2 : QConst) (pref : List Int) : MG σ CNF := do
  let d ← dim I
  MG.lift (validatePref pref d)
  let sc1 ← scopeConst I i1
  let sc2 ← scopeConst I i2
  validateM I [sc1, sc2]
  MG.lift (indexed pref [sc1, sc2])
  if pref.length = 0 then retTrue
  else if heprCC sc1 sc2 pref then retTrue else retFalse

/-- query/extensions/hepr/const_var.go:22-110 `ConstVar.Encoding`. With an empty preference line 53
indexes at -1. -/
def heprConstVar (I : QContext σ) (i1 : QConst) (i2 : QVar) (pref : List Int)
    (gen : Option (QVar → QVar → QVar → QVar)) : MG σ CNF :=
  match gen with
  | none => MG.throw errNilGen
  | some gen => do
    let d ← dim I
    MG.lift (validatePref pref d)
    let sc ← scopeConst I i1
    let sv ← scopeVar I i2
    let cvp := gen (prefVar pref) sc.asString sv
    validateM I [sc]
    MG.lift (indexed pref [sc])
    if pref.length = 0 then MG.throw (.panic "index out of range")
    else emit I [.con (heprConstVarCon sc sv cvp pref), .sem [[P cvp 0 0]]]

/-- query/extensions/hepr/var_const.go:22-109 `VarConst.Encoding`. -/
def heprVarConst (I : QContext σ) (i1 : QVar) (i2 : QConst) (pref : List Int)
    (gen : Option (QVar → QVar → QVar → QVar)) : MG σ CNF :=
  match gen with
  | none => MG.throw errNilGen
  | some gen => do
    let d ← dim I
    MG.lift (validatePref pref d)
    let sv ← scopeVar I i1
    let sc ← scopeConst I i2
    let vcp := gen (prefVar pref) sv sc.asString
    validateM I [sc]
    MG.lift (indexed pref [sc])
    if pref.length = 0 then MG.throw (.panic "index out of range")
    else emit I [.con (heprVarConstCon sv sc vcp pref), .sem [[P vcp 0 0]]]

/-- query/extensions/hepr/var_var.go:22-101 `VarVar.Encoding`. -/
def heprVarVar (I : QContext σ) (i1 i2 : QVar) (pref : List Int)
    (gen : Option (QVar → QVar → QVar → QVar)) : MG σ CNF :=
  match gen with
  | none => MG.throw errNilGen
  | some gen => do
    let d ← dim I
    MG.lift (validatePref pref d)
    let sv1 ← scopeVar I i1
    let sv2 ← scopeVar I i2
    let vvp := gen (prefVar pref) sv1 sv2
    if pref.length = 0 then MG.throw (.panic "index out of range")
    else emit I [.con (heprVarVarCon sv1 sv2 vvp pref), .sem [[P vvp 0 0]]]

/-- query/extensions/leh/const_const_const.go:18-57 `ConstConstConst.Encoding`. Lines 44-46 and 48-50
return the empty CNF and no error if the lengths differ. -/
def lehConstConstConst (I : QContext σ) (i1 i2 i3 : QConst) : MG σ CNF := do
  let sc1 ← scopeConst I i1
  let sc2 ← scopeConst I i2
  let sc3 ← scopeConst I i3
  validateM I [sc1, sc2, sc3]
  if !sc1.isFull || !sc2.isFull || !sc3.isFull then retFalse
  else
    match hammingDistCC sc1 sc2 with
    | .error _ => pure {}
    | .ok hd12 =>
      match hammingDistCC sc1 sc3 with
      | .error _ => pure {}
      | .ok hd13 => if hd12 > hd13 then retFalse else retTrue

/-- query/extensions/leh/const_const_var.go:23-74 `ConstConstVar.Encoding`. -/
def lehConstConstVar (I : QContext σ) (i1 i2 : QConst) (i3 : QVar) (gen : Option (QVar → QVar → QVar)) : MG σ CNF :=
  match gen with
  | none => MG.throw errNilGen
  | some gen => do
    let d ← dim I
    let sc1 ← scopeConst I i1
    let sc2 ← scopeConst I i2
    let sv ← scopeVar I i3
    let vc1hd := gen sv sc1.asString
    validateM I [sc1, sc2]
    if !sc1.isFull || !sc2.isFull then retFalse
    else do
      let cchd ← MG.lift (hammingDistCC sc1 sc2)
      if cchd = 0 then retTrue
      else do
        let hd ← MG.lift (hammingDistVC d sv sc1 vc1hd)
        emitF I (varFullClauses d sv) [.con hd,
          .sem ((rng 0 cchd).map fun (i : Nat) => [N vc1hd (d - 1) i])]

/-- query/extensions/leh/const_var_const.go:23-74 `ConstVarConst.Encoding`. The distance variable of
line 39 is named after the third constant, and line 60 uses it for the distance to the first. -/
def lehConstVarConst (I : QContext σ) (i1 : QConst) (i2 : QVar) (i3 : QConst) (gen : Option (QVar → QVar → QVar)) :
    MG σ CNF :=
  match gen with
  | none => MG.throw errNilGen
  | some gen => do
    let d ← dim I
    let sc1 ← scopeConst I i1
    let sc2 ← scopeConst I i3
    let sv ← scopeVar I i2
    let vc1hd := gen sv sc2.asString
    validateM I [sc1, sc2]
    if !sc1.isFull || !sc2.isFull then retFalse
    else do
      let cchd ← MG.lift (hammingDistCC sc1 sc2)
      if cchd = d then retTrue
      else do
        let hd ← MG.lift (hammingDistVC d sv sc1 vc1hd)
        emitF I (varFullClauses d sv) [.con hd,
          .sem ((rng (cchd + 1) (d + 1)).map fun (i : Nat) => [N vc1hd (d - 1) i])]

/-- query/extensions/leh/const_var_var.go:22-78 `ConstVarVar.Encoding`. -/
def lehConstVarVar (I : QContext σ) (i1 : QConst) (i2 i3 : QVar) (gen : Option (QVar → QVar → QVar)) : MG σ CNF :=
  match gen with
  | none => MG.throw errNilGen
  | some gen => do
    let d ← dim I
    let sc ← scopeConst I i1
    let sv1 ← scopeVar I i2
    let sv2 ← scopeVar I i3
    let v1chd := gen sv1 sc.asString
    let v2chd := gen sv2 sc.asString
    validateM I [sc]
    if !sc.isFull then retFalse
    else do
      let hd1 ← MG.lift (hammingDistVC d sv1 sc v1chd)
      let hd2 ← MG.lift (hammingDistVC d sv2 sc v2chd)
      emit I [.sem (varFullClauses d sv1), .sem (varFullClauses d sv2), .con hd1, .con hd2,
        .sem (hdLeSem d v1chd v2chd)]

/-- query/extensions/leh/var_const_const.go:23-76 `VarConstConst.Encoding`. -/
def lehVarConstConst (I : QContext σ) (i1 : QVar) (i2 i3 : QConst) (gen : Option (QVar → QVar → QVar)) : MG σ CNF :=
  match gen with
  | none => MG.throw errNilGen
  | some gen => do
    let d ← dim I
    let sc1 ← scopeConst I i2
    let sc2 ← scopeConst I i3
    let sv ← scopeVar I i1
    let vc1hd := gen sv sc1.asString
    let vc2hd := gen sv sc2.asString
    validateM I [sc1, sc2]
    if !sc1.isFull || !sc2.isFull then retFalse
    else do
      let hd1 ← MG.lift (hammingDistVC d sv sc1 vc1hd)
      let hd2 ← MG.lift (hammingDistVC d sv sc2 vc2hd)
      emitF I (varFullClauses d sv) [.con hd1, .con hd2, .sem (hdLeSem d vc1hd vc2hd)]

/-- query/extensions/leh/var_const_var.go:27-81 `VarConstVar.Encoding`. -/
def lehVarConstVar (I : QContext σ) (i1 : QVar) (i2 : QConst) (i3 : QVar) (gen eqGen : Option (QVar → QVar → QVar)) :
    MG σ CNF :=
  match gen, eqGen with
  | some gen, some eqGen => do
    let d ← dim I
    let sc ← scopeConst I i2
    let sv1 ← scopeVar I i1
    let sv2 ← scopeVar I i3
    let v1chd := gen sv1 sc.asString
    let vvhd := gen sv1 sv2
    let vvef := eqGen sv1 sv2
    validateM I [sc]
    if !sc.isFull then retFalse
    else do
      let hd ← MG.lift (hammingDistVC d sv1 sc v1chd)
      emit I [.sem (varFullClauses d sv1), .sem (varFullClauses d sv2), .touch hd,
        .con (fullVarEqualClauses d sv1 sv2 vvef), .con (hammingDistVV d vvhd vvef), .con hd,
        .sem (hdLeSem d v1chd vvhd)]
  | _, _ => MG.throw errNilGen

/-- query/extensions/leh/var_var_const.go:27-77 `VarVarConst.Encoding`. -/
def lehVarVarConst (I : QContext σ) (i1 i2 : QVar) (i3 : QConst) (gen eqGen : Option (QVar → QVar → QVar)) :
    MG σ CNF :=
  match gen, eqGen with
  | some gen, some eqGen => do
    let d ← dim I
    let sv1 ← scopeVar I i1
    let sv2 ← scopeVar I i2
    let sc ← scopeConst I i3
    let v1chd := gen sv1 sc.asString
    let vvhd := gen sv1 sv2
    let vvef := eqGen sv1 sv2
    validateM I [sc]
    if !sc.isFull then retFalse
    else do
      let hd ← MG.lift (hammingDistVC d sv1 sc v1chd)
      emit I [.sem (varFullClauses d sv1), .sem (varFullClauses d sv2), .touch hd,
        .con (fullVarEqualClauses d sv1 sv2 vvef), .con (hammingDistVV d vvhd vvef), .con hd,
        .sem (hdLeSem d vvhd v1chd)]
  | _, _ => MG.throw errNilGen

/-- query/extensions/leh/var_var_var.go:27-71 `VarVarVar.Encoding`. -/
def lehVarVarVar (I : QContext σ) (i1 i2 i3 : QVar) (gen eqGen : Option (QVar → QVar → QVar)) : MG σ CNF :=
  match gen, eqGen with
  | some gen, some eqGen => do
    let d ← dim I
    let sv1 ← scopeVar I i1
    let sv2 ← scopeVar I i2
    let sv3 ← scopeVar I i3
    let v1v2dh := gen sv1 sv2
    let v1v3dh := gen sv1 sv3
    let v1v2ef := eqGen sv1 sv2
    let v1v3ef := eqGen sv1 sv3
    emit I [.sem (varFullClauses d sv1), .sem (varFullClauses d sv2), .sem (varFullClauses d sv3),
      .con (fullVarEqualClauses d sv1 sv2 v1v2ef), .con (fullVarEqualClauses d sv1 sv3 v1v3ef),
      .con (hammingDistVV d v1v2dh v1v2ef), .con (hammingDistVV d v1v3dh v1v3ef),
      .sem (hdLeSem d v1v2dh v1v3dh)]
  | _, _ => MG.throw errNilGen

/-! ### Queries -/

/-- The method `Encoding` of a predicate, as `Atom.encode`. -/
def atom (I : QContext σ) : Atom → MG σ CNF
  | .subs (.const c1) (.const c2) => subsConstConst I c1 c2
  | .subs (.const c) (.var x) => subsConstVar I c x
  | .subs (.var x) (.const c) => subsVarConst I x c
  | .subs (.var x) (.var y) => subsVarVar I x y
  | .lel (.const c1) (.const c2) _ => lelConstConst I c1 c2
  | .lel (.const c) (.var x) g => lelConstVar I c x g
  | .lel (.var x) (.const c) g => lelVarConst I x c g
  | .lel (.var x) (.var y) g => lelVarVar I x y g
  | .isnode (.const c) _ => isnodeConst I c
  | .isnode (.var x) g => isnodeVar I x g
  | .full (.const c) => fullConst I c
  | .full (.var x) => fullVar I x
  | .cons (.const c1) (.const c2) => consConstConst I c1 c2
  | .cons (.const c) (.var x) => consConstVar I c x
  | .cons (.var x) (.const c) => consVarConst I x c
  | .cons (.var x) (.var y) => consVarVar I x y
  | .allcomp (.const c) b _ => allcompConst I c b
  | .allcomp (.var x) b g => allcompVar I x b g
  | .dfs (.const c) => dfsConst I c
  | .dfs (.var x) => dfsVar I x
  | .hepr (.const c1) (.const c2) p _ => heprConstConst I c1 c2 p
  | .hepr (.const c) (.var x) p g => heprConstVar I c x p g
  | .hepr (.var x) (.const c) p g => heprVarConst I x c p g
  | .hepr (.var x) (.var y) p g => heprVarVar I x y p g
  | .leh (.const c1) (.const c2) (.const c3) _ _ => lehConstConstConst I c1 c2 c3
  | .leh (.const c1) (.const c2) (.var x) g _ => lehConstConstVar I c1 c2 x g
  | .leh (.const c1) (.var x) (.const c2) g _ => lehConstVarConst I c1 x c2 g
  | .leh (.const c) (.var x) (.var y) g _ => lehConstVarVar I c x y g
  | .leh (.var x) (.const c1) (.const c2) g _ => lehVarConstConst I x c1 c2 g
  | .leh (.var x) (.const c) (.var y) g e => lehVarConstVar I x c y g e
  | .leh (.var x) (.var y) (.const c) g e => lehVarVarConst I x y c g e
  | .leh (.var x) (.var y) (.var z) g e => lehVarVarVar I x y z g e

/-- A query as a value of the interface type `LogOpQ`, as `Query.comp`. -/
def comp (I : QContext σ) : Query → CompG σ
  | .nil => none
  | .atom a => some (atom I a)
  | .and q1 q2 => some (encAnd (comp I q1) (comp I q2))
  | .or q1 q2 => some (encOr I (comp I q1) (comp I q2))
  | .not q => some (encNot I (comp I q))
  | .withVar x q => some (encWithVar I x (comp I q))
  | .forallG c q => some (encForall I c (comp I q))

/-- The call `q.Encoding(ctx)`, as `Query.encode`. -/
def encode (I : QContext σ) (q : Query) : MG σ CNF :=
  match comp I q with
  | none => MG.throw (.panic "nil pointer dereference")
  | some act => act

end Over

end Goexpdt

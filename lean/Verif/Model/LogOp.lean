import Verif.Model.Walk
/-
Model of /repo/query/logop: And, Or, Not, WithVar, ForAllGuarded.

A component is `M CNF`, its method `Encoding` for a non-nil context; `Option (M CNF)` is a value of
the interface type `LogOpQ` (`none` is nil). The error of a nil context is modelled in `nilCtx…`.
-/
namespace Goexpdt

/-- A value of the interface type `LogOpQ` (query/logop/logop.go:13-18). -/
abbrev Comp := Option (M CNF)

/-- query/logop/and.go:45-57 `And.buildEncoding`. -/
def andBuild (q1 q2 : M CNF) : M CNF := do
  let cnf1 ← M.wrapErr "Q1" q1
  let cnf2 ← M.wrapErr "Q2" q2
  pure (cnf1.conjunction cnf2)

/-- query/logop/and.go:21-43 `And.Encoding` with a non-nil context. -/
def encAnd (q1 q2 : Comp) : M CNF := M.wrapErr "And" <|
  match q1, q2 with
  | none, _ => M.throw (.msg "Invalid encoding of nil child (1)")
  | some _, none => M.throw (.msg "Invalid encoding of nil child (2)")
  | some q1, some q2 => andBuild q1 q2

/-- query/logop/or.go:45-71 `Or.buildEncoding`. -/
def orBuild (q1 q2 : M CNF) : M CNF := do
  let cnf1 ← M.wrapErr "Q1" q1
  let cnf2 ← M.wrapErr "Q2" q2
  let top ← M.topV
  let cnf1 := cnf1.negate (some top)
  M.updateTopV cnf1.topV
  let top ← M.topV
  let cnf2 := cnf2.negate (some top)
  M.updateTopV cnf2.topV
  let top ← M.topV
  let ncnf := (cnf1.conjunction cnf2).negate (some top)
  M.updateTopV ncnf.topV
  pure ncnf

/-- query/logop/or.go:21-43 `Or.Encoding` with a non-nil context. -/
def encOr (q1 q2 : Comp) : M CNF := M.wrapErr "Or" <|
  match q1, q2 with
  | none, _ => M.throw (.msg "Invalid encoding of nil child (1)")
  | some _, none => M.throw (.msg "Invalid encoding of nil child (2)")
  | some q1, some q2 => orBuild q1 q2

/-- query/logop/not.go:39-49 `Not.buildEncoding`. -/
def notBuild (q : M CNF) : M CNF := do
  let ncnf ← q
  let top ← M.topV
  let ncnf := ncnf.negate (some top)
  M.updateTopV ncnf.topV
  pure ncnf

/-- query/logop/not.go:18-37 `Not.Encoding` with a non-nil context. -/
def encNot (q : Comp) : M CNF := M.wrapErr "Not" <|
  match q with
  | none => M.throw (.msg "Invalid encoding of nil child")
  | some q => notBuild q

/-- query/logop/with_var.go:70-81, the loop building `reqAllFeats`, from feature `i` on with `n`
features left. -/
def reqAllFeats (v : QVar) : Nat → Nat → M (List Clause)
  | _, 0 => pure []
  | i, n + 1 => do
    let z ← M.cnfVar ⟨v, i, ZERO⟩
    let o ← M.cnfVar ⟨v, i, ONE⟩
    let b ← M.cnfVar ⟨v, i, BOT⟩
    let rest ← reqAllFeats v (i + 1) n
    pure ([z, o, b] :: rest)

/-- query/logop/with_var.go:85-101, the loop appending `reqOnePerFeat`. -/
def reqOnePerFeat (v : QVar) : Nat → Nat → CNF → M CNF
  | _, 0, ncnf => pure ncnf
  | i, n + 1, ncnf => do
    let z1 ← M.cnfVar ⟨v, i, ZERO⟩
    let o1 ← M.cnfVar ⟨v, i, ONE⟩
    let z2 ← M.cnfVar ⟨v, i, ZERO⟩
    let b2 ← M.cnfVar ⟨v, i, BOT⟩
    let o3 ← M.cnfVar ⟨v, i, ONE⟩
    let b3 ← M.cnfVar ⟨v, i, BOT⟩
    reqOnePerFeat v (i + 1) n (ncnf.appendConsistency [[-z1, -o1], [-z2, -b2], [-o3, -b3]])

/-- query/logop/with_var.go:58-104 `WithVar.encodeI`. -/
def encodeI (x : QVar) : M CNF := do
  let v ← M.scopeVar x
  let ex ← M.cnfVarExists ⟨v, 0, BOT⟩
  if ex then pure {}
  else do
    let d ← M.dim
    let cls ← reqAllFeats v 0 d
    reqOnePerFeat v 0 d (({} : CNF).appendConsistency cls)

/-- query/logop/with_var.go:45-56 `WithVar.buildEncoding`. -/
def withVarBuild (x : QVar) (q : M CNF) : M CNF := do
  let icnf ← encodeI x
  let ccnf ← q
  pure (icnf.conjunction ccnf)

/-- query/logop/with_var.go:20-43 `WithVar.Encoding` with a non-nil context. -/
def encWithVar (x : QVar) (q : Comp) : M CNF := M.wrapErr "WithVar" <|
  match q with
  | none => M.throw (.msg "Invalid encoding of nil child")
  | some q => do
    M.addVar x
    withVarBuild x q

/-- query/logop/forallguarded.go:184-197, the loop of `buildEncoding`; `fuel` bounds the number of
visited nodes (see `C17_terminates`). -/
def forallLoop (q : M CNF) (nodes : List Node) : Nat → WalkSt → Int → CNF → M CNF
  | 0, _, _, _ => M.throw .diverge
  | fuel + 1, w, i, ncnf =>
    match walkNext nodes (nextFuel nodes) w with
    | .error e => M.throw e
    | .ok none => pure ncnf
    | .ok (some w') => do
      M.setScope i w'.t
      let icnf ← q
      forallLoop q nodes fuel w' (i + 1) (ncnf.conjunction icnf)

/-- query/logop/forallguarded.go:178-199, the body of `buildEncoding` between the deferred
`PopScope` and the end. -/
def forallBody (q : M CNF) : M CNF := do
  let d ← M.dim
  let nodes ← M.nodes
  let iter ← M.lift (newNodeAsValuesIter d nodes)
  forallLoop q nodes (nodes.length + 1) iter 0 {}

/-- query/logop/forallguarded.go:173-175, `errors.Join(err, perr)` in the deferred function; a panic
stays a panic. -/
def joinErr {α : Type} (r : Except Err α) (perr : Err) : Except Err α :=
  match r, perr with
  | .ok _, e => .error e
  | .error (.msg a), .msg b => .error (.msg (a ++ "\n" ++ b))
  | .error e, _ => .error e

/-- query/logop/forallguarded.go:164-200 `ForAllGuarded.buildEncoding`: the scope is pushed, the
body runs, and the deferred function pops the scope whatever the outcome is. -/
def forallBuild (c : QConst) (q : M CNF) : M CNF := fun s =>
  let r := forallBody q (s.addScope c.id)
  match r.2.popScope with
  | (.ok (), s') => (r.1, s')
  | (.error perr, s') => (joinErr r.1 perr, s')

/-- query/logop/forallguarded.go:142-162 `ForAllGuarded.Encoding` with a non-nil context. -/
def encForall (c : QConst) (q : Comp) : M CNF := M.wrapErr "ForAllGuarded" <|
  match q with
  | none => M.throw (.msg "Invalid encoding of nil child")
  | some q => forallBuild c q

/-- The check `ctx == nil` common to all components (for instance query/logop/and.go:36-38). -/
def errNilCtx : Err := .msg "Invalid encoding with nil ctx"

/-- query/logop/and.go:24-38 and query/logop/or.go:24-38 called with a nil context. -/
def nilCtxBinary (name : String) (q1 q2 : Comp) : Except Err CNF :=
  .error (Err.wrap name (match q1, q2 with
    | none, _ => .msg "Invalid encoding of nil child (1)"
    | some _, none => .msg "Invalid encoding of nil child (2)"
    | some _, some _ => errNilCtx))

/-- query/logop/not.go:21-32, query/logop/with_var.go:23-34 and query/logop/forallguarded.go:146-157
called with a nil context. -/
def nilCtxUnary (name : String) (q : Comp) : Except Err CNF :=
  .error (Err.wrap name (match q with
    | none => .msg "Invalid encoding of nil child"
    | some _ => errNilCtx))

end Goexpdt

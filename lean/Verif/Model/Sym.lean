import Verif.Model.LogOp
/-
Symbolic clauses: the predicates of /repo/query/predicates and /repo/query/extensions build their
clauses from calls `ctx.CNFVar(v, idx, val)`, which Go evaluates from left to right. In the model a
predicate first builds the clauses over triples (`VarRep`) and `emit` then calls `CNFVar` for every
literal from left to right. A list of `Step`s is the sequence of `AppendSemantics` and
`AppendConsistency` calls of the predicate.

Simplification: if the code panics while it is building clauses (only possible for an invalid model
or dimension 0) the model reports the panic without the numbers allocated before it.
-/
namespace Goexpdt

/-- A literal `±ctx.CNFVar(v, idx, val)`. -/
structure SLit where
  pos : Bool
  vr : VarRep
  deriving DecidableEq, Repr, Inhabited

/-- A clause of such literals. -/
abbrev SClause := List SLit

/-- `ctx.CNFVar(v, i, val)` as a literal. -/
def P (v : QVar) (i val : Int) : SLit := ⟨true, ⟨v, i, val⟩⟩
/-- `-ctx.CNFVar(v, i, val)` as a literal. -/
def N (v : QVar) (i val : Int) : SLit := ⟨false, ⟨v, i, val⟩⟩

/-- `for i := a; i < b; i++` -/
def rng (a b : Nat) : List Nat := (List.range (b - a)).map (· + a)

/-- Evaluate a literal. -/
def allocLit (l : SLit) : M Int := do
  let n ← M.cnfVar l.vr
  pure (if l.pos then n else -n)

/-- Evaluate the literals of a clause from left to right. -/
def allocClause : SClause → M Clause
  | [] => pure []
  | l :: ls => do
    let n ← allocLit l
    let ns ← allocClause ls
    pure (n :: ns)

/-- Evaluate clauses from left to right. -/
def allocClauses : List SClause → M (List Clause)
  | [] => pure []
  | c :: cs => do
    let k ← allocClause c
    let ks ← allocClauses cs
    pure (k :: ks)

/-- `touch`: clauses that are built (their variables are numbered) but appended later;
`sem`: `ncnf = ncnf.AppendSemantics(cls...)`; `con`: `ncnf = ncnf.AppendConsistency(cls...)`. -/
inductive Step where
  | touch (cls : List SClause)
  | sem (cls : List SClause)
  | con (cls : List SClause)
  deriving DecidableEq, Repr

/-- Run the steps on `ncnf`. -/
def emitFrom (ncnf : CNF) : List Step → M CNF
  | [] => pure ncnf
  | .touch cls :: st => do
    let _ ← allocClauses cls
    emitFrom ncnf st
  | .sem cls :: st => do
    let ks ← allocClauses cls
    emitFrom (ncnf.appendSemantics ks) st
  | .con cls :: st => do
    let ks ← allocClauses cls
    emitFrom (ncnf.appendConsistency ks) st

/-- Run the steps on the empty CNF. -/
def emit (st : List Step) : M CNF := emitFrom {} st

/-- `ncnf := cnf.FromClauses(cls)` followed by the steps. -/
def emitF (cls : List SClause) (st : List Step) : M CNF := do
  let ks ← allocClauses cls
  emitFrom (FromClauses ks) st

/-- `return cnf.FalseCNF, nil` (cnf/cnf.go: `FalseCNF` has the one empty semantic clause). -/
def retFalse : M CNF := pure FalseCNF
/-- `return cnf.TrueCNF, nil` -/
def retTrue : M CNF := pure TrueCNF

/-- `errors.New("Invalid nil var generation function")` -/
def errNilGen : Err := .msg "Invalid nil var generation function"

/-- `errors.New("Invalid encoding on empty model")` -/
def errEmptyModel : Err := .msg "Invalid encoding on empty model"

/-- `ctx.ScopeConst(c)` for each of the constants, then `query.ValidateConstsDim(ctx.Dim(), …)`. -/
def validateM (cs : List QConst) : M Unit := do
  let d ← M.dim
  M.lift (ValidateConstsDim d cs)

/-- `c.Val[i]` where `i` is in range; where it may not be, `indexed` or a case distinction comes first. -/
def QConst.at (c : QConst) (i : Nat) : FeatV := c.val.getD i 0

/-- What a loop with `c.Val[i]` does before anything else: panic, unless all the `is` are in range for all constants
`cs`. (The code panics at the first index out of range that it comes to, which can be later or never.) -/
def indexed (is : List Int) (cs : List QConst) : Except Err Unit :=
  if cs.all fun c => is.all fun i => decide (0 ≤ i ∧ i < c.val.length) then .ok ()
  else .error (.panic "index out of range")

/-- The indices of a loop `for i := 0; i < n; i++`. -/
def upto (n : Nat) : List Int := (List.range n).map Int.ofNat

end Goexpdt

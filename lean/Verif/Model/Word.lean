import Verif.Model.IfaceCompute
/-
The program with the integers of Go. The rest of the model takes `int` to be `Int`; on the platforms in use it has 64 bits, additions wrap around
and `strconv.Atoi` rejects numerals that do not fit. Here the functions that count variables are repeated with such integers: the
variable manager, `Negate`, and the reading of the output of a solver. The predicates, the other operators, the Boolean combinations and
`ComputeOptim` are those of `Model/Iface.lean` and `Model/IfaceCompute.lean`, with this context.

Simplifications: `-v` is exact (it is not for the smallest integer, which appears only after an addition has wrapped around or if a caller
passes it), and so are lengths, loop indexes and the counters of calls and steps (which count things that exist in memory or have been done).
-/
namespace Goexpdt

/-- Go's `int` with 64 bits: the value that an exact result is stored as. -/
def wrap (v : Int) : Int := (v + 2 ^ 63) % 2 ^ 64 - 2 ^ 63

namespace Word

/-! ### cnf -/

/-- cnf/cnf.go:109-133, the loop of `tseytinNegation`, see `CNF.tseytinLoop`. -/
def tseytinLoop (tv : Int) (clauses : List Clause) (enclits : Clause) :
    List Clause → Except Int (Int × List Clause × Clause)
  | [] => .ok (tv, clauses, enclits)
  | [] :: _ => .error tv
  | [l] :: rest => tseytinLoop tv clauses (enclits ++ [-l]) rest
  | (l :: l' :: ls) :: rest =>
    let tv := wrap (tv + 1)
    let auxv := tv
    let clause := l :: l' :: ls
    let clauses := clauses ++ clause.map (fun lit => [-lit, -auxv])
    let clauses := clauses ++ [clause ++ [auxv]]
    tseytinLoop tv clauses (enclits ++ [auxv]) rest

/-- cnf/cnf.go:148-160 `CNF.addNegationIFFClauses`. -/
def addNegationIFFClauses (c : CNF) (enclits : Clause) : CNF :=
  let tv := wrap (c.tv + 1)
  let auxv := tv
  { tv := tv
    cClauses := c.cClauses ++ enclits.map (fun lit => [-lit, auxv]) ++ [enclits ++ [-auxv]]
    sClauses := [[auxv]] }

/-- cnf/cnf.go:103-146 `CNF.tseytinNegation`. -/
def tseytinNegation (c : CNF) (tv : Int) : CNF :=
  match tseytinLoop tv [] [] c.sClauses with
  | .error tv => { c with sClauses := [], tv := tv }
  | .ok (tv, clauses, enclits) =>
    let c := { c with cClauses := c.cClauses ++ clauses, tv := tv }
    if enclits.length = 1 then { c with sClauses := [enclits] }
    else addNegationIFFClauses c enclits

/-- cnf/cnf.go:62-101 `CNF.Negate`. -/
def negate (c : CNF) (optTopv : Option Int := none) : CNF :=
  let topv := match optTopv with
    | some t => maxInt c.tv t
    | none => c.tv
  if c.sClauses.length = 0 then
    { c.appendSemantics [[]] with tv := topv }
  else if c.hasEmptySemanticClause then
    { cClauses := c.cClauses, tv := topv }
  else
    tseytinNegation { tv := topv, sClauses := c.sClauses, cClauses := c.cClauses } topv

/-! ### query -/

/-- query/varmanager.go:48-56 `baseVarManager.CNFVar`. -/
def cnfVar (s : Ctx) (vr : VarRep) : Int × Ctx :=
  match mapGet s.vmap vr with
  | some val => (val, s)
  | none =>
    let topv := wrap (s.topv + 1)
    (topv, { s with topv := topv, vmap := (vr, topv) :: s.vmap })

/-- query/context.go:13-17 `baseQContext`. -/
def wordI : QContext Ctx := { basicI with cnfVar := fun vr s => (.ok (cnfVar s vr).1, (cnfVar s vr).2) }

open Over (CompG)

/-- query/logop/or.go:45-71 `Or.buildEncoding`. -/
def orBuild (q1 q2 : MG Ctx CNF) : MG Ctx CNF := do
  let cnf1 ← MG.wrapErr "Q1" q1
  let cnf2 ← MG.wrapErr "Q2" q2
  let top ← Over.topV wordI
  let cnf1 := negate cnf1 (some top)
  Over.updateTopV wordI cnf1.topV
  let top ← Over.topV wordI
  let cnf2 := negate cnf2 (some top)
  Over.updateTopV wordI cnf2.topV
  let top ← Over.topV wordI
  let ncnf := negate (cnf1.conjunction cnf2) (some top)
  Over.updateTopV wordI ncnf.topV
  pure ncnf

/-- query/logop/or.go:21-43 `Or.Encoding` with a non-nil context. -/
def encOr (q1 q2 : CompG Ctx) : MG Ctx CNF := MG.wrapErr "Or" <|
  match q1, q2 with
  | none, _ => MG.throw (.msg "Invalid encoding of nil child (1)")
  | some _, none => MG.throw (.msg "Invalid encoding of nil child (2)")
  | some q1, some q2 => orBuild q1 q2

/-- query/logop/not.go:39-49 `Not.buildEncoding`. -/
def notBuild (q : MG Ctx CNF) : MG Ctx CNF := do
  let ncnf ← q
  let top ← Over.topV wordI
  let ncnf := negate ncnf (some top)
  Over.updateTopV wordI ncnf.topV
  pure ncnf

/-- query/logop/not.go:18-37 `Not.Encoding` with a non-nil context. -/
def encNot (q : CompG Ctx) : MG Ctx CNF := MG.wrapErr "Not" <|
  match q with
  | none => MG.throw (.msg "Invalid encoding of nil child")
  | some q => notBuild q

/-- A query as a value of the interface type `LogOpQ`, as `Query.comp`. -/
def comp : Query → CompG Ctx
  | .nil => none
  | .atom a => some (Over.atom wordI a)
  | .and q1 q2 => some (Over.encAnd (comp q1) (comp q2))
  | .or q1 q2 => some (encOr (comp q1) (comp q2))
  | .not q => some (encNot (comp q))
  | .withVar x q => some (Over.encWithVar wordI x (comp q))
  | .forallG c q => some (Over.encForall wordI c (comp q))

/-- The call `q.Encoding(ctx)`, as `Query.encode`. -/
def encode (q : Query) : MG Ctx CNF :=
  match comp q with
  | none => MG.throw (.panic "nil pointer dereference")
  | some act => act

/-! ### compute -/

/-- `strconv.Atoi` (standard library): a numeral that does not fit is an error. -/
def atoi (w : List Char) : Except Err Int :=
  match Goexpdt.atoi w with
  | .error e => .error e
  | .ok n => if -2 ^ 63 ≤ n ∧ n < 2 ^ 63 then .ok n else .error (.msg "strconv.Atoi: value out of range")

/-- compute/solver.go:195-201 `iAbs`. -/
def iAbs (v : Int) : Int := if v > 0 then v else wrap (-v)

/-- compute/solver.go:152-161, see `Goexpdt.scanLits`. -/
def scanLits (vfilter : List Int) (vval : List (Int × Bool)) : List (List Char) → Except Err (List (Int × Bool))
  | [] => .ok vval
  | vb :: vbs =>
    match atoi vb with
    | .error e => .error e
    | .ok val =>
      let absVal := iAbs val
      if absVal ∈ vfilter then scanLits vfilter ((absVal, decide (val > 0)) :: vval) vbs
      else scanLits vfilter vval vbs

/-- compute/solver.go:148-162, see `Goexpdt.scanLines`. -/
def scanLines (vfilter : List Int) (vval : List (Int × Bool)) : List (List Char) → Except Err (List (Int × Bool))
  | [] => .ok vval
  | [] :: lines => scanLines vfilter vval lines
  | (c :: cs) :: lines =>
    if c ≠ 'v' then scanLines vfilter vval lines
    else
      match cs with
      | [] => .error (.panic "slice bounds out of range")
      | _ :: rest =>
        match scanLits vfilter vval (splitOn ' ' rest) with
        | .error e => .error e
        | .ok vval => scanLines vfilter vval lines

/-- compute/solver.go:137-180 `varValueFromBytes`. -/
def varValueFromBytes (out : List Char) (v : QVar) : MG Ctx QConst := do
  let d ← Over.dim wordI
  let vfilter ← Over.variableFilter wordI v (List.range d)
  let vval ← MG.lift (scanLines vfilter [] (splitOn '\n' out))
  let feats ← Over.readFeats wordI v vval (List.range d)
  pure { val := feats }

/-- compute/solver.go:120-135 `binSolver.Values`: the loop. -/
def binValuesLoop (out : List Char) : List QVar → MG Ctx (List QConst)
  | [] => pure []
  | v :: vs => do
    let c ← varValueFromBytes out v
    let rest ← binValuesLoop out vs
    pure (c :: rest)

/-- compute/solver.go:120-135 `binSolver.Values`. -/
def binValues (vs : List QVar) (st : BinSt) (s : Ctx) : Except Err (List QConst) × BinSt × Ctx :=
  match binValuesLoop st.output vs s with
  | (r, s) => (r, st, s)

/-- compute/solver.go:56-135, the methods of `*binSolver`. -/
def binSolver (env : Nat → Env) : Over.SolverG BinSt Ctx where
  values := binValues
  step q st s := Over.binStep (env st.calls) q st s

/-- compute/optimum.go:36-96 `ComputeOptim`, for queries of the library and the solver of `BinSolver`. -/
def computeOptim (env : Nat → Env) (f : Query) (o : QConst → Query) (v : QVar) (tmp : Bool) (fuel : Nat) (st : BinSt) (s : Ctx) :
    Except Err OptOutput × BinSt × Ctx :=
  Over.computeOptim wordI (binSolver env) (fun _ => comp f) (fun _ k => comp (o k)) v tmp fuel st s

/-- compute/boolcomb.go:53-79 `QDTFAtom.Sat`, for a query of the library and the solver of `BinSolver`. -/
def atomSat (env : Nat → Env) (q : Query) (negated : Bool) : Over.SatG BinSt Ctx :=
  Over.atomSat (binSolver env) (comp q) negated

end Word
end Goexpdt

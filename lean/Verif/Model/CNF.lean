/-
Model of /repo/cnf/cnf.go (package cnf).

Simplifications, for the whole file: Go `int` is modelled by the unbounded `Int`; slices are
modelled by immutable lists (the effects of slice aliasing are modelled separately, in
`Verif.Model.Alias`); strings are lists of characters.
-/
namespace Goexpdt

/-- cnf/cnf.go:27 `type Clause []int`. -/
abbrev Clause := List Int

/-- cnf/cnf.go:29-37 `type CNF struct`; the zero value `CNF{}` is `{}`. -/
structure CNF where
  /-- top variable value used (field `tv`) -/
  tv : Int := 0
  /-- semantic clauses (field `sClauses`) -/
  sClauses : List Clause := []
  /-- consistency clauses (field `cClauses`) -/
  cClauses : List Clause := []
  deriving DecidableEq, Repr, Inhabited

/-- cnf/cnf.go:308-314 `absInt`. -/
def absInt (v : Int) : Int := if v > 0 then v else -v

/-- cnf/cnf.go:316-322 `maxInt`. -/
def maxInt (v1 v2 : Int) : Int := if v1 > v2 then v1 else v2

/-- cnf/cnf.go:298-303, the inner loop of `maxVar` over one clause. -/
def maxVarClause (topv : Int) : Clause → Int
  | [] => topv
  | v :: cl => maxVarClause (if absInt v > topv then absInt v else topv) cl

/-- cnf/cnf.go:293-306, the outer loop of `maxVar`. -/
def maxVarLoop (topv : Int) : List Clause → Int
  | [] => topv
  | cl :: cls => maxVarLoop (maxVarClause topv cl) cls

/-- cnf/cnf.go:293-306 `maxVar`. -/
def maxVar (clauses : List Clause) : Int := maxVarLoop 0 clauses

/-- cnf/cnf.go:42 `NegClauses`. -/
def NegClauses : List Clause := [[]]

/-- cnf/cnf.go:44 `TrueCNF`. -/
def TrueCNF : CNF := {}

/-- cnf/cnf.go:46 `FalseCNF`. -/
def FalseCNF : CNF := { sClauses := NegClauses }

/-- cnf/cnf.go:49-54 `FromClauses`. -/
def FromClauses (clauses : List Clause) : CNF :=
  { sClauses := clauses, tv := maxVar clauses }

namespace CNF

/-- cnf/cnf.go:56-60 `CNF.TopV`. -/
def topV (c : CNF) : Int := c.tv

/-- cnf/cnf.go:171-179 `CNF.AppendSemantics`. -/
def appendSemantics (c : CNF) (clauses : List Clause) : CNF :=
  { tv := maxInt c.tv (maxVar clauses)
    sClauses := c.sClauses ++ clauses
    cClauses := c.cClauses }

/-- cnf/cnf.go:181-189 `CNF.AppendConsistency`. -/
def appendConsistency (c : CNF) (clauses : List Clause) : CNF :=
  { tv := maxInt c.tv (maxVar clauses)
    sClauses := c.sClauses
    cClauses := c.cClauses ++ clauses }

/-- cnf/cnf.go:162-169 `CNF.Conjunction`. -/
def conjunction (c oc : CNF) : CNF :=
  let rcnf := c.appendSemantics oc.sClauses
  let rcnf := { rcnf with cClauses := c.cClauses }
  rcnf.appendConsistency oc.cClauses

/-- cnf/cnf.go:272-279 `CNF.hasEmptySemanticClause`. -/
def hasEmptySemanticClause (c : CNF) : Bool :=
  c.sClauses.any (fun cl => cl.length == 0)

/-- cnf/cnf.go:109-133, the loop of `tseytinNegation` over the semantic clauses, with loop
variables `tv`, `clauses`, `enclits`. `.error tv` is the early return for an empty clause
(lines 113-117). -/
def tseytinLoop (tv : Int) (clauses : List Clause) (enclits : Clause) :
    List Clause → Except Int (Int × List Clause × Clause)
  | [] => .ok (tv, clauses, enclits)
  | [] :: _ => .error tv
  | [l] :: rest => tseytinLoop tv clauses (enclits ++ [-l]) rest
  | (l :: l' :: ls) :: rest =>
    let tv := tv + 1
    let auxv := tv
    let clause := l :: l' :: ls
    let clauses := clauses ++ clause.map (fun lit => [-lit, -auxv])
    let clauses := clauses ++ [clause ++ [auxv]]
    tseytinLoop tv clauses (enclits ++ [auxv]) rest

/-- cnf/cnf.go:148-160 `CNF.addNegationIFFClauses`. -/
def addNegationIFFClauses (c : CNF) (enclits : Clause) : CNF :=
  let tv := c.tv + 1
  let auxv := tv
  { tv := tv
    cClauses := c.cClauses ++ enclits.map (fun lit => [-lit, auxv]) ++ [enclits ++ [-auxv]]
    sClauses := [[auxv]] }

/-- cnf/cnf.go:103-146 `CNF.tseytinNegation`. -/
def tseytinNegation (c : CNF) (tv : Int) : CNF :=
  match tseytinLoop tv [] [] c.sClauses with
  | .error tv => { c with sClauses := [], tv := tv }
  | .ok (tv, clauses, enclits) =>
    let c := { c with cClauses := c.cClauses ++ clauses, tv := tv }
    if enclits.length = 1 then { c with sClauses := [enclits] }
    else c.addNegationIFFClauses enclits

/-- cnf/cnf.go:62-101 `CNF.Negate`. The variadic argument `opt_topv` is an `Option` (only its
first element is read). -/
def negate (c : CNF) (optTopv : Option Int := none) : CNF :=
  let topv := match optTopv with
    | some t => maxInt c.tv t
    | none => c.tv
  if c.sClauses.length = 0 then
    { c.appendSemantics [[]] with tv := topv }
  else if c.hasEmptySemanticClause then
    { cClauses := c.cClauses, tv := topv }
  else
    ({ tv := topv, sClauses := c.sClauses, cClauses := c.cClauses } : CNF).tseytinNegation topv

/-- cnf/cnf.go:250-254 `CNF.TriviallyTrue`. -/
def triviallyTrue (c : CNF) : Bool :=
  c.sClauses.length == 0 && c.cClauses.length == 0

/-- cnf/cnf.go:256-270 `CNF.TriviallyFalse`. -/
def triviallyFalse (c : CNF) : Bool :=
  c.sClauses.any (fun cl => cl.length == 0) || c.cClauses.any (fun cl => cl.length == 0)

end CNF

/-- Decimal digit as a character; part of `strconv.Itoa`. -/
def digitChar (n : Nat) : Char := Char.ofNat (48 + n)

/-- Decimal numeral of a natural number, by repeated division; `fuel` bounds the number of digits. -/
def itoaAux : Nat → Nat → List Char
  | 0, _ => []
  | fuel + 1, n => if n < 10 then [digitChar n] else itoaAux fuel (n / 10) ++ [digitChar (n % 10)]

/-- Decimal numeral of a natural number (`strconv.Itoa` / `%d` of a non-negative int). -/
def itoaNat (n : Nat) : List Char := itoaAux (n + 1) n

/-- `strconv.Itoa` (standard library), also `fmt`'s `%d`. -/
def itoa (v : Int) : List Char :=
  if v < 0 then '-' :: itoaNat v.natAbs else itoaNat v.natAbs

/-- cnf/cnf.go:281-291 `clauseToDIMACS`. -/
def clauseToDIMACS (clause : Clause) : List Char :=
  clause.flatMap (fun v => itoa v ++ [' ']) ++ ['0']

/-- cnf/cnf.go:193-197 and 221, the DIMACS header line. -/
def dimacsHeader (c : CNF) : List Char :=
  ['p', ' ', 'c', 'n', 'f', ' '] ++ itoa c.tv ++ [' '] ++
    itoa (c.sClauses.length + c.cClauses.length : Nat) ++ ['\n']

/-- cnf/cnf.go:191-208 `CNF.ToBytes`. -/
def CNF.toBytes (c : CNF) : List Char :=
  let bString := dimacsHeader c
  let bString := bString ++ c.sClauses.flatMap (fun cl => clauseToDIMACS cl ++ ['\n'])
  bString ++ c.cClauses.flatMap (fun cl => clauseToDIMACS cl ++ ['\n'])

/-- A file being written: the content so far and when a write call fails (`none`: never; `some (k, p)`: the
next `k` calls succeed, the one after them fails having written `p` characters). Models the part of `os.File`
used by `ToFile`. -/
structure FileSt where
  content : List Char := []
  budget : Option (Nat × Nat) := none
  deriving DecidableEq, Repr

/-- `f.WriteString(s)`: all of `s` is appended, or the write fails and only some of it is (os.File.Write
reports an error whenever it writes less than it was given). -/
def FileSt.write (f : FileSt) (s : List Char) : Bool × FileSt :=
  match f.budget with
  | none => (true, { f with content := f.content ++ s })
  | some (0, p) => (false, { f with content := f.content ++ s.dropLast.take p })
  | some (k + 1, p) => (true, { content := f.content ++ s, budget := some (k, p) })

/-- The two clause loops of `ToFile`, cnf/cnf.go:226-240: write a line per clause, stop at
the first failure. -/
def writeClauses (f : FileSt) : List Clause → Bool × FileSt
  | [] => (true, f)
  | cl :: cls =>
    match f.write (clauseToDIMACS cl ++ ['\n']) with
    | (false, f) => (false, f)
    | (true, f) => writeClauses f cls

/-- cnf/cnf.go:210-243 `CNF.ToFile`. `create` is the result of `os.Create`: `none` if it fails,
otherwise the (truncated, hence empty) file with its failure budget. Returns `true` for a nil error, and the file
if there is one. The error of the deferred `Close` is ignored by the code. -/
def CNF.toFile (c : CNF) (create : Option (Option (Nat × Nat))) : Bool × Option FileSt :=
  match create with
  | none => (false, none)
  | some budget =>
    match ({ content := [], budget := budget } : FileSt).write (dimacsHeader c) with
    | (false, f) => (false, some f)
    | (true, f) =>
      match writeClauses f c.sClauses with
      | (false, f) => (false, some f)
      | (true, f) =>
        match writeClauses f c.cClauses with
        | (false, f) => (false, some f)
        | (true, f) => (true, some f)

end Goexpdt

import Verif.Model.CNF
/-
Model of /repo/query (package query): instances, models, scoper, variable manager, context.

Simplifications, for the whole file: Go maps are association lists whose keys are pairwise different
(an entry is only ever added for a missing key); strings are lists of characters; the dimension of a
model is a natural number (`Model.Dim` is documented to be positive); the slices stored by `SetScope`
are copied (the code stores the iterator's slice, which is only changed between two `SetScope` calls; that this makes no
difference for encodings is `C88`, over the model with shared arrays in `Model/Shared.lean`).
-/
namespace Goexpdt

/-- query/instances.go:8-9 `type QVar string`. -/
abbrev QVar := List Char

/-- query/instances.go:11-12 `type FeatV int`. -/
abbrev FeatV := Int

/-- query/instances.go:24 `BOT`. -/
def BOT : FeatV := 0
/-- query/instances.go:26 `ZERO`. -/
def ZERO : FeatV := 1
/-- query/instances.go:28 `ONE`. -/
def ONE : FeatV := 2

/-- query/instances.go:14-19 `type QConst struct`. -/
structure QConst where
  id : List Char := []
  val : List FeatV := []
  deriving DecidableEq, Repr, Inhabited

/-- query/instances.go:31-40 `AllBotConst`. `make` fills the slice with zero values (= BOT); the loop
writes BOT to position 0 `dim` times, which changes nothing. -/
def AllBotConst (dim : Nat) : QConst :=
  let feats := List.replicate dim (0 : FeatV)
  { val := (List.range dim).foldl (fun fs _ => fs.set 0 BOT) feats }

namespace QConst

/-- query/instances.go:42-50 `QConst.IsFull`. -/
def isFull (c : QConst) : Bool := go c.val
where
  /-- the loop of lines 44-48 -/
  go : List FeatV → Bool
    | [] => true
    | ft :: fs => if ft = BOT then false else go fs

/-- query/instances.go:52-66 `QConst.AsString`. -/
def asString (c : QConst) : List Char :=
  c.val.flatMap fun ft =>
    if ft = BOT then ['_'] else if ft = ZERO then ['0'] else if ft = ONE then ['1'] else []

/-- query/instances.go:68-77 `QConst.BotCount`. -/
def botCount (c : QConst) : Nat :=
  c.val.foldl (fun count ft => if ft = BOT then count + 1 else count) 0

/-- query/instances.go:79-92 `QConst.EqualValue`. -/
def equalValue (c t : QConst) : Bool :=
  if c.val.length ≠ t.val.length then false else go c.val t.val
where
  /-- the loop of lines 85-89, over both slices in parallel (they have the same length) -/
  go : List FeatV → List FeatV → Bool
    | v :: vs, w :: ws => if v ≠ w then false else go vs ws
    | _, _ => true

end QConst

/-- Outcome other than normal return. `msg` is a Go error; `panic` a run-time panic; `diverge` is
used where the code loops forever (and would be used if a fuel bound of the model did not suffice). -/
inductive Err where
  | msg (s : String)
  | panic (s : String)
  | diverge
  deriving DecidableEq, Repr

deriving instance DecidableEq for Except

/-- Prefixing of error messages, `fmt.Errorf("pre: %w", err)`. Panics are not wrapped. -/
def Err.wrap (pre : String) : Err → Err
  | .msg s => .msg (pre ++ ": " ++ s)
  | e => e

/-- query/instances.go:94-111 `ValidateConstsDim`; `i` is the loop index. -/
def validateConstsDimFrom (d : Nat) (i : Nat) : List QConst → Except Err Unit
  | [] => .ok ()
  | c :: cs =>
    if c.val.length ≠ d then
      .error (.msg s!"constant{i + 1}: wrong dim {c.val.length} ({d} feats in context)")
    else validateConstsDimFrom d (i + 1) cs

/-- query/instances.go:94-111 `ValidateConstsDim`. -/
def ValidateConstsDim (d : Nat) (cs : List QConst) : Except Err Unit := validateConstsDimFrom d 0 cs

/-- query/model.go:13-28 `type Node struct`. -/
structure Node where
  value : Bool := false
  feat : Int := 0
  zChild : Int := 0
  oChild : Int := 0
  deriving DecidableEq, Repr, Inhabited

/-- query/model.go:30-32 `NoChild`. -/
def NoChild : Int := -1

/-- query/model.go:34-37 `Node.IsLeaf`. -/
def Node.isLeaf (n : Node) : Bool := decide (n.zChild < 0) || decide (n.oChild < 0)

/-- query/scoper.go:42-46 `type scope struct`. -/
structure Scope where
  target : List Char
  value : List FeatV := []
  vIdx : Int := 0
  deriving DecidableEq, Repr, Inhabited

/-- query/varmanager.go:30-34 `type varRep struct`. -/
structure VarRep where
  v : QVar
  idx : Int
  val : Int
  deriving DecidableEq, Repr, Inhabited

/-- Map lookup. -/
def mapGet {α β : Type} [DecidableEq α] (m : List (α × β)) (k : α) : Option β :=
  match m with
  | [] => none
  | (k', b) :: m => if k' = k then some b else mapGet m k

/-- query/context.go:13-17 `type baseQContext struct`, with the fields of query/scoper.go:36-40
(`scopes`, `vars`; the string builder is only scratch space), query/varmanager.go:25-28 (`topv`,
`vmap`) and the embedded `Model` (`dim`, `nodes`). `scopes` lists the outermost scope first. -/
structure Ctx where
  scopes : List Scope := []
  vars : List (QVar × Nat) := []
  topv : Int := 0
  vmap : List (VarRep × Int) := []
  dim : Nat
  nodes : List Node
  deriving DecidableEq, Repr, Inhabited

/-- query/context.go:24-30 `BasicQContext`. -/
def BasicQContext (dim : Nat) (nodes : List Node) : Ctx := { dim := dim, nodes := nodes }

namespace Ctx

/-- The unit separator, `WriteRune(31)` in query/scoper.go:60,62. -/
def US : Char := Char.ofNat 31

/-- query/scoper.go:59-64, the loop of `ScopeVar` for the first `k` scopes; `none` is the panic of
an index out of range. -/
def scopeSuffix : Nat → List Scope → Option (List Char)
  | 0, _ => some []
  | _ + 1, [] => none
  | k + 1, g :: gs =>
    match scopeSuffix k gs with
    | none => none
    | some rest => some ([US] ++ g.target ++ [US] ++ itoa g.vIdx ++ rest)

/-- query/scoper.go:48-67 `baseScoper.ScopeVar`. A missing map entry reads as 0. -/
def scopeVar (s : Ctx) (v : QVar) : Except Err QVar :=
  if s.scopes.length = 0 then .ok v
  else
    match scopeSuffix ((mapGet s.vars v).getD 0) s.scopes with
    | none => .error (.panic "index out of range")
    | some suf => .ok (v ++ suf)

/-- query/scoper.go:69-78 `baseScoper.AddVar`. -/
def addVar (s : Ctx) (v : QVar) : Ctx :=
  if s.scopes.length = 0 then s
  else
    match mapGet s.vars v with
    | some _ => s
    | none => { s with vars := (v, s.scopes.length) :: s.vars }

/-- query/scoper.go:81-85, the loop of `ScopeConst`. -/
def scopeConstLoop (c : QConst) : List Scope → QConst × Bool
  | [] => (c, false)
  | g :: gs => if g.target = c.id then ({ id := c.id, val := g.value }, true) else scopeConstLoop c gs

/-- query/scoper.go:80-87 `baseScoper.ScopeConst`. -/
def scopeConst (s : Ctx) (c : QConst) : QConst × Bool := scopeConstLoop c s.scopes

/-- query/scoper.go:89-91 `baseScoper.AddScope`. -/
def addScope (s : Ctx) (tgt : List Char) : Ctx :=
  { s with scopes := s.scopes ++ [{ target := tgt }] }

/-- query/scoper.go:93-107 `baseScoper.PopScope`. -/
def popScope (s : Ctx) : Except Err Unit × Ctx :=
  if s.scopes.length = 0 then (.error (.msg "Invalid scope removal in empty scoper"), s)
  else
    let vars := s.vars.filter (fun p => ¬ p.2 = s.scopes.length)
    (.ok (), { s with vars := vars, scopes := s.scopes.dropLast })

/-- query/scoper.go:114-115, assignment to the fields of the last scope. -/
def setLast (vIdx : Int) (val : List FeatV) : List Scope → List Scope
  | [] => []
  | [g] => [{ g with vIdx := vIdx, value := val }]
  | g :: g' :: gs => g :: setLast vIdx val (g' :: gs)

/-- query/scoper.go:109-117 `baseScoper.SetScope`. -/
def setScope (s : Ctx) (vIdx : Int) (val : List FeatV) : Except Err Unit × Ctx :=
  if s.scopes.length = 0 then (.error (.msg "Invalid setting of scope in empty scoper"), s)
  else (.ok (), { s with scopes := setLast vIdx val s.scopes })

/-- query/varmanager.go:36-38 `baseVarManager.TopV`. -/
def topV (s : Ctx) : Int := s.topv

/-- query/varmanager.go:40-46 `baseVarManager.UpdateTopV`. -/
def updateTopV (s : Ctx) (v : Int) : Bool × Ctx :=
  if s.topv > v then (false, s) else (true, { s with topv := v })

/-- query/varmanager.go:48-56 `baseVarManager.CNFVar`. -/
def cnfVar (s : Ctx) (vr : VarRep) : Int × Ctx :=
  match mapGet s.vmap vr with
  | some val => (val, s)
  | none =>
    let topv := s.topv + 1
    (topv, { s with topv := topv, vmap := (vr, topv) :: s.vmap })

/-- query/varmanager.go:58-61 `baseVarManager.CNFVarExists`. -/
def cnfVarExists (s : Ctx) (vr : VarRep) : Bool := (mapGet s.vmap vr).isSome

/-- query/scoper.go:119-121 `baseScoper.Reset`, query/varmanager.go:63-66 `baseVarManager.Reset` and
query/context.go:32-39 `baseQContext.Reset`. The variable levels (`vars`) are not cleared. -/
def reset (s : Ctx) : Ctx := { s with scopes := [], topv := 0, vmap := [] }

end Ctx

/-- Computations on a context that may return an error (or panic): the Go functions with a
`QContext` parameter. The context is changed in place, also when an error is returned. -/
def M (α : Type) := Ctx → Except Err α × Ctx

namespace M

/-- Sequencing: an error stops the computation. -/
def bind' {α β : Type} (x : M α) (f : α → M β) : M β := fun s =>
  match x s with
  | (.ok a, s') => f a s'
  | (.error e, s') => (.error e, s')

instance : Monad M where
  pure a := fun s => (.ok a, s)
  bind := bind'

/-- A computation that does not use the context. -/
def lift {α : Type} (r : Except Err α) : M α := fun s => (r, s)

/-- Return an error. -/
def throw {α : Type} (e : Err) : M α := fun s => (.error e, s)

/-- `defer func() { if err != nil { err = fmt.Errorf("pre: %w", err) } }()`. -/
def wrapErr {α : Type} (pre : String) (x : M α) : M α := fun s =>
  match x s with
  | (.ok a, s') => (.ok a, s')
  | (.error e, s') => (.error (e.wrap pre), s')

/-- `ctx.Dim()` -/
def dim : M Nat := fun s => (.ok s.dim, s)
/-- `ctx.Nodes()` -/
def nodes : M (List Node) := fun s => (.ok s.nodes, s)
/-- `ctx.TopV()` -/
def topV : M Int := fun s => (.ok s.topV, s)
/-- `ctx.UpdateTopV(v)`, result ignored -/
def updateTopV (v : Int) : M Unit := fun s => (.ok (), (s.updateTopV v).2)
/-- `ctx.CNFVar(v, idx, val)` -/
def cnfVar (vr : VarRep) : M Int := fun s => (.ok (s.cnfVar vr).1, (s.cnfVar vr).2)
/-- `ctx.CNFVarExists(v, idx, val)` -/
def cnfVarExists (vr : VarRep) : M Bool := fun s => (.ok (s.cnfVarExists vr), s)
/-- `ctx.ScopeVar(v)` -/
def scopeVar (v : QVar) : M QVar := fun s => (s.scopeVar v, s)
/-- `ctx.ScopeConst(c)`, with `ok` ignored -/
def scopeConst (c : QConst) : M QConst := fun s => (.ok (s.scopeConst c).1, s)
/-- `ctx.AddVar(v)` -/
def addVar (v : QVar) : M Unit := fun s => (.ok (), s.addVar v)
/-- `ctx.AddScope(tgt)` -/
def addScope (tgt : List Char) : M Unit := fun s => (.ok (), s.addScope tgt)
/-- `ctx.SetScope(i, val)` -/
def setScope (i : Int) (val : List FeatV) : M Unit := fun s => s.setScope i val

end M

end Goexpdt

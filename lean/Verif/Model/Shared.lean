import Verif.Model.Iface
/-
The arrays behind the values of constants and scopes. In Go a value of type `[]FeatV` is a reference: `ForAllGuarded` writes all instances of
its iteration into one array (query/logop/forallguarded.go:105, 116, 131), and `SetScope` stores a reference to this array in the scope, without
copying (query/scoper.go:115). So the values that scopes have change while the iterator moves, and the rest of the model, in which `SetScope`
stores the values, is right only if nobody looks at them then. Here the arrays are explicit. The components are those of `Model/Iface.lean`,
with a context whose scopes hold references; `ForAllGuarded` and `leafsAsConsts` are modelled again, with the writes to the arrays.

Simplifications: slices are whole arrays (the library never takes parts of them and never appends to them, except in `Values`, to a slice
that is not shared). A predicate reads the values of a constant when it calls `ScopeConst`, and not later; nothing is written in between,
since only iterators write. The arrays of `walk` and of the nodes are not shared with anyone and stay lists.
-/
namespace Goexpdt

/-- The contents of the arrays, by address; those from `next` on are not in use. -/
structure Mem where
  cells : Nat → List FeatV
  next : Nat

namespace Mem

/-- `make([]FeatV, n)` -/
def make (m : Mem) (n : Nat) : Nat × Mem :=
  (m.next, { cells := fun a => if a = m.next then List.replicate n BOT else m.cells a, next := m.next + 1 })

/-- `s[i] = v`, for an index in range -/
def write (m : Mem) (a i : Nat) (v : FeatV) : Mem :=
  { m with cells := fun b => if b = a then (m.cells a).set i v else m.cells b }

/-- `copy(dst, src)` for slices of the same length -/
def copy (m : Mem) (dst src : Nat) : Mem :=
  { m with cells := fun b => if b = dst then m.cells src else m.cells b }

end Mem

/-- query/scoper.go:42-46 `type scope struct`, with a reference to the array of `value`; a nil slice is `none`. -/
structure RScope where
  target : List Char
  value : Option Nat := none
  vIdx : Int := 0
  deriving DecidableEq, Repr

/-- query/context.go:13-17 `type baseQContext struct` as in `Ctx`, with the arrays. -/
structure RCtx where
  mem : Mem
  scopes : List RScope := []
  vars : List (QVar × Nat) := []
  topv : Int := 0
  vmap : List (VarRep × Int) := []
  dim : Nat
  nodes : List Node

/-- Where the values of the constants of a program are; for the others the values themselves are used. -/
abbrev Place := QConst → Option Nat

namespace Mem

/-- The values of a slice. -/
def slice (m : Mem) : Option Nat → List FeatV
  | none => []
  | some a => m.cells a

/-- A constant of the program, with the values that are in its array. -/
def const (m : Mem) (pl : Place) (c : QConst) : QConst :=
  match pl c with
  | none => c
  | some a => { c with val := m.cells a }

end Mem

/-- A scope with the values that are in its array at the moment. -/
def RScope.load (m : Mem) (g : RScope) : Scope := { target := g.target, value := m.slice g.value, vIdx := g.vIdx }

/-- The context as its methods see it at the moment. -/
def RCtx.load (s : RCtx) : Ctx :=
  { scopes := s.scopes.map (RScope.load s.mem), vars := s.vars, topv := s.topv, vmap := s.vmap, dim := s.dim, nodes := s.nodes }

/-- The context after a method that changes neither scopes nor arrays. -/
def RCtx.put (s : RCtx) (t : Ctx) : RCtx :=
  { s with vars := t.vars, topv := t.topv, vmap := t.vmap, dim := t.dim, nodes := t.nodes }

/-- query/scoper.go:81-85, the loop of `ScopeConst`. -/
def scopeConstR (m : Mem) (pl : Place) (c : QConst) : List RScope → QConst × Bool
  | [] => (m.const pl c, false)
  | g :: gs => if g.target = c.id then ({ id := c.id, val := m.slice g.value }, true) else scopeConstR m pl c gs

/-- query/scoper.go:109-117 `baseScoper.SetScope`: the reference is stored. -/
def setLastR (vIdx : Int) (val : Option Nat) : List RScope → List RScope
  | [] => []
  | [g] => [{ g with vIdx := vIdx, value := val }]
  | g :: g' :: gs => g :: setLastR vIdx val (g' :: gs)

namespace RCtx

/-- query/scoper.go:93-107 `baseScoper.PopScope`. -/
def popScope (s : RCtx) : Except Err Unit × RCtx :=
  if s.scopes.length = 0 then (.error (.msg "Invalid scope removal in empty scoper"), s)
  else (.ok (), { s with vars := s.vars.filter (fun p => ¬ p.2 = s.scopes.length), scopes := s.scopes.dropLast })

/-- query/scoper.go:109-117 `baseScoper.SetScope`. -/
def setScope (s : RCtx) (vIdx : Int) (val : Option Nat) : Except Err Unit × RCtx :=
  if s.scopes.length = 0 then (.error (.msg "Invalid setting of scope in empty scoper"), s)
  else (.ok (), { s with scopes := setLastR vIdx val s.scopes })

end RCtx

/-- The basic context with its arrays, as an implementation of the interface. (The components that use `SetScope` are modelled below, with
references; here it gets a new array.) -/
def refI (pl : Place) : QContext RCtx where
  scopeVar v s := (s.load.scopeVar v, s)
  addVar v s := (.ok (), s.put (s.load.addVar v))
  scopeConst c s := (.ok (scopeConstR s.mem pl c s.scopes), s)
  addScope t s := (.ok (), { s with scopes := s.scopes ++ [{ target := t }] })
  popScope s := s.popScope
  setScope i val s :=
    { s with mem := { cells := fun a => if a = s.mem.next then val else s.mem.cells a, next := s.mem.next + 1 } }.setScope i (some s.mem.next)
  topV s := (.ok s.topv, s)
  updateTopV v s := (.ok (s.load.updateTopV v).1, s.put (s.load.updateTopV v).2)
  cnfVar vr s := (.ok (s.load.cnfVar vr).1, s.put (s.load.cnfVar vr).2)
  cnfVarExists vr s := (.ok (s.load.cnfVarExists vr), s)
  dim s := (.ok s.dim, s)
  nodes s := (.ok s.nodes, s)
  reset s := (.ok (), { s with scopes := [], topv := 0, vmap := [] })

/-! ### The iterator -/

/-- query/logop/forallguarded.go:29-36 `type nodeAsValuesIter struct`, with a reference to the array of `t`. Also the local variables of
query/extensions/dfs/utils.go:24-34, with `cv` for `t`. -/
structure RIter where
  t : Nat
  prev : List Nat
  visited : List Bool
  cp : Nat
  deriving DecidableEq, Repr

/-- The iterator with the values that are in its array at the moment. -/
def RIter.load (m : Mem) (w : RIter) : WalkSt := { t := m.cells w.t, prev := w.prev, visited := w.visited, cp := w.cp }

/-- query/logop/forallguarded.go:125-133, label `backup`. -/
def walkBackupR (nodes : List Node) (m : Mem) (w : RIter) : WalkEv × Mem × RIter :=
  if w.cp = 0 then (.finished, m, w)
  else
    let cp := w.prev.getD w.cp 0
    (.moved, m.write w.t (nodeAt nodes cp).feat.toNat BOT, { w with cp := cp })

/-- query/logop/forallguarded.go:105-111 / 116-122. -/
def walkDownR (nodes : List Node) (m : Mem) (w : RIter) (ch : Nat) (val : FeatV) : WalkEv × Mem × RIter :=
  (.moved, m.write w.t (nodeAt nodes w.cp).feat.toNat val, { w with cp := ch, prev := w.prev.set ch w.cp })

/-- One turn of the loop of query/logop/forallguarded.go:96-139. -/
def walkStepR (nodes : List Node) (m : Mem) (w : RIter) : WalkEv × Mem × RIter :=
  let n := nodeAt nodes w.cp
  if w.visited.getD w.cp false then
    if n.isLeaf then walkBackupR nodes m w
    else if !(w.visited.getD n.zChild.toNat false) then walkDownR nodes m w n.zChild.toNat ZERO
    else if !(w.visited.getD n.oChild.toNat false) then walkDownR nodes m w n.oChild.toNat ONE
    else walkBackupR nodes m w
  else (.visited, m, { w with visited := w.visited.set w.cp true })

/-- query/logop/forallguarded.go:91-140 `nodeAsValuesIter.Next`, as `walkNext`; the arrays are changed also at the end of the walk. -/
def walkNextR (nodes : List Node) : Nat → Mem → RIter → Except Err (Option RIter) × Mem
  | 0, m, _ => (.error .diverge, m)
  | fuel + 1, m, w =>
    match walkStepR nodes m w with
    | (.finished, m', _) => (.ok none, m')
    | (.visited, m', w') => (.ok (some w'), m')
    | (.moved, m', w') => walkNextR nodes fuel m' w'

/-- query/logop/forallguarded.go:38-63 `newNodeAsValuesIter`. -/
def newIterR (dim : Nat) (nodes : List Node) (m : Mem) : Except Err RIter × Mem :=
  if nodes.length = 0 then (.error (.msg "Invalid iteration over empty model"), m)
  else
    match validateNodes dim nodes.length nodes with
    | .error e => (.error e, m)
    | .ok () =>
      let (a, m') := m.make dim
      (.ok { t := a, prev := List.replicate nodes.length 0, visited := List.replicate nodes.length false, cp := 0 }, m')

/-! ### ForAllGuarded -/

/-- query/logop/forallguarded.go:184-197, the loop of `buildEncoding`: `*cv` is the slice of the iterator. -/
def forallLoopR (q : MG RCtx CNF) (nodes : List Node) : Nat → RIter → Int → CNF → MG RCtx CNF
  | 0, _, _, _ => MG.throw .diverge
  | fuel + 1, w, i, ncnf => fun s =>
    match walkNextR nodes (nextFuel nodes) s.mem w with
    | (.error e, m) => (.error e, { s with mem := m })
    | (.ok none, m) => (.ok ncnf, { s with mem := m })
    | (.ok (some w'), m) =>
      match { s with mem := m }.setScope i (some w'.t) with
      | (.error e, s') => (.error e, s')
      | (.ok (), s') =>
        match q s' with
        | (.error e, s') => (.error e, s')
        | (.ok icnf, s') => forallLoopR q nodes fuel w' (i + 1) (ncnf.conjunction icnf) s'

/-- query/logop/forallguarded.go:178-199. -/
def forallBodyR (q : MG RCtx CNF) : MG RCtx CNF := fun s =>
  match newIterR s.dim s.nodes s.mem with
  | (.error e, m) => (.error e, { s with mem := m })
  | (.ok iter, m) => forallLoopR q s.nodes (s.nodes.length + 1) iter 0 {} { s with mem := m }

/-- query/logop/forallguarded.go:164-200 `ForAllGuarded.buildEncoding`. -/
def forallBuildR (c : QConst) (q : MG RCtx CNF) : MG RCtx CNF := fun s =>
  let r := forallBodyR q { s with scopes := s.scopes ++ [{ target := c.id }] }
  match r.2.popScope with
  | (.ok (), s') => (r.1, s')
  | (.error perr, s') => (joinErr r.1 perr, s')

/-- query/logop/forallguarded.go:142-162 `ForAllGuarded.Encoding`. -/
def encForallR (c : QConst) (q : Over.CompG RCtx) : MG RCtx CNF := MG.wrapErr "ForAllGuarded" <|
  match q with
  | none => MG.throw (.msg "Invalid encoding of nil child")
  | some q => forallBuildR c q

/-- A query as a value of the interface type `LogOpQ`, as `Query.comp`. -/
def Query.compR (pl : Place) : Query → Over.CompG RCtx
  | .nil => none
  | .atom a => some (Over.atom (refI pl) a)
  | .and q1 q2 => some (Over.encAnd (q1.compR pl) (q2.compR pl))
  | .or q1 q2 => some (Over.encOr (refI pl) (q1.compR pl) (q2.compR pl))
  | .not q => some (Over.encNot (refI pl) (q.compR pl))
  | .withVar x q => some (Over.encWithVar (refI pl) x (q.compR pl))
  | .forallG c q => some (encForallR c (q.compR pl))

/-- The call `q.Encoding(ctx)`, as `Query.encode`. -/
def Query.encodeR (pl : Place) (q : Query) : MG RCtx CNF :=
  match q.compR pl with
  | none => MG.throw (.panic "nil pointer dereference")
  | some act => act

/-! ### leafsAsConsts -/

/-- query/extensions/dfs/utils.go:36-92, the loop of `leafsAsConsts`: the values of a leaf are copied to a new array. The constants are
given by the addresses of their values. -/
def leafsLoopR (dim : Nat) (nodes : List Node) : Nat → Mem → RIter → List Nat → List Nat → Except Err (List Nat × List Nat) × Mem
  | 0, m, _, _, _ => (.error .diverge, m)
  | fuel + 1, m, w, pleaf, nleaf =>
    match walkNextR nodes (nextFuel nodes) m w with
    | (.error e, m) => (.error e, m)
    | (.ok none, m) => (.ok (pleaf, nleaf), m)
    | (.ok (some w'), m) =>
      let n := nodeAt nodes w'.cp
      if !n.isLeaf then leafsLoopR dim nodes fuel m w' pleaf nleaf
      else
        let (tmp, m) := m.make dim
        let m := m.copy tmp w'.t
        if n.value then leafsLoopR dim nodes fuel m w' (pleaf ++ [tmp]) nleaf
        else leafsLoopR dim nodes fuel m w' pleaf (nleaf ++ [tmp])

/-- query/extensions/dfs/utils.go:9-93 `leafsAsConsts`. -/
def leafsAsConstsR (dim : Nat) (nodes : List Node) (m : Mem) : Except Err (List Nat × List Nat) × Mem :=
  match validateNodes dim nodes.length nodes with
  | .error e => (.error e, m)
  | .ok () =>
    let (cv, m) := m.make dim
    if nodes.length = 0 then (.error (.panic "index out of range"), m)
    else leafsLoopR dim nodes (nodes.length + 1) m
      { t := cv, prev := List.replicate nodes.length 0, visited := List.replicate nodes.length false, cp := 0 } [] []

end Goexpdt

import Verif.Model.Query
/-
Model of the walk over a model's nodes that is shared, line for line, by
/repo/query/logop/forallguarded.go (`nodeAsValuesIter`) and
/repo/query/extensions/dfs/utils.go (`leafsAsConsts`).

Simplifications: after `validateNode` has accepted every node, every index used by the walk is in
range (theorem `C17_in_range`), so indexing is modelled with defaults; the feature and child indexes
are then natural numbers (`toNat`). The Go loop has no bound; the model gives `Next` the fuel
`len(nodes) + 2` and returns `diverge` if it does not suffice (theorem `C17_terminates`: it always
does).
-/
namespace Goexpdt

/-- query/logop/forallguarded.go:67-89 and query/extensions/dfs/utils.go:97-119 `validateNode`. -/
def validateNode (n : Node) (dim nlen : Nat) : Except Err Unit :=
  if n.isLeaf then .ok ()
  else if n.feat < 0 ∨ n.feat ≥ dim then
    .error (.msg s!"Node's feature {n.feat} is out of range [0, {(dim : Int) - 1}]")
  else if n.zChild < 0 ∨ n.zChild ≥ nlen then
    .error (.msg s!"Node's ZChild out of bounds {n.zChild}")
  else if n.oChild < 0 ∨ n.oChild ≥ nlen then
    .error (.msg s!"Node's OChild out of bounds {n.oChild}")
  else .ok ()

/-- query/logop/forallguarded.go:51-55 and query/extensions/dfs/utils.go:15-19, the validation
loop. -/
def validateNodes (dim nlen : Nat) : List Node → Except Err Unit
  | [] => .ok ()
  | n :: ns =>
    match validateNode n dim nlen with
    | .error e => .error e
    | .ok () => validateNodes dim nlen ns

/-- query/logop/forallguarded.go:22-36 (`walkInfo`, `nodeAsValuesIter` without the nodes) and the
local variables `cv`, `walk`, `cp` of query/extensions/dfs/utils.go:24-34. The walk slice is split
into its two fields. -/
structure WalkSt where
  t : List FeatV
  prev : List Nat
  visited : List Bool
  cp : Nat
  deriving DecidableEq, Repr, Inhabited

/-- query/logop/forallguarded.go:57-60 and query/extensions/dfs/utils.go:25-34: initial state. -/
def WalkSt.init (dim nlen : Nat) : WalkSt :=
  { t := List.replicate dim BOT, prev := List.replicate nlen 0,
    visited := List.replicate nlen false, cp := 0 }

/-- `nodes[i]` -/
def nodeAt (nodes : List Node) (i : Nat) : Node := nodes.getD i default

/-- What one turn of the loop did. -/
inductive WalkEv where
  | moved
  | visited
  | finished
  deriving DecidableEq, Repr

/-- query/logop/forallguarded.go:125-133 and query/extensions/dfs/utils.go:65-74, label `backup`. -/
def walkBackup (nodes : List Node) (w : WalkSt) : WalkEv × WalkSt :=
  if w.cp = 0 then (.finished, w)
  else
    let cp := w.prev.getD w.cp 0
    (.moved, { w with cp := cp, t := w.t.set (nodeAt nodes cp).feat.toNat BOT })

/-- query/logop/forallguarded.go:105-111 / 116-122 and query/extensions/dfs/utils.go:45-51 / 56-62:
write the feature value and go down to child `ch`. -/
def walkDown (nodes : List Node) (w : WalkSt) (ch : Nat) (val : FeatV) : WalkEv × WalkSt :=
  (.moved, { w with t := w.t.set (nodeAt nodes w.cp).feat.toNat val, cp := ch,
                    prev := w.prev.set ch w.cp })

/-- One turn of the loop of query/logop/forallguarded.go:96-139 and
query/extensions/dfs/utils.go:36-90. -/
def walkStep (nodes : List Node) (w : WalkSt) : WalkEv × WalkSt :=
  let n := nodeAt nodes w.cp
  if w.visited.getD w.cp false then
    if n.isLeaf then walkBackup nodes w
    else if !(w.visited.getD n.zChild.toNat false) then walkDown nodes w n.zChild.toNat ZERO
    else if !(w.visited.getD n.oChild.toNat false) then walkDown nodes w n.oChild.toNat ONE
    else walkBackup nodes w
  else (.visited, { w with visited := w.visited.set w.cp true })

/-- `l[i]` for a Go index, with the panic. -/
def goIdx {α : Type} (l : List α) (i : Int) : Except Err α :=
  if i < 0 then .error (.panic "index out of range")
  else match l[i.toNat]? with
    | some a => .ok a
    | none => .error (.panic "index out of range")

/-- `l[i] = a` for a Go index, with the panic. -/
def goSet {α : Type} (l : List α) (i : Int) (a : α) : Except Err (List α) :=
  if i < 0 ∨ i ≥ l.length then .error (.panic "index out of range") else .ok (l.set i.toNat a)

/-- query/logop/forallguarded.go:125-133 with every index checked. -/
def walkBackupIdx (nodes : List Node) (w : WalkSt) : Except Err (WalkEv × WalkSt) :=
  if w.cp = 0 then .ok (.finished, w)
  else do
    let cp ← goIdx w.prev w.cp
    let n ← goIdx nodes cp
    let t ← goSet w.t n.feat BOT
    .ok (.moved, { w with cp := cp, t := t })

/-- query/logop/forallguarded.go:105-111 / 116-122 with every index checked. -/
def walkDownIdx (nodes : List Node) (w : WalkSt) (ch : Int) (val : FeatV) :
    Except Err (WalkEv × WalkSt) := do
  let n ← goIdx nodes w.cp
  let t ← goSet w.t n.feat val
  let prev ← goSet w.prev ch w.cp
  .ok (.moved, { w with t := t, cp := ch.toNat, prev := prev })

/-- One turn of the loop of query/logop/forallguarded.go:96-139 and
query/extensions/dfs/utils.go:36-90 with every index access checked as Go does. Theorem
`C17_in_range` shows that it never panics and agrees with `walkStep`. -/
def walkStepIdx (nodes : List Node) (w : WalkSt) : Except Err (WalkEv × WalkSt) := do
  let vis ← goIdx w.visited w.cp
  if vis then do
    let n ← goIdx nodes w.cp
    if n.isLeaf then walkBackupIdx nodes w
    else do
      let zv ← goIdx w.visited n.zChild
      if !zv then walkDownIdx nodes w n.zChild ZERO
      else do
        let ov ← goIdx w.visited n.oChild
        if !ov then walkDownIdx nodes w n.oChild ONE
        else walkBackupIdx nodes w
  else do
    let visited ← goSet w.visited w.cp true
    .ok (.visited, { w with visited := visited })

/-- query/logop/forallguarded.go:91-140 `nodeAsValuesIter.Next`: `some w` if a node was visited,
`none` at the end of the walk. Also the part of the loop of query/extensions/dfs/utils.go:36-90 from
one visit to the next. -/
def walkNext (nodes : List Node) : Nat → WalkSt → Except Err (Option WalkSt)
  | 0, _ => .error .diverge
  | fuel + 1, w =>
    match walkStep nodes w with
    | (.finished, _) => .ok none
    | (.visited, w') => .ok (some w')
    | (.moved, w') => walkNext nodes fuel w'

/-- The fuel given to one call of `Next`. -/
def nextFuel (nodes : List Node) : Nat := nodes.length + 2

/-- query/logop/forallguarded.go:38-63 `newNodeAsValuesIter`. -/
def newNodeAsValuesIter (dim : Nat) (nodes : List Node) : Except Err WalkSt :=
  if nodes.length = 0 then .error (.msg "Invalid iteration over empty model")
  else
    match validateNodes dim nodes.length nodes with
    | .error e => .error e
    | .ok () => .ok (WalkSt.init dim nodes.length)

/-- query/extensions/dfs/utils.go:36-92, the loop of `leafsAsConsts`: from visit to visit; collects
the positive and the negative leafs. -/
def leafsLoop (nodes : List Node) : Nat → WalkSt → List QConst → List QConst →
    Except Err (List QConst × List QConst)
  | 0, _, _, _ => .error .diverge
  | fuel + 1, w, pleaf, nleaf =>
    match walkNext nodes (nextFuel nodes) w with
    | .error e => .error e
    | .ok none => .ok (pleaf, nleaf)
    | .ok (some w') =>
      let n := nodeAt nodes w'.cp
      if !n.isLeaf then leafsLoop nodes fuel w' pleaf nleaf
      else if n.value then leafsLoop nodes fuel w' (pleaf ++ [{ val := w'.t }]) nleaf
      else leafsLoop nodes fuel w' pleaf (nleaf ++ [{ val := w'.t }])

/-- query/extensions/dfs/utils.go:9-93 `leafsAsConsts`. On an empty model `walk[cp]` of line 37
panics. -/
def leafsAsConsts (dim : Nat) (nodes : List Node) : Except Err (List QConst × List QConst) :=
  match validateNodes dim nodes.length nodes with
  | .error e => .error e
  | .ok () =>
    if nodes.length = 0 then .error (.panic "index out of range")
    else leafsLoop nodes (nodes.length + 1) (WalkSt.init dim nodes.length) [] []

end Goexpdt

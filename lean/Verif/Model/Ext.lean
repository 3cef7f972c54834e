import Verif.Model.Preds
/-
Model of /repo/query/extensions: full, cons, allcomp, dfs, hepr, leh. Every definition is the method
`Encoding` of the type named in its comment, for a non-nil context.
-/
namespace Goexpdt

/-! ### full -/

/-- query/extensions/full/const.go:27-31, the loop. -/
def fullC (vs : List FeatV) : Bool :=
  match vs with
  | [] => true
  | ft :: vs => if ft = BOT then false else fullC vs

/-- query/extensions/full/const.go:15-34 `Const.Encoding`. -/
def fullConst (i : QConst) : M CNF := do
  let sc ← M.scopeConst i
  validateM [sc]
  if fullC sc.val then retTrue else retFalse

/-- query/extensions/full/var.go:25-30; also query/extensions/leh/utils.go:178-191
`varFullClauses`. -/
def varFullClauses (d : Nat) (v : QVar) : List SClause := (rng 0 d).map fun (i : Nat) => [N v i BOT]

/-- query/extensions/full/var.go:15-33 `Var.Encoding`. -/
def fullVar (i : QVar) : M CNF := do
  let sv ← M.scopeVar i
  let d ← M.dim
  emitF (varFullClauses d sv) []

/-! ### cons -/

/-- query/extensions/cons/const_const.go:35-41, the loop. -/
def consCC (d : Nat) (c1 c2 : QConst) : Bool :=
  (rng 0 d).all fun i => !(c1.at i ≠ BOT ∧ c2.at i ≠ BOT ∧ c1.at i ≠ c2.at i)

/-- query/extensions/cons/const_const.go:16-44 `ConstConst.Encoding`. -/
def consConstConst (i1 i2 : QConst) : M CNF := do
  let sc1 ← M.scopeConst i1
  let sc2 ← M.scopeConst i2
  validateM [sc1, sc2]
  let d ← M.dim
  M.lift (indexed (upto d) [sc1, sc2])
  if consCC d sc1 sc2 then retTrue else retFalse

/-- query/extensions/cons/const_var.go:31-44 and query/extensions/cons/var_const.go:31-44. -/
def consConstClauses (d : Nat) (sc : QConst) (sv : QVar) : List SClause :=
  (rng 0 d).flatMap fun (i : Nat) =>
    if sc.at i = BOT then [] else [[N sv i (if sc.at i = ZERO then ONE else ZERO)]]

/-- query/extensions/cons/const_var.go:46-50 and query/extensions/cons/var_const.go:46-50. -/
def consConstRet (cls : List SClause) : M CNF :=
  if cls.length = 0 then retTrue else emitF cls []

/-- query/extensions/cons/const_var.go:16-51 `ConstVar.Encoding`. -/
def consConstVar (i1 : QConst) (i2 : QVar) : M CNF := do
  let sc ← M.scopeConst i1
  let sv ← M.scopeVar i2
  validateM [sc]
  let d ← M.dim
  consConstRet (consConstClauses d sc sv)

/-- query/extensions/cons/var_const.go:16-51 `VarConst.Encoding`. -/
def consVarConst (i1 : QVar) (i2 : QConst) : M CNF := do
  let sv ← M.scopeVar i1
  let sc ← M.scopeConst i2
  validateM [sc]
  let d ← M.dim
  consConstRet (consConstClauses d sc sv)

/-- query/extensions/cons/var_var.go:29-41. -/
def consVarVarClauses (d : Nat) (sv1 sv2 : QVar) : List SClause :=
  (rng 0 d).flatMap fun (i : Nat) =>
    [[N sv1 i ONE, N sv2 i ZERO], [N sv1 i ZERO, N sv2 i ONE]]

/-- query/extensions/cons/var_var.go:16-44 `VarVar.Encoding`. -/
def consVarVar (i1 i2 : QVar) : M CNF := do
  let sv1 ← M.scopeVar i1
  let sv2 ← M.scopeVar i2
  let d ← M.dim
  emitF (consVarVarClauses d sv1 sv2) []

/-! ### allcomp -/

/-- query/extensions/allcomp/const.go:62-65 (and 66-69, 71-74, 76-79): push child `ch` unless it was
pushed before. `nodes[ch]` panics if `ch` is out of range. -/
def acPush (nodes : List Node) (ch : Int) (visited : List Int) (stack : List Node) :
    Except Err (List Int × List Node) :=
  if ch ∈ visited then .ok (visited, stack)
  else if ch < 0 ∨ ch ≥ nodes.length then .error (.panic "index out of range")
  else .ok (ch :: visited, nodeAt nodes ch.toNat :: stack)

/-- query/extensions/allcomp/const.go:42-83, the loop; the stack's top is the head of the list. The
result is whether every leaf that was reached has the value. Every node is pushed at most once
besides the root, so `len(nodes) + 2` turns suffice (theorem `C31_const_terminates`). -/
def acLoop (dim : Nat) (sc : QConst) (leaf : Bool) (nodes : List Node) :
    Nat → List Int → List Node → Except Err Bool
  | 0, _, _ => .error .diverge
  | _ + 1, _, [] => .ok true
  | fuel + 1, visited, n :: stack =>
    if n.isLeaf then
      if n.value ≠ leaf then .ok false else acLoop dim sc leaf nodes fuel visited stack
    else if n.feat < 0 ∨ n.feat ≥ dim then
      .error (.msg s!"Node's feature {n.feat} is out of range [0, {(dim : Int) - 1}]")
    else match indexed [n.feat] [sc] with
    | .error e => .error e
    | .ok () =>
      let v := sc.at n.feat.toNat
      if v = BOT then
        match acPush nodes n.zChild visited stack with
        | .error e => .error e
        | .ok (visited, stack) =>
          match acPush nodes n.oChild visited stack with
          | .error e => .error e
          | .ok (visited, stack) => acLoop dim sc leaf nodes fuel visited stack
      else if v = ZERO then
        match acPush nodes n.zChild visited stack with
        | .error e => .error e
        | .ok (visited, stack) => acLoop dim sc leaf nodes fuel visited stack
      else if v = ONE then
        match acPush nodes n.oChild visited stack with
        | .error e => .error e
        | .ok (visited, stack) => acLoop dim sc leaf nodes fuel visited stack
      else acLoop dim sc leaf nodes fuel visited stack

/-- query/extensions/allcomp/const.go:20-84 `Const.Encoding`. -/
def allcompConst (i : QConst) (leaf : Bool) : M CNF := do
  let sc ← M.scopeConst i
  validateM [sc]
  let d ← M.dim
  let nodes ← M.nodes
  if nodes.length = 0 then M.throw errEmptyModel
  else do
    let b ← M.lift (acLoop d sc leaf nodes (nodes.length + 2) [] [nodeAt nodes 0])
    if b then retTrue else retFalse

/-- query/extensions/allcomp/var.go:46-95: what the loop appends for node `i`. -/
def allcompStep (leaf : Bool) (nodes : List Node) (sv svReach : QVar) (i : Nat) : Step :=
  let node := nodeAt nodes i
  if node.isLeaf then .sem (if node.value ≠ leaf then [[N svReach 0 i]] else [])
  else .con
    [[N sv node.feat ZERO, N svReach 0 i, P svReach 0 node.zChild],
     [N sv node.feat ONE, N svReach 0 i, P svReach 0 node.oChild],
     [N sv node.feat BOT, N svReach 0 i, P svReach 0 node.zChild],
     [N sv node.feat BOT, N svReach 0 i, P svReach 0 node.oChild],
     [N svReach 0 node.oChild, P svReach 0 i],
     [N svReach 0 node.oChild, P sv node.feat ONE, P sv node.feat BOT],
     [N svReach 0 node.zChild, P svReach 0 i],
     [N svReach 0 node.zChild, P sv node.feat ZERO, P sv node.feat BOT]]

/-- query/extensions/allcomp/var.go:22-98 `Var.Encoding`. -/
def allcompVar (i : QVar) (leaf : Bool) (gen : Option (QVar → QVar)) : M CNF :=
  match gen with
  | none => M.throw errNilGen
  | some gen => do
    let nodes ← M.nodes
    if nodes.length = 0 then M.throw errEmptyModel
    else do
      let sv ← M.scopeVar i
      let svReach := gen sv
      emit (.con [[P svReach 0 0]] ::
        (rng 0 nodes.length).map (allcompStep leaf nodes sv svReach))

/-! ### dfs -/

/-- query/extensions/dfs/const.go:52-68 `leafCompare`. -/
def leafCompare (c l1 l2 : QConst) : Except Err Bool :=
  if c.val.length ≠ l1.val.length ∨ c.val.length ≠ l2.val.length then
    .error (.msg "Invalid comparison of constants of different dim")
  else (indexed (upto c.val.length) [l1, l2]).map fun _ => (rng 0 c.val.length).any fun i =>
    decide (c.at i ≠ BOT ∧ l1.at i ≠ BOT ∧ l2.at i ≠ BOT ∧ l1.at i ≠ l2.at i)

/-- query/extensions/dfs/const.go:37-46, the inner loop over the negative leafs. -/
def dfsInner (sc p : QConst) : List QConst → Except Err Bool
  | [] => .ok true
  | n :: ns =>
    match leafCompare sc p n with
    | .error e => .error e
    | .ok false => .ok false
    | .ok true => dfsInner sc p ns

/-- query/extensions/dfs/const.go:36-47, the outer loop over the positive leafs. -/
def dfsOuter (sc : QConst) (nleaf : List QConst) : List QConst → Except Err Bool
  | [] => .ok true
  | p :: ps =>
    match dfsInner sc p nleaf with
    | .error e => .error e
    | .ok false => .ok false
    | .ok true => dfsOuter sc nleaf ps

/-- query/extensions/dfs/const.go:15-50 `Const.Encoding`. -/
def dfsConst (i : QConst) : M CNF := do
  let sc ← M.scopeConst i
  validateM [sc]
  let d ← M.dim
  let nodes ← M.nodes
  let leafs ← M.lift (leafsAsConsts d nodes)
  if leafs.1.length = 0 ∧ leafs.2.length = 0 then M.throw errEmptyModel
  else do
    let b ← M.lift (dfsOuter sc leafs.2 leafs.1)
    if b then retTrue else retFalse

/-- query/extensions/dfs/var.go:49-71 `notAWitnessClause`. -/
def notAWitnessClause (d : Nat) (v : QVar) (l1 l2 : QConst) : Except Err SClause :=
  if d ≠ l1.val.length ∨ d ≠ l2.val.length then
    .error (.msg "Invalid comparison of constants of different dim")
  else (indexed (upto d) [l1, l2]).map fun _ => ((rng 0 d).filter fun i =>
      decide (l1.at i ≠ BOT ∧ l2.at i ≠ BOT ∧ l1.at i ≠ l2.at i)).map
    fun (i : Nat) => N v i BOT

/-- query/extensions/dfs/var.go:35-44: the clauses, one for every positive and negative leaf. -/
def dfsClauses (d : Nat) (v : QVar) : List (QConst × QConst) → Except Err (List SClause)
  | [] => .ok []
  | (p, n) :: ls =>
    match notAWitnessClause d v p n with
    | .error e => .error e
    | .ok cl =>
      match dfsClauses d v ls with
      | .error e => .error e
      | .ok cls => .ok (cl :: cls)

/-- query/extensions/dfs/var.go:15-47 `Var.Encoding`. -/
def dfsVar (i : QVar) : M CNF := do
  let sv ← M.scopeVar i
  let d ← M.dim
  let nodes ← M.nodes
  let leafs ← M.lift (leafsAsConsts d nodes)
  if leafs.1.length = 0 ∧ leafs.2.length = 0 then M.throw errEmptyModel
  else do
    let cls ← M.lift (dfsClauses d sv (leafs.1.flatMap fun p => leafs.2.map fun n => (p, n)))
    emitF cls []

/-! ### hepr -/

/-- query/extensions/hepr/util.go:11-25 `validatePref`; `seen` holds the indexes seen so far. -/
def validatePrefFrom (dim : Nat) (seen : List Int) : List Int → Except Err Unit
  | [] => .ok ()
  | i :: is =>
    if i < 0 ∨ i ≥ dim then .error (.msg s!"Preference feature index out of range '{i}'")
    else if i ∈ seen then .error (.msg s!"Invalid duplicate preference '{i}'")
    else validatePrefFrom dim (i :: seen) is

/-- query/extensions/hepr/util.go:11-25 `validatePref`. -/
def validatePref (pref : List Int) (dim : Nat) : Except Err Unit := validatePrefFrom dim [] pref

/-- query/extensions/hepr/util.go:27-36 `prefVar`. -/
def prefVar (pref : List Int) : QVar := pref.flatMap itoa

/-- query/extensions/hepr/const_const.go:40-49, the loop. -/
def heprCC (c1 c2 : QConst) : List Int → Bool
  | [] => true
  | idx :: pref =>
    if c1.at idx.toNat ≠ BOT ∧ c2.at idx.toNat = BOT then true
    else if c1.at idx.toNat = BOT ∧ c2.at idx.toNat ≠ BOT then false
    else heprCC c1 c2 pref

/-- query/extensions/hepr/const_const.go:18-50 `ConstConst.Encoding`. -/
def heprConstConst (i1 i2 : QConst) (pref : List Int) : M CNF := do
  let d ← M.dim
  M.lift (validatePref pref d)
  let sc1 ← M.scopeConst i1
  let sc2 ← M.scopeConst i2
  validateM [sc1, sc2]
  M.lift (indexed pref [sc1, sc2])
  if pref.length = 0 then retTrue
  else if heprCC sc1 sc2 pref then retTrue else retFalse

/-- `d.Preference[i]`, in range where it is used. -/
def prefAt (pref : List Int) (i : Nat) : Int := pref.getD i 0

/-- `for i := plen - 2; i >= 0; i--` -/
def downFrom (plen : Nat) : List Nat := (rng 0 (plen - 1)).reverse

/-- query/extensions/hepr/const_var.go:53-107: the consistency clauses. -/
def heprConstVarCon (sc : QConst) (sv cvp : QVar) (pref : List Int) : List SClause :=
  let plen := pref.length
  let idx := prefAt pref (plen - 1)
  (if sc.at idx.toNat ≠ BOT then [[P cvp 0 (plen - 1)]]
   else [[N cvp 0 (plen - 1), P sv idx BOT], [N sv idx BOT, P cvp 0 (plen - 1)]]) ++
  (downFrom plen).flatMap fun (i : Nat) =>
    let idx := prefAt pref i
    if sc.at idx.toNat ≠ BOT then
      [[N cvp 0 i, P sv idx BOT, P cvp 0 (i + 1)], [N sv idx BOT, P cvp 0 i],
       [N cvp 0 (i + 1), P cvp 0 i]]
    else
      [[N sv idx BOT, N cvp 0 (i + 1), P cvp 0 i], [N cvp 0 i, P sv idx BOT],
       [N cvp 0 i, P cvp 0 (i + 1)]]

/-- query/extensions/hepr/const_var.go:22-110 `ConstVar.Encoding`. With an empty preference line 53
indexes at -1. -/
def heprConstVar (i1 : QConst) (i2 : QVar) (pref : List Int)
    (gen : Option (QVar → QVar → QVar → QVar)) : M CNF :=
  match gen with
  | none => M.throw errNilGen
  | some gen => do
    let d ← M.dim
    M.lift (validatePref pref d)
    let sc ← M.scopeConst i1
    let sv ← M.scopeVar i2
    let cvp := gen (prefVar pref) sc.asString sv
    validateM [sc]
    M.lift (indexed pref [sc])
    if pref.length = 0 then M.throw (.panic "index out of range")
    else emit [.con (heprConstVarCon sc sv cvp pref), .sem [[P cvp 0 0]]]

/-- query/extensions/hepr/var_const.go:53-106: the consistency clauses. -/
def heprVarConstCon (sv : QVar) (sc : QConst) (vcp : QVar) (pref : List Int) : List SClause :=
  let plen := pref.length
  let idx := prefAt pref (plen - 1)
  (if sc.at idx.toNat ≠ BOT then
    [[N vcp 0 (plen - 1), N sv idx BOT], [P vcp 0 (plen - 1), P sv idx BOT]]
   else [[P vcp 0 (plen - 1)]]) ++
  (downFrom plen).flatMap fun (i : Nat) =>
    let idx := prefAt pref i
    if sc.at idx.toNat ≠ BOT then
      [[P sv idx BOT, N vcp 0 (i + 1), P vcp 0 i], [N vcp 0 i, N sv idx BOT],
       [N vcp 0 i, P vcp 0 (i + 1)]]
    else
      [[N sv idx BOT, P vcp 0 (i + 1), N vcp 0 i], [P vcp 0 i, P sv idx BOT],
       [P vcp 0 i, N vcp 0 (i + 1)]]

/-- query/extensions/hepr/var_const.go:22-109 `VarConst.Encoding`. -/
def heprVarConst (i1 : QVar) (i2 : QConst) (pref : List Int)
    (gen : Option (QVar → QVar → QVar → QVar)) : M CNF :=
  match gen with
  | none => M.throw errNilGen
  | some gen => do
    let d ← M.dim
    M.lift (validatePref pref d)
    let sv ← M.scopeVar i1
    let sc ← M.scopeConst i2
    let vcp := gen (prefVar pref) sv sc.asString
    validateM [sc]
    M.lift (indexed pref [sc])
    if pref.length = 0 then M.throw (.panic "index out of range")
    else emit [.con (heprVarConstCon sv sc vcp pref), .sem [[P vcp 0 0]]]

/-- query/extensions/hepr/var_var.go:44-98: the consistency clauses. -/
def heprVarVarCon (sv1 sv2 vvp : QVar) (pref : List Int) : List SClause :=
  let plen := pref.length
  let idx := prefAt pref (plen - 1)
  [[N vvp 0 (plen - 1), N sv1 idx BOT, P sv2 idx BOT], [P sv1 idx BOT, P vvp 0 (plen - 1)],
   [N sv2 idx BOT, P vvp 0 (plen - 1)]] ++
  (downFrom plen).flatMap fun (i : Nat) =>
    let idx := prefAt pref i
    [[N sv1 idx BOT, P sv2 idx BOT, N vvp 0 i],
     [N sv1 idx BOT, N vvp 0 i, P vvp 0 (i + 1)],
     [P sv2 idx BOT, N vvp 0 i, P vvp 0 (i + 1)],
     [P sv1 idx BOT, N sv2 idx BOT, P vvp 0 i],
     [P sv1 idx BOT, P vvp 0 i, N vvp 0 (i + 1)],
     [N sv2 idx BOT, P vvp 0 i, N vvp 0 (i + 1)]]

/-- query/extensions/hepr/var_var.go:22-101 `VarVar.Encoding`. -/
def heprVarVar (i1 i2 : QVar) (pref : List Int)
    (gen : Option (QVar → QVar → QVar → QVar)) : M CNF :=
  match gen with
  | none => M.throw errNilGen
  | some gen => do
    let d ← M.dim
    M.lift (validatePref pref d)
    let sv1 ← M.scopeVar i1
    let sv2 ← M.scopeVar i2
    let vvp := gen (prefVar pref) sv1 sv2
    if pref.length = 0 then M.throw (.panic "index out of range")
    else emit [.con (heprVarVarCon sv1 sv2 vvp pref), .sem [[P vvp 0 0]]]

/-! ### leh -/

/-- query/extensions/leh/utils.go:21-27, the loop. -/
def hdCount : List FeatV → List FeatV → Nat
  | v :: vs, w :: ws => (if v ≠ w then 1 else 0) + hdCount vs ws
  | _, _ => 0

/-- query/extensions/leh/utils.go:10-30 `hammingDistCC`. -/
def hammingDistCC (c1 c2 : QConst) : Except Err Nat :=
  if c1.val.length ≠ c2.val.length then
    .error (.msg s!"Mismatched constant dimensions: {c1.val.length} - {c2.val.length}")
  else .ok (hdCount c1.val c2.val)

/-- query/extensions/leh/utils.go:48-104 and 117-173: the clauses of a distance counter `vd`, where
`eq i` is the triple that is true when the features at `i` are equal. -/
def hdClauses (d : Nat) (vd : QVar) (eq : Nat → VarRep) : List SClause :=
  [[N vd 0 0, ⟨true, eq 0⟩], [⟨false, eq 0⟩, P vd 0 0],
   [N vd 0 1, ⟨false, eq 0⟩], [⟨true, eq 0⟩, P vd 0 1]] ++
  ((rng 1 d).flatMap fun (i : Nat) =>
    [[N vd i 0, P vd (i - 1) 0], [N vd i 0, ⟨true, eq i⟩],
     [N vd (i - 1) 0, ⟨false, eq i⟩, P vd i 0]] ++
    (rng 1 (i + 2)).flatMap fun (j : Nat) =>
      [[N vd i j, P vd (i - 1) (j - 1), ⟨true, eq i⟩],
       [N vd i j, P vd (i - 1) j, ⟨false, eq i⟩],
       [P vd i j, N vd (i - 1) (j - 1), ⟨true, eq i⟩],
       [P vd i j, N vd (i - 1) j, ⟨false, eq i⟩]]) ++
  countTooBig d vd

/-- query/extensions/leh/utils.go:32-107 `hammingDistVC`. With dimension 0 `c.Val[0]` of line 50
panics. -/
def hammingDistVC (d : Nat) (v : QVar) (c : QConst) (vcd : QVar) : Except Err (List SClause) :=
  match ValidateConstsDim d [c] with
  | .error e => .error e
  | .ok () =>
    (indexed (0 :: upto d) [c]).map fun _ => hdClauses d vcd fun i => ⟨v, i, c.at i⟩

/-- query/extensions/leh/utils.go:109-176 `hammingDistVV`. -/
def hammingDistVV (d : Nat) (vd vfeq : QVar) : List SClause :=
  hdClauses d vd fun i => ⟨vfeq, i, 0⟩

/-- query/extensions/leh/utils.go:193-230 `fullVarEqualClauses`. -/
def fullVarEqualClauses (d : Nat) (v1 v2 vfeq : QVar) : List SClause :=
  (rng 0 d).flatMap fun (i : Nat) =>
    [[N v1 i ONE, N v2 i ONE, P vfeq i 0],
     [N v1 i ONE, N v2 i ZERO, N vfeq i 0],
     [N v1 i ZERO, N v2 i ONE, N vfeq i 0],
     [N v1 i ZERO, N v2 i ZERO, P vfeq i 0]]

/-- query/extensions/leh/const_var_var.go:66-75 and the same loop in the other variants: distance `a`
is at most distance `b`. -/
def hdLeSem (d : Nat) (a b : QVar) : List SClause :=
  (rng 1 (d + 1)).flatMap fun (i : Nat) => (rng 0 i).map fun (j : Nat) =>
    [N a (d - 1) i, N b (d - 1) j]

/-- query/extensions/leh/const_const_const.go:18-57 `ConstConstConst.Encoding`. Lines 44-46 and 48-50
return the empty CNF and no error if the lengths differ. -/
def lehConstConstConst (i1 i2 i3 : QConst) : M CNF := do
  let sc1 ← M.scopeConst i1
  let sc2 ← M.scopeConst i2
  let sc3 ← M.scopeConst i3
  validateM [sc1, sc2, sc3]
  if !sc1.isFull || !sc2.isFull || !sc3.isFull then retFalse
  else
    match hammingDistCC sc1 sc2 with
    | .error _ => pure {}
    | .ok hd12 =>
      match hammingDistCC sc1 sc3 with
      | .error _ => pure {}
      | .ok hd13 => if hd12 > hd13 then retFalse else retTrue

/-- query/extensions/leh/const_const_var.go:23-74 `ConstConstVar.Encoding`. -/
def lehConstConstVar (i1 i2 : QConst) (i3 : QVar) (gen : Option (QVar → QVar → QVar)) : M CNF :=
  match gen with
  | none => M.throw errNilGen
  | some gen => do
    let d ← M.dim
    let sc1 ← M.scopeConst i1
    let sc2 ← M.scopeConst i2
    let sv ← M.scopeVar i3
    let vc1hd := gen sv sc1.asString
    validateM [sc1, sc2]
    if !sc1.isFull || !sc2.isFull then retFalse
    else do
      let cchd ← M.lift (hammingDistCC sc1 sc2)
      if cchd = 0 then retTrue
      else do
        let hd ← M.lift (hammingDistVC d sv sc1 vc1hd)
        emitF (varFullClauses d sv) [.con hd,
          .sem ((rng 0 cchd).map fun (i : Nat) => [N vc1hd (d - 1) i])]

/-- query/extensions/leh/const_var_const.go:23-74 `ConstVarConst.Encoding`. The distance variable of
line 39 is named after the third constant, and line 60 uses it for the distance to the first. -/
def lehConstVarConst (i1 : QConst) (i2 : QVar) (i3 : QConst) (gen : Option (QVar → QVar → QVar)) :
    M CNF :=
  match gen with
  | none => M.throw errNilGen
  | some gen => do
    let d ← M.dim
    let sc1 ← M.scopeConst i1
    let sc2 ← M.scopeConst i3
    let sv ← M.scopeVar i2
    let vc1hd := gen sv sc2.asString
    validateM [sc1, sc2]
    if !sc1.isFull || !sc2.isFull then retFalse
    else do
      let cchd ← M.lift (hammingDistCC sc1 sc2)
      if cchd = d then retTrue
      else do
        let hd ← M.lift (hammingDistVC d sv sc1 vc1hd)
        emitF (varFullClauses d sv) [.con hd,
          .sem ((rng (cchd + 1) (d + 1)).map fun (i : Nat) => [N vc1hd (d - 1) i])]

/-- query/extensions/leh/const_var_var.go:22-78 `ConstVarVar.Encoding`. -/
def lehConstVarVar (i1 : QConst) (i2 i3 : QVar) (gen : Option (QVar → QVar → QVar)) : M CNF :=
  match gen with
  | none => M.throw errNilGen
  | some gen => do
    let d ← M.dim
    let sc ← M.scopeConst i1
    let sv1 ← M.scopeVar i2
    let sv2 ← M.scopeVar i3
    let v1chd := gen sv1 sc.asString
    let v2chd := gen sv2 sc.asString
    validateM [sc]
    if !sc.isFull then retFalse
    else do
      let hd1 ← M.lift (hammingDistVC d sv1 sc v1chd)
      let hd2 ← M.lift (hammingDistVC d sv2 sc v2chd)
      emit [.sem (varFullClauses d sv1), .sem (varFullClauses d sv2), .con hd1, .con hd2,
        .sem (hdLeSem d v1chd v2chd)]

/-- query/extensions/leh/var_const_const.go:23-76 `VarConstConst.Encoding`. -/
def lehVarConstConst (i1 : QVar) (i2 i3 : QConst) (gen : Option (QVar → QVar → QVar)) : M CNF :=
  match gen with
  | none => M.throw errNilGen
  | some gen => do
    let d ← M.dim
    let sc1 ← M.scopeConst i2
    let sc2 ← M.scopeConst i3
    let sv ← M.scopeVar i1
    let vc1hd := gen sv sc1.asString
    let vc2hd := gen sv sc2.asString
    validateM [sc1, sc2]
    if !sc1.isFull || !sc2.isFull then retFalse
    else do
      let hd1 ← M.lift (hammingDistVC d sv sc1 vc1hd)
      let hd2 ← M.lift (hammingDistVC d sv sc2 vc2hd)
      emitF (varFullClauses d sv) [.con hd1, .con hd2, .sem (hdLeSem d vc1hd vc2hd)]

/-- query/extensions/leh/var_const_var.go:27-81 `VarConstVar.Encoding`. -/
def lehVarConstVar (i1 : QVar) (i2 : QConst) (i3 : QVar) (gen eqGen : Option (QVar → QVar → QVar)) :
    M CNF :=
  match gen, eqGen with
  | some gen, some eqGen => do
    let d ← M.dim
    let sc ← M.scopeConst i2
    let sv1 ← M.scopeVar i1
    let sv2 ← M.scopeVar i3
    let v1chd := gen sv1 sc.asString
    let vvhd := gen sv1 sv2
    let vvef := eqGen sv1 sv2
    validateM [sc]
    if !sc.isFull then retFalse
    else do
      let hd ← M.lift (hammingDistVC d sv1 sc v1chd)
      emit [.sem (varFullClauses d sv1), .sem (varFullClauses d sv2), .touch hd,
        .con (fullVarEqualClauses d sv1 sv2 vvef), .con (hammingDistVV d vvhd vvef), .con hd,
        .sem (hdLeSem d v1chd vvhd)]
  | _, _ => M.throw errNilGen

/-- query/extensions/leh/var_var_const.go:27-77 `VarVarConst.Encoding`. -/
def lehVarVarConst (i1 i2 : QVar) (i3 : QConst) (gen eqGen : Option (QVar → QVar → QVar)) :
    M CNF :=
  match gen, eqGen with
  | some gen, some eqGen => do
    let d ← M.dim
    let sv1 ← M.scopeVar i1
    let sv2 ← M.scopeVar i2
    let sc ← M.scopeConst i3
    let v1chd := gen sv1 sc.asString
    let vvhd := gen sv1 sv2
    let vvef := eqGen sv1 sv2
    validateM [sc]
    if !sc.isFull then retFalse
    else do
      let hd ← M.lift (hammingDistVC d sv1 sc v1chd)
      emit [.sem (varFullClauses d sv1), .sem (varFullClauses d sv2), .touch hd,
        .con (fullVarEqualClauses d sv1 sv2 vvef), .con (hammingDistVV d vvhd vvef), .con hd,
        .sem (hdLeSem d vvhd v1chd)]
  | _, _ => M.throw errNilGen

/-- query/extensions/leh/var_var_var.go:27-71 `VarVarVar.Encoding`. -/
def lehVarVarVar (i1 i2 i3 : QVar) (gen eqGen : Option (QVar → QVar → QVar)) : M CNF :=
  match gen, eqGen with
  | some gen, some eqGen => do
    let d ← M.dim
    let sv1 ← M.scopeVar i1
    let sv2 ← M.scopeVar i2
    let sv3 ← M.scopeVar i3
    let v1v2dh := gen sv1 sv2
    let v1v3dh := gen sv1 sv3
    let v1v2ef := eqGen sv1 sv2
    let v1v3ef := eqGen sv1 sv3
    emit [.sem (varFullClauses d sv1), .sem (varFullClauses d sv2), .sem (varFullClauses d sv3),
      .con (fullVarEqualClauses d sv1 sv2 v1v2ef), .con (fullVarEqualClauses d sv1 sv3 v1v3ef),
      .con (hammingDistVV d v1v2dh v1v2ef), .con (hammingDistVV d v1v3dh v1v3ef),
      .sem (hdLeSem d v1v2dh v1v3dh)]
  | _, _ => M.throw errNilGen

end Goexpdt

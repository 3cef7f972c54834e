import Verif.Spec.Iface
import Verif.Lemmas.Ctx
import Verif.Spec.History
/- The functions over an arbitrary context, with the basic context. -/
namespace Goexpdt
open Spec

namespace Over

/-- The same computation. -/
def Same {α : Type} (m : M α) (m' : MG Ctx α) : Prop := ∀ s, m' s = m s

theorem Same.eq {α : Type} {m : M α} {m' : MG Ctx α} (h : Same m m') : m' = m := funext h

theorem same_pure {α : Type} (a : α) : Same (pure a) (pure a) := fun _ => rfl
theorem same_throw {α : Type} (e : Err) : Same (α := α) (M.throw e) (MG.throw e) := fun _ => rfl
theorem same_lift {α : Type} (r : Except Err α) : Same (M.lift r) (MG.lift r) := fun _ => rfl
theorem same_retTrue : Same Goexpdt.retTrue retTrue := fun _ => rfl
theorem same_retFalse : Same Goexpdt.retFalse retFalse := fun _ => rfl
theorem same_dim : Same M.dim (dim basicI) := fun _ => rfl
theorem same_nodes : Same M.nodes (nodes basicI) := fun _ => rfl
theorem same_topV : Same M.topV (topV basicI) := fun _ => rfl
theorem same_updateTopV (v : Int) : Same (M.updateTopV v) (updateTopV basicI v) := fun _ => rfl
theorem same_cnfVar (v : VarRep) : Same (M.cnfVar v) (cnfVar basicI v) := fun _ => rfl
theorem same_cnfVarExists (v : VarRep) : Same (M.cnfVarExists v) (cnfVarExists basicI v) := fun _ => rfl
theorem same_scopeVar (v : QVar) : Same (M.scopeVar v) (scopeVar basicI v) := fun _ => rfl
theorem same_scopeConst (c : QConst) : Same (M.scopeConst c) (scopeConst basicI c) := fun _ => rfl
theorem same_addVar (v : QVar) : Same (M.addVar v) (addVar basicI v) := fun _ => rfl
theorem same_setScope (i : Int) (v : List FeatV) : Same (M.setScope i v) (setScope basicI i v) := fun _ => rfl

theorem same_bind {α β : Type} {m : M α} {m' : MG Ctx α} {f : α → M β} {f' : α → MG Ctx β} (h : Same m m') (hf : ∀ a, Same (f a) (f' a)) :
    Same (m >>= f) (m' >>= f') := by
  intro s
  have hs := h s
  show MG.bind' m' f' s = M.bind' m f s
  unfold MG.bind' M.bind'
  rw [hs]
  rcases m s with ⟨r, s'⟩
  cases r with
  | ok a => exact hf a s'
  | error e => rfl

theorem same_wrapErr {α : Type} (p : String) {m : M α} {m' : MG Ctx α} (h : Same m m') : Same (M.wrapErr p m) (MG.wrapErr p m') := by
  intro s
  unfold MG.wrapErr M.wrapErr
  rw [h s]
  rcases m s with ⟨r, s'⟩
  cases r <;> rfl

theorem same_ite {α : Type} {p : Prop} [Decidable p] {m n : M α} {m' n' : MG Ctx α} (h : Same m m') (h2 : Same n n') :
    Same (if p then m else n) (if p then m' else n') := by
  split
  · exact h
  · exact h2

theorem same_validateM (cs : List QConst) : Same (Goexpdt.validateM cs) (validateM basicI cs) := same_bind same_dim fun _ => same_lift _

theorem same_allocLit (l : SLit) : Same (Goexpdt.allocLit l) (allocLit basicI l) := same_bind (same_cnfVar _) fun _ => same_pure _

theorem same_allocClause (c : SClause) : Same (Goexpdt.allocClause c) (allocClause basicI c) := by
  induction c with
  | nil => exact same_pure _
  | cons l c ih => exact same_bind (same_allocLit l) fun _ => same_bind ih fun _ => same_pure _

theorem same_allocClauses (c : List SClause) : Same (Goexpdt.allocClauses c) (allocClauses basicI c) := by
  induction c with
  | nil => exact same_pure _
  | cons l c ih => exact same_bind (same_allocClause l) fun _ => same_bind ih fun _ => same_pure _

theorem same_emitFrom (st : List Goexpdt.Step) : ∀ ncnf, Same (Goexpdt.emitFrom ncnf st) (emitFrom basicI ncnf st) := by
  induction st with
  | nil => exact fun _ => same_pure _
  | cons a st ih =>
    intro ncnf
    cases a with
    | touch cls => exact same_bind (same_allocClauses cls) fun _ => ih _
    | sem cls => exact same_bind (same_allocClauses cls) fun _ => ih _
    | con cls => exact same_bind (same_allocClauses cls) fun _ => ih _

theorem same_emit (st : List Goexpdt.Step) : Same (Goexpdt.emit st) (emit basicI st) := same_emitFrom st _
theorem same_emitF (cls : List SClause) (st : List Goexpdt.Step) : Same (Goexpdt.emitF cls st) (emitF basicI cls st) :=
  same_bind (same_allocClauses cls) fun _ => same_emitFrom st _

theorem same_consConstRet (cls : List SClause) : Same (Goexpdt.consConstRet cls) (consConstRet basicI cls) := by
  unfold Goexpdt.consConstRet consConstRet
  exact same_ite same_retTrue (same_emitF _ _)

/-- Decomposes two computations of the same form. -/
macro "sames" : tactic => `(tactic| repeat' (first
  | with_reducible exact same_throw _
  | with_reducible exact same_retTrue
  | with_reducible exact same_retFalse
  | with_reducible exact same_dim
  | with_reducible exact same_nodes
  | with_reducible exact same_lift _
  | with_reducible exact same_pure _
  | with_reducible exact same_topV
  | with_reducible exact same_updateTopV _
  | with_reducible exact same_cnfVar _
  | with_reducible exact same_cnfVarExists _
  | with_reducible exact same_scopeVar _
  | with_reducible exact same_scopeConst _
  | with_reducible exact same_addVar _
  | with_reducible exact same_setScope _ _
  | with_reducible exact same_validateM _
  | with_reducible exact same_consConstRet _
  | with_reducible exact same_emit _
  | with_reducible exact same_emitF _ _
  | with_reducible refine same_ite ?_ ?_
  | with_reducible refine same_bind ?_ (fun _ => ?_)
  | split))

theorem same_atom (a : Atom) : Same a.encode (atom basicI a) := by
  cases a with
  | subs t1 t2 =>
    cases t1 <;> cases t2
    · show Same (Goexpdt.subsConstConst _ _) (subsConstConst basicI _ _); unfold Goexpdt.subsConstConst subsConstConst; sames
    · show Same (Goexpdt.subsConstVar _ _) (subsConstVar basicI _ _); unfold Goexpdt.subsConstVar subsConstVar; sames
    · show Same (Goexpdt.subsVarConst _ _) (subsVarConst basicI _ _); unfold Goexpdt.subsVarConst subsVarConst; sames
    · show Same (Goexpdt.subsVarVar _ _) (subsVarVar basicI _ _); unfold Goexpdt.subsVarVar subsVarVar; sames
  | lel t1 t2 g =>
    cases t1 <;> cases t2
    · show Same (Goexpdt.lelConstConst _ _) (lelConstConst basicI _ _); unfold Goexpdt.lelConstConst lelConstConst; sames
    · show Same (Goexpdt.lelConstVar _ _ _) (lelConstVar basicI _ _ _); unfold Goexpdt.lelConstVar lelConstVar; sames
    · show Same (Goexpdt.lelVarConst _ _ _) (lelVarConst basicI _ _ _); unfold Goexpdt.lelVarConst lelVarConst; sames
    · show Same (Goexpdt.lelVarVar _ _ _) (lelVarVar basicI _ _ _); unfold Goexpdt.lelVarVar lelVarVar; sames
  | isnode t1 g =>
    cases t1
    · show Same (Goexpdt.isnodeConst _) (isnodeConst basicI _); unfold Goexpdt.isnodeConst isnodeConst; sames
    · show Same (Goexpdt.isnodeVar _ _) (isnodeVar basicI _ _); unfold Goexpdt.isnodeVar isnodeVar; sames
  | full t1 =>
    cases t1
    · show Same (Goexpdt.fullConst _) (fullConst basicI _); unfold Goexpdt.fullConst fullConst; sames
    · show Same (Goexpdt.fullVar _) (fullVar basicI _); unfold Goexpdt.fullVar fullVar; sames
  | cons t1 t2 =>
    cases t1 <;> cases t2
    · show Same (Goexpdt.consConstConst _ _) (consConstConst basicI _ _); unfold Goexpdt.consConstConst consConstConst; sames
    · show Same (Goexpdt.consConstVar _ _) (consConstVar basicI _ _); unfold Goexpdt.consConstVar consConstVar; sames
    · show Same (Goexpdt.consVarConst _ _) (consVarConst basicI _ _); unfold Goexpdt.consVarConst consVarConst; sames
    · show Same (Goexpdt.consVarVar _ _) (consVarVar basicI _ _); unfold Goexpdt.consVarVar consVarVar; sames
  | allcomp t1 b g =>
    cases t1
    · show Same (Goexpdt.allcompConst _ _) (allcompConst basicI _ _); unfold Goexpdt.allcompConst allcompConst; sames
    · show Same (Goexpdt.allcompVar _ _ _) (allcompVar basicI _ _ _); unfold Goexpdt.allcompVar allcompVar; sames
  | dfs t1 =>
    cases t1
    · show Same (Goexpdt.dfsConst _) (dfsConst basicI _); unfold Goexpdt.dfsConst dfsConst; sames
    · show Same (Goexpdt.dfsVar _) (dfsVar basicI _); unfold Goexpdt.dfsVar dfsVar; sames
  | hepr t1 t2 p g =>
    cases t1 <;> cases t2
    · show Same (Goexpdt.heprConstConst _ _ _) (heprConstConst basicI _ _ _); unfold Goexpdt.heprConstConst heprConstConst; sames
    · show Same (Goexpdt.heprConstVar _ _ _ _) (heprConstVar basicI _ _ _ _); unfold Goexpdt.heprConstVar heprConstVar; sames
    · show Same (Goexpdt.heprVarConst _ _ _ _) (heprVarConst basicI _ _ _ _); unfold Goexpdt.heprVarConst heprVarConst; sames
    · show Same (Goexpdt.heprVarVar _ _ _ _) (heprVarVar basicI _ _ _ _); unfold Goexpdt.heprVarVar heprVarVar; sames
  | leh t1 t2 t3 g e =>
    cases t1 <;> cases t2 <;> cases t3
    · show Same (Goexpdt.lehConstConstConst _ _ _) (lehConstConstConst basicI _ _ _); unfold Goexpdt.lehConstConstConst lehConstConstConst
      refine same_bind (same_scopeConst _) fun c1 => same_bind (same_scopeConst _) fun c2 => same_bind (same_scopeConst _) fun c3 =>
        same_bind (same_validateM _) fun _ => same_ite same_retFalse ?_
      cases hammingDistCC c1 c2 with
      | error e => exact same_pure _
      | ok a =>
        cases hammingDistCC c1 c3 with
        | error e => exact same_pure _
        | ok b => exact same_ite same_retFalse same_retTrue
    · show Same (Goexpdt.lehConstConstVar _ _ _ _) (lehConstConstVar basicI _ _ _ _); unfold Goexpdt.lehConstConstVar lehConstConstVar; sames
    · show Same (Goexpdt.lehConstVarConst _ _ _ _) (lehConstVarConst basicI _ _ _ _); unfold Goexpdt.lehConstVarConst lehConstVarConst; sames
    · show Same (Goexpdt.lehConstVarVar _ _ _ _) (lehConstVarVar basicI _ _ _ _); unfold Goexpdt.lehConstVarVar lehConstVarVar; sames
    · show Same (Goexpdt.lehVarConstConst _ _ _ _) (lehVarConstConst basicI _ _ _ _); unfold Goexpdt.lehVarConstConst lehVarConstConst; sames
    · show Same (Goexpdt.lehVarConstVar _ _ _ _ _) (lehVarConstVar basicI _ _ _ _ _); unfold Goexpdt.lehVarConstVar lehVarConstVar
      cases g <;> cases e <;> sames
    · show Same (Goexpdt.lehVarVarConst _ _ _ _ _) (lehVarVarConst basicI _ _ _ _ _); unfold Goexpdt.lehVarVarConst lehVarVarConst
      cases g <;> cases e <;> sames
    · show Same (Goexpdt.lehVarVarVar _ _ _ _ _) (lehVarVarVar basicI _ _ _ _ _); unfold Goexpdt.lehVarVarVar lehVarVarVar
      cases g <;> cases e <;> sames

theorem same_reqAllFeats (v : QVar) : ∀ (n : Nat) (i : Nat), Same (Goexpdt.reqAllFeats v i n) (reqAllFeats basicI v i n)
  | 0, _ => same_pure _
  | n + 1, i => by
    unfold Goexpdt.reqAllFeats reqAllFeats
    exact same_bind (same_cnfVar _) fun _ => same_bind (same_cnfVar _) fun _ => same_bind (same_cnfVar _) fun _ =>
      same_bind (same_reqAllFeats v n (i + 1)) fun _ => same_pure _

theorem same_reqOnePerFeat (v : QVar) : ∀ (n : Nat) (i : Nat) (ncnf : CNF), Same (Goexpdt.reqOnePerFeat v i n ncnf) (reqOnePerFeat basicI v i n ncnf)
  | 0, _, _ => same_pure _
  | n + 1, i, ncnf => by
    unfold Goexpdt.reqOnePerFeat reqOnePerFeat
    exact same_bind (same_cnfVar _) fun _ => same_bind (same_cnfVar _) fun _ => same_bind (same_cnfVar _) fun _ =>
      same_bind (same_cnfVar _) fun _ => same_bind (same_cnfVar _) fun _ => same_bind (same_cnfVar _) fun _ => same_reqOnePerFeat v n (i + 1) _

theorem same_encodeI (x : QVar) : Same (Goexpdt.encodeI x) (encodeI basicI x) := by
  unfold Goexpdt.encodeI encodeI
  exact same_bind (same_scopeVar _) fun _ => same_bind (same_cnfVarExists _) fun _ => same_ite (same_pure _)
    (same_bind same_dim fun _ => same_bind (same_reqAllFeats _ _ _) fun _ => same_reqOnePerFeat _ _ _ _)

theorem same_forallLoop {q : M CNF} {q' : MG Ctx CNF} (h : Same q q') (nodes : List Node) :
    ∀ (fuel : Nat) (w : WalkSt) (i : Int) (ncnf : CNF), Same (Goexpdt.forallLoop q nodes fuel w i ncnf) (forallLoop basicI q' nodes fuel w i ncnf)
  | 0, _, _, _ => same_throw _
  | fuel + 1, w, i, ncnf => by
    unfold Goexpdt.forallLoop forallLoop
    cases walkNext nodes (nextFuel nodes) w with
    | error e => exact same_throw _
    | ok o =>
      cases o with
      | none => exact same_pure _
      | some w' => exact same_bind (same_setScope _ _) fun _ => same_bind h fun _ => same_forallLoop h nodes fuel _ _ _

theorem same_forallBody {q : M CNF} {q' : MG Ctx CNF} (h : Same q q') : Same (Goexpdt.forallBody q) (forallBody basicI q') := by
  unfold Goexpdt.forallBody forallBody
  exact same_bind same_dim fun _ => same_bind same_nodes fun _ => same_bind (same_lift _) fun _ => same_forallLoop h _ _ _ _ _

theorem same_forallBuild (c : QConst) {q : M CNF} {q' : MG Ctx CNF} (h : Same q q') : Same (Goexpdt.forallBuild c q) (forallBuild basicI c q') := by
  intro s
  unfold Goexpdt.forallBuild forallBuild
  have e := same_forallBody h (s.addScope c.id)
  have e2 : ∀ t, basicI.popScope t = t.popScope := fun _ => rfl
  rw [show basicI.addScope c.id s = (.ok (), s.addScope c.id) from rfl]
  dsimp only
  rw [e, e2]
  rcases (Goexpdt.forallBody q (s.addScope c.id)).2.popScope with ⟨r, s'⟩
  cases r <;> rfl

/-- The same component. -/
def SameC : Option (M CNF) → CompG Ctx → Prop
  | none, none => True
  | some m, some m' => Same m m'
  | _, _ => False

theorem same_comp (q : Query) : SameC q.comp (comp basicI q) := by
  induction q with
  | nil => trivial
  | atom a => exact same_atom a
  | and q1 q2 i1 i2 =>
    refine same_wrapErr _ ?_
    revert i1 i2
    rcases q1.comp with _ | m1 <;> rcases comp basicI q1 with _ | n1 <;> rcases q2.comp with _ | m2 <;> rcases comp basicI q2 with _ | n2 <;> intro i1 i2 <;>
      first
      | exact i1.elim
      | exact i2.elim
      | exact same_throw _
      | exact same_bind (same_wrapErr _ i1) fun _ => same_bind (same_wrapErr _ i2) fun _ => same_pure _
  | or q1 q2 i1 i2 =>
    refine same_wrapErr _ ?_
    revert i1 i2
    rcases q1.comp with _ | m1 <;> rcases comp basicI q1 with _ | n1 <;> rcases q2.comp with _ | m2 <;> rcases comp basicI q2 with _ | n2 <;> intro i1 i2 <;>
      first
      | exact i1.elim
      | exact i2.elim
      | exact same_throw _
      | exact same_bind (same_wrapErr _ i1) fun _ => same_bind (same_wrapErr _ i2) fun _ => same_bind same_topV fun _ =>
          same_bind (same_updateTopV _) fun _ => same_bind same_topV fun _ => same_bind (same_updateTopV _) fun _ =>
          same_bind same_topV fun _ => same_bind (same_updateTopV _) fun _ => same_pure _
  | not q i1 =>
    refine same_wrapErr _ ?_
    revert i1
    rcases q.comp with _ | m1 <;> rcases comp basicI q with _ | n1 <;> intro i1 <;>
      first
      | exact i1.elim
      | exact same_throw _
      | exact same_bind i1 fun _ => same_bind same_topV fun _ => same_bind (same_updateTopV _) fun _ => same_pure _
  | withVar x q i1 =>
    refine same_wrapErr _ ?_
    revert i1
    rcases q.comp with _ | m1 <;> rcases comp basicI q with _ | n1 <;> intro i1 <;>
      first
      | exact i1.elim
      | exact same_throw _
      | exact same_bind (same_addVar _) fun _ => same_bind (same_encodeI _) fun _ => same_bind i1 fun _ => same_pure _
  | forallG c q i1 =>
    refine same_wrapErr _ ?_
    revert i1
    rcases q.comp with _ | m1 <;> rcases comp basicI q with _ | n1 <;> intro i1 <;>
      first
      | exact i1.elim
      | exact same_throw _
      | exact same_forallBuild _ i1

theorem same_encode (q : Query) : Same q.encode (encode basicI q) := by
  unfold Query.encode encode
  have h := same_comp q
  revert h
  rcases q.comp with _ | m1 <;> rcases comp basicI q with _ | n1 <;> intro h
  · exact same_throw _
  · exact h.elim
  · exact h.elim
  · exact h

end Over

/-! ### The contract -/

/-- The basic context, with names that start with `pre` and with `k` numbers left out after each (for `k = 0` and no prefix it is the basic
context). -/
def spacedI (pre : List Char) (k : Nat) : QContext Ctx := { basicI with
  scopeVar := fun v s => (match s.scopeVar v with
    | .ok n => .ok (pre ++ n)
    | .error e => .error e, s)
  cnfVar := fun vr s => (.ok (s.cnfVar vr).1, match mapGet s.vmap vr with
    | some _ => s
    | none => { s with topv := s.topv + 1 + k, vmap := (vr, s.topv + 1) :: s.vmap }) }

theorem spacedI_basic : spacedI [] 0 = basicI := by
  have e1 : (spacedI [] 0).scopeVar = basicI.scopeVar := by
    funext v s
    show (match s.scopeVar v with
      | .ok n => .ok ([] ++ n)
      | .error e => .error e, s) = (s.scopeVar v, s)
    cases s.scopeVar v <;> rfl
  have e2 : (spacedI [] 0).cnfVar = basicI.cnfVar := by
    funext vr s
    show (_, _) = (_, _)
    unfold Ctx.cnfVar
    cases mapGet s.vmap vr <;> simp
  show (⟨(spacedI [] 0).scopeVar, _, _, _, _, _, _, _, (spacedI [] 0).cnfVar, _, _, _, _⟩ : QContext Ctx) = _
  rw [e1, e2]

/-- The names it gives. -/
def spacedName (pre : List Char) (x : QVar) (p : ScopePath) : QVar := pre ++ (x ++ p.flatMap fun g => [sep] ++ g.1 ++ [sep] ++ itoa g.2)

theorem spacedName_path (pre : List Char) (x : QVar) (gs : List Scope) : spacedName pre x (pathOf gs) = pre ++ (x ++ suffix gs) := by
  unfold spacedName suffix pathOf
  rw [List.flatMap_map]

/-- What matters of a state. -/
def ctxView (s : Ctx) : View := ⟨s.scopes, fun x => (mapGet s.vars x).getD 0, mapGet s.vmap, s.topv⟩

/-- The states. -/
structure CtxInv (d : Nat) (nodes : List Node) (s : Ctx) : Prop where
  dim : s.dim = d
  nodes : s.nodes = nodes
  scope : ScopeOk s
  fn : VarsFun s

theorem exec_dim (op : Op) (s : Ctx) : (op.exec s).dim = s.dim := by
  cases op with
  | cnfVar vr => unfold Op.exec Ctx.cnfVar; dsimp only; split <;> rfl
  | updateTopV v => unfold Op.exec Ctx.updateTopV; dsimp only; split <;> rfl
  | addVar v => unfold Op.exec Ctx.addVar; dsimp only; split <;> (try split) <;> rfl
  | addScope t => rfl
  | popScope => unfold Op.exec Ctx.popScope; dsimp only; split <;> rfl
  | setScope i val => unfold Op.exec Ctx.setScope; dsimp only; split <;> rfl
  | reset => rfl

theorem exec_nodes (op : Op) (s : Ctx) : (op.exec s).nodes = s.nodes := by
  cases op with
  | cnfVar vr => unfold Op.exec Ctx.cnfVar; dsimp only; split <;> rfl
  | updateTopV v => unfold Op.exec Ctx.updateTopV; dsimp only; split <;> rfl
  | addVar v => unfold Op.exec Ctx.addVar; dsimp only; split <;> (try split) <;> rfl
  | addScope t => rfl
  | popScope => unfold Op.exec Ctx.popScope; dsimp only; split <;> rfl
  | setScope i val => unfold Op.exec Ctx.setScope; dsimp only; split <;> rfl
  | reset => rfl

theorem scopeConst_val (c : QConst) : ∀ gs : List Scope, (Ctx.scopeConstLoop c gs).1.val = resolve gs c
  | [] => rfl
  | g :: gs => by
    unfold Ctx.scopeConstLoop resolve
    by_cases h : g.target = c.id
    · simp [h]
    · rw [if_neg h, scopeConst_val c gs]
      unfold resolve
      simp [h]

theorem CtxInv.exec {d : Nat} {nodes : List Node} {s : Ctx} (h : CtxInv d nodes s) (op : Op) (hr : op ≠ .reset) : CtxInv d nodes (op.exec s) := by
  refine ⟨?_, ?_, exec_scopeOk op s hr h.fn h.scope, exec_varsFun op s h.fn⟩
  · rw [exec_dim op s]; exact h.dim
  · rw [exec_nodes op s]; exact h.nodes

theorem spaced_contract (d : Nat) (nodes : List Node) (pre : List Char) (k : Nat) :
    CtxContract d nodes (spacedI pre k) (CtxInv d nodes) ctxView (spacedName pre) where
  dim s h := ⟨_, _, rfl, h, h.dim, rfl⟩
  nodes s h := ⟨_, _, rfl, h, h.nodes, rfl⟩
  scopeVar s x h _ := by
    refine ⟨pre ++ (x ++ suffix (s.scopes.take ((mapGet s.vars x).getD 0))), s, ?_, h, ?_, rfl⟩
    · unfold spacedI
      dsimp only
      rw [scopeVar_eq h.scope]
    · exact (spacedName_path _ _ _).symm
  addVar s x h := by
    refine ⟨_, _, rfl, h.exec (.addVar x) (by simp), ?_⟩
    have e : ∀ y, (mapGet (s.addVar x).vars y).getD 0 =
        if y = x ∧ (mapGet s.vars x).getD 0 = 0 then s.scopes.length else (mapGet s.vars y).getD 0 := by
      intro y
      rw [addVar_vars]
      cases hx : mapGet s.vars x with
      | none =>
        by_cases hy : x = y
        · subst hy
          by_cases hs : s.scopes = []
          · simp [hs, hx]
          · simp [hs]
        · have : y ≠ x := fun e => hy e.symm
          simp [hy, this]
      | some n =>
        have := h.scope x n hx
        have h0 : n ≠ 0 := by omega
        simp [h0]
    unfold ctxView
    simp only [e]
    unfold Ctx.addVar
    split
    · rfl
    · split <;> rfl
  scopeConst s c h := ⟨_, _, rfl, h, scopeConst_val c s.scopes, rfl⟩
  addScope s t h := ⟨_, _, rfl, h.exec (.addScope t) (by simp), rfl⟩
  popScope s gs g h e := by
    have e : s.scopes = gs ++ [g] := e
    have hne : s.scopes ≠ [] := by rw [e]; simp
    have hp : s.popScope = (.ok (), s.popScope.2) := by
      unfold Ctx.popScope
      rw [if_neg (by simpa using hne)]
    refine ⟨(), s.popScope.2, hp, h.exec .popScope (by simp), ?_⟩
    have hl : ∀ y, (mapGet s.popScope.2.vars y).getD 0 = if (mapGet s.vars y).getD 0 = gs.length + 1 then 0 else (mapGet s.vars y).getD 0 := by
      intro y
      rw [popScope_vars h.fn hne, e, List.length_append]
      cases mapGet s.vars y with
      | none => simp
      | some n =>
        dsimp only [Option.getD]
        by_cases hn : n = gs.length + 1 <;> simp [hn]
    unfold ctxView
    simp only [hl, popScope_scopes]
    unfold Ctx.popScope
    rw [if_neg (by simpa using hne), e, List.dropLast_concat]
  setScope s i val gs g h e := by
    have e : s.scopes = gs ++ [g] := e
    have hne : s.scopes ≠ [] := by rw [e]; simp
    have hp : s.setScope i val = (.ok (), { s with scopes := gs ++ [{ g with vIdx := i, value := val }] }) := by
      unfold Ctx.setScope
      rw [if_neg (by simpa using hne), e, setLast_append]
    refine ⟨(), _, hp, ?_, rfl⟩
    have : CtxInv d nodes (s.setScope i val).2 := h.exec (.setScope i val) (by simp)
    rw [hp] at this
    exact this
  topV s h := ⟨_, _, rfl, h, rfl, rfl⟩
  updateTopV s v h := by
    refine ⟨_, _, rfl, h.exec (.updateTopV v) (by simp), ?_⟩
    unfold ctxView Ctx.updateTopV
    by_cases hv : s.topv > v
    · rw [if_pos hv]
      exact ⟨Int.le_refl _, by dsimp only; omega, rfl⟩
    · rw [if_neg hv]
      exact ⟨by dsimp only; omega, Int.le_refl _, rfl⟩
  known s vr n h e := by
    have e : mapGet s.vmap vr = some n := e
    refine ⟨n, s, ?_, h, rfl, rfl⟩
    unfold spacedI Ctx.cnfVar
    dsimp only
    rw [e]
  new s vr h e := by
    have e : mapGet s.vmap vr = none := e
    refine ⟨s.topv + 1, { s with topv := s.topv + 1 + k, vmap := (vr, s.topv + 1) :: s.vmap }, ?_, ⟨h.dim, h.nodes, h.scope, h.fn⟩, ?_, ?_, ?_⟩
    · unfold spacedI Ctx.cnfVar
      dsimp only
      rw [e]
    · show s.topv < s.topv + 1; omega
    · show s.topv + 1 ≤ s.topv + 1 + k; omega
    · unfold ctxView
      dsimp only
      congr
      funext vr'
      rw [mapGet_cons]
      unfold upd
      by_cases hv : vr' = vr
      · rw [if_pos hv, if_pos hv.symm]
      · rw [if_neg hv, if_neg (fun e => hv e.symm)]
  exist s vr h := ⟨_, _, rfl, h, rfl, rfl⟩

theorem basic_contract (d : Nat) (nodes : List Node) : CtxContract d nodes basicI (CtxInv d nodes) ctxView (spacedName []) :=
  spacedI_basic ▸ spaced_contract d nodes [] 0

theorem unused_start (d : Nat) (nodes : List Node) {top : Int} (h : 0 ≤ top) :
    Unused (CtxInv d nodes) ctxView { BasicQContext d nodes with topv := top } where
  inv := ⟨rfl, rfl, (fun v k h => by cases h), (fun v k h => by cases h)⟩
  scopes := rfl
  level _ := rfl
  num _ := rfl
  top := h

end Goexpdt

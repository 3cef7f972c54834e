import Verif.Spec.Shared
import Verif.Lemmas.Ctx
/- Contexts whose scopes hold references compute the same as those that hold values. -/
namespace Goexpdt

variable {pl : Place} {v : QConst → List FeatV}

/-- The references are to arrays in use, and the program's constants have the values `v`. -/
structure Sound (pl : Place) (v : QConst → List FeatV) (s : RCtx) : Prop where
  refs : ∀ g ∈ s.scopes, ∀ a, g.value = some a → a < s.mem.next
  consts : ∀ c a, pl c = some a → a < s.mem.next ∧ s.mem.cells a = v c
  own : ∀ c, pl c = none → v c = c.val

/-- Arrays that were in use are as before, and so are the scopes. -/
structure Kept (s s' : RCtx) : Prop where
  next : s.mem.next ≤ s'.mem.next
  cells : ∀ a < s.mem.next, s'.mem.cells a = s.mem.cells a
  scopes : s'.scopes = s.scopes

theorem Kept.refl (s : RCtx) : Kept s s := ⟨Nat.le_refl _, fun _ _ => rfl, rfl⟩

theorem Kept.trans {s s' s'' : RCtx} (h : Kept s s') (h' : Kept s' s'') : Kept s s'' :=
  ⟨Nat.le_trans h.next h'.next, fun a ha => (h'.cells a (Nat.lt_of_lt_of_le ha h.next)).trans (h.cells a ha), h'.scopes.trans h.scopes⟩

theorem Sound.kept {s s' : RCtx} (h : Sound pl v s) (k : Kept s s') : Sound pl v s' where
  refs g hg a ha := Nat.lt_of_lt_of_le (h.refs g (k.scopes ▸ hg) a ha) k.next
  consts c a hc := ⟨Nat.lt_of_lt_of_le (h.consts c a hc).1 k.next, (k.cells a (h.consts c a hc).1).trans (h.consts c a hc).2⟩
  own := h.own

theorem kept_put (s : RCtx) (t : Ctx) : Kept s (s.put t) := ⟨Nat.le_refl _, fun _ _ => rfl, rfl⟩

theorem load_put {s : RCtx} {t : Ctx} (h : t.scopes = s.load.scopes) : (s.put t).load = t := by
  cases t
  simp only [RCtx.load] at h
  simp [RCtx.load, RCtx.put, h]

/-- The same result, and the same context up to the arrays. -/
def Loads {α : Type} (pl : Place) (v : QConst → List FeatV) (m : M α) (m' : MG RCtx α) : Prop :=
  ∀ s, Sound pl v s → (m' s).1 = (m s.load).1 ∧ (m' s).2.load = (m s.load).2 ∧ Kept s (m' s).2

namespace Over

theorem loads_pure {α : Type} (a : α) : Loads pl v (pure a) (pure a) := fun s _ => ⟨rfl, rfl, Kept.refl s⟩
theorem loads_throw {α : Type} (e : Err) : Loads (α := α) pl v (M.throw e) (MG.throw e) := fun s _ => ⟨rfl, rfl, Kept.refl s⟩
theorem loads_lift {α : Type} (r : Except Err α) : Loads pl v (M.lift r) (MG.lift r) := fun s _ => ⟨rfl, rfl, Kept.refl s⟩
theorem loads_retTrue : Loads pl v Goexpdt.retTrue retTrue := loads_pure _
theorem loads_retFalse : Loads pl v Goexpdt.retFalse retFalse := loads_pure _
theorem loads_dim : Loads pl v M.dim (dim (refI pl)) := fun s _ => ⟨rfl, rfl, Kept.refl s⟩
theorem loads_nodes : Loads pl v M.nodes (nodes (refI pl)) := fun s _ => ⟨rfl, rfl, Kept.refl s⟩
theorem loads_topV : Loads pl v M.topV (topV (refI pl)) := fun s _ => ⟨rfl, rfl, Kept.refl s⟩
theorem loads_updateTopV (x : Int) : Loads pl v (M.updateTopV x) (updateTopV (refI pl) x) := fun s _ =>
  ⟨rfl, load_put (by unfold Ctx.updateTopV; split <;> rfl), kept_put s _⟩
theorem loads_cnfVar (x : VarRep) : Loads pl v (M.cnfVar x) (cnfVar (refI pl) x) := fun s _ =>
  ⟨rfl, load_put (by unfold Ctx.cnfVar; split <;> rfl), kept_put s _⟩
theorem loads_cnfVarExists (x : VarRep) : Loads pl v (M.cnfVarExists x) (cnfVarExists (refI pl) x) := fun s _ => ⟨rfl, rfl, Kept.refl s⟩
theorem loads_scopeVar (x : QVar) : Loads pl v (M.scopeVar x) (scopeVar (refI pl) x) := fun s _ => ⟨rfl, rfl, Kept.refl s⟩
theorem loads_addVar (x : QVar) : Loads pl v (M.addVar x) (addVar (refI pl) x) := fun s _ =>
  ⟨rfl, load_put (by unfold Ctx.addVar; split; rfl; split <;> rfl), kept_put s _⟩

theorem scopeConstR_load {m : Mem} (c : QConst) (h : m.const pl c = { c with val := v c }) (gs : List RScope) :
    scopeConstR m pl c gs = Ctx.scopeConstLoop { c with val := v c } (gs.map (RScope.load m)) := by
  induction gs with
  | nil => simp [scopeConstR, Ctx.scopeConstLoop, h]
  | cons g gs ih => simp [scopeConstR, Ctx.scopeConstLoop, ih, RScope.load]

theorem const_sound {s : RCtx} (h : Sound pl v s) (c : QConst) : s.mem.const pl c = { c with val := v c } := by
  unfold Mem.const
  cases hc : pl c with
  | none => rw [h.own c hc]
  | some a => simp [(h.consts c a hc).2]

theorem loads_scopeConst (c : QConst) : Loads pl v (M.scopeConst { c with val := v c }) (scopeConst (refI pl) c) := fun s h =>
  ⟨by show Except.ok (scopeConstR s.mem pl c s.scopes).1 = _; rw [scopeConstR_load c (const_sound h c)]; rfl, rfl, Kept.refl s⟩

theorem loads_bind {α β : Type} {m : M α} {m' : MG RCtx α} {f : α → M β} {f' : α → MG RCtx β} (h : Loads pl v m m') (hf : ∀ a, Loads pl v (f a) (f' a)) :
    Loads pl v (m >>= f) (m' >>= f') := by
  intro s hs
  obtain ⟨h1, h2, h3⟩ := h s hs
  show (MG.bind' m' f' s).1 = (M.bind' m f s.load).1 ∧ (MG.bind' m' f' s).2.load = (M.bind' m f s.load).2 ∧ Kept s (MG.bind' m' f' s).2
  unfold MG.bind' M.bind'
  revert h1 h2 h3
  rcases m' s with ⟨r', s'⟩
  rcases m s.load with ⟨r, t'⟩
  intro h1 h2 h3
  dsimp only at h1 h2 h3
  subst h1 h2
  cases r' with
  | error e => exact ⟨rfl, rfl, h3⟩
  | ok a =>
    obtain ⟨k1, k2, k3⟩ := hf a s' (hs.kept h3)
    exact ⟨k1, k2, h3.trans k3⟩

theorem loads_wrapErr {α : Type} (p : String) {m : M α} {m' : MG RCtx α} (h : Loads pl v m m') : Loads pl v (M.wrapErr p m) (MG.wrapErr p m') := by
  intro s hs
  obtain ⟨h1, h2, h3⟩ := h s hs
  unfold MG.wrapErr M.wrapErr
  revert h1 h2 h3
  rcases m' s with ⟨r', s'⟩
  rcases m s.load with ⟨r, t'⟩
  intro h1 h2 h3
  dsimp only at h1 h2 h3
  subst h1 h2
  cases r' <;> exact ⟨rfl, rfl, h3⟩

theorem loads_ite {α : Type} {p : Prop} [Decidable p] {m n : M α} {m' n' : MG RCtx α} (h : Loads pl v m m') (h2 : Loads pl v n n') :
    Loads pl v (if p then m else n) (if p then m' else n') := by
  split
  · exact h
  · exact h2

theorem loads_validateM (cs : List QConst) : Loads pl v (Goexpdt.validateM cs) (validateM (refI pl) cs) := loads_bind loads_dim fun _ => loads_lift _

theorem loads_allocLit (l : SLit) : Loads pl v (Goexpdt.allocLit l) (allocLit (refI pl) l) := loads_bind (loads_cnfVar _) fun _ => loads_pure _

theorem loads_allocClause (c : SClause) : Loads pl v (Goexpdt.allocClause c) (allocClause (refI pl) c) := by
  induction c with
  | nil => exact loads_pure _
  | cons l c ih => exact loads_bind (loads_allocLit l) fun _ => loads_bind ih fun _ => loads_pure _

theorem loads_allocClauses (c : List SClause) : Loads pl v (Goexpdt.allocClauses c) (allocClauses (refI pl) c) := by
  induction c with
  | nil => exact loads_pure _
  | cons l c ih => exact loads_bind (loads_allocClause l) fun _ => loads_bind ih fun _ => loads_pure _

theorem loads_emitFrom (st : List Goexpdt.Step) : ∀ ncnf, Loads pl v (Goexpdt.emitFrom ncnf st) (emitFrom (refI pl) ncnf st) := by
  induction st with
  | nil => exact fun _ => loads_pure _
  | cons a st ih =>
    intro ncnf
    cases a with
    | touch cls => exact loads_bind (loads_allocClauses cls) fun _ => ih _
    | sem cls => exact loads_bind (loads_allocClauses cls) fun _ => ih _
    | con cls => exact loads_bind (loads_allocClauses cls) fun _ => ih _

theorem loads_emit (st : List Goexpdt.Step) : Loads pl v (Goexpdt.emit st) (emit (refI pl) st) := loads_emitFrom st _
theorem loads_emitF (cls : List SClause) (st : List Goexpdt.Step) : Loads pl v (Goexpdt.emitF cls st) (emitF (refI pl) cls st) :=
  loads_bind (loads_allocClauses cls) fun _ => loads_emitFrom st _

theorem loads_consConstRet (cls : List SClause) : Loads pl v (Goexpdt.consConstRet cls) (consConstRet (refI pl) cls) := by
  unfold Goexpdt.consConstRet consConstRet
  exact loads_ite loads_retTrue (loads_emitF _ _)

/-- Decomposes two computations of the same form. -/
macro "loads" : tactic => `(tactic| repeat' (first
  | with_reducible exact loads_throw _
  | with_reducible exact loads_retTrue
  | with_reducible exact loads_retFalse
  | with_reducible exact loads_dim
  | with_reducible exact loads_nodes
  | with_reducible exact loads_lift _
  | with_reducible exact loads_pure _
  | with_reducible exact loads_topV
  | with_reducible exact loads_updateTopV _
  | with_reducible exact loads_cnfVar _
  | with_reducible exact loads_cnfVarExists _
  | with_reducible exact loads_scopeVar _
  | with_reducible exact loads_scopeConst _
  | with_reducible exact loads_addVar _
  | with_reducible exact loads_validateM _
  | with_reducible exact loads_consConstRet _
  | with_reducible exact loads_emit _
  | with_reducible exact loads_emitF _ _
  | with_reducible refine loads_ite ?_ ?_
  | with_reducible refine loads_bind ?_ (fun _ => ?_)
  | split))

theorem loads_atom (a : Atom) : Loads pl v (a.withVals v).encode (atom (refI pl) a) := by
  cases a with
  | subs t1 t2 =>
    cases t1 <;> cases t2
    · show Loads pl v (Goexpdt.subsConstConst _ _) (subsConstConst (refI pl) _ _); unfold Goexpdt.subsConstConst subsConstConst; loads
    · show Loads pl v (Goexpdt.subsConstVar _ _) (subsConstVar (refI pl) _ _); unfold Goexpdt.subsConstVar subsConstVar; loads
    · show Loads pl v (Goexpdt.subsVarConst _ _) (subsVarConst (refI pl) _ _); unfold Goexpdt.subsVarConst subsVarConst; loads
    · show Loads pl v (Goexpdt.subsVarVar _ _) (subsVarVar (refI pl) _ _); unfold Goexpdt.subsVarVar subsVarVar; loads
  | lel t1 t2 g =>
    cases t1 <;> cases t2
    · show Loads pl v (Goexpdt.lelConstConst _ _) (lelConstConst (refI pl) _ _); unfold Goexpdt.lelConstConst lelConstConst; loads
    · show Loads pl v (Goexpdt.lelConstVar _ _ _) (lelConstVar (refI pl) _ _ _); unfold Goexpdt.lelConstVar lelConstVar; loads
    · show Loads pl v (Goexpdt.lelVarConst _ _ _) (lelVarConst (refI pl) _ _ _); unfold Goexpdt.lelVarConst lelVarConst; loads
    · show Loads pl v (Goexpdt.lelVarVar _ _ _) (lelVarVar (refI pl) _ _ _); unfold Goexpdt.lelVarVar lelVarVar; loads
  | isnode t1 g =>
    cases t1
    · show Loads pl v (Goexpdt.isnodeConst _) (isnodeConst (refI pl) _); unfold Goexpdt.isnodeConst isnodeConst; loads
    · show Loads pl v (Goexpdt.isnodeVar _ _) (isnodeVar (refI pl) _ _); unfold Goexpdt.isnodeVar isnodeVar; loads
  | full t1 =>
    cases t1
    · show Loads pl v (Goexpdt.fullConst _) (fullConst (refI pl) _); unfold Goexpdt.fullConst fullConst; loads
    · show Loads pl v (Goexpdt.fullVar _) (fullVar (refI pl) _); unfold Goexpdt.fullVar fullVar; loads
  | cons t1 t2 =>
    cases t1 <;> cases t2
    · show Loads pl v (Goexpdt.consConstConst _ _) (consConstConst (refI pl) _ _); unfold Goexpdt.consConstConst consConstConst; loads
    · show Loads pl v (Goexpdt.consConstVar _ _) (consConstVar (refI pl) _ _); unfold Goexpdt.consConstVar consConstVar; loads
    · show Loads pl v (Goexpdt.consVarConst _ _) (consVarConst (refI pl) _ _); unfold Goexpdt.consVarConst consVarConst; loads
    · show Loads pl v (Goexpdt.consVarVar _ _) (consVarVar (refI pl) _ _); unfold Goexpdt.consVarVar consVarVar; loads
  | allcomp t1 b g =>
    cases t1
    · show Loads pl v (Goexpdt.allcompConst _ _) (allcompConst (refI pl) _ _); unfold Goexpdt.allcompConst allcompConst; loads
    · show Loads pl v (Goexpdt.allcompVar _ _ _) (allcompVar (refI pl) _ _ _); unfold Goexpdt.allcompVar allcompVar; loads
  | dfs t1 =>
    cases t1
    · show Loads pl v (Goexpdt.dfsConst _) (dfsConst (refI pl) _); unfold Goexpdt.dfsConst dfsConst; loads
    · show Loads pl v (Goexpdt.dfsVar _) (dfsVar (refI pl) _); unfold Goexpdt.dfsVar dfsVar; loads
  | hepr t1 t2 p g =>
    cases t1 <;> cases t2
    · show Loads pl v (Goexpdt.heprConstConst _ _ _) (heprConstConst (refI pl) _ _ _); unfold Goexpdt.heprConstConst heprConstConst; loads
    · show Loads pl v (Goexpdt.heprConstVar _ _ _ _) (heprConstVar (refI pl) _ _ _ _); unfold Goexpdt.heprConstVar heprConstVar; loads
    · show Loads pl v (Goexpdt.heprVarConst _ _ _ _) (heprVarConst (refI pl) _ _ _ _); unfold Goexpdt.heprVarConst heprVarConst; loads
    · show Loads pl v (Goexpdt.heprVarVar _ _ _ _) (heprVarVar (refI pl) _ _ _ _); unfold Goexpdt.heprVarVar heprVarVar; loads
  | leh t1 t2 t3 g e =>
    cases t1 <;> cases t2 <;> cases t3
    · show Loads pl v (Goexpdt.lehConstConstConst _ _ _) (lehConstConstConst (refI pl) _ _ _); unfold Goexpdt.lehConstConstConst lehConstConstConst
      refine loads_bind (loads_scopeConst _) fun c1 => loads_bind (loads_scopeConst _) fun c2 => loads_bind (loads_scopeConst _) fun c3 =>
        loads_bind (loads_validateM _) fun _ => loads_ite loads_retFalse ?_
      cases hammingDistCC c1 c2 with
      | error e => exact loads_pure _
      | ok a =>
        cases hammingDistCC c1 c3 with
        | error e => exact loads_pure _
        | ok b => exact loads_ite loads_retFalse loads_retTrue
    · show Loads pl v (Goexpdt.lehConstConstVar _ _ _ _) (lehConstConstVar (refI pl) _ _ _ _); unfold Goexpdt.lehConstConstVar lehConstConstVar; loads
    · show Loads pl v (Goexpdt.lehConstVarConst _ _ _ _) (lehConstVarConst (refI pl) _ _ _ _); unfold Goexpdt.lehConstVarConst lehConstVarConst; loads
    · show Loads pl v (Goexpdt.lehConstVarVar _ _ _ _) (lehConstVarVar (refI pl) _ _ _ _); unfold Goexpdt.lehConstVarVar lehConstVarVar; loads
    · show Loads pl v (Goexpdt.lehVarConstConst _ _ _ _) (lehVarConstConst (refI pl) _ _ _ _); unfold Goexpdt.lehVarConstConst lehVarConstConst; loads
    · show Loads pl v (Goexpdt.lehVarConstVar _ _ _ _ _) (lehVarConstVar (refI pl) _ _ _ _ _); unfold Goexpdt.lehVarConstVar lehVarConstVar
      cases g <;> cases e <;> loads
    · show Loads pl v (Goexpdt.lehVarVarConst _ _ _ _ _) (lehVarVarConst (refI pl) _ _ _ _ _); unfold Goexpdt.lehVarVarConst lehVarVarConst
      cases g <;> cases e <;> loads
    · show Loads pl v (Goexpdt.lehVarVarVar _ _ _ _ _) (lehVarVarVar (refI pl) _ _ _ _ _); unfold Goexpdt.lehVarVarVar lehVarVarVar
      cases g <;> cases e <;> loads

theorem loads_reqAllFeats (x : QVar) : ∀ (n : Nat) (i : Nat), Loads pl v (Goexpdt.reqAllFeats x i n) (reqAllFeats (refI pl) x i n)
  | 0, _ => loads_pure _
  | n + 1, i => by
    unfold Goexpdt.reqAllFeats reqAllFeats
    exact loads_bind (loads_cnfVar _) fun _ => loads_bind (loads_cnfVar _) fun _ => loads_bind (loads_cnfVar _) fun _ =>
      loads_bind (loads_reqAllFeats x n (i + 1)) fun _ => loads_pure _

theorem loads_reqOnePerFeat (x : QVar) : ∀ (n : Nat) (i : Nat) (ncnf : CNF), Loads pl v (Goexpdt.reqOnePerFeat x i n ncnf) (reqOnePerFeat (refI pl) x i n ncnf)
  | 0, _, _ => loads_pure _
  | n + 1, i, ncnf => by
    unfold Goexpdt.reqOnePerFeat reqOnePerFeat
    exact loads_bind (loads_cnfVar _) fun _ => loads_bind (loads_cnfVar _) fun _ => loads_bind (loads_cnfVar _) fun _ =>
      loads_bind (loads_cnfVar _) fun _ => loads_bind (loads_cnfVar _) fun _ => loads_bind (loads_cnfVar _) fun _ => loads_reqOnePerFeat x n (i + 1) _

theorem loads_encodeI (x : QVar) : Loads pl v (Goexpdt.encodeI x) (encodeI (refI pl) x) := by
  unfold Goexpdt.encodeI encodeI
  exact loads_bind (loads_scopeVar _) fun _ => loads_bind (loads_cnfVarExists _) fun _ => loads_ite (loads_pure _)
    (loads_bind loads_dim fun _ => loads_bind (loads_reqAllFeats _ _ _) fun _ => loads_reqOnePerFeat _ _ _ _)

/-! ### The iterator -/

theorem walkStepR_load (nodes : List Node) (m : Mem) (w : RIter) :
    ∃ ev m' w', walkStepR nodes m w = (ev, m', w') ∧ walkStep nodes (w.load m) = (ev, w'.load m') ∧ m'.next = m.next ∧ w'.t = w.t ∧
      ∀ a, a ≠ w.t → m'.cells a = m.cells a := by
  have hb : ∃ ev m' w', walkBackupR nodes m w = (ev, m', w') ∧ walkBackup nodes (w.load m) = (ev, w'.load m') ∧ m'.next = m.next ∧ w'.t = w.t ∧
      ∀ a, a ≠ w.t → m'.cells a = m.cells a := by
    unfold walkBackupR walkBackup
    by_cases h : w.cp = 0
    · exact ⟨_, _, _, by rw [if_pos h], by rw [show (w.load m).cp = w.cp from rfl, if_pos h], rfl, rfl, fun _ _ => rfl⟩
    · refine ⟨.moved, m.write w.t (nodeAt nodes (w.prev.getD w.cp 0)).feat.toNat BOT, { w with cp := w.prev.getD w.cp 0 }, by rw [if_neg h], ?_, rfl,
        rfl, fun a ha => if_neg ha⟩
      rw [show (w.load m).cp = w.cp from rfl, if_neg h]
      simp [RIter.load, Mem.write]
  have hd : ∀ ch val, ∃ ev m' w', walkDownR nodes m w ch val = (ev, m', w') ∧ walkDown nodes (w.load m) ch val = (ev, w'.load m') ∧
      m'.next = m.next ∧ w'.t = w.t ∧ ∀ a, a ≠ w.t → m'.cells a = m.cells a := by
    intro ch val
    exact ⟨_, _, _, rfl, by simp [walkDown, RIter.load, Mem.write], rfl, rfl, fun a ha => if_neg ha⟩
  unfold walkStepR walkStep
  simp only [show (w.load m).cp = w.cp from rfl, show (w.load m).visited = w.visited from rfl]
  split
  · split
    · exact hb
    · split
      · exact hd _ _
      · split
        · exact hd _ _
        · exact hb
  · exact ⟨_, _, _, rfl, rfl, rfl, rfl, fun _ _ => rfl⟩

/-- What `Next` returned, with the values that are in the array of the iterator. -/
def nextLoad (m : Mem) : Except Err (Option RIter) → Except Err (Option WalkSt)
  | .error e => .error e
  | .ok none => .ok none
  | .ok (some w) => .ok (some (w.load m))

theorem walkNextR_load (nodes : List Node) : ∀ (fuel : Nat) (m : Mem) (w : RIter),
    walkNext nodes fuel (w.load m) = nextLoad (walkNextR nodes fuel m w).2 (walkNextR nodes fuel m w).1 ∧
      (walkNextR nodes fuel m w).2.next = m.next ∧ (∀ w', (walkNextR nodes fuel m w).1 = .ok (some w') → w'.t = w.t) ∧
      ∀ a, a ≠ w.t → (walkNextR nodes fuel m w).2.cells a = m.cells a
  | 0, m, w => ⟨rfl, rfl, fun _ h => by simp [walkNextR] at h, fun _ _ => rfl⟩
  | fuel + 1, m, w => by
    obtain ⟨ev, m', w', h1, h2, h3, h4, h5⟩ := walkStepR_load nodes m w
    unfold walkNextR walkNext
    rw [h1, h2]
    cases ev with
    | finished => exact ⟨rfl, h3, fun _ h => by simp at h, h5⟩
    | visited => exact ⟨rfl, h3, fun w'' h => by simp at h; rw [← h]; exact h4, h5⟩
    | moved =>
      obtain ⟨k1, k2, k3, k4⟩ := walkNextR_load nodes fuel m' w'
      exact ⟨k1, k2.trans h3, fun w'' h => (k3 w'' h).trans h4, fun a ha => (k4 a (h4 ▸ ha)).trans (h5 a ha)⟩

/-! ### ForAllGuarded -/

/-- The context `t` is `s` up to the values of the innermost scope; the others are `gs`. -/
def Near (gs : List RScope) (s : RCtx) (t : Ctx) : Prop :=
  ∃ g gv, s.scopes = gs ++ [g] ∧ gv.target = g.target ∧ t = { s.load with scopes := gs.map (RScope.load s.mem) ++ [gv] }

/-- The arrays below `b` are as before. -/
def Below (b : Nat) (m m' : Mem) : Prop := m.next ≤ m'.next ∧ ∀ a < b, m'.cells a = m.cells a

theorem Below.trans {b : Nat} {m m' m'' : Mem} (h : Below b m m') (h' : Below b m' m'') : Below b m m'' :=
  ⟨Nat.le_trans h.1 h'.1, fun a ha => (h'.2 a ha).trans (h.2 a ha)⟩

theorem load_below {b : Nat} {m m' : Mem} (h : Below b m m') {gs : List RScope} (hg : ∀ g ∈ gs, ∀ a, g.value = some a → a < b) :
    gs.map (RScope.load m') = gs.map (RScope.load m) := by
  refine List.map_congr_left fun g hgs => ?_
  unfold RScope.load
  congr 1
  cases hv : g.value with
  | none => rfl
  | some a => exact h.2 a (hg g hgs a hv)

theorem setLastR_append (i : Int) (v : Option Nat) (g : RScope) : ∀ gs, setLastR i v (gs ++ [g]) = gs ++ [{ g with vIdx := i, value := v }]
  | [] => rfl
  | [_] => rfl
  | _ :: g' :: gs => by
    have := setLastR_append i v g (g' :: gs)
    simp only [List.cons_append] at this ⊢
    rw [setLastR, this]

theorem setLast_snoc (i : Int) (v : List FeatV) (g : Scope) : ∀ gs, Ctx.setLast i v (gs ++ [g]) = gs ++ [{ g with vIdx := i, value := v }]
  | [] => rfl
  | [_] => rfl
  | _ :: g' :: gs => by
    have := setLast_snoc i v g (g' :: gs)
    simp only [List.cons_append] at this ⊢
    rw [Ctx.setLast, this]

theorem near_of_load {gs : List RScope} {g : RScope} {s : RCtx} (h : s.scopes = gs ++ [g]) : Near gs s s.load :=
  ⟨g, g.load s.mem, h, rfl, by simp [RCtx.load, h]⟩

theorem near_mem {b : Nat} {gs : List RScope} {s : RCtx} {t : Ctx} {m : Mem} (h : Near gs s t) (hb : Below b s.mem m)
    (hg : ∀ g ∈ gs, ∀ a, g.value = some a → a < b) : Near gs { s with mem := m } t := by
  obtain ⟨g, gv, h1, h2, h3⟩ := h
  exact ⟨g, gv, h1, h2, by rw [h3]; simp [RCtx.load, load_below hb hg]⟩

theorem forallLoopR_load {q : M CNF} {q' : MG RCtx CNF} (hq : Loads pl v q q') (nodes : List Node) {b : Nat} {gs : List RScope}
    (hg : ∀ g ∈ gs, ∀ a, g.value = some a → a < b) (how : ∀ c, pl c = none → v c = c.val) :
    ∀ (fuel : Nat) (w : RIter) (i : Int) (ncnf : CNF) (s : RCtx) (t : Ctx), w.t = b → b < s.mem.next → (∀ c a, pl c = some a → a < b ∧ s.mem.cells a = v c) →
      Near gs s t →
      (forallLoopR q' nodes fuel w i ncnf s).1 = (Goexpdt.forallLoop q nodes fuel (w.load s.mem) i ncnf t).1 ∧
      Near gs (forallLoopR q' nodes fuel w i ncnf s).2 (Goexpdt.forallLoop q nodes fuel (w.load s.mem) i ncnf t).2 ∧
      Below b s.mem (forallLoopR q' nodes fuel w i ncnf s).2.mem
  | 0, _, _, _, _, _, _, _, _, hn => ⟨rfl, hn, Nat.le_refl _, fun _ _ => rfl⟩
  | fuel + 1, w, i, ncnf, s, t, hw, hb, hc, hn => by
    obtain ⟨h1, h2, h3, h4⟩ := walkNextR_load nodes (nextFuel nodes) s.mem w
    have hm : Below b s.mem (walkNextR nodes (nextFuel nodes) s.mem w).2 := ⟨Nat.le_of_eq h2.symm, fun a ha => h4 a (by omega)⟩
    unfold forallLoopR Goexpdt.forallLoop
    rw [h1]
    revert h1 h2 h3 h4 hm
    rcases walkNextR nodes (nextFuel nodes) s.mem w with ⟨r, m⟩
    intro h1 h2 h3 h4 hm
    dsimp only at h1 h2 h3 h4 hm ⊢
    cases r with
    | error e => exact ⟨rfl, near_mem hn hm hg, hm⟩
    | ok o =>
      cases o with
      | none => exact ⟨rfl, near_mem hn hm hg, hm⟩
      | some w' =>
        have hw' : w'.t = b := (h3 w' rfl).trans hw
        obtain ⟨g, gv, e1, e2, e3⟩ := hn
        have eS : ({ s with mem := m } : RCtx).setScope i (some w'.t) =
            (.ok (), { s with mem := m, scopes := gs ++ [{ g with vIdx := i, value := some w'.t }] }) := by
          simp [RCtx.setScope, e1, setLastR_append]
        have eT : t.setScope i (w'.load m).t = (.ok (), ({ s with mem := m, scopes := gs ++ [{ g with vIdx := i, value := some w'.t }] } : RCtx).load) := by
          rw [e3]
          simp only [Ctx.setScope, List.length_append, List.length_cons, setLast_snoc, RCtx.load, List.map_append, List.map_cons, List.map_nil]
          rw [if_neg (by omega), load_below hm hg]
          simp [RScope.load, Mem.slice, RIter.load, e2]
        dsimp only [nextLoad]
        rw [eS]
        show _ = (M.bind' (M.setScope i (w'.load m).t) (fun _ => M.bind' q fun icnf => Goexpdt.forallLoop q nodes fuel (w'.load m) (i + 1) (ncnf.conjunction icnf)) t).1 ∧
          Near gs _ (M.bind' (M.setScope i (w'.load m).t) (fun _ => M.bind' q fun icnf => Goexpdt.forallLoop q nodes fuel (w'.load m) (i + 1) (ncnf.conjunction icnf)) t).2 ∧ _
        have eB : M.bind' (M.setScope i (w'.load m).t) (fun _ => M.bind' q fun icnf => Goexpdt.forallLoop q nodes fuel (w'.load m) (i + 1) (ncnf.conjunction icnf)) t =
            M.bind' q (fun icnf => Goexpdt.forallLoop q nodes fuel (w'.load m) (i + 1) (ncnf.conjunction icnf))
              ({ s with mem := m, scopes := gs ++ [{ g with vIdx := i, value := some w'.t }] } : RCtx).load := by
          have eT' : M.setScope i (w'.load m).t t = _ := eT
          simp only [M.bind', eT']
        rw [eB]
        generalize hs2 : ({ s with mem := m, scopes := gs ++ [{ g with vIdx := i, value := some w'.t }] } : RCtx) = s2
        have m2 : s2.mem = m := by rw [← hs2]
        have c2 : s2.scopes = gs ++ [{ g with vIdx := i, value := some w'.t }] := by rw [← hs2]
        have hS : Sound pl v s2 := by
          refine ⟨fun g' hg' a ha => ?_, fun c a hca => ?_, how⟩
          · rw [m2]
            rw [c2, List.mem_append, List.mem_singleton] at hg'
            rcases hg' with hg' | rfl
            · have := hg g' hg' a ha; omega
            · simp only [Option.some.injEq] at ha; omega
          · rw [m2]
            have := hc c a hca
            exact ⟨by omega, (hm.2 a this.1).trans this.2⟩
        obtain ⟨k1, k2, k3⟩ := hq s2 hS
        unfold M.bind'
        revert k1 k2 k3
        show _ → _ → _ → _ = _ ∧ _ ∧ _
        dsimp only
        rcases q' s2 with ⟨r, s3⟩
        rcases q s2.load with ⟨r2, t3⟩
        intro k1 k2 k3
        dsimp only at k1 k2 k3
        subst k1 k2
        have b3 : Below b s.mem s3.mem := hm.trans ⟨m2 ▸ k3.next, fun a ha => (k3.cells a (by rw [m2]; omega)).trans (by rw [m2])⟩
        have n3 : Near gs s3 s3.load := near_of_load (k3.scopes.trans c2)
        cases r with
        | error e => exact ⟨rfl, n3, b3⟩
        | ok icnf =>
          have ew : w'.load m = w'.load s3.mem := by
            simp only [RIter.load]
            rw [k3.cells w'.t (by rw [m2]; omega), m2]
          rw [ew]
          obtain ⟨j1, j2, j3⟩ := forallLoopR_load hq nodes hg how fuel w' (i + 1) (ncnf.conjunction icnf) s3 s3.load hw' (by have := b3.1; omega)
            (fun c a hca => ⟨(hc c a hca).1, (b3.2 a (hc c a hca).1).trans (hc c a hca).2⟩) n3
          exact ⟨j1, j2, b3.trans j3⟩

theorem newIterR_load (d : Nat) (nodes : List Node) (m : Mem) :
    (∃ e, newIterR d nodes m = (.error e, m) ∧ newNodeAsValuesIter d nodes = .error e) ∨
    ∃ w m', newIterR d nodes m = (.ok w, m') ∧ newNodeAsValuesIter d nodes = .ok (w.load m') ∧ w.t = m.next ∧ m'.next = m.next + 1 ∧
      ∀ a < m.next, m'.cells a = m.cells a := by
  unfold newIterR newNodeAsValuesIter
  by_cases h : nodes.length = 0
  · exact .inl ⟨_, by rw [if_pos h], by rw [if_pos h]⟩
  · rw [if_neg h, if_neg h]
    cases validateNodes d nodes.length nodes with
    | error e => exact .inl ⟨e, rfl, rfl⟩
    | ok _ =>
      refine .inr ⟨_, _, rfl, ?_, rfl, rfl, fun a ha => if_neg (by omega)⟩
      simp [WalkSt.init, RIter.load]

theorem loads_forallBuild (c : QConst) {q : M CNF} {q' : MG RCtx CNF} (hq : Loads pl v q q') : Loads pl v (Goexpdt.forallBuild c q) (forallBuildR c q') := by
  intro s hs
  let s1 : RCtx := { s with scopes := s.scopes ++ [{ target := c.id }] }
  have hl : s1.load = s.load.addScope c.id := by simp [s1, RCtx.load, Ctx.addScope, RScope.load, Mem.slice]
  have n1 : Near s.scopes s1 (s.load.addScope c.id) := hl ▸ near_of_load rfl
  have key : (forallBodyR q' s1).1 = (Goexpdt.forallBody q (s.load.addScope c.id)).1 ∧
      Near s.scopes (forallBodyR q' s1).2 (Goexpdt.forallBody q (s.load.addScope c.id)).2 ∧ Below s.mem.next s.mem (forallBodyR q' s1).2.mem := by
    have eB : Goexpdt.forallBody q (s.load.addScope c.id) = M.bind' (M.lift (newNodeAsValuesIter s.dim s.nodes))
        (fun iter => Goexpdt.forallLoop q s.nodes (s.nodes.length + 1) iter 0 {}) (s.load.addScope c.id) := rfl
    rw [eB]
    unfold forallBodyR M.bind' M.lift
    rcases newIterR_load s.dim s.nodes s.mem with ⟨e, e1, e2⟩ | ⟨w, m', e1, e2, e3, e4, e5⟩
    · rw [show newIterR s1.dim s1.nodes s1.mem = _ from e1, e2]
      exact ⟨rfl, n1, Nat.le_refl _, fun _ _ => rfl⟩
    · rw [show newIterR s1.dim s1.nodes s1.mem = _ from e1, e2]
      have hbel : Below s.mem.next s.mem m' := ⟨by omega, e5⟩
      obtain ⟨j1, j2, j3⟩ := forallLoopR_load hq s.nodes (b := s.mem.next) (gs := s.scopes) hs.refs hs.own (s.nodes.length + 1) w 0 {}
        { s1 with mem := m' } (s.load.addScope c.id) e3 (by show _ < m'.next; omega)
        (fun c a hca => ⟨(hs.consts c a hca).1, (e5 a (hs.consts c a hca).1).trans (hs.consts c a hca).2⟩) (near_mem n1 hbel hs.refs)
      exact ⟨j1, j2, hbel.trans j3⟩
  obtain ⟨k1, k2, k3⟩ := key
  have eR : forallBuildR c q' s = (match (forallBodyR q' s1).2.popScope with
    | (.ok (), s') => ((forallBodyR q' s1).1, s')
    | (.error perr, s') => (joinErr (forallBodyR q' s1).1 perr, s')) := rfl
  rw [eR]
  unfold Goexpdt.forallBuild
  revert k1 k2 k3
  rcases forallBodyR q' s1 with ⟨r, s2⟩
  rcases Goexpdt.forallBody q (s.load.addScope c.id) with ⟨r2, t2⟩
  intro k1 k2 k3
  dsimp only at k1 k2 k3 ⊢
  subst k1
  obtain ⟨g, gv, h1, h2, rfl⟩ := k2
  have p1 : s2.popScope = (.ok (), { s2 with vars := s2.vars.filter (fun p => ¬ p.2 = s.scopes.length + 1), scopes := s.scopes }) := by
    simp [RCtx.popScope, h1]
  have p2 : ({ s2.load with scopes := s.scopes.map (RScope.load s2.mem) ++ [gv] } : Ctx).popScope =
      (.ok (), { s2.load with vars := s2.vars.filter (fun p => ¬ p.2 = s.scopes.length + 1), scopes := s.scopes.map (RScope.load s2.mem) }) := by
    simp [Ctx.popScope, RCtx.load]
  rw [p1, p2]
  exact ⟨rfl, rfl, k3.1, k3.2, rfl⟩

/-- The same component. -/
def LoadsC (pl : Place) (v : QConst → List FeatV) : Option (M CNF) → CompG RCtx → Prop
  | none, none => True
  | some m, some m' => Loads pl v m m'
  | _, _ => False

theorem loads_comp (q : Query) : LoadsC pl v (q.withVals v).comp (q.compR pl) := by
  induction q with
  | nil => trivial
  | atom a => exact loads_atom a
  | and q1 q2 i1 i2 =>
    refine loads_wrapErr _ ?_
    revert i1 i2
    rcases (q1.withVals v).comp with _ | m1 <;> rcases q1.compR pl with _ | n1 <;> rcases (q2.withVals v).comp with _ | m2 <;> rcases q2.compR pl with _ | n2 <;> intro i1 i2 <;>
      first
      | exact i1.elim
      | exact i2.elim
      | exact loads_throw _
      | exact loads_bind (loads_wrapErr _ i1) fun _ => loads_bind (loads_wrapErr _ i2) fun _ => loads_pure _
  | or q1 q2 i1 i2 =>
    refine loads_wrapErr _ ?_
    revert i1 i2
    rcases (q1.withVals v).comp with _ | m1 <;> rcases q1.compR pl with _ | n1 <;> rcases (q2.withVals v).comp with _ | m2 <;> rcases q2.compR pl with _ | n2 <;> intro i1 i2 <;>
      first
      | exact i1.elim
      | exact i2.elim
      | exact loads_throw _
      | exact loads_bind (loads_wrapErr _ i1) fun _ => loads_bind (loads_wrapErr _ i2) fun _ => loads_bind loads_topV fun _ =>
          loads_bind (loads_updateTopV _) fun _ => loads_bind loads_topV fun _ => loads_bind (loads_updateTopV _) fun _ =>
          loads_bind loads_topV fun _ => loads_bind (loads_updateTopV _) fun _ => loads_pure _
  | not q i1 =>
    refine loads_wrapErr _ ?_
    revert i1
    rcases (q.withVals v).comp with _ | m1 <;> rcases q.compR pl with _ | n1 <;> intro i1 <;>
      first
      | exact i1.elim
      | exact loads_throw _
      | exact loads_bind i1 fun _ => loads_bind loads_topV fun _ => loads_bind (loads_updateTopV _) fun _ => loads_pure _
  | withVar x q i1 =>
    refine loads_wrapErr _ ?_
    revert i1
    rcases (q.withVals v).comp with _ | m1 <;> rcases q.compR pl with _ | n1 <;> intro i1 <;>
      first
      | exact i1.elim
      | exact loads_throw _
      | exact loads_bind (loads_addVar _) fun _ => loads_bind (loads_encodeI _) fun _ => loads_bind i1 fun _ => loads_pure _
  | forallG c q i1 =>
    refine loads_wrapErr _ ?_
    revert i1
    rcases (q.withVals v).comp with _ | m1 <;> rcases q.compR pl with _ | n1 <;> intro i1 <;>
      first
      | exact i1.elim
      | exact loads_throw _
      | exact loads_forallBuild _ i1

theorem loads_encode (q : Query) : Loads pl v (q.withVals v).encode (q.encodeR pl) := by
  unfold Query.encode Query.encodeR
  have h := loads_comp (pl := pl) (v := v) q
  revert h
  rcases (q.withVals v).comp with _ | m1 <;> rcases q.compR pl with _ | n1 <;> intro h
  · exact loads_throw _
  · exact h.elim
  · exact h.elim
  · exact h

end Over

/-! ### leafsAsConsts -/

/-- Constants with the values that are in the arrays. -/
def constsAt (m : Mem) (l : List Nat) : List QConst := l.map fun a => { val := m.cells a }

theorem constsAt_congr {m m' : Mem} {l : List Nat} (h : ∀ a ∈ l, m'.cells a = m.cells a) : constsAt m' l = constsAt m l :=
  List.map_congr_left fun a ha => by rw [h a ha]

/-- What `leafsLoopR` guarantees: the result has the values of `r'`, and the arrays of the leafs are new, different from each other and from that
of the iterator. -/
structure Leafs (b : Nat) (m m' : Mem) (r : Except Err (List Nat × List Nat)) (r' : Except Err (List QConst × List QConst)) : Prop where
  res : r' = r.map fun p => (constsAt m' p.1, constsAt m' p.2)
  below : Over.Below b m m'
  fresh : ∀ p, r = .ok p → (∀ a ∈ p.1 ++ p.2, b < a ∧ a < m'.next) ∧ (p.1 ++ p.2).Nodup

theorem leafsLoopR_load (d : Nat) (nodes : List Node) {b : Nat} : ∀ (fuel : Nat) (m : Mem) (w : RIter) (pl nl : List Nat), w.t = b → b < m.next →
    (∀ a ∈ pl ++ nl, b < a ∧ a < m.next) → (pl ++ nl).Nodup →
    Leafs b m (leafsLoopR d nodes fuel m w pl nl).2 (leafsLoopR d nodes fuel m w pl nl).1 (leafsLoop nodes fuel (w.load m) (constsAt m pl) (constsAt m nl))
  | 0, m, _, _, _, _, _, _, _ => ⟨rfl, ⟨Nat.le_refl _, fun _ _ => rfl⟩, fun _ h => by simp [leafsLoopR] at h⟩
  | fuel + 1, m, w, pl, nl, hw, hb, hin, hnd => by
    obtain ⟨h1, h2, h3, h4⟩ := Over.walkNextR_load nodes (nextFuel nodes) m w
    unfold leafsLoopR leafsLoop
    rw [h1]
    revert h1 h2 h3 h4
    rcases walkNextR nodes (nextFuel nodes) m w with ⟨r, m1⟩
    intro h1 h2 h3 h4
    dsimp only at h1 h2 h3 h4 ⊢
    have hm : Over.Below b m m1 := ⟨Nat.le_of_eq h2.symm, fun a ha => h4 a (by omega)⟩
    have ep : constsAt m1 pl = constsAt m pl := constsAt_congr fun a ha => h4 a (by have := (hin a (by simp [ha])).1; omega)
    have en : constsAt m1 nl = constsAt m nl := constsAt_congr fun a ha => h4 a (by have := (hin a (by simp [ha])).1; omega)
    cases r with
    | error e => exact ⟨rfl, hm, fun _ h => by simp at h⟩
    | ok o =>
      cases o with
      | none =>
        refine ⟨by simp [Over.nextLoad, Except.map, ep, en], hm, fun p h => ?_⟩
        simp only [Except.ok.injEq] at h
        subst h
        exact ⟨fun a ha => h2 ▸ hin a ha, hnd⟩
      | some w' =>
        have hw' : w'.t = b := (h3 w' rfl).trans hw
        dsimp only [Over.nextLoad]
        rw [show (w'.load m1).cp = w'.cp from rfl]
        by_cases hl : (!(nodeAt nodes w'.cp).isLeaf) = true
        · rw [if_pos hl, if_pos hl, ← ep, ← en]
          obtain ⟨k1, k2, k3⟩ := leafsLoopR_load d nodes fuel m1 w' pl nl hw' (by omega) (fun a ha => h2 ▸ hin a ha) hnd
          exact ⟨k1, hm.trans k2, k3⟩
        · rw [if_neg hl, if_neg hl]
          generalize hm2 : (m1.make d).2.copy (m1.make d).1 w'.t = m2
          have hn2 : m2.next = m.next + 1 := by rw [← hm2, ← h2]; rfl
          have hc2 : ∀ a, a ≠ m1.next → m2.cells a = m1.cells a := by
            intro a ha
            rw [← hm2]
            simp [Mem.copy, Mem.make, ha]
          have ht2 : m2.cells m1.next = m1.cells w'.t := by
            have : w'.t ≠ m1.next := by omega
            rw [← hm2]
            simp [Mem.copy, Mem.make, this]
          have hb2 : Over.Below b m m2 := ⟨by omega, fun a ha => (hc2 a (by omega)).trans (hm.2 a ha)⟩
          have ew : w'.load m1 = w'.load m2 := by simp only [RIter.load]; rw [hc2 w'.t (by omega)]
          have et : ({ val := (w'.load m1).t } : QConst) = { val := m2.cells m1.next } := by rw [ht2]; rfl
          have hold : ∀ a ∈ pl ++ nl, a ≠ m1.next := fun a ha => by have := (hin a ha).2; omega
          have ep2 : constsAt m2 pl = constsAt m pl := (constsAt_congr fun a ha => hc2 a (hold a (by simp [ha]))).trans ep
          have en2 : constsAt m2 nl = constsAt m nl := (constsAt_congr fun a ha => hc2 a (hold a (by simp [ha]))).trans en
          have hnot : m1.next ∉ pl ++ nl := fun h => hold _ h rfl
          by_cases hv : (nodeAt nodes w'.cp).value = true
          · rw [if_pos hv]
            rw [if_pos hv, show (m1.make d).1 = m1.next from rfl, ew, show ({ val := (w'.load m2).t } : QConst) = { val := m2.cells m1.next } from ew ▸ et]
            have e1 : constsAt m pl ++ [{ val := m2.cells m1.next }] = constsAt m2 (pl ++ [m1.next]) := by
              rw [← ep2]; simp [constsAt]
            rw [e1, ← en2]
            obtain ⟨k1, k2, k3⟩ := leafsLoopR_load d nodes fuel m2 w' (pl ++ [m1.next]) nl hw' (by omega)
              (fun a ha => by
                simp only [List.mem_append, List.mem_singleton] at ha
                rcases ha with (ha | ha) | ha
                · have := hin a (by simp [ha]); omega
                · omega
                · have := hin a (by simp [ha]); omega)
              (by
                rw [List.append_assoc]
                refine (List.perm_middle (l₁ := pl) (l₂ := nl) (a := m1.next)).nodup_iff.2 ?_
                exact List.nodup_cons.2 ⟨hnot, hnd⟩)
            exact ⟨k1, hb2.trans k2, k3⟩
          · rw [if_neg hv]
            rw [if_neg hv, show (m1.make d).1 = m1.next from rfl, ew, show ({ val := (w'.load m2).t } : QConst) = { val := m2.cells m1.next } from ew ▸ et]
            have e1 : constsAt m nl ++ [{ val := m2.cells m1.next }] = constsAt m2 (nl ++ [m1.next]) := by
              rw [← en2]; simp [constsAt]
            rw [e1, ← ep2]
            obtain ⟨k1, k2, k3⟩ := leafsLoopR_load d nodes fuel m2 w' pl (nl ++ [m1.next]) hw' (by omega)
              (fun a ha => by
                simp only [List.mem_append, List.mem_singleton] at ha
                rcases ha with ha | ha | ha
                · have := hin a (by simp [ha]); omega
                · have := hin a (by simp [ha]); omega
                · omega)
              (by
                rw [← List.append_assoc]
                refine (List.perm_append_singleton m1.next (pl ++ nl)).nodup_iff.2 ?_
                exact List.nodup_cons.2 ⟨hnot, hnd⟩)
            exact ⟨k1, hb2.trans k2, k3⟩

theorem leafsAsConstsR_load (d : Nat) (nodes : List Node) (m : Mem) :
    ∃ r m', leafsAsConstsR d nodes m = (r, m') ∧ leafsAsConsts d nodes = r.map (fun p => (constsAt m' p.1, constsAt m' p.2)) ∧
      Over.Below m.next m m' ∧ ∀ p, r = .ok p → (∀ a ∈ p.1 ++ p.2, m.next < a ∧ a < m'.next) ∧ (p.1 ++ p.2).Nodup := by
  unfold leafsAsConstsR leafsAsConsts
  cases validateNodes d nodes.length nodes with
  | error e => exact ⟨_, _, rfl, rfl, ⟨Nat.le_refl _, fun _ _ => rfl⟩, fun _ h => by simp at h⟩
  | ok _ =>
    have hb : Over.Below m.next m (m.make d).2 := ⟨Nat.le_succ _, fun a ha => if_neg (by omega)⟩
    show ∃ r m', (if nodes.length = 0 then (.error (.panic "index out of range"), (m.make d).2) else
        leafsLoopR d nodes (nodes.length + 1) (m.make d).2 ⟨m.next, List.replicate nodes.length 0, List.replicate nodes.length false, 0⟩ [] []) = (r, m') ∧ _
    by_cases h : nodes.length = 0
    · exact ⟨_, _, by rw [if_pos h], by rw [if_pos h]; rfl, hb, fun _ h => by simp at h⟩
    · rw [if_neg h, if_neg h]
      obtain ⟨k1, k2, k3⟩ := leafsLoopR_load d nodes (b := m.next) (nodes.length + 1) (m.make d).2
        ⟨m.next, List.replicate nodes.length 0, List.replicate nodes.length false, 0⟩ [] [] rfl (by show m.next < m.next + 1; omega)
        (fun _ h => by simp at h) List.nodup_nil
      have e : RIter.load (m.make d).2 ⟨m.next, List.replicate nodes.length 0, List.replicate nodes.length false, 0⟩ = WalkSt.init d nodes.length := by
        simp [RIter.load, WalkSt.init, Mem.make]
      rw [e] at k1
      exact ⟨_, _, rfl, k1, hb.trans k2, k3⟩

end Goexpdt

import Verif.Model.Word
import Verif.Lemmas.IfaceBasic
/- The program with integers of 64 bits. -/
namespace Goexpdt
namespace Word

theorem wrap_id {v : Int} (h1 : -2 ^ 63 ≤ v) (h2 : v < 2 ^ 63) : wrap v = v := by
  unfold wrap
  omega

/-! ### Negate -/

/-- The variable that the loop ends with. -/
def endTv : Except Int (Int × List Clause × Clause) → Int
  | .error t => t
  | .ok (t, _, _) => t

theorem tseytinLoop_mono (cls : List Clause) : ∀ (tv : Int) (acc : List Clause) (lits : Clause),
    tv ≤ endTv (CNF.tseytinLoop tv acc lits cls) := by
  induction cls with
  | nil => intro tv acc lits; exact Int.le_refl _
  | cons cl cls ih =>
    intro tv acc lits
    match cl with
    | [] => exact Int.le_refl _
    | [l] => exact ih _ _ _
    | l :: l' :: ls =>
      have := ih (tv + 1) (acc ++ (l :: l' :: ls).map (fun lit => [-lit, -(tv + 1)]) ++ [(l :: l' :: ls) ++ [tv + 1]]) (lits ++ [tv + 1])
      show tv ≤ endTv (CNF.tseytinLoop (tv + 1) _ _ cls)
      omega

theorem tseytinLoop_eq (cls : List Clause) : ∀ (tv : Int) (acc : List Clause) (lits : Clause), -2 ^ 63 ≤ tv →
    endTv (CNF.tseytinLoop tv acc lits cls) < 2 ^ 63 → tseytinLoop tv acc lits cls = CNF.tseytinLoop tv acc lits cls := by
  induction cls with
  | nil => intro tv acc lits _ _; rfl
  | cons cl cls ih =>
    intro tv acc lits h1 h2
    match cl with
    | [] => rfl
    | [l] => exact ih _ _ _ h1 h2
    | l :: l' :: ls =>
      have h3 := tseytinLoop_mono cls (tv + 1) (acc ++ (l :: l' :: ls).map (fun lit => [-lit, -(tv + 1)]) ++ [(l :: l' :: ls) ++ [tv + 1]])
        (lits ++ [tv + 1])
      have h4 : tv + 1 < 2 ^ 63 := Int.lt_of_le_of_lt h3 h2
      have hw : wrap (tv + 1) = tv + 1 := wrap_id (by omega) h4
      show tseytinLoop (wrap (tv + 1)) (acc ++ (l :: l' :: ls).map (fun lit => [-lit, -(wrap (tv + 1))]) ++ [(l :: l' :: ls) ++ [wrap (tv + 1)]])
        (lits ++ [wrap (tv + 1)]) cls = _
      rw [hw]
      exact ih _ _ _ (by omega) h2

theorem tseytinNegation_le (c : CNF) (tv : Int) : endTv (CNF.tseytinLoop tv [] [] c.sClauses) ≤ (c.tseytinNegation tv).tv := by
  unfold CNF.tseytinNegation
  rcases CNF.tseytinLoop tv [] [] c.sClauses with t | ⟨t, a, b⟩
  · exact Int.le_refl _
  · dsimp only
    split
    · exact Int.le_refl _
    · show t ≤ t + 1
      omega

theorem tseytinNegation_eq (c : CNF) (tv : Int) (h1 : -2 ^ 63 ≤ tv) (h2 : (c.tseytinNegation tv).tv < 2 ^ 63) :
    tseytinNegation c tv = c.tseytinNegation tv := by
  have h3 := tseytinNegation_le c tv
  have h4 := tseytinLoop_mono c.sClauses tv [] []
  unfold tseytinNegation CNF.tseytinNegation
  rw [tseytinLoop_eq c.sClauses tv [] [] h1 (by omega)]
  unfold CNF.tseytinNegation at h2
  revert h2 h3 h4
  rcases CNF.tseytinLoop tv [] [] c.sClauses with t | ⟨t, a, b⟩
  · intros; rfl
  · intro h2 h3 h4
    dsimp only [endTv] at h2 h3 h4 ⊢
    split
    · rfl
    · rename_i hl
      rw [if_neg hl] at h2
      have h2 : t + 1 < 2 ^ 63 := h2
      unfold addNegationIFFClauses CNF.addNegationIFFClauses
      dsimp only
      rw [wrap_id (by omega) h2]

/-- The number above which `Negate` takes new variables. -/
def base (c : CNF) : Option Int → Int
  | some t => max c.tv t
  | none => c.tv

theorem negate_base_eq (c : CNF) (o : Option Int) : c.negate o = (if c.sClauses.length = 0 then { c.appendSemantics [[]] with tv := base c o }
    else if c.hasEmptySemanticClause then { cClauses := c.cClauses, tv := base c o }
    else ({ tv := base c o, sClauses := c.sClauses, cClauses := c.cClauses } : CNF).tseytinNegation (base c o)) := by
  cases o with
  | none => rfl
  | some t =>
    have hb : maxInt c.tv t = base c (some t) := by simp only [base, maxInt]; split <;> omega
    rw [← hb]
    rfl

theorem word_negate_base_eq (c : CNF) (o : Option Int) : negate c o = (if c.sClauses.length = 0 then { c.appendSemantics [[]] with tv := base c o }
    else if c.hasEmptySemanticClause then { cClauses := c.cClauses, tv := base c o }
    else tseytinNegation { tv := base c o, sClauses := c.sClauses, cClauses := c.cClauses } (base c o)) := by
  cases o with
  | none => rfl
  | some t =>
    have hb : maxInt c.tv t = base c (some t) := by simp only [base, maxInt]; split <;> omega
    rw [← hb]
    rfl

theorem negate_base (c : CNF) (o : Option Int) : base c o ≤ (c.negate o).tv := by
  rw [negate_base_eq]
  split
  · exact Int.le_refl _
  · split
    · exact Int.le_refl _
    · exact Int.le_trans (tseytinLoop_mono _ _ _ _) (tseytinNegation_le _ _)

theorem negate_eq (c : CNF) (o : Option Int) (h1 : -2 ^ 63 ≤ base c o) (h2 : (c.negate o).tv < 2 ^ 63) : negate c o = c.negate o := by
  rw [negate_base_eq] at h2 ⊢
  rw [word_negate_base_eq]
  split
  · rfl
  · rename_i h3
    rw [if_neg h3] at h2
    split
    · rfl
    · rename_i h4
      rw [if_neg h4] at h2
      exact tseytinNegation_eq _ _ h1 h2

/-! ### Computations -/

/-- The exact computation `y` does not lower `TopV`, and if it ends below `2 ^ 63` then `x` does the same. -/
def Fits {α : Type} (x y : MG Ctx α) : Prop :=
  ∀ s, -2 ^ 63 ≤ s.topv → s.topv ≤ (y s).2.topv ∧ ((y s).2.topv < 2 ^ 63 → x s = y s)

variable {α β : Type}

theorem fits_keep {x : MG Ctx α} (h : ∀ s, (x s).2.topv = s.topv) : Fits x x := fun s _ => ⟨Int.le_of_eq (h s).symm, fun _ => rfl⟩

theorem fits_pure (a : α) : Fits (pure a) (pure a) := fits_keep fun _ => rfl
theorem fits_throw (e : Err) : Fits (α := α) (MG.throw e) (MG.throw e) := fits_keep fun _ => rfl
theorem fits_lift (r : Except Err α) : Fits (MG.lift r) (MG.lift r) := fits_keep fun _ => rfl
theorem fits_retTrue : Fits Over.retTrue Over.retTrue := fits_keep fun _ => rfl
theorem fits_retFalse : Fits Over.retFalse Over.retFalse := fits_keep fun _ => rfl
theorem fits_dim : Fits (Over.dim wordI) (Over.dim basicI) := fits_keep (x := Over.dim basicI) fun _ => rfl
theorem fits_nodes : Fits (Over.nodes wordI) (Over.nodes basicI) := fits_keep (x := Over.nodes basicI) fun _ => rfl
theorem fits_topV : Fits (Over.topV wordI) (Over.topV basicI) := fits_keep (x := Over.topV basicI) fun _ => rfl
theorem fits_cnfVarExists (v : VarRep) : Fits (Over.cnfVarExists wordI v) (Over.cnfVarExists basicI v) :=
  fits_keep (x := Over.cnfVarExists basicI v) fun _ => rfl
theorem fits_scopeVar (v : QVar) : Fits (Over.scopeVar wordI v) (Over.scopeVar basicI v) := fits_keep (x := Over.scopeVar basicI v) fun _ => rfl
theorem fits_scopeConst (c : QConst) : Fits (Over.scopeConst wordI c) (Over.scopeConst basicI c) :=
  fits_keep (x := Over.scopeConst basicI c) fun _ => rfl

theorem addVar_topv (s : Ctx) (v : QVar) : (s.addVar v).topv = s.topv := by
  unfold Ctx.addVar
  split
  · rfl
  · split <;> rfl

theorem setScope_topv (s : Ctx) (i : Int) (val : List FeatV) : (s.setScope i val).2.topv = s.topv := by
  unfold Ctx.setScope
  split <;> rfl

theorem popScope_topv (s : Ctx) : s.popScope.2.topv = s.topv := by
  unfold Ctx.popScope
  split <;> rfl

theorem fits_addVar (v : QVar) : Fits (Over.addVar wordI v) (Over.addVar basicI v) :=
  fits_keep (x := Over.addVar basicI v) fun s => addVar_topv s v
theorem fits_setScope (i : Int) (v : List FeatV) : Fits (Over.setScope wordI i v) (Over.setScope basicI i v) :=
  fits_keep (x := Over.setScope basicI i v) fun s => setScope_topv s i v

theorem cnfVar_topv (s : Ctx) (v : VarRep) : s.topv ≤ (s.cnfVar v).2.topv := by
  unfold Ctx.cnfVar
  split
  · exact Int.le_refl _
  · show s.topv ≤ s.topv + 1
    omega

theorem cnfVar_eq (s : Ctx) (v : VarRep) (h1 : -2 ^ 63 ≤ s.topv) (h2 : (s.cnfVar v).2.topv < 2 ^ 63) : cnfVar s v = s.cnfVar v := by
  unfold cnfVar
  unfold Ctx.cnfVar at h2 ⊢
  cases hv : mapGet s.vmap v with
  | some n => rfl
  | none =>
    rw [hv] at h2
    have h2 : s.topv + 1 < 2 ^ 63 := h2
    dsimp only
    rw [wrap_id (by omega) h2]

theorem fits_cnfVar (v : VarRep) : Fits (Over.cnfVar wordI v) (Over.cnfVar basicI v) := by
  intro s h1
  refine ⟨cnfVar_topv s v, fun h2 => ?_⟩
  have := cnfVar_eq s v h1 h2
  show (Except.ok (cnfVar s v).1, (cnfVar s v).2) = (Except.ok (s.cnfVar v).1, (s.cnfVar v).2)
  rw [this]

theorem fits_bind {x y : MG Ctx α} {f g : α → MG Ctx β} (h : Fits x y) (hf : ∀ a, Fits (f a) (g a)) : Fits (x >>= f) (y >>= g) := by
  intro s h1
  obtain ⟨h2, h3⟩ := h s h1
  show s.topv ≤ (MG.bind' y g s).2.topv ∧ ((MG.bind' y g s).2.topv < 2 ^ 63 → MG.bind' x f s = MG.bind' y g s)
  unfold MG.bind'
  rcases e : y s with ⟨r, s'⟩
  rw [e] at h2 h3
  cases r with
  | error err =>
    refine ⟨h2, fun h4 => ?_⟩
    rw [h3 h4]
  | ok a =>
    obtain ⟨h4, h5⟩ := hf a s' (by dsimp only at h2; omega)
    refine ⟨Int.le_trans h2 h4, fun h6 => ?_⟩
    rw [h3 (Int.lt_of_le_of_lt h4 h6)]
    exact h5 h6

theorem fits_wrapErr (p : String) {x y : MG Ctx α} (h : Fits x y) : Fits (MG.wrapErr p x) (MG.wrapErr p y) := by
  intro s h1
  obtain ⟨h2, h3⟩ := h s h1
  unfold MG.wrapErr
  rcases e : y s with ⟨r, s'⟩
  rw [e] at h2 h3
  cases r with
  | error err => exact ⟨h2, fun h4 => by rw [h3 h4]⟩
  | ok a => exact ⟨h2, fun h4 => by rw [h3 h4]⟩

theorem fits_ite {p : Prop} [Decidable p] {x y x' y' : MG Ctx α} (h : Fits x y) (h' : Fits x' y') :
    Fits (if p then x else x') (if p then y else y') := by
  split
  · exact h
  · exact h'

/-- The steps around `Negate`. -/
theorem fits_negate (c : CNF) {k k' : CNF → MG Ctx α} (h : ∀ n, Fits (k n) (k' n)) :
    Fits (Over.topV wordI >>= fun top => Over.updateTopV wordI (negate c (some top)).topV >>= fun _ => k (negate c (some top)))
      (Over.topV basicI >>= fun top => Over.updateTopV basicI (c.negate (some top)).topV >>= fun _ => k' (c.negate (some top))) := by
  intro s h1
  have e1 : (Over.topV basicI >>= fun top => Over.updateTopV basicI (c.negate (some top)).topV >>= fun _ => k' (c.negate (some top))) s =
      k' (c.negate (some s.topv)) (s.updateTopV (c.negate (some s.topv)).tv).2 := rfl
  have e2 : (Over.topV wordI >>= fun top => Over.updateTopV wordI (negate c (some top)).topV >>= fun _ => k (negate c (some top))) s =
      k (negate c (some s.topv)) (s.updateTopV (negate c (some s.topv)).tv).2 := rfl
  rw [e1, e2]
  have h2 := negate_base c (some s.topv)
  simp only [base] at h2
  have h3 : s.topv ≤ (s.updateTopV (c.negate (some s.topv)).tv).2.topv ∧
      (c.negate (some s.topv)).tv ≤ (s.updateTopV (c.negate (some s.topv)).tv).2.topv := by
    unfold Ctx.updateTopV
    split
    · exact ⟨Int.le_refl _, by show _ ≤ s.topv; omega⟩
    · exact ⟨by show s.topv ≤ (c.negate (some s.topv)).tv; omega, Int.le_refl _⟩
  obtain ⟨h4, h5⟩ := h (c.negate (some s.topv)) (s.updateTopV (c.negate (some s.topv)).tv).2 (by omega)
  refine ⟨by omega, fun h6 => ?_⟩
  rw [negate_eq c (some s.topv) (by simp only [base]; omega) (by omega)]
  exact h5 h6

/-! ### Predicates and operators -/

theorem fits_validateM (cs : List QConst) : Fits (Over.validateM wordI cs) (Over.validateM basicI cs) := fits_bind fits_dim fun _ => fits_lift _

theorem fits_allocLit (l : SLit) : Fits (Over.allocLit wordI l) (Over.allocLit basicI l) := fits_bind (fits_cnfVar _) fun _ => fits_pure _

theorem fits_allocClause (c : SClause) : Fits (Over.allocClause wordI c) (Over.allocClause basicI c) := by
  induction c with
  | nil => exact fits_pure _
  | cons l c ih => exact fits_bind (fits_allocLit l) fun _ => fits_bind ih fun _ => fits_pure _

theorem fits_allocClauses (c : List SClause) : Fits (Over.allocClauses wordI c) (Over.allocClauses basicI c) := by
  induction c with
  | nil => exact fits_pure _
  | cons l c ih => exact fits_bind (fits_allocClause l) fun _ => fits_bind ih fun _ => fits_pure _

theorem fits_emitFrom (st : List Goexpdt.Step) : ∀ ncnf, Fits (Over.emitFrom wordI ncnf st) (Over.emitFrom basicI ncnf st) := by
  induction st with
  | nil => exact fun _ => fits_pure _
  | cons a st ih =>
    intro ncnf
    cases a with
    | touch cls => exact fits_bind (fits_allocClauses cls) fun _ => ih _
    | sem cls => exact fits_bind (fits_allocClauses cls) fun _ => ih _
    | con cls => exact fits_bind (fits_allocClauses cls) fun _ => ih _

theorem fits_emit (st : List Goexpdt.Step) : Fits (Over.emit wordI st) (Over.emit basicI st) := fits_emitFrom st _
theorem fits_emitF (cls : List SClause) (st : List Goexpdt.Step) : Fits (Over.emitF wordI cls st) (Over.emitF basicI cls st) :=
  fits_bind (fits_allocClauses cls) fun _ => fits_emitFrom st _

theorem fits_consConstRet (cls : List SClause) : Fits (Over.consConstRet wordI cls) (Over.consConstRet basicI cls) := by
  unfold Over.consConstRet
  exact fits_ite fits_retTrue (fits_emitF _ _)

/-- Decomposes two computations of the same form. -/
macro "fits" : tactic => `(tactic| repeat' (first
  | with_reducible exact fits_throw _
  | with_reducible exact fits_retTrue
  | with_reducible exact fits_retFalse
  | with_reducible exact fits_dim
  | with_reducible exact fits_nodes
  | with_reducible exact fits_lift _
  | with_reducible exact fits_pure _
  | with_reducible exact fits_topV
  | with_reducible exact fits_cnfVar _
  | with_reducible exact fits_cnfVarExists _
  | with_reducible exact fits_scopeVar _
  | with_reducible exact fits_scopeConst _
  | with_reducible exact fits_addVar _
  | with_reducible exact fits_setScope _ _
  | with_reducible exact fits_validateM _
  | with_reducible exact fits_consConstRet _
  | with_reducible exact fits_emit _
  | with_reducible exact fits_emitF _ _
  | with_reducible refine fits_ite ?_ ?_
  | with_reducible refine fits_bind ?_ (fun _ => ?_)
  | split))

theorem fits_atom (a : Atom) : Fits (Over.atom wordI a) (Over.atom basicI a) := by
  cases a with
  | subs t1 t2 =>
    cases t1 <;> cases t2
    · show Fits (Over.subsConstConst _ _ _) (Over.subsConstConst _ _ _); unfold Over.subsConstConst; fits
    · show Fits (Over.subsConstVar _ _ _) (Over.subsConstVar _ _ _); unfold Over.subsConstVar; fits
    · show Fits (Over.subsVarConst _ _ _) (Over.subsVarConst _ _ _); unfold Over.subsVarConst; fits
    · show Fits (Over.subsVarVar _ _ _) (Over.subsVarVar _ _ _); unfold Over.subsVarVar; fits
  | lel t1 t2 g =>
    cases t1 <;> cases t2
    · show Fits (Over.lelConstConst _ _ _) (Over.lelConstConst _ _ _); unfold Over.lelConstConst; fits
    · show Fits (Over.lelConstVar _ _ _ _) (Over.lelConstVar _ _ _ _); unfold Over.lelConstVar; fits
    · show Fits (Over.lelVarConst _ _ _ _) (Over.lelVarConst _ _ _ _); unfold Over.lelVarConst; fits
    · show Fits (Over.lelVarVar _ _ _ _) (Over.lelVarVar _ _ _ _); unfold Over.lelVarVar; fits
  | isnode t1 g =>
    cases t1
    · show Fits (Over.isnodeConst _ _) (Over.isnodeConst _ _); unfold Over.isnodeConst; fits
    · show Fits (Over.isnodeVar _ _ _) (Over.isnodeVar _ _ _); unfold Over.isnodeVar; fits
  | full t1 =>
    cases t1
    · show Fits (Over.fullConst _ _) (Over.fullConst _ _); unfold Over.fullConst; fits
    · show Fits (Over.fullVar _ _) (Over.fullVar _ _); unfold Over.fullVar; fits
  | cons t1 t2 =>
    cases t1 <;> cases t2
    · show Fits (Over.consConstConst _ _ _) (Over.consConstConst _ _ _); unfold Over.consConstConst; fits
    · show Fits (Over.consConstVar _ _ _) (Over.consConstVar _ _ _); unfold Over.consConstVar; fits
    · show Fits (Over.consVarConst _ _ _) (Over.consVarConst _ _ _); unfold Over.consVarConst; fits
    · show Fits (Over.consVarVar _ _ _) (Over.consVarVar _ _ _); unfold Over.consVarVar; fits
  | allcomp t1 b g =>
    cases t1
    · show Fits (Over.allcompConst _ _ _) (Over.allcompConst _ _ _); unfold Over.allcompConst; fits
    · show Fits (Over.allcompVar _ _ _ _) (Over.allcompVar _ _ _ _); unfold Over.allcompVar; fits
  | dfs t1 =>
    cases t1
    · show Fits (Over.dfsConst _ _) (Over.dfsConst _ _); unfold Over.dfsConst; fits
    · show Fits (Over.dfsVar _ _) (Over.dfsVar _ _); unfold Over.dfsVar; fits
  | hepr t1 t2 p g =>
    cases t1 <;> cases t2
    · show Fits (Over.heprConstConst _ _ _ _) (Over.heprConstConst _ _ _ _); unfold Over.heprConstConst; fits
    · show Fits (Over.heprConstVar _ _ _ _ _) (Over.heprConstVar _ _ _ _ _); unfold Over.heprConstVar; fits
    · show Fits (Over.heprVarConst _ _ _ _ _) (Over.heprVarConst _ _ _ _ _); unfold Over.heprVarConst; fits
    · show Fits (Over.heprVarVar _ _ _ _ _) (Over.heprVarVar _ _ _ _ _); unfold Over.heprVarVar; fits
  | leh t1 t2 t3 g e =>
    cases t1 <;> cases t2 <;> cases t3
    · show Fits (Over.lehConstConstConst _ _ _ _) (Over.lehConstConstConst _ _ _ _); unfold Over.lehConstConstConst
      refine fits_bind (fits_scopeConst _) fun c1 => fits_bind (fits_scopeConst _) fun c2 => fits_bind (fits_scopeConst _) fun c3 =>
        fits_bind (fits_validateM _) fun _ => fits_ite fits_retFalse ?_
      cases hammingDistCC c1 c2 with
      | error e => exact fits_pure _
      | ok a =>
        cases hammingDistCC c1 c3 with
        | error e => exact fits_pure _
        | ok b => exact fits_ite fits_retFalse fits_retTrue
    · show Fits (Over.lehConstConstVar _ _ _ _ _) (Over.lehConstConstVar _ _ _ _ _); unfold Over.lehConstConstVar; fits
    · show Fits (Over.lehConstVarConst _ _ _ _ _) (Over.lehConstVarConst _ _ _ _ _); unfold Over.lehConstVarConst; fits
    · show Fits (Over.lehConstVarVar _ _ _ _ _) (Over.lehConstVarVar _ _ _ _ _); unfold Over.lehConstVarVar; fits
    · show Fits (Over.lehVarConstConst _ _ _ _ _) (Over.lehVarConstConst _ _ _ _ _); unfold Over.lehVarConstConst; fits
    · show Fits (Over.lehVarConstVar _ _ _ _ _ _) (Over.lehVarConstVar _ _ _ _ _ _); unfold Over.lehVarConstVar
      cases g <;> cases e <;> fits
    · show Fits (Over.lehVarVarConst _ _ _ _ _ _) (Over.lehVarVarConst _ _ _ _ _ _); unfold Over.lehVarVarConst
      cases g <;> cases e <;> fits
    · show Fits (Over.lehVarVarVar _ _ _ _ _ _) (Over.lehVarVarVar _ _ _ _ _ _); unfold Over.lehVarVarVar
      cases g <;> cases e <;> fits

theorem fits_reqAllFeats (v : QVar) : ∀ (n : Nat) (i : Nat), Fits (Over.reqAllFeats wordI v i n) (Over.reqAllFeats basicI v i n)
  | 0, _ => fits_pure _
  | n + 1, i => by
    unfold Over.reqAllFeats
    exact fits_bind (fits_cnfVar _) fun _ => fits_bind (fits_cnfVar _) fun _ => fits_bind (fits_cnfVar _) fun _ =>
      fits_bind (fits_reqAllFeats v n (i + 1)) fun _ => fits_pure _

theorem fits_reqOnePerFeat (v : QVar) : ∀ (n : Nat) (i : Nat) (ncnf : CNF),
    Fits (Over.reqOnePerFeat wordI v i n ncnf) (Over.reqOnePerFeat basicI v i n ncnf)
  | 0, _, _ => fits_pure _
  | n + 1, i, ncnf => by
    unfold Over.reqOnePerFeat
    exact fits_bind (fits_cnfVar _) fun _ => fits_bind (fits_cnfVar _) fun _ => fits_bind (fits_cnfVar _) fun _ =>
      fits_bind (fits_cnfVar _) fun _ => fits_bind (fits_cnfVar _) fun _ => fits_bind (fits_cnfVar _) fun _ => fits_reqOnePerFeat v n (i + 1) _

theorem fits_encodeI (x : QVar) : Fits (Over.encodeI wordI x) (Over.encodeI basicI x) := by
  unfold Over.encodeI
  exact fits_bind (fits_scopeVar _) fun _ => fits_bind (fits_cnfVarExists _) fun _ => fits_ite (fits_pure _)
    (fits_bind fits_dim fun _ => fits_bind (fits_reqAllFeats _ _ _) fun _ => fits_reqOnePerFeat _ _ _ _)

theorem fits_forallLoop {q q' : MG Ctx CNF} (h : Fits q q') (nodes : List Node) : ∀ (fuel : Nat) (w : WalkSt) (i : Int) (ncnf : CNF),
    Fits (Over.forallLoop wordI q nodes fuel w i ncnf) (Over.forallLoop basicI q' nodes fuel w i ncnf)
  | 0, _, _, _ => fits_throw _
  | fuel + 1, w, i, ncnf => by
    unfold Over.forallLoop
    cases walkNext nodes (nextFuel nodes) w with
    | error e => exact fits_throw _
    | ok o =>
      cases o with
      | none => exact fits_pure _
      | some w' => exact fits_bind (fits_setScope _ _) fun _ => fits_bind h fun _ => fits_forallLoop h nodes fuel _ _ _

theorem fits_forallBody {q q' : MG Ctx CNF} (h : Fits q q') : Fits (Over.forallBody wordI q) (Over.forallBody basicI q') := by
  unfold Over.forallBody
  exact fits_bind fits_dim fun _ => fits_bind fits_nodes fun _ => fits_bind (fits_lift _) fun _ => fits_forallLoop h _ _ _ _ _

theorem fits_forallBuild (c : QConst) {q q' : MG Ctx CNF} (h : Fits q q') : Fits (Over.forallBuild wordI c q) (Over.forallBuild basicI c q') := by
  intro s h1
  obtain ⟨h2, h3⟩ := fits_forallBody h (s.addScope c.id) h1
  have h2 : s.topv ≤ (Over.forallBody basicI q' (s.addScope c.id)).2.topv := h2
  have e : ∀ (I : QContext Ctx) (q : MG Ctx CNF), I.addScope c.id s = (.ok (), s.addScope c.id) → (∀ t, I.popScope t = t.popScope) →
      Over.forallBuild I c q s = (match (Over.forallBody I q (s.addScope c.id)).2.popScope with
        | (.ok (), s') => ((Over.forallBody I q (s.addScope c.id)).1, s')
        | (.error perr, s') => (joinErr (Over.forallBody I q (s.addScope c.id)).1 perr, s')) := by
    intro I q e1 e2
    unfold Over.forallBuild
    rw [e1]
    dsimp only
    rw [e2]
    rcases (Over.forallBody I q (s.addScope c.id)).2.popScope with ⟨_ | _, s'⟩ <;> rfl
  have e' : (Over.forallBuild basicI c q' s).2.topv = (Over.forallBody basicI q' (s.addScope c.id)).2.topv := by
    rw [e basicI q' rfl fun _ => rfl]
    have := popScope_topv (Over.forallBody basicI q' (s.addScope c.id)).2
    revert this
    rcases (Over.forallBody basicI q' (s.addScope c.id)).2.popScope with ⟨r, s'⟩
    cases r <;> exact id
  refine ⟨by omega, fun h4 => ?_⟩
  rw [e basicI q' rfl fun _ => rfl, e wordI q rfl fun _ => rfl, h3 (by omega)]

theorem fits_notBuild {q q' : MG Ctx CNF} (h : Fits q q') : Fits (notBuild q) (Over.notBuild basicI q') :=
  fits_bind h fun c => fits_negate c (k := fun n => pure n) (k' := fun n => pure n) fun _ => fits_pure _

theorem fits_orBuild {q1 q1' q2 q2' : MG Ctx CNF} (h1 : Fits q1 q1') (h2 : Fits q2 q2') : Fits (orBuild q1 q2) (Over.orBuild basicI q1' q2') :=
  fits_bind (fits_wrapErr _ h1) fun c1 => fits_bind (fits_wrapErr _ h2) fun c2 =>
    fits_negate c1
      (k := fun n1 => Over.topV wordI >>= fun top => Over.updateTopV wordI (negate c2 (some top)).topV >>= fun _ =>
        Over.topV wordI >>= fun top' => Over.updateTopV wordI (negate (n1.conjunction (negate c2 (some top))) (some top')).topV >>= fun _ =>
        pure (negate (n1.conjunction (negate c2 (some top))) (some top')))
      (k' := fun n1 => Over.topV basicI >>= fun top => Over.updateTopV basicI (c2.negate (some top)).topV >>= fun _ =>
        Over.topV basicI >>= fun top' => Over.updateTopV basicI ((n1.conjunction (c2.negate (some top))).negate (some top')).topV >>= fun _ =>
        pure ((n1.conjunction (c2.negate (some top))).negate (some top')))
      fun n1 => fits_negate c2
        (k := fun n2 => Over.topV wordI >>= fun top' => Over.updateTopV wordI (negate (n1.conjunction n2) (some top')).topV >>= fun _ =>
          pure (negate (n1.conjunction n2) (some top')))
        (k' := fun n2 => Over.topV basicI >>= fun top' => Over.updateTopV basicI ((n1.conjunction n2).negate (some top')).topV >>= fun _ =>
          pure ((n1.conjunction n2).negate (some top')))
        fun n2 => fits_negate (n1.conjunction n2) (k := fun n => pure n) (k' := fun n => pure n) fun _ => fits_pure _

/-- Components. -/
def FitsC : Over.CompG Ctx → Over.CompG Ctx → Prop
  | none, none => True
  | some m, some m' => Fits m m'
  | _, _ => False

theorem fits_comp (q : Query) : FitsC (comp q) (Over.comp basicI q) := by
  induction q with
  | nil => trivial
  | atom a => exact fits_atom a
  | and q1 q2 i1 i2 =>
    refine fits_wrapErr _ ?_
    revert i1 i2
    rcases comp q1 with _ | m1 <;> rcases Over.comp basicI q1 with _ | n1 <;> rcases comp q2 with _ | m2 <;>
      rcases Over.comp basicI q2 with _ | n2 <;> intro i1 i2 <;>
      first
      | exact i1.elim
      | exact i2.elim
      | exact fits_throw _
      | exact fits_bind (fits_wrapErr _ i1) fun _ => fits_bind (fits_wrapErr _ i2) fun _ => fits_pure _
  | or q1 q2 i1 i2 =>
    refine fits_wrapErr _ ?_
    revert i1 i2
    rcases comp q1 with _ | m1 <;> rcases Over.comp basicI q1 with _ | n1 <;> rcases comp q2 with _ | m2 <;>
      rcases Over.comp basicI q2 with _ | n2 <;> intro i1 i2 <;>
      first
      | exact i1.elim
      | exact i2.elim
      | exact fits_throw _
      | exact fits_orBuild i1 i2
  | not q i1 =>
    refine fits_wrapErr _ ?_
    revert i1
    rcases comp q with _ | m1 <;> rcases Over.comp basicI q with _ | n1 <;> intro i1 <;>
      first
      | exact i1.elim
      | exact fits_throw _
      | exact fits_notBuild i1
  | withVar x q i1 =>
    refine fits_wrapErr _ ?_
    revert i1
    rcases comp q with _ | m1 <;> rcases Over.comp basicI q with _ | n1 <;> intro i1 <;>
      first
      | exact i1.elim
      | exact fits_throw _
      | exact fits_bind (fits_addVar _) fun _ => fits_bind (fits_encodeI _) fun _ => fits_bind i1 fun _ => fits_pure _
  | forallG c q i1 =>
    refine fits_wrapErr _ ?_
    revert i1
    rcases comp q with _ | m1 <;> rcases Over.comp basicI q with _ | n1 <;> intro i1 <;>
      first
      | exact i1.elim
      | exact fits_throw _
      | exact fits_forallBuild _ i1

theorem fits_encode (q : Query) : Fits (encode q) (Over.encode basicI q) := by
  unfold encode Over.encode
  have h := fits_comp q
  revert h
  rcases comp q with _ | m1 <;> rcases Over.comp basicI q with _ | n1 <;> intro h
  · exact fits_throw _
  · exact h.elim
  · exact h.elim
  · exact h

end Word
end Goexpdt

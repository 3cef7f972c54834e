import Verif.Lemmas.RenamingAtom
namespace Goexpdt
open Spec

section
variable {V : QVar → QVar → Prop} {K : List Char → List Char → Prop} {R : QVar → QVar → Prop}

theorem validateM_id (i j : List Char) (v : List FeatV) (cs : List QConst) : validateM (⟨i, v⟩ :: cs) = validateM (⟨j, v⟩ :: cs) := rfl
theorem validateM_id2 (i j : List Char) (v : List FeatV) (c : QConst) (cs : List QConst) :
    validateM (c :: ⟨i, v⟩ :: cs) = validateM (c :: ⟨j, v⟩ :: cs) := rfl
theorem validateM_id3 (i j : List Char) (v : List FeatV) (c c' : QConst) (cs : List QConst) :
    validateM (c :: c' :: ⟨i, v⟩ :: cs) = validateM (c :: c' :: ⟨j, v⟩ :: cs) := rfl

theorem sim_retTrue : Sim V K R Eq retTrue retTrue := sim_pure rfl
theorem sim_retFalse : Sim V K R Eq retFalse retFalse := sim_pure rfl

/-- Decomposes two computations of the same form. -/
macro "sims" hn:term : tactic => `(tactic| repeat' (first
  | with_reducible exact sim_throw _
  | with_reducible exact sim_retTrue
  | with_reducible exact sim_retFalse
  | with_reducible exact sim_pure rfl
  | with_reducible exact sim_dim
  | with_reducible exact sim_nodes
  | with_reducible exact sim_lift _
  | with_reducible exact sim_validateM _
  | with_reducible refine sim_bind (sim_scopeVar $hn (by assumption)) (fun _ _ _ => ?_)
  | with_reducible refine sim_ite ?_ ?_
  | refine sim_const $hn (by assumption) (fun _ _ _ => by rfl) (fun _ => ?_)
  | with_reducible refine sim_same ?_ (fun _ => ?_)))

variable (hn : Naming V K R)
include hn

section
variable {c c' c2 c2' c3 c3' : QConst} {x x' y y' z z' : QVar} (h1 : K c.id c'.id ∧ c'.val = c.val) (h2 : K c2.id c2'.id ∧ c2'.val = c2.val)
  (h3 : K c3.id c3'.id ∧ c3'.val = c3.val) (hx : V x x') (hy : V y y') (hz : V z z')

include h1 h2 in
theorem subsConstConst_R : Sim V K R Eq (subsConstConst c c2) (subsConstConst c' c2') := by unfold subsConstConst; sims hn
include h1 h2 in
theorem lelConstConst_R : Sim V K R Eq (lelConstConst c c2) (lelConstConst c' c2') := by unfold lelConstConst; sims hn
include h1 h2 in
theorem consConstConst_R : Sim V K R Eq (consConstConst c c2) (consConstConst c' c2') := by unfold consConstConst; sims hn
include h1 in
theorem fullConst_R : Sim V K R Eq (fullConst c) (fullConst c') := by unfold fullConst; sims hn
include h1 in
theorem isnodeConst_R : Sim V K R Eq (isnodeConst c) (isnodeConst c') := by
  unfold isnodeConst
  refine sim_const hn h1 (fun i j v => ?_) fun k => ?_
  · simp only [validateM_id i j, isnodeLoop_id i j]; rfl
  · sims hn
include h1 in
theorem allcompConst_R (b : Bool) : Sim V K R Eq (allcompConst c b) (allcompConst c' b) := by
  unfold allcompConst
  refine sim_const hn h1 (fun i j v => ?_) fun k => ?_
  · simp only [validateM_id i j, acLoop_id i j]
  · sims hn
include h1 in
theorem dfsConst_R : Sim V K R Eq (dfsConst c) (dfsConst c') := by
  unfold dfsConst
  refine sim_const hn h1 (fun i j v => ?_) fun k => ?_
  · simp only [validateM_id i j, dfsOuter_id i j]
  · sims hn
include h1 h2 in
theorem heprConstConst_R (p : List Int) : Sim V K R Eq (heprConstConst c c2 p) (heprConstConst c' c2' p) := by
  unfold heprConstConst
  refine sim_same sim_dim fun d => sim_same (sim_lift _) fun _ => ?_
  refine sim_const hn h1 (fun i j v => ?_) fun k => ?_
  · refine congrArg _ (funext fun a => ?_)
    obtain ⟨a, va⟩ := a
    simp only [validateM_id i j, heprCC_id i j a a]; rfl
  · refine sim_const hn h2 (fun i j v => ?_) fun k => ?_
    · obtain ⟨a, va⟩ := k
      simp only [validateM_id2 i j, heprCC_id a a i j]; rfl
    · sims hn
include h1 h2 h3 in
theorem lehConstConstConst_R : Sim V K R Eq (lehConstConstConst c c2 c3) (lehConstConstConst c' c2' c3') := by
  unfold lehConstConstConst
  sims hn
  split
  · sims hn
  · split <;> sims hn

include h1 hx in
theorem subsConstVar_R : Sim V K R Eq (subsConstVar c x) (subsConstVar c' x') := by
  unfold subsConstVar
  sims hn
  exact sim_emitF hn (subsConstVarClauses_R _ _ (hn.var hx (by assumption))) .nil
include h1 hx in
theorem subsVarConst_R : Sim V K R Eq (subsVarConst x c) (subsVarConst x' c') := by
  unfold subsVarConst
  sims hn
  exact sim_emitF hn (subsVarConstClauses_R _ _ (hn.var hx (by assumption))) .nil
include hx hy in
theorem subsVarVar_R : Sim V K R Eq (subsVarVar x y) (subsVarVar x' y') := by
  unfold subsVarVar
  refine sim_bind (sim_scopeVar hn hx) fun a a' ha => sim_bind (sim_scopeVar hn hy) fun b b' hb => sim_same sim_dim fun d => ?_
  exact sim_emitF hn (subsVarVarClauses_R _ (hn.var hx ha) (hn.var hy hb)) .nil
include hx in
theorem fullVar_R : Sim V K R Eq (fullVar x) (fullVar x') := by
  unfold fullVar
  refine sim_bind (sim_scopeVar hn hx) fun a a' ha => sim_same sim_dim fun d => ?_
  exact sim_emitF hn (varFullClauses_R _ (hn.var hx ha)) .nil

theorem consConstRet_R {a a' : List SClause} (h : All2 (All2 (SLitR R)) a a') : Sim V K R Eq (consConstRet a) (consConstRet a') := by
  unfold consConstRet
  rw [h.length]
  exact sim_ite sim_retTrue (sim_emitF hn h .nil)

include h1 hx in
theorem consConstVar_R : Sim V K R Eq (consConstVar c x) (consConstVar c' x') := by
  unfold consConstVar
  refine sim_const hn h1 (fun _ _ _ => rfl) fun k => ?_
  refine sim_bind (sim_scopeVar hn hx) fun a a' ha => sim_same (sim_validateM _) fun _ => sim_same sim_dim fun d => ?_
  exact consConstRet_R hn (consConstClauses_R _ _ (hn.var hx ha))
include h1 hx in
theorem consVarConst_R : Sim V K R Eq (consVarConst x c) (consVarConst x' c') := by
  unfold consVarConst
  refine sim_bind (sim_scopeVar hn hx) fun a a' ha => ?_
  refine sim_const hn h1 (fun _ _ _ => rfl) fun k => ?_
  refine sim_same (sim_validateM _) fun _ => sim_same sim_dim fun d => ?_
  exact consConstRet_R hn (consConstClauses_R _ _ (hn.var hx ha))
include hx hy in
theorem consVarVar_R : Sim V K R Eq (consVarVar x y) (consVarVar x' y') := by
  unfold consVarVar
  refine sim_bind (sim_scopeVar hn hx) fun a a' ha => sim_bind (sim_scopeVar hn hy) fun b b' hb => sim_same sim_dim fun d => ?_
  exact sim_emitF hn (consVarVarClauses_R _ (hn.var hx ha) (hn.var hy hb)) .nil
include hx in
theorem dfsVar_R : Sim V K R Eq (dfsVar x) (dfsVar x') := by
  unfold dfsVar
  refine sim_bind (sim_scopeVar hn hx) fun a a' ha => sim_same sim_dim fun d => sim_same sim_nodes fun nodes =>
    sim_same (sim_lift _) fun l => sim_ite (sim_throw _) ?_
  exact sim_bind (dfsClauses_R _ (hn.var hx ha) _) fun cls cls' h => sim_emitF hn h .nil

section
variable {g g' : QVar → QVar}

include h1 hx in
theorem lelConstVar_R (hg : ∀ a a', VarNameR K x x' a a' → R (g a) (g' a')) :
    Sim V K R Eq (lelConstVar c x (some g)) (lelConstVar c' x' (some g')) := by
  unfold lelConstVar
  refine sim_bind (sim_scopeVar hn hx) fun a a' ha => ?_
  refine sim_const hn h1 (fun _ _ _ => rfl) fun k => ?_
  refine sim_same (sim_validateM _) fun _ => sim_same sim_dim fun d => ?_
  exact sim_emit hn (.cons (varBotCountClauses_R d (hn.var hx ha) (hg _ _ ha)) (.cons (lelConstVarSem_R d k (hg _ _ ha)) .nil))
include h1 hx in
theorem lelVarConst_R (hg : ∀ a a', VarNameR K x x' a a' → R (g a) (g' a')) :
    Sim V K R Eq (lelVarConst x c (some g)) (lelVarConst x' c' (some g')) := by
  unfold lelVarConst
  refine sim_bind (sim_scopeVar hn hx) fun a a' ha => ?_
  refine sim_const hn h1 (fun _ _ _ => rfl) fun k => ?_
  refine sim_same (sim_validateM _) fun _ => sim_same sim_dim fun d => ?_
  exact sim_emit hn (.cons (varBotCountClauses_R d (hn.var hx ha) (hg _ _ ha)) (.cons (lelVarConstSem_R d k (hg _ _ ha)) .nil))
include hx hy in
theorem lelVarVar_R (hg : ∀ a a', VarNameR K x x' a a' ∨ VarNameR K y y' a a' → R (g a) (g' a')) :
    Sim V K R Eq (lelVarVar x y (some g)) (lelVarVar x' y' (some g')) := by
  unfold lelVarVar
  refine sim_bind (sim_scopeVar hn hx) fun a a' ha => sim_bind (sim_scopeVar hn hy) fun b b' hb => sim_same sim_dim fun d => ?_
  exact sim_emit hn (.cons (varBotCountClauses_R d (hn.var hx ha) (hg _ _ (.inl ha)))
    (.cons (varBotCountClauses_R d (hn.var hy hb) (hg _ _ (.inr hb))) (.cons (lelVarVarSem_R d (hg _ _ (.inl ha)) (hg _ _ (.inr hb))) .nil)))
include hx in
theorem isnodeVar_R (hg : ∀ a a', VarNameR K x x' a a' → R (g a) (g' a')) :
    Sim V K R Eq (isnodeVar x (some g)) (isnodeVar x' (some g')) := by
  unfold isnodeVar
  refine sim_same sim_nodes fun nodes => sim_ite (sim_throw _) (sim_same sim_dim fun d => ?_)
  refine sim_bind (sim_scopeVar hn hx) fun a a' ha => sim_ite (sim_throw _) ?_
  have h1 := hn.var hx ha
  have h2 := hg _ _ ha
  exact sim_emit hn (.cons (isnodeFclOrder_R d nodes h1 h2) (.cons (isnodeFcl_R d nodes h1 h2)
    (.cons (stepR_con (.cons (.cons (slitR_P h2 _ _) .nil) .nil)) (.cons (isnodeProp_R nodes h1 h2) .nil))))
include hx in
theorem allcompVar_R (b : Bool) (hg : ∀ a a', VarNameR K x x' a a' → R (g a) (g' a')) :
    Sim V K R Eq (allcompVar x b (some g)) (allcompVar x' b (some g')) := by
  unfold allcompVar
  refine sim_same sim_nodes fun nodes => sim_ite (sim_throw _) ?_
  refine sim_bind (sim_scopeVar hn hx) fun a a' ha => ?_
  have h1 := hn.var hx ha
  have h2 := hg _ _ ha
  exact sim_emit hn (.cons (stepR_con (.cons (.cons (slitR_P h2 _ _) .nil) .nil)) (all2_map _ fun i => allcompStep_R b nodes i h1 h2))
end

section
variable {g g' : QVar → QVar → QVar → QVar} (p : List Int)

include h1 hx in
theorem heprConstVar_R (hg : ∀ (k : QConst) b b', VarNameR K x x' b b' → R (g (prefVar p) k.asString b) (g' (prefVar p) k.asString b')) :
    Sim V K R Eq (heprConstVar c x p (some g)) (heprConstVar c' x' p (some g')) := by
  unfold heprConstVar
  refine sim_same sim_dim fun d => sim_same (sim_lift _) fun _ => ?_
  refine sim_const hn h1 (fun _ _ _ => rfl) fun k => ?_
  refine sim_bind (sim_scopeVar hn hx) fun a a' ha => ?_
  refine sim_same (sim_validateM _) fun _ => sim_same (sim_lift _) fun _ => sim_ite (sim_throw _) ?_
  have h2 := hg k _ _ ha
  exact sim_emit hn (.cons (heprConstVarCon_R k p (hn.var hx ha) h2) (.cons (stepR_sem (.cons (.cons (slitR_P h2 _ _) .nil) .nil)) .nil))
include h1 hx in
theorem heprVarConst_R (hg : ∀ (k : QConst) b b', VarNameR K x x' b b' → R (g (prefVar p) b k.asString) (g' (prefVar p) b' k.asString)) :
    Sim V K R Eq (heprVarConst x c p (some g)) (heprVarConst x' c' p (some g')) := by
  unfold heprVarConst
  refine sim_same sim_dim fun d => sim_same (sim_lift _) fun _ => ?_
  refine sim_bind (sim_scopeVar hn hx) fun a a' ha => ?_
  refine sim_const hn h1 (fun _ _ _ => rfl) fun k => ?_
  refine sim_same (sim_validateM _) fun _ => sim_same (sim_lift _) fun _ => sim_ite (sim_throw _) ?_
  have h2 := hg k _ _ ha
  exact sim_emit hn (.cons (heprVarConstCon_R k p (hn.var hx ha) h2) (.cons (stepR_sem (.cons (.cons (slitR_P h2 _ _) .nil) .nil)) .nil))
include hx hy in
theorem heprVarVar_R (hg : ∀ a a' b b', VarNameR K x x' a a' → VarNameR K y y' b b' → R (g (prefVar p) a b) (g' (prefVar p) a' b')) :
    Sim V K R Eq (heprVarVar x y p (some g)) (heprVarVar x' y' p (some g')) := by
  unfold heprVarVar
  refine sim_same sim_dim fun d => sim_same (sim_lift _) fun _ => ?_
  refine sim_bind (sim_scopeVar hn hx) fun a a' ha => sim_bind (sim_scopeVar hn hy) fun b b' hb => sim_ite (sim_throw _) ?_
  have h2 := hg _ _ _ _ ha hb
  exact sim_emit hn (.cons (heprVarVarCon_R p (hn.var hx ha) (hn.var hy hb) h2) (.cons (stepR_sem (.cons (.cons (slitR_P h2 _ _) .nil) .nil)) .nil))
end

section
variable {g g' e e' : QVar → QVar → QVar}

include h1 h2 hx in
theorem lehConstConstVar_R (hg : ∀ a a' (k : QConst), VarNameR K x x' a a' → R (g a k.asString) (g' a' k.asString)) :
    Sim V K R Eq (lehConstConstVar c c2 x (some g)) (lehConstConstVar c' c2' x' (some g')) := by
  unfold lehConstConstVar
  refine sim_same sim_dim fun d => ?_
  refine sim_const hn h1 (fun _ _ _ => rfl) fun k => sim_const hn h2 (fun _ _ _ => rfl) fun k2 => ?_
  refine sim_bind (sim_scopeVar hn hx) fun a a' ha => sim_same (sim_validateM _) fun _ => sim_ite sim_retFalse ?_
  refine sim_same (sim_lift _) fun n => sim_ite sim_retTrue ?_
  have hd := hg _ _ k ha
  refine sim_bind (sim_hammingDistVC d k (hn.var hx ha) hd) fun cls cls' hcls => ?_
  exact sim_emitF hn (varFullClauses_R d (hn.var hx ha)) (.cons hcls (.cons (stepR_sem (all2_map _ fun i => .cons (slitR_N hd _ _) .nil)) .nil))
include h1 h2 hx in
theorem lehConstVarConst_R (hg : ∀ a a' (k : QConst), VarNameR K x x' a a' → R (g a k.asString) (g' a' k.asString)) :
    Sim V K R Eq (lehConstVarConst c x c2 (some g)) (lehConstVarConst c' x' c2' (some g')) := by
  unfold lehConstVarConst
  refine sim_same sim_dim fun d => ?_
  refine sim_const hn h1 (fun _ _ _ => rfl) fun k => sim_const hn h2 (fun _ _ _ => rfl) fun k2 => ?_
  refine sim_bind (sim_scopeVar hn hx) fun a a' ha => sim_same (sim_validateM _) fun _ => sim_ite sim_retFalse ?_
  refine sim_same (sim_lift _) fun n => sim_ite sim_retTrue ?_
  have hd := hg _ _ k2 ha
  refine sim_bind (sim_hammingDistVC d k (hn.var hx ha) hd) fun cls cls' hcls => ?_
  exact sim_emitF hn (varFullClauses_R d (hn.var hx ha)) (.cons hcls (.cons (stepR_sem (all2_map _ fun i => .cons (slitR_N hd _ _) .nil)) .nil))
include h1 hx hy in
theorem lehConstVarVar_R (hg : ∀ a a' (k : QConst), VarNameR K x x' a a' ∨ VarNameR K y y' a a' → R (g a k.asString) (g' a' k.asString)) :
    Sim V K R Eq (lehConstVarVar c x y (some g)) (lehConstVarVar c' x' y' (some g')) := by
  unfold lehConstVarVar
  refine sim_same sim_dim fun d => ?_
  refine sim_const hn h1 (fun _ _ _ => rfl) fun k => ?_
  refine sim_bind (sim_scopeVar hn hx) fun a a' ha => sim_bind (sim_scopeVar hn hy) fun b b' hb =>
    sim_same (sim_validateM _) fun _ => sim_ite sim_retFalse ?_
  have hd := hg _ _ k (.inl ha)
  have he := hg _ _ k (.inr hb)
  refine sim_bind (sim_hammingDistVC d k (hn.var hx ha) hd) fun cls cls' hcls => ?_
  refine sim_bind (sim_hammingDistVC d k (hn.var hy hb) he) fun cls2 cls2' hcls2 => ?_
  exact sim_emit hn (.cons (varFullClauses_R d (hn.var hx ha)) (.cons (varFullClauses_R d (hn.var hy hb)) (.cons hcls (.cons hcls2
    (.cons (hdLeSem_R d hd he) .nil)))))
include h1 h2 hx in
theorem lehVarConstConst_R (hg : ∀ a a' (k : QConst), VarNameR K x x' a a' → R (g a k.asString) (g' a' k.asString)) :
    Sim V K R Eq (lehVarConstConst x c c2 (some g)) (lehVarConstConst x' c' c2' (some g')) := by
  unfold lehVarConstConst
  refine sim_same sim_dim fun d => ?_
  refine sim_const hn h1 (fun _ _ _ => rfl) fun k => sim_const hn h2 (fun _ _ _ => rfl) fun k2 => ?_
  refine sim_bind (sim_scopeVar hn hx) fun a a' ha => sim_same (sim_validateM _) fun _ => sim_ite sim_retFalse ?_
  have hd := hg _ _ k ha
  have he := hg _ _ k2 ha
  refine sim_bind (sim_hammingDistVC d k (hn.var hx ha) hd) fun cls cls' hcls => ?_
  refine sim_bind (sim_hammingDistVC d k2 (hn.var hx ha) he) fun cls2 cls2' hcls2 => ?_
  exact sim_emitF hn (varFullClauses_R d (hn.var hx ha)) (.cons hcls (.cons hcls2 (.cons (hdLeSem_R d hd he) .nil)))
include h1 hx hy in
theorem lehVarConstVar_R (hg : ∀ a a' (k : QConst), VarNameR K x x' a a' → R (g a k.asString) (g' a' k.asString))
    (hg2 : ∀ a a' b b', VarNameR K x x' a a' → VarNameR K y y' b b' → R (g a b) (g' a' b'))
    (he : ∀ a a' b b', VarNameR K x x' a a' → VarNameR K y y' b b' → R (e a b) (e' a' b')) :
    Sim V K R Eq (lehVarConstVar x c y (some g) (some e)) (lehVarConstVar x' c' y' (some g') (some e')) := by
  unfold lehVarConstVar
  refine sim_same sim_dim fun d => ?_
  refine sim_const hn h1 (fun _ _ _ => rfl) fun k => ?_
  refine sim_bind (sim_scopeVar hn hx) fun a a' ha => sim_bind (sim_scopeVar hn hy) fun b b' hb =>
    sim_same (sim_validateM _) fun _ => sim_ite sim_retFalse ?_
  have hd := hg _ _ k ha
  have hd2 := hg2 _ _ _ _ ha hb
  have he := he _ _ _ _ ha hb
  have h1 := hn.var hx ha
  have h2 := hn.var hy hb
  refine sim_bind (sim_hammingDistVC d k h1 hd) fun cls cls' hcls => ?_
  exact sim_emit hn (.cons (varFullClauses_R d h1) (.cons (varFullClauses_R d h2) (.cons hcls (.cons (fullVarEqualClauses_R d h1 h2 he)
    (.cons (hammingDistVV_R d hd2 he) (.cons hcls (.cons (hdLeSem_R d hd hd2) .nil)))))))
include h1 hx hy in
theorem lehVarVarConst_R (hg : ∀ a a' (k : QConst), VarNameR K x x' a a' → R (g a k.asString) (g' a' k.asString))
    (hg2 : ∀ a a' b b', VarNameR K x x' a a' → VarNameR K y y' b b' → R (g a b) (g' a' b'))
    (he : ∀ a a' b b', VarNameR K x x' a a' → VarNameR K y y' b b' → R (e a b) (e' a' b')) :
    Sim V K R Eq (lehVarVarConst x y c (some g) (some e)) (lehVarVarConst x' y' c' (some g') (some e')) := by
  unfold lehVarVarConst
  refine sim_same sim_dim fun d => ?_
  refine sim_bind (sim_scopeVar hn hx) fun a a' ha => sim_bind (sim_scopeVar hn hy) fun b b' hb => ?_
  refine sim_const hn h1 (fun _ _ _ => rfl) fun k => sim_same (sim_validateM _) fun _ => sim_ite sim_retFalse ?_
  have hd := hg _ _ k ha
  have hd2 := hg2 _ _ _ _ ha hb
  have he := he _ _ _ _ ha hb
  have h1 := hn.var hx ha
  have h2 := hn.var hy hb
  refine sim_bind (sim_hammingDistVC d k h1 hd) fun cls cls' hcls => ?_
  exact sim_emit hn (.cons (varFullClauses_R d h1) (.cons (varFullClauses_R d h2) (.cons hcls (.cons (fullVarEqualClauses_R d h1 h2 he)
    (.cons (hammingDistVV_R d hd2 he) (.cons hcls (.cons (hdLeSem_R d hd2 hd) .nil)))))))
include hx hy hz in
theorem lehVarVarVar_R (hg : ∀ a a' b b', VarNameR K x x' a a' → VarNameR K y y' b b' ∨ VarNameR K z z' b b' → R (g a b) (g' a' b'))
    (he : ∀ a a' b b', VarNameR K x x' a a' → VarNameR K y y' b b' ∨ VarNameR K z z' b b' → R (e a b) (e' a' b')) :
    Sim V K R Eq (lehVarVarVar x y z (some g) (some e)) (lehVarVarVar x' y' z' (some g') (some e')) := by
  unfold lehVarVarVar
  refine sim_same sim_dim fun d => ?_
  refine sim_bind (sim_scopeVar hn hx) fun a a' ha => sim_bind (sim_scopeVar hn hy) fun b b' hb =>
    sim_bind (sim_scopeVar hn hz) fun o o' ho => ?_
  have g1 := hg _ _ _ _ ha (.inl hb)
  have g2 := hg _ _ _ _ ha (.inr ho)
  have e1 := he _ _ _ _ ha (.inl hb)
  have e2 := he _ _ _ _ ha (.inr ho)
  have h1 := hn.var hx ha
  have h2 := hn.var hy hb
  have h3 := hn.var hz ho
  exact sim_emit hn (.cons (varFullClauses_R d h1) (.cons (varFullClauses_R d h2) (.cons (varFullClauses_R d h3)
    (.cons (fullVarEqualClauses_R d h1 h2 e1) (.cons (fullVarEqualClauses_R d h1 h3 e2)
    (.cons (hammingDistVV_R d g1 e1) (.cons (hammingDistVV_R d g2 e2) (.cons (hdLeSem_R d g1 g2) .nil))))))))
end

end

theorem Atom.sim {a a' : Atom} (h : AtomR V K R a a') : Sim V K R Eq a.encode a'.encode := by
  cases a <;> cases a' <;> try exact h.elim
  case subs.subs t1 t2 t1' t2' =>
    obtain ⟨h1, h2⟩ := h
    cases t1 <;> cases t1' <;> (try exact h1.elim) <;> cases t2 <;> cases t2' <;> (try exact h2.elim)
    · exact subsConstConst_R hn h1 h2
    · exact subsConstVar_R hn h1 h2
    · exact subsVarConst_R hn h2 h1
    · exact subsVarVar_R hn h1 h2
  case lel.lel t1 t2 g t1' t2' g' =>
    obtain ⟨h1, h2, hg⟩ := h
    cases t1 <;> cases t1' <;> (try exact h1.elim) <;> cases t2 <;> cases t2' <;> (try exact h2.elim)
    · exact lelConstConst_R hn h1 h2
    · cases g <;> cases g' <;> (try exact (hg (.inr trivial)).elim)
      · exact sim_throw _
      · exact lelConstVar_R hn h1 h2 fun a a' h => hg (.inr trivial) a a' (.inr h)
    · cases g <;> cases g' <;> (try exact (hg (.inl trivial)).elim)
      · exact sim_throw _
      · exact lelVarConst_R hn h2 h1 fun a a' h => hg (.inl trivial) a a' (.inl h)
    · cases g <;> cases g' <;> (try exact (hg (.inl trivial)).elim)
      · exact sim_throw _
      · exact lelVarVar_R hn h1 h2 fun a a' h => hg (.inl trivial) a a' h
  case isnode.isnode t g t' g' =>
    obtain ⟨h1, hg⟩ := h
    cases t <;> cases t' <;> (try exact h1.elim)
    · exact isnodeConst_R hn h1
    · cases g <;> cases g' <;> (try exact (hg trivial).elim)
      · exact sim_throw _
      · exact isnodeVar_R hn h1 fun a a' h => hg trivial a a' h
  case full.full t t' =>
    cases t <;> cases t' <;> (try exact h.elim)
    · exact fullConst_R hn h
    · exact fullVar_R hn h
  case cons.cons t1 t2 t1' t2' =>
    obtain ⟨h1, h2⟩ := h
    cases t1 <;> cases t1' <;> (try exact h1.elim) <;> cases t2 <;> cases t2' <;> (try exact h2.elim)
    · exact consConstConst_R hn h1 h2
    · exact consConstVar_R hn h1 h2
    · exact consVarConst_R hn h2 h1
    · exact consVarVar_R hn h1 h2
  case allcomp.allcomp t b g t' b' g' =>
    obtain ⟨h1, rfl, hg⟩ := h
    cases t <;> cases t' <;> (try exact h1.elim)
    · exact allcompConst_R hn h1 b'
    · cases g <;> cases g' <;> (try exact (hg trivial).elim)
      · exact sim_throw _
      · exact allcompVar_R hn h1 b' fun a a' h => hg trivial a a' h
  case dfs.dfs t t' =>
    cases t <;> cases t' <;> (try exact h.elim)
    · exact dfsConst_R hn h
    · exact dfsVar_R hn h
  case hepr.hepr t1 t2 p g t1' t2' p' g' =>
    obtain ⟨h1, h2, rfl, hg⟩ := h
    cases t1 <;> cases t1' <;> (try exact h1.elim) <;> cases t2 <;> cases t2' <;> (try exact h2.elim)
    · exact heprConstConst_R hn h1 h2 p'
    · cases g <;> cases g' <;> (try exact (hg (.inr trivial)).elim)
      · exact sim_throw _
      · exact heprConstVar_R hn h1 h2 p' fun k b b' h => hg (.inr trivial) _ _ b b' ⟨k, rfl, rfl⟩ h
    · cases g <;> cases g' <;> (try exact (hg (.inl trivial)).elim)
      · exact sim_throw _
      · exact heprVarConst_R hn h2 h1 p' fun k b b' h => hg (.inl trivial) b b' _ _ h ⟨k, rfl, rfl⟩
    · cases g <;> cases g' <;> (try exact (hg (.inl trivial)).elim)
      · exact sim_throw _
      · exact heprVarVar_R hn h1 h2 p' fun a a' b b' h h' => hg (.inl trivial) a a' b b' h h'
  case leh.leh t1 t2 t3 g e t1' t2' t3' g' e' =>
    obtain ⟨h1, h2, h3, hg, he⟩ := h
    cases t1 <;> cases t1' <;> (try exact h1.elim) <;> cases t2 <;> cases t2' <;> (try exact h2.elim) <;>
      cases t3 <;> cases t3' <;> (try exact h3.elim)
    · exact lehConstConstConst_R hn h1 h2 h3
    · cases g <;> cases g' <;> (try exact (hg (.inr (.inr trivial))).elim)
      · exact sim_throw _
      · exact lehConstConstVar_R hn h1 h2 h3 fun a a' k h => hg (.inr (.inr trivial)) a a' _ _ (.inr (.inr ⟨h, k, rfl, rfl⟩))
    · cases g <;> cases g' <;> (try exact (hg (.inr (.inl trivial))).elim)
      · exact sim_throw _
      · exact lehConstVarConst_R hn h1 h3 h2 fun a a' k h => hg (.inr (.inl trivial)) a a' _ _ (.inr (.inl ⟨h, .inr ⟨k, rfl, rfl⟩⟩))
    · cases g <;> cases g' <;> (try exact (hg (.inr (.inl trivial))).elim)
      · exact sim_throw _
      · exact lehConstVarVar_R hn h1 h2 h3 fun a a' k h => hg (.inr (.inl trivial)) a a' _ _
          (h.elim (fun h => .inr (.inl ⟨h, .inl ⟨k, rfl, rfl⟩⟩)) fun h => .inr (.inr ⟨h, k, rfl, rfl⟩))
    · cases g <;> cases g' <;> (try exact (hg (.inl trivial)).elim)
      · exact sim_throw _
      · exact lehVarConstConst_R hn h2 h3 h1 fun a a' k h => hg (.inl trivial) a a' _ _ (.inl ⟨h, .inl ⟨k, rfl, rfl⟩⟩)
    · cases g <;> cases g' <;> (try exact (hg (.inl trivial)).elim)
      · exact sim_throw _
      · cases e <;> cases e' <;> (try exact (he ⟨trivial, .inr trivial⟩).elim)
        · exact sim_throw _
        · exact lehVarConstVar_R hn h2 h1 h3 (fun a a' k h => hg (.inl trivial) a a' _ _ (.inl ⟨h, .inl ⟨k, rfl, rfl⟩⟩))
            (fun a a' b b' h h' => hg (.inl trivial) a a' b b' (.inl ⟨h, .inr h'⟩))
            fun a a' b b' h h' => he ⟨trivial, .inr trivial⟩ a a' b b' h (.inr h')
    · cases g <;> cases g' <;> (try exact (hg (.inl trivial)).elim)
      · exact sim_throw _
      · cases e <;> cases e' <;> (try exact (he ⟨trivial, .inl trivial⟩).elim)
        · exact sim_throw _
        · exact lehVarVarConst_R hn h3 h1 h2 (fun a a' k h => hg (.inl trivial) a a' _ _ (.inl ⟨h, .inr ⟨k, rfl, rfl⟩⟩))
            (fun a a' b b' h h' => hg (.inl trivial) a a' b b' (.inl ⟨h, .inl h'⟩))
            fun a a' b b' h h' => he ⟨trivial, .inl trivial⟩ a a' b b' h (.inl h')
    · cases g <;> cases g' <;> (try exact (hg (.inl trivial)).elim)
      · exact sim_throw _
      · cases e <;> cases e' <;> (try exact (he ⟨trivial, .inl trivial⟩).elim)
        · exact sim_throw _
        · exact lehVarVarVar_R hn h1 h2 h3 (fun a a' b b' h h' => hg (.inl trivial) a a' b b' (.inl ⟨h, h'⟩))
            fun a a' b b' h h' => he ⟨trivial, .inl trivial⟩ a a' b b' h h'

/-! ### Operators -/

omit hn in
theorem sim_negStep (c : CNF) : Sim V K R Eq (negStep c) (negStep c) := by
  unfold negStep
  exact sim_same sim_topV fun t => sim_same (sim_updateTopV _) fun _ => sim_pure rfl

theorem sim_encodeI {x x' : QVar} (hx : V x x') : Sim V K R Eq (encodeI x) (encodeI x') := by
  unfold encodeI
  refine sim_bind (sim_scopeVar hn hx) fun v v' hv => sim_same (sim_cnfVarExists hn (hn.var hx hv) _ _) fun ex =>
    sim_ite (sim_pure rfl) (sim_same sim_dim fun d => ?_)
  have e : ∀ v, (reqAllFeats v 0 d >>= fun cls => reqOnePerFeat v 0 d (({} : CNF).appendConsistency cls)) =
    emit (instSteps d v) := fun v => funext fun u => encodeI_new d v u
  rw [e, e]
  have h := hn.var hx hv
  refine sim_emit hn ?_
  unfold instSteps reqAllS reqOneS
  clausesR

variable {m m' k k' : M CNF}

omit hn in
theorem sim_forallLoop (h : Sim V K R Eq m m') (nodes : List Node) : ∀ (n : Nat) (w : WalkSt) (i : Int) (c : CNF),
    Sim V K R Eq (forallLoop m nodes n w i c) (forallLoop m' nodes n w i c) := by
  intro n
  induction n with
  | zero => exact fun _ _ _ => sim_throw _
  | succ n ih =>
    intro w i c
    simp only [forallLoop]
    split
    · exact sim_throw _
    · exact sim_pure rfl
    · exact sim_same (sim_setScope _ _) fun _ => sim_same h fun a => ih _ _ _

omit hn in
theorem sim_forallBuild {c c' : QConst} (hc : K c.id c'.id) (h : Sim V K R Eq m m') :
    Sim V K R Eq (forallBuild c m) (forallBuild c' m') := by
  have hb : Sim V K R Eq (forallBody m) (forallBody m') := by
    unfold forallBody
    exact sim_same sim_dim fun d => sim_same sim_nodes fun nodes => sim_same (sim_lift _) fun w => sim_forallLoop h _ _ _ _ _
  intro s t hst
  have hst' : CtxR V K R (s.addScope c.id) (t.addScope c'.id) :=
    ⟨hst.dim, hst.nodes, hst.topv, hst.scopes.append (.cons ⟨hc, rfl, rfl⟩ .nil), hst.vars, hst.vmap⟩
  obtain ⟨h1, h2⟩ := hb _ _ hst'
  unfold forallBuild
  dsimp only
  generalize forallBody m (s.addScope c.id) = p at h1 h2
  generalize forallBody m' (t.addScope c'.id) = p' at h1 h2
  obtain ⟨r, u⟩ := p
  obtain ⟨r', u'⟩ := p'
  dsimp only at h1 h2 ⊢
  unfold Ctx.popScope
  dsimp only
  rw [h1.scopes.length]
  by_cases h0 : u.scopes.length = 0
  · rw [if_pos h0, if_pos h0]
    refine ⟨h1, ?_⟩
    cases r <;> cases r'
    · next e e' =>
      have : _ = _ := h2
      subst this
      cases e' <;> exact rfl
    · exact h2.elim
    · exact h2.elim
    · exact rfl
  · rw [if_neg h0, if_neg h0]
    refine ⟨⟨h1.dim, h1.nodes, h1.topv, h1.scopes.dropLast, ?_, h1.vmap⟩, h2⟩
    exact h1.vars.filter fun h => by rw [h.2]

theorem Query.comp_sim (q : Query) : ∀ q' : Query, QueryR V K R q q' →
    (q.comp = none ∧ q'.comp = none) ∨ ∃ x x', q.comp = some x ∧ q'.comp = some x' ∧ Sim V K R Eq x x' := by
  induction q with
  | nil =>
    intro q' h
    cases q' <;> first | exact h.elim | exact .inl ⟨rfl, rfl⟩
  | atom a =>
    intro q' h
    cases q' <;> first | exact h.elim | exact .inr ⟨_, _, rfl, rfl, Atom.sim hn h⟩
  | and q1 q2 i1 i2 =>
    intro q' h
    cases q' <;> try exact h.elim
    next q1' q2' =>
    refine .inr ⟨_, _, rfl, rfl, sim_wrapErr _ ?_⟩
    rcases i1 q1' h.1 with ⟨e1, e2⟩ | ⟨x, x', e1, e2, h1⟩
    · rw [e1, e2]; exact sim_throw _
    · rw [e1, e2]
      rcases i2 q2' h.2 with ⟨e1, e2⟩ | ⟨y, y', e1, e2, h2⟩
      · rw [e1, e2]; exact sim_throw _
      · rw [e1, e2]
        exact sim_same (sim_wrapErr _ h1) fun _ => sim_same (sim_wrapErr _ h2) fun _ => sim_pure rfl
  | or q1 q2 i1 i2 =>
    intro q' h
    cases q' <;> try exact h.elim
    next q1' q2' =>
    refine .inr ⟨_, _, rfl, rfl, sim_wrapErr _ ?_⟩
    rcases i1 q1' h.1 with ⟨e1, e2⟩ | ⟨x, x', e1, e2, h1⟩
    · rw [e1, e2]; exact sim_throw _
    · rw [e1, e2]
      rcases i2 q2' h.2 with ⟨e1, e2⟩ | ⟨y, y', e1, e2, h2⟩
      · rw [e1, e2]; exact sim_throw _
      · rw [e1, e2]
        dsimp only
        rw [orBuild_eq, orBuild_eq]
        exact sim_same (sim_wrapErr _ h1) fun _ => sim_same (sim_wrapErr _ h2) fun _ => sim_same (sim_negStep _) fun _ =>
          sim_same (sim_negStep _) fun _ => sim_negStep _
  | not q i1 =>
    intro q' h
    cases q' <;> try exact h.elim
    next q1' =>
    refine .inr ⟨_, _, rfl, rfl, sim_wrapErr _ ?_⟩
    rcases i1 q1' h with ⟨e1, e2⟩ | ⟨x, x', e1, e2, h1⟩
    · rw [e1, e2]; exact sim_throw _
    · rw [e1, e2]
      dsimp only
      rw [notBuild_eq, notBuild_eq]
      exact sim_same h1 fun _ => sim_negStep _
  | withVar v q i1 =>
    intro q' h
    cases q' <;> try exact h.elim
    next v' q1' =>
    refine .inr ⟨_, _, rfl, rfl, sim_wrapErr _ ?_⟩
    rcases i1 q1' h.2 with ⟨e1, e2⟩ | ⟨x, x', e1, e2, h1⟩
    · rw [e1, e2]; exact sim_throw _
    · rw [e1, e2]
      exact sim_same (sim_addVar hn h.1) fun _ => sim_same (sim_encodeI hn h.1) fun _ => sim_same h1 fun _ => sim_pure rfl
  | forallG c q i1 =>
    intro q' h
    cases q' <;> try exact h.elim
    next c' q1' =>
    refine .inr ⟨_, _, rfl, rfl, sim_wrapErr _ ?_⟩
    rcases i1 q1' h.2 with ⟨e1, e2⟩ | ⟨x, x', e1, e2, h1⟩
    · rw [e1, e2]; exact sim_throw _
    · rw [e1, e2]
      exact sim_forallBuild h.1 h1

theorem Query.sim {q q' : Query} (h : QueryR V K R q q') : Sim V K R Eq q.encode q'.encode := by
  unfold Query.encode
  rcases q.comp_sim hn q' h with ⟨e1, e2⟩ | ⟨x, x', e1, e2, h1⟩
  · rw [e1, e2]; exact sim_throw _
  · rw [e1, e2]; exact h1

end

end Goexpdt

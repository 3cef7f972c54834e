import Verif.Lemmas.Iface
namespace Goexpdt
open Spec

namespace Over

variable {σ : Type} {J : Par σ} {n : Nat} {w : Pairing}

/-- Decomposes two computations of the same form. -/
macro "simsG" : tactic => `(tactic| repeat' (first
  | with_reducible exact simG_throw _
  | with_reducible exact simG_retTrue
  | with_reducible exact simG_retFalse
  | with_reducible exact simG_dim
  | with_reducible exact simG_nodes
  | with_reducible exact simG_lift _
  | with_reducible exact simG_validateM _
  | with_reducible exact simG_pure (fun _ _ ok => cnfR_empty ok)
  | with_reducible refine simG_bind (simG_scopeVar _) (fun _ _ _ => ?_)
  | with_reducible refine simG_ite ?_ ?_
  | refine simG_const _ (fun _ _ _ => by rfl) (fun _ => ?_)
  | with_reducible refine simG_same ?_ (fun _ => ?_)))

/-- Distances to a constant, or the same error. -/
theorem simG_hammingDistVC {v v' u u' : QVar} (d : Nat) (c : QConst) (h : J.R v v') (h2 : J.R u u') :
    SimG J n w (K1 (All2 (All2 (SLitR J.R)))) (M.lift (hammingDistVC d v c u)) (MG.lift (hammingDistVC d v' c u')) := by
  refine simG_liftR ?_
  simp only [hammingDistVC]
  cases ValidateConstsDim d [c] with
  | error e => exact rfl
  | ok _ =>
    dsimp only
    cases indexed (0 :: upto d) [c] with
    | error e => exact rfl
    | ok _ => exact hdClauses_R d h2 fun _ _ => ⟨rfl, h, rfl, rfl⟩

theorem simG_dfsClauses {v v' : QVar} (d : Nat) (h : J.R v v') (l : List (QConst × QConst)) :
    SimG J n w (K1 (All2 (All2 (SLitR J.R)))) (M.lift (dfsClauses d v l)) (MG.lift (dfsClauses d v' l)) := by
  refine simG_liftR ?_
  induction l with
  | nil => exact .nil
  | cons p l ih =>
    obtain ⟨p, n⟩ := p
    simp only [dfsClauses, notAWitnessClause]
    by_cases h0 : d ≠ p.val.length ∨ d ≠ n.val.length
    · rw [if_pos h0, if_pos h0]; exact rfl
    · rw [if_neg h0, if_neg h0]
      cases indexed (upto d) [p, n] with
      | error e => exact rfl
      | ok _ =>
        simp only [Except.map]
        revert ih
        cases dfsClauses d v l <;> cases dfsClauses d v' l
        · exact id
        · exact id
        · exact id
        · exact fun ih => .cons (by clausesR) ih

section
variable {c c2 c3 : QConst} {x y z : QVar} (hx : ∀ a a', NameR J.name J.ids x a a' → J.R a a') (hy : ∀ a a', NameR J.name J.ids y a a' → J.R a a')
  (hz : ∀ a a', NameR J.name J.ids z a a' → J.R a a')

theorem subsConstConst_G : SimG J n w CnfR (Goexpdt.subsConstConst c c2) (subsConstConst J.I c c2) := by unfold Goexpdt.subsConstConst subsConstConst; simsG
theorem lelConstConst_G : SimG J n w CnfR (Goexpdt.lelConstConst c c2) (lelConstConst J.I c c2) := by unfold Goexpdt.lelConstConst lelConstConst; simsG
theorem consConstConst_G : SimG J n w CnfR (Goexpdt.consConstConst c c2) (consConstConst J.I c c2) := by unfold Goexpdt.consConstConst consConstConst; simsG
theorem fullConst_G : SimG J n w CnfR (Goexpdt.fullConst c) (fullConst J.I c) := by unfold Goexpdt.fullConst fullConst; simsG
theorem isnodeConst_G : SimG J n w CnfR (Goexpdt.isnodeConst c) (isnodeConst J.I c) := by
  unfold Goexpdt.isnodeConst isnodeConst
  refine simG_const _ (fun i j v => ?_) fun k => ?_
  · simp only [validateM_id i j, isnodeLoop_id i j]; rfl
  · simsG
theorem allcompConst_G (b : Bool) : SimG J n w CnfR (Goexpdt.allcompConst c b) (allcompConst J.I c b) := by
  unfold Goexpdt.allcompConst allcompConst
  refine simG_const _ (fun i j v => ?_) fun k => ?_
  · simp only [validateM_id i j, acLoop_id i j]
  · simsG
theorem dfsConst_G : SimG J n w CnfR (Goexpdt.dfsConst c) (dfsConst J.I c) := by
  unfold Goexpdt.dfsConst dfsConst
  refine simG_const _ (fun i j v => ?_) fun k => ?_
  · simp only [validateM_id i j, dfsOuter_id i j]
  · simsG
theorem heprConstConst_G (p : List Int) : SimG J n w CnfR (Goexpdt.heprConstConst c c2 p) (heprConstConst J.I c c2 p) := by
  unfold Goexpdt.heprConstConst heprConstConst
  refine simG_same simG_dim fun d => simG_same (simG_lift _) fun _ => ?_
  refine simG_const _ (fun i j v => ?_) fun k => ?_
  · refine congrArg _ (funext fun a => ?_)
    obtain ⟨a, va⟩ := a
    simp only [validateM_id i j, heprCC_id i j a a]; rfl
  · refine simG_const _ (fun i j v => ?_) fun k => ?_
    · obtain ⟨a, va⟩ := k
      simp only [validateM_id2 i j, heprCC_id a a i j]; rfl
    · simsG
theorem lehConstConstConst_G : SimG J n w CnfR (Goexpdt.lehConstConstConst c c2 c3) (lehConstConstConst J.I c c2 c3) := by
  unfold Goexpdt.lehConstConstConst lehConstConstConst
  simsG
  split
  · next e => simp only [e]; simsG
  · next e =>
    simp only [e]
    split
    · next e => simp only [e]; simsG
    · next e => simp only [e]; simsG

include hx in
theorem subsConstVar_G : SimG J n w CnfR (Goexpdt.subsConstVar c x) (subsConstVar J.I c x) := by
  unfold Goexpdt.subsConstVar subsConstVar
  simsG
  exact simG_emitF (subsConstVarClauses_R _ _ (hx _ _ (by assumption))) .nil
include hx in
theorem subsVarConst_G : SimG J n w CnfR (Goexpdt.subsVarConst x c) (subsVarConst J.I x c) := by
  unfold Goexpdt.subsVarConst subsVarConst
  simsG
  exact simG_emitF (subsVarConstClauses_R _ _ (hx _ _ (by assumption))) .nil
include hx hy in
theorem subsVarVar_G : SimG J n w CnfR (Goexpdt.subsVarVar x y) (subsVarVar J.I x y) := by
  unfold Goexpdt.subsVarVar subsVarVar
  refine simG_bind (simG_scopeVar _) fun a a' ha => simG_bind (simG_scopeVar _) fun b b' hb => simG_same simG_dim fun d => ?_
  exact simG_emitF (subsVarVarClauses_R _ (hx _ _ ha) (hy _ _ hb)) .nil
include hx in
theorem fullVar_G : SimG J n w CnfR (Goexpdt.fullVar x) (fullVar J.I x) := by
  unfold Goexpdt.fullVar fullVar
  refine simG_bind (simG_scopeVar _) fun a a' ha => simG_same simG_dim fun d => ?_
  exact simG_emitF (varFullClauses_R _ (hx _ _ ha)) .nil

theorem consConstRet_G {a a' : List SClause} (h : All2 (All2 (SLitR J.R)) a a') : SimG J n w CnfR (Goexpdt.consConstRet a) (consConstRet J.I a') := by
  unfold Goexpdt.consConstRet consConstRet
  rw [h.length]
  exact simG_ite simG_retTrue (simG_emitF h .nil)

include hx in
theorem consConstVar_G : SimG J n w CnfR (Goexpdt.consConstVar c x) (consConstVar J.I c x) := by
  unfold Goexpdt.consConstVar consConstVar
  refine simG_const _ (fun _ _ _ => rfl) fun k => ?_
  refine simG_bind (simG_scopeVar _) fun a a' ha => simG_same (simG_validateM _) fun _ => simG_same simG_dim fun d => ?_
  exact consConstRet_G (consConstClauses_R _ _ (hx _ _ ha))
include hx in
theorem consVarConst_G : SimG J n w CnfR (Goexpdt.consVarConst x c) (consVarConst J.I x c) := by
  unfold Goexpdt.consVarConst consVarConst
  refine simG_bind (simG_scopeVar _) fun a a' ha => ?_
  refine simG_const _ (fun _ _ _ => rfl) fun k => ?_
  refine simG_same (simG_validateM _) fun _ => simG_same simG_dim fun d => ?_
  exact consConstRet_G (consConstClauses_R _ _ (hx _ _ ha))
include hx hy in
theorem consVarVar_G : SimG J n w CnfR (Goexpdt.consVarVar x y) (consVarVar J.I x y) := by
  unfold Goexpdt.consVarVar consVarVar
  refine simG_bind (simG_scopeVar _) fun a a' ha => simG_bind (simG_scopeVar _) fun b b' hb => simG_same simG_dim fun d => ?_
  exact simG_emitF (consVarVarClauses_R _ (hx _ _ ha) (hy _ _ hb)) .nil
include hx in
theorem dfsVar_G : SimG J n w CnfR (Goexpdt.dfsVar x) (dfsVar J.I x) := by
  unfold Goexpdt.dfsVar dfsVar
  refine simG_bind (simG_scopeVar _) fun a a' ha => simG_same simG_dim fun d => simG_same simG_nodes fun nodes =>
    simG_same (simG_lift _) fun l => simG_ite (simG_throw _) ?_
  exact simG_bind (simG_dfsClauses _ (hx _ _ ha) _) fun cls cls' h => simG_emitF h .nil

section
variable {g : QVar → QVar}

include hx in
theorem lelConstVar_G (hg : ∀ a a', NameR J.name J.ids x a a' → J.R (g a) (g a')) :
    SimG J n w CnfR (Goexpdt.lelConstVar c x (some g)) (lelConstVar J.I c x (some g)) := by
  unfold Goexpdt.lelConstVar lelConstVar
  refine simG_bind (simG_scopeVar _) fun a a' ha => ?_
  refine simG_const _ (fun _ _ _ => rfl) fun k => ?_
  refine simG_same (simG_validateM _) fun _ => simG_same simG_dim fun d => ?_
  exact simG_emit (.cons (varBotCountClauses_R d (hx _ _ ha) (hg _ _ ha)) (.cons (lelConstVarSem_R d k (hg _ _ ha)) .nil))
include hx in
theorem lelVarConst_G (hg : ∀ a a', NameR J.name J.ids x a a' → J.R (g a) (g a')) :
    SimG J n w CnfR (Goexpdt.lelVarConst x c (some g)) (lelVarConst J.I x c (some g)) := by
  unfold Goexpdt.lelVarConst lelVarConst
  refine simG_bind (simG_scopeVar _) fun a a' ha => ?_
  refine simG_const _ (fun _ _ _ => rfl) fun k => ?_
  refine simG_same (simG_validateM _) fun _ => simG_same simG_dim fun d => ?_
  exact simG_emit (.cons (varBotCountClauses_R d (hx _ _ ha) (hg _ _ ha)) (.cons (lelVarConstSem_R d k (hg _ _ ha)) .nil))
include hx hy in
theorem lelVarVar_G (hg : ∀ a a', NameR J.name J.ids x a a' ∨ NameR J.name J.ids y a a' → J.R (g a) (g a')) :
    SimG J n w CnfR (Goexpdt.lelVarVar x y (some g)) (lelVarVar J.I x y (some g)) := by
  unfold Goexpdt.lelVarVar lelVarVar
  refine simG_bind (simG_scopeVar _) fun a a' ha => simG_bind (simG_scopeVar _) fun b b' hb => simG_same simG_dim fun d => ?_
  exact simG_emit (.cons (varBotCountClauses_R d (hx _ _ ha) (hg _ _ (.inl ha)))
    (.cons (varBotCountClauses_R d (hy _ _ hb) (hg _ _ (.inr hb))) (.cons (lelVarVarSem_R d (hg _ _ (.inl ha)) (hg _ _ (.inr hb))) .nil)))
include hx in
theorem isnodeVar_G (hg : ∀ a a', NameR J.name J.ids x a a' → J.R (g a) (g a')) :
    SimG J n w CnfR (Goexpdt.isnodeVar x (some g)) (isnodeVar J.I x (some g)) := by
  unfold Goexpdt.isnodeVar isnodeVar
  refine simG_same simG_nodes fun nodes => simG_ite (simG_throw _) (simG_same simG_dim fun d => ?_)
  refine simG_bind (simG_scopeVar _) fun a a' ha => simG_ite (simG_throw _) ?_
  have h1 := hx _ _ ha
  have h2 := hg _ _ ha
  exact simG_emit (.cons (isnodeFclOrder_R d nodes h1 h2) (.cons (isnodeFcl_R d nodes h1 h2)
    (.cons (stepR_con (.cons (.cons (slitR_P h2 _ _) .nil) .nil)) (.cons (isnodeProp_R nodes h1 h2) .nil))))
include hx in
theorem allcompVar_G (b : Bool) (hg : ∀ a a', NameR J.name J.ids x a a' → J.R (g a) (g a')) :
    SimG J n w CnfR (Goexpdt.allcompVar x b (some g)) (allcompVar J.I x b (some g)) := by
  unfold Goexpdt.allcompVar allcompVar
  refine simG_same simG_nodes fun nodes => simG_ite (simG_throw _) ?_
  refine simG_bind (simG_scopeVar _) fun a a' ha => ?_
  have h1 := hx _ _ ha
  have h2 := hg _ _ ha
  exact simG_emit (.cons (stepR_con (.cons (.cons (slitR_P h2 _ _) .nil) .nil)) (all2_map _ fun i => allcompStep_R b nodes i h1 h2))
end

section
variable {g : QVar → QVar → QVar → QVar} (p : List Int)

include hx in
theorem heprConstVar_G (hg : ∀ (k : QConst) b b', NameR J.name J.ids x b b' → J.R (g (prefVar p) k.asString b) (g (prefVar p) k.asString b')) :
    SimG J n w CnfR (Goexpdt.heprConstVar c x p (some g)) (heprConstVar J.I c x p (some g)) := by
  unfold Goexpdt.heprConstVar heprConstVar
  refine simG_same simG_dim fun d => simG_same (simG_lift _) fun _ => ?_
  refine simG_const _ (fun _ _ _ => rfl) fun k => ?_
  refine simG_bind (simG_scopeVar _) fun a a' ha => ?_
  refine simG_same (simG_validateM _) fun _ => simG_same (simG_lift _) fun _ => simG_ite (simG_throw _) ?_
  have h2 := hg k _ _ ha
  exact simG_emit (.cons (heprConstVarCon_R k p (hx _ _ ha) h2) (.cons (stepR_sem (.cons (.cons (slitR_P h2 _ _) .nil) .nil)) .nil))
include hx in
theorem heprVarConst_G (hg : ∀ (k : QConst) b b', NameR J.name J.ids x b b' → J.R (g (prefVar p) b k.asString) (g (prefVar p) b' k.asString)) :
    SimG J n w CnfR (Goexpdt.heprVarConst x c p (some g)) (heprVarConst J.I x c p (some g)) := by
  unfold Goexpdt.heprVarConst heprVarConst
  refine simG_same simG_dim fun d => simG_same (simG_lift _) fun _ => ?_
  refine simG_bind (simG_scopeVar _) fun a a' ha => ?_
  refine simG_const _ (fun _ _ _ => rfl) fun k => ?_
  refine simG_same (simG_validateM _) fun _ => simG_same (simG_lift _) fun _ => simG_ite (simG_throw _) ?_
  have h2 := hg k _ _ ha
  exact simG_emit (.cons (heprVarConstCon_R k p (hx _ _ ha) h2) (.cons (stepR_sem (.cons (.cons (slitR_P h2 _ _) .nil) .nil)) .nil))
include hx hy in
theorem heprVarVar_G (hg : ∀ a a' b b', NameR J.name J.ids x a a' → NameR J.name J.ids y b b' → J.R (g (prefVar p) a b) (g (prefVar p) a' b')) :
    SimG J n w CnfR (Goexpdt.heprVarVar x y p (some g)) (heprVarVar J.I x y p (some g)) := by
  unfold Goexpdt.heprVarVar heprVarVar
  refine simG_same simG_dim fun d => simG_same (simG_lift _) fun _ => ?_
  refine simG_bind (simG_scopeVar _) fun a a' ha => simG_bind (simG_scopeVar _) fun b b' hb => simG_ite (simG_throw _) ?_
  have h2 := hg _ _ _ _ ha hb
  exact simG_emit (.cons (heprVarVarCon_R p (hx _ _ ha) (hy _ _ hb) h2) (.cons (stepR_sem (.cons (.cons (slitR_P h2 _ _) .nil) .nil)) .nil))
end

section
variable {g e : QVar → QVar → QVar}

include hx in
theorem lehConstConstVar_G (hg : ∀ a a' (k : QConst), NameR J.name J.ids x a a' → J.R (g a k.asString) (g a' k.asString)) :
    SimG J n w CnfR (Goexpdt.lehConstConstVar c c2 x (some g)) (lehConstConstVar J.I c c2 x (some g)) := by
  unfold Goexpdt.lehConstConstVar lehConstConstVar
  refine simG_same simG_dim fun d => ?_
  refine simG_const _ (fun _ _ _ => rfl) fun k => simG_const _ (fun _ _ _ => rfl) fun k2 => ?_
  refine simG_bind (simG_scopeVar _) fun a a' ha => simG_same (simG_validateM _) fun _ => simG_ite simG_retFalse ?_
  refine simG_same (simG_lift _) fun n => simG_ite simG_retTrue ?_
  have hd := hg _ _ k ha
  refine simG_bind (simG_hammingDistVC d k (hx _ _ ha) hd) fun cls cls' hcls => ?_
  exact simG_emitF (varFullClauses_R d (hx _ _ ha)) (.cons hcls (.cons (stepR_sem (all2_map _ fun i => .cons (slitR_N hd _ _) .nil)) .nil))
include hx in
theorem lehConstVarConst_G (hg : ∀ a a' (k : QConst), NameR J.name J.ids x a a' → J.R (g a k.asString) (g a' k.asString)) :
    SimG J n w CnfR (Goexpdt.lehConstVarConst c x c2 (some g)) (lehConstVarConst J.I c x c2 (some g)) := by
  unfold Goexpdt.lehConstVarConst lehConstVarConst
  refine simG_same simG_dim fun d => ?_
  refine simG_const _ (fun _ _ _ => rfl) fun k => simG_const _ (fun _ _ _ => rfl) fun k2 => ?_
  refine simG_bind (simG_scopeVar _) fun a a' ha => simG_same (simG_validateM _) fun _ => simG_ite simG_retFalse ?_
  refine simG_same (simG_lift _) fun n => simG_ite simG_retTrue ?_
  have hd := hg _ _ k2 ha
  refine simG_bind (simG_hammingDistVC d k (hx _ _ ha) hd) fun cls cls' hcls => ?_
  exact simG_emitF (varFullClauses_R d (hx _ _ ha)) (.cons hcls (.cons (stepR_sem (all2_map _ fun i => .cons (slitR_N hd _ _) .nil)) .nil))
include hx hy in
theorem lehConstVarVar_G (hg : ∀ a a' (k : QConst), NameR J.name J.ids x a a' ∨ NameR J.name J.ids y a a' → J.R (g a k.asString) (g a' k.asString)) :
    SimG J n w CnfR (Goexpdt.lehConstVarVar c x y (some g)) (lehConstVarVar J.I c x y (some g)) := by
  unfold Goexpdt.lehConstVarVar lehConstVarVar
  refine simG_same simG_dim fun d => ?_
  refine simG_const _ (fun _ _ _ => rfl) fun k => ?_
  refine simG_bind (simG_scopeVar _) fun a a' ha => simG_bind (simG_scopeVar _) fun b b' hb =>
    simG_same (simG_validateM _) fun _ => simG_ite simG_retFalse ?_
  have hd := hg _ _ k (.inl ha)
  have he := hg _ _ k (.inr hb)
  refine simG_bind (simG_hammingDistVC d k (hx _ _ ha) hd) fun cls cls' hcls => ?_
  refine simG_bind (simG_hammingDistVC d k (hy _ _ hb) he) fun cls2 cls2' hcls2 => ?_
  exact simG_emit (.cons (varFullClauses_R d (hx _ _ ha)) (.cons (varFullClauses_R d (hy _ _ hb)) (.cons hcls (.cons hcls2
    (.cons (hdLeSem_R d hd he) .nil)))))
include hx in
theorem lehVarConstConst_G (hg : ∀ a a' (k : QConst), NameR J.name J.ids x a a' → J.R (g a k.asString) (g a' k.asString)) :
    SimG J n w CnfR (Goexpdt.lehVarConstConst x c c2 (some g)) (lehVarConstConst J.I x c c2 (some g)) := by
  unfold Goexpdt.lehVarConstConst lehVarConstConst
  refine simG_same simG_dim fun d => ?_
  refine simG_const _ (fun _ _ _ => rfl) fun k => simG_const _ (fun _ _ _ => rfl) fun k2 => ?_
  refine simG_bind (simG_scopeVar _) fun a a' ha => simG_same (simG_validateM _) fun _ => simG_ite simG_retFalse ?_
  have hd := hg _ _ k ha
  have he := hg _ _ k2 ha
  refine simG_bind (simG_hammingDistVC d k (hx _ _ ha) hd) fun cls cls' hcls => ?_
  refine simG_bind (simG_hammingDistVC d k2 (hx _ _ ha) he) fun cls2 cls2' hcls2 => ?_
  exact simG_emitF (varFullClauses_R d (hx _ _ ha)) (.cons hcls (.cons hcls2 (.cons (hdLeSem_R d hd he) .nil)))
include hx hy in
theorem lehVarConstVar_G (hg : ∀ a a' (k : QConst), NameR J.name J.ids x a a' → J.R (g a k.asString) (g a' k.asString))
    (hg2 : ∀ a a' b b', NameR J.name J.ids x a a' → NameR J.name J.ids y b b' → J.R (g a b) (g a' b'))
    (he : ∀ a a' b b', NameR J.name J.ids x a a' → NameR J.name J.ids y b b' → J.R (e a b) (e a' b')) :
    SimG J n w CnfR (Goexpdt.lehVarConstVar x c y (some g) (some e)) (lehVarConstVar J.I x c y (some g) (some e)) := by
  unfold Goexpdt.lehVarConstVar lehVarConstVar
  refine simG_same simG_dim fun d => ?_
  refine simG_const _ (fun _ _ _ => rfl) fun k => ?_
  refine simG_bind (simG_scopeVar _) fun a a' ha => simG_bind (simG_scopeVar _) fun b b' hb =>
    simG_same (simG_validateM _) fun _ => simG_ite simG_retFalse ?_
  have hd := hg _ _ k ha
  have hd2 := hg2 _ _ _ _ ha hb
  have he := he _ _ _ _ ha hb
  have h1 := hx _ _ ha
  have h2 := hy _ _ hb
  refine simG_bind (simG_hammingDistVC d k h1 hd) fun cls cls' hcls => ?_
  exact simG_emit (.cons (varFullClauses_R d h1) (.cons (varFullClauses_R d h2) (.cons hcls (.cons (fullVarEqualClauses_R d h1 h2 he)
    (.cons (hammingDistVV_R d hd2 he) (.cons hcls (.cons (hdLeSem_R d hd hd2) .nil)))))))
include hx hy in
theorem lehVarVarConst_G (hg : ∀ a a' (k : QConst), NameR J.name J.ids x a a' → J.R (g a k.asString) (g a' k.asString))
    (hg2 : ∀ a a' b b', NameR J.name J.ids x a a' → NameR J.name J.ids y b b' → J.R (g a b) (g a' b'))
    (he : ∀ a a' b b', NameR J.name J.ids x a a' → NameR J.name J.ids y b b' → J.R (e a b) (e a' b')) :
    SimG J n w CnfR (Goexpdt.lehVarVarConst x y c (some g) (some e)) (lehVarVarConst J.I x y c (some g) (some e)) := by
  unfold Goexpdt.lehVarVarConst lehVarVarConst
  refine simG_same simG_dim fun d => ?_
  refine simG_bind (simG_scopeVar _) fun a a' ha => simG_bind (simG_scopeVar _) fun b b' hb => ?_
  refine simG_const _ (fun _ _ _ => rfl) fun k => simG_same (simG_validateM _) fun _ => simG_ite simG_retFalse ?_
  have hd := hg _ _ k ha
  have hd2 := hg2 _ _ _ _ ha hb
  have he := he _ _ _ _ ha hb
  have h1 := hx _ _ ha
  have h2 := hy _ _ hb
  refine simG_bind (simG_hammingDistVC d k h1 hd) fun cls cls' hcls => ?_
  exact simG_emit (.cons (varFullClauses_R d h1) (.cons (varFullClauses_R d h2) (.cons hcls (.cons (fullVarEqualClauses_R d h1 h2 he)
    (.cons (hammingDistVV_R d hd2 he) (.cons hcls (.cons (hdLeSem_R d hd2 hd) .nil)))))))
include hx hy hz in
theorem lehVarVarVar_G (hg : ∀ a a' b b', NameR J.name J.ids x a a' → NameR J.name J.ids y b b' ∨ NameR J.name J.ids z b b' → J.R (g a b) (g a' b'))
    (he : ∀ a a' b b', NameR J.name J.ids x a a' → NameR J.name J.ids y b b' ∨ NameR J.name J.ids z b b' → J.R (e a b) (e a' b')) :
    SimG J n w CnfR (Goexpdt.lehVarVarVar x y z (some g) (some e)) (lehVarVarVar J.I x y z (some g) (some e)) := by
  unfold Goexpdt.lehVarVarVar lehVarVarVar
  refine simG_same simG_dim fun d => ?_
  refine simG_bind (simG_scopeVar _) fun a a' ha => simG_bind (simG_scopeVar _) fun b b' hb =>
    simG_bind (simG_scopeVar _) fun o o' ho => ?_
  have g1 := hg _ _ _ _ ha (.inl hb)
  have g2 := hg _ _ _ _ ha (.inr ho)
  have e1 := he _ _ _ _ ha (.inl hb)
  have e2 := he _ _ _ _ ha (.inr ho)
  have h1 := hx _ _ ha
  have h2 := hy _ _ hb
  have h3 := hz _ _ ho
  exact simG_emit (.cons (varFullClauses_R d h1) (.cons (varFullClauses_R d h2) (.cons (varFullClauses_R d h3)
    (.cons (fullVarEqualClauses_R d h1 h2 e1) (.cons (fullVarEqualClauses_R d h1 h3 e2)
    (.cons (hammingDistVV_R d g1 e1) (.cons (hammingDistVV_R d g2 e2) (.cons (hdLeSem_R d g1 g2) .nil))))))))
end

end


end Over

end Goexpdt

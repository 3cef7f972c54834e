import Verif.Lemmas.Shift
import Verif.Spec.Renaming
namespace Goexpdt
open Spec

/-! ### Lists -/

section
variable {α β γ δ : Type} {P : α → β → Prop} {Q : γ → δ → Prop}

theorem All2.length {l : List α} {l' : List β} (h : All2 P l l') : l'.length = l.length := by
  induction h with
  | nil => rfl
  | cons _ _ ih => simp [ih]

theorem All2.append {l₁ l₂ : List α} {l₁' l₂' : List β} (h1 : All2 P l₁ l₁') (h2 : All2 P l₂ l₂') : All2 P (l₁ ++ l₂) (l₁' ++ l₂') := by
  induction h1 with
  | nil => exact h2
  | cons h _ ih => exact .cons h ih

theorem all2_map {f : γ → α} {f' : γ → β} (l : List γ) (h : ∀ x, P (f x) (f' x)) : All2 P (l.map f) (l.map f') := by
  induction l with
  | nil => exact .nil
  | cons a l ih => exact .cons (h a) ih

theorem all2_flatMap {f : γ → List α} {f' : γ → List β} (l : List γ) (h : ∀ x, All2 P (f x) (f' x)) :
    All2 P (l.flatMap f) (l.flatMap f') := by
  induction l with
  | nil => exact .nil
  | cons a l ih => rw [List.flatMap_cons, List.flatMap_cons]; exact (h a).append ih

theorem all2_ite {p : Prop} [Decidable p] {l₁ l₂ : List α} {l₁' l₂' : List β} (h1 : All2 P l₁ l₁') (h2 : All2 P l₂ l₂') :
    All2 P (if p then l₁ else l₂) (if p then l₁' else l₂') := by
  split
  · exact h1
  · exact h2

theorem All2.filter {l : List α} {l' : List β} (h : All2 P l l') {f : α → Bool} {f' : β → Bool} (hf : ∀ {a b}, P a b → f' b = f a) :
    All2 P (l.filter f) (l'.filter f') := by
  induction h with
  | nil => exact .nil
  | @cons a b as bs hab _ ih =>
    rw [List.filter_cons, List.filter_cons, hf hab]
    split
    · exact .cons hab ih
    · exact ih

theorem All2.dropLast {l : List α} {l' : List β} (h : All2 P l l') : All2 P l.dropLast l'.dropLast := by
  induction h with
  | nil => exact .nil
  | cons hab h ih =>
    cases h with
    | nil => exact .nil
    | cons h1 h2 => exact .cons hab ih

end

section
variable {V : QVar → QVar → Prop} {K : List Char → List Char → Prop} {R : QVar → QVar → Prop}

theorem Naming.vars (h : Naming V K R) : OneOne V where
  right h1 h2 := h.names.right (h.var h1 ⟨_, _, .nil, (List.append_nil _).symm, (List.append_nil _).symm⟩)
    (h.var h2 ⟨_, _, .nil, (List.append_nil _).symm, (List.append_nil _).symm⟩)
  left h1 h2 := h.names.left (h.var h1 ⟨_, _, .nil, (List.append_nil _).symm, (List.append_nil _).symm⟩)
    (h.var h2 ⟨_, _, .nil, (List.append_nil _).symm, (List.append_nil _).symm⟩)

theorem mapGet_vars (h : OneOne V) {l l' : List (QVar × Nat)} (hl : All2 (fun p p' => V p.1 p'.1 ∧ p'.2 = p.2) l l') {x x' : QVar} (hx : V x x') :
    mapGet l' x' = mapGet l x := by
  induction hl with
  | nil => rfl
  | @cons a b as bs hab _ ih =>
    obtain ⟨a, n⟩ := a
    obtain ⟨b, m⟩ := b
    obtain ⟨h1, rfl⟩ := hab
    simp only [mapGet]
    by_cases e : a = x
    · subst e
      rw [if_pos rfl, if_pos (h.right h1 hx)]
    · rw [if_neg e, if_neg (fun e' : b = x' => e (h.left (e' ▸ h1) hx))]
      exact ih

theorem mapGet_vmap (h : OneOne R) {l l' : List (VarRep × Int)}
    (hl : All2 (fun p p' => R p.1.v p'.1.v ∧ p'.1.idx = p.1.idx ∧ p'.1.val = p.1.val ∧ p'.2 = p.2) l l') {v v' : QVar} (hv : R v v') (i a : Int) :
    mapGet l' ⟨v', i, a⟩ = mapGet l ⟨v, i, a⟩ := by
  induction hl with
  | nil => rfl
  | @cons p p' as bs hab _ ih =>
    obtain ⟨⟨w, j, b⟩, n⟩ := p
    obtain ⟨⟨w', j', b'⟩, n'⟩ := p'
    obtain ⟨h1, h2, h3, h4⟩ := hab
    dsimp only at h1 h2 h3 h4
    subst h2 h3 h4
    simp only [mapGet]
    by_cases e : w = v ∧ j' = i ∧ b' = a
    · obtain ⟨rfl, rfl, rfl⟩ := e
      rw [if_pos rfl, if_pos (by rw [h.right h1 hv])]
    · have e1 : ¬ (⟨w, j', b'⟩ : VarRep) = ⟨v, i, a⟩ := by
        intro e'; injection e' with e1 e2 e3; exact e ⟨e1, e2, e3⟩
      have e2 : ¬ (⟨w', j', b'⟩ : VarRep) = ⟨v', i, a⟩ := by
        intro e'; injection e' with e1 e2 e3; subst e1; exact e ⟨h.left h1 hv, e2, e3⟩
      rw [if_neg e1, if_neg e2]
      exact ih

theorem scopeSuffix_R {l l' : List Scope} (h : All2 (fun g g' => K g.target g'.target ∧ g'.value = g.value ∧ g'.vIdx = g.vIdx) l l') :
    ∀ k, (Ctx.scopeSuffix k l = none ∧ Ctx.scopeSuffix k l' = none) ∨
      ∃ suf suf', Ctx.scopeSuffix k l = some suf ∧ Ctx.scopeSuffix k l' = some suf' ∧ SuffixR K suf suf' := by
  induction h with
  | nil =>
    intro k
    cases k with
    | zero => exact .inr ⟨[], [], rfl, rfl, .nil⟩
    | succ k => exact .inl ⟨rfl, rfl⟩
  | @cons g g' gs gs' hg _ ih =>
    intro k
    cases k with
    | zero => exact .inr ⟨[], [], rfl, rfl, .nil⟩
    | succ k =>
      rcases ih k with ⟨h1, h2⟩ | ⟨suf, suf', h1, h2, h3⟩
      · exact .inl ⟨by simp only [Ctx.scopeSuffix, h1], by simp only [Ctx.scopeSuffix, h2]⟩
      · refine .inr ⟨_, _, by simp only [Ctx.scopeSuffix, h1]; rfl, by simp only [Ctx.scopeSuffix, h2, hg.2.2]; rfl, ?_⟩
        exact SuffixR.cons _ hg.1 h3

/-! ### Computations -/

/-- Two computations that do the same up to names. -/
def Sim {α β : Type} (V : QVar → QVar → Prop) (K : List Char → List Char → Prop) (R : QVar → QVar → Prop) (P : α → β → Prop)
    (m : M α) (m' : M β) : Prop :=
  ∀ s t, CtxR V K R s t → CtxR V K R (m s).2 (m' t).2 ∧ match (m s).1, (m' t).1 with
    | .ok a, .ok b => P a b
    | .error e, .error e' => e' = e
    | _, _ => False

variable {α β γ δ : Type} {Pr : α → β → Prop} {Q : γ → δ → Prop}

theorem sim_pure {a : α} {b : β} (h : Pr a b) : Sim V K R Pr (pure a) (pure b) := fun _ _ hs => ⟨hs, h⟩
theorem sim_throw (e : Err) : Sim V K R Pr (M.throw e) (M.throw e) := fun _ _ hs => ⟨hs, rfl⟩

theorem sim_bind {m : M α} {m' : M β} {f : α → M γ} {f' : β → M δ} (hm : Sim V K R Pr m m')
    (hf : ∀ a b, Pr a b → Sim V K R Q (f a) (f' b)) : Sim V K R Q (m >>= f) (m' >>= f') := by
  intro s t hst
  have h0 := hm s t hst
  show CtxR V K R (M.bind' m f s).2 (M.bind' m' f' t).2 ∧ match (M.bind' m f s).1, (M.bind' m' f' t).1 with
    | .ok a, .ok b => Q a b
    | .error e, .error e' => e' = e
    | _, _ => False
  unfold M.bind'
  cases hr : m s with
  | mk r s1 =>
    cases hr' : m' t with
    | mk r' t1 =>
      rw [hr, hr'] at h0
      cases r <;> cases r'
      · exact h0
      · exact h0.2.elim
      · exact h0.2.elim
      · exact hf _ _ h0.2 s1 t1 h0.1

theorem sim_wrapErr (pre : String) {m : M α} {m' : M β} (hm : Sim V K R Pr m m') : Sim V K R Pr (M.wrapErr pre m) (M.wrapErr pre m') := by
  intro s t hst
  have h0 := hm s t hst
  unfold M.wrapErr
  cases hr : m s with
  | mk r s1 =>
    cases hr' : m' t with
    | mk r' t1 =>
      rw [hr, hr'] at h0
      cases r <;> cases r'
      · exact ⟨h0.1, congrArg _ h0.2⟩
      · exact h0.2.elim
      · exact h0.2.elim
      · exact h0

theorem sim_lift (r : Except Err α) : Sim V K R Eq (M.lift r) (M.lift r) := by
  intro s t hst
  refine ⟨hst, ?_⟩
  cases r <;> exact rfl

theorem sim_dim : Sim V K R Eq M.dim M.dim := fun _ _ hst => ⟨hst, hst.dim.symm⟩
theorem sim_nodes : Sim V K R Eq M.nodes M.nodes := fun _ _ hst => ⟨hst, hst.nodes.symm⟩
theorem sim_topV : Sim V K R Eq M.topV M.topV := fun _ _ hst => ⟨hst, hst.topv.symm⟩

theorem sim_updateTopV (v : Int) : Sim V K R Eq (M.updateTopV v) (M.updateTopV v) := by
  intro s t hst
  refine ⟨?_, rfl⟩
  simp only [M.updateTopV, Ctx.updateTopV, hst.topv]
  split
  · exact hst
  · exact ⟨hst.dim, hst.nodes, rfl, hst.scopes, hst.vars, hst.vmap⟩

theorem sim_scopeVar (hn : Naming V K R) {x x' : QVar} (hx : V x x') : Sim V K R (VarNameR K x x') (M.scopeVar x) (M.scopeVar x') := by
  intro s t hst
  refine ⟨hst, ?_⟩
  simp only [M.scopeVar, Ctx.scopeVar, hst.scopes.length, mapGet_vars hn.vars hst.vars hx]
  by_cases h0 : s.scopes.length = 0
  · rw [if_pos h0, if_pos h0]
    exact ⟨[], [], .nil, (List.append_nil _).symm, (List.append_nil _).symm⟩
  · rw [if_neg h0, if_neg h0]
    rcases scopeSuffix_R hst.scopes ((mapGet s.vars x).getD 0) with ⟨h1, h2⟩ | ⟨suf, suf', h1, h2, h3⟩
    · rw [h1, h2]
    · rw [h1, h2]
      exact ⟨suf, suf', h3, rfl, rfl⟩

theorem sim_scopeConst (hn : Naming V K R) {c c' : QConst} (hc : K c.id c'.id ∧ c'.val = c.val) :
    Sim V K R (fun c c' => c'.val = c.val) (M.scopeConst c) (M.scopeConst c') := by
  intro s t hst
  refine ⟨hst, ?_⟩
  simp only [M.scopeConst, Ctx.scopeConst]
  have := hst.scopes
  generalize s.scopes = l at this
  generalize t.scopes = l' at this
  induction this with
  | nil => exact hc.2
  | @cons g g' _ _ hg _ ih =>
    simp only [Ctx.scopeConstLoop]
    by_cases e : g.target = c.id
    · rw [if_pos e, if_pos (hn.ids.right (e ▸ hg.1) hc.1)]
      exact hg.2.1
    · rw [if_neg e, if_neg (fun e' : g'.target = c'.id => e (hn.ids.left (e' ▸ hg.1) hc.1))]
      exact ih

theorem sim_addVar (hn : Naming V K R) {x x' : QVar} (hx : V x x') : Sim V K R Eq (M.addVar x) (M.addVar x') := by
  intro s t hst
  refine ⟨?_, rfl⟩
  simp only [M.addVar, Ctx.addVar, hst.scopes.length, mapGet_vars hn.vars hst.vars hx]
  split
  · exact hst
  · split
    · exact hst
    · exact ⟨hst.dim, hst.nodes, hst.topv, hst.scopes, .cons ⟨hx, rfl⟩ hst.vars, hst.vmap⟩

theorem setLast_R (i : Int) (val : List FeatV) {l l' : List Scope}
    (h : All2 (fun g g' => K g.target g'.target ∧ g'.value = g.value ∧ g'.vIdx = g.vIdx) l l') :
    All2 (fun g g' => K g.target g'.target ∧ g'.value = g.value ∧ g'.vIdx = g.vIdx) (Ctx.setLast i val l) (Ctx.setLast i val l') := by
  induction h with
  | nil => exact .nil
  | cons h hs ih =>
    cases hs with
    | nil => exact .cons ⟨h.1, rfl, rfl⟩ .nil
    | cons h1 h2 => exact .cons h ih

theorem sim_setScope (i : Int) (val : List FeatV) : Sim V K R Eq (M.setScope i val) (M.setScope i val) := by
  intro s t hst
  simp only [M.setScope, Ctx.setScope, hst.scopes.length]
  by_cases h0 : s.scopes.length = 0
  · rw [if_pos h0, if_pos h0]; exact ⟨hst, rfl⟩
  · rw [if_neg h0, if_neg h0]
    exact ⟨⟨hst.dim, hst.nodes, hst.topv, setLast_R i val hst.scopes, hst.vars, hst.vmap⟩, trivial⟩

theorem sim_cnfVarExists (hn : Naming V K R) {v v' : QVar} (h : R v v') (i a : Int) :
    Sim V K R Eq (M.cnfVarExists ⟨v, i, a⟩) (M.cnfVarExists ⟨v', i, a⟩) := by
  intro s t hst
  refine ⟨hst, ?_⟩
  simp only [M.cnfVarExists, Ctx.cnfVarExists, mapGet_vmap hn.names hst.vmap h]

theorem sim_cnfVar (hn : Naming V K R) {v v' : QVar} (h : R v v') (i a : Int) :
    Sim V K R Eq (M.cnfVar ⟨v, i, a⟩) (M.cnfVar ⟨v', i, a⟩) := by
  intro s t hst
  simp only [M.cnfVar]
  unfold Ctx.cnfVar
  rw [mapGet_vmap hn.names hst.vmap h, hst.topv]
  cases mapGet s.vmap ⟨v, i, a⟩ with
  | some n => exact ⟨hst, rfl⟩
  | none => exact ⟨⟨hst.dim, hst.nodes, rfl, hst.scopes, hst.vars, .cons ⟨h, rfl, rfl, rfl⟩ hst.vmap⟩, rfl⟩

/-! ### Clauses -/

/-- Two literals with related names. -/
def SLitR (R : QVar → QVar → Prop) (l l' : SLit) : Prop :=
  l'.pos = l.pos ∧ R l.vr.v l'.vr.v ∧ l'.vr.idx = l.vr.idx ∧ l'.vr.val = l.vr.val

/-- Two steps with related clauses. -/
def StepR (R : QVar → QVar → Prop) : Step → Step → Prop
  | .touch a, .touch b => All2 (All2 (SLitR R)) a b
  | .sem a, .sem b => All2 (All2 (SLitR R)) a b
  | .con a, .con b => All2 (All2 (SLitR R)) a b
  | _, _ => False

theorem slitR_P {v v' : QVar} (h : R v v') (i a : Int) : SLitR R (P v i a) (P v' i a) := ⟨rfl, h, rfl, rfl⟩
theorem slitR_N {v v' : QVar} (h : R v v') (i a : Int) : SLitR R (N v i a) (N v' i a) := ⟨rfl, h, rfl, rfl⟩

theorem sim_allocLit (hn : Naming V K R) {l l' : SLit} (h : SLitR R l l') : Sim V K R Eq (allocLit l) (allocLit l') := by
  obtain ⟨p, ⟨v, i, a⟩⟩ := l
  obtain ⟨p', ⟨v', i', a'⟩⟩ := l'
  obtain ⟨h1, h2, h3, h4⟩ := h
  dsimp only at h1 h2 h3 h4
  subst h1 h3 h4
  exact sim_bind (sim_cnfVar hn h2 _ _) fun a b e => sim_pure (by rw [e])

theorem sim_allocClause (hn : Naming V K R) {c c' : SClause} (h : All2 (SLitR R) c c') : Sim V K R Eq (allocClause c) (allocClause c') := by
  induction h with
  | nil => exact sim_pure rfl
  | cons h _ ih => exact sim_bind (sim_allocLit hn h) fun a b e => sim_bind ih fun a' b' e' => sim_pure (by rw [e, e'])

theorem sim_allocClauses (hn : Naming V K R) {c c' : List SClause} (h : All2 (All2 (SLitR R)) c c') :
    Sim V K R Eq (allocClauses c) (allocClauses c') := by
  induction h with
  | nil => exact sim_pure rfl
  | cons h _ ih => exact sim_bind (sim_allocClause hn h) fun a b e => sim_bind ih fun a' b' e' => sim_pure (by rw [e, e'])

theorem sim_emitFrom (hn : Naming V K R) {st st' : List Step} (h : All2 (StepR R) st st') :
    ∀ c, Sim V K R Eq (emitFrom c st) (emitFrom c st') := by
  induction h with
  | nil => exact fun c => sim_pure rfl
  | @cons a b _ _ h _ ih =>
    intro c
    cases a <;> cases b
    · exact sim_bind (sim_allocClauses hn h) fun a b e => ih _
    · exact h.elim
    · exact h.elim
    · exact h.elim
    · exact sim_bind (sim_allocClauses hn h) fun a b e => by rw [e]; exact ih _
    · exact h.elim
    · exact h.elim
    · exact h.elim
    · exact sim_bind (sim_allocClauses hn h) fun a b e => by rw [e]; exact ih _

theorem sim_emit (hn : Naming V K R) {st st' : List Step} (h : All2 (StepR R) st st') : Sim V K R Eq (emit st) (emit st') :=
  sim_emitFrom hn h _

theorem sim_emitF (hn : Naming V K R) {c c' : List SClause} (hc : All2 (All2 (SLitR R)) c c') {st st' : List Step} (h : All2 (StepR R) st st') :
    Sim V K R Eq (emitF c st) (emitF c' st') :=
  sim_bind (sim_allocClauses hn hc) fun a b e => by rw [e]; exact sim_emitFrom hn h _

theorem sim_mono {m : M α} {m' : M β} {P' : α → β → Prop} (h : Sim V K R Pr m m') (hP : ∀ a b, Pr a b → P' a b) : Sim V K R P' m m' := by
  intro s t hst
  obtain ⟨h1, h2⟩ := h s t hst
  refine ⟨h1, ?_⟩
  revert h2
  cases (m s).1 <;> cases (m' t).1
  · exact id
  · exact id
  · exact id
  · exact hP _ _

theorem sim_ite {p : Prop} [Decidable p] {x y : M α} {x' y' : M β} (hx : Sim V K R Pr x x') (hy : Sim V K R Pr y y') :
    Sim V K R Pr (if p then x else y) (if p then x' else y') := by
  split
  · exact hx
  · exact hy

/-- After a constant was resolved only its values matter. -/
theorem sim_const (hn : Naming V K R) {c c' : QConst} (hc : K c.id c'.id ∧ c'.val = c.val) {f : QConst → M α} {f' : QConst → M β}
    (hf' : ∀ i j v, f' ⟨i, v⟩ = f' ⟨j, v⟩) (hf : ∀ k, Sim V K R Pr (f k) (f' k)) : Sim V K R Pr (M.scopeConst c >>= f) (M.scopeConst c' >>= f') := by
  refine sim_bind (sim_scopeConst hn hc) fun a b e => ?_
  obtain ⟨i, v⟩ := a
  obtain ⟨j, w⟩ := b
  dsimp only at e
  subst e
  rw [hf' j i]
  exact hf _

theorem sim_same {m : M α} {m' : M α} {f : α → M γ} {f' : α → M δ} (hm : Sim V K R Eq m m')
    (hf : ∀ a, Sim V K R Q (f a) (f' a)) : Sim V K R Q (m >>= f) (m' >>= f') := sim_bind hm fun a _ e => e ▸ hf a

theorem sim_validateM (cs : List QConst) : Sim V K R Eq (validateM cs) (validateM cs) := by
  unfold validateM
  exact sim_same sim_dim fun d => sim_lift _

end

end Goexpdt

import Verif.Lemmas.Emit
import Verif.Model.Syntax
/- What every component does to the context, whatever its outcome is. -/
namespace Goexpdt
open Spec

/-- The part of a context an encoding leaves alone. -/
structure Keep3 (s s' : Ctx) : Prop where
  scopes : s'.scopes = s.scopes
  dim : s'.dim = s.dim
  nodes : s'.nodes = s.nodes

theorem Keep3.refl (s : Ctx) : Keep3 s s := ⟨rfl, rfl, rfl⟩
theorem Keep3.trans {a b c : Ctx} (h : Keep3 a b) (h' : Keep3 b c) : Keep3 a c :=
  ⟨h'.scopes.trans h.scopes, h'.dim.trans h.dim, h'.nodes.trans h.nodes⟩

/-- Declared variables stay declared at their level, and new ones have the current level. -/
structure VarsExt (n : Nat) (s s' : Ctx) : Prop where
  fn : VarsFun s'
  keep : ∀ v k, mapGet s.vars v = some k → mapGet s'.vars v = some k
  new : ∀ v k, mapGet s'.vars v = some k → mapGet s.vars v = some k ∨ (k = n ∧ 0 < n)

theorem VarsExt.refl {n : Nat} {s : Ctx} (h : VarsFun s) : VarsExt n s s :=
  ⟨h, fun _ _ h => h, fun _ _ h => .inl h⟩
theorem VarsExt.of_eq {n : Nat} {s s' : Ctx} (h : VarsFun s) (e : s'.vars = s.vars) : VarsExt n s s' :=
  ⟨by intro v k hm; rw [e] at hm ⊢; exact h v k hm, by rw [e]; exact fun _ _ h => h,
    by rw [e]; exact fun _ _ h => .inl h⟩
theorem VarsExt.trans {n : Nat} {a b c : Ctx} (h : VarsExt n a b) (h' : VarsExt n b c) :
    VarsExt n a c := by
  refine ⟨h'.fn, fun v k hk => h'.keep v k (h.keep v k hk), fun v k hk => ?_⟩
  rcases h'.new v k hk with h1 | h1
  · exact h.new v k h1
  · exact .inr h1

theorem VarsExt.scopeOk {s s' : Ctx} (h : VarsExt s.scopes.length s s') (hs : ScopeOk s)
    (e : s'.scopes = s.scopes) : ScopeOk s' := by
  intro v k hk
  rw [e]
  rcases h.new v k hk with h1 | ⟨rfl, h1⟩
  · exact hs v k h1
  · omega

/-- What every component does to the context. -/
structure Tame (x : M CNF) : Prop where
  keep : ∀ s, Keep3 s (x s).2
  vars : ∀ s, VarsFun s → ScopeOk s → VarsExt s.scopes.length s (x s).2
  vm : ∀ s, VMok s → VMok (x s).2 ∧ Ext s (x s).2
  res : ∀ s c, VMok s → (x s).1 = .ok c → WF c ∧ c.tv ≤ (x s).2.topv

/-- A computation that only reads the context. -/
def ReadOnly {α : Type} (x : M α) : Prop := ∀ s, (x s).2 = s

theorem readOnly_scopeVar (v : QVar) : ReadOnly (M.scopeVar v) := fun _ => rfl
theorem readOnly_scopeConst (c : QConst) : ReadOnly (M.scopeConst c) := fun _ => rfl
theorem readOnly_dim : ReadOnly M.dim := fun _ => rfl
theorem readOnly_nodes : ReadOnly M.nodes := fun _ => rfl
theorem readOnly_lift {α : Type} (r : Except Err α) : ReadOnly (M.lift r) := fun _ => rfl
theorem readOnly_exists (vr : VarRep) : ReadOnly (M.cnfVarExists vr) := fun _ => rfl
theorem readOnly_validateM (cs : List QConst) : ReadOnly (validateM cs) := fun _ => rfl

theorem Tame.bind {α : Type} {x : M α} {f : α → M CNF} (hx : ReadOnly x) (hf : ∀ a, Tame (f a)) :
    Tame (x >>= f) := by
  have key : ∀ s, (∃ a, (x >>= f) s = f a s) ∨ ∃ e, (x >>= f) s = (.error e, s) := by
    intro s
    have := hx s
    cases h : x s with
    | mk r s' =>
      rw [h] at this
      simp only at this
      subst this
      cases r with
      | ok a => exact .inl ⟨a, M_bind_ok h⟩
      | error e => exact .inr ⟨e, M_bind_error h⟩
  refine ⟨fun s => ?_, fun s h1 h2 => ?_, fun s hs => ?_, fun s c hs => ?_⟩
  all_goals rcases key s with ⟨a, e⟩ | ⟨e', e⟩ <;> rw [e]
  · exact (hf a).keep s
  · exact .refl s
  · exact (hf a).vars s h1 h2
  · exact .refl h1
  · exact (hf a).vm s hs
  · exact ⟨hs, .refl s⟩
  · exact (hf a).res s c hs
  · intro hc; simp at hc

theorem Tame.throw (e : Err) : Tame (M.throw e) :=
  ⟨fun s => .refl s, fun _ h _ => .refl h, fun s h => ⟨h, .refl s⟩,
    fun s c _ h => by simp [M.throw] at h⟩

theorem Tame.pure {c : CNF} (h : WF c) (h0 : c.tv = 0) : Tame (Pure.pure c) :=
  ⟨fun s => .refl s, fun _ h _ => .refl h, fun s h => ⟨h, .refl s⟩, fun s c' hs hc => by
    simp only [M_pure, Except.ok.injEq] at hc
    subst hc
    refine ⟨h, ?_⟩
    rw [h0]
    exact hs.topv_nonneg⟩

theorem WF.falseCNF : WF FalseCNF := by
  refine ⟨by simp [FalseCNF], ?_, by simp [FalseCNF], ?_, by simp [FalseCNF]⟩ <;>
    simp [FalseCNF, NegClauses]

theorem Tame.retTrue : Tame retTrue := .pure WF.empty rfl
theorem Tame.retFalse : Tame retFalse := .pure WF.falseCNF rfl

theorem wrapErr_ok {α : Type} {pre : String} {x : M α} {s s' : Ctx} {a : α} (h : x s = (.ok a, s')) :
    M.wrapErr pre x s = (.ok a, s') := by simp [M.wrapErr, h]

theorem wrapErr_snd {α : Type} (pre : String) (x : M α) (s : Ctx) :
    (M.wrapErr pre x s).2 = (x s).2 := by
  unfold M.wrapErr; split <;> simp_all

theorem wrapErr_fst_ok {α : Type} {pre : String} {x : M α} {s : Ctx} {a : α} :
    (M.wrapErr pre x s).1 = .ok a ↔ (x s).1 = .ok a := by
  unfold M.wrapErr; split <;> simp_all

theorem Tame.wrapErr {x : M CNF} (pre : String) (h : Tame x) : Tame (M.wrapErr pre x) := by
  refine ⟨fun s => ?_, fun s h1 h2 => ?_, fun s hs => ?_, fun s c hs hc => ?_⟩
  all_goals rw [wrapErr_snd]
  · exact h.keep s
  · exact h.vars s h1 h2
  · exact h.vm s hs
  · exact h.res s c hs (wrapErr_fst_ok.1 hc)

/-! ### evaluation of clauses touches only the variable manager, for any context -/

theorem cnfVar_keeps (s : Ctx) (vr : VarRep) : Keeps s (s.cnfVar vr).2 := by
  unfold Ctx.cnfVar; split <;> exact ⟨rfl, rfl, rfl, rfl⟩

theorem allocClause_keeps (c : SClause) : ∀ s, ∃ k s', allocClause c s = (.ok k, s') ∧ Keeps s s' := by
  induction c with
  | nil => exact fun s => ⟨[], s, rfl, .refl s⟩
  | cons l c ih =>
    intro s
    obtain ⟨k, s', e, h⟩ := ih (s.cnfVar l.vr).2
    refine ⟨(if l.pos then (s.cnfVar l.vr).1 else -(s.cnfVar l.vr).1) :: k, s', ?_, (cnfVar_keeps s l.vr).trans h⟩
    simp only [allocClause]
    have e0 : allocLit l s = (.ok (if l.pos then (s.cnfVar l.vr).1 else -(s.cnfVar l.vr).1),
      (s.cnfVar l.vr).2) := rfl
    rw [M_bind_ok e0, M_bind_ok e]
    rfl

theorem allocClauses_keeps (cls : List SClause) : ∀ s, ∃ k s', allocClauses cls s = (.ok k, s') ∧ Keeps s s' := by
  induction cls with
  | nil => exact fun s => ⟨[], s, rfl, .refl s⟩
  | cons c cls ih =>
    intro s
    obtain ⟨k, s', e, h⟩ := allocClause_keeps c s
    obtain ⟨k2, s2, e2, h2⟩ := ih s'
    refine ⟨k :: k2, s2, ?_, h.trans h2⟩
    simp only [allocClauses]
    rw [M_bind_ok e, M_bind_ok e2]
    rfl

theorem emitFrom_keeps (st : List Step) : ∀ c s, ∃ k s', emitFrom c st s = (.ok k, s') ∧ Keeps s s' := by
  induction st with
  | nil => exact fun c s => ⟨c, s, rfl, .refl s⟩
  | cons a st ih =>
    intro c s
    cases a with
    | touch cls =>
      obtain ⟨k, s', e, h⟩ := allocClauses_keeps cls s
      obtain ⟨k2, s2, e2, h2⟩ := ih c s'
      exact ⟨k2, s2, by simp only [emitFrom]; rw [M_bind_ok e, e2], h.trans h2⟩
    | sem cls =>
      obtain ⟨k, s', e, h⟩ := allocClauses_keeps cls s
      obtain ⟨k2, s2, e2, h2⟩ := ih (c.appendSemantics k) s'
      exact ⟨k2, s2, by simp only [emitFrom]; rw [M_bind_ok e, e2], h.trans h2⟩
    | con cls =>
      obtain ⟨k, s', e, h⟩ := allocClauses_keeps cls s
      obtain ⟨k2, s2, e2, h2⟩ := ih (c.appendConsistency k) s'
      exact ⟨k2, s2, by simp only [emitFrom]; rw [M_bind_ok e, e2], h.trans h2⟩

theorem Tame.emit (st : List Step) : Tame (emit st) := by
  refine ⟨fun s => ?_, fun s h1 _ => ?_, fun s hs => ?_, fun s c hs hc => ?_⟩
  · obtain ⟨k, s', e, h⟩ := emitFrom_keeps st {} s
    rw [Goexpdt.emit, e]; exact ⟨h.scopes, h.dim, h.nodes⟩
  · obtain ⟨k, s', e, h⟩ := emitFrom_keeps st {} s
    rw [Goexpdt.emit, e]; exact .of_eq h1 h.vars
  · obtain ⟨k, s', e, h⟩ := emit_spec st s hs
    rw [e]; exact ⟨h.alloc.ok, h.alloc.ext⟩
  · obtain ⟨k, s', e, h⟩ := emit_spec st s hs
    rw [e] at hc ⊢
    simp only [Except.ok.injEq] at hc
    subst hc
    exact ⟨h.wf WF.empty, h.top hs.topv_nonneg⟩

theorem Tame.emitF (cls : List SClause) (st : List Step) : Tame (emitF cls st) := by
  rw [emitF_eq]; exact .emit _

theorem Tame.ite {p : Prop} [Decidable p] {x y : M CNF} (hx : Tame x) (hy : Tame y) :
    Tame (if p then x else y) := by split <;> assumption

/-- Decomposes a component built from read-only operations and a final evaluation of clauses. -/
macro "tame" : tactic => `(tactic| repeat' (first
  | exact Tame.throw _
  | exact Tame.retTrue
  | exact Tame.retFalse
  | exact Tame.pure WF.empty rfl
  | exact Tame.emit _
  | exact Tame.emitF _ _
  | exact readOnly_scopeVar _
  | exact readOnly_scopeConst _
  | exact readOnly_dim
  | exact readOnly_nodes
  | exact readOnly_lift _
  | exact readOnly_validateM _
  | refine Tame.ite ?_ ?_
  | refine Tame.bind ?_ (fun _ => ?_)
  | split))

/-- Every predicate and extension is tame. -/
theorem Atom.tame (a : Atom) : Tame a.encode := by
  unfold Atom.encode
  split
  · unfold subsConstConst; tame
  · unfold subsConstVar; tame
  · unfold subsVarConst; tame
  · unfold subsVarVar; tame
  · unfold lelConstConst; tame
  · unfold lelConstVar; tame
  · unfold lelVarConst; tame
  · unfold lelVarVar; tame
  · unfold isnodeConst; tame
  · unfold isnodeVar; tame
  · unfold fullConst; tame
  · unfold fullVar; tame
  · unfold consConstConst; tame
  · unfold consConstVar consConstRet; tame
  · unfold consVarConst consConstRet; tame
  · unfold consVarVar; tame
  · unfold allcompConst; tame
  · unfold allcompVar; tame
  · unfold dfsConst; tame
  · unfold dfsVar; tame
  · unfold heprConstConst; tame
  · unfold heprConstVar; tame
  · unfold heprVarConst; tame
  · unfold heprVarVar; tame
  · unfold lehConstConstConst; tame
  · unfold lehConstConstVar; tame
  · unfold lehConstVarConst; tame
  · unfold lehConstVarVar; tame
  · unfold lehVarConstConst; tame
  · unfold lehVarConstVar; tame
  · unfold lehVarVarConst; tame
  · unfold lehVarVarVar; tame

end Goexpdt

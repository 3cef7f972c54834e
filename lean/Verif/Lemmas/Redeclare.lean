import Verif.Lemmas.Calm
/- Declaring a variable twice; reachable contexts. -/
namespace Goexpdt
open Spec

theorem reachable_vm {d : Nat} {nodes : List Node} {s : Ctx} (h : Reachable d nodes s) : VMok s := by
  induction h with
  | new => exact VMok.basic d nodes
  | call op _ ih => exact (run_vm [op] _ ih).1
  | encode q _ ih => exact (q.tame.vm _ ih).1

theorem reachableNR_scope {d : Nat} {nodes : List Node} {s : Ctx} (h : ReachableNR d nodes s) :
    VarsFun s ∧ ScopeOk s ∧ s.dim = d ∧ s.nodes = nodes := by
  induction h with
  | new => exact ⟨(basic_scoper d nodes).1, (basic_scoper d nodes).2, rfl, rfl⟩
  | @call s op hne _ ih =>
    have := run_scoper [op] s (by simpa using Ne.symm hne) ih.1 ih.2.1
    refine ⟨this.1, this.2, ?_, ?_⟩
    · rw [← ih.2.2.1]
      cases op with
      | cnfVar vr => exact (cnfVar_keeps s vr).dim
      | updateTopV v => exact (updateTopV_tame s v).1.dim
      | addVar v => exact (addVar_other s v).1.dim
      | addScope t => rfl
      | popScope => simp only [Op.exec, Ctx.popScope]; split <;> rfl
      | setScope i v => simp only [Op.exec, Ctx.setScope]; split <;> rfl
      | reset => exact absurd rfl hne
    · rw [← ih.2.2.2]
      cases op with
      | cnfVar vr => exact (cnfVar_keeps s vr).nodes
      | updateTopV v => exact (updateTopV_tame s v).1.nodes
      | addVar v => exact (addVar_other s v).1.nodes
      | addScope t => rfl
      | popScope => simp only [Op.exec, Ctx.popScope]; split <;> rfl
      | setScope i v => simp only [Op.exec, Ctx.setScope]; split <;> rfl
      | reset => exact absurd rfl hne
  | @encode s q _ ih =>
    have h1 := q.tame.vars s ih.1 ih.2.1
    have h2 := q.tame.keep s
    exact ⟨h1.fn, h1.scopeOk ih.2.1 h2.scopes, h2.dim.trans ih.2.2.1, h2.nodes.trans ih.2.2.2⟩

theorem encodeI_declared {x v : QVar} {s : Ctx} (hv : s.scopeVar x = .ok v)
    (he : s.cnfVarExists ⟨v, 0, BOT⟩ = true) : encodeI x s = (.ok {}, s) := by
  have e1 : M.scopeVar x s = (.ok v, s) := Prod.ext hv rfl
  have e2 : M.cnfVarExists ⟨v, 0, BOT⟩ s = (.ok true, s) := Prod.ext (congrArg Except.ok he) rfl
  unfold encodeI
  rw [M_bind_ok e1, M_bind_ok e2, if_pos rfl]
  rfl

theorem encodeI_fresh {x v : QVar} {s : Ctx} (hv : s.scopeVar x = .ok v)
    (he : s.cnfVarExists ⟨v, 0, BOT⟩ = false) : encodeI x s = emit (instSteps s.dim v) s := by
  have e1 : M.scopeVar x s = (.ok v, s) := Prod.ext hv rfl
  have e2 : M.cnfVarExists ⟨v, 0, BOT⟩ s = (.ok false, s) := Prod.ext (congrArg Except.ok he) rfl
  have e3 : M.dim s = (.ok s.dim, s) := rfl
  unfold encodeI
  rw [M_bind_ok e1, M_bind_ok e2, if_neg (by simp), M_bind_ok e3, encodeI_new]

theorem scopeVar_congr {s s' : Ctx} (h1 : s'.scopes = s.scopes) (h2 : s'.vars = s.vars) (x : QVar) :
    s'.scopeVar x = s.scopeVar x := by unfold Ctx.scopeVar; rw [h1, h2]

/-- After `encodeI` the variable is declared (if the dimension is positive). -/
theorem encodeI_declares {x v : QVar} {s : Ctx} (hvm : VMok s) (hv : s.scopeVar x = .ok v)
    (hd : 0 < s.dim) : ∃ c s1, encodeI x s = (.ok c, s1) ∧ s1.scopeVar x = .ok v ∧
      s1.cnfVarExists ⟨v, 0, BOT⟩ = true ∧ VMok s1 ∧ Ext s s1 := by
  cases he : s.cnfVarExists ⟨v, 0, BOT⟩ with
  | true => exact ⟨_, s, encodeI_declared hv he, hv, he, hvm, .refl s⟩
  | false =>
    rw [encodeI_fresh hv he]
    obtain ⟨c, s1, e, h⟩ := emit_spec (instSteps s.dim v) s hvm
    refine ⟨c, s1, e, ?_, ?_, h.alloc.ok, h.alloc.ext⟩
    · rw [scopeVar_congr h.alloc.keeps.scopes h.alloc.keeps.vars, hv]
    · have : Named s1 ⟨v, 0, BOT⟩ := by
        rw [h.alloc.named]
        right
        simp only [instSteps, allOf, usedIn_append, reqAllS]
        left
        rw [usedIn_map]
        exact ⟨0, mem_rng.2 (by omega), P v 0 BOT, by simp, rfl⟩
      obtain ⟨n, hn⟩ := this
      simp [Ctx.cnfVarExists, hn]

theorem Spec.ReachableNR.reachable {d : Nat} {nodes : List Node} {s : Ctx} (h : ReachableNR d nodes s) :
    Reachable d nodes s := by
  induction h with
  | new => exact .new
  | call op _ _ ih => exact .call op ih
  | encode q _ ih => exact .encode q ih

/-- `encodeI` twice in a row. -/
theorem encodeI_twice {x v : QVar} {s : Ctx} (hvm : VMok s) (hv : s.scopeVar x = .ok v) :
    ∃ c s1, encodeI x s = (.ok c, s1) ∧ encodeI x s1 = (.ok {}, s1) ∧ s1.scopes = s.scopes ∧
      s1.vars = s.vars := by
  by_cases hd : 0 < s.dim
  · obtain ⟨c, s1, e, h1, h2, -, -⟩ := encodeI_declares hvm hv hd
    refine ⟨c, s1, e, encodeI_declared h1 h2, ?_, ?_⟩
    · have := ((encodeI_tame x).keep s).scopes; rwa [e] at this
    · cases he : s.cnfVarExists ⟨v, 0, BOT⟩ with
      | true =>
        rw [encodeI_declared hv he] at e
        simp only [Prod.mk.injEq] at e
        rw [← e.2]
      | false =>
        rw [encodeI_fresh hv he] at e
        obtain ⟨c', s1', e', h⟩ := emit_spec (instSteps s.dim v) s hvm
        rw [e'] at e
        simp only [Prod.mk.injEq] at e
        rw [← e.2]
        exact h.alloc.keeps.vars
  · have h0 : s.dim = 0 := by omega
    have : encodeI x s = (.ok {}, s) := by
      cases he : s.cnfVarExists ⟨v, 0, BOT⟩ with
      | true => exact encodeI_declared hv he
      | false => rw [encodeI_fresh hv he, h0]; rfl
    exact ⟨_, _, this, this, rfl, rfl⟩

theorem addVar_congr {s s1 : Ctx} (h1 : s1.scopes = s.scopes) (h2 : s1.vars = s.vars) (x : QVar)
    (h : s.addVar x = s) : s1.addVar x = s1 := by
  unfold Ctx.addVar at h ⊢
  rw [h1, h2]
  split at h
  · next h0 => rw [if_pos h0]
  · next h0 =>
    rw [if_neg h0]
    split at h
    · rfl
    · have := congrArg Ctx.vars h
      simp at this

theorem conj_empty_conj (a b : CNF) : a.conjunction (({} : CNF).conjunction b) = a.conjunction b := by
  simp [CNF.conjunction, CNF.appendSemantics, CNF.appendConsistency]

theorem addVar_idem (s : Ctx) (x : QVar) : (s.addVar x).addVar x = s.addVar x := by
  by_cases h0 : s.scopes.length = 0
  · simp [Ctx.addVar, h0]
  · cases h : mapGet s.vars x with
    | some k => simp [Ctx.addVar, h0, h]
    | none => simp [Ctx.addVar, h0, h, mapGet]

end Goexpdt

import Verif.Lemmas.Itoa
import Verif.Spec.History
import Verif.Spec.State
/- Lemmas about the context: maps, variable manager, scoper. -/
namespace Goexpdt
open Spec

/-! ### maps -/

section map
variable {α β : Type} [DecidableEq α]

@[simp] theorem mapGet_nil (k : α) : mapGet ([] : List (α × β)) k = none := rfl

theorem mapGet_cons (m : List (α × β)) (k k' : α) (b : β) :
    mapGet ((k', b) :: m) k = if k' = k then some b else mapGet m k := rfl

theorem mapGet_mem {m : List (α × β)} {k : α} {b : β} (h : mapGet m k = some b) : (k, b) ∈ m := by
  induction m with
  | nil => simp at h
  | cons p m ih =>
    obtain ⟨k', b'⟩ := p
    rw [mapGet_cons] at h
    split at h
    · simp_all
    · simp [ih h]

theorem mapGet_none {m : List (α × β)} {k : α} : mapGet m k = none ↔ ∀ p ∈ m, p.1 ≠ k := by
  induction m with
  | nil => simp
  | cons p m ih =>
    obtain ⟨k', b'⟩ := p
    rw [mapGet_cons]
    split
    · simp_all
    · simp_all

end map

/-! ### variable manager -/

theorem Ext.refl (s : Ctx) : Ext s s :=
  ⟨by omega, fun _ _ h => h, fun _ _ h h' => by rw [h] at h'; simp at h'⟩

theorem Ext.trans {a b c : Ctx} (h : Ext a b) (h' : Ext b c) : Ext a c := by
  refine ⟨Int.le_trans h.topv_le h'.topv_le, fun vr n hn => h'.keep _ _ (h.keep _ _ hn), ?_⟩
  intro vr n h1 h2
  cases hb : mapGet b.vmap vr with
  | none => have := h'.fresh vr n hb h2; have := h.topv_le; omega
  | some m =>
    have := h'.keep vr m hb
    rw [h2] at this
    simp only [Option.some.injEq] at this
    subst this
    exact h.fresh vr n h1 hb

theorem Ext.of_vm_eq {s s' : Ctx} (h1 : s'.topv = s.topv) (h2 : s'.vmap = s.vmap) : Ext s s' := by
  refine ⟨by omega, ?_, ?_⟩
  · rw [h2]; exact fun _ _ h => h
  · rw [h2]; intro _ _ h h'; rw [h] at h'; simp at h'

theorem VMok.of_vm_eq {s s' : Ctx} (h : VMok s) (h1 : s'.topv = s.topv) (h2 : s'.vmap = s.vmap) :
    VMok s' := by
  refine ⟨by have := h.topv_nonneg; omega, ?_, ?_⟩
  · rw [h1, h2]; exact h.range
  · rw [h2]; exact h.inj

theorem VMok.basic (d : Nat) (nodes : List Node) : VMok (BasicQContext d nodes) :=
  ⟨by simp [BasicQContext], by simp [BasicQContext], by simp [BasicQContext]⟩

theorem VMok.reset (s : Ctx) : VMok s.reset :=
  ⟨by simp [Ctx.reset], by simp [Ctx.reset], by simp [Ctx.reset]⟩

theorem cnfVar_of_some {s : Ctx} {vr : VarRep} {n : Int} (h : mapGet s.vmap vr = some n) :
    s.cnfVar vr = (n, s) := by simp [Ctx.cnfVar, h]

theorem cnfVar_of_none {s : Ctx} {vr : VarRep} (h : mapGet s.vmap vr = none) :
    s.cnfVar vr = (s.topv + 1,
      { s with topv := s.topv + 1, vmap := (vr, s.topv + 1) :: s.vmap }) := by
  simp [Ctx.cnfVar, h]

/-- What `CNFVar` does. -/
theorem cnfVar_spec {s : Ctx} (h : VMok s) (vr : VarRep) :
    VMok (s.cnfVar vr).2 ∧ Ext s (s.cnfVar vr).2 ∧
    mapGet (s.cnfVar vr).2.vmap vr = some (s.cnfVar vr).1 ∧
    (∀ vr', vr' ≠ vr → mapGet (s.cnfVar vr).2.vmap vr' = mapGet s.vmap vr') ∧
    (s.cnfVar vr).2.scopes = s.scopes ∧ (s.cnfVar vr).2.vars = s.vars ∧
    (s.cnfVar vr).2.dim = s.dim ∧ (s.cnfVar vr).2.nodes = s.nodes := by
  have h0 := h.topv_nonneg
  cases hm : mapGet s.vmap vr with
  | some n =>
    rw [cnfVar_of_some hm]
    exact ⟨h, .refl s, hm, fun _ _ => rfl, rfl, rfl, rfl, rfl⟩
  | none =>
    rw [cnfVar_of_none hm]
    refine ⟨⟨?_, ?_, ?_⟩, ⟨?_, ?_, ?_⟩, ?_, ?_, rfl, rfl, rfl, rfl⟩
    · show 0 ≤ s.topv + 1; omega
    · intro vr' n hn
      simp only [mapGet_cons] at hn
      show 1 ≤ n ∧ n ≤ s.topv + 1
      split at hn
      · simp only [Option.some.injEq] at hn; omega
      · have := h.range vr' n hn; omega
    · intro v1 v2 n h1 h2
      simp only [mapGet_cons] at h1 h2
      split at h1 <;> split at h2
      · simp_all
      · simp only [Option.some.injEq] at h1; have := h.range v2 n h2; omega
      · simp only [Option.some.injEq] at h2; have := h.range v1 n h1; omega
      · exact h.inj v1 v2 n h1 h2
    · show s.topv ≤ s.topv + 1; omega
    · intro vr' n hn
      simp only [mapGet_cons]
      split
      · next e => subst e; rw [hm] at hn; simp at hn
      · exact hn
    · intro vr' n hn1 hn2
      simp only [mapGet_cons] at hn2
      split at hn2
      · simp only [Option.some.injEq] at hn2; omega
      · rw [hn1] at hn2; simp at hn2
    · simp [mapGet_cons]
    · intro vr' hne
      simp only [mapGet_cons]
      rw [if_neg (Ne.symm hne)]

theorem updateTopV_spec {s : Ctx} (h : VMok s) (v : Int) :
    VMok (s.updateTopV v).2 ∧ Ext s (s.updateTopV v).2 ∧ (s.updateTopV v).2.vmap = s.vmap ∧
    (s.updateTopV v).2.topv = max s.topv v ∧
    (s.updateTopV v).2.scopes = s.scopes ∧ (s.updateTopV v).2.vars = s.vars ∧
    (s.updateTopV v).2.dim = s.dim ∧ (s.updateTopV v).2.nodes = s.nodes := by
  have h0 := h.topv_nonneg
  unfold Ctx.updateTopV
  split
  · exact ⟨h, .refl s, rfl, by simp only; omega, rfl, rfl, rfl, rfl⟩
  · refine ⟨⟨by simp only; omega, ?_, h.inj⟩, ⟨by simp only; omega, fun _ _ h => h, ?_⟩, rfl,
      by simp only; omega, rfl, rfl, rfl, rfl⟩
    · intro vr n hn; have := h.range vr n hn; simp only; omega
    · intro _ _ h h'; simp only at h'; rw [h] at h'; simp at h'

/-! ### histories -/

theorem exec_vm (op : Op) (s : Ctx) (h : VMok s) :
    VMok (op.exec s) ∧ (op ≠ .reset → Ext s (op.exec s)) := by
  cases op with
  | cnfVar vr => exact ⟨(cnfVar_spec h vr).1, fun _ => (cnfVar_spec h vr).2.1⟩
  | updateTopV v => exact ⟨(updateTopV_spec h v).1, fun _ => (updateTopV_spec h v).2.1⟩
  | addVar v =>
    have h1 : (s.addVar v).topv = s.topv := by unfold Ctx.addVar; split <;> first | rfl | (split <;> rfl)
    have h2 : (s.addVar v).vmap = s.vmap := by unfold Ctx.addVar; split <;> first | rfl | (split <;> rfl)
    exact ⟨h.of_vm_eq h1 h2, fun _ => .of_vm_eq h1 h2⟩
  | addScope t => exact ⟨h.of_vm_eq rfl rfl, fun _ => .of_vm_eq rfl rfl⟩
  | popScope =>
    have h1 : s.popScope.2.topv = s.topv := by unfold Ctx.popScope; split <;> rfl
    have h2 : s.popScope.2.vmap = s.vmap := by unfold Ctx.popScope; split <;> rfl
    exact ⟨h.of_vm_eq h1 h2, fun _ => .of_vm_eq h1 h2⟩
  | setScope i v =>
    have h1 : (s.setScope i v).2.topv = s.topv := by unfold Ctx.setScope; split <;> rfl
    have h2 : (s.setScope i v).2.vmap = s.vmap := by unfold Ctx.setScope; split <;> rfl
    exact ⟨h.of_vm_eq h1 h2, fun _ => .of_vm_eq h1 h2⟩
  | reset => exact ⟨VMok.reset s, fun h => absurd rfl h⟩

theorem run_cons (op : Op) (ops : List Op) (s : Ctx) : run (op :: ops) s = run ops (op.exec s) := rfl

theorem run_append (a b : List Op) (s : Ctx) : run (a ++ b) s = run b (run a s) := by
  simp [run, List.foldl_append]

theorem run_vm (ops : List Op) (s : Ctx) (h : VMok s) :
    VMok (run ops s) ∧ (.reset ∉ ops → Ext s (run ops s)) := by
  induction ops generalizing s with
  | nil => exact ⟨h, fun _ => .refl s⟩
  | cons op ops ih =>
    obtain ⟨h1, h2⟩ := exec_vm op s h
    obtain ⟨h3, h4⟩ := ih _ h1
    refine ⟨h3, fun hr => ?_⟩
    simp only [List.mem_cons, not_or] at hr
    exact (h2 (Ne.symm hr.1)).trans (h4 hr.2)

/-- The numbered triples are exactly the ones asked for. -/
theorem run_exists (ops : List Op) (s : Ctx) (hr : .reset ∉ ops) (vr : VarRep) :
    (run ops s).cnfVarExists vr = true ↔ s.cnfVarExists vr = true ∨ .cnfVar vr ∈ ops := by
  induction ops generalizing s with
  | nil => simp [run]
  | cons op ops ih =>
    simp only [List.mem_cons, not_or] at hr
    rw [run_cons, ih _ hr.2]
    have key : (op.exec s).cnfVarExists vr = true ↔
        s.cnfVarExists vr = true ∨ op = .cnfVar vr := by
      cases op with
      | cnfVar vr' =>
        simp only [Op.exec, Ctx.cnfVarExists, Op.cnfVar.injEq]
        cases hm : mapGet s.vmap vr' with
        | some n =>
          rw [cnfVar_of_some hm]
          constructor
          · exact .inl
          · rintro (h | rfl)
            · exact h
            · simp [hm]
        | none =>
          rw [cnfVar_of_none hm]
          simp only [mapGet_cons]
          by_cases e : vr' = vr
          · simp [e]
          · simp [e]
      | updateTopV v =>
        simp only [Op.exec, Ctx.cnfVarExists, Ctx.updateTopV]; split <;> simp
      | addVar v =>
        simp only [Op.exec, Ctx.cnfVarExists, Ctx.addVar]
        split
        · simp
        · split <;> simp
      | addScope t => simp [Op.exec, Ctx.cnfVarExists, Ctx.addScope]
      | popScope => simp only [Op.exec, Ctx.cnfVarExists, Ctx.popScope]; split <;> simp
      | setScope i v => simp only [Op.exec, Ctx.cnfVarExists, Ctx.setScope]; split <;> simp
      | reset => simp at hr
    rw [key]
    simp only [List.mem_cons]
    grind

/-! ### scoper -/

@[simp] theorem setLast_length (i : Int) (v : List FeatV) (gs : List Scope) :
    (Ctx.setLast i v gs).length = gs.length := by
  induction gs with
  | nil => rfl
  | cons g gs ih => cases gs <;> simp_all [Ctx.setLast]

theorem setLast_append (i : Int) (v : List FeatV) (gs : List Scope) (g : Scope) :
    Ctx.setLast i v (gs ++ [g]) = gs ++ [{ g with vIdx := i, value := v }] := by
  induction gs with
  | nil => rfl
  | cons a gs ih =>
    cases gs with
    | nil => rfl
    | cons b gs => simp only [List.cons_append, Ctx.setLast] at ih ⊢; rw [ih]

theorem scopeSuffix_some {k : Nat} {gs : List Scope} (h : k ≤ gs.length) :
    Ctx.scopeSuffix k gs = some ((gs.take k).flatMap
      (fun g => [sep] ++ g.target ++ [sep] ++ itoa g.vIdx)) := by
  induction k generalizing gs with
  | zero => simp [Ctx.scopeSuffix]
  | succ k ih =>
    cases gs with
    | nil => simp at h
    | cons g gs =>
      simp only [List.length_cons] at h
      simp [Ctx.scopeSuffix, ih (by omega : k ≤ gs.length), show Ctx.US = sep from rfl]

theorem scopeSuffix_none {k : Nat} {gs : List Scope} (h : gs.length < k) :
    Ctx.scopeSuffix k gs = none := by
  induction k generalizing gs with
  | zero => omega
  | succ k ih =>
    cases gs with
    | nil => rfl
    | cons g gs => simp only [List.length_cons] at h; simp [Ctx.scopeSuffix, ih (gs := gs) (by omega)]

@[simp] theorem suffix_nil : suffix [] = [] := rfl
@[simp] theorem suffix_cons (g : Scope) (gs : List Scope) :
    suffix (g :: gs) = sep :: (g.target ++ sep :: (itoa g.vIdx ++ suffix gs)) := by
  simp [suffix]

theorem suffix_shape (gs : List Scope) : suffix gs = [] ∨ ∃ r, suffix gs = sep :: r := by
  cases gs with
  | nil => exact .inl rfl
  | cons g gs => right; exact ⟨_, suffix_cons g gs⟩

theorem scopeVar_eq {s : Ctx} (h : ScopeOk s) (v : QVar) :
    s.scopeVar v = .ok (v ++ suffix (s.scopes.take ((mapGet s.vars v).getD 0))) := by
  unfold Ctx.scopeVar
  split
  · next h0 => rw [List.length_eq_zero_iff.1 h0]; simp
  · have : (mapGet s.vars v).getD 0 ≤ s.scopes.length := by
      cases hv : mapGet s.vars v with
      | none => simp
      | some k => simpa using (h v k hv).2
    rw [scopeSuffix_some this]
    rfl

theorem mapGet_filter_ne {α : Type} [DecidableEq α] (m : List (α × Nat)) (L : Nat) (v : α)
    (hnd : ∀ v k, (v, k) ∈ m → mapGet m v = some k) :
    mapGet (m.filter (fun p => ¬ p.2 = L)) v =
      match mapGet m v with
      | some k => if k = L then none else some k
      | none => none := by
  cases hm : mapGet m v with
  | none =>
    simp only
    rw [mapGet_none] at hm ⊢
    intro p hp
    exact hm p (List.mem_filter.1 hp).1
  | some k =>
    simp only
    split
    · next e =>
      rw [mapGet_none]
      rintro ⟨v', k'⟩ hp rfl
      obtain ⟨hp1, hp2⟩ := List.mem_filter.1 hp
      have := hnd _ _ hp1
      rw [hm] at this
      simp only [Option.some.injEq] at this
      subst this
      simp [e] at hp2
    · next e =>
      cases hf : mapGet (m.filter (fun p => ¬ p.2 = L)) v with
      | none =>
        exfalso
        rw [mapGet_none] at hf
        exact hf (v, k) (List.mem_filter.2 ⟨mapGet_mem hm, by simpa using e⟩) rfl
      | some k' =>
        have := hnd _ _ (List.mem_filter.1 (mapGet_mem hf)).1
        rw [hm] at this
        simpa using this.symm

theorem popScope_vars {s : Ctx} (h : VarsFun s) (hne : s.scopes ≠ []) (v : QVar) :
    mapGet s.popScope.2.vars v =
      match mapGet s.vars v with
      | some k => if k = s.scopes.length then none else some k
      | none => none := by
  unfold Ctx.popScope
  rw [if_neg (by simpa using hne)]
  exact mapGet_filter_ne s.vars _ v h

theorem popScope_scopes {s : Ctx} : s.popScope.2.scopes = s.scopes.dropLast := by
  unfold Ctx.popScope
  split
  · next h => simp [List.length_eq_zero_iff.1 h]
  · rfl

theorem addVar_scopes (s : Ctx) (v : QVar) : (s.addVar v).scopes = s.scopes := by
  unfold Ctx.addVar; split <;> first | rfl | (split <;> rfl)

theorem addVar_vars (s : Ctx) (v u : QVar) :
    mapGet (s.addVar v).vars u =
      if s.scopes ≠ [] ∧ mapGet s.vars v = none ∧ v = u then some s.scopes.length
      else mapGet s.vars u := by
  unfold Ctx.addVar
  split
  · next h => simp [List.length_eq_zero_iff.1 h]
  · next h =>
    have hne : s.scopes ≠ [] := by simpa using h
    split
    · next k hk => simp [hk]
    · next hk =>
      simp only [mapGet_cons]
      split
      · simp_all
      · simp_all

theorem setScope_scopes (s : Ctx) (i : Int) (v : List FeatV) :
    (s.setScope i v).2.scopes = Ctx.setLast i v s.scopes := by
  unfold Ctx.setScope
  split
  · next h => rw [List.length_eq_zero_iff.1 h]; simp [Ctx.setLast]
  · rfl

theorem exec_vars_other {s : Ctx} {op : Op} (h1 : ∀ v, op ≠ .addVar v) (h2 : op ≠ .popScope) :
    (op.exec s).vars = s.vars := by
  cases op with
  | cnfVar vr => simp only [Op.exec, Ctx.cnfVar]; split <;> rfl
  | updateTopV v => simp only [Op.exec, Ctx.updateTopV]; split <;> rfl
  | addVar v => exact absurd rfl (h1 v)
  | addScope t => rfl
  | popScope => exact absurd rfl h2
  | setScope i v => simp only [Op.exec, Ctx.setScope]; split <;> rfl
  | reset => rfl

theorem exec_varsFun (op : Op) (s : Ctx) (h : VarsFun s) : VarsFun (op.exec s) := by
  by_cases h1 : ∃ v, op = .addVar v
  · obtain ⟨v, rfl⟩ := h1
    intro u k hm
    simp only [Op.exec] at hm ⊢
    unfold Ctx.addVar at hm ⊢
    split at hm
    · next hz => rw [if_pos hz]; exact h u k hm
    · next hz =>
      rw [if_neg hz]
      split at hm
      · next hv => exact h u k hm
      · next hv =>
        simp only [List.mem_cons, Prod.mk.injEq] at hm
        simp only [mapGet_cons]
        rcases hm with ⟨rfl, rfl⟩ | hm
        · simp
        · have := h u k hm
          split
          · next e => subst e; rw [hv] at this; simp at this
          · exact this
  · by_cases h2 : op = .popScope
    · subst h2
      simp only [Op.exec]
      unfold Ctx.popScope
      split
      · exact h
      · intro u k hm
        simp only at hm ⊢
        obtain ⟨hm1, hm2⟩ := List.mem_filter.1 hm
        rw [mapGet_filter_ne _ _ _ h, h u k hm1]
        simp only [decide_eq_true_eq] at hm2
        simp [hm2]
    · have := exec_vars_other (s := s) (fun v e => h1 ⟨v, e⟩) h2
      intro u k hm
      rw [this] at hm ⊢
      exact h u k hm

theorem exec_scopeOk (op : Op) (s : Ctx) (hr : op ≠ .reset) (hf : VarsFun s) (h : ScopeOk s) :
    ScopeOk (op.exec s) := by
  cases op with
  | cnfVar vr =>
    simp only [Op.exec, Ctx.cnfVar]; split <;> exact h
  | updateTopV v => simp only [Op.exec, Ctx.updateTopV]; split <;> exact h
  | addVar v =>
    intro u k hu
    simp only [Op.exec] at hu ⊢
    rw [addVar_vars] at hu
    rw [addVar_scopes]
    split at hu
    · next hc =>
      simp only [Option.some.injEq] at hu
      have := List.length_pos_iff.2 hc.1
      omega
    · exact h u k hu
  | addScope t =>
    intro u k hu
    simp only [Op.exec, Ctx.addScope] at hu ⊢
    have := h u k hu
    simp; omega
  | popScope =>
    intro u k hu
    simp only [Op.exec] at hu ⊢
    by_cases hne : s.scopes = []
    · have : s.popScope.2 = s := by simp [Ctx.popScope, hne]
      rw [this] at hu ⊢; exact h u k hu
    · rw [popScope_vars hf hne] at hu
      rw [popScope_scopes, List.length_dropLast]
      split at hu
      · next k' hk' =>
        split at hu
        · simp at hu
        · simp only [Option.some.injEq] at hu
          have := h u k' hk'
          omega
      · simp at hu
  | setScope i v =>
    intro u k hu
    simp only [Op.exec] at hu ⊢
    rw [setScope_scopes, setLast_length]
    refine h u k ?_
    rw [← hu]
    unfold Ctx.setScope
    split <;> rfl
  | reset => exact absurd rfl hr

theorem run_scoper (ops : List Op) (s : Ctx) (hr : .reset ∉ ops) (hf : VarsFun s) (h : ScopeOk s) :
    VarsFun (run ops s) ∧ ScopeOk (run ops s) := by
  induction ops generalizing s with
  | nil => exact ⟨hf, h⟩
  | cons op ops ih =>
    simp only [List.mem_cons, not_or] at hr
    exact ih _ hr.2 (exec_varsFun op s hf) (exec_scopeOk op s (Ne.symm hr.1) hf h)

theorem basic_scoper (d : Nat) (nodes : List Node) :
    VarsFun (BasicQContext d nodes) ∧ ScopeOk (BasicQContext d nodes) :=
  ⟨by simp [VarsFun, BasicQContext], by simp [ScopeOk, BasicQContext]⟩

end Goexpdt

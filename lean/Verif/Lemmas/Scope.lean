import Verif.Lemmas.Ctx
/- Lemmas about scoped names and balanced histories. -/
namespace Goexpdt
open Spec

/-- A word without `US` followed by nothing or something that starts with `US` determines both. -/
theorem split_US {a b r t : List Char} (ha : sep ∉ a) (hb : sep ∉ b)
    (hr : r = [] ∨ ∃ r', r = sep :: r') (ht : t = [] ∨ ∃ t', t = sep :: t')
    (h : a ++ r = b ++ t) : a = b ∧ r = t := by
  induction a generalizing b with
  | nil =>
    cases b with
    | nil => exact ⟨rfl, h⟩
    | cons y b =>
      exfalso
      rcases hr with rfl | ⟨r', rfl⟩
      · simp at h
      · simp only [List.nil_append, List.cons_append, List.cons.injEq] at h
        exact hb (by simp [h.1])
  | cons x a ih =>
    cases b with
    | nil =>
      exfalso
      rcases ht with rfl | ⟨t', rfl⟩
      · simp at h
      · simp only [List.nil_append, List.cons_append, List.cons.injEq] at h
        exact ha (by simp [h.1])
    | cons y b =>
      simp only [List.cons_append, List.cons.injEq] at h
      simp only [List.mem_cons, not_or] at ha hb
      obtain ⟨h1, h2⟩ := ih ha.2 hb.2 h.2
      exact ⟨by rw [h.1, h1], h2⟩

theorem US_not_mem_itoa (n : Int) : sep ∉ itoa n := by
  intro h
  have := itoa_chars n _ h
  revert this
  decide

theorem suffix_inj {gs gs' : List Scope} (h1 : ∀ g ∈ gs, sep ∉ g.target)
    (h2 : ∀ g ∈ gs', sep ∉ g.target) (h : suffix gs = suffix gs') :
    gs.map (fun g => (g.target, g.vIdx)) = gs'.map (fun g => (g.target, g.vIdx)) := by
  induction gs generalizing gs' with
  | nil =>
    cases gs' with
    | nil => rfl
    | cons g gs' => simp at h
  | cons g gs ih =>
    cases gs' with
    | nil => simp at h
    | cons g' gs' =>
      simp only [suffix_cons, List.cons.injEq, true_and] at h
      obtain ⟨e1, e2⟩ := split_US (h1 g (by simp)) (h2 g' (by simp)) (.inr ⟨_, rfl⟩)
        (.inr ⟨_, rfl⟩) h
      simp only [List.cons.injEq, true_and] at e2
      obtain ⟨e3, e4⟩ := split_US (US_not_mem_itoa _) (US_not_mem_itoa _) (suffix_shape _)
        (suffix_shape _) e2
      have := ih (fun x hx => h1 x (by simp [hx])) (fun x hx => h2 x (by simp [hx])) e4
      simp [e1, itoa_inj e3, this]

/-- With equal targets no condition on the targets is needed. -/
theorem suffix_inj_sameTargets {gs gs' : List Scope}
    (ht : gs.map (·.target) = gs'.map (·.target)) (h : suffix gs = suffix gs') :
    gs.map (·.vIdx) = gs'.map (·.vIdx) := by
  induction gs generalizing gs' with
  | nil =>
    cases gs' with
    | nil => rfl
    | cons g gs' => simp at ht
  | cons g gs ih =>
    cases gs' with
    | nil => simp at ht
    | cons g' gs' =>
      simp only [List.map_cons, List.cons.injEq] at ht
      simp only [suffix_cons, List.cons.injEq, true_and] at h
      rw [ht.1] at h
      simp only [List.append_cancel_left_eq, List.cons.injEq, true_and] at h
      obtain ⟨e3, e4⟩ := split_US (US_not_mem_itoa _) (US_not_mem_itoa _) (suffix_shape _)
        (suffix_shape _) h
      simp [itoa_inj e3, ih ht.2 e4]

/-- State during a balanced history that started in `s0` with the outer declarations `D`. -/
structure BalInv (s0 : Ctx) (D : QVar → Prop) (n : Nat) (s : Ctx) : Prop where
  sc : ∃ extra, s.scopes = s0.scopes ++ extra ∧ extra.length = n
  vf : VarsFun s
  so : ScopeOk s
  old : ∀ v k, mapGet s0.vars v = some k → mapGet s.vars v = some k
  new : ∀ v k, mapGet s0.vars v = none → mapGet s.vars v = some k →
    s0.scopes.length < k ∨ (k = s0.scopes.length ∧ D v)

theorem BalInv.exec {s0 s : Ctx} {D : QVar → Prop} {n m : Nat} {op : Op} (h : BalInv s0 D n s)
    (h0 : ScopeOk s0) (hD : ∀ v, op = .addVar v → D v)
    (hm : match op with
      | .addScope _ => m = n + 1
      | .popScope => 0 < n ∧ m = n - 1
      | .setScope _ _ => 0 < n ∧ m = n
      | .reset => False
      | _ => m = n) : BalInv s0 D m (op.exec s) := by
  obtain ⟨extra, hs, hl⟩ := h.sc
  have hvf := exec_varsFun op s h.vf
  cases op with
  | cnfVar vr =>
    subst hm
    refine ⟨⟨extra, ?_, hl⟩, hvf, exec_scopeOk _ _ (by simp) h.vf h.so, ?_, ?_⟩
    · simp only [Op.exec, Ctx.cnfVar]; split <;> exact hs
    · rw [exec_vars_other (by simp) (by simp)]; exact h.old
    · rw [exec_vars_other (by simp) (by simp)]; exact h.new
  | updateTopV v =>
    subst hm
    refine ⟨⟨extra, ?_, hl⟩, hvf, exec_scopeOk _ _ (by simp) h.vf h.so, ?_, ?_⟩
    · simp only [Op.exec, Ctx.updateTopV]; split <;> exact hs
    · rw [exec_vars_other (by simp) (by simp)]; exact h.old
    · rw [exec_vars_other (by simp) (by simp)]; exact h.new
  | addVar v =>
    subst hm
    refine ⟨⟨extra, ?_, hl⟩, hvf, exec_scopeOk _ _ (by simp) h.vf h.so, ?_, ?_⟩
    · simpa only [Op.exec, addVar_scopes] using hs
    · intro u k hu
      simp only [Op.exec, addVar_vars]
      have := h.old u k hu
      split
      · next hc => rw [hc.2.2] at hc; rw [hc.2.1] at this; simp at this
      · exact this
    · intro u k hu hk
      simp only [Op.exec, addVar_vars] at hk
      split at hk
      · next hc =>
        simp only [Option.some.injEq] at hk
        subst hk
        rw [hs, List.length_append]
        rcases Nat.eq_zero_or_pos extra.length with e | e
        · right; exact ⟨by omega, hc.2.2 ▸ hD v rfl⟩
        · left; omega
      · exact h.new u k hu hk
  | addScope t =>
    subst hm
    refine ⟨⟨extra ++ [{ target := t }], by simp [Op.exec, Ctx.addScope, hs], by simp [hl]⟩, hvf,
      exec_scopeOk _ _ (by simp) h.vf h.so, h.old, h.new⟩
  | popScope =>
    obtain ⟨hp, rfl⟩ := hm
    have hne : extra ≠ [] := by intro e; subst e; simp at hl; omega
    have hsne : s.scopes ≠ [] := by rw [hs]; simp [hne]
    have hlen : s.scopes.length = s0.scopes.length + n := by rw [hs]; simp [hl]
    refine ⟨⟨extra.dropLast, ?_, by simp [hl]⟩, hvf, exec_scopeOk _ _ (by simp) h.vf h.so, ?_, ?_⟩
    · simp only [Op.exec, popScope_scopes, hs]
      rw [List.dropLast_append_of_ne_nil hne]
    · intro v k hv
      simp only [Op.exec]
      rw [popScope_vars h.vf hsne, h.old v k hv]
      have := (h0 v k hv).2
      simp only
      rw [if_neg (by omega)]
    · intro v k hv hk
      simp only [Op.exec] at hk
      rw [popScope_vars h.vf hsne] at hk
      split at hk
      · next k' hk' =>
        split at hk
        · simp at hk
        · simp only [Option.some.injEq] at hk
          subst hk
          exact h.new v k' hv hk'
      · simp at hk
  | setScope i val =>
    obtain ⟨hp, rfl⟩ := hm
    refine ⟨?_, hvf, exec_scopeOk _ _ (by simp) h.vf h.so, ?_, ?_⟩
    · rcases List.eq_nil_or_concat extra with e | ⟨e', g, rfl⟩
      · subst e; simp at hl; omega
      · refine ⟨e' ++ [{ g with vIdx := i, value := val }], ?_, by simpa using hl⟩
        simp only [Op.exec, setScope_scopes, hs, List.concat_eq_append]
        rw [← List.append_assoc, setLast_append, List.append_assoc]
    · rw [exec_vars_other (by simp) (by simp)]; exact h.old
    · rw [exec_vars_other (by simp) (by simp)]; exact h.new
  | reset => exact hm.elim

theorem BalInv.run {s0 s : Ctx} {D : QVar → Prop} {n : Nat} {ops : List Op} (h : BalInv s0 D n s)
    (h0 : ScopeOk s0) (hD : ∀ v, .addVar v ∈ ops → D v) (hb : balanced n ops) :
    BalInv s0 D 0 (run ops s) := by
  induction ops generalizing n s with
  | nil => simp only [balanced] at hb; subst hb; exact h
  | cons op ops ih =>
    rw [run_cons]
    have hD' : ∀ v, .addVar v ∈ ops → D v := fun v hv => hD v (by simp [hv])
    have hDo : ∀ v, op = .addVar v → D v := fun v hv => hD v (by simp [hv])
    cases op <;> simp only [balanced] at hb
    · exact ih (h.exec h0 hDo rfl) hD' hb
    · exact ih (h.exec h0 hDo rfl) hD' hb
    · exact ih (h.exec h0 hDo rfl) hD' hb
    · exact ih (h.exec h0 hDo rfl) hD' hb
    · exact ih (h.exec h0 hDo ⟨hb.1, rfl⟩) hD' hb.2
    · exact ih (h.exec h0 hDo ⟨hb.1, rfl⟩) hD' hb.2

theorem balanced_no_reset {n : Nat} {ops : List Op} (hb : balanced n ops) : .reset ∉ ops := by
  induction ops generalizing n with
  | nil => simp
  | cons op ops ih =>
    cases op <;> simp only [balanced] at hb <;>
      first
      | exact hb.elim
      | (simp; exact ih hb)
      | (simp; exact ih hb.2)

theorem scopeConstLoop_spec (c : QConst) (gs : List Scope) :
    (∃ pre g post, gs = pre ++ g :: post ∧ (∀ g' ∈ pre, g'.target ≠ c.id) ∧ g.target = c.id ∧
      Ctx.scopeConstLoop c gs = ({ id := c.id, val := g.value }, true)) ∨
    ((∀ g ∈ gs, g.target ≠ c.id) ∧ Ctx.scopeConstLoop c gs = (c, false)) := by
  induction gs with
  | nil => right; simp [Ctx.scopeConstLoop]
  | cons g gs ih =>
    by_cases e : g.target = c.id
    · left; exact ⟨[], g, gs, rfl, by simp, e, by simp [Ctx.scopeConstLoop, e]⟩
    · rcases ih with ⟨pre, g', post, h1, h2, h3, h4⟩ | ⟨h1, h2⟩
      · left
        refine ⟨g :: pre, g', post, by simp [h1], ?_, h3, ?_⟩
        · simp only [List.mem_cons, forall_eq_or_imp]; exact ⟨e, h2⟩
        · simp [Ctx.scopeConstLoop, e, h4]
      · right
        refine ⟨?_, by simp [Ctx.scopeConstLoop, e, h2]⟩
        simp only [List.mem_cons, forall_eq_or_imp]; exact ⟨e, h1⟩

end Goexpdt

namespace Goexpdt
open Spec

/-- Inside a balanced history (a prefix of one), the invariant holds at some depth. -/
theorem BalInv.run_prefix {s0 s : Ctx} {D : QVar → Prop} {n : Nat} {ops rest : List Op}
    (h : BalInv s0 D n s) (h0 : ScopeOk s0) (hD : ∀ v, .addVar v ∈ ops → D v)
    (hb : balanced n (ops ++ rest)) : ∃ m, BalInv s0 D m (Spec.run ops s) := by
  induction ops generalizing n s with
  | nil => exact ⟨n, h⟩
  | cons op ops ih =>
    rw [run_cons]
    have hD' : ∀ v, .addVar v ∈ ops → D v := fun v hv => hD v (by simp [hv])
    have hDo : ∀ v, op = .addVar v → D v := fun v hv => hD v (by simp [hv])
    rw [List.cons_append] at hb
    cases op <;> simp only [balanced] at hb
    · exact ih (h.exec h0 hDo rfl) hD' hb
    · exact ih (h.exec h0 hDo rfl) hD' hb
    · exact ih (h.exec h0 hDo rfl) hD' hb
    · exact ih (h.exec h0 hDo rfl) hD' hb
    · exact ih (h.exec h0 hDo ⟨hb.1, rfl⟩) hD' hb.2
    · exact ih (h.exec h0 hDo ⟨hb.1, rfl⟩) hD' hb.2

/-- The name of a variable declared in `s` does not change in a balanced history or inside one. -/
theorem scopeVar_prefix {s : Ctx} {ops rest : List Op} (hf : VarsFun s) (h : ScopeOk s)
    (hb : balanced 0 (ops ++ rest)) {v : QVar} {k : Nat} (hv : mapGet s.vars v = some k) :
    (run ops s).scopeVar v = s.scopeVar v := by
  obtain ⟨m, hm⟩ := BalInv.run_prefix (s0 := s) (D := fun _ => True) (n := 0) (s := s)
    ⟨⟨[], by simp, rfl⟩, hf, h, fun _ _ h => h, fun v k h h' => by rw [h] at h'; simp at h'⟩ h
    (fun _ _ => trivial) hb
  obtain ⟨extra, he, -⟩ := hm.sc
  rw [scopeVar_eq h, scopeVar_eq hm.so, hm.old v k hv, hv, he]
  simp only [Option.getD_some]
  rw [List.take_append_of_le_length (h v k hv).2]

end Goexpdt

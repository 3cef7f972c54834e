import Verif.Lemmas.Tame
import Verif.Lemmas.WalkIdx
/- The logical operators preserve tameness. -/
namespace Goexpdt
open Spec

/-- The contract of a computation on the way to a CNF; `base` bounds what is known of the results
computed so far. -/
structure TameFrom (s0 : Ctx) (r : Except Err CNF × Ctx) : Prop where
  keep : Keep3 s0 r.2
  vars : VarsFun s0 → ScopeOk s0 → VarsExt s0.scopes.length s0 r.2
  vm : VMok s0 → VMok r.2 ∧ Ext s0 r.2
  res : ∀ c, VMok s0 → r.1 = .ok c → WF c ∧ c.tv ≤ r.2.topv

theorem Tame.from {x : M CNF} (h : Tame x) (s : Ctx) : TameFrom s (x s) :=
  ⟨h.keep s, h.vars s, h.vm s, h.res s⟩

theorem Tame.of_from {x : M CNF} (h : ∀ s, TameFrom s (x s)) : Tame x :=
  ⟨fun s => (h s).keep, fun s => (h s).vars, fun s => (h s).vm, fun s => (h s).res⟩

/-- Run a tame computation, then go on. -/
theorem TameFrom.bind {s : Ctx} {r : Except Err CNF × Ctx} (h : TameFrom s r)
    {f : CNF → M CNF} (hf : ∀ c, r.1 = .ok c → TameFrom r.2 (f c r.2)) (x : M CNF) (hx : x s = r)
    (hfr : ∀ c c', r.1 = .ok c → VMok s → WF c → c.tv ≤ r.2.topv → (f c r.2).1 = .ok c' →
      WF c' ∧ c'.tv ≤ (f c r.2).2.topv) :
    TameFrom s ((x >>= f) s) := by
  obtain ⟨r1, s1⟩ := r
  cases r1 with
  | error e =>
    rw [M_bind_error hx]
    exact ⟨h.keep, h.vars, h.vm, fun c _ hc => by simp at hc⟩
  | ok c =>
    rw [M_bind_ok hx]
    have h2 := hf c rfl
    refine ⟨h.keep.trans h2.keep, fun a b => ?_, fun hv => ?_, fun c' hv hc => ?_⟩
    · have h3 := h.vars a b
      have h4 := h2.vars h3.fn (h3.scopeOk b h.keep.scopes)
      rw [h.keep.scopes] at h4
      exact h3.trans h4
    · have h3 := h.vm hv
      have h4 := h2.vm h3.1
      exact ⟨h4.1, h3.2.trans h4.2⟩
    · exact hfr c c' rfl hv (h.res c hv rfl).1 (h.res c hv rfl).2 hc

theorem conjunction_tv_le {a b : CNF} {t : Int} (ha : a.tv ≤ t) (hb : WF b) (hbt : b.tv ≤ t) :
    (a.conjunction b).tv ≤ t := by
  have h1 : maxVar b.sClauses ≤ t := maxVar_le (by have := hb.tv_nonneg; omega) (hb.sBound.mono hbt)
  have h2 : maxVar b.cClauses ≤ t := maxVar_le (by have := hb.tv_nonneg; omega) (hb.cBound.mono hbt)
  simp only [CNF.conjunction, CNF.appendConsistency, CNF.appendSemantics, maxInt_eq]
  omega

/-- The outcomes of two successive tame computations. -/
theorem TameFrom.seq {s s1 : Ctx} {c : CNF} {r : Except Err CNF × Ctx}
    (h : TameFrom s (.ok c, s1)) (h' : TameFrom s1 r) :
    Keep3 s r.2 ∧ (VarsFun s → ScopeOk s → VarsExt s.scopes.length s r.2) ∧
    (VMok s → VMok s1 ∧ VMok r.2 ∧ Ext s r.2 ∧ Ext s1 r.2) := by
  refine ⟨h.keep.trans h'.keep, fun a b => ?_, fun hv => ?_⟩
  · have h3 := h.vars a b
    have h4 := h'.vars h3.fn (h3.scopeOk b h.keep.scopes)
    rw [h.keep.scopes] at h4
    exact h3.trans h4
  · have h3 := h.vm hv
    have h4 := h'.vm h3.1
    exact ⟨h3.1, h4.1, h3.2.trans h4.2, h4.2⟩

theorem Tame.cases {x : M CNF} (h : Tame x) (s : Ctx) :
    (∃ e s', x s = (.error e, s') ∧ TameFrom s (.error e, s')) ∨
    (∃ c s', x s = (.ok c, s') ∧ TameFrom s (.ok c, s')) := by
  have := h.from s
  cases hr : x s with
  | mk r s' =>
    rw [hr] at this
    cases r with
    | error e => exact .inl ⟨e, s', rfl, this⟩
    | ok c => exact .inr ⟨c, s', rfl, this⟩

theorem TameFrom.error {s s' : Ctx} {e e' : Err} (h : TameFrom s (.error e, s')) :
    TameFrom s (.error e', s') := ⟨h.keep, h.vars, h.vm, fun c _ hc => by simp at hc⟩

theorem Tame.andBuild {q1 q2 : M CNF} (h1 : Tame q1) (h2 : Tame q2) : Tame (andBuild q1 q2) := by
  refine .of_from fun s => ?_
  have h1 := h1.wrapErr "Q1"
  have h2 := h2.wrapErr "Q2"
  unfold Goexpdt.andBuild
  rcases h1.cases s with ⟨e, s1, e1, t1⟩ | ⟨c1, s1, e1, t1⟩
  · rw [M_bind_error e1]; exact t1
  · rw [M_bind_ok e1]
    rcases h2.cases s1 with ⟨e, s2, e2, t2⟩ | ⟨c2, s2, e2, t2⟩
    · rw [M_bind_error e2]
      obtain ⟨a, b, c⟩ := t1.seq t2
      exact ⟨a, b, fun hv => ⟨(c hv).2.1, (c hv).2.2.1⟩, fun c _ hc => by simp at hc⟩
    · rw [M_bind_ok e2]
      obtain ⟨a, b, c⟩ := t1.seq t2
      refine ⟨a, b, fun hv => ⟨(c hv).2.1, (c hv).2.2.1⟩, fun c' hv hc => ?_⟩
      simp only [M_pure, Except.ok.injEq] at hc
      subst hc
      have r1 := t1.res c1 hv rfl
      have r2 := t2.res c2 (c hv).1 rfl
      refine ⟨r1.1.conjunction r2.1, conjunction_tv_le ?_ r2.1 r2.2⟩
      have := (c hv).2.2.2.topv_le
      have := r1.2
      simp only [M_pure] at *
      omega

/-- `UpdateTopV` after a negation. -/
theorem updateTopV_tame (s : Ctx) (v : Int) :
    Keep3 s (s.updateTopV v).2 ∧ (s.updateTopV v).2.vars = s.vars ∧
    (VMok s → VMok (s.updateTopV v).2 ∧ Ext s (s.updateTopV v).2 ∧
      (s.updateTopV v).2.topv = max s.topv v) := by
  refine ⟨?_, ?_, fun h => ?_⟩
  · unfold Ctx.updateTopV; split <;> exact ⟨rfl, rfl, rfl⟩
  · unfold Ctx.updateTopV; split <;> rfl
  · obtain ⟨a, b, -, c, -⟩ := updateTopV_spec h v; exact ⟨a, b, c⟩

/-- Negating a CNF and recording its top variable. -/
def negStep (c : CNF) : M CNF := do
  let top ← M.topV
  let n := c.negate (some top)
  M.updateTopV n.topV
  pure n

theorem negStep_eq (c : CNF) (s : Ctx) :
    negStep c s = (.ok (c.negate (some s.topv)), (s.updateTopV (c.negate (some s.topv)).tv).2) := rfl

theorem negStep_tame {c : CNF} {s : Ctx} (hc : VMok s → WF c ∧ c.tv ≤ s.topv) :
    TameFrom s (negStep c s) := by
  rw [negStep_eq]
  obtain ⟨a, b, d⟩ := updateTopV_tame s (c.negate (some s.topv)).tv
  refine ⟨a, fun h _ => .of_eq h b, fun hv => ⟨(d hv).1, (d hv).2.1⟩, fun c' hv h => ?_⟩
  simp only [Except.ok.injEq] at h
  subst h
  refine ⟨(hc hv).1.negate _, ?_⟩
  simp only [(d hv).2.2]
  omega

theorem notBuild_eq (q : M CNF) : notBuild q = (q >>= negStep) := rfl

theorem Tame.notBuild {q : M CNF} (h : Tame q) : Tame (notBuild q) := by
  refine .of_from fun s => ?_
  rw [notBuild_eq]
  rcases h.cases s with ⟨e, s1, e1, t1⟩ | ⟨c1, s1, e1, t1⟩
  · rw [M_bind_error e1]; exact t1
  · rw [M_bind_ok e1]
    refine ⟨?_, ?_, ?_, ?_⟩
    · exact t1.keep.trans (by rw [negStep_eq]; exact (updateTopV_tame _ _).1)
    · intro a b
      have h3 := t1.vars a b
      refine h3.trans (.of_eq h3.fn ?_)
      rw [negStep_eq]; exact (updateTopV_tame _ _).2.1
    · intro hv
      have h3 := t1.vm hv
      have h4 := (updateTopV_tame s1 (c1.negate (some s1.topv)).tv).2.2 h3.1
      rw [negStep_eq]
      exact ⟨h4.1, h3.2.trans h4.2.1⟩
    · intro c hv hc
      exact (negStep_tame fun _ => t1.res c1 hv rfl).res c (t1.vm hv).1 hc

theorem orBuild_eq (q1 q2 : M CNF) : orBuild q1 q2 = (do
    let cnf1 ← M.wrapErr "Q1" q1
    let cnf2 ← M.wrapErr "Q2" q2
    let n1 ← negStep cnf1
    let n2 ← negStep cnf2
    negStep (n1.conjunction n2)) := rfl

theorem Tame.orBuild {q1 q2 : M CNF} (h1 : Tame q1) (h2 : Tame q2) : Tame (orBuild q1 q2) := by
  refine .of_from fun s => ?_
  have h1 := h1.wrapErr "Q1"
  have h2 := h2.wrapErr "Q2"
  rw [orBuild_eq]
  rcases h1.cases s with ⟨e, s1, e1, t1⟩ | ⟨c1, s1, e1, t1⟩
  · rw [M_bind_error e1]; exact t1
  rw [M_bind_ok e1]
  rcases h2.cases s1 with ⟨e, s2, e2, t2⟩ | ⟨c2, s2, e2, t2⟩
  · rw [M_bind_error e2]
    obtain ⟨a, b, c⟩ := t1.seq t2
    exact ⟨a, b, fun hv => ⟨(c hv).2.1, (c hv).2.2.1⟩, fun c _ hc => by simp at hc⟩
  rw [M_bind_ok e2, M_bind_ok (negStep_eq c1 s2), M_bind_ok (negStep_eq c2 _)]
  obtain ⟨a, b, c⟩ := t1.seq t2
  generalize hA : c1.negate (some s2.topv) = A
  obtain ⟨a3, b3, d3⟩ := updateTopV_tame s2 A.tv
  generalize (s2.updateTopV A.tv).2 = s3 at *
  generalize hB : c2.negate (some s3.topv) = B
  obtain ⟨a4, b4, d4⟩ := updateTopV_tame s3 B.tv
  generalize (s3.updateTopV B.tv).2 = s4 at *
  rw [negStep_eq]
  obtain ⟨a5, b5, d5⟩ := updateTopV_tame s4 ((A.conjunction B).negate (some s4.topv)).tv
  refine ⟨a.trans (a3.trans (a4.trans a5)), fun x y => ?_, fun hv => ?_, fun c' hv hc => ?_⟩
  · have := b x y
    exact this.trans (.of_eq this.fn (b5.trans (b4.trans b3)))
  · obtain ⟨v1, v2, v3, v4⟩ := c hv
    have d3 := d3 v2; have d4 := d4 d3.1; have d5 := d5 d4.1
    exact ⟨d5.1, v3.trans (d3.2.1.trans (d4.2.1.trans d5.2.1))⟩
  · simp only [Except.ok.injEq] at hc
    subst hc
    obtain ⟨v1, v2, v3, v4⟩ := c hv
    have d3 := d3 v2; have d4 := d4 d3.1; have d5 := d5 d4.1
    have r1 := (t1.res c1 hv rfl).1
    have r2 := (t2.res c2 v1 rfl).1
    have hAw : WF A := hA ▸ r1.negate _
    have hBw : WF B := hB ▸ r2.negate _
    refine ⟨(hAw.conjunction hBw).negate _, ?_⟩
    simp only [d5.2.2]
    omega

theorem Tame.throw' (e : Err) : Tame (M.throw e) := .throw e

theorem Tame.encAnd {q1 q2 : Comp} (h1 : ∀ x, q1 = some x → Tame x) (h2 : ∀ x, q2 = some x → Tame x) :
    Tame (encAnd q1 q2) := by
  unfold Goexpdt.encAnd
  refine Tame.wrapErr _ ?_
  split
  · exact .throw _
  · exact .throw _
  · exact (h1 _ rfl).andBuild (h2 _ rfl)

theorem Tame.encOr {q1 q2 : Comp} (h1 : ∀ x, q1 = some x → Tame x) (h2 : ∀ x, q2 = some x → Tame x) :
    Tame (encOr q1 q2) := by
  unfold Goexpdt.encOr
  refine Tame.wrapErr _ ?_
  split
  · exact .throw _
  · exact .throw _
  · exact (h1 _ rfl).orBuild (h2 _ rfl)

theorem Tame.encNot {q : Comp} (h : ∀ x, q = some x → Tame x) : Tame (encNot q) := by
  unfold Goexpdt.encNot
  refine Tame.wrapErr _ ?_
  split
  · exact .throw _
  · exact (h _ rfl).notBuild

/-! ### WithVar -/

/-- The clauses of `encodeI` that require a value for every feature. -/
def reqAllS (v : QVar) (i n : Nat) : List SClause :=
  (rng i (i + n)).map fun (j : Nat) => [P v j ZERO, P v j ONE, P v j BOT]

/-- The clauses of `encodeI` that forbid two values for a feature. -/
def reqOneS (v : QVar) (j : Nat) : List SClause :=
  [[N v j ZERO, N v j ONE], [N v j ZERO, N v j BOT], [N v j ONE, N v j BOT]]

theorem rng_succ (i n : Nat) : rng i (i + (n + 1)) = i :: rng (i + 1) (i + 1 + n) := by
  simp only [rng]
  rw [show i + (n + 1) - i = n + 1 from by omega, show i + 1 + n - (i + 1) = n from by omega]
  rw [List.range_succ_eq_map]
  simp only [List.map_cons, List.map_map, Nat.zero_add, List.cons.injEq, true_and]
  apply List.map_congr_left
  intro a _
  simp; omega

theorem rng_self (i : Nat) : rng i (i + 0) = [] := by simp [rng]

theorem reqAllFeats_eq (v : QVar) (n : Nat) : ∀ (i : Nat) (s : Ctx),
    reqAllFeats v i n s = allocClauses (reqAllS v i n) s := by
  induction n with
  | zero => intro i s; rw [reqAllS, rng_self]; rfl
  | succ n ih =>
    intro i s
    simp only [reqAllS, rng_succ, List.map_cons, allocClauses]
    simp only [reqAllFeats]
    simp only [allocClause, allocLit, P, M_bind, M.cnfVar, M_pure, if_true, ih]
    rfl

theorem reqOnePerFeat_eq (v : QVar) (n : Nat) : ∀ (i : Nat) (c : CNF) (s : Ctx),
    reqOnePerFeat v i n c s = emitFrom c ((rng i (i + n)).map fun j => .con (reqOneS v j)) s := by
  induction n with
  | zero => intro i c s; rw [rng_self]; rfl
  | succ n ih =>
    intro i c s
    simp only [rng_succ, List.map_cons, emitFrom, reqOnePerFeat]
    simp only [allocClauses, allocClause, allocLit, reqOneS, N, M_bind, M.cnfVar, M_pure, ih]
    rfl

/-- The steps of `encodeI` for a new variable. -/
def instSteps (d : Nat) (v : QVar) : List Step :=
  .con (reqAllS v 0 d) :: (rng 0 d).map fun j => .con (reqOneS v j)

theorem encodeI_new (d : Nat) (v : QVar) (s : Ctx) :
    (reqAllFeats v 0 d >>= fun cls => reqOnePerFeat v 0 d (({} : CNF).appendConsistency cls)) s =
      emit (instSteps d v) s := by
  simp only [emit, instSteps, emitFrom, M_bind, reqAllFeats_eq, reqOnePerFeat_eq, Nat.zero_add]

theorem encodeI_tame (x : QVar) : Tame (encodeI x) := by
  unfold encodeI
  refine Tame.bind (readOnly_scopeVar _) fun v => Tame.bind (readOnly_exists _) fun ex => ?_
  split
  · exact .pure WF.empty rfl
  · refine Tame.bind readOnly_dim fun d => ?_
    have : (reqAllFeats v 0 d >>= fun cls => reqOnePerFeat v 0 d (({} : CNF).appendConsistency cls)) =
        emit (instSteps d v) := funext fun s => encodeI_new d v s
    rw [this]
    exact .emit _

theorem addVar_other (s : Ctx) (v : QVar) : Keep3 s (s.addVar v) ∧
    (s.addVar v).topv = s.topv ∧ (s.addVar v).vmap = s.vmap := by
  unfold Ctx.addVar
  split
  · exact ⟨.refl s, rfl, rfl⟩
  · split <;> exact ⟨⟨rfl, rfl, rfl⟩, rfl, rfl⟩

theorem addVar_varsExt {s : Ctx} (v : QVar) (h : VarsFun s) : VarsExt s.scopes.length s (s.addVar v) := by
  refine ⟨exec_varsFun (.addVar v) s h, fun u k hu => ?_, fun u k hu => ?_⟩
  · rw [addVar_vars, if_neg]
    · exact hu
    · rintro ⟨-, h2, rfl⟩; rw [h2] at hu; simp at hu
  · rw [addVar_vars] at hu
    split at hu
    · next h =>
      simp only [Option.some.injEq] at hu
      exact .inr ⟨hu.symm, List.length_pos_iff.2 h.1⟩
    · exact .inl hu

theorem withVarBuild_eq (x : QVar) (q : M CNF) : withVarBuild x q = (do
    let c1 ← encodeI x
    let c2 ← q
    pure (c1.conjunction c2)) := rfl

theorem Tame.withVarBuild {q : M CNF} (x : QVar) (h : Tame q) : Tame (withVarBuild x q) := by
  refine .of_from fun s => ?_
  rw [withVarBuild_eq]
  rcases (encodeI_tame x).cases s with ⟨e, s1, e1, t1⟩ | ⟨c1, s1, e1, t1⟩
  · rw [M_bind_error e1]; exact t1
  · rw [M_bind_ok e1]
    rcases h.cases s1 with ⟨e, s2, e2, t2⟩ | ⟨c2, s2, e2, t2⟩
    · rw [M_bind_error e2]
      obtain ⟨a, b, c⟩ := t1.seq t2
      exact ⟨a, b, fun hv => ⟨(c hv).2.1, (c hv).2.2.1⟩, fun c _ hc => by simp at hc⟩
    · rw [M_bind_ok e2]
      obtain ⟨a, b, c⟩ := t1.seq t2
      refine ⟨a, b, fun hv => ⟨(c hv).2.1, (c hv).2.2.1⟩, fun c' hv hc => ?_⟩
      simp only [M_pure, Except.ok.injEq] at hc
      subst hc
      have r1 := t1.res c1 hv rfl
      have r2 := t2.res c2 (c hv).1 rfl
      refine ⟨r1.1.conjunction r2.1, conjunction_tv_le ?_ r2.1 r2.2⟩
      have := (c hv).2.2.2.topv_le
      have := r1.2
      simp only [M_pure] at *
      omega

theorem Tame.encWithVar {q : Comp} (x : QVar) (h : ∀ y, q = some y → Tame y) :
    Tame (encWithVar x q) := by
  unfold Goexpdt.encWithVar
  refine Tame.wrapErr _ ?_
  split
  · exact .throw _
  · next y =>
    refine .of_from fun s => ?_
    have e : M.addVar x s = (.ok (), s.addVar x) := rfl
    rw [M_bind_ok e]
    have t := ((h y rfl).withVarBuild x).from (s.addVar x)
    obtain ⟨a, b, c⟩ := addVar_other s x
    refine ⟨a.trans t.keep, fun hf hs => ?_, fun hv => ?_, fun c' hv hc => ?_⟩
    · have h1 := addVar_varsExt x hf
      have h2 := t.vars h1.fn (h1.scopeOk hs a.scopes)
      rw [a.scopes] at h2
      exact h1.trans h2
    · have h2 := t.vm (hv.of_vm_eq b c)
      exact ⟨h2.1, (Ext.of_vm_eq b c).trans h2.2⟩
    · exact t.res c' (hv.of_vm_eq b c) hc

/-! ### ForAllGuarded -/

/-- One iteration and the ones after it; the last scope is the loop's. `V` says that the variable
manager is known to be in order. -/
structure LoopTame (V : Prop) (base : List Scope) (s0 : Ctx) (r : Except Err CNF × Ctx) : Prop where
  scopes : ∃ g, r.2.scopes = base ++ [g]
  dim : r.2.dim = s0.dim
  nodes : r.2.nodes = s0.nodes
  vars : VarsFun s0 → ScopeOk s0 → VarsExt (base.length + 1) s0 r.2
  vm : V → VMok r.2 ∧ Ext s0 r.2
  res : ∀ c, V → r.1 = .ok c → WF c ∧ c.tv ≤ r.2.topv

theorem setScope_append {s : Ctx} {base : List Scope} {g : Scope} (hg : s.scopes = base ++ [g])
    (i : Int) (t : List FeatV) :
    M.setScope i t s = (.ok (), { s with scopes := base ++ [{ g with vIdx := i, value := t }] }) := by
  simp only [M.setScope, Ctx.setScope, hg, setLast_append]
  rw [if_neg (by simp)]

theorem forallFold_tame {V : Prop} {q : M CNF} (hq : Tame q) (base : List Scope)
    (ts : List (List FeatV)) :
    ∀ (i : Int) (ncnf : CNF) (s : Ctx), (∃ g, s.scopes = base ++ [g]) → (V → VMok s) →
      (V → WF ncnf ∧ ncnf.tv ≤ s.topv) → LoopTame V base s (forallFold q ts i ncnf s) := by
  induction ts with
  | nil =>
    intro i ncnf s hs hV hn
    refine ⟨hs, rfl, rfl, fun h _ => .refl h, fun h => ⟨hV h, .refl s⟩, fun c hv hc => ?_⟩
    simp only [forallFold, M_pure, Except.ok.injEq] at hc
    subst hc
    exact hn hv
  | cons t ts ih =>
    intro i ncnf s ⟨g, hg⟩ hV hn
    simp only [forallFold]
    rw [M_bind_ok (setScope_append hg i t)]
    generalize hs1 : ({ s with scopes := base ++ [{ g with vIdx := i, value := t }] } : Ctx) = s1
    have hsc1 : s1.scopes = base ++ [{ g with vIdx := i, value := t }] := by rw [← hs1]
    have hvm1 : s1.vmap = s.vmap := by rw [← hs1]
    have htv1 : s1.topv = s.topv := by rw [← hs1]
    have hva1 : s1.vars = s.vars := by rw [← hs1]
    have hd1 : s1.dim = s.dim := by rw [← hs1]
    have hn1 : s1.nodes = s.nodes := by rw [← hs1]
    have hlen : s1.scopes.length = base.length + 1 := by rw [hsc1]; simp
    have hok1 : ScopeOk s → ScopeOk s1 := by
      intro h v k hk
      rw [hva1] at hk
      have := h v k hk
      rw [hg] at this
      simp only [List.length_append, List.length_cons, List.length_nil] at this
      omega
    have hfn1 : VarsFun s → VarsFun s1 := by
      intro h v k hk; rw [hva1] at hk ⊢; exact h v k hk
    have hvm2 : ∀ r, TameFrom s1 r → V → VMok r.2 ∧ Ext s r.2 := by
      intro r t2 hv
      have h3 := t2.vm ((hV hv).of_vm_eq htv1 hvm1)
      exact ⟨h3.1, (Ext.of_vm_eq htv1 hvm1).trans h3.2⟩
    have hva2 : ∀ r, TameFrom s1 r → VarsFun s → ScopeOk s →
        VarsExt (base.length + 1) s r.2 ∧ ScopeOk r.2 := by
      intro r t2 a b
      have h3 := t2.vars (hfn1 a) (hok1 b)
      refine ⟨?_, h3.scopeOk (hok1 b) t2.keep.scopes⟩
      rw [hlen] at h3
      exact (VarsExt.of_eq a hva1).trans h3
    rcases hq.cases s1 with ⟨e, s2, e2, t2⟩ | ⟨c2, s2, e2, t2⟩
    · rw [M_bind_error e2]
      exact ⟨⟨_, t2.keep.scopes.trans hsc1⟩, t2.keep.dim.trans hd1, t2.keep.nodes.trans hn1,
        fun a b => (hva2 _ t2 a b).1, hvm2 _ t2, fun c _ hc => by simp at hc⟩
    · rw [M_bind_ok e2]
      have h3 := ih (i + 1) (ncnf.conjunction c2) s2 ⟨_, t2.keep.scopes.trans hsc1⟩
        (fun hv => (hvm2 _ t2 hv).1) (by
          intro hv
          have h1 := hn hv
          have h2 := t2.res c2 ((hV hv).of_vm_eq htv1 hvm1) rfl
          refine ⟨h1.1.conjunction h2.1, conjunction_tv_le ?_ h2.1 h2.2⟩
          have := (hvm2 _ t2 hv).2.topv_le
          simp only at this
          omega)
      refine ⟨h3.scopes, h3.dim.trans (t2.keep.dim.trans hd1),
        h3.nodes.trans (t2.keep.nodes.trans hn1), fun a b => ?_, fun hv => ?_, h3.res⟩
      · obtain ⟨h4, h5⟩ := hva2 _ t2 a b
        exact h4.trans (h3.vars h4.fn h5)
      · obtain ⟨h4, h5⟩ := h3.vm hv
        exact ⟨h4, (hvm2 _ t2 hv).2.trans h5⟩

/-- The body of `ForAllGuarded.buildEncoding`, by the outcome of validation. -/
theorem forallBody_eq (q : M CNF) (s : Ctx) :
    (∃ e, newNodeAsValuesIter s.dim s.nodes = .error e ∧ forallBody q s = (.error e, s)) ∨
    (∃ ws, Iterates s.nodes (WalkSt.init s.dim s.nodes.length) ws ∧
      newNodeAsValuesIter s.dim s.nodes = .ok (WalkSt.init s.dim s.nodes.length) ∧
      forallBody q s = forallFold q (ws.map (·.t)) 0 {} s) := by
  cases h : newNodeAsValuesIter s.dim s.nodes with
  | error e =>
    refine .inl ⟨e, rfl, ?_⟩
    simp only [forallBody, M_bind, M.dim, M.nodes, M.lift, h]
  | ok w =>
    obtain ⟨h1, h2, rfl⟩ := newIter_ok h
    obtain ⟨ws, hi, hl, -⟩ := iterates_init h1 h2
    refine .inr ⟨ws, hi, rfl, ?_⟩
    simp only [forallBody, M_bind, M.dim, M.nodes, M.lift, h]
    rw [forallLoop_eq hi _ _ _ (by omega)]

theorem forallBuild_of {c : QConst} {q : M CNF} {s : Ctx} {r : Except Err CNF × Ctx}
    (h : forallBody q (s.addScope c.id) = r) (hne : r.2.scopes ≠ []) :
    forallBuild c q s = (r.1, r.2.popScope.2) := by
  have : r.2.popScope = (.ok (), r.2.popScope.2) := by
    unfold Ctx.popScope; rw [if_neg (by simpa using hne)]
  unfold forallBuild
  simp only [h]
  rw [this]

theorem Tame.forallBuild {q : M CNF} (c : QConst) (hq : Tame q) : Tame (forallBuild c q) := by
  refine .of_from fun s => ?_
  have hsc : (s.addScope c.id).scopes = s.scopes ++ [{ target := c.id }] := rfl
  have hL : LoopTame (VMok s) s.scopes (s.addScope c.id) (forallBody q (s.addScope c.id)) := by
    rcases forallBody_eq q (s.addScope c.id) with ⟨e, -, h⟩ | ⟨ws, -, -, h⟩
    · rw [h]
      exact ⟨⟨_, hsc⟩, rfl, rfl, fun a _ => .refl a, fun hv => ⟨hv.of_vm_eq rfl rfl, .refl _⟩,
        fun c _ hc => by simp at hc⟩
    · rw [h]
      exact forallFold_tame hq _ _ _ _ _ ⟨_, hsc⟩ (fun hv => hv.of_vm_eq rfl rfl) fun hv =>
        ⟨WF.empty, hv.topv_nonneg⟩
  generalize hr : forallBody q (s.addScope c.id) = r at hL
  obtain ⟨g, hg⟩ := hL.scopes
  have hne : r.2.scopes ≠ [] := by rw [hg]; simp
  rw [forallBuild_of hr hne]
  have p1 : r.2.popScope.2.topv = r.2.topv := by unfold Ctx.popScope; split <;> rfl
  have p2 : r.2.popScope.2.vmap = r.2.vmap := by unfold Ctx.popScope; split <;> rfl
  have p3 : r.2.popScope.2.dim = r.2.dim := by unfold Ctx.popScope; split <;> rfl
  have p4 : r.2.popScope.2.nodes = r.2.nodes := by unfold Ctx.popScope; split <;> rfl
  have p5 : r.2.popScope.2.scopes = s.scopes := by rw [popScope_scopes, hg]; simp
  refine ⟨⟨p5, p3.trans hL.dim, p4.trans hL.nodes⟩, fun hf hs => ?_, fun hv => ?_, fun c' hv hc => ?_⟩
  · have h1 : VarsExt (s.scopes.length + 1) s r.2 := by
      have := hL.vars (s0 := s.addScope c.id) hf (by
        intro v k hk
        have := hs v k hk
        rw [hsc, List.length_append]
        simp only [List.length_cons, List.length_nil]
        omega)
      exact ⟨this.fn, this.keep, this.new⟩
    have hl : r.2.scopes.length = s.scopes.length + 1 := by rw [hg]; simp
    refine ⟨exec_varsFun .popScope r.2 h1.fn, fun v k hk => ?_, fun v k hk => ?_⟩
    · have h2 := h1.keep v k hk
      have h3 := hs v k hk
      rw [popScope_vars h1.fn hne, h2]
      simp only
      rw [if_neg (by omega)]
    · rw [popScope_vars h1.fn hne] at hk
      split at hk
      · next k' hk' =>
        split at hk
        · simp at hk
        · simp only [Option.some.injEq] at hk
          subst hk
          rcases h1.new v _ hk' with h2 | ⟨h2, -⟩
          · exact .inl h2
          · omega
      · simp at hk
  · have h2 := hL.vm hv
    refine ⟨h2.1.of_vm_eq p1 p2, ?_⟩
    exact (Ext.of_vm_eq (s := s) (s' := s.addScope c.id) rfl rfl).trans
      (h2.2.trans (.of_vm_eq p1 p2))
  · have h2 := hL.res c' hv hc
    exact ⟨h2.1, by rw [p1]; exact h2.2⟩

theorem Tame.encForall {q : Comp} (c : QConst) (h : ∀ y, q = some y → Tame y) :
    Tame (encForall c q) := by
  unfold Goexpdt.encForall
  refine Tame.wrapErr _ ?_
  split
  · exact .throw _
  · exact (h _ rfl).forallBuild c

/-! ### Queries -/

theorem Query.comp_tame (q : Query) : ∀ x, q.comp = some x → Tame x := by
  induction q with
  | nil => intro x h; simp [Query.comp] at h
  | atom a => intro x h; simp only [Query.comp, Option.some.injEq] at h; subst h; exact a.tame
  | and q1 q2 h1 h2 =>
    intro x h; simp only [Query.comp, Option.some.injEq] at h; subst h; exact .encAnd h1 h2
  | or q1 q2 h1 h2 =>
    intro x h; simp only [Query.comp, Option.some.injEq] at h; subst h; exact .encOr h1 h2
  | not q h1 => intro x h; simp only [Query.comp, Option.some.injEq] at h; subst h; exact .encNot h1
  | withVar v q h1 =>
    intro x h; simp only [Query.comp, Option.some.injEq] at h; subst h; exact .encWithVar v h1
  | forallG c q h1 =>
    intro x h; simp only [Query.comp, Option.some.injEq] at h; subst h; exact .encForall c h1

theorem Query.tame (q : Query) : Tame q.encode := by
  unfold Query.encode
  split
  · exact .throw _
  · next act h => exact q.comp_tame _ h

end Goexpdt

import Verif.Lemmas.Closed
import Verif.Lemmas.Encoded
/- Queries in which variables are declared several times, at any depth. -/
namespace Goexpdt
open Spec Props

/-! ### predicates do not declare variables -/

/-- A computation that leaves the recorded variables alone. -/
structure KV (x : M CNF) : Prop where
  vars : ∀ s, (x s).2.vars = s.vars

theorem KV.bind {α : Type} {x : M α} {f : α → M CNF} (hx : ReadOnly x) (hf : ∀ a, KV (f a)) : KV (x >>= f) := by
  refine ⟨fun s => ?_⟩
  have := hx s
  cases h : x s with
  | mk r s' =>
    rw [h] at this
    simp only at this
    subst this
    cases r with
    | ok a => rw [M_bind_ok h]; exact (hf a).vars _
    | error e => rw [M_bind_error h]

theorem KV.throw (e : Err) : KV (M.throw e : M CNF) := ⟨fun _ => rfl⟩
theorem KV.pure (c : CNF) : KV (Pure.pure c : M CNF) := ⟨fun _ => rfl⟩

theorem KV.retTrue : KV Goexpdt.retTrue := ⟨fun _ => rfl⟩
theorem KV.retFalse : KV Goexpdt.retFalse := ⟨fun _ => rfl⟩

theorem KV.emit (st : List Step) : KV (Goexpdt.emit st) := by
  refine ⟨fun s => ?_⟩
  obtain ⟨k, s', e, h⟩ := emitFrom_keeps st {} s
  unfold Goexpdt.emit
  rw [e]
  exact h.vars

theorem KV.emitF (cls : List SClause) (st : List Step) : KV (Goexpdt.emitF cls st) := by
  rw [emitF_eq]; exact .emit _

theorem KV.ite {p : Prop} [Decidable p] {x y : M CNF} (hx : KV x) (hy : KV y) : KV (if p then x else y) := by
  split <;> assumption

/-- Decomposes a predicate. -/
macro "keepv" : tactic => `(tactic| repeat' (first
  | exact KV.throw _
  | exact KV.retTrue
  | exact KV.retFalse
  | exact KV.pure _
  | exact KV.emit _
  | exact KV.emitF _ _
  | exact readOnly_scopeVar _
  | exact readOnly_scopeConst _
  | exact readOnly_dim
  | exact readOnly_nodes
  | exact readOnly_lift _
  | exact readOnly_validateM _
  | refine KV.ite ?_ ?_
  | refine KV.bind ?_ (fun _ => ?_)
  | split))

theorem Atom.keepsVars (a : Atom) : KV a.encode := by
  unfold Atom.encode
  split
  · unfold subsConstConst; keepv
  · unfold subsConstVar; keepv
  · unfold subsVarConst; keepv
  · unfold subsVarVar; keepv
  · unfold lelConstConst; keepv
  · unfold lelConstVar; keepv
  · unfold lelVarConst; keepv
  · unfold lelVarVar; keepv
  · unfold isnodeConst; keepv
  · unfold isnodeVar; keepv
  · unfold fullConst; keepv
  · unfold fullVar; keepv
  · unfold consConstConst; keepv
  · unfold consConstVar consConstRet; keepv
  · unfold consVarConst consConstRet; keepv
  · unfold consVarVar; keepv
  · unfold allcompConst; keepv
  · unfold allcompVar; keepv
  · unfold dfsConst; keepv
  · unfold dfsVar; keepv
  · unfold heprConstConst; keepv
  · unfold heprConstVar; keepv
  · unfold heprVarConst; keepv
  · unfold heprVarVar; keepv
  · unfold lehConstConstConst; keepv
  · unfold lehConstConstVar; keepv
  · unfold lehConstVarConst; keepv
  · unfold lehConstVarVar; keepv
  · unfold lehVarConstConst; keepv
  · unfold lehVarConstVar; keepv
  · unfold lehVarVarConst; keepv
  · unfold lehVarVarVar; keepv

/-! ### recorded depths -/

/-- The same world, for other depths. -/
def World.at (W : World) (lv : Levels) : World := { W with depth := lv }

/-- The context records these depths. -/
def Lv (s : Ctx) (lv : Levels) : Prop := ∀ x, (mapGet s.vars x).getD 0 = lv x

theorem Lv.some {s : Ctx} {lv : Levels} (h : Lv s lv) {x : QVar} {k : Nat} (hk : mapGet s.vars x = .some k) : k = lv x := by
  rw [← h x, hk]; rfl

theorem Lv.of_vars {s s' : Ctx} {lv : Levels} (h : Lv s lv) (e : s'.vars = s.vars) : Lv s' lv := by
  intro x; rw [e]; exact h x

section
variable {W : World} {s s' : Ctx} {c : CNF} {P P1 P2 : Asg → Prop} {lv lv' lv1 lv2 : Levels} {stack : List Scope} {q q1 q2 : M CNF}
variable {Γ Γ' Γ1 Γ2 : List QVar}

theorem Pre.at (h : Pre (W.at lv) [] s) (hl : ∀ x k, mapGet s.vars x = some k → k = lv' x) : Pre (W.at lv') [] s :=
  ⟨h.vm, h.dim, h.nodes, h.scope, h.fn, h.inst, hl, by simp⟩

theorem Post.at (h : Post (W.at lv) [] s s' c P) (hl : ∀ x k, mapGet s'.vars x = some k → k = lv' x) :
    Post (W.at lv') [] s s' c P :=
  ⟨⟨h.moves.pre.at hl, h.moves.ext, h.moves.scopes, h.moves.keep, h.moves.new, h.moves.decl⟩, h.wf, h.top, h.inst, h.sem, h.con⟩

/-- The names are declared. -/
def Has (W : World) (s : Ctx) (Γ : List QVar) : Prop := ∀ n ∈ Γ, W.isInst n ∧ Declared s n

theorem Has.ext (h : Has W s Γ) (he : Ext s s') : Has W s' Γ := fun n hn => ⟨(h n hn).1, (h n hn).2.ext he⟩

theorem Has.of_vm (h : Has W s Γ) (e : s'.vmap = s.vmap) : Has W s' Γ := fun n hn => ⟨(h n hn).1, (Named.of_vm e).2 (h n hn).2⟩

/-- Like `Captures`, for components that declare variables of any depth: the names `Γ` have been declared before and `Γ'` are afterwards,
the depths `lv` are recorded before and `lv'` afterwards. -/
def Shows (W : World) (Γ Γ' : List QVar) (lv lv' : Levels) (stack : List Scope) (act : M CNF) (P : Asg → Prop) : Prop :=
  ∀ s, Pre (W.at lv) [] s → Lv s lv → Has W s Γ → s.scopes = stack →
    ∃ c s', act s = (.ok c, s') ∧ Post (W.at lv') [] s s' c P ∧ Lv s' lv' ∧ Has W s' Γ'

theorem Shows.congr {Q : Asg → Prop} (h : Shows W Γ Γ' lv lv' stack q P) (e : ∀ σ, P σ ↔ Q σ) : Shows W Γ Γ' lv lv' stack q Q := by
  intro s hp hl hh hs
  obtain ⟨c, s', a, b, d⟩ := h s hp hl hh hs
  exact ⟨c, s', a, b.congr e, d⟩

theorem Shows.mono {Δ : List QVar} (h : Shows W Γ Γ' lv lv' stack q P) (e : ∀ n ∈ Δ, n ∈ Γ') : Shows W Γ Δ lv lv' stack q P := by
  intro s hp hl hh hs
  obtain ⟨c, s', a, b, d, f⟩ := h s hp hl hh hs
  exact ⟨c, s', a, b, d, fun n hn => f n (e n hn)⟩

theorem Shows.wrapErr (pre : String) (h : Shows W Γ Γ' lv lv' stack q P) : Shows W Γ Γ' lv lv' stack (M.wrapErr pre q) P := by
  intro s hp hl hh hs
  obtain ⟨c, s', a, b⟩ := h s hp hl hh hs
  exact ⟨c, s', wrapErr_ok a, b⟩

/-- Two components, one after the other. -/
theorem Shows.seq (h1 : Shows W Γ Γ1 lv lv1 stack q1 P1) (h2 : Shows W Γ1 Γ2 lv1 lv2 stack q2 P2)
    (hp : Pre (W.at lv) [] s) (hl : Lv s lv) (hh : Has W s Γ) (hs : s.scopes = stack) :
    ∃ c1 s1 c2 s2, q1 s = (.ok c1, s1) ∧ q2 s1 = (.ok c2, s2) ∧ Post2 (W.at lv2) [] s s2 c1 c2 P1 P2 ∧ Lv s2 lv2 ∧ Has W s2 Γ2 := by
  obtain ⟨c1, s1, e1, p1, l1, g1⟩ := h1 s hp hl hh hs
  obtain ⟨c2, s2, e2, p2, l2, g2⟩ := h2 s1 p1.moves.pre l1 g1 (p1.moves.scopes.trans hs)
  exact ⟨c1, s1, c2, s2, e1, e2, .of_seq (p1.at fun x k hk => l2.some (p2.moves.keep x k hk)) p2, l2, g2⟩

theorem updateTopV_vars (s : Ctx) (v : Int) : (s.updateTopV v).2.vars = s.vars := (updateTopV_tame s v).2.1

theorem updateTopV_vmap (s : Ctx) (v : Int) : (s.updateTopV v).2.vmap = s.vmap := by
  unfold Ctx.updateTopV; split <;> rfl

theorem Shows.encAnd (h1 : Shows W Γ Γ1 lv lv1 stack q1 P1) (h2 : Shows W Γ1 Γ2 lv1 lv2 stack q2 P2) :
    Shows W Γ Γ2 lv lv2 stack (encAnd (some q1) (some q2)) (fun σ => P1 σ ∧ P2 σ) := by
  refine Shows.wrapErr _ fun s hp hl hh hs => ?_
  obtain ⟨c1, s1, c2, s2, e1, e2, p, l, g⟩ := (h1.wrapErr "Q1").seq (h2.wrapErr "Q2") hp hl hh hs
  refine ⟨_, s2, ?_, p.merge, l, g⟩
  show andBuild q1 q2 s = _
  unfold andBuild
  rw [M_bind_ok e1, M_bind_ok e2]; rfl

theorem Shows.encNot (h : Shows W Γ Γ' lv lv' stack q P) : Shows W Γ Γ' lv lv' stack (encNot (some q)) (fun σ => ¬ P σ) := by
  refine Shows.wrapErr _ fun s hp hl hh hs => ?_
  obtain ⟨c1, s1, e1, p1, l1, g1⟩ := h s hp hl hh hs
  refine ⟨_, _, ?_, p1.neg, l1.of_vars (updateTopV_vars _ _), g1.of_vm (updateTopV_vmap _ _)⟩
  simp only [notBuild_eq]
  rw [M_bind_ok e1, negStep_eq]

theorem Shows.encOr (h1 : Shows W Γ Γ1 lv lv1 stack q1 P1) (h2 : Shows W Γ1 Γ2 lv1 lv2 stack q2 P2) :
    Shows W Γ Γ2 lv lv2 stack (encOr (some q1) (some q2)) (fun σ => P1 σ ∨ P2 σ) := by
  refine Shows.wrapErr _ fun s hp hl hh hs => ?_
  obtain ⟨c1, s1, c2, s2, e1, e2, p, l, g⟩ := (h1.wrapErr "Q1").seq (h2.wrapErr "Q2") hp hl hh hs
  refine ⟨_, _, ?_, (p.neg.symm.neg.symm.merge.neg).congr (Q := fun σ => P1 σ ∨ P2 σ) ?_, ?_, ?_⟩
  · simp only [orBuild_eq]
    rw [M_bind_ok e1, M_bind_ok e2, M_bind_ok (negStep_eq c1 s2), M_bind_ok (negStep_eq c2 _), negStep_eq]
  · intro σ
    by_cases a : P1 σ <;> by_cases b : P2 σ <;> simp [a, b]
  · exact l.of_vars (by simp only [updateTopV_vars])
  · exact g.of_vm (by simp only [updateTopV_vmap])

/-! ### declarations -/

/-- The clauses of `encodeI` for a name. -/
theorem encodeI_named {x n : QVar} (h : Pre W [] s) (hv : s.scopeVar x = .ok n) (hin : W.isInst n) (hmay : W.may n) :
    ∃ c s', encodeI x s = (.ok c, s') ∧ Post W [] s s' c (fun _ => True) ∧ s'.vars = s.vars ∧ Declared s' n := by
  cases he : s.cnfVarExists ⟨n, 0, BOT⟩ with
  | true => exact ⟨_, s, encodeI_declared hv he, .true h, rfl, exists_iff_declared.1 he⟩
  | false =>
    rw [encodeI_fresh hv he]
    obtain ⟨c, s1, e, hE⟩ := emit_spec (instSteps s.dim n) s h.vm
    have ha := hE.alloc
    have hdim := h.dim
    have hused : ∀ i < W.dim, ∀ v ∈ featVals, Named s1 ⟨n, (i : Nat), v⟩ := by
      intro i hi v hv
      exact (ha.named _).2 (.inr (instSteps_used.2 ⟨rfl, ⟨i, by omega, rfl⟩, hv⟩))
    have hold : ∀ m, m ≠ n → Declared s1 m → Declared s m := by
      intro m hm hdm
      rcases (ha.named _).1 hdm with h1 | h1
      · exact h1
      · exact absurd (instSteps_used.1 h1).1 hm
    have hp : Pre W [] s1 := by
      refine ⟨ha.ok, ha.keeps.dim.trans h.dim, ha.keeps.nodes.trans h.nodes, ?_, ?_, ?_, ?_, by simp⟩
      · intro v k hk; rw [ha.keeps.vars] at hk; rw [ha.keeps.scopes]; exact h.scope v k hk
      · intro v k hk; rw [ha.keeps.vars] at hk ⊢; exact h.fn v k hk
      · intro m hm hdm i hi v hvv
        by_cases hmn : m = n
        · rw [hmn]; exact hused i hi v hvv
        · exact ha.ext.named (h.inst m hm (hold m hmn hdm) i hi v hvv)
      · intro x k hk; rw [ha.keeps.vars] at hk; exact h.depth x k hk
    have hcon : ∀ β, ConTrue β c ↔ ssTrue (symVal s1 β) (conOf (instSteps s.dim n)) := by
      intro β
      unfold ConTrue
      rw [hE.con]
      exact (by simp : clausesTrue β (({} : CNF).cClauses ++ _) ↔ _).trans
        (clausesTrue_imgS ha.ok fun vr hvr => (ha.named vr).2 (.inr (usedIn_conOf hvr)))
    refine ⟨c, s1, e, ⟨⟨hp, ha.ext, ha.keeps.scopes, by rw [ha.keeps.vars]; exact fun _ _ h => h,
      by rw [ha.keeps.vars]; exact fun _ _ h => .inl h, ?_⟩, hE.wf WF.empty, hE.top h.vm.topv_nonneg, ?_, ?_, ?_⟩,
      ha.keeps.vars, hused 0 W.dim_pos BOT (by simp [featVals])⟩
    · intro m hm hdm
      by_cases hmn : m = n
      · subst hmn; exact .inr hmay
      · exact .inl (hold m hmn hdm)
    · intro β hc m hm hdm hndm
      by_cases hmn : m = n
      · subst hmn
        obtain ⟨e, he⟩ := reads_of_inst ((hcon β).1 hc)
        rw [hdim] at he
        exact ⟨e, he⟩
      · exact absurd (hold m hmn hdm) hndm
    · intro β σ _ _
      simp only [SemTrue, hE.sem, instSteps_sem]
      simp [imgS]
    · intro β σ hca
      refine ⟨β, .refl _ _ _, (hcon β).2 (inst_of_reads (e := σ n) fun i hi v hv => ?_)⟩
      rw [hca.2 _ (hused i (by omega) v hv)]
      exact W.inst_mean n hin σ i v hv

theorem addVar_lv {x : QVar} (hso : ScopeOk s) (hl : Lv s lv) : Lv (s.addVar x) (lv.declare s.scopes.length x) := by
  intro y
  rw [addVar_vars]
  unfold Levels.declare
  have h0 : mapGet s.vars x = none ↔ lv x = 0 := by
    rw [← hl x]
    cases h : mapGet s.vars x with
    | none => simp
    | some k => have := hso x k h; simp; omega
  by_cases hs : s.scopes = []
  · rw [if_neg (by simp [hs])]
    split
    · next h => rw [hl y, hs, h.1]; simpa using h.2
    · exact hl y
  · by_cases hy : y = x ∧ lv x = 0
    · rw [if_pos hy, if_pos ⟨hs, h0.2 hy.2, hy.1.symm⟩]; rfl
    · rw [if_neg hy, if_neg]
      · exact hl y
      · rintro ⟨-, h1, h2⟩; exact hy ⟨h2.symm, h0.1 h1⟩

theorem Shows.encWithVar {x n : QVar} (hn : n = x ++ suffix (stack.take ((lv.declare stack.length x) x)))
    (hin : W.isInst n) (hmay : W.may n)
    (h : Shows W (n :: Γ) Γ' (lv.declare stack.length x) lv' stack q P) : Shows W Γ Γ' lv lv' stack (encWithVar x (some q)) P := by
  refine Shows.wrapErr _ fun s hp hl hh hs => ?_
  subst hs
  obtain ⟨a, b, c⟩ := addVar_other s x
  have hx := addVar_varsExt x hp.fn
  have hso := hx.scopeOk hp.scope a.scopes
  have hl1 := addVar_lv (x := x) hp.scope hl
  have hp1 : Pre (W.at (lv.declare s.scopes.length x)) [] (s.addVar x) := by
    refine ⟨hp.vm.of_vm_eq b c, a.dim.trans hp.dim, a.nodes.trans hp.nodes, hso, hx.fn, ?_, fun y k hk => hl1.some hk, by simp⟩
    intro n hn hd i hi v hv
    exact (Named.of_vm c).2 (hp.inst n hn ((Named.of_vm c).1 hd) i hi v hv)
  have hv : (s.addVar x).scopeVar x = .ok n := by rw [scopeVar_eq hso, a.scopes, hl1 x, hn]
  obtain ⟨c1, s1, e1, p1, v1, d1⟩ := encodeI_named hp1 hv hin hmay
  obtain ⟨c2, s2, e2, p2, l2, g2⟩ := h s1 p1.moves.pre (hl1.of_vars v1) (by
    intro m hm
    rcases List.mem_cons.1 hm with rfl | hm
    · exact ⟨hin, d1⟩
    · exact ((hh.of_vm c).ext p1.moves.ext) m hm) (p1.moves.scopes.trans a.scopes)
  have p1' := p1.at (lv' := lv') fun y k hk => l2.some (p2.moves.keep y k hk)
  have hp2 := (Post2.of_seq p1' p2).merge.congr (Q := P) (by simp)
  have m1 : Moves (W.at lv') [] s s2 := by
    have m := hp2.moves
    refine ⟨m.pre, Ext.trans (.of_vm_eq b c) m.ext, m.scopes.trans a.scopes, fun y k hk => m.keep y k (hx.keep _ _ hk), ?_, ?_⟩
    · intro y k hk
      rcases m.new y k hk with h1 | h1
      · exact hx.new y k h1
      · rw [a.scopes] at h1; exact .inr h1
    · intro n hn hd
      exact (m.decl n hn hd).imp (Named.of_vm c).1 id
  refine ⟨c1.conjunction c2, s2, ?_, hp2.of_vm m1 b.symm c.symm rfl rfl, l2, g2⟩
  show (M.addVar x >>= fun _ => withVarBuild x q) s = _
  have e0 : M.addVar x s = (.ok (), s.addVar x) := rfl
  rw [M_bind_ok e0, withVarBuild_eq, M_bind_ok e1, M_bind_ok e2]; rfl

/-! ### predicates -/

theorem Shows.atom {T : DTree} {a : Atom} (hf : a.Loose W.dim W.nodes T a.vars stack)
    (hΓ : ∀ x ∈ a.vars, x ++ suffix (stack.take (lv x)) ∈ Γ) (hu : ∀ u ∈ a.emits W.dim lv stack, Plays W T u.1 u.2) :
    Shows W Γ Γ lv lv stack a.encode (fun σ => a.encoded W.dim T stack fun t => (t.res lv stack).den σ) := by
  intro s hp hl hh hs
  subst hs
  have hpre : Pre (W.at lv) a.vars s := by
    refine { hp with free := fun x hx => ?_ }
    obtain ⟨h1, h2⟩ := hh _ (hΓ x hx)
    refine ⟨?_, ?_, h1, h2⟩
    · cases h : mapGet s.vars x with
      | none => left; have := hl x; rw [h] at this; exact this.symm
      | some k => right; rw [hl.some h]; rfl
    · have := hl x
      cases h : mapGet s.vars x with
      | none => rw [h] at this; simp only [World.at]; simp at this; omega
      | some k => have h1 := hp.scope x k h; rw [hl.some h] at h1; exact h1.2
  obtain ⟨c, s', e, p⟩ := atom_encoded (W := W.at lv) (T := T) (a := a) hf hu s hpre rfl
  refine ⟨c, s', e, p.weaken (by simp), ?_, hh.ext p.moves.ext⟩
  have := a.keepsVars.vars s
  rw [e] at this
  exact hl.of_vars this

/-! ### guarded quantifiers -/

theorem forallFold_shows {Γs : Nat → List QVar} {lvs : Nat → Levels} {Ps : Nat → Asg → Prop} {tgt : List Char} (ts : List (List FeatV)) :
    ∀ (i : Nat) (ncnf : CNF) (s0 s : Ctx) (g : Scope) (Q : Asg → Prop),
      (∀ j t, ts[j]? = some t → Shows W (Γs (i + j)) (Γs (i + j + 1)) (lvs (i + j)) (lvs (i + j + 1))
        (stack ++ [⟨tgt, t, ((i + j : Nat) : Int)⟩]) q (Ps (i + j))) →
      s0.scopes = stack ++ [g] → g.target = tgt → Post (W.at (lvs i)) [] s0 s ncnf Q → Lv s (lvs i) → Has W s (Γs i) →
      ∃ c s' g', forallFold q ts i ncnf s = (.ok c, s') ∧
        Post (W.at (lvs (i + ts.length))) [] { s0 with scopes := stack ++ [g'] } s' c
          (fun σ => Q σ ∧ ∀ j < ts.length, Ps (i + j) σ) ∧
        Lv s' (lvs (i + ts.length)) ∧ Has W s' (Γs (i + ts.length)) := by
  induction ts with
  | nil =>
    intro i ncnf s0 s g Q _ hs0 _ hp hl hh
    refine ⟨ncnf, s, g, rfl, ?_, hl, hh⟩
    rw [← hs0]
    exact hp.congr (by simp)
  | cons t ts ih =>
    intro i ncnf s0 s g Q hch hs0 hg hp hl hh
    have hs : s.scopes = stack ++ [g] := hp.moves.scopes.trans hs0
    have hp1 := hp.rescope (g' := { g with vIdx := (i : Nat), value := t }) hs0 (by simp)
    obtain ⟨c2, s2, e2, p2, l2, g2⟩ := hch 0 t (by simp) _ hp1.moves.pre hl hh (by simp [← hg])
    have p3 := (Post2.of_seq (hp1.at fun x k hk => l2.some (p2.moves.keep x k hk)) p2).merge
    obtain ⟨c, s', g', e3, p4, l4, g4⟩ := ih (i + 1) (ncnf.conjunction c2) _ s2
      { g with vIdx := (i : Nat), value := t } _ (by
        intro j t' hj
        have := hch (j + 1) t' (by simpa using hj)
        rw [show i + 1 + j = i + (j + 1) by omega]
        exact this) rfl hg p3 l2 g2
    have hlen : i + (t :: ts).length = i + 1 + ts.length := by simp; omega
    rw [hlen]
    refine ⟨c, s', g', ?_, p4.congr ?_, l4, g4⟩
    · simp only [forallFold]
      rw [M_bind_ok (setScope_append hs (i : Nat) t), M_bind_ok e2]
      exact e3
    · intro σ
      simp only [List.length_cons, Nat.add_zero, and_assoc]
      constructor
      · rintro ⟨a, b, c⟩
        refine ⟨a, fun j hj => ?_⟩
        cases j with
        | zero => exact b
        | succ j => rw [show i + (j + 1) = i + 1 + j by omega]; exact c j (by omega)
      · rintro ⟨a, b⟩
        refine ⟨a, b 0 (by omega), fun j hj => ?_⟩
        rw [show i + 1 + j = i + (j + 1) by omega]
        exact b (j + 1) (by omega)

theorem Shows.encForall {k : QConst} {Γs : Nat → List QVar} {lvs : Nat → Levels} {Ps : Nat → Asg → Prop} {ws : List WalkSt}
    (hok : newNodeAsValuesIter W.dim W.nodes = .ok (WalkSt.init W.dim W.nodes.length))
    (hws : Iterates W.nodes (WalkSt.init W.dim W.nodes.length) ws)
    (hch : ∀ i w, ws[i]? = some w → Shows W (Γs i) (Γs (i + 1)) (lvs i) (lvs (i + 1)) (stack ++ [⟨k.id, w.t, (i : Nat)⟩]) q (Ps i)) :
    Shows W (Γs 0) (Γs ws.length) (lvs 0) (lvs 0) stack (encForall k (some q)) (fun σ => ∀ i < ws.length, Ps i σ) := by
  refine Shows.wrapErr _ fun s hp hl hh hs => ?_
  subst hs
  have hp0 := hp.addScope k.id
  obtain ⟨c, s', g', e, p, l, gg⟩ := forallFold_shows (q := q) (Γs := Γs) (lvs := lvs) (Ps := Ps) (tgt := k.id) (ws.map (·.t)) 0 {}
    (s.addScope k.id) (s.addScope k.id) { target := k.id } (fun _ => True) (by
      intro j t hj
      simp only [List.getElem?_map, Option.map_eq_some_iff] at hj
      obtain ⟨w, hw, rfl⟩ := hj
      simpa using hch j w hw) rfl rfl (.true hp0) hl hh
  simp only [List.length_map, Nat.zero_add] at p l gg
  have hbody : forallBody q (s.addScope k.id) = (.ok c, s') := by
    rcases forallBody_eq q (s.addScope k.id) with ⟨e', h1, -⟩ | ⟨ws', h1, -, h2⟩
    · rw [hp0.dim, hp0.nodes] at h1
      rw [show (W.at (lvs 0)).dim = W.dim from rfl, show (W.at (lvs 0)).nodes = W.nodes from rfl, hok] at h1
      simp at h1
    · rw [hp0.dim, hp0.nodes] at h1
      rw [h2, h1.unique hws]
      exact e
  have hsc : s'.scopes = s.scopes ++ [g'] := p.moves.scopes
  have hne : s'.scopes ≠ [] := by rw [hsc]; simp
  have hlen : s'.scopes.length = s.scopes.length + 1 := by rw [hsc]; simp
  have p1 : s'.popScope.2.topv = s'.topv := by unfold Ctx.popScope; split <;> rfl
  have p2 : s'.popScope.2.vmap = s'.vmap := by unfold Ctx.popScope; split <;> rfl
  have p3 : s'.popScope.2.dim = s'.dim := by unfold Ctx.popScope; split <;> rfl
  have p4 : s'.popScope.2.nodes = s'.nodes := by unfold Ctx.popScope; split <;> rfl
  have p5 : s'.popScope.2.scopes = s.scopes := by rw [popScope_scopes, hsc]; simp
  have hp' := p.moves.pre
  have hpv := popScope_vars hp'.fn hne
  have hback : ∀ x, mapGet s'.popScope.2.vars x = mapGet s.vars x := by
    intro x
    rw [hpv, hlen]
    cases h : mapGet s'.vars x with
    | none =>
      cases h' : mapGet s.vars x with
      | none => rfl
      | some k => have := p.moves.keep x k h'; rw [h] at this; simp at this
    | some k =>
      simp only
      rcases p.moves.new x k h with h3 | ⟨h3, -⟩
      · have := (hp.scope x k h3).2
        rw [if_neg (by omega)]; exact h3.symm
      · simp only [List.length_append, List.length_cons, List.length_nil] at h3
        rw [if_pos (by omega)]
        cases h' : mapGet s.vars x with
        | none => rfl
        | some k' =>
          have h4 := p.moves.keep x k' h'
          have h5 := (hp.scope x k' h').2
          rw [h] at h4
          simp only [Option.some.injEq] at h4
          omega
  have hl' : Lv s'.popScope.2 (lvs 0) := fun x => by rw [hback]; exact hl x
  have hpre : Pre (W.at (lvs 0)) [] s'.popScope.2 := by
    refine ⟨hp'.vm.of_vm_eq p1 p2, p3.trans hp'.dim, p4.trans hp'.nodes, ?_, exec_varsFun .popScope s' hp'.fn, ?_, fun x k hk => hl'.some hk, by simp⟩
    · intro x k hk; rw [hback] at hk; rw [p5]; exact hp.scope x k hk
    · intro n hn hd i hi v hv
      exact (Named.of_vm p2).2 (hp'.inst n hn ((Named.of_vm p2).1 hd) i hi v hv)
  have hmv : Moves (W.at (lvs 0)) [] s s'.popScope.2 := by
    refine ⟨hpre, ?_, p5, ?_, ?_, fun n hn hd => p.moves.decl n hn ((Named.of_vm p2).1 hd)⟩
    · have := p.moves.ext
      refine ⟨?_, ?_, ?_⟩
      · rw [p1]; exact this.topv_le
      · rw [p2]; exact this.keep
      · rw [p2]; exact this.fresh
    · intro x k hk; rw [hback]; exact hk
    · intro x k hk; rw [hback] at hk; exact .inl hk
  refine ⟨c, s'.popScope.2, ?_, ?_, hl', gg.of_vm p2⟩
  · show forallBuild k q s = _
    rw [forallBuild_of hbody hne]
  · have pp : Post (W.at (lvs 0)) [] s s'.popScope.2 c (fun σ => True ∧ ∀ j < ws.length, Ps (0 + j) σ) := by
      refine ⟨hmv, p.wf, by rw [p1]; exact p.top, ?_, ?_, ?_⟩
      · intro β hc n hn hd hnd
        obtain ⟨e, he⟩ := p.inst β hc n hn ((Named.of_vm p2).1 hd) hnd
        refine ⟨e, ?_⟩
        unfold Reads
        rw [symVal_of_vm p2]
        exact he
      · intro β σ hc ha
        refine (p.sem β σ hc fun n hn hd => ?_).trans (by simp)
        have := ha n hn ((Named.of_vm p2).2 hd)
        unfold Reads at this
        rw [symVal_of_vm p2] at this
        exact this
      · intro β σ hca
        obtain ⟨β', x, y⟩ := p.con β σ ⟨hca.1, by
          intro vr hn; rw [← symVal_of_vm p2]; exact hca.2 vr ((Named.of_vm p2).2 hn)⟩
        refine ⟨β', ?_, y⟩
        unfold SameNamed
        rw [p1, p2]
        exact x
    exact pp.congr (by simp)

end

end Goexpdt

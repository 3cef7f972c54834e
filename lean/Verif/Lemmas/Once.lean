import Verif.Lemmas.Propagate
/- Of the features of the instances, unit propagation finds which values they do not have from those they have. -/
namespace Goexpdt
open Spec Props
namespace Once

/-- With the clauses, unit propagation finds that a feature of the instance has no second value, also in later contexts. -/
def Excl (d : Nat) (s : Ctx) (c : CNF) (n : QVar) : Prop :=
  ∀ s'', VMok s'' → Ext s s'' → ∀ L, Force.LS L c.cClauses → ∀ i < d, ∀ v ∈ featVals, ∀ w ∈ featVals, v ≠ w →
    Force.known s'' L ⟨n, (i : Nat), v⟩ true → Force.known s'' L ⟨n, (i : Nat), w⟩ false

/-- Names that have been declared from `s` to `s'` have one value per feature. -/
def New (W : World) (s s' : Ctx) (c : CNF) : Prop := ∀ n, W.isInst n → Declared s' n → Declared s n ∨ Excl W.dim s' c n

variable {W : World} {s s0 s1 s' s2 : Ctx} {c c1 c2 : CNF} {d : Nat} {n : QVar}

theorem Excl.ext (h : Excl d s c n) (he : Ext s s') : Excl d s' c n := fun s'' hv he' => h s'' hv (he.trans he')

theorem Excl.left (h : Excl d s c1 n) : Excl d s (c1.conjunction c2) n := by
  intro s'' hv he L hc
  simp only [CNF.conjunction, CNF.appendSemantics, CNF.appendConsistency, Force.LS_append] at hc
  exact h s'' hv he L hc.1

theorem Excl.right (h : Excl d s c2 n) : Excl d s (c1.conjunction c2) n := by
  intro s'' hv he L hc
  simp only [CNF.conjunction, CNF.appendSemantics, CNF.appendConsistency, Force.LS_append] at hc
  exact h s'' hv he L hc.2

theorem Excl.neg (h : Excl d s c n) (hw : WF c) (tv : Option Int) : Excl d s (c.negate tv) n := by
  intro s'' hv he L hc
  obtain ⟨new, h1, -⟩ := negate_spec c tv hw.tv_nonneg hw.sNonZero
  rw [h1, Force.LS_append] at hc
  exact h s'' hv he L hc.1

theorem New.refl : New W s s c := fun _ _ h => .inl h

theorem New.seq (h1 : New W s s1 c1) (h2 : New W s1 s2 c2) (he : Ext s1 s2) : New W s s2 (c1.conjunction c2) := by
  intro n hn hd
  rcases h2 n hn hd with h | h
  · exact (h1 n hn h).imp id fun k => (k.ext he).left
  · exact .inr h.right

theorem New.neg (h : New W s s' c) (hw : WF c) (tv : Option Int) : New W s s' (c.negate tv) :=
  fun n hn hd => (h n hn hd).imp id fun k => k.neg hw tv

theorem New.move (h : New W s s1 c) (hm : s2.vmap = s1.vmap) (he : Ext s1 s2) : New W s s2 c :=
  fun n hn hd => (h n hn ((Named.of_vm hm).1 hd)).imp id fun k => k.ext he

theorem New.start (h : New W s1 s2 c) (hm : s1.vmap = s.vmap) : New W s s2 c :=
  fun n hn hd => (h n hn hd).imp (Named.of_vm hm).1 id

/-- The clauses that make a name an instance. -/
theorem excl_inst (hv : VMok s) (e : Goexpdt.emit (instSteps d n) s = (.ok c, s')) : Excl d s' c n := by
  obtain ⟨c', s1, e', h⟩ := emit_spec (instSteps d n) s hv
  obtain ⟨rfl, rfl⟩ := ok_inj e' e
  intro s'' hv' he L hc i hi v hvv w hw hne hk
  have hn : ∀ vr, usedIn (conOf (instSteps d n)) vr → Named s' vr := fun vr hvr => (h.alloc.named vr).2 (.inr (usedIn_conOf hvr))
  rw [h.con, ← he.imgS hn] at hc
  have hK := Force.KS_img hv' (fun vr hvr => he.named (hn vr hvr)) (show Force.LS L (imgS s'' (conOf (instSteps d n))) by simpa using hc)
  simp only [instSteps, conOf, conOf_map_con, Force.KS_append, Force.KS_flatMap, mem_rng, reqOneS, Force.KS_cons] at hK
  obtain ⟨h1, h2, h3, -⟩ := hK.2 i ⟨by omega, hi⟩
  have h1 := Force.KC2 h1
  have h2 := Force.KC2 h2
  have h3 := Force.KC2 h3
  simp only [N, Bool.not_false] at h1 h2 h3
  simp only [featVals, List.mem_cons, List.not_mem_nil, or_false] at hvv hw
  rcases hvv with rfl | rfl | rfl <;> rcases hw with rfl | rfl | rfl <;> first | exact absurd rfl hne | skip
  all_goals first | exact h1.1 hk | exact h1.2 hk | exact h2.1 hk | exact h2.2 hk | exact h3.1 hk | exact h3.2 hk

/-- The component adds the clauses for the names it declares. -/
def Makes (W : World) (Γ : List QVar) (lv : Levels) (stack : List Scope) (act : M CNF) : Prop :=
  ∀ s, Pre (W.at lv) [] s → Lv s lv → Has W s Γ → s.scopes = stack → ∀ c s', act s = (.ok c, s') → New W s s' c

section
variable {T : DTree} {Γ Γ' Γ1 Γ2 : List QVar} {stack : List Scope} {lv lv' lv1 lv2 : Levels} {P P1 P2 : Asg → Prop} {q q1 q2 : M CNF}

theorem Makes.wrapErr (pre : String) (h : Makes W Γ lv stack q) : Makes W Γ lv stack (M.wrapErr pre q) :=
  fun s hp hl hh hs c s' e => h s hp hl hh hs c s' (wrapErr_inv e)

theorem Makes.atom {a : Atom} (hf : a.Loose W.dim W.nodes T a.vars stack)
    (hΓ : ∀ x ∈ a.vars, x ++ suffix (stack.take (lv x)) ∈ Γ) (hu : ∀ u ∈ a.emits W.dim lv stack, Plays W T u.1 u.2) :
    Makes W Γ lv stack a.encode := by
  intro s hp hl hh hs c s' e n hn hd
  -- predicates declare no names, even if they may
  let W' : World := { W with may := fun _ => False }
  have hp' : Pre (W'.at lv) [] s := ⟨hp.vm, hp.dim, hp.nodes, hp.scope, hp.fn, hp.inst, hp.depth, hp.free⟩
  obtain ⟨c0, s0, e0, p, -⟩ := Shows.atom (W := W') (T := T) (a := a) hf hΓ hu s hp' hl hh hs
  obtain ⟨rfl, rfl⟩ := ok_inj e0 e
  exact .inl ((p.moves.decl n hn hd).resolve_right id)

theorem Makes.encAnd (h1 : Shows W Γ Γ1 lv lv1 stack q1 P1) (h2 : Shows W Γ1 Γ2 lv1 lv2 stack q2 P2)
    (b1 : Makes W Γ lv stack q1) (b2 : Makes W Γ1 lv1 stack q2) : Makes W Γ lv stack (encAnd (some q1) (some q2)) := by
  refine Makes.wrapErr _ fun s hp hl hh hs c s' e => ?_
  obtain ⟨c1, s1, e1, p1, l1, g1⟩ := h1 s hp hl hh hs
  have hs1 := p1.moves.scopes.trans hs
  obtain ⟨c2, s2, e2, p2, l2, g2⟩ := h2 s1 p1.moves.pre l1 g1 hs1
  have e' : andBuild q1 q2 s = (.ok (c1.conjunction c2), s2) := by
    unfold andBuild
    rw [M_bind_ok (wrapErr_ok e1), M_bind_ok (wrapErr_ok e2)]; rfl
  obtain ⟨rfl, rfl⟩ := ok_inj e' e
  exact (b1 s hp hl hh hs _ _ e1).seq (b2 s1 p1.moves.pre l1 g1 hs1 _ _ e2) p2.moves.ext

theorem Makes.encNot (h : Shows W Γ Γ' lv lv' stack q P) (b : Makes W Γ lv stack q) : Makes W Γ lv stack (encNot (some q)) := by
  refine Makes.wrapErr _ fun s hp hl hh hs c s' e => ?_
  obtain ⟨c1, s1, e1, p1, l1, g1⟩ := h s hp hl hh hs
  have e' : notBuild q s = (.ok (c1.negate (some s1.topv)), (s1.updateTopV (c1.negate (some s1.topv)).tv).2) := by
    simp only [notBuild_eq]
    rw [M_bind_ok e1, negStep_eq]
  obtain ⟨rfl, rfl⟩ := ok_inj e' e
  exact ((b s hp hl hh hs _ _ e1).neg p1.wf _).move (updateTopV_vmap _ _) (p1.moves.pre.updateTopV _).1.ext

theorem Makes.encOr (h1 : Shows W Γ Γ1 lv lv1 stack q1 P1) (h2 : Shows W Γ1 Γ2 lv1 lv2 stack q2 P2)
    (b1 : Makes W Γ lv stack q1) (b2 : Makes W Γ1 lv1 stack q2) : Makes W Γ lv stack (encOr (some q1) (some q2)) := by
  refine Makes.wrapErr _ fun s hp hl hh hs c s' e => ?_
  obtain ⟨c1, s1, e1, p1, l1, g1⟩ := h1 s hp hl hh hs
  have hs1 := p1.moves.scopes.trans hs
  obtain ⟨c2, s2, e2, p2, l2, g2⟩ := h2 s1 p1.moves.pre l1 g1 hs1
  have f1 := b1 s hp hl hh hs _ _ e1
  have f2 := b2 s1 p1.moves.pre l1 g1 hs1 _ _ e2
  generalize hN1 : c1.negate (some s2.topv) = N1 at *
  have hx1 := (p2.moves.pre.updateTopV N1.tv).1
  have hm1 := updateTopV_vmap s2 N1.tv
  generalize hS1 : (s2.updateTopV N1.tv).2 = S1 at *
  generalize hN2 : c2.negate (some S1.topv) = N2 at *
  have hx2 := (hx1.pre.updateTopV N2.tv).1
  have hm2 := updateTopV_vmap S1 N2.tv
  generalize hS2 : (S1.updateTopV N2.tv).2 = S2 at *
  have hw1 : WF N1 := hN1 ▸ p1.wf.negate _
  have hw2 : WF N2 := hN2 ▸ p2.wf.negate _
  have e' : orBuild q1 q2 s = (.ok ((N1.conjunction N2).negate (some S2.topv)),
      (S2.updateTopV ((N1.conjunction N2).negate (some S2.topv)).tv).2) := by
    simp only [orBuild_eq]
    rw [M_bind_ok (wrapErr_ok e1), M_bind_ok (wrapErr_ok e2), M_bind_ok (negStep_eq c1 s2), hN1, hS1,
      M_bind_ok (negStep_eq c2 _), hN2, hS2, negStep_eq]
  obtain ⟨rfl, rfl⟩ := ok_inj e' e
  have g1 : New W s s1 N1 := by rw [← hN1]; exact f1.neg p1.wf _
  have g2 : New W s1 S2 N2 := by
    rw [← hN2]
    exact (f2.neg p2.wf _).move (hm2.trans hm1) (hx1.ext.trans hx2.ext)
  exact ((g1.seq g2 (p2.moves.ext.trans (hx1.ext.trans hx2.ext))).neg (hw1.conjunction hw2) _).move (updateTopV_vmap _ _)
    (hx2.pre.updateTopV _).1.ext

theorem Makes.encWithVar {x n : QVar} (hn : n = x ++ suffix (stack.take ((lv.declare stack.length x) x)))
    (hin : W.isInst n) (hmay : W.may n) (h : Shows W (n :: Γ) Γ' (lv.declare stack.length x) lv' stack q P)
    (b : Makes W (n :: Γ) (lv.declare stack.length x) stack q) : Makes W Γ lv stack (encWithVar x (some q)) := by
  refine Makes.wrapErr _ fun s hp hl hh hs c s' e => ?_
  subst hs
  obtain ⟨a, b', c'⟩ := addVar_other s x
  have hx := addVar_varsExt x hp.fn
  have hso := hx.scopeOk hp.scope a.scopes
  have hl1 := addVar_lv (x := x) hp.scope hl
  have hp1 : Pre (W.at (lv.declare s.scopes.length x)) [] (s.addVar x) := by
    refine ⟨hp.vm.of_vm_eq b' c', a.dim.trans hp.dim, a.nodes.trans hp.nodes, hso, hx.fn, ?_, fun y k hk => hl1.some hk, by simp⟩
    intro n hn hd i hi v hv
    exact (Named.of_vm c').2 (hp.inst n hn ((Named.of_vm c').1 hd) i hi v hv)
  have hv : (s.addVar x).scopeVar x = .ok n := by rw [scopeVar_eq hso, a.scopes, hl1 x, hn]
  obtain ⟨c1, s1, e1, p1, v1, d1⟩ := encodeI_named hp1 hv hin hmay
  have hnew : New W (s.addVar x) s1 c1 := by
    cases he : (s.addVar x).cnfVarExists ⟨n, 0, BOT⟩ with
    | true =>
      obtain ⟨rfl, rfl⟩ := ok_inj (encodeI_declared hv he) e1
      exact .refl
    | false =>
      rw [encodeI_fresh hv he, hp1.dim] at e1
      intro m _ hdm
      by_cases hmn : m = n
      · subst hmn; exact .inr (excl_inst hp1.vm e1)
      · obtain ⟨c0, s0, e0, hE⟩ := emit_spec (instSteps W.dim n) (s.addVar x) hp1.vm
        obtain ⟨rfl, rfl⟩ := ok_inj e0 e1
        rcases (hE.alloc.named _).1 hdm with h1 | h1
        · exact .inl h1
        · exact absurd (instSteps_used.1 h1).1 hmn
  have hh1 : Has W s1 (n :: Γ) := by
    intro m hm
    rcases List.mem_cons.1 hm with rfl | hm
    · exact ⟨hin, d1⟩
    · exact ((hh.of_vm c').ext p1.moves.ext) m hm
  have hs1 := p1.moves.scopes.trans a.scopes
  obtain ⟨c2, s2, e2, p2, l2, g2⟩ := h s1 p1.moves.pre (hl1.of_vars v1) hh1 hs1
  have e' : (M.addVar x >>= fun _ => withVarBuild x q) s = (.ok (c1.conjunction c2), s2) := by
    have e0 : M.addVar x s = (.ok (), s.addVar x) := rfl
    rw [M_bind_ok e0, withVarBuild_eq, M_bind_ok e1, M_bind_ok e2]; rfl
  obtain ⟨rfl, rfl⟩ := ok_inj e' e
  exact (hnew.start c').seq (b s1 p1.moves.pre (hl1.of_vars v1) hh1 hs1 _ _ e2) p2.moves.ext

theorem forallFold_makes {Γs : Nat → List QVar} {lvs : Nat → Levels} {Ps : Nat → Asg → Prop} {tgt : List Char} (ts : List (List FeatV)) :
    ∀ (i : Nat) (ncnf : CNF) (s0 s : Ctx) (g : Scope),
      (∀ j t, ts[j]? = some t → Shows W (Γs (i + j)) (Γs (i + j + 1)) (lvs (i + j)) (lvs (i + j + 1))
          (stack ++ [⟨tgt, t, ((i + j : Nat) : Int)⟩]) q (Ps (i + j)) ∧
        Makes W (Γs (i + j)) (lvs (i + j)) (stack ++ [⟨tgt, t, ((i + j : Nat) : Int)⟩]) q) →
      s.scopes = stack ++ [g] → g.target = tgt → Pre (W.at (lvs i)) [] s → Lv s (lvs i) → Has W s (Γs i) → New W s0 s ncnf →
      ∀ c s', forallFold q ts i ncnf s = (.ok c, s') → New W s0 s' c := by
  induction ts with
  | nil =>
    intro i ncnf s0 s g _ _ _ _ _ _ hf c s' e
    obtain ⟨rfl, rfl⟩ := ok_inj (show forallFold q [] i ncnf s = (.ok ncnf, s) from rfl) e
    exact hf
  | cons t ts ih =>
    intro i ncnf s0 s g hch hs hg hp hl hh hf c s' e
    have hp1 := hp.rescope (g' := { g with vIdx := (i : Nat), value := t }) hs (by simp)
    obtain ⟨hsh, hb⟩ := hch 0 t (by simp)
    have hsc : (⟨tgt, t, ((i + 0 : Nat) : Int)⟩ : Scope) = { g with vIdx := (i : Nat), value := t } := by rw [← hg]; rfl
    rw [hsc] at hsh hb
    obtain ⟨c2, s2, e2, p2, l2, g2⟩ := hsh _ hp1 hl hh rfl
    have f2 := hb _ hp1 hl hh rfl _ _ e2
    simp only [forallFold] at e
    rw [M_bind_ok (setScope_append hs (i : Nat) t), M_bind_ok e2] at e
    refine ih (i + 1) (ncnf.conjunction c2) s0 s2 { g with vIdx := (i : Nat), value := t } (by
        intro j t' hj
        have := hch (j + 1) t' (by simpa using hj)
        rw [show i + 1 + j = i + (j + 1) by omega]
        exact this) p2.moves.scopes hg p2.moves.pre l2 g2 (hf.seq (f2.start rfl)
        ((Ext.of_vm_eq rfl rfl : Ext s { s with scopes := stack ++ [{ g with vIdx := (i : Nat), value := t }] }).trans p2.moves.ext)) c s' e

theorem Makes.encForall {k : QConst} {Γs : Nat → List QVar} {lvs : Nat → Levels} {Ps : Nat → Asg → Prop} {ws : List WalkSt}
    (hok : newNodeAsValuesIter W.dim W.nodes = .ok (WalkSt.init W.dim W.nodes.length))
    (hws : Iterates W.nodes (WalkSt.init W.dim W.nodes.length) ws)
    (hch : ∀ i w, ws[i]? = some w → Shows W (Γs i) (Γs (i + 1)) (lvs i) (lvs (i + 1)) (stack ++ [⟨k.id, w.t, (i : Nat)⟩]) q (Ps i) ∧
      Makes W (Γs i) (lvs i) (stack ++ [⟨k.id, w.t, (i : Nat)⟩]) q) :
    Makes W (Γs 0) (lvs 0) stack (encForall k (some q)) := by
  refine Makes.wrapErr _ fun s hp hl hh hs c s' e => ?_
  subst hs
  have hp0 := hp.addScope k.id
  have hch' : ∀ j t, (ws.map (·.t))[j]? = some t → Shows W (Γs (0 + j)) (Γs (0 + j + 1)) (lvs (0 + j)) (lvs (0 + j + 1))
          (s.scopes ++ [⟨k.id, t, ((0 + j : Nat) : Int)⟩]) q (Ps (0 + j)) ∧
        Makes W (Γs (0 + j)) (lvs (0 + j)) (s.scopes ++ [⟨k.id, t, ((0 + j : Nat) : Int)⟩]) q := by
    intro j t hj
    simp only [List.getElem?_map, Option.map_eq_some_iff] at hj
    obtain ⟨w, hw, rfl⟩ := hj
    simpa using hch j w hw
  obtain ⟨c2, s2, g', e2, p, -, -⟩ := forallFold_shows (q := q) (Γs := Γs) (lvs := lvs) (Ps := Ps) (tgt := k.id) (ws.map (·.t)) 0 {}
    (s.addScope k.id) (s.addScope k.id) { target := k.id } (fun _ => True) (fun j t hj => (hch' j t hj).1) rfl rfl (.true hp0) hl hh
  have hbody : forallBody q (s.addScope k.id) = (.ok c2, s2) := by
    rcases forallBody_eq q (s.addScope k.id) with ⟨e', h1, -⟩ | ⟨ws', h1, -, h2⟩
    · rw [hp0.dim, hp0.nodes] at h1
      rw [show (W.at (lvs 0)).dim = W.dim from rfl, show (W.at (lvs 0)).nodes = W.nodes from rfl, hok] at h1
      simp at h1
    · rw [hp0.dim, hp0.nodes] at h1
      rw [h2, h1.unique hws]
      exact e2
  have hsc : s2.scopes = s.scopes ++ [g'] := p.moves.scopes
  have hne : s2.scopes ≠ [] := by rw [hsc]; simp
  have p1 : s2.popScope.2.topv = s2.topv := by unfold Ctx.popScope; split <;> rfl
  have p2 : s2.popScope.2.vmap = s2.vmap := by unfold Ctx.popScope; split <;> rfl
  have e' : forallBuild k q s = (.ok c2, s2.popScope.2) := by rw [forallBuild_of hbody hne]
  obtain ⟨rfl, rfl⟩ := ok_inj e' e
  have := forallFold_makes (q := q) (Γs := Γs) (lvs := lvs) (Ps := Ps) (tgt := k.id) (ws.map (·.t)) 0 {}
    (s.addScope k.id) (s.addScope k.id) { target := k.id } hch' rfl rfl hp0 hl hh .refl _ _ e2
  exact (this.move p2 (.of_vm_eq p1 p2)).start rfl

end

theorem query_makes {W : World} {T : DTree} (q : Query) : ∀ (Γ : List QVar) (stack : List Scope) (lv : Levels),
    (q.ground W.dim T stack lv).Loose W.dim W.nodes T Γ → (q.loops = true → IsTree W.dim W.nodes T ∧ Covers W.nodes T) →
    (∀ n ∈ (q.ground W.dim T stack lv).names, W.isInst n ∧ W.may n) →
    (∀ u ∈ (q.ground W.dim T stack lv).emits W.dim, Plays W T u.1 u.2) →
    ∀ act, q.comp = some act → Makes W Γ lv stack act := by
  induction q with
  | nil => intro Γ stack lv h; exact h.elim
  | atom a =>
    intro Γ stack lv h _ _ hu act hact
    simp only [Query.comp, Option.some.injEq] at hact
    subst hact
    exact Makes.atom h.1 h.2 hu
  | and q1 q2 ih1 ih2 =>
    intro Γ stack lv h ht hn hu act hact
    simp only [Query.ground, Ground.names, Ground.emits, List.mem_append, Query.loops, Bool.or_eq_true] at hn hu ht
    obtain ⟨a1, e1, c1⟩ := query_encoded q1 Γ stack lv h.1 (fun x => ht (.inl x)) (fun n hn' => hn n (.inl hn')) (fun u hu' => hu u (.inl hu'))
    obtain ⟨a2, e2, c2⟩ := query_encoded q2 _ stack _ h.2 (fun x => ht (.inr x)) (fun n hn' => hn n (.inr hn')) (fun u hu' => hu u (.inr hu'))
    simp only [Query.comp, Option.some.injEq] at hact
    subst hact
    rw [e1, e2]
    exact Makes.encAnd c1 c2 (ih1 Γ stack lv h.1 (fun x => ht (.inl x)) (fun n hn' => hn n (.inl hn')) (fun u hu' => hu u (.inl hu')) _ e1)
      (ih2 _ stack _ h.2 (fun x => ht (.inr x)) (fun n hn' => hn n (.inr hn')) (fun u hu' => hu u (.inr hu')) _ e2)
  | or q1 q2 ih1 ih2 =>
    intro Γ stack lv h ht hn hu act hact
    simp only [Query.ground, Ground.names, Ground.emits, List.mem_append, Query.loops, Bool.or_eq_true] at hn hu ht
    obtain ⟨a1, e1, c1⟩ := query_encoded q1 Γ stack lv h.1 (fun x => ht (.inl x)) (fun n hn' => hn n (.inl hn')) (fun u hu' => hu u (.inl hu'))
    obtain ⟨a2, e2, c2⟩ := query_encoded q2 _ stack _ h.2 (fun x => ht (.inr x)) (fun n hn' => hn n (.inr hn')) (fun u hu' => hu u (.inr hu'))
    simp only [Query.comp, Option.some.injEq] at hact
    subst hact
    rw [e1, e2]
    exact Makes.encOr c1 c2 (ih1 Γ stack lv h.1 (fun x => ht (.inl x)) (fun n hn' => hn n (.inl hn')) (fun u hu' => hu u (.inl hu')) _ e1)
      (ih2 _ stack _ h.2 (fun x => ht (.inr x)) (fun n hn' => hn n (.inr hn')) (fun u hu' => hu u (.inr hu')) _ e2)
  | not q ih =>
    intro Γ stack lv h ht hn hu act hact
    obtain ⟨a, e, c⟩ := query_encoded q Γ stack lv h ht hn hu
    simp only [Query.comp, Option.some.injEq] at hact
    subst hact
    rw [e]
    exact Makes.encNot c (ih Γ stack lv h ht hn hu _ e)
  | withVar x q ih =>
    intro Γ stack lv h ht hn hu act hact
    simp only [Query.ground, Ground.names, List.mem_cons] at hn
    obtain ⟨a, e, c⟩ := query_encoded q _ stack _ h ht (fun n hn' => hn n (.inr hn')) hu
    obtain ⟨h1, h2⟩ := hn _ (.inl rfl)
    simp only [Query.comp, Option.some.injEq] at hact
    subst hact
    rw [e]
    exact Makes.encWithVar rfl h1 h2 c (ih _ stack _ h ht (fun n hn' => hn n (.inr hn')) hu _ e)
  | forallG k q ih =>
    intro Γ stack lv h ht hn hu act hact
    simp only [Query.comp, Option.some.injEq] at hact
    subst hact
    obtain ⟨hT, hC⟩ := ht rfl
    have hok := C18_accepted _ _ _ hT.raw hC
    obtain ⟨ws, hws, -⟩ := C17_terminates _ _ _ hok
    obtain ⟨hv, hg⟩ := C18_values _ _ _ hT ws hws
    have hscope : scopesOf W.dim T k.id = ws.mapIdx fun i w => (⟨k.id, w.t, (i : Nat)⟩ : Scope) := by
      apply List.ext_getElem?
      intro i
      simp only [scopesOf, List.getElem?_map, List.getElem?_zipIdx, Option.map_map, List.getElem?_mapIdx]
      rw [← hv, List.getElem?_map]
      cases hw : ws[i]? with
      | none => rfl
      | some w =>
        simp only [Option.map_some, Option.some.injEq, Function.comp_apply, Nat.zero_add, scopeAt]
        rw [valsOf_den (hg w (List.mem_of_getElem? hw))]
    generalize hgs : (scopesOf W.dim T k.id).mapIdx (fun i g =>
      q.ground W.dim T (stack ++ [g]) (times (fun lv => q.levels (stack.length + 1) lv) i lv)) = gs
    have hG : (Query.forallG k q).ground W.dim T stack lv = .conj gs := by rw [← hgs]; rfl
    have hget : ∀ i w, ws[i]? = some w → gs[i]? = some (q.ground W.dim T (stack ++ [⟨k.id, w.t, (i : Nat)⟩])
        (times (fun lv => q.levels (stack.length + 1) lv) i lv)) := by
      intro i w hw
      rw [← hgs, List.getElem?_mapIdx, hscope, List.getElem?_mapIdx, hw]
      rfl
    rw [hG] at h hn hu
    have hin : ∀ i w, ws[i]? = some w → ∃ act, q.comp = some act ∧
        Shows W (namesUpTo Γ gs i) (namesUpTo Γ gs (i + 1)) (times (fun lv => q.levels (stack.length + 1) lv) i lv)
          (times (fun lv => q.levels (stack.length + 1) lv) (i + 1) lv) (stack ++ [⟨k.id, w.t, (i : Nat)⟩]) act
          (fun σ => (q.ground W.dim T (stack ++ [⟨k.id, w.t, (i : Nat)⟩])
            (times (fun lv => q.levels (stack.length + 1) lv) i lv)).encoded W.dim T σ) ∧
        Makes W (namesUpTo Γ gs i) (times (fun lv => q.levels (stack.length + 1) lv) i lv) (stack ++ [⟨k.id, w.t, (i : Nat)⟩]) act := by
      intro i w hw
      have hgi := hget i w hw
      have hm := List.mem_of_getElem? hgi
      have hn1 := fun n hn' => hn n ((conj_names gs).2 ⟨_, hm, hn'⟩)
      have hu1 := fun u hu' => hu u ((conj_emits gs).2 ⟨_, hm, hu'⟩)
      obtain ⟨a, e, c⟩ := query_encoded q (namesUpTo Γ gs i) _ _ (conj_loose gs Γ h i _ hgi) (fun _ => ⟨hT, hC⟩) hn1 hu1
      refine ⟨a, e, ?_, ?_⟩
      · rw [namesUpTo_succ hgi]
        simp only [List.length_append, List.length_cons, List.length_nil, Nat.zero_add] at c
        exact c
      · exact ih (namesUpTo Γ gs i) _ _ (conj_loose gs Γ h i _ hgi) (fun _ => ⟨hT, hC⟩) hn1 hu1 _ e
    cases hc : q.comp with
    | none =>
      obtain ⟨w, hw⟩ : ∃ w, ws[0]? = some w := by
        cases T <;> (cases ws <;> simp_all [DTree.nodeInsts])
      obtain ⟨a, e, -⟩ := hin 0 w hw
      rw [hc] at e; simp at e
    | some act =>
    have key := Makes.encForall (stack := stack) (k := k) (q := act) (Γs := namesUpTo Γ gs)
      (lvs := fun i => times (fun lv => q.levels (stack.length + 1) lv) i lv)
      (Ps := fun i σ => ∀ w, ws[i]? = some w → (q.ground W.dim T (stack ++ [⟨k.id, w.t, (i : Nat)⟩])
            (times (fun lv => q.levels (stack.length + 1) lv) i lv)).encoded W.dim T σ) hok hws (fun i w hw => by
        obtain ⟨a, e, c, b⟩ := hin i w hw
        rw [hc] at e
        simp only [Option.some.injEq] at e
        subst e
        exact ⟨c.congr fun σ => by rw [hw]; simp, b⟩)
    rw [namesUpTo_zero] at key
    exact key

/-! ### closed queries -/

/-- The features of the instances of a query exclude each other. -/
theorem encodable_excl {d : Nat} {nodes : List Node} {T : DTree} {q : Query} (hg : q.Encodable d nodes T) {s : Ctx}
    (hs : Ready d nodes (q.flat d T).names s) {c : CNF} {s' : Ctx} (eq : q.encode s = (.ok c, s')) :
    VMok s' ∧ ∀ n ∈ (q.flat d T).names, Excl d s' c n := by
  let W := worldOf d nodes T (fun _ => 0) hg.dim (q.flat d T).names [] ((q.flat d T).emits d)
  have hn : ∀ n ∈ (q.ground W.dim T [] fun _ => 0).names, W.isInst n ∧ W.may n := fun n hn => ⟨List.mem_append_left _ hn, hn⟩
  have hu : ∀ u ∈ (q.ground W.dim T [] fun _ => 0).emits W.dim, Plays W T u.1 u.2 := worldOf_plays fun u hu => by
    rw [List.append_nil]
    exact hg.apart u hu
  obtain ⟨act, e, hcq⟩ := query_encoded (W := W) (T := T) q [] [] (fun _ => 0) hg.fits hg.tree hn hu
  have hb := query_makes (W := W) (T := T) q [] [] (fun _ => 0) hg.fits hg.tree hn hu act e
  have hp : Pre W [] s := Ready.pre (W := W) hs fun n hn => by
    have : n ∈ (q.flat d T).names ++ [] := hn
    simpa using this
  have hlv : Lv s fun _ => 0 := fun x => by rw [hs.vars]; rfl
  have hh : Has W s [] := fun n hn => by simp at hn
  rw [Query.encode_eq e] at eq
  obtain ⟨c0, s0, e0, p, l, g⟩ := hcq s hp hlv hh hs.scopes
  obtain ⟨rfl, rfl⟩ := ok_inj e0 eq
  refine ⟨p.moves.pre.vm, fun n hn' => ?_⟩
  exact (hb s hp hlv hh hs.scopes _ _ e0 n (hn n hn').1 (g n (List.mem_append_left _ hn')).2).resolve_left (hs.fresh n hn')

theorem mem_chosen {d : Nat} {names : List QVar} {s : Ctx} {σ : Asg} {cl : Clause} : cl ∈ chosen d names s σ ↔
    ∃ n ∈ names, ∃ i < d, cl = [num s ⟨n, (i : Nat), valOf (σ n i)⟩] := by
  simp only [chosen, List.mem_flatMap, List.mem_map, List.mem_range, eq_comm]

theorem chosen_sub {d : Nat} {names : List QVar} {s : Ctx} {σ : Asg} : ∀ cl ∈ chosen d names s σ, cl ∈ given d names s σ := by
  intro cl h
  obtain ⟨n, hn, i, hi, rfl⟩ := mem_chosen.1 h
  exact Force.mem_given.2 ⟨n, hn, i, hi, valOf (σ n i), valOf_mem _, by simp⟩

/-- From the positive literals and the consistency clauses, unit propagation finds the negative ones. -/
theorem forced_given {d : Nat} {names : List QVar} {s : Ctx} {σ : Asg} {c : CNF} {cls : List Clause} (hv : VMok s)
    (hx : ∀ n ∈ names, Excl d s c n) (hc : ∀ cl ∈ c.cClauses, cl ∈ cls) (hs : ∀ cl ∈ chosen d names s σ, cl ∈ cls) :
    ∀ cl ∈ given d names s σ, ∀ l ∈ cl, Forced cls l := by
  have hp : ∀ vr, (((num s vr).natAbs : Nat) : Int) = num s vr := by
    intro vr
    have : 0 ≤ num s vr := by
      unfold num
      cases e : mapGet s.vmap vr with
      | none => simp
      | some k => have := hv.range _ _ e; simp only [Option.getD_some]; omega
    omega
  intro cl hcl l hl
  obtain ⟨n, hn, i, hi, v, hvv, rfl⟩ := Force.mem_given.1 hcl
  simp only [List.mem_singleton] at hl
  have hpos : Forced cls (num s ⟨n, (i : Nat), valOf (σ n i)⟩) :=
    .unit _ _ (hs _ (mem_chosen.2 ⟨n, hn, i, hi, rfl⟩)) (by simp) fun k hk hne => absurd (by simpa using hk) hne
  split at hl
  · next h => rw [hl, ← h]; exact hpos
  · next h =>
    have := hx n hn s hv (.refl _) (Force.found cls) (Force.LS_found hc) i hi _ (valOf_mem (σ n i)) v hvv h (by
      show Force.found cls _ true
      unfold Force.found
      rw [if_pos rfl, hp]
      exact hpos)
    unfold Force.known Force.found at this
    rw [if_neg (by simp), hp] at this
    rw [hl]
    exact this

/-- Clauses of one literal that unit propagation finds anyway make no difference. -/
theorem forced_cut {cls new : List Clause} (h : ∀ cl ∈ new, ∀ l ∈ cl, Forced cls l) {l : Int} (hl : Forced (cls ++ new) l) : Forced cls l := by
  induction hl with
  | unit cl l h1 h2 _ ih =>
    rcases List.mem_append.1 h1 with h1 | h1
    · exact .unit cl l h1 h2 ih
    · exact h cl h1 l h2

end Once
end Goexpdt

import Verif.Lemmas.MarkingAtoms
/- What the node predicates and queries with them say on any model. -/
namespace Goexpdt
open Spec

section
variable {d : Nat} {nodes : List Node} {xs : List QVar} {role : QVar → Option Role} {act : M CNF} {R Q : Asg → (QVar → Nat → Prop) → Prop}
  {ν : VarRep → Bool} {n r : QVar} {e : PInst}

theorem edge_of (hv : Valid d nodes) {i f : Nat} {b : Bool} {j : Nat} (h : Edge nodes i f b j) : i < nodes.length ∧ f < d ∧ j < nodes.length := by
  obtain ⟨n, h1, h2, h3, h4⟩ := h
  obtain ⟨hi, -⟩ := List.getElem?_eq_some_iff.1 h1
  obtain ⟨a, b', c, d', e, f'⟩ := hv i n h1 h2
  refine ⟨hi, by omega, ?_⟩
  cases b <;> simp at h4 <;> omega

theorem marking_iff (hv : Valid d nodes) {A : Nat → Bool → Prop} {ρ : Nat → Bool} :
    Marking nodes A (fun u => ρ u = true) ↔ ρ 0 = true ∧ ∀ i < nodes.length, Prop1 A ρ nodes i := by
  constructor
  · rintro ⟨h0, h⟩
    refine ⟨h0, fun i hi m hm hl f z o hf hz ho => ⟨?_, ?_⟩⟩
    · exact h i f false z ⟨m, hm, hl, hf, by simpa using hz⟩
    · exact h i f true o ⟨m, hm, hl, hf, by simpa using ho⟩
  · rintro ⟨h0, h⟩
    refine ⟨h0, fun i f b j he => ?_⟩
    obtain ⟨hi, -, -⟩ := edge_of hv he
    obtain ⟨m, hm, hl, hf, hj⟩ := he
    obtain ⟨a, b', c, d', e, f'⟩ := hv i m hm hl
    obtain ⟨h1, h2⟩ := h i hi m hm hl f m.zChild.toNat m.oChild.toNat hf (by omega) (by omega)
    cases b
    · rw [if_neg (by simp)] at hj
      rw [show m.zChild.toNat = j by omega] at h1
      exact h1
    · rw [if_pos rfl] at hj
      rw [show m.oChild.toNat = j by omega] at h2
      exact h2

theorem isnodeCon_any (hv : Valid d nodes) (hr : Rd d ν n e) :
    ssTrue ν ([P r 0 0] :: isnodeProp nodes n r) ↔ Marking nodes (HasVal e) (markOf ν r) := by
  unfold markOf
  rw [marking_iff hv (ρ := fun u => ν ⟨r, 0, (u : Nat)⟩)]
  simp only [ssTrue_cons, scTrue_cons, scTrue_nil, or_false, slTrue_P, isnodeProp, ssTrue_flatMap, mem_rng,
    Nat.zero_le, true_and]
  refine and_congr Iff.rfl (forall_congr' fun i => forall_congr' fun hi => ?_)
  cases hl : (nodeAt nodes i).isLeaf
  · obtain ⟨f, z, o, hf, -, -, h1, h2, h3⟩ := valid_node hv hi hl
    rw [prop1_at hi hl h1 h2 h3, h1, h2, h3]
    simp only [Bool.false_eq_true, if_false, HasVal]
    cases x : ν ⟨r, 0, (i : Nat)⟩ <;> cases y : ν ⟨r, 0, (z : Nat)⟩ <;> cases w : ν ⟨r, 0, (o : Nat)⟩ <;>
      rcases opt3 (e f) with h | h | h <;> simp [hr.zero hf, hr.one hf, h, x, y, w]
  · simp [prop1_leaf hi hl]

theorem isnodeSem_any (hv : Valid d nodes) (hr : Rd d ν n e) :
    ssTrue ν (isnodeFcl d nodes n r) ↔ ∀ f < d, e f = none ∨ ∃ i b j, Edge nodes i f b j ∧ markOf ν r i := by
  simp only [isnodeFcl, ssTrue_map, mem_rng, Nat.zero_le, true_and, scTrue_cons, slTrue_P, scTrue_map,
    List.mem_filter, Bool.and_eq_true, Bool.not_eq_true', beq_iff_eq]
  refine forall_congr' fun f => forall_congr' fun hf => ?_
  rw [hr.bot hf, decide_eq_true_eq]
  refine or_congr Iff.rfl ?_
  constructor
  · rintro ⟨u, ⟨hu, h1, h2⟩, h3⟩
    obtain ⟨f', z, o, -, -, -, -, hz, ho⟩ := valid_node hv hu h1
    exact ⟨u, false, z, ⟨_, getElem?_nodeAt hu, h1, h2, by simpa using hz⟩, h3⟩
  · rintro ⟨u, b, j, he, h3⟩
    obtain ⟨hu, -, -⟩ := edge_of hv he
    obtain ⟨m, hm, hl, hf', -⟩ := he
    rw [getElem?_nodeAt hu, Option.some.injEq] at hm
    subst hm
    exact ⟨u, ⟨hu, hl, hf'⟩, h3⟩

theorem allcompCon_any (hv : Valid d nodes) (hr : Rd d ν n e) (leaf : Bool) :
    ssTrue ν (conOf (.con [[P r 0 0]] :: (rng 0 nodes.length).map (allcompStep leaf nodes n r))) ↔
      Marking nodes (MayHave e) (markOf ν r) := by
  unfold markOf
  rw [marking_iff hv (ρ := fun u => ν ⟨r, 0, (u : Nat)⟩)]
  simp only [conOf, List.cons_append, List.nil_append, conOf_allcomp,
    ssTrue_cons, scTrue_cons, scTrue_nil, or_false, slTrue_P, ssTrue_flatMap, mem_rng, Nat.zero_le, true_and]
  refine and_congr Iff.rfl (forall_congr' fun i => forall_congr' fun hi => ?_)
  cases hl : (nodeAt nodes i).isLeaf
  · obtain ⟨f, z, o, hf, -, -, h1, h2, h3⟩ := valid_node hv hi hl
    rw [prop1_at hi hl h1 h2 h3]
    simp only [allcompStep, hl, h1, h2, h3, conOf, Bool.false_eq_true, if_false, MayHave]
    cases x : ν ⟨r, 0, (i : Nat)⟩ <;> cases y : ν ⟨r, 0, (z : Nat)⟩ <;> cases w : ν ⟨r, 0, (o : Nat)⟩ <;>
      rcases opt3 (e f) with h | h | h <;> simp [hr.zero hf, hr.one hf, hr.bot hf, h, x, y, w]
  · simp [prop1_leaf hi hl]

theorem allcompSem_any (leaf : Bool) :
    ssTrue ν (semOf (.con [[P r 0 0]] :: (rng 0 nodes.length).map (allcompStep leaf nodes n r))) ↔
      ∀ u m, nodes[u]? = some m → m.isLeaf = true → markOf ν r u → m.value = leaf := by
  simp only [semOf, semOf_allcomp, ssTrue_flatMap, mem_rng, Nat.zero_le, true_and, markOf]
  constructor
  · intro h u m hm hl hk
    obtain ⟨hu, -⟩ := List.getElem?_eq_some_iff.1 hm
    have := h u hu
    rw [getElem?_nodeAt hu, Option.some.injEq] at hm
    subst hm
    by_cases hv : (nodeAt nodes u).value = leaf
    · exact hv
    · rw [if_pos ⟨hl, hv⟩] at this
      simp [hk] at this
  · intro h u hu
    split
    · next hc =>
      have := h u _ (getElem?_nodeAt hu) hc.1
      simp only [ssTrue_cons, scTrue_cons, slTrue_N, scTrue_nil, or_false, ssTrue_nil, and_true]
      cases hk : ν ⟨r, 0, (u : Nat)⟩
      · rfl
      · exact absurd (this hk) hc.2
    · simp

theorem good_of {c : QConst} (h : (Term.const c).Ok d xs) : GoodVals d c.val := h

theorem consRet_marked {c : QConst} {x : QVar} (hc : GoodVals d c.val) (hx : x ∈ xs) (hP : ∀ σ μ, Q σ μ ↔ Cons d (den c.val) (σ x)) :
    Marked d nodes xs role (consConstRet (consConstClauses d c x)) (fun _ _ => True) Q := by
  unfold consConstRet
  split
  · next h0 =>
    refine Draws.retTrue.marked fun ν σ _ => ⟨Iff.rfl, ?_⟩
    rw [hP]
    simp only [true_iff]
    have hnil := List.length_eq_zero_iff.1 h0
    intro i hi hne
    have : consConstClauses d c x ≠ [] := by
      unfold consConstClauses
      intro hc'
      rw [List.flatMap_eq_nil_iff] at hc'
      have := hc' i (mem_rng.2 ⟨by omega, hi⟩)
      rw [if_neg (by rw [at_eq hc hi c rfl, valOf_bot]; exact hne)] at this
      simp at this
    exact absurd hnil this
  · refine (Draws.emitF _).marked fun ν σ hr => ⟨Iff.rfl, ?_⟩
    rw [hP]
    exact consConst_iff hc (hr x hx)

theorem addVar_outer {s : Ctx} (h : s.scopes = []) (x : QVar) : s.addVar x = s := by
  unfold Ctx.addVar
  simp [h]

theorem outer_scopeVar {s : Ctx} (hs : Outer d nodes xs s) (x : QVar) : s.scopeVar x = .ok x := by
  rw [scopeVar_eq (s := s) (by intro v k hk; rw [hs.vars] at hk; simp [mapGet] at hk), hs.scopes]
  simp [suffix]

theorem inst_iff : ssTrue ν (conOf (instSteps d n)) ↔ ∃ e, Rd d ν n e :=
  ⟨fun h => reads_of_inst h, fun ⟨_, h⟩ => inst_of_reads h⟩

theorem encodeI_drawn (hd : 0 < d) {s : Ctx} (hs : Outer d nodes xs s) (x : QVar) : ∃ c s', encodeI x s = (.ok c, s') ∧
    Drawn s s' c (fun ν => ¬ Declared s x → ∃ e, Rd d ν x e) (fun _ => True) ∧ (∀ y, Declared s' y ↔ Declared s y ∨ y = x) ∧
    (¬ Declared s x → ∀ i < d, ∀ v ∈ featVals, Named s' ⟨x, (i : Nat), v⟩) := by
  have hv := outer_scopeVar hs x
  cases he : s.cnfVarExists ⟨x, 0, BOT⟩ with
  | true =>
    have hD := exists_iff_declared.1 he
    refine ⟨_, s, encodeI_declared hv he, ?_, fun y => ⟨.inl, ?_⟩, fun h => absurd hD h⟩
    · obtain ⟨c, s', e, h⟩ := Draws.retTrue s hs
      obtain ⟨rfl, rfl⟩ : c = {} ∧ s' = s := by
        have : (Except.ok (α := CNF) (ε := Err) {}, s) = (Except.ok c, s') := e
        simp only [Prod.mk.injEq, Except.ok.injEq] at this
        exact ⟨this.1.symm, this.2.symm⟩
      exact Drawn2.congr h (fun ν => ⟨fun _ h => absurd hD h, fun _ => trivial⟩) (fun _ => Iff.rfl) fun _ => Iff.rfl
    · rintro (h | rfl)
      · exact h
      · exact hD
  | false =>
    have hD : ¬ Declared s x := by rw [← exists_iff_declared, he]; simp
    rw [encodeI_fresh hv he, hs.dim]
    obtain ⟨c, s', e, h⟩ := Draws.emit (d := d) (nodes := nodes) (D := xs) (instSteps d x) s hs
    obtain ⟨c', s1, e', h'⟩ := emit_spec (instSteps d x) s hs.vm
    rw [e] at e'
    simp only [Prod.mk.injEq, Except.ok.injEq] at e'
    obtain ⟨rfl, rfl⟩ := e'
    have hn : ∀ i < d, ∀ v ∈ featVals, Named s' ⟨x, (i : Nat), v⟩ := fun i hi v hv =>
      (h'.alloc.named _).2 (.inr (instSteps_used.2 ⟨rfl, ⟨i, hi, rfl⟩, hv⟩))
    refine ⟨c, s', e, ?_, fun y => ⟨fun hy => ?_, ?_⟩, fun _ => hn⟩
    · exact Drawn2.congr h (fun ν => ⟨fun k _ => inst_iff.1 k, fun k => inst_iff.2 (k hD)⟩)
        (fun ν => by simp [instSteps_sem]) fun _ => Iff.rfl
    · rcases (h'.alloc.named _).1 hy with h1 | h1
      · exact .inl h1
      · exact .inr (instSteps_used.1 h1).1
    · rintro (hy | rfl)
      · exact h'.alloc.ext.named hy
      · exact hn 0 hd BOT bot_mem

theorem withVar_drawn (hd : 0 < d) {x : QVar} (hx : x ∈ xs) {q : M CNF} {K F : (VarRep → Bool) → Prop} (h : Draws d nodes xs q K F) :
    Draws d nodes xs (encWithVar x (some q)) K F := by
  refine Draws.wrapErr _ fun s hs => ?_
  obtain ⟨c1, s1, e1, h1, -, -⟩ := encodeI_drawn hd hs x
  obtain ⟨c2, s2, e2, h2⟩ := h s1 (hs.keeps h1.keeps h1.vm h1.ext)
  refine ⟨c1.conjunction c2, s2, ?_, Drawn2.congr (Drawn2.of_seq h1 h2).merge (fun ν => ?_) (fun ν => by simp) fun _ => Iff.rfl⟩
  · show (M.addVar x >>= fun _ => withVarBuild x q) s = _
    have e0 : M.addVar x s = (.ok (), s) := by
      show (Except.ok (), s.addVar x) = _
      rw [addVar_outer hs.scopes]
    rw [M_bind_ok e0, withVarBuild_eq, M_bind_ok e1, M_bind_ok e2]; rfl
  · exact and_iff_right fun hn => absurd (hs.decl x hx) hn

theorem Atom.Fits.anyModel {T : DTree} {stack : List Scope} {a : Atom} (h : a.Fits d [] T xs stack) (hm : a.onModel = false) :
    a.Fits d nodes T xs stack :=
  ⟨h.vars, h.consts, h.gens, h.pref, h.prefne, h.regular, fun k => absurd (hm.symm.trans k) nofun⟩

theorem query_marked (hd : 0 < d) (hv : Valid d nodes) (hne : nodes ≠ []) : ∀ {q : Query}, q.Marks d xs role →
    q.comp = some q.encode ∧ Marked d nodes xs role q.encode (fun σ μ => q.marked nodes σ μ) (fun σ μ => q.tells d nodes σ μ) := by
  have hlen : ¬ nodes.length = 0 := by simpa using hne
  intro q
  induction q with
  | nil => exact nofun
  | withVar x q ih =>
    rintro ⟨h1, h2⟩
    obtain ⟨c1, K1, F1, a1, b1⟩ := ih h2
    refine ⟨rfl, ?_⟩
    show Marked d nodes xs role (encWithVar x q.comp) _ _
    rw [c1]
    exact ⟨_, _, withVar_drawn hd h1 a1, b1⟩
  | forallG c q _ => exact nofun
  | and q1 q2 ih1 ih2 =>
    rintro ⟨h1, h2⟩
    obtain ⟨c1, K1, F1, a1, b1⟩ := ih1 h1
    obtain ⟨c2, K2, F2, a2, b2⟩ := ih2 h2
    refine ⟨rfl, ?_⟩
    show Marked d nodes xs role (encAnd q1.comp q2.comp) _ _
    rw [c1, c2]
    exact ⟨_, _, a1.encAnd a2, fun ν σ hr => ⟨fun k => ⟨⟨((b1 ν σ hr).1 k.1).1, ((b2 ν σ hr).1 k.2).1⟩,
      and_congr ((b1 ν σ hr).1 k.1).2 ((b2 ν σ hr).1 k.2).2⟩, fun hc k => ⟨(b1 ν σ hr).2 hc k.1, (b2 ν σ hr).2 hc k.2⟩⟩⟩
  | or q1 q2 ih1 ih2 =>
    rintro ⟨h1, h2⟩
    obtain ⟨c1, K1, F1, a1, b1⟩ := ih1 h1
    obtain ⟨c2, K2, F2, a2, b2⟩ := ih2 h2
    refine ⟨rfl, ?_⟩
    show Marked d nodes xs role (encOr q1.comp q2.comp) _ _
    rw [c1, c2]
    exact ⟨_, _, a1.encOr a2, fun ν σ hr => ⟨fun k => ⟨⟨((b1 ν σ hr).1 k.1).1, ((b2 ν σ hr).1 k.2).1⟩,
      or_congr ((b1 ν σ hr).1 k.1).2 ((b2 ν σ hr).1 k.2).2⟩, fun hc k => ⟨(b1 ν σ hr).2 hc k.1, (b2 ν σ hr).2 hc k.2⟩⟩⟩
  | not q ih =>
    intro h
    obtain ⟨c1, K1, F1, a1, b1⟩ := ih h
    refine ⟨rfl, ?_⟩
    show Marked d nodes xs role (encNot q.comp) _ _
    rw [c1]
    exact ⟨_, _, a1.encNot, fun ν σ hr => ⟨fun k => ⟨((b1 ν σ hr).1 k).1, not_congr ((b1 ν σ hr).1 k).2⟩, (b1 ν σ hr).2⟩⟩
  | atom a =>
    intro h
    refine ⟨rfl, ?_⟩
    show Marked d nodes xs role a.encode _ _
    cases a with
    | subs t1 t2 =>
      obtain ⟨h1, h2⟩ := h
      cases t1 with
      | const c1 =>
        have g1 := good_of h1
        cases t2 with
        | const c2 =>
          have g2 := good_of h2
          obtain ⟨K, F, a, b⟩ := Marked.bool (d := d) (nodes := nodes) (xs := xs) (Q := fun _ _ => Subsumes d (den c1.val) (den c2.val))
            (fun σ μ => subsCC_iff _ _ _ g1 g2)
          exact ⟨K, F, .scopeConst c1 (.scopeConst c2 (.validate (by simp [g1.1, g2.1]) (.lift (indexed_upto (by simp [g1.1, g2.1])) a))), b⟩
        | var x =>
          exact (Draws.scopeVar (.scopeConst c1 (.validate (by simp [g1.1]) (.dim (.emitF _))))).marked
            fun ν σ hr => ⟨Iff.rfl, subsConstVar_iff g1 (hr x h2)⟩
      | var x =>
        cases t2 with
        | const c2 =>
          have g2 := good_of h2
          exact (Draws.scopeVar (.scopeConst c2 (.validate (by simp [g2.1]) (.dim (.emitF _))))).marked
            fun ν σ hr => ⟨Iff.rfl, subsVarConst_iff g2 (hr x h1)⟩
        | var y =>
          exact (Draws.scopeVar (.scopeVar (.dim (.emitF _)))).marked fun ν σ hr => ⟨Iff.rfl, subsVarVar_iff (hr x h1) (hr y h2)⟩
    | full t =>
      cases t with
      | const c =>
        have g := good_of h
        obtain ⟨K, F, a, b⟩ := Marked.bool (d := d) (nodes := nodes) (xs := xs) (Q := fun _ _ => Full d (den c.val)) (fun σ μ => fullC_iff _ g)
        exact ⟨K, F, .scopeConst c (.validate (by simp [g.1]) a), b⟩
      | var x => exact (Draws.scopeVar (.dim (.emitF _))).marked fun ν σ hr => ⟨Iff.rfl, varFull_iff (hr x h)⟩
    | cons t1 t2 =>
      obtain ⟨h1, h2⟩ := h
      cases t1 with
      | const c1 =>
        have g1 := good_of h1
        cases t2 with
        | const c2 =>
          have g2 := good_of h2
          obtain ⟨K, F, a, b⟩ := Marked.bool (d := d) (nodes := nodes) (xs := xs) (Q := fun _ _ => Cons d (den c1.val) (den c2.val))
            (fun σ μ => consCC_iff g1 g2)
          exact ⟨K, F, .scopeConst c1 (.scopeConst c2 (.validate (by simp [g1.1, g2.1])
            (.dim (.lift (indexed_upto (by simp [g1.1, g2.1])) a)))), b⟩
        | var x =>
          obtain ⟨K, F, a, b⟩ := consRet_marked (nodes := nodes) (Q := fun σ _ => Cons d (den c1.val) (σ x)) g1 h2 (fun _ _ => Iff.rfl)
          exact ⟨K, F, .scopeConst c1 (.scopeVar (.validate (by simp [g1.1]) (.dim a))), b⟩
      | var x =>
        cases t2 with
        | const c2 =>
          have g2 := good_of h2
          obtain ⟨K, F, a, b⟩ := consRet_marked (nodes := nodes) (Q := fun σ _ => Cons d (σ x) (den c2.val)) g2 h1
            (fun _ _ => ⟨Cons.symm, Cons.symm⟩)
          exact ⟨K, F, .scopeVar (.scopeConst c2 (.validate (by simp [g2.1]) (.dim a))), b⟩
        | var y => exact (Draws.scopeVar (.scopeVar (.dim (.emitF _)))).marked fun ν σ hr => ⟨Iff.rfl, consVarVar_iff (hr x h1) (hr y h2)⟩
    | isnode t g =>
      cases t with
      | const c => exact absurd h nofun
      | var x =>
      cases g with
      | none => exact absurd h nofun
      | some g =>
      refine Draws.marked (.model ?_) fun ν σ hr => ⟨isnodeCon_any hv (hr x h.1), isnodeSem_any hv (hr x h.1)⟩
      rw [if_neg hlen]
      refine .dim (.scopeVar ?_)
      rw [if_neg (by simp [featsInRange_of hv])]
      exact (Draws.emit _).congr (fun ν => by simp [conOf]) (fun ν => by simp [semOf])
    | allcomp t b g =>
      cases t with
      | const c =>
        have hc : GoodVals d c.val := h
        obtain ⟨b0, e, hb⟩ := acLoop_const hc b (valid_sound (e := den c.val) hne hv)
        obtain ⟨K, F, a, b'⟩ := Marked.bool (d := d) (nodes := nodes) (xs := xs) (fun _ _ => hb)
        refine ⟨K, F, .scopeConst c (.validate (by simp [hc.1]) (.dim (.model ?_))), b'⟩
        rw [if_neg hlen]
        exact .lift e a
      | var x =>
      cases g with
      | none => exact absurd h nofun
      | some g =>
      refine Draws.marked (act := allcompVar x b (some g)) ?_ fun ν σ hr => ⟨allcompCon_any hv (hr x h.1) b, allcompSem_any (n := x) b⟩
      refine .model ?_
      rw [if_neg hlen]
      exact .scopeVar (.emit _)
    | lel => exact lel_aside hd (h.1.anyModel rfl) h.2
    | dfs => exact absurd h nofun
    | hepr => exact hepr_aside hd (h.1.anyModel rfl) h.2
    | leh => exact leh_aside hd (h.1.anyModel rfl) h.2

/-! ### declarations -/

theorem declare_drawn {D : List QVar} (hd : 0 < d) {q : Query} (hq : q.comp = some q.encode) {K F : (VarRep → Bool) → Prop}
    (h : Draws d nodes D q.encode K F) : ∀ (xs : List QVar), (declare xs q).comp = some (declare xs q).encode ∧
      ∀ s, Outer d nodes [] s → (∀ x ∈ D, x ∈ xs ∨ Declared s x) → ∃ c s', (declare xs q).encode s = (.ok c, s') ∧
      Drawn s s' c (fun ν => (∀ x ∈ xs, ¬ Declared s x → ∃ e, Rd d ν x e) ∧ K ν) F ∧
      ∀ x ∈ xs, ¬ Declared s x → ∀ i < d, ∀ v ∈ featVals, Named s' ⟨x, (i : Nat), v⟩ := by
  intro xs
  induction xs with
  | nil =>
    refine ⟨hq, fun s hs hD => ?_⟩
    obtain ⟨c, s', e, k⟩ := h s ⟨hs.vm, hs.dim, hs.nodes, hs.scopes, hs.vars, fun x hx => (hD x hx).resolve_left (by simp)⟩
    exact ⟨c, s', e, Drawn2.congr k (fun ν => by simp) (fun _ => Iff.rfl) fun _ => Iff.rfl, by simp⟩
  | cons x xs ih =>
    refine ⟨rfl, fun s hs hD => ?_⟩
    obtain ⟨c1, s1, e1, h1, h2, h3⟩ := encodeI_drawn hd hs x
    obtain ⟨c2, s2, e2, h4, h5⟩ := ih.2 s1 (hs.keeps h1.keeps h1.vm h1.ext) fun y hy => by
      rw [h2]
      rcases hD y hy with hy | hy
      · rcases List.mem_cons.1 hy with rfl | hy
        · exact .inr (.inr rfl)
        · exact .inl hy
      · exact .inr (.inl hy)
    refine ⟨c1.conjunction c2, s2, ?_, Drawn2.congr (Drawn2.of_seq h1 h4).merge (fun ν => ?_) (fun ν => by simp) fun _ => Iff.rfl, ?_⟩
    · show encWithVar x (declare xs q).comp s = _
      rw [ih.1]
      refine wrapErr_ok ?_
      show (M.addVar x >>= fun _ => withVarBuild x (declare xs q).encode) s = _
      have e0 : M.addVar x s = (.ok (), s) := by
        show (Except.ok (), s.addVar x) = _
        rw [addVar_outer hs.scopes]
      rw [M_bind_ok e0, withVarBuild_eq, M_bind_ok e1, M_bind_ok e2]; rfl
    · simp only [List.mem_cons, forall_eq_or_imp, h2, and_assoc]
      refine and_congr_right fun hx => and_congr_left fun _ => ⟨fun k y hy hn => ?_, fun k y hy hn => k y hy fun h => hn (.inl h)⟩
      by_cases hyx : y = x
      · subst hyx; exact hx hn
      · exact k y hy (by simp [hn, hyx])
    · intro y hy hn i hi v hv
      by_cases hyx : y = x
      · subst hyx; exact h4.ext.named (h3 hn i hi v hv)
      · exact h5 y ((List.mem_cons.1 hy).resolve_left hyx) (by simp [h2, hn, hyx]) i hi v hv

theorem marks_apart (hq : Query.Marks d xs role q) : ∀ μ μ' : QVar → Nat → Prop, (∀ a, a ∉ xs → role a = none → ∀ u, μ a u ↔ μ' a u) → ∀ σ,
    (q.marked nodes σ μ ↔ q.marked nodes σ μ') ∧ (q.tells d nodes σ μ ↔ q.tells d nodes σ μ') := by
  intro μ μ' h σ
  have key : ∀ a, a ∉ xs → role a = none → μ a = μ' a := fun a ha hr => funext fun u => propext (h a ha hr u)
  induction q with
  | nil => exact absurd hq nofun
  | withVar x q ih => exact ih hq.2
  | forallG c q _ => exact absurd hq nofun
  | and q1 q2 ih1 ih2 =>
    exact ⟨and_congr (ih1 hq.1).1 (ih2 hq.2).1, and_congr (ih1 hq.1).2 (ih2 hq.2).2⟩
  | or q1 q2 ih1 ih2 =>
    exact ⟨and_congr (ih1 hq.1).1 (ih2 hq.2).1, or_congr (ih1 hq.1).2 (ih2 hq.2).2⟩
  | not q ih => exact ⟨(ih hq).1, not_congr (ih hq).2⟩
  | atom a =>
    cases a with
    | subs => exact ⟨Iff.rfl, Iff.rfl⟩
    | full => exact ⟨Iff.rfl, Iff.rfl⟩
    | cons => exact ⟨Iff.rfl, Iff.rfl⟩
    | isnode t g =>
      cases t with
      | const c => exact absurd hq nofun
      | var x =>
      cases g with
      | none => exact absurd hq nofun
      | some g =>
      unfold Query.marked Query.tells; rw [key _ hq.2.1 hq.2.2]; exact ⟨Iff.rfl, Iff.rfl⟩
    | allcomp t b g =>
      cases t with
      | const c => exact ⟨Iff.rfl, Iff.rfl⟩
      | var x =>
      cases g with
      | none => exact absurd hq nofun
      | some g =>
      unfold Query.marked Query.tells; rw [key _ hq.2.1 hq.2.2]; exact ⟨Iff.rfl, Iff.rfl⟩
    | lel => exact ⟨Iff.rfl, Iff.rfl⟩
    | dfs => exact absurd hq nofun
    | hepr => exact ⟨Iff.rfl, Iff.rfl⟩
    | leh => exact ⟨Iff.rfl, Iff.rfl⟩

theorem marks_said (hd : 0 < d) (hv : Valid d nodes) (hne : nodes ≠ []) {q : Query} (hq : q.Marks d xs role) {s : Ctx} (hs : Outer d nodes [] s)
    (hf : ∀ x ∈ xs, ¬ Declared s x) : ∃ c s', (declare xs q).encode s = (.ok c, s') ∧ WF c ∧
      Says d xs (fun σ => ∃ μ, q.marked nodes σ μ ∧ q.tells d nodes σ μ) s' c ∧ Outer d nodes [] s' ∧
      ∀ n ∈ xs, ∀ i < d, ∀ k ∈ featVals, Named s' ⟨n, (i : Nat), k⟩ := by
  classical
  obtain ⟨hc, K, F, hD, hK⟩ := query_marked (xs := xs) hd hv hne hq
  obtain ⟨c, s', e, h, hn⟩ := (declare_drawn hd hc hD xs).2 s hs fun x hx => .inl hx
  have ne : ∀ β, ConTrue β {} := fun β => by simp [ConTrue]
  have dec : ∀ β, Models β c → ∃ σ, (∃ μ, q.marked nodes σ μ ∧ q.tells d nodes σ μ) ∧ ∀ n ∈ xs, Reads d s' β n (σ n) := by
    rintro β ⟨h1, h2⟩
    obtain ⟨k1, k2⟩ := h.con β h2 (ne β)
    have k3 := (h.sem1 β h2 (ne β)).1 h1
    let σ : Asg := fun n => if hx : n ∈ xs then (k1 n hx (hf n hx)).choose else bot
    have hr : ∀ n ∈ xs, Rd d (symVal s' β) n (σ n) := by
      intro n hx
      simp only [σ, dif_pos hx]
      exact (k1 n hx (hf n hx)).choose_spec
    obtain ⟨m1, -⟩ := hK (symVal s' β) σ hr
    exact ⟨σ, ⟨_, (m1 k2).1, (m1 k2).2.1 k3⟩, hr⟩
  have enc : ∀ σ, (∃ μ, q.marked nodes σ μ ∧ q.tells d nodes σ μ) → ∃ β, Models β c ∧ ∀ n ∈ xs, Reads d s' β n (σ n) := by
    rintro σ ⟨μ, h1, h2⟩
    let ν : VarRep → Bool := fun vr => if vr.v ∈ xs then decide (valOf (σ vr.v vr.idx.toNat) = vr.val) else
      match role vr.v with
      | some ρ => ρ.mean d (.leaf 0 true) σ vr.idx vr.val
      | none => decide (μ vr.v vr.val.toNat)
    have hr : ∀ n ∈ xs, Rd d ν n (σ n) := by
      intro n hx i hi v hv
      simp [ν, hx]
    have hμ : ∀ a, a ∉ xs → role a = none → ∀ u, markOf ν a u ↔ μ a u := by
      intro a ha hn u
      simp [markOf, ν, ha, hn]
    have hcan : AsMeant d nodes xs role σ ν := by
      intro a ρ hρ ha i v _
      simp [ν, ha, hρ]
    obtain ⟨m1, m2⟩ := hK ν σ hr
    obtain ⟨n1, n2⟩ := marks_apart (nodes := nodes) hq _ _ hμ σ
    have k := m2 hcan (n1.2 h1)
    obtain ⟨β, hβ⟩ := exists_canon ⟨1, [], fun _ => False, fun _ => False, fun n _ i k => ν ⟨n, i, k⟩, fun _ => 0, fun _ => True, by omega,
      fun n hn => absurd hn id⟩ h.vm (σ := σ) trivial
    have hβ' : ∀ vr, Named s' vr → symVal s' β vr = ν vr := hβ.2
    obtain ⟨β', b1, b2, -⟩ := h.inv β ((h.localK _ _ hβ').2 ⟨fun x hx _ => ⟨_, hr x hx⟩, k⟩)
    have hβ2 : ∀ vr, Named s' vr → symVal s' β' vr = ν vr := fun vr hvr => (b1.symVal h.vm hvr).trans (hβ' vr hvr)
    refine ⟨β', ⟨(h.sem1 β' b2 (ne β')).2 ((h.local1 _ _ hβ2).2 ((m1 k).2.2 (n2.2 h2))), b2⟩, fun n hx i hi v hv => ?_⟩
    rw [hβ2 _ (hn n hx (hf n hx) i hi v hv)]
    exact hr n hx i hi v hv
  refine ⟨c, s', e, h.wf1, ⟨?_, dec, enc⟩, hs.keeps h.keeps h.vm h.ext, fun n hx => hn n hx (hf n hx)⟩
  constructor
  · rintro ⟨β, hβ⟩
    obtain ⟨σ, a, -⟩ := dec β hβ
    exact ⟨σ, a⟩
  · rintro ⟨σ, a⟩
    obtain ⟨β, b, -⟩ := enc σ a
    exact ⟨β, b⟩

theorem marks_says (hd : 0 < d) (hv : Valid d nodes) (hne : nodes ≠ []) {q : Query} (hq : q.Marks d xs role) {s : Ctx} (hs : Outer d nodes [] s)
    (hf : ∀ x ∈ xs, ¬ Declared s x) : ∃ c s', (declare xs q).encode s = (.ok c, s') ∧ WF c ∧
      Says d xs (fun σ => ∃ μ, q.marked nodes σ μ ∧ q.tells d nodes σ μ) s' c := by
  obtain ⟨c, s', h1, h2, h3, -⟩ := marks_said hd hv hne hq hs hf
  exact ⟨c, s', h1, h2, h3⟩

/-! ### markings -/

variable {A : Nat → Bool → Prop} {M : Nat → Prop} {u w : Nat}

theorem Marking.linked (h : Marking nodes A M) (hu : M u) (hl : Linked nodes A u w) : M w := by
  induction hl with
  | refl => exact hu
  | down _ he ha ih => exact (h.edge _ _ _ _ he).2 ⟨ih, ha⟩
  | up _ he ih => exact ((h.edge _ _ _ _ he).1 ih).1

/-- Only nodes that can be marked are marked. -/
theorem Marking.free (h : Marking nodes A M) (hu : M u) : Free nodes A u :=
  fun i f b j hl he => ((h.edge i f b j he).1 (h.linked hu hl)).2

/-- If the root and all nodes of a set can be marked, there is a least marking of them. -/
theorem marking_of {S : Nat → Prop} (h0 : Free nodes A 0) (hS : ∀ u, S u → Free nodes A u) :
    Marking nodes A fun w => Linked nodes A 0 w ∨ ∃ u, S u ∧ Linked nodes A u w := by
  refine ⟨.inl .refl, fun i f b j he => ⟨?_, ?_⟩⟩
  · rintro (h | ⟨u, hu, h⟩)
    · exact ⟨.inl (.up h he), h0 i f b j h he⟩
    · exact ⟨.inr ⟨u, hu, .up h he⟩, hS u hu i f b j h he⟩
  · rintro ⟨h | ⟨u, hu, h⟩, ha⟩
    · exact .inl (.down h he ha)
    · exact .inr ⟨u, hu, .down h he ha⟩

/-! ### diagrams -/

variable {T : DTree}

theorem laid_edges {i f : Nat} {z o : DTree} (h : LaysOut nodes (.node i f z o)) :
    Edge nodes i f false z.root ∧ Edge nodes i f true o.root := by
  obtain ⟨⟨m, h1, h2, h3, h4, h5⟩, -, -⟩ := h
  exact ⟨⟨m, h1, h2, h3, by simpa using h4⟩, ⟨m, h1, h2, h3, by simpa using h5⟩⟩

theorem Marking.hits (h : Marking nodes A M) : ∀ {T : DTree}, LaysOut nodes T → M T.root → Hits A u T → M u := by
  intro T
  induction T with
  | leaf i v => rintro - hr rfl; exact hr
  | node i f z o ihz iho =>
    intro hl hr hu
    obtain ⟨e1, e2⟩ := laid_edges hl
    rcases hu with rfl | ⟨ha, hu⟩ | ⟨ha, hu⟩
    · exact hr
    · exact ihz hl.2.1 ((h.edge _ _ _ _ e1).2 ⟨hr, ha⟩) hu
    · exact iho hl.2.2 ((h.edge _ _ _ _ e2).2 ⟨hr, ha⟩) hu

theorem Marking.up (h : Marking nodes A M) : ∀ {T : DTree}, LaysOut nodes T → M u → u ∈ T.indexes → M T.root ∧ Hits A u T := by
  intro T
  induction T with
  | leaf i v =>
    intro _ hu hm
    obtain rfl : u = i := by simpa [DTree.indexes] using hm
    exact ⟨hu, rfl⟩
  | node i f z o ihz iho =>
    intro hl hu hm
    obtain ⟨e1, e2⟩ := laid_edges hl
    simp only [DTree.indexes, List.mem_cons, List.mem_append] at hm
    rcases hm with rfl | hm | hm
    · exact ⟨hu, .inl rfl⟩
    · obtain ⟨a, b⟩ := ihz hl.2.1 hu hm
      obtain ⟨c, d⟩ := (h.edge _ _ _ _ e1).1 a
      exact ⟨c, .inr (.inl ⟨d, b⟩)⟩
    · obtain ⟨a, b⟩ := iho hl.2.2 hu hm
      obtain ⟨c, d⟩ := (h.edge _ _ _ _ e2).1 a
      exact ⟨c, .inr (.inr ⟨d, b⟩)⟩

/-- If all nodes can be reached, there is no choice. -/
theorem Marking.hits_iff (h : Marking nodes A M) (hl : LaysOut nodes T) (h0 : T.root = 0) (hC : Covers nodes T) (hu : u < nodes.length) :
    M u ↔ Hits A u T :=
  ⟨fun k => (h.up hl k (hC u hu)).2, fun k => h.hits hl (h0 ▸ h.root) k⟩

theorem laid_valid : ∀ {T : DTree}, LaysOut nodes T → (∀ f ∈ T.feats, f < d) → ∀ i ∈ T.indexes, ∀ m, nodes[i]? = some m → m.isLeaf = false →
    0 ≤ m.feat ∧ m.feat < d ∧ 0 ≤ m.zChild ∧ m.zChild < nodes.length ∧ 0 ≤ m.oChild ∧ m.oChild < nodes.length := by
  intro T
  induction T with
  | leaf j v =>
    rintro ⟨m', h1, h2, -⟩ _ i hi m hm hf
    obtain rfl : i = j := by simpa [DTree.indexes] using hi
    rw [h1, Option.some.injEq] at hm
    subst hm
    rw [show m'.isLeaf = true from h2] at hf
    exact absurd hf (by simp)
  | node j f z o ihz iho =>
    rintro ⟨⟨m', h1, h2, h3, h4, h5⟩, hz, ho⟩ hr i hi m hm hf
    simp only [DTree.feats, List.mem_cons, List.mem_append] at hr
    simp only [DTree.indexes, List.mem_cons, List.mem_append] at hi
    rcases hi with rfl | hi | hi
    · rw [h1, Option.some.injEq] at hm
      subst hm
      have := hr f (.inl rfl)
      have := laysOut_lt hz z.root (root_mem z)
      have := laysOut_lt ho o.root (root_mem o)
      omega
    · exact ihz hz (fun f h => hr f (.inr (.inl h))) i hi m hm hf
    · exact iho ho (fun f h => hr f (.inr (.inr h))) i hi m hm hf

theorem diagram_valid (hD : IsDiagram d nodes T) (hC : Covers nodes T) : Valid d nodes := fun i m hm hf =>
  laid_valid hD.laid hD.range i (hC i (List.getElem?_eq_some_iff.1 hm).1) m hm hf

theorem diagram_ne (hD : IsDiagram d nodes T) : nodes ≠ [] := by
  have := laysOut_lt hD.laid T.root (root_mem T)
  intro h
  simp [h] at this

/-- What a query tells about the markings of an instance is what it means. -/
theorem tells_diagram (hD : IsDiagram d nodes T) (hC : Covers nodes T) {q : Query} (hq : q.Marks d xs role) (σ : Asg) (μ : QVar → Nat → Prop)
    (hm : q.marked nodes σ μ) : q.tells d nodes σ μ ↔ q.sem d T (fun _ => 0) σ [] := by
  have hv := diagram_valid hD hC
  have hres : ∀ t : Term, (t.res (fun _ => 0) []).den σ = t.under σ := by
    intro t; cases t <;> simp [Term.res, RTerm.den, Term.under, suffix, resolve]
  induction q with
  | nil => exact absurd hq nofun
  | withVar x q ih => exact ih hq.2 hm
  | forallG c q _ => exact absurd hq nofun
  | and q1 q2 ih1 ih2 => exact and_congr (ih1 hq.1 hm.1) (ih2 hq.2 hm.2)
  | or q1 q2 ih1 ih2 => exact or_congr (ih1 hq.1 hm.1) (ih2 hq.2 hm.2)
  | not q ih => exact not_congr (ih hq hm)
  | atom a =>
    simp only [Query.sem, hres]
    cases a with
    | subs => exact Iff.rfl
    | full => exact Iff.rfl
    | cons => exact Iff.rfl
    | isnode t g =>
      cases t with
      | const c => exact absurd hq nofun
      | var x =>
      cases g with
      | none => exact absurd hq nofun
      | some g =>
      replace hm : Marking nodes (HasVal (σ x)) (μ (g x)) := hm
      have key : IsNode d T (σ x) ↔ ∀ f < d, σ x f = none ∨ HitsFeat (HasVal (σ x)) f T :=
        ⟨visits_of_isNode hD.once hD.range, isNode_of_visits⟩
      show (∀ f < d, σ x f = none ∨ ∃ i b j, Edge nodes i f b j ∧ μ (g x) i) ↔ IsNode d T (σ x)
      rw [key]
      refine forall_congr' fun f => forall_congr' fun hf => or_congr Iff.rfl ?_
      rw [← hitsFeat_iff hD.laid]
      constructor
      · rintro ⟨i, b, j, he, hi⟩
        obtain ⟨hlt, -, -⟩ := edge_of hv he
        obtain ⟨m, h1, h2, h3, -⟩ := he
        rw [getElem?_nodeAt hlt, Option.some.injEq] at h1
        subst h1
        exact ⟨i, hlt, h2, h3, (hm.hits_iff hD.laid hD.root hC hlt).1 hi⟩
      · rintro ⟨i, hlt, h2, h3, hi⟩
        obtain ⟨f', z, o, -, -, -, -, hz, ho⟩ := valid_node hv hlt h2
        exact ⟨i, false, z, ⟨_, getElem?_nodeAt hlt, h2, h3, by simpa using hz⟩, (hm.hits_iff hD.laid hD.root hC hlt).2 hi⟩
    | allcomp t b g =>
      cases t with
      | const c =>
        show _ ↔ AllComp d T b (den c.val)
        rw [← leafsAre_iff hD.once hD.range, ← follows_leafs hD.laid hD.range hD.root b]
        exact Iff.rfl
      | var x =>
      cases g with
      | none => exact absurd hq nofun
      | some g =>
      replace hm : Marking nodes (MayHave (σ x)) (μ (g x)) := hm
      show (∀ u n, nodes[u]? = some n → n.isLeaf = true → μ (g x) u → n.value = b) ↔ AllComp d T b (σ x)
      rw [← leafsAre_iff hD.once hD.range, leafsAre_hits hD.laid]
      constructor
      · intro h u hu h1 h2 h3
        exact h2 (h u _ (getElem?_nodeAt hu) h1 ((hm.hits_iff hD.laid hD.root hC hu).2 h3))
      · intro h u m hm' h1 h2
        obtain ⟨hu, -⟩ := List.getElem?_eq_some_iff.1 hm'
        rw [getElem?_nodeAt hu, Option.some.injEq] at hm'
        subst hm'
        exact Classical.byContradiction fun h3 => h u hu h1 h3 ((hm.hits_iff hD.laid hD.root hC hu).1 h2)
    | lel => exact Iff.rfl
    | dfs => exact absurd hq nofun
    | hepr => exact Iff.rfl
    | leh => exact Iff.rfl

end
end Goexpdt

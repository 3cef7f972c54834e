import Verif.Lemmas.CaptureAtom
/- Every predicate satisfies the contract of `Spec/Contract.lean`. -/
namespace Goexpdt
open Spec

variable {W : World} {T : DTree} {Γ : List QVar} {stack : List Scope}

theorem good_res {c : QConst} (h : (resolve stack c).length = W.dim ∧ ValidVals (resolve stack c)) :
    GoodVals W.dim ({ id := c.id, val := resolve stack c } : QConst).val := h

/-! ### subsumption -/

theorem subs_captures {t1 t2 : Term} (h : (Atom.subs t1 t2).Fits W.dim W.nodes T Γ stack) :
    Captures W Γ stack (Atom.subs t1 t2).encode
      (fun σ => (Atom.subs t1 t2).says W.dim T fun t => (t.res W.depth stack).den σ) := by
  have hc := h.consts
  have hx := h.vars
  cases t1 with
  | const c1 =>
    have h1 := good_res (hc c1 (by simp [Spec.Atom.consts, Spec.Term.consts]))
    cases t2 with
    | const c2 =>
      have h2 := good_res (hc c2 (by simp [Spec.Atom.consts, Spec.Term.consts]))
      refine .scopeConst c1 (.scopeConst c2 (.validate (by simp [h1.1, h2.1]) (.lift (indexed_upto (by simp [h1.1, h2.1])) ?_)))
      exact (Captures.pureBool _).congr fun σ => subsCC_iff _ _ _ h1 h2
    | var x =>
      have hx := hx x (by simp [Atom.vars, Term.vars])
      refine .scopeVar hx (.scopeConst c1 (.validate (by simp [h1.1]) (.dim ?_)))
      exact .emitS (subsConstVar_used h1 (instNames_of hx)) fun σ ν hr => subsConstVar_iff h1 (hr x hx)
  | var x =>
    have hx1 := hx x (by simp [Atom.vars, Term.vars])
    cases t2 with
    | const c2 =>
      have h2 := good_res (hc c2 (by simp [Spec.Atom.consts, Spec.Term.consts]))
      refine .scopeVar hx1 (.scopeConst c2 (.validate (by simp [h2.1]) (.dim ?_)))
      exact .emitS (subsVarConst_used (instNames_of hx1)) fun σ ν hr => subsVarConst_iff h2 (hr x hx1)
    | var y =>
      have hy := hx y (by simp [Atom.vars, Term.vars])
      refine .scopeVar hx1 (.scopeVar hy (.dim ?_))
      exact .emitS (subsVarVar_used (instNames_of hx1) (instNames_of hy))
        fun σ ν hr => subsVarVar_iff (hr x hx1) (hr y hy)

/-! ### lel -/

theorem Counter.ofRd {d : Nat} {ν : VarRep → Bool} {n cv : QVar} {e : PInst} (hd : 0 < d) (hr : Rd d ν n e) :
    ssTrue ν (varBotCountClauses d n cv) ↔ Counter d ν cv (fun i => (e i).isNone) := by
  rw [varBotCount_iff hd]
  have he : ∀ i < d, ν ⟨n, (i : Nat), BOT⟩ = (e i).isNone := by
    intro i hi
    rw [hr.bot hi]
    cases e i <;> rfl
  exact ⟨fun h => h.congr he, fun h => h.congr fun i hi => (he i hi).symm⟩

theorem lel_captures {t1 t2 : Term} {g : Option (QVar → QVar)} (h : (Atom.lel t1 t2 g).Fits W.dim W.nodes T Γ stack)
    (hu : ∀ u ∈ (Atom.lel t1 t2 g).uses W.depth stack, Plays W T u.1 u.2) :
    Captures W Γ stack (Atom.lel t1 t2 g).encode
      (fun σ => (Atom.lel t1 t2 g).says W.dim T fun t => (t.res W.depth stack).den σ) := by
  have hc := h.consts
  have hx := h.vars
  have hg := h.gens
  have hd := W.dim_pos
  cases t1 with
  | const c1 =>
    have h1 := good_res (hc c1 (by simp [Spec.Atom.consts, Spec.Term.consts]))
    cases t2 with
    | const c2 =>
      have h2 := good_res (hc c2 (by simp [Spec.Atom.consts, Spec.Term.consts]))
      refine .scopeConst c1 (.scopeConst c2 (.validate (by simp [h1.1, h2.1]) ?_))
      have e1 := botCount_eq _ h1
      have e2 := botCount_eq _ h2
      simp only [e1, e2]
      split
      · next hlt =>
        exact Captures.retFalse.congr fun σ => by
          have hlt' : numBot W.dim (den (resolve stack c1)) < numBot W.dim (den (resolve stack c2)) := hlt
          exact ⟨False.elim, fun h => absurd hlt' (Nat.not_lt.2 h)⟩
      · next hlt =>
        exact Captures.retTrue.congr fun σ => by
          have hlt' : ¬ numBot W.dim (den (resolve stack c1)) < numBot W.dim (den (resolve stack c2)) := hlt
          exact ⟨fun _ => Nat.not_lt.1 hlt', fun _ => trivial⟩
    | var x =>
      cases g with
      | none => simp [Spec.Atom.nilGen, Spec.Term.isVar] at hg
      | some g =>
      have hx := hx x (by simp [Atom.vars, Term.vars])
      have hp : Plays W T (g (W.nm stack x)) (.bots (W.nm stack x)) :=
        hu (g (W.nm stack x), .bots (W.nm stack x)) (by simp [Atom.uses, Term.res, World.nm])
      refine .scopeVar hx (.scopeConst c1 (.validate (by simp [h1.1]) (.dim ?_)))
      refine .emitC ?_ ?_ ?_
      · simp only [allOf, List.append_nil, usedOk_append]
        refine ⟨varBotCount_used hd (instNames_of hx) hp.1, ?_⟩
        simp only [lelConstVarSem, usedOk_map, List.mem_singleton, forall_eq]
        exact fun i _ => auxN hp.1 _ _
      · intro σ ν hr hcon
        simp only [conOf, semOf, List.append_nil] at hcon ⊢
        exact lelConstVar_iff hd h1 ((Counter.ofRd hd (hr x hx)).1 hcon)
      · intro σ hσ hr
        simp only [conOf, List.append_nil]
        exact (Counter.ofRd hd (hr x hx)).2 (hp.bots hσ)
  | var x =>
    have hx1 := hx x (by simp [Atom.vars, Term.vars])
    cases g with
    | none => simp [Spec.Atom.nilGen, Spec.Term.isVar] at hg
    | some g =>
    have hp : Plays W T (g (W.nm stack x)) (.bots (W.nm stack x)) :=
      hu (g (W.nm stack x), .bots (W.nm stack x)) (by simp [Atom.uses, Term.res, World.nm])
    cases t2 with
    | const c2 =>
      have h2 := good_res (hc c2 (by simp [Spec.Atom.consts, Spec.Term.consts]))
      refine .scopeVar hx1 (.scopeConst c2 (.validate (by simp [h2.1]) (.dim ?_)))
      refine .emitC ?_ ?_ ?_
      · simp only [allOf, List.append_nil, usedOk_append]
        refine ⟨varBotCount_used hd (instNames_of hx1) hp.1, ?_⟩
        simp only [lelVarConstSem, usedOk_map, List.mem_singleton, forall_eq]
        exact fun i _ => auxN hp.1 _ _
      · intro σ ν hr hcon
        simp only [conOf, semOf, List.append_nil] at hcon ⊢
        exact lelVarConst_iff hd h2 ((Counter.ofRd hd (hr x hx1)).1 hcon)
      · intro σ hσ hr
        simp only [conOf, List.append_nil]
        exact (Counter.ofRd hd (hr x hx1)).2 (hp.bots hσ)
    | var y =>
      have hy := hx y (by simp [Atom.vars, Term.vars])
      have hp2 : Plays W T (g (W.nm stack y)) (.bots (W.nm stack y)) :=
        hu (g (W.nm stack y), .bots (W.nm stack y)) (by simp [Atom.uses, Term.res, World.nm])
      refine .scopeVar hx1 (.scopeVar hy (.dim ?_))
      refine .emitC ?_ ?_ ?_
      · simp only [allOf, List.append_nil, usedOk_append]
        refine ⟨varBotCount_used hd (instNames_of hx1) hp.1, varBotCount_used hd (instNames_of hy) hp2.1, ?_⟩
        simp only [lelVarVarSem, usedOk_map, List.mem_cons, forall_eq_or_imp, List.mem_map]
        refine fun i _ => ⟨auxN hp.1 _ _, ?_⟩
        rintro l ⟨j, -, rfl⟩
        exact auxP hp2.1 _ _
      · intro σ ν hr hcon
        simp only [conOf, semOf, List.append_nil, ssTrue_append] at hcon ⊢
        exact lelVarVar_iff hd ((Counter.ofRd hd (hr x hx1)).1 hcon.1) ((Counter.ofRd hd (hr y hy)).1 hcon.2)
      · intro σ hσ hr
        simp only [conOf, List.append_nil, ssTrue_append]
        exact ⟨(Counter.ofRd hd (hr x hx1)).2 (hp.bots hσ), (Counter.ofRd hd (hr y hy)).2 (hp2.bots hσ)⟩

/-! ### isnode -/

theorem isnode_captures {t : Term} {g : Option (QVar → QVar)} (h : (Atom.isnode t g).Fits W.dim W.nodes T Γ stack)
    (hu : ∀ u ∈ (Atom.isnode t g).uses W.depth stack, Plays W T u.1 u.2) :
    Captures W Γ stack (Atom.isnode t g).encode
      (fun σ => (Atom.isnode t g).says W.dim T fun t => (t.res W.depth stack).den σ) := by
  obtain ⟨hT, hC⟩ := h.tree rfl
  have hne := tree_ne hT
  have hlen : ¬ W.nodes.length = 0 := by simpa using hne
  have hv := tree_valid hT hC
  cases t with
  | const c =>
    have h1 := good_res (h.consts c (by simp [Spec.Atom.consts, Spec.Term.consts]))
    refine .scopeConst c (.validate (by simp [h1.1]) (.dim (.nodes ?_)))
    rw [if_neg hlen]
    obtain ⟨vr, e1, e2⟩ := isnodeConst_tree hT h1
    refine .lift e1 ?_
    exact (Captures.pureBool _).congr fun σ => e2
  | var x =>
    have hx := h.vars x (by simp [Atom.vars, Term.vars])
    cases g with
    | none => have := h.gens; simp [Spec.Atom.nilGen, Spec.Term.isVar] at this
    | some g =>
    have hp : Plays W T (g (W.nm stack x)) (.onPath (W.nm stack x)) :=
      hu (g (W.nm stack x), .onPath (W.nm stack x)) (by simp [Atom.uses, World.nm])
    refine .nodes ?_
    rw [if_neg hlen]
    refine .dim (.scopeVar hx ?_)
    rw [if_neg (by simp [featsInRange_of hv])]
    refine .emitC ?_ ?_ ?_
    · simp only [allOf, List.append_nil, usedOk_append, usedOk_cons, List.mem_singleton, forall_eq]
      exact ⟨isnodeFclOrder_used (instNames_of hx) hp.1, isnodeFcl_used (instNames_of hx) hp.1,
        ⟨auxP hp.1 _ _, usedOk_nil⟩, isnodeProp_used hv (instNames_of hx) hp.1⟩
    · intro σ ν hr hcon
      simp only [conOf, semOf, List.append_nil] at hcon ⊢
      exact isnodeSem_iff hT (hr x hx) ((isnodeCon_iff hT hC (hr x hx)).1 hcon)
    · intro σ hσ hr
      simp only [conOf, List.append_nil]
      exact (isnodeCon_iff hT hC (hr x hx)).2 (hp.onPath hσ)

/-! ### full and cons -/

theorem full_captures {t : Term} (h : (Atom.full t).Fits W.dim W.nodes T Γ stack) :
    Captures W Γ stack (Atom.full t).encode
      (fun σ => (Atom.full t).says W.dim T fun t => (t.res W.depth stack).den σ) := by
  cases t with
  | const c =>
    have h1 := good_res (h.consts c (by simp [Spec.Atom.consts, Spec.Term.consts]))
    refine .scopeConst c (.validate (by simp [h1.1]) ?_)
    exact (Captures.pureBool _).congr fun σ => fullC_iff _ h1
  | var x =>
    have hx := h.vars x (by simp [Atom.vars, Term.vars])
    refine .scopeVar hx (.dim ?_)
    exact .emitS (varFull_used (instNames_of hx)) fun σ ν hr => varFull_iff (hr x hx)

theorem consRet_captures {c : QConst} {x : QVar} (hc : GoodVals W.dim c.val) (hx : x ∈ Γ) {Q : Asg → Prop}
    (hQ : ∀ σ, Q σ ↔ Cons W.dim (den c.val) (σ (W.nm stack x))) :
    Captures W Γ stack (consConstRet (consConstClauses W.dim c (W.nm stack x))) Q := by
  unfold consConstRet
  split
  · next h0 =>
    refine Captures.retTrue.congr fun σ => ?_
    rw [hQ]
    simp only [true_iff]
    have hnil := List.length_eq_zero_iff.1 h0
    intro i hi hne
    have : consConstClauses W.dim c (W.nm stack x) ≠ [] := by
      unfold consConstClauses
      intro hc'
      rw [List.flatMap_eq_nil_iff] at hc'
      have := hc' i (mem_rng.2 ⟨by omega, hi⟩)
      rw [if_neg (by rw [at_eq hc hi c rfl, valOf_bot]; exact hne)] at this
      simp at this
    exact absurd hnil this
  · refine .emitS (consConst_used (instNames_of hx)) fun σ ν hr => ?_
    rw [hQ]
    exact consConst_iff hc (hr x hx)

theorem cons_captures {t1 t2 : Term} (h : (Atom.cons t1 t2).Fits W.dim W.nodes T Γ stack) :
    Captures W Γ stack (Atom.cons t1 t2).encode
      (fun σ => (Atom.cons t1 t2).says W.dim T fun t => (t.res W.depth stack).den σ) := by
  have hc := h.consts
  have hx := h.vars
  cases t1 with
  | const c1 =>
    have h1 := good_res (hc c1 (by simp [Spec.Atom.consts, Spec.Term.consts]))
    cases t2 with
    | const c2 =>
      have h2 := good_res (hc c2 (by simp [Spec.Atom.consts, Spec.Term.consts]))
      refine .scopeConst c1 (.scopeConst c2 (.validate (by simp [h1.1, h2.1]) (.dim (.lift (indexed_upto (by simp [h1.1, h2.1])) ?_))))
      exact (Captures.pureBool _).congr fun σ => consCC_iff h1 h2
    | var x =>
      have hx := hx x (by simp [Atom.vars, Term.vars])
      refine .scopeConst c1 (.scopeVar hx (.validate (by simp [h1.1]) (.dim ?_)))
      exact consRet_captures h1 hx fun σ => Iff.rfl
  | var x =>
    have hx1 := hx x (by simp [Atom.vars, Term.vars])
    cases t2 with
    | const c2 =>
      have h2 := good_res (hc c2 (by simp [Spec.Atom.consts, Spec.Term.consts]))
      refine .scopeVar hx1 (.scopeConst c2 (.validate (by simp [h2.1]) (.dim ?_)))
      exact consRet_captures h2 hx1 fun σ => ⟨Cons.symm, Cons.symm⟩
    | var y =>
      have hy := hx y (by simp [Atom.vars, Term.vars])
      refine .scopeVar hx1 (.scopeVar hy (.dim ?_))
      exact .emitS (consVarVar_used (instNames_of hx1) (instNames_of hy))
        fun σ ν hr => consVarVar_iff (hr x hx1) (hr y hy)

/-! ### allcomp and dfs -/

theorem allcomp_captures {t : Term} {b : Bool} {g : Option (QVar → QVar)}
    (h : (Atom.allcomp t b g).Fits W.dim W.nodes T Γ stack)
    (hu : ∀ u ∈ (Atom.allcomp t b g).uses W.depth stack, Plays W T u.1 u.2) :
    Captures W Γ stack (Atom.allcomp t b g).encode
      (fun σ => (Atom.allcomp t b g).says W.dim T fun t => (t.res W.depth stack).den σ) := by
  obtain ⟨hT, hC⟩ := h.tree rfl
  have hne := tree_ne hT
  have hlen : ¬ W.nodes.length = 0 := by simpa using hne
  have hv := tree_valid hT hC
  cases t with
  | const c =>
    have h1 := good_res (h.consts c (by simp [Spec.Atom.consts, Spec.Term.consts]))
    refine .scopeConst c (.validate (by simp [h1.1]) (.dim (.nodes ?_)))
    rw [if_neg hlen]
    obtain ⟨r, e1, e2⟩ := allcompConst_tree hT h1 b
    refine .lift e1 ?_
    exact (Captures.pureBool _).congr fun σ => e2
  | var x =>
    have hx := h.vars x (by simp [Atom.vars, Term.vars])
    cases g with
    | none => have := h.gens; simp [Spec.Atom.nilGen, Spec.Term.isVar] at this
    | some g =>
    have hp : Plays W T (g (W.nm stack x)) (.reach (W.nm stack x)) :=
      hu (g (W.nm stack x), .reach (W.nm stack x)) (by simp [Atom.uses, World.nm])
    refine .nodes ?_
    rw [if_neg hlen]
    refine .scopeVar hx ?_
    refine .emitC (allcomp_used hv (instNames_of hx) hp.1 b) ?_ ?_
    · intro σ ν hr hcon
      exact allcompSem_iff hT b ((allcompCon_iff hT hC (hr x hx) b).1 hcon)
    · intro σ hσ hr
      exact (allcompCon_iff hT hC (hr x hx) b).2 (hp.reach hσ)

theorem dfs_captures {t : Term} (h : (Atom.dfs t).Fits W.dim W.nodes T Γ stack) :
    Captures W Γ stack (Atom.dfs t).encode
      (fun σ => (Atom.dfs t).says W.dim T fun t => (t.res W.depth stack).den σ) := by
  obtain ⟨hT, hC⟩ := h.tree rfl
  obtain ⟨ps, ns, e1, e2, e3, e4, e5⟩ := leafs_tree hT hC
  cases t with
  | const c =>
    have h1 := good_res (h.consts c (by simp [Spec.Atom.consts, Spec.Term.consts]))
    refine .scopeConst c (.validate (by simp [h1.1]) (.dim (.nodes (.lift e1 ?_))))
    simp only
    rw [if_neg e2]
    obtain ⟨b, f1, f2⟩ := dfsOuter_good h1 ns (fun n hn => e3 n (by simp [hn])) ps (fun p hp => e3 p (by simp [hp]))
    refine .lift f1 ?_
    exact (Captures.pureBool _).congr fun σ => f2.trans (dfs_iff' hT e4 e5).symm
  | var x =>
    have hx := h.vars x (by simp [Atom.vars, Term.vars])
    refine .scopeVar hx (.dim (.nodes (.lift e1 ?_)))
    simp only
    rw [if_neg e2]
    obtain ⟨cls, f1, f2, f3⟩ := dfsClauses_good (d := W.dim) (W.nm stack x)
      (ps.flatMap fun p => ns.map fun n => (p, n)) (by
        intro l hl
        simp only [List.mem_flatMap, List.mem_map] at hl
        obtain ⟨p, hp, n, hn, rfl⟩ := hl
        exact ⟨e3 p (by simp [hp]), e3 n (by simp [hn])⟩)
    refine .lift f1 (.emitS ?_ ?_)
    · intro vr hvr
      obtain ⟨i, hi, rfl⟩ := f2 vr hvr
      exact .inst (instNames_of hx) hi bot_mem
    · intro σ ν hr
      rw [f3 ν _ (hr x hx)]
      refine Iff.trans ?_ (dfs_iff' hT e4 e5).symm
      constructor
      · intro h p hp n hn
        exact h (p, n) (by simp only [List.mem_flatMap, List.mem_map]; exact ⟨p, hp, n, hn, rfl⟩)
      · intro h l hl
        simp only [List.mem_flatMap, List.mem_map] at hl
        obtain ⟨p, hp, n, hn, rfl⟩ := hl
        exact h p hp n hn

/-! ### hepr -/

theorem rank_sem {ν : VarRep → Bool} {r : QVar} {pref : List Int} {e1 e2 : PInst} (hne : pref ≠ [])
    (h : Rank ν r (pref.map Int.toNat) e1 e2) : ssTrue ν [[P r 0 0]] ↔ HEPR (pref.map Int.toNat) e1 e2 := by
  have := h 0 (by simpa using List.length_pos_iff.2 hne)
  simpa using this

theorem hepr_captures {t1 t2 : Term} {p : List Int} {g : Option (QVar → QVar → QVar → QVar)}
    (h : (Atom.hepr t1 t2 p g).Fits W.dim W.nodes T Γ stack)
    (hu : ∀ u ∈ (Atom.hepr t1 t2 p g).uses W.depth stack, Plays W T u.1 u.2) :
    Captures W Γ stack (Atom.hepr t1 t2 p g).encode
      (fun σ => (Atom.hepr t1 t2 p g).says W.dim T fun t => (t.res W.depth stack).den σ) := by
  have hc := h.consts
  have hx := h.vars
  have hg := h.gens
  have hpr := h.pref.1
  have hpne := h.prefne
  have hval := validatePref_ok.2 h.pref
  cases t1 with
  | const c1 =>
    have h1 := good_res (hc c1 (by simp [Spec.Atom.consts, Spec.Term.consts]))
    cases t2 with
    | const c2 =>
      have h2 := good_res (hc c2 (by simp [Spec.Atom.consts, Spec.Term.consts]))
      refine .dim (.lift hval (.scopeConst c1 (.scopeConst c2 (.validate (by simp [h1.1, h2.1])
        (.lift (indexed_ok (by simpa [h1.1, h2.1] using hpr)) ?_)))))
      split
      · next h0 =>
        refine Captures.retTrue.congr fun σ => ?_
        show True ↔ HEPR (p.map Int.toNat) _ _
        rw [List.length_eq_zero_iff.1 h0]
        simp [HEPR_nil]
      · exact (Captures.pureBool _).congr fun σ => heprCC_iff h1 h2 p hpr
    | var x =>
      cases g with
      | none => simp [Spec.Atom.nilGen, Spec.Term.isVar] at hg
      | some g =>
      have hne : p ≠ [] := hpne
      have hx := hx x (by simp [Atom.vars, Term.vars])
      have hp : Plays W T (g (prefVar p) (keyOf stack c1) (W.nm stack x))
          (.rank (p.map Int.toNat) (.vals (resolve stack c1)) (.name (W.nm stack x))) :=
        hu (_, _) (by simp [Atom.uses, Term.key, Term.res, World.nm])
      refine .dim (.lift hval (.scopeConst c1 (.scopeVar hx (.validate (by simp [h1.1])
        (.lift (indexed_ok (by simpa [h1.1] using hpr)) ?_)))))
      rw [if_neg (by simpa using hne)]
      refine .emitC ?_ ?_ ?_
      · simp only [allOf, List.append_nil, usedOk_append, usedOk_cons, List.mem_singleton, forall_eq]
        exact ⟨heprConstVar_used hpr (instNames_of hx) hp.1 hne, auxP hp.1 _ _, usedOk_nil⟩
      · intro σ ν hr hcon
        simp only [conOf, semOf, List.append_nil] at hcon ⊢
        exact rank_sem hne ((heprConstVarCon_iff hpr h1 (hr x hx) hne).1 hcon)
      · intro σ hσ hr
        simp only [conOf, List.append_nil]
        exact (heprConstVarCon_iff hpr h1 (hr x hx) hne).2 (hp.rank hσ)
  | var x =>
    have hx1 := hx x (by simp [Atom.vars, Term.vars])
    cases g with
    | none => simp [Spec.Atom.nilGen, Spec.Term.isVar] at hg
    | some g =>
    have hne : p ≠ [] := hpne
    cases t2 with
    | const c2 =>
      have h2 := good_res (hc c2 (by simp [Spec.Atom.consts, Spec.Term.consts]))
      have hp : Plays W T (g (prefVar p) (W.nm stack x) (keyOf stack c2))
          (.rank (p.map Int.toNat) (.name (W.nm stack x)) (.vals (resolve stack c2))) :=
        hu (_, _) (by simp [Atom.uses, Term.key, Term.res, World.nm])
      refine .dim (.lift hval (.scopeVar hx1 (.scopeConst c2 (.validate (by simp [h2.1])
        (.lift (indexed_ok (by simpa [h2.1] using hpr)) ?_)))))
      rw [if_neg (by simpa using hne)]
      refine .emitC ?_ ?_ ?_
      · simp only [allOf, List.append_nil, usedOk_append, usedOk_cons, List.mem_singleton, forall_eq]
        exact ⟨heprVarConst_used hpr (instNames_of hx1) hp.1 hne, auxP hp.1 _ _, usedOk_nil⟩
      · intro σ ν hr hcon
        simp only [conOf, semOf, List.append_nil] at hcon ⊢
        exact rank_sem hne ((heprVarConstCon_iff hpr h2 (hr x hx1) hne).1 hcon)
      · intro σ hσ hr
        simp only [conOf, List.append_nil]
        exact (heprVarConstCon_iff hpr h2 (hr x hx1) hne).2 (hp.rank hσ)
    | var y =>
      have hy := hx y (by simp [Atom.vars, Term.vars])
      have hp : Plays W T (g (prefVar p) (W.nm stack x) (W.nm stack y))
          (.rank (p.map Int.toNat) (.name (W.nm stack x)) (.name (W.nm stack y))) :=
        hu (_, _) (by simp [Atom.uses, Term.key, Term.res, World.nm])
      refine .dim (.lift hval (.scopeVar hx1 (.scopeVar hy ?_)))
      rw [if_neg (by simpa using hne)]
      refine .emitC ?_ ?_ ?_
      · simp only [allOf, List.append_nil, usedOk_append, usedOk_cons, List.mem_singleton, forall_eq]
        exact ⟨heprVarVar_used hpr (instNames_of hx1) (instNames_of hy) hp.1 hne, auxP hp.1 _ _, usedOk_nil⟩
      · intro σ ν hr hcon
        simp only [conOf, semOf, List.append_nil] at hcon ⊢
        exact rank_sem hne ((heprVarVarCon_iff hpr (hr x hx1) (hr y hy) hne).1 hcon)
      · intro σ hσ hr
        simp only [conOf, List.append_nil]
        exact (heprVarVarCon_iff hpr (hr x hx1) (hr y hy) hne).2 (hp.rank hσ)

/-! ### leh -/

theorem isFull_false {d : Nat} {c : QConst} (hc : GoodVals d c.val) (h : c.isFull = false) : ¬ Full d (den c.val) :=
  fun hf => by simp [(isFull_iff hc).2 hf] at h

theorem hdCC_ok {d : Nat} {c1 c2 : QConst} (h1 : GoodVals d c1.val) (h2 : GoodVals d c2.val) :
    hammingDistCC c1 c2 = .ok (hamming d (den c1.val) (den c2.val)) := by
  unfold hammingDistCC
  rw [if_neg (by simp [h1.1, h2.1]), hdCount_eq h1 h2]

theorem hdVC_ok {d : Nat} (hd : 0 < d) {c : QConst} (hc : GoodVals d c.val) (v cv : QVar) :
    hammingDistVC d v c cv = .ok (hdClauses d cv fun i => ⟨v, i, c.at i⟩) := by
  unfold hammingDistVC
  rw [validate_ok [c] (by simpa using hc.1)]
  simp only
  rw [indexed_ok (by have := hc.1; grind [mem_upto])]
  rfl

theorem hdVC_used {d : Nat} {I A : QVar → Prop} (hd : 0 < d) {c : QConst} (hc : GoodVals d c.val) {n cv : QVar}
    (hn : I n) (h : A cv) : UsedOk d I A (hdClauses d cv fun i => ⟨n, i, c.at i⟩) :=
  hdClauses_used hd (fun _ hi => .inst hn hi (at_mem hc hi)) h

theorem hdVV_used {d : Nat} {I A : QVar → Prop} (hd : 0 < d) {q cv : QVar}
    (hn : A q) (h : A cv) : UsedOk d I A (hammingDistVV d cv q) :=
  hdClauses_used hd (fun _ _ => .aux hn) h

theorem last_used {d : Nat} {I A : QVar → Prop} {cv : QVar} (h : A cv) (l u : Nat) :
    UsedOk d I A ((rng l u).map fun (i : Nat) => [N cv (d - 1) i]) := by
  simp only [usedOk_map, List.mem_singleton, forall_eq]
  exact fun i _ => auxN h _ _

theorem hdVV_full {d : Nat} {ν : VarRep → Bool} {n1 n2 q cv : QVar} {e1 e2 : PInst} (hd : 0 < d)
    (hr1 : Rd d ν n1 e1) (hr2 : Rd d ν n2 e2) (h1 : Full d e1) (h2 : Full d e2)
    (h : ssTrue ν (fullVarEqualClauses d n1 n2 q)) (h' : ssTrue ν (hammingDistVV d cv q)) :
    Counter d ν cv (fun i => e1 i != e2 i) := by
  refine ((hdClauses_iff hd).1 h').congr fun i hi => ?_
  rw [fullVarEqual_full hr1 hr2 h1 h2 h hi]
  by_cases e : e1 i = e2 i <;> simp [e]

theorem hdVV_of {d : Nat} {ν : VarRep → Bool} {q cv : QVar} {e1 e2 : PInst} (hd : 0 < d)
    (h : ∀ i < d, ν ⟨q, (i : Nat), 0⟩ = decide (e1 i = e2 i)) (h' : Counter d ν cv (fun i => e1 i != e2 i)) :
    ssTrue ν (hammingDistVV d cv q) := by
  refine (hdClauses_iff hd).2 (h'.congr fun i hi => ?_)
  simp only [h i hi]
  by_cases e : e1 i = e2 i <;> simp [e]

theorem leh_captures {t1 t2 t3 : Term} {g eg : Option (QVar → QVar → QVar)}
    (h : (Atom.leh t1 t2 t3 g eg).Fits W.dim W.nodes T Γ stack)
    (hu : ∀ u ∈ (Atom.leh t1 t2 t3 g eg).uses W.depth stack, Plays W T u.1 u.2) :
    Captures W Γ stack (Atom.leh t1 t2 t3 g eg).encode
      (fun σ => (Atom.leh t1 t2 t3 g eg).says W.dim T fun t => (t.res W.depth stack).den σ) := by
  have hc := h.consts
  have hx := h.vars
  have hg := h.gens
  have hd := W.dim_pos
  have hreg := h.regular
  cases t1 with
  | const c1 =>
    have h1 := good_res (hc c1 (by simp [Spec.Atom.consts, Spec.Term.consts]))
    cases t2 with
    | const c2 =>
      have h2 := good_res (hc c2 (by simp [Spec.Atom.consts, Spec.Term.consts]))
      cases t3 with
      | const c3 =>
        have h3 := good_res (hc c3 (by simp [Spec.Atom.consts, Spec.Term.consts]))
        refine .scopeConst c1 (.scopeConst c2 (.scopeConst c3 (.validate (by simp [h1.1, h2.1, h3.1]) ?_)))
        split
        · next hf =>
          refine Captures.retFalse.congr fun σ => ⟨False.elim, fun hs => ?_⟩
          obtain ⟨f1, f2, f3, -⟩ := hs
          have f1 := (isFull_iff h1).2 f1
          have f2 := (isFull_iff h2).2 f2
          have f3 := (isFull_iff h3).2 f3
          simp [f1, f2, f3] at hf
        · next hf =>
          simp only [Bool.or_eq_true, Bool.not_eq_true', not_or, Bool.not_eq_false] at hf
          rw [hdCC_ok h1 h2]
          simp only
          rw [hdCC_ok h1 h3]
          simp only
          have hff := (isFull_iff h1).1 hf.1.1
          have hff2 := (isFull_iff h2).1 hf.1.2
          have hff3 := (isFull_iff h3).1 hf.2
          split
          · next hlt =>
            refine Captures.retFalse.congr fun σ => ⟨False.elim, fun hs => ?_⟩
            exact absurd hs.2.2.2 (Nat.not_le.2 hlt)
          · next hlt =>
            exact Captures.retTrue.congr fun σ => ⟨fun _ => ⟨hff, hff2, hff3, Nat.not_lt.1 hlt⟩, fun _ => trivial⟩
      | var x =>
        have hx1 := hx x (by simp [Atom.vars, Term.vars])
        cases g with
        | none => simp [Spec.Atom.nilGen, Spec.Term.isVar] at hg
        | some g =>
        have hp : Plays W T (g (W.nm stack x) (keyOf stack c1)) (.dist (.name (W.nm stack x)) (.vals (resolve stack c1))) :=
          hu (_, _) (by simp [Atom.uses, World.nm])
        refine .dim (.scopeConst c1 (.scopeConst c2 (.scopeVar hx1 (.validate (by simp [h1.1, h2.1]) ?_))))
        split
        · next hf =>
          refine Captures.retFalse.congr fun σ => ⟨False.elim, fun hs => ?_⟩
          obtain ⟨f1, f2, f3, -⟩ := hs
          have f1 := (isFull_iff h1).2 f1
          have f2 := (isFull_iff h2).2 f2
          simp [f1, f2] at hf
        · next hf =>
          simp only [Bool.or_eq_true, Bool.not_eq_true', not_or, Bool.not_eq_false] at hf
          have f1 := (isFull_iff h1).1 hf.1
          have f2 := (isFull_iff h2).1 hf.2
          refine .lift (hdCC_ok h1 h2) ?_
          rw [if_neg (hreg f1 f2)]
          refine .lift (hdVC_ok hd h1 _ _) ?_
          rw [emitF_eq]
          refine .emitC ?_ ?_ ?_
          · simp only [allOf, List.append_nil, usedOk_append]
            exact ⟨varFull_used (instNames_of hx1), hdVC_used hd h1 (instNames_of hx1) hp.1, last_used hp.1 _ _⟩
          · intro σ ν hr hcon
            simp only [conOf, semOf, List.append_nil, ssTrue_append] at hcon ⊢
            have hk := (hdVC_iff hd h1 (hr x hx1)).1 hcon
            have hle := hamming_le W.dim (den (resolve stack c1)) (den (resolve stack c2))
            rw [varFull_iff (hr x hx1), last_ne_iff hd hk (Nat.le_succ_of_le hle)]
            show _ ↔ LEH W.dim (den (resolve stack c1)) (den (resolve stack c2)) (σ (W.nm stack x))
            have hcm := hamming_comm W.dim (σ (W.nm stack x)) (den (resolve stack c1))
            unfold hamming at hcm
            simp only [LEH, f1, f2, true_and, hcm]
            simp only [Nat.zero_le, true_and, Nat.not_lt]
            exact Iff.rfl
          · intro σ hσ hr
            simp only [conOf, List.append_nil]
            exact (hdVC_iff hd h1 (hr x hx1)).2 (hp.dist hσ)
    | var x =>
      have hx1 := hx x (by simp [Atom.vars, Term.vars])
      cases g with
      | none => simp [Spec.Atom.nilGen, Spec.Term.isVar] at hg
      | some g =>
      cases t3 with
      | const c3 =>
        have h3 := good_res (hc c3 (by simp [Spec.Atom.consts, Spec.Term.consts]))
        have hp : Plays W T (g (W.nm stack x) (keyOf stack c3)) (.dist (.name (W.nm stack x)) (.vals (resolve stack c1))) :=
          hu (_, _) (by simp [Atom.uses, World.nm])
        refine .dim (.scopeConst c1 (.scopeConst c3 (.scopeVar hx1 (.validate (by simp [h1.1, h3.1]) ?_))))
        split
        · next hf =>
          refine Captures.retFalse.congr fun σ => ⟨False.elim, fun hs => ?_⟩
          obtain ⟨f1, f2, f3, -⟩ := hs
          have f1 := (isFull_iff h1).2 f1
          have f3 := (isFull_iff h3).2 f3
          simp [f1, f3] at hf
        · next hf =>
          simp only [Bool.or_eq_true, Bool.not_eq_true', not_or, Bool.not_eq_false] at hf
          have f1 := (isFull_iff h1).1 hf.1
          have f3 := (isFull_iff h3).1 hf.2
          refine .lift (hdCC_ok h1 h3) ?_
          rw [if_neg (hreg f1 f3)]
          refine .lift (hdVC_ok hd h1 _ _) ?_
          rw [emitF_eq]
          refine .emitC ?_ ?_ ?_
          · simp only [allOf, List.append_nil, usedOk_append]
            exact ⟨varFull_used (instNames_of hx1), hdVC_used hd h1 (instNames_of hx1) hp.1, last_used hp.1 _ _⟩
          · intro σ ν hr hcon
            simp only [conOf, semOf, List.append_nil, ssTrue_append] at hcon ⊢
            have hk := (hdVC_iff hd h1 (hr x hx1)).1 hcon
            rw [varFull_iff (hr x hx1), last_ne_iff hd hk (Nat.le_refl _)]
            show _ ↔ LEH W.dim (den (resolve stack c1)) (σ (W.nm stack x)) (den (resolve stack c3))
            have hcm := hamming_comm W.dim (σ (W.nm stack x)) (den (resolve stack c1))
            have hle := hamming_le W.dim (σ (W.nm stack x)) (den (resolve stack c1))
            have f1' : Full W.dim (den (resolve stack c1)) := f1
            have f3' : Full W.dim (den (resolve stack c3)) := f3
            simp only [LEH, f1', f3', true_and, ← hcm]
            show _ ∧ ¬ (hamming W.dim (den (resolve stack c1)) (den (resolve stack c3)) + 1 ≤
              hamming W.dim (σ (W.nm stack x)) (den (resolve stack c1)) ∧
              hamming W.dim (σ (W.nm stack x)) (den (resolve stack c1)) < W.dim + 1) ↔ _
            refine and_congr Iff.rfl ?_
            omega
          · intro σ hσ hr
            simp only [conOf, List.append_nil]
            exact (hdVC_iff hd h1 (hr x hx1)).2 (hp.dist hσ)
      | var y =>
        have hy := hx y (by simp [Atom.vars, Term.vars])
        have hp : Plays W T (g (W.nm stack x) (keyOf stack c1)) (.dist (.name (W.nm stack x)) (.vals (resolve stack c1))) :=
          hu (_, _) (by simp [Atom.uses, World.nm])
        have hp' : Plays W T (g (W.nm stack y) (keyOf stack c1)) (.dist (.name (W.nm stack y)) (.vals (resolve stack c1))) :=
          hu (_, _) (by simp [Atom.uses, World.nm])
        refine .dim (.scopeConst c1 (.scopeVar hx1 (.scopeVar hy (.validate (by simp [h1.1]) ?_))))
        split
        · next hf =>
          refine Captures.retFalse.congr fun σ => ⟨False.elim, fun hs => ?_⟩
          have f1 := (isFull_iff h1).2 hs.1
          simp [f1] at hf
        · next hf =>
          simp only [Bool.not_eq_true', Bool.not_eq_false] at hf
          have f1 : Full W.dim (den (resolve stack c1)) := (isFull_iff h1).1 hf
          refine .lift (hdVC_ok hd h1 _ _) (.lift (hdVC_ok hd h1 _ _) ?_)
          refine .emitC ?_ ?_ ?_
          · simp only [allOf, List.append_nil, usedOk_append]
            exact ⟨varFull_used (instNames_of hx1), varFull_used (instNames_of hy),
              hdVC_used hd h1 (instNames_of hx1) hp.1, hdVC_used hd h1 (instNames_of hy) hp'.1, hdLeSem_used hp.1 hp'.1⟩
          · intro σ ν hr hcon
            simp only [conOf, semOf, List.append_nil, ssTrue_append] at hcon ⊢
            have hk := (hdVC_iff hd h1 (hr x hx1)).1 hcon.1
            have hk' := (hdVC_iff hd h1 (hr y hy)).1 hcon.2
            rw [varFull_iff (hr x hx1), varFull_iff (hr y hy), hdLeSem_iff hd hk hk']
            show _ ↔ LEH W.dim (den (resolve stack c1)) (σ (W.nm stack x)) (σ (W.nm stack y))
            simp only [LEH, f1, true_and, hamming_comm W.dim (den (resolve stack c1))]
            exact Iff.rfl
          · intro σ hσ hr
            simp only [conOf, List.append_nil, ssTrue_append]
            exact ⟨(hdVC_iff hd h1 (hr x hx1)).2 (hp.dist hσ), (hdVC_iff hd h1 (hr y hy)).2 (hp'.dist hσ)⟩
  | var x =>
    have hx1 := hx x (by simp [Atom.vars, Term.vars])
    cases g with
    | none => simp [Spec.Atom.nilGen, Spec.Term.isVar] at hg
    | some g =>
    cases t2 with
    | const c2 =>
      have h2 := good_res (hc c2 (by simp [Spec.Atom.consts, Spec.Term.consts]))
      cases t3 with
      | const c3 =>
        have h3 := good_res (hc c3 (by simp [Spec.Atom.consts, Spec.Term.consts]))
        have hp : Plays W T (g (W.nm stack x) (keyOf stack c2)) (.dist (.name (W.nm stack x)) (.vals (resolve stack c2))) :=
          hu (_, _) (by simp [Atom.uses, World.nm])
        have hp' : Plays W T (g (W.nm stack x) (keyOf stack c3)) (.dist (.name (W.nm stack x)) (.vals (resolve stack c3))) :=
          hu (_, _) (by simp [Atom.uses, World.nm])
        refine .dim (.scopeConst c2 (.scopeConst c3 (.scopeVar hx1 (.validate (by simp [h2.1, h3.1]) ?_))))
        split
        · next hf =>
          refine Captures.retFalse.congr fun σ => ⟨False.elim, fun hs => ?_⟩
          obtain ⟨f1, f2, f3, -⟩ := hs
          have f2 := (isFull_iff h2).2 f2
          have f3 := (isFull_iff h3).2 f3
          simp [f2, f3] at hf
        · next hf =>
          simp only [Bool.or_eq_true, Bool.not_eq_true', not_or, Bool.not_eq_false] at hf
          have f2 : Full W.dim (den (resolve stack c2)) := (isFull_iff h2).1 hf.1
          have f3 : Full W.dim (den (resolve stack c3)) := (isFull_iff h3).1 hf.2
          refine .lift (hdVC_ok hd h2 _ _) (.lift (hdVC_ok hd h3 _ _) ?_)
          rw [emitF_eq]
          refine .emitC ?_ ?_ ?_
          · simp only [allOf, List.append_nil, usedOk_append]
            exact ⟨varFull_used (instNames_of hx1),
              hdVC_used hd h2 (instNames_of hx1) hp.1, hdVC_used hd h3 (instNames_of hx1) hp'.1, hdLeSem_used hp.1 hp'.1⟩
          · intro σ ν hr hcon
            simp only [conOf, semOf, List.append_nil, ssTrue_append] at hcon ⊢
            have hk := (hdVC_iff hd h2 (hr x hx1)).1 hcon.1
            have hk' := (hdVC_iff hd h3 (hr x hx1)).1 hcon.2
            rw [varFull_iff (hr x hx1), hdLeSem_iff hd hk hk']
            show _ ↔ LEH W.dim (σ (W.nm stack x)) (den (resolve stack c2)) (den (resolve stack c3))
            simp only [LEH, f2, f3, true_and]
            exact Iff.rfl
          · intro σ hσ hr
            simp only [conOf, List.append_nil, ssTrue_append]
            exact ⟨(hdVC_iff hd h2 (hr x hx1)).2 (hp.dist hσ), (hdVC_iff hd h3 (hr x hx1)).2 (hp'.dist hσ)⟩
      | var y =>
        have hy := hx y (by simp [Atom.vars, Term.vars])
        cases eg with
        | none => simp [Spec.Atom.nilGen, Spec.Term.isVar] at hg
        | some eg =>
        have hp : Plays W T (g (W.nm stack x) (keyOf stack c2)) (.dist (.name (W.nm stack x)) (.vals (resolve stack c2))) :=
          hu (_, _) (by simp [Atom.uses, Term.res, Term.key, World.nm])
        have hp' : Plays W T (g (W.nm stack x) (W.nm stack y)) (.dist (.name (W.nm stack x)) (.name (W.nm stack y))) :=
          hu (_, _) (by simp [Atom.uses, Term.res, Term.key, World.nm])
        have he : Plays W T (eg (W.nm stack x) (W.nm stack y)) (.same (W.nm stack x) (W.nm stack y)) :=
          hu (_, _) (by simp [Atom.uses, Term.res, Term.key, World.nm])
        refine .dim (.scopeConst c2 (.scopeVar hx1 (.scopeVar hy (.validate (by simp [h2.1]) ?_))))
        split
        · next hf =>
          refine Captures.retFalse.congr fun σ => ⟨False.elim, fun hs => ?_⟩
          have f2 := (isFull_iff h2).2 hs.2.1
          simp [f2] at hf
        · next hf =>
          simp only [Bool.not_eq_true', Bool.not_eq_false] at hf
          have f2 : Full W.dim (den (resolve stack c2)) := (isFull_iff h2).1 hf
          refine .lift (hdVC_ok hd h2 _ _) ?_
          refine .emitC ?_ ?_ ?_
          · simp only [allOf, List.append_nil, usedOk_append]
            exact ⟨varFull_used (instNames_of hx1), varFull_used (instNames_of hy),
              hdVC_used hd h2 (instNames_of hx1) hp.1, fullVarEqual_used (instNames_of hx1) (instNames_of hy) he.1,
              hdVV_used hd he.1 hp'.1, hdVC_used hd h2 (instNames_of hx1) hp.1, hdLeSem_used hp.1 hp'.1⟩
          · intro σ ν hr hcon
            simp only [conOf, semOf, List.append_nil, ssTrue_append] at hcon ⊢
            have hk := (hdVC_iff hd h2 (hr x hx1)).1 hcon.2.2
            rw [varFull_iff (hr x hx1), varFull_iff (hr y hy)]
            show _ ↔ LEH W.dim (σ (W.nm stack x)) (den (resolve stack c2)) (σ (W.nm stack y))
            simp only [LEH, f2, true_and]
            refine and_congr_right fun ha => and_congr_right fun hb => ?_
            exact hdLeSem_iff hd hk (hdVV_full hd (hr x hx1) (hr y hy) ha hb hcon.1 hcon.2.1)
          · intro σ hσ hr
            simp only [conOf, List.append_nil, ssTrue_append]
            exact ⟨fullVarEqual_of (hr x hx1) (hr y hy) fun i hi => he.same hσ hi, hdVV_of hd (fun i hi => he.same hσ hi) (hp'.dist hσ),
              (hdVC_iff hd h2 (hr x hx1)).2 (hp.dist hσ)⟩
    | var y =>
      have hy := hx y (by simp [Atom.vars, Term.vars])
      cases eg with
      | none => cases t3 <;> simp [Spec.Atom.nilGen, Spec.Term.isVar] at hg
      | some eg =>
      have hp' : Plays W T (g (W.nm stack x) (W.nm stack y)) (.dist (.name (W.nm stack x)) (.name (W.nm stack y))) :=
        hu (_, _) (by simp [Atom.uses, Term.res, Term.key, World.nm])
      have he : Plays W T (eg (W.nm stack x) (W.nm stack y)) (.same (W.nm stack x) (W.nm stack y)) :=
        hu (_, _) (by simp [Atom.uses, Term.res, Term.key, World.nm])
      cases t3 with
      | const c3 =>
        have h3 := good_res (hc c3 (by simp [Spec.Atom.consts, Spec.Term.consts]))
        have hp : Plays W T (g (W.nm stack x) (keyOf stack c3)) (.dist (.name (W.nm stack x)) (.vals (resolve stack c3))) :=
          hu (_, _) (by simp [Atom.uses, Term.res, Term.key, World.nm])
        refine .dim (.scopeVar hx1 (.scopeVar hy (.scopeConst c3 (.validate (by simp [h3.1]) ?_))))
        split
        · next hf =>
          refine Captures.retFalse.congr fun σ => ⟨False.elim, fun hs => ?_⟩
          have f3 := (isFull_iff h3).2 hs.2.2.1
          simp [f3] at hf
        · next hf =>
          simp only [Bool.not_eq_true', Bool.not_eq_false] at hf
          have f3 : Full W.dim (den (resolve stack c3)) := (isFull_iff h3).1 hf
          refine .lift (hdVC_ok hd h3 _ _) ?_
          refine .emitC ?_ ?_ ?_
          · simp only [allOf, List.append_nil, usedOk_append]
            exact ⟨varFull_used (instNames_of hx1), varFull_used (instNames_of hy),
              hdVC_used hd h3 (instNames_of hx1) hp.1, fullVarEqual_used (instNames_of hx1) (instNames_of hy) he.1,
              hdVV_used hd he.1 hp'.1, hdVC_used hd h3 (instNames_of hx1) hp.1, hdLeSem_used hp'.1 hp.1⟩
          · intro σ ν hr hcon
            simp only [conOf, semOf, List.append_nil, ssTrue_append] at hcon ⊢
            have hk := (hdVC_iff hd h3 (hr x hx1)).1 hcon.2.2
            rw [varFull_iff (hr x hx1), varFull_iff (hr y hy)]
            show _ ↔ LEH W.dim (σ (W.nm stack x)) (σ (W.nm stack y)) (den (resolve stack c3))
            simp only [LEH, f3, true_and]
            refine and_congr_right fun ha => and_congr_right fun hb => ?_
            exact hdLeSem_iff hd (hdVV_full hd (hr x hx1) (hr y hy) ha hb hcon.1 hcon.2.1) hk
          · intro σ hσ hr
            simp only [conOf, List.append_nil, ssTrue_append]
            exact ⟨fullVarEqual_of (hr x hx1) (hr y hy) fun i hi => he.same hσ hi, hdVV_of hd (fun i hi => he.same hσ hi) (hp'.dist hσ),
              (hdVC_iff hd h3 (hr x hx1)).2 (hp.dist hσ)⟩
      | var z =>
        have hz := hx z (by simp [Atom.vars, Term.vars])
        have hp : Plays W T (g (W.nm stack x) (W.nm stack z)) (.dist (.name (W.nm stack x)) (.name (W.nm stack z))) :=
          hu (_, _) (by simp [Atom.uses, Term.res, Term.key, World.nm])
        have he' : Plays W T (eg (W.nm stack x) (W.nm stack z)) (.same (W.nm stack x) (W.nm stack z)) :=
          hu (_, _) (by simp [Atom.uses, Term.res, Term.key, World.nm])
        refine .dim (.scopeVar hx1 (.scopeVar hy (.scopeVar hz ?_)))
        refine .emitC ?_ ?_ ?_
        · simp only [allOf, List.append_nil, usedOk_append]
          exact ⟨varFull_used (instNames_of hx1), varFull_used (instNames_of hy), varFull_used (instNames_of hz),
            fullVarEqual_used (instNames_of hx1) (instNames_of hy) he.1,
            fullVarEqual_used (instNames_of hx1) (instNames_of hz) he'.1,
            hdVV_used hd he.1 hp'.1, hdVV_used hd he'.1 hp.1, hdLeSem_used hp'.1 hp.1⟩
        · intro σ ν hr hcon
          simp only [conOf, semOf, List.append_nil, ssTrue_append] at hcon ⊢
          rw [varFull_iff (hr x hx1), varFull_iff (hr y hy), varFull_iff (hr z hz)]
          show _ ↔ LEH W.dim (σ (W.nm stack x)) (σ (W.nm stack y)) (σ (W.nm stack z))
          simp only [LEH]
          refine and_congr_right fun ha => and_congr_right fun hb => and_congr_right fun hc => ?_
          exact hdLeSem_iff hd (hdVV_full hd (hr x hx1) (hr y hy) ha hb hcon.1 hcon.2.2.1)
            (hdVV_full hd (hr x hx1) (hr z hz) ha hc hcon.2.1 hcon.2.2.2)
        · intro σ hσ hr
          simp only [conOf, List.append_nil, ssTrue_append]
          exact ⟨fullVarEqual_of (hr x hx1) (hr y hy) fun i hi => he.same hσ hi,
            fullVarEqual_of (hr x hx1) (hr z hz) fun i hi => he'.same hσ hi,
            hdVV_of hd (fun i hi => he.same hσ hi) (hp'.dist hσ), hdVV_of hd (fun i hi => he'.same hσ hi) (hp.dist hσ)⟩

/-- Every predicate says what it should, in the vocabulary of instances. -/
theorem atom_captures {a : Atom} (h : a.Fits W.dim W.nodes T Γ stack)
    (hu : ∀ u ∈ a.uses W.depth stack, Plays W T u.1 u.2) :
    Captures W Γ stack a.encode (fun σ => a.says W.dim T fun t => (t.res W.depth stack).den σ) := by
  cases a with
  | subs t1 t2 => exact subs_captures h
  | lel t1 t2 g => exact lel_captures h hu
  | isnode t g => exact isnode_captures h hu
  | full t => exact full_captures h
  | cons t1 t2 => exact cons_captures h
  | allcomp t b g => exact allcomp_captures h hu
  | dfs t => exact dfs_captures h
  | hepr t1 t2 p g => exact hepr_captures h hu
  | leh t1 t2 t3 g e => exact leh_captures h hu

end Goexpdt

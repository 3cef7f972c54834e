import Verif.Lemmas.Own
import Verif.Lemmas.Diagram
import Verif.Spec.Repeats
/- Trees in which a path may decide on a feature several times. -/
namespace Goexpdt
open Spec Props

variable {d : Nat} {nodes : List Node} {T : DTree} {A : Nat → Bool → Prop} {e e' : PInst}

theorem hits_ways {u : Nat} : Hits A u T ↔ ∃ p ∈ T.ways, p.1 = u ∧ ∀ t ∈ p.2, A t.1 t.2 := by
  induction T with
  | leaf i v => simp [Hits, DTree.ways, eq_comm]
  | node i f z o ihz iho =>
    simp only [Hits, DTree.ways, ihz, iho, List.mem_cons, List.mem_append, List.mem_map]
    constructor
    · rintro (rfl | ⟨ha, p, hp, rfl, h⟩ | ⟨ha, p, hp, rfl, h⟩)
      · exact ⟨_, .inl rfl, rfl, by simp⟩
      · exact ⟨_, .inr (.inl ⟨p, hp, rfl⟩), rfl, by simpa [ha] using h⟩
      · exact ⟨_, .inr (.inr ⟨p, hp, rfl⟩), rfl, by simpa [ha] using h⟩
    · rintro ⟨p, (rfl | ⟨p, hp, rfl⟩ | ⟨p, hp, rfl⟩), rfl, h⟩
      · exact .inl rfl
      · simp only [List.mem_cons, forall_eq_or_imp] at h
        exact .inr (.inl ⟨h.1, p, hp, rfl, h.2⟩)
      · simp only [List.mem_cons, forall_eq_or_imp] at h
        exact .inr (.inr ⟨h.1, p, hp, rfl, h.2⟩)

theorem leafsAre_ways {b : Bool} : LeafsAre A b T ↔ ∀ p ∈ T.leafWays, (∀ t ∈ p.2, A t.1 t.2) → p.1 = b := by
  induction T with
  | leaf i v => simp [LeafsAre, DTree.leafWays]
  | node i f z o ihz iho =>
    simp only [LeafsAre, DTree.leafWays, ihz, iho, List.mem_append, List.mem_map]
    constructor
    · rintro ⟨h1, h2⟩ p (⟨p, hp, rfl⟩ | ⟨p, hp, rfl⟩) h
      · simp only [List.mem_cons, forall_eq_or_imp] at h
        exact h1 h.1 p hp h.2
      · simp only [List.mem_cons, forall_eq_or_imp] at h
        exact h2 h.1 p hp h.2
    · intro h
      refine ⟨fun ha p hp hp' => ?_, fun ha p hp hp' => ?_⟩
      · exact h (p.1, (f, false) :: p.2) (.inl ⟨p, hp, rfl⟩) (by simpa [ha] using hp')
      · exact h (p.1, (f, true) :: p.2) (.inr ⟨p, hp, rfl⟩) (by simpa [ha] using hp')

theorem ways_feats {p : Nat × List (Nat × Bool)} (hp : p ∈ T.ways) : ∀ t ∈ p.2, t.1 ∈ T.feats := by
  induction T generalizing p with
  | leaf i v => simp [DTree.ways] at hp; simp [hp]
  | node i f z o ihz iho =>
    simp only [DTree.ways, List.mem_cons, List.mem_append, List.mem_map] at hp
    rcases hp with rfl | ⟨p, hp, rfl⟩ | ⟨p, hp, rfl⟩
    · simp
    · simp only [List.mem_cons, forall_eq_or_imp, DTree.feats]
      exact ⟨by simp, fun t ht => by simp [ihz hp t ht]⟩
    · simp only [List.mem_cons, forall_eq_or_imp, DTree.feats]
      exact ⟨by simp, fun t ht => by simp [iho hp t ht]⟩

theorem leafWays_feats {p : Bool × List (Nat × Bool)} (hp : p ∈ T.leafWays) : ∀ t ∈ p.2, t.1 ∈ T.feats := by
  induction T generalizing p with
  | leaf i v => simp [DTree.leafWays] at hp; simp [hp]
  | node i f z o ihz iho =>
    simp only [DTree.leafWays, List.mem_append, List.mem_map] at hp
    rcases hp with ⟨p, hp, rfl⟩ | ⟨p, hp, rfl⟩
    · simp only [List.mem_cons, forall_eq_or_imp, DTree.feats]
      exact ⟨by simp, fun t ht => by simp [ihz hp t ht]⟩
    · simp only [List.mem_cons, forall_eq_or_imp, DTree.feats]
      exact ⟨by simp, fun t ht => by simp [iho hp t ht]⟩

theorem root_way : ∃ p ∈ T.ways, p.2 = [] := by cases T <;> simp [DTree.ways]

/-- An instance visits all its features iff it makes exactly the decisions on the way to a node. -/
theorem visits_iff_endsWay (hr : ∀ f ∈ T.feats, f < d) :
    (∀ f < d, e f = none ∨ HitsFeat (fun i b => e i = some b) f T) ↔ EndsWay d T e := by
  have key : ∀ T : DTree, (∀ f ∈ T.feats, f < d) → ∃ p ∈ T.ways, Takes e p.2 ∧
      ∀ f, e f ≠ none → (HitsFeat (fun i b => e i = some b) f T → ∃ b, (f, b) ∈ p.2) := by
    intro T hr
    induction T with
    | leaf i v => exact ⟨_, List.mem_singleton.2 rfl, by simp [Takes], by simp [HitsFeat]⟩
    | node i g z o ihz iho =>
      obtain ⟨p, hp, h1, h2⟩ := ihz fun f hf => hr f (by simp [DTree.feats, hf])
      obtain ⟨q, hq, h3, h4⟩ := iho fun f hf => hr f (by simp [DTree.feats, hf])
      rcases opt3 (e g) with hg | hg | hg
      · refine ⟨(i, []), by simp [DTree.ways], by simp [Takes], fun f hf h => ?_⟩
        simp only [HitsFeat, hg, reduceCtorEq, false_and, or_false] at h
        exact absurd (h ▸ hg) hf
      · refine ⟨(p.1, (g, false) :: p.2), ?_, ?_, fun f hf h => ?_⟩
        · simp only [DTree.ways, List.mem_cons, List.mem_append, List.mem_map]
          exact .inr (.inl ⟨p, hp, rfl⟩)
        · simpa [Takes, hg] using h1
        · simp only [HitsFeat, hg, true_and, Option.some.injEq, Bool.false_eq_true, false_and, or_false] at h
          rcases h with rfl | h
          · exact ⟨false, by simp⟩
          · obtain ⟨b, hb⟩ := h2 f hf h
            exact ⟨b, by simp [hb]⟩
      · refine ⟨(q.1, (g, true) :: q.2), ?_, ?_, fun f hf h => ?_⟩
        · simp only [DTree.ways, List.mem_cons, List.mem_append, List.mem_map]
          exact .inr (.inr ⟨q, hq, rfl⟩)
        · simpa [Takes, hg] using h3
        · simp only [HitsFeat, hg, true_and, Option.some.injEq, Bool.true_eq_false, false_and, false_or] at h
          rcases h with rfl | h
          · exact ⟨true, by simp⟩
          · obtain ⟨b, hb⟩ := h4 f hf h
            exact ⟨b, by simp [hb]⟩
  constructor
  · intro h
    obtain ⟨p, hp, h1, h2⟩ := key T hr
    refine ⟨p, hp, fun i hi b => ⟨fun hb => ?_, fun hb => h1 _ hb⟩⟩
    have hne : e i ≠ none := by simp [hb]
    obtain ⟨b', hb'⟩ := h2 i hne ((h i hi).resolve_left hne)
    have := h1 _ hb'
    simp only [hb, Option.some.injEq] at this
    exact this ▸ hb'
  · rintro ⟨p, hp, h⟩ f hf
    rcases hc : e f with - | b
    · exact .inl rfl
    · right
      have hm := (h f hf b).1 hc
      have ht : Takes e p.2 := fun t ht => (h t.1 (hr _ (ways_feats hp t ht)) t.2).2 ht
      clear h hc hr
      induction T generalizing p with
      | leaf i v => simp [DTree.ways] at hp; simp [hp] at hm
      | node i g z o ihz iho =>
        simp only [DTree.ways, List.mem_cons, List.mem_append, List.mem_map] at hp
        rcases hp with rfl | ⟨p, hp, rfl⟩ | ⟨p, hp, rfl⟩
        · simp at hm
        · simp only [Takes, List.mem_cons, forall_eq_or_imp] at ht hm
          rcases hm with hm | hm
          · exact .inl (congrArg Prod.fst hm)
          · exact .inr (.inl ⟨ht.1, ihz p hp hm ht.2⟩)
        · simp only [Takes, List.mem_cons, forall_eq_or_imp] at ht hm
          rcases hm with hm | hm
          · exact .inl (congrArg Prod.fst hm)
          · exact .inr (.inr ⟨ht.1, iho p hp hm ht.2⟩)

theorem onlyTo_same (hr : ∀ f ∈ T.feats, f < d) (b : Bool) (h : Same d e e') : OnlyTo T b e ↔ OnlyTo T b e' := by
  refine forall_congr' fun p => forall_congr' fun hp => ?_
  have : Allows e p.2 ↔ Allows e' p.2 :=
    forall_congr' fun t => forall_congr' fun ht => by rw [h _ (hr _ (leafWays_feats hp t ht))]
  rw [this]

theorem endsWay_same (h : Same d e e') : EndsWay d T e ↔ EndsWay d T e' :=
  exists_congr fun p => and_congr_right fun _ => forall_congr' fun i => forall_congr' fun hi => forall_congr' fun b => by rw [h i hi]

/-! ### the predicates meet the contract -/

variable {W : World} {Γ : List QVar} {stack : List Scope}

theorem isnode_captures_raw {t : Term} {g : Option (QVar → QVar)} (hT : IsRawTree W.dim W.nodes T) (hC : Covers W.nodes T)
    (hv : ∀ x ∈ t.vars, x ∈ Γ) (hc : ∀ c ∈ Spec.Term.consts t, GoodVals W.dim (resolve stack c)) (hg : Spec.Atom.nilGen (.isnode t g) = false)
    (hu : ∀ u ∈ (Atom.isnode t g).rawAux W.dim W.nodes T W.depth stack, Serves W u) :
    Captures W Γ stack (Atom.isnode t g).encode (fun σ => EndsWay W.dim T ((t.res W.depth stack).den σ)) := by
  have hne : W.nodes ≠ [] := fun h => by have := laysOut_lt hT.laid T.root (root_mem T); simp [h] at this
  have hlen : ¬ W.nodes.length = 0 := by simpa using hne
  have hva := raw_valid hT hC
  cases t with
  | const c =>
    have h1 := good_res (hc c (by simp [Spec.Term.consts]))
    refine .scopeConst c (.validate (by simp [h1.1]) (.dim (.nodes ?_)))
    rw [if_neg hlen]
    obtain ⟨vr, e1, e2⟩ := isnodeConst_raw hT h1
    refine .lift e1 ?_
    exact (Captures.pureBool _).congr fun σ => e2.trans (visits_iff_endsWay hT.range)
  | var x =>
    have hx := hv x (by simp [Term.vars])
    cases g with
    | none => simp [Spec.Atom.nilGen, Spec.Term.isVar] at hg
    | some g =>
    have hp := hu _ (List.mem_singleton.2 rfl)
    refine .nodes ?_
    rw [if_neg hlen]
    refine .dim (.scopeVar hx ?_)
    rw [if_neg (by simp [featsInRange_of hva])]
    refine .emitC ?_ ?_ ?_
    · simp only [allOf, List.append_nil, usedOk_append, usedOk_cons, List.mem_singleton, forall_eq]
      exact ⟨isnodeFclOrder_used (instNames_of hx) hp.1, isnodeFcl_used (instNames_of hx) hp.1,
        ⟨auxP hp.1 _ _, usedOk_nil⟩, isnodeProp_used hva (instNames_of hx) hp.1⟩
    · intro σ ν hr hcon
      simp only [conOf, semOf, List.append_nil] at hcon ⊢
      exact (isnodeSem_hits hT (hr x hx) ((isnodeCon_hits hT hC (hr x hx)).1 hcon)).trans (visits_iff_endsWay hT.range)
    · intro σ hσ hr
      simp only [conOf, List.append_nil]
      refine (isnodeCon_hits hT hC (hr x hx)).2 fun u hu => ?_
      have hm := hp.2 σ hσ 0 u ⟨rfl, by omega, by omega⟩
      simp only at hm
      show W.mean (g (x ++ suffix (stack.take (W.depth x)))) σ 0 u = true ↔ Hits _ u T
      rw [hits_ways, hm]
      simp only [decide_eq_true_eq, Int.ofNat_inj]
      rfl

theorem allcomp_captures_raw {t : Term} {b : Bool} {g : Option (QVar → QVar)} (hT : IsRawTree W.dim W.nodes T) (hC : Covers W.nodes T)
    (hv : ∀ x ∈ t.vars, x ∈ Γ) (hc : ∀ c ∈ Spec.Term.consts t, GoodVals W.dim (resolve stack c)) (hg : Spec.Atom.nilGen (.allcomp t b g) = false)
    (hu : ∀ u ∈ (Atom.allcomp t b g).rawAux W.dim W.nodes T W.depth stack, Serves W u) :
    Captures W Γ stack (Atom.allcomp t b g).encode (fun σ => OnlyTo T b ((t.res W.depth stack).den σ)) := by
  have hne : W.nodes ≠ [] := fun h => by have := laysOut_lt hT.laid T.root (root_mem T); simp [h] at this
  have hlen : ¬ W.nodes.length = 0 := by simpa using hne
  have hva := raw_valid hT hC
  cases t with
  | const c =>
    have h1 := good_res (hc c (by simp [Spec.Term.consts]))
    refine .scopeConst c (.validate (by simp [h1.1]) (.dim (.nodes ?_)))
    rw [if_neg hlen]
    obtain ⟨r, e1, e2⟩ := allcompConst_raw hT h1 b
    refine .lift e1 ?_
    exact (Captures.pureBool _).congr fun σ => e2.trans leafsAre_ways
  | var x =>
    have hx := hv x (by simp [Term.vars])
    cases g with
    | none => simp [Spec.Atom.nilGen, Spec.Term.isVar] at hg
    | some g =>
    have hp := hu _ (List.mem_singleton.2 rfl)
    refine .nodes ?_
    rw [if_neg hlen]
    refine .scopeVar hx ?_
    refine .emitC (allcomp_used hva (instNames_of hx) hp.1 b) ?_ ?_
    · intro σ ν hr hcon
      exact (allcompSem_hits hT b ((allcompCon_hits hT hC (hr x hx) b).1 hcon)).trans leafsAre_ways
    · intro σ hσ hr
      refine (allcompCon_hits hT hC (hr x hx) b).2 fun u hu => ?_
      have hm := hp.2 σ hσ 0 u ⟨rfl, by omega, by omega⟩
      simp only at hm
      show W.mean (g (x ++ suffix (stack.take (W.depth x)))) σ 0 u = true ↔ Hits _ u T
      rw [hits_ways, hm]
      simp only [decide_eq_true_eq, Int.ofNat_inj]
      rfl

/-! ### queries -/

theorem raw_comp (q : Query) : ∀ Γ, q.RawFits d nodes T Γ → q.comp = some (q.raw d nodes T).encode := by
  induction q with
  | nil => intro Γ h; exact h.elim
  | atom a => intro Γ _; rfl
  | and q1 q2 ih1 ih2 => intro Γ h; simp only [Query.comp, Query.raw, OQuery.encode, ih1 Γ h.1, ih2 Γ h.2]
  | or q1 q2 ih1 ih2 => intro Γ h; simp only [Query.comp, Query.raw, OQuery.encode, ih1 Γ h.1, ih2 Γ h.2]
  | not q ih => intro Γ h; simp only [Query.comp, Query.raw, OQuery.encode, ih Γ h]
  | withVar x q ih => intro Γ h; simp only [Query.comp, Query.raw, OQuery.encode, ih (x :: Γ) h]
  | forallG c q ih => intro Γ h; exact h.elim

theorem raw_fo (q : Query) : ∀ Γ env guards, q.RawFits d nodes T Γ → ((q.raw d nodes T).fo T env guards ↔ q.rawFo d T env guards) := by
  induction q with
  | nil => intro Γ _ _ h; exact h.elim
  | atom a => intro Γ _ _ _; rfl
  | and q1 q2 ih1 ih2 => intro Γ env guards h; exact and_congr (ih1 Γ env guards h.1) (ih2 Γ env guards h.2)
  | or q1 q2 ih1 ih2 => intro Γ env guards h; exact or_congr (ih1 Γ env guards h.1) (ih2 Γ env guards h.2)
  | not q ih => intro Γ env guards h; exact not_congr (ih Γ env guards h)
  | withVar x q ih => intro Γ env guards h; exact exists_congr fun e => ih (x :: Γ) _ guards h
  | forallG c q ih => intro Γ _ _ h; exact h.elim

/-- The skeleton of such a query declares the same variables. -/
theorem raw_names (q : Query) : ∀ stack, (q.raw d nodes T).skel.names d T stack = q.names d T stack := by
  induction q with
  | nil => intro _; rfl
  | atom a => intro _; rfl
  | and q1 q2 ih1 ih2 => intro stack; simp only [Query.raw, OQuery.skel, Query.names, ih1, ih2]
  | or q1 q2 ih1 ih2 => intro stack; simp only [Query.raw, OQuery.skel, Query.names, ih1, ih2]
  | not q ih => intro stack; simp only [Query.raw, OQuery.skel, Query.names, ih]
  | withVar x q ih => intro stack; simp only [Query.raw, OQuery.skel, Query.names, ih]
  | forallG c q ih => intro stack; simp only [Query.raw, OQuery.skel, Query.names, ih]

theorem raw_binders (q : Query) : (q.raw d nodes T).skel.binders = q.binders := by
  induction q <;> simp_all [Query.raw, OQuery.skel, Query.binders]

theorem raw_plain {q : Query} (h : q.Plain) : (q.raw d nodes T).skel.Plain := by
  refine ⟨?_, by rw [raw_binders]; exact h.distinct, by rw [raw_binders]; exact h.names, ?_⟩
  · have : ∀ q : Query, q.Positive → (q.raw d nodes T).skel.Positive := by
      intro q
      induction q <;> simp_all [Query.raw, OQuery.skel, Query.Positive, raw_binders]
    exact this q h.positive
  · have : ∀ (q : Query) l, q.GuardsApart l → (q.raw d nodes T).skel.GuardsApart l := by
      intro q
      induction q <;> simp_all [Query.raw, OQuery.skel, Query.GuardsApart]
    exact this q [] h.guards

end Goexpdt

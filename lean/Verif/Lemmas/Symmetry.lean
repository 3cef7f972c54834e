import Verif.Spec.Symmetry
import Verif.Lemmas.Fo
import Verif.Lemmas.OptimOrder
import Verif.Lemmas.Tidy
/- Symmetries. -/
namespace Goexpdt
namespace Symmetry
open Spec

variable {d : Nat} (S : Symmetry d) {T : DTree} {e e1 e2 e3 : PInst}

theorem range_inv (j : Nat) : S.inv j < d ↔ j < d := by rw [← S.range (S.inv j), S.right]

theorem forall_lt {P : Nat → Prop} : (∀ i < d, P i) ↔ ∀ j < d, P (S.inv j) :=
  ⟨fun h j hj => h _ ((S.range_inv j).2 hj), fun h i hi => by have := h (S.perm i) ((S.range i).2 hi); rwa [S.left] at this⟩

theorem inv_eq {i j : Nat} : S.inv j = i ↔ j = S.perm i := ⟨fun h => by rw [← h, S.right], fun h => by rw [h, S.left]⟩

theorem inv_inj {i j : Nat} (h : S.inv i = S.inv j) : i = j := by have := congrArg S.perm h; rwa [S.right, S.right] at this

theorem count_inv (p : Nat → Bool) : countFeats d (fun j => p (S.inv j)) = countFeats d p := by
  unfold countFeats
  have : ((List.range d).map S.inv).Perm (List.range d) := by
    refine (List.perm_ext_iff_of_nodup ?_ List.nodup_range).2 fun a => ?_
    · exact List.pairwise_map.2 (List.Pairwise.imp (fun h h' => h (S.inv_inj h')) List.nodup_range)
    · simp only [List.mem_map, List.mem_range]
      exact ⟨fun ⟨j, hj, e⟩ => e ▸ (S.range_inv j).2 hj, fun h => ⟨S.perm a, (S.range a).2 h, S.left a⟩⟩
  rw [← this.countP_eq p, List.countP_map]
  rfl

/-! ### instances -/

theorem inst_none {j : Nat} : S.inst e j = none ↔ e (S.inv j) = none := by simp [inst]

theorem inst_eq {j : Nat} : S.inst e1 j = S.inst e2 j ↔ e1 (S.inv j) = e2 (S.inv j) := by
  simp only [inst]
  cases e1 (S.inv j) <;> cases e2 (S.inv j) <;> simp

theorem inst_bot : S.inst bot = bot := rfl

theorem inst_set {f : Nat} {b : Bool} : S.inst (e.set f b) = (S.inst e).set (S.perm f) (S.flip f ^^ b) := by
  funext j
  simp only [inst, PInst.set, S.inv_eq]
  by_cases h : j = S.perm f
  · subst h; simp [S.left]
  · simp [h]

theorem inst_surj (e' : PInst) : ∃ e, S.inst e = e' := by
  refine ⟨fun i => (e' (S.perm i)).map (S.flip i ^^ ·), ?_⟩
  funext j
  simp only [inst, S.right]
  cases e' j <;> simp

theorem total_surj (x' : Nat → Bool) : ∃ x, S.total x = x' := by
  refine ⟨fun i => S.flip i ^^ x' (S.perm i), ?_⟩
  funext j
  simp [total, S.right]

theorem same_iff : Same d (S.inst e1) (S.inst e2) ↔ Same d e1 e2 := by
  unfold Same
  rw [S.forall_lt (P := fun i => e1 i = e2 i)]
  simp only [inst_eq]

/-! ### the tree -/

theorem forall_nodeInsts {P : PInst → Prop} : ∀ (T : DTree) (e : PInst),
    (∀ p ∈ (S.tree T).nodeInsts (S.inst e), P p.2) ↔ ∀ p ∈ T.nodeInsts e, P (S.inst p.2)
  | .leaf i v, e => by simp [tree, DTree.nodeInsts]
  | .node i f z o, e => by
    have hz := forall_nodeInsts (P := P) z (e.set f false)
    have ho := forall_nodeInsts (P := P) o (e.set f true)
    rw [inst_set] at hz ho
    cases hf : S.flip f <;>
      simp only [hf, Bool.false_xor, Bool.true_xor, Bool.not_true, Bool.not_false] at hz ho <;>
      simp only [tree, hf, if_true, Bool.false_eq_true, if_false, DTree.nodeInsts, List.mem_cons, List.mem_append, or_imp, forall_and,
        forall_eq, hz, ho] <;> grind

theorem classify (x : Nat → Bool) : ∀ T : DTree, (S.tree T).classify (S.total x) = (S.cls ^^ T.classify x)
  | .leaf i v => rfl
  | .node i f z o => by
    have hz := classify x z
    have ho := classify x o
    have hx : S.total x (S.perm f) = (S.flip f ^^ x f) := by simp [total, S.left]
    cases hf : S.flip f <;> cases hv : x f <;> simp [tree, hf, DTree.classify, hx, hv, hz, ho]

/-! ### predicates -/

theorem subsumes : Subsumes d (S.inst e1) (S.inst e2) ↔ Subsumes d e1 e2 := by
  unfold Subsumes
  rw [S.forall_lt (P := fun i => e1 i ≠ none → e1 i = e2 i)]
  simp only [inst_eq, ne_eq, inst_none]

theorem cons : Cons d (S.inst e1) (S.inst e2) ↔ Cons d e1 e2 := by
  unfold Cons
  rw [S.forall_lt (P := fun i => e1 i ≠ none → e2 i ≠ none → e1 i = e2 i)]
  simp only [inst_eq, ne_eq, inst_none]

theorem full : Full d (S.inst e) ↔ Full d e := by
  unfold Full
  rw [S.forall_lt (P := fun i => e i ≠ none)]
  simp only [ne_eq, inst_none]

theorem numBot : numBot d (S.inst e) = Spec.numBot d e := by
  unfold Spec.numBot
  rw [← S.count_inv fun i => (e i).isNone]
  congr 1
  funext j
  simp [inst]

theorem hamming : hamming d (S.inst e1) (S.inst e2) = Spec.hamming d e1 e2 := by
  unfold Spec.hamming
  rw [← S.count_inv fun i => e1 i != e2 i]
  congr 1
  funext j
  have := S.inst_eq (e1 := e1) (e2 := e2) (j := j)
  by_cases h : S.inst e1 j = S.inst e2 j
  · simp [h, this.1 h]
  · rw [bne_iff_ne.2 h, bne_iff_ne.2 fun h' => h (this.2 h')]

theorem isNode : IsNode d (S.tree T) (S.inst e) ↔ IsNode d T e := by
  unfold IsNode
  have := S.forall_nodeInsts (P := fun e' => ¬ Same d e' (S.inst e)) T bot
  rw [inst_bot] at this
  simp only [same_iff] at this
  grind

theorem completes {x : Nat → Bool} : Completes d (S.total x) (S.inst e) ↔ Completes d x e := by
  unfold Completes
  rw [S.forall_lt (P := fun i => ∀ b, e i = some b → x i = b)]
  refine forall_congr' fun j => forall_congr' fun _ => ?_
  simp only [inst, total]
  cases e (S.inv j) with
  | none => simp
  | some c => cases c <;> cases S.flip (S.inv j) <;> simp

theorem allComp {b : Bool} : AllComp d (S.tree T) (S.cls ^^ b) (S.inst e) ↔ AllComp d T b e := by
  unfold AllComp
  constructor
  · intro h x hx
    have := h (S.total x) (S.completes.2 hx)
    rw [S.classify] at this
    simpa using this
  · intro h x' hx
    obtain ⟨x, rfl⟩ := S.total_surj x'
    rw [S.classify, h x (S.completes.1 hx)]

theorem dfs : DFS d (S.tree T) (S.inst e) ↔ DFS d T e := by
  unfold DFS
  have hE : ∀ e', (∃ b, AllComp d (S.tree T) b (S.inst e')) ↔ ∃ b, AllComp d T b e' := fun e' =>
    ⟨fun ⟨b, h⟩ => ⟨S.cls ^^ b, (S.allComp (b := S.cls ^^ b)).1 (by simpa using h)⟩, fun ⟨b, h⟩ => ⟨_, S.allComp.2 h⟩⟩
  have hN : ∀ e', (∀ i < d, S.inst e' i = none ↔ S.inst e i = none) ↔ ∀ i < d, e' i = none ↔ e i = none := fun e' => by
    rw [S.forall_lt (P := fun i => e' i = none ↔ e i = none)]
    simp only [inst_none]
  constructor
  · intro h e' he
    exact (hE e').1 (h _ ((hN e').2 he))
  · intro h e'' he
    obtain ⟨e', rfl⟩ := S.inst_surj e''
    exact (hE e').2 (h _ ((hN e').1 he))

theorem hepr {p : List Nat} : HEPR (p.map S.perm) (S.inst e1) (S.inst e2) ↔ HEPR p e1 e2 := by
  unfold HEPR
  constructor
  · intro h pre f post hp hpre
    have := h (pre.map S.perm) (S.perm f) (post.map S.perm) (by rw [hp]; simp) (by
      intro g hg
      obtain ⟨k, hk, rfl⟩ := List.mem_map.1 hg
      simpa [inst_none, S.left] using hpre k hk)
    simpa [inst_none, S.left] using this
  · intro h pre f post hp hpre
    have hp' : p = pre.map S.inv ++ S.inv f :: post.map S.inv := by
      have := congrArg (List.map S.inv) hp
      rw [List.map_map] at this
      have hid : (S.inv ∘ S.perm) = id := by funext i; simp [S.left]
      rw [hid] at this
      simpa using this
    have := h _ _ _ hp' (by
      intro g hg
      obtain ⟨k, hk, rfl⟩ := List.mem_map.1 hg
      simpa [inst_none] using hpre k hk)
    simpa [inst_none] using this

theorem leh : LEH d (S.inst e1) (S.inst e2) (S.inst e3) ↔ LEH d e1 e2 e3 := by
  unfold LEH
  rw [full, full, full, hamming, hamming]

/-- Predicates say the same. -/
theorem says {a : Atom} {ρ ρ' : Term → PInst} (hp : a.PrefOk d) (h : ∀ t, Same d (ρ' (S.term t)) (S.inst (ρ t))) :
    (S.atom a).says d (S.tree T) ρ' ↔ a.says d T ρ := by
  cases a <;> simp only [atom, Atom.says]
  · exact (subsumes_same (h _) (h _)).trans S.subsumes
  · unfold LEL; rw [numBot_same (h _), numBot_same (h _), S.numBot, S.numBot]
  · exact (isNode_same (h _)).trans S.isNode
  · exact (full_same (h _)).trans S.full
  · exact (cons_same (h _) (h _)).trans S.cons
  · exact (allComp_same (h _)).trans S.allComp
  · exact (dfs_same (h _)).trans S.dfs
  · rename_i t1 t2 p g
    have hm : (S.pref p).map Int.toNat = (p.map Int.toNat).map S.perm := by simp [pref]
    rw [hm]
    refine (hepr_same ?_ (h _) (h _)).trans S.hepr
    intro i hi
    simp only [List.mem_map] at hi
    obtain ⟨_, ⟨k, hk, rfl⟩, rfl⟩ := hi
    have := hp.1 k hk
    rw [S.range]
    omega
  · exact (leh_same (h _) (h _) (h _)).trans S.leh

/-! ### constants -/

theorem featDen_other (v : FeatV) : featDen (other v) = (featDen v).map (true ^^ ·) := by
  unfold featDen other
  by_cases h1 : v = BOT
  · simp [h1]
  · by_cases h2 : v = ZERO
    · simp [h2, BOT, ZERO, ONE]
    · simp only [h1, h2, if_false]; rfl

theorem den_vals (vs : List FeatV) : Same d (den (S.vals vs)) (S.inst (den vs)) := by
  intro j hj
  have h0 : den vs (S.inv j) = featDen (vs.getD (S.inv j) BOT) := by
    unfold den
    cases h : vs[S.inv j]? with
    | none => simp [List.getD, h, featDen]
    | some v => simp [List.getD, h]
  simp only [inst, h0]
  simp only [den, vals, List.getElem?_map, List.getElem?_range hj, Option.map_some]
  cases S.flip (S.inv j) with
  | false => simp
  | true => simp [featDen_other]

theorem vals_good {vs : List FeatV} (h : GoodVals d vs) : GoodVals d (S.vals vs) := by
  refine ⟨by simp [vals], fun v hv => ?_⟩
  simp only [vals, List.mem_map, List.mem_range] at hv
  obtain ⟨j, hj, rfl⟩ := hv
  have hl : S.inv j < vs.length := by rw [h.1]; exact (S.range_inv j).2 hj
  have := h.2 (vs.getD (S.inv j) BOT) (by simp [List.getD, hl])
  split
  · unfold other; grind
  · exact this

theorem valsOf_same (h : Same d e1 e2) : valsOf d e1 = valsOf d e2 :=
  List.map_congr_left fun i hi => by rw [h i (List.mem_range.1 hi)]

theorem vals_surj {vs : List FeatV} (h : GoodVals d vs) : ∃ b, GoodVals d b ∧ S.vals b = vs := by
  obtain ⟨e, he⟩ := S.inst_surj (den vs)
  refine ⟨valsOf d e, valsOf_good d e, ?_⟩
  have h1 : Same d (den (valsOf d e)) e := den_valsOf d e
  rw [← valsOf_den (S.vals_good (valsOf_good d e)), ← valsOf_den h]
  refine valsOf_same fun j hj => ?_
  rw [S.den_vals _ j hj, ← he]
  exact S.same_iff.2 h1 j hj

/-! ### queries -/

/-- What C39 asks of preferences. -/
theorem prefOk_of_fits {nodes : List Node} {depth : QVar → Nat} {q : Query} : ∀ {Γ : List QVar} {stack : List Scope}, q.Fits d nodes T depth Γ stack →
    ∀ a ∈ q.atoms, a.PrefOk d := by
  induction q with
  | nil => intro _ _ h; exact absurd h id
  | atom a => intro _ _ h b hb; simp only [Query.atoms, List.mem_singleton] at hb; subst hb; exact h.pref
  | and p q i1 i2 => intro _ _ h a ha; exact (List.mem_append.1 ha).elim (i1 h.1 a) (i2 h.2 a)
  | or p q i1 i2 => intro _ _ h a ha; exact (List.mem_append.1 ha).elim (i1 h.1 a) (i2 h.2 a)
  | not p ih => intro _ _ h; exact ih h
  | withVar x p ih => intro _ _ h; exact ih h.2
  | forallG c p ih =>
    intro _ _ h
    have : ∃ g, g ∈ scopesOf d T c.id := by
      unfold scopesOf
      cases T <;> simp only [DTree.nodeInsts, List.zipIdx_cons, List.map_cons] <;> exact ⟨_, List.mem_cons_self⟩
    obtain ⟨g, hg⟩ := this
    exact ih (h.2.2 g hg)

theorem fo : ∀ (q : Query) (env env' : QVar → PInst) (gs gs' : List Char → Option PInst), (∀ a ∈ q.atoms, a.PrefOk d) →
    (∀ x, Same d (env' x) (S.inst (env x))) → (∀ c, gs' c = (gs c).map S.inst) →
    ((S.query q).fo d (S.tree T) env' gs' ↔ q.fo d T env gs) := by
  intro q
  induction q with
  | nil => intros; exact Iff.rfl
  | atom a =>
    intro env env' gs gs' hp he hg
    refine S.says (hp a (by simp [Query.atoms])) fun t => ?_
    cases t with
    | var x => exact he x
    | const c =>
      simp only [Term.val, term, const, hg]
      cases gs c.id with
      | none => exact S.den_vals c.val
      | some e => exact fun i _ => rfl
  | and p q i1 i2 =>
    intro env env' gs gs' hp he hg
    exact and_congr (i1 _ _ _ _ (fun a ha => hp a (by simp [Query.atoms, ha])) he hg) (i2 _ _ _ _ (fun a ha => hp a (by simp [Query.atoms, ha])) he hg)
  | or p q i1 i2 =>
    intro env env' gs gs' hp he hg
    exact or_congr (i1 _ _ _ _ (fun a ha => hp a (by simp [Query.atoms, ha])) he hg) (i2 _ _ _ _ (fun a ha => hp a (by simp [Query.atoms, ha])) he hg)
  | not p ih => intro env env' gs gs' hp he hg; exact not_congr (ih _ _ _ _ hp he hg)
  | withVar x p ih =>
    intro env env' gs gs' hp he hg
    have hu : ∀ e, ∀ y, Same d (upd env' x (S.inst e) y) (S.inst (upd env x e y)) := by
      intro e y
      unfold upd
      split
      · exact fun i _ => rfl
      · exact he y
    constructor
    · rintro ⟨e', h⟩
      obtain ⟨e, rfl⟩ := S.inst_surj e'
      exact ⟨e, (ih _ _ _ _ hp (hu e) hg).1 h⟩
    · rintro ⟨e, h⟩
      exact ⟨S.inst e, (ih _ _ _ _ hp (hu e) hg).2 h⟩
  | forallG c p ih =>
    intro env env' gs gs' hp he hg
    have := S.forall_nodeInsts (P := fun e => (S.query p).fo d (S.tree T) env' (upd gs' c.id (some e))) T bot
    rw [inst_bot] at this
    refine this.trans (forall_congr' fun n => forall_congr' fun _ => ih _ _ _ _ hp he fun k => ?_)
    unfold upd
    split
    · rfl
    · exact hg k

theorem about {q : Query} (hp : ∀ a ∈ q.atoms, a.PrefOk d) (v : QVar) (e : PInst) :
    (S.query q).about d (S.tree T) v (S.inst e) ↔ q.about d T v e := by
  refine S.fo q _ _ _ _ hp (fun x => ?_) fun _ => rfl
  unfold upd
  split
  · exact fun i _ => rfl
  · exact fun i _ => rfl

theorem binders (q : Query) : (S.query q).binders = q.binders := by
  induction q <;> simp_all [query, Query.binders]

theorem positive (q : Query) : (S.query q).Positive ↔ q.Positive := by
  induction q <;> simp_all [query, Query.Positive, binders]

theorem guardsApart (q : Query) : ∀ ids, (S.query q).GuardsApart ids ↔ q.GuardsApart ids := by
  induction q <;> intro ids <;> simp_all [query, Query.GuardsApart, const]

theorem plain {q : Query} (h : q.Plain) : (S.query q).Plain :=
  ⟨(S.positive q).2 h.positive, by rw [S.binders]; exact h.distinct, by rw [S.binders]; exact h.names, (S.guardsApart q _).2 h.guards⟩

/-! ### the node slice -/

theorem feats : ∀ (T : DTree) (f : Nat), f ∈ (S.tree T).feats ↔ S.inv f ∈ T.feats
  | .leaf i v, f => by simp [tree, DTree.feats]
  | .node i g z o, f => by
    have hz := feats z f
    have ho := feats o f
    have := S.inv_eq (i := g) (j := f)
    unfold tree
    split <;> simp only [DTree.feats, List.mem_cons, List.mem_append] <;> grind

theorem indexes : ∀ T : DTree, (S.tree T).indexes.Perm (T.indexes.map S.idx)
  | .leaf i v => by simp [tree, DTree.indexes]
  | .node i g z o => by
    have hz := indexes z
    have ho := indexes o
    unfold tree
    split
    · simp only [DTree.indexes, List.map_cons, List.map_append]
      exact ((ho.append hz).trans List.perm_append_comm).cons _
    · simp only [DTree.indexes, List.map_cons, List.map_append]
      exact (hz.append ho).cons _

theorem root (T : DTree) : (S.tree T).root = S.idx T.root := by
  cases T with
  | leaf i v => rfl
  | node i f z o => unfold tree; split <;> rfl

theorem readOnce : ∀ T : DTree, T.ReadOnce → (S.tree T).ReadOnce
  | .leaf i v, _ => trivial
  | .node i f z o, h => by
    obtain ⟨h1, h2, h3, h4⟩ := h
    have hf : S.perm f ∉ (S.tree z).feats ∧ S.perm f ∉ (S.tree o).feats := by simp [feats, S.left, h1, h2]
    unfold tree
    split
    · exact ⟨hf.2, hf.1, readOnce o h4, readOnce z h3⟩
    · exact ⟨hf.1, hf.2, readOnce z h3, readOnce o h4⟩

theorem laysOut {nodes : List Node} (hid : ∀ i, S.idx i = i) : ∀ T : DTree, LaysOut nodes T → LaysOut (nodes.map S.node) (S.tree T)
  | .leaf i v, ⟨n, h1, h2, h3⟩ => by
    refine ⟨S.node n, by simp [hid, h1], ?_, by simp [node, h3]⟩
    simp only [Node.childless, node] at h2 ⊢
    split <;> grind
  | .node i f z o, ⟨⟨n, h1, h2, h3, h4, h5⟩, hz, ho⟩ => by
    have hz := laysOut hid z hz
    have ho := laysOut hid o ho
    have hn : n.feat.toNat = f := by omega
    cases hf : S.flip f
    · simp only [tree, hf, Bool.false_eq_true, if_false]
      refine ⟨⟨S.node n, by simp [hid, h1], ?_, by simp [node, hn], by simp [node, hn, hf, h4, root, hid], by simp [node, hn, hf, h5, root, hid]⟩, hz, ho⟩
      simpa [Node.childless, node, hn, hf] using h2
    · simp only [tree, hf, if_true]
      refine ⟨⟨S.node n, by simp [hid, h1], ?_, by simp [node, hn], by simp [node, hn, hf, h5, root, hid], by simp [node, hn, hf, h4, root, hid]⟩, ho, hz⟩
      simp only [Node.childless, node, hn, hf, if_true] at h2 ⊢
      grind

theorem isTree {nodes : List Node} (hid : ∀ i, S.idx i = i) (h : IsTree d nodes T) : IsTree d (nodes.map S.node) (S.tree T) where
  laid := S.laysOut hid T h.laid
  root := by rw [S.root, hid, h.root]
  nodup := by
    refine (S.indexes T).nodup_iff.2 ?_
    have : S.idx = id := funext hid
    rw [this, List.map_id]
    exact h.nodup
  range f hf := (S.range_inv f).1 (h.range _ ((S.feats T f).1 hf))
  once := S.readOnce T h.once

theorem covers {nodes : List Node} (hid : ∀ i, S.idx i = i) (h : Covers nodes T) : Covers (nodes.map S.node) (S.tree T) := by
  intro i hi
  refine (S.indexes T).mem_iff.2 (List.mem_map.2 ⟨i, h i (by simpa using hi), hid i⟩)

/-! ### conditions on names -/

theorem atom_tidy {t : Tags} {a : Atom} (h : a.Tidy t) : (S.atom a).Tidy t := by
  cases a with
  | lel t1 t2 g => cases t1 <;> cases t2 <;> exact h
  | isnode t g => cases t <;> exact h
  | allcomp t b g => cases t <;> exact h
  | hepr t1 t2 p g => cases t1 <;> cases t2 <;> exact h
  | leh t1 t2 t3 g e => cases t1 <;> cases t2 <;> cases t3 <;> exact h
  | _ => trivial

theorem tidy {t : Tags} {q : Query} (h : q.Tidy t) : (S.query q).Tidy t := by
  induction q with
  | nil => trivial
  | atom a => exact S.atom_tidy h
  | and p q i1 i2 => exact ⟨i1 h.1, i2 h.2⟩
  | or p q i1 i2 => exact ⟨i1 h.1, i2 h.2⟩
  | not p ih => exact ih h
  | withVar x p ih => exact ⟨h.1, ih h.2⟩
  | forallG c p ih => exact ⟨h.1, ih h.2⟩

theorem term_vars (t : Term) : (S.term t).vars = t.vars := by cases t <;> rfl

theorem term_consts (t : Term) : Spec.Term.consts (S.term t) = (Spec.Term.consts t).map S.const := by cases t <;> rfl

theorem atom_vars (a : Atom) : (S.atom a).vars = a.vars := by cases a <;> simp [atom, Atom.vars, term_vars]

theorem atom_consts (a : Atom) : Spec.Atom.consts (S.atom a) = (Spec.Atom.consts a).map S.const := by
  cases a <;> simp [atom, Spec.Atom.consts, term_consts]

theorem pref_ok {a : Atom} (h : a.PrefOk d) : (S.atom a).PrefOk d := by
  cases a with
  | hepr t1 t2 p g =>
    refine ⟨fun i hi => ?_, ?_⟩
    · obtain ⟨k, hk, rfl⟩ := List.mem_map.1 hi
      have := h.1 k hk
      have := (S.range k.toNat).2 (by omega)
      omega
    · refine List.pairwise_map.2 (List.Pairwise.imp_of_mem (fun {a b} ha hb hab e => hab ?_) h.2)
      have h1 := h.1 a ha
      have h2 := h.1 b hb
      have e' : S.inv (S.perm a.toNat) = S.inv (S.perm b.toNat) := by rw [Int.ofNat.inj e]
      rw [S.left, S.left] at e'
      omega
  | _ => trivial

theorem atom_scoped {Γ : List QVar} {ids : List (List Char)} {a : Atom} (h : a.Scoped d Γ ids) : (S.atom a).Scoped d Γ ids where
  vars := by rw [S.atom_vars]; exact h.vars
  consts := by
    rw [S.atom_consts]
    intro c hc
    obtain ⟨c', hc', rfl⟩ := List.mem_map.1 hc
    exact S.vals_good (h.consts c' hc')
  pref := S.pref_ok h.pref
  prefne := by
    have := h.prefne
    cases a with
    | hepr t1 t2 p g => cases t1 <;> cases t2 <;> simp_all [atom, term, pref, Spec.Atom.PrefsNonempty]
    | _ => trivial
  regular := by
    have hr := h.regular
    have hf : ∀ c : QConst, Full d (den (S.vals c.val)) ↔ Full d (den c.val) := fun c => (full_same (S.den_vals _)).trans S.full
    have hh : ∀ c c' : QConst, Spec.hamming d (den (S.vals c.val)) (den (S.vals c'.val)) = Spec.hamming d (den c.val) (den c'.val) := fun c c' =>
      (hamming_same (S.den_vals _) (S.den_vals _)).trans S.hamming
    cases a with
    | leh t1 t2 t3 g e =>
      cases t1 <;> cases t2 <;> cases t3 <;> try trivial
      all_goals
        simp only [atom, term, const, Atom.Regular, resolve, List.find?_nil] at hr ⊢
        rw [hf, hf, hh]
        exact hr
    | _ => trivial
  uncaptured := by
    have := h.uncaptured
    cases a with
    | leh t1 t2 t3 g e => cases t1 <;> cases t2 <;> cases t3 <;> exact this
    | _ => trivial

theorem scoped' {depth : QVar → Nat} {q : Query} : ∀ {Γ : List QVar} {ids : List (List Char)}, q.Scoped d depth Γ ids →
    (S.query q).Scoped d depth Γ ids := by
  induction q with
  | nil => intro _ _ h; exact h
  | atom a => intro _ _ h; exact S.atom_scoped h
  | and p q i1 i2 => intro _ _ h; exact ⟨i1 h.1, i2 h.2⟩
  | or p q i1 i2 => intro _ _ h; exact ⟨i1 h.1, i2 h.2⟩
  | not p ih => intro _ _ h; exact ih h
  | withVar x p ih => intro _ _ h; exact ⟨h.1, ih h.2⟩
  | forallG c p ih => intro _ _ h; exact ih h

end Symmetry
end Goexpdt

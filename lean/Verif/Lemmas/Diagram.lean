import Verif.Lemmas.FactsModel
import Verif.Lemmas.Halts
import Verif.Lemmas.CaptureAtom
import Verif.Spec.Diagram
/-
The predicates on constants on models in which nodes may have several parents.
-/
namespace Goexpdt
open Spec

/-- What is required of the nodes that can be followed to. -/
def SoundNode (d : Nat) (nodes : List Node) (i : Nat) : Prop :=
  ∃ n, nodes[i]? = some n ∧ (n.isLeaf = false → (0 ≤ n.feat ∧ n.feat < d) ∧ (0 ≤ n.zChild ∧ n.zChild < nodes.length) ∧
    0 ≤ n.oChild ∧ n.oChild < nodes.length)

theorem acPush_mem {nodes : List Node} {ch : Int} {vis : List Int} (is : List Nat) (h : 0 ≤ ch ∧ ch < nodes.length) :
    ∃ (vis' : List Int) (is' : List Nat), acPush nodes ch vis (is.map (nodeAt nodes)) = .ok (vis', is'.map (nodeAt nodes)) ∧ ch ∈ vis' ∧
      (∀ v ∈ vis, v ∈ vis') ∧ (∀ v ∈ vis', v ∈ vis ∨ (v = ch ∧ ch.toNat ∈ is')) ∧ (∀ i ∈ is, i ∈ is') ∧
      ∀ i ∈ is', i ∈ is ∨ i = ch.toNat := by
  unfold acPush
  by_cases hv : ch ∈ vis
  · exact ⟨vis, is, by rw [if_pos hv], hv, fun _ h => h, fun _ h => .inl h, fun _ h => h, fun _ h => .inl h⟩
  · refine ⟨ch :: vis, ch.toNat :: is, by rw [if_neg hv, if_neg (by omega)]; rfl, by simp, fun v h => by simp [h], fun v h => ?_,
      fun i h => by simp [h], fun i h => ?_⟩
    · rcases List.mem_cons.1 h with h | h
      · exact .inr ⟨h, by simp⟩
      · exact .inl h
    · rcases List.mem_cons.1 h with h | h
      · exact .inr h
      · exact .inl h

/-- The search of allcomp.Const finds the leafs that can be followed to, on every model. -/
theorem acLoop_follows {d : Nat} {nodes : List Node} {sc : QConst} (hc : GoodVals d sc.val) (leaf : Bool)
    (hw : ∀ i, Follows nodes (den sc.val) i → SoundNode d nodes i) :
    ∀ (fuel : Nat) (is P : List Nat) (vis : List Int), (∀ i ∈ is, Follows nodes (den sc.val) i) → (0 ∈ is ∨ 0 ∈ P) →
      (∀ v ∈ vis, ∃ j : Nat, v = j ∧ (j ∈ is ∨ j ∈ P)) →
      (∀ i ∈ P, ∀ n, nodes[i]? = some n → (n.isLeaf = true → n.value = leaf) ∧ (n.isLeaf = false →
        (den sc.val n.feat.toNat ≠ some true → n.zChild ∈ vis) ∧ (den sc.val n.feat.toNat ≠ some false → n.oChild ∈ vis))) →
      acLoop d sc leaf nodes fuel vis (is.map (nodeAt nodes)) = .error .diverge ∨
      ∃ b, acLoop d sc leaf nodes fuel vis (is.map (nodeAt nodes)) = .ok b ∧
        (b = true ↔ ∀ i n, Follows nodes (den sc.val) i → nodes[i]? = some n → n.isLeaf = true → n.value = leaf) := by
  intro fuel
  induction fuel with
  | zero => intro is P vis _ _ _ _; exact .inl rfl
  | succ fuel ih =>
    intro is P vis his h0 hvis hP
    cases is with
    | nil =>
      refine .inr ⟨true, by simp [acLoop], ⟨fun _ => ?_, fun _ => rfl⟩⟩
      have hall : ∀ i, Follows nodes (den sc.val) i → i ∈ P := by
        intro i hi
        induction hi with
        | root => simpa using h0
        | zero hi hn hl hv hj ih =>
          obtain ⟨j', e, h⟩ := hvis _ (((hP _ ih _ hn).2 hl).1 hv)
          rw [hj] at e
          rcases h with h | h
          · simp at h
          · have : _ = j' := Int.ofNat.inj e
            rwa [this]
        | one hi hn hl hv hj ih =>
          obtain ⟨j', e, h⟩ := hvis _ (((hP _ ih _ hn).2 hl).2 hv)
          rw [hj] at e
          rcases h with h | h
          · simp at h
          · have : _ = j' := Int.ofNat.inj e
            rwa [this]
      exact fun i n hi hn hl => (hP i (hall i hi) n hn).1 hl
    | cons i is =>
      have hi := his i (by simp)
      have his' : ∀ i ∈ is, Follows nodes (den sc.val) i := fun i h => his i (by simp [h])
      obtain ⟨n, hn, hr⟩ := hw i hi
      simp only [List.map_cons, nodeAt_eq hn]
      unfold acLoop
      -- `i` is done afterwards
      have cont : ∀ (is' : List Nat) (vis' : List Int), (∀ i ∈ is', Follows nodes (den sc.val) i) → (∀ j ∈ is, j ∈ is') →
          (∀ v ∈ vis, v ∈ vis') → (∀ v ∈ vis', v ∈ vis ∨ ∃ j : Nat, v = j ∧ j ∈ is') →
          ((n.isLeaf = true → n.value = leaf) ∧ (n.isLeaf = false →
            (den sc.val n.feat.toNat ≠ some true → n.zChild ∈ vis') ∧ (den sc.val n.feat.toNat ≠ some false → n.oChild ∈ vis'))) →
          acLoop d sc leaf nodes fuel vis' (is'.map (nodeAt nodes)) = .error .diverge ∨
          ∃ b, acLoop d sc leaf nodes fuel vis' (is'.map (nodeAt nodes)) = .ok b ∧
            (b = true ↔ ∀ i n, Follows nodes (den sc.val) i → nodes[i]? = some n → n.isLeaf = true → n.value = leaf) := by
        intro is' vis' h1 h2 h3 h4 h5
        refine ih is' (i :: P) vis' h1 ?_ (fun v hv => ?_) (fun j hj m hm => ?_)
        · rcases h0 with h | h
          · rcases List.mem_cons.1 h with h | h
            · exact .inr (by simp [h])
            · exact .inl (h2 _ h)
          · exact .inr (by simp [h])
        · rcases h4 v hv with h | ⟨j, e, h⟩
          · obtain ⟨j, e, h⟩ := hvis v h
            refine ⟨j, e, ?_⟩
            rcases h with h | h
            · rcases List.mem_cons.1 h with h | h
              · exact .inr (by simp [h])
              · exact .inl (h2 _ h)
            · exact .inr (by simp [h])
          · exact ⟨j, e, .inl h⟩
        · rcases List.mem_cons.1 hj with rfl | hj
          · rw [hn] at hm; cases hm; exact h5
          · obtain ⟨a, b⟩ := hP j hj m hm
            exact ⟨a, fun hl => ⟨fun h => h3 _ ((b hl).1 h), fun h => h3 _ ((b hl).2 h)⟩⟩
      cases hl : n.isLeaf with
      | true =>
        simp only [if_true]
        by_cases hv : n.value = leaf
        · rw [if_neg (by simp [hv])]
          exact cont is vis his' (fun _ h => h) (fun _ h => h) (fun _ h => .inl h) ⟨fun _ => hv, by simp [hl]⟩
        · rw [if_pos hv]
          exact .inr ⟨false, rfl, by simp only [Bool.false_eq_true, false_iff]; exact fun h => hv (h i n hi hn hl)⟩
      | false =>
        obtain ⟨⟨hf0, hf⟩, hz, ho⟩ := hr hl
        have hgd : n.feat.toNat < d := by omega
        have hat := at_eq hc hgd sc rfl
        have hlen := hc.1
        simp only [Bool.false_eq_true, if_false, hat, valOf_bot, valOf_zero, valOf_one]
        rw [if_neg (by omega), indexed_ok (by simp; omega)]
        simp only
        have hzf : den sc.val n.feat.toNat ≠ some true → Follows nodes (den sc.val) n.zChild.toNat := fun h =>
          .zero hi hn hl h (by omega)
        have hof : den sc.val n.feat.toNat ≠ some false → Follows nodes (den sc.val) n.oChild.toNat := fun h =>
          .one hi hn hl h (by omega)
        rcases opt3 (den sc.val n.feat.toNat) with h | h | h
        · obtain ⟨vis1, is1, e1, a1, a2, a3, a4, a5⟩ := acPush_mem (vis := vis) is hz
          obtain ⟨vis2, is2, e2, b1, b2, b3, b4, b5⟩ := acPush_mem (vis := vis1) is1 ho
          simp only [h, if_true, e1, e2]
          refine cont is2 vis2 (fun j hj => ?_) (fun j hj => b4 j (a4 j hj)) (fun v hv => b2 v (a2 v hv)) (fun v hv => ?_)
            ⟨by simp [hl], fun _ => ⟨fun _ => b2 _ a1, fun _ => b1⟩⟩
          · rcases b5 j hj with hj | rfl
            · rcases a5 j hj with hj | rfl
              · exact his' j hj
              · exact hzf (by simp [h])
            · exact hof (by simp [h])
          · rcases b3 v hv with hv | ⟨rfl, hm⟩
            · rcases a3 v hv with hv | ⟨rfl, hm⟩
              · exact .inl hv
              · exact .inr ⟨_, (by omega : n.zChild = (n.zChild.toNat : Int)), b4 _ hm⟩
            · exact .inr ⟨_, (by omega : n.oChild = (n.oChild.toNat : Int)), hm⟩
        · obtain ⟨vis1, is1, e1, a1, a2, a3, a4, a5⟩ := acPush_mem (vis := vis) is hz
          simp only [h, reduceCtorEq, if_true, if_false, e1]
          refine cont is1 vis1 (fun j hj => ?_) a4 a2 (fun v hv => ?_)
            ⟨by simp [hl], fun _ => ⟨fun _ => a1, fun hc => absurd h hc⟩⟩
          · rcases a5 j hj with hj | rfl
            · exact his' j hj
            · exact hzf (by simp [h])
          · rcases a3 v hv with hv | ⟨rfl, hm⟩
            · exact .inl hv
            · exact .inr ⟨_, (by omega : n.zChild = (n.zChild.toNat : Int)), hm⟩
        · obtain ⟨vis1, is1, e1, a1, a2, a3, a4, a5⟩ := acPush_mem (vis := vis) is ho
          simp only [h, reduceCtorEq, if_true, if_false, Option.some.injEq, Bool.true_eq_false, e1]
          refine cont is1 vis1 (fun j hj => ?_) a4 a2 (fun v hv => ?_)
            ⟨by simp [hl], fun _ => ⟨fun hc => absurd h hc, fun _ => a1⟩⟩
          · rcases a5 j hj with hj | rfl
            · exact his' j hj
            · exact hof (by simp [h])
          · rcases a3 v hv with hv | ⟨rfl, hm⟩
            · exact .inl hv
            · exact .inr ⟨_, (by omega : n.oChild = (n.oChild.toNat : Int)), hm⟩

theorem acLoop_const {d : Nat} {nodes : List Node} {sc : QConst} (hc : GoodVals d sc.val) (leaf : Bool)
    (hw : ∀ i, Follows nodes (den sc.val) i → SoundNode d nodes i) :
    ∃ b, acLoop d sc leaf nodes (nodes.length + 2) [] [nodeAt nodes 0] = .ok b ∧
      (b = true ↔ ∀ i n, Follows nodes (den sc.val) i → nodes[i]? = some n → n.isLeaf = true → n.value = leaf) := by
  rcases acLoop_follows hc leaf hw (nodes.length + 2) [0] [] [] (by simpa using Follows.root) (by simp) (by simp) (by simp) with h | h
  · exact absurd h (acLoop_halts _ _ _ ⟨by simp, by simp⟩ (by simp; omega))
  · exact h

/-! ### decision diagrams -/

theorem IsTree.diagram {d : Nat} {nodes : List Node} {T : DTree} (h : IsTree d nodes T) : IsDiagram d nodes T :=
  ⟨h.laid, h.root, h.range, h.once⟩

theorem valid_sound {d : Nat} {nodes : List Node} {e : PInst} (hne : nodes ≠ []) (hv : Valid d nodes) (i : Nat)
    (h : Follows nodes e i) : SoundNode d nodes i := by
  have hpos : 0 < nodes.length := List.length_pos_iff.mpr hne
  have key : ∀ i, i < nodes.length → SoundNode d nodes i := fun i hi =>
    ⟨nodes[i], List.getElem?_eq_getElem hi, fun hl => by
      obtain ⟨a, b, c, d, e, f⟩ := hv i _ (List.getElem?_eq_getElem hi) hl
      exact ⟨⟨a, b⟩, ⟨c, d⟩, e, f⟩⟩
  refine key i ?_
  cases h with
  | root => exact hpos
  | zero hi hn hl _ hj =>
    obtain ⟨-, -, -, h, -, -⟩ := hv _ _ hn hl
    omega
  | one hi hn hl _ hj =>
    obtain ⟨-, -, -, -, -, h⟩ := hv _ _ hn hl
    omega

/-- The subtrees that can be followed to. -/
inductive Sub (e : PInst) (T : DTree) : DTree → Prop
  | root : Sub e T T
  | zero {i f : Nat} {z o : DTree} : Sub e T (.node i f z o) → e f ≠ some true → Sub e T z
  | one {i f : Nat} {z o : DTree} : Sub e T (.node i f z o) → e f ≠ some false → Sub e T o

theorem Sub.laid {nodes : List Node} {d : Nat} {e : PInst} {T t : DTree} (hl : LaysOut nodes T) (hr : ∀ f ∈ T.feats, f < d)
    (h : Sub e T t) : LaysOut nodes t ∧ ∀ f ∈ t.feats, f < d := by
  induction h with
  | root => exact ⟨hl, hr⟩
  | zero _ _ ih => exact ⟨ih.1.2.1, fun f hf => ih.2 f (by simp [DTree.feats, hf])⟩
  | one _ _ ih => exact ⟨ih.1.2.2, fun f hf => ih.2 f (by simp [DTree.feats, hf])⟩

theorem follows_sub {nodes : List Node} {d : Nat} {e : PInst} {T : DTree} (hl : LaysOut nodes T) (hr : ∀ f ∈ T.feats, f < d)
    (h0 : T.root = 0) {i : Nat} (h : Follows nodes e i) : ∃ t, Sub e T t ∧ t.root = i := by
  induction h with
  | root => exact ⟨T, .root, h0⟩
  | zero _ hn hnl hv hj ih =>
    obtain ⟨t, ht, rfl⟩ := ih
    have := (ht.laid hl hr).1
    cases t with
    | leaf i v =>
      obtain ⟨m, hm, hlf, -⟩ := this
      rw [root_leaf, hm] at hn; cases hn
      rw [hlf] at hnl; cases hnl
    | node i g z o =>
      obtain ⟨⟨m, hm, hlf, hg, hz, ho⟩, -, -⟩ := this
      rw [root_node, hm] at hn; cases hn
      rw [hg, Int.toNat_natCast] at hv
      exact ⟨z, .zero ht hv, by rw [hz] at hj; exact Int.ofNat.inj hj⟩
  | one _ hn hnl hv hj ih =>
    obtain ⟨t, ht, rfl⟩ := ih
    have := (ht.laid hl hr).1
    cases t with
    | leaf i v =>
      obtain ⟨m, hm, hlf, -⟩ := this
      rw [root_leaf, hm] at hn; cases hn
      rw [hlf] at hnl; cases hnl
    | node i g z o =>
      obtain ⟨⟨m, hm, hlf, hg, hz, ho⟩, -, -⟩ := this
      rw [root_node, hm] at hn; cases hn
      rw [hg, Int.toNat_natCast] at hv
      exact ⟨o, .one ht hv, by rw [ho] at hj; exact Int.ofNat.inj hj⟩

theorem sub_follows {nodes : List Node} {d : Nat} {e : PInst} {T : DTree} (hl : LaysOut nodes T) (hr : ∀ f ∈ T.feats, f < d)
    (h0 : T.root = 0) {t : DTree} (h : Sub e T t) : Follows nodes e t.root := by
  induction h with
  | root => rw [h0]; exact .root
  | zero ht hv ih =>
    obtain ⟨⟨m, hm, hlf, hg, hz, ho⟩, -, -⟩ := (ht.laid hl hr).1
    exact .zero ih hm hlf (by rw [hg, Int.toNat_natCast]; exact hv) hz
  | one ht hv ih =>
    obtain ⟨⟨m, hm, hlf, hg, hz, ho⟩, -, -⟩ := (ht.laid hl hr).1
    exact .one ih hm hlf (by rw [hg, Int.toNat_natCast]; exact hv) ho

theorem diagram_sound {nodes : List Node} {d : Nat} {e : PInst} {T : DTree} (hl : LaysOut nodes T) (hr : ∀ f ∈ T.feats, f < d)
    (h0 : T.root = 0) (i : Nat) (h : Follows nodes e i) : SoundNode d nodes i := by
  obtain ⟨t, ht, rfl⟩ := follows_sub hl hr h0 h
  obtain ⟨h1, h2⟩ := ht.laid hl hr
  cases t with
  | leaf i v =>
    obtain ⟨m, hm, hlf, -⟩ := h1
    exact ⟨m, hm, fun h => by rw [show m.isLeaf = true from hlf] at h; cases h⟩
  | node i g z o =>
    have hltz := laysOut_lt h1 z.root (by simp [DTree.indexes, root_mem])
    have hlto := laysOut_lt h1 o.root (by simp [DTree.indexes, root_mem])
    obtain ⟨⟨m, hm, hlf, hg, hz, ho⟩, -, -⟩ := h1
    have := h2 g (by simp [DTree.feats])
    exact ⟨m, hm, fun _ => ⟨by omega, by omega, by omega⟩⟩

theorem leafsAre_of_subs {e : PInst} {b : Bool} {T t : DTree} (ht : Sub e T t) (h : ∀ i v, Sub e T (.leaf i v) → v = b) :
    LeafsAre (fun i b => e i ≠ some (!b)) b t := by
  induction t with
  | leaf i v => exact h i v ht
  | node i f z o ihz iho => exact ⟨fun hc => ihz (.zero ht hc), fun hc => iho (.one ht hc)⟩

theorem subs_of_leafsAre {e : PInst} {b : Bool} {T t : DTree} (h : LeafsAre (fun i b => e i ≠ some (!b)) b T) (ht : Sub e T t) :
    LeafsAre (fun i b => e i ≠ some (!b)) b t := by
  induction ht with
  | root => exact h
  | zero _ hc ih => exact ih.1 hc
  | one _ hc ih => exact ih.2 hc

theorem follows_leafs {nodes : List Node} {d : Nat} {e : PInst} {T : DTree} (hl : LaysOut nodes T) (hr : ∀ f ∈ T.feats, f < d)
    (h0 : T.root = 0) (b : Bool) :
    (∀ i n, Follows nodes e i → nodes[i]? = some n → n.isLeaf = true → n.value = b) ↔ LeafsAre (fun i b => e i ≠ some (!b)) b T := by
  constructor
  · intro h
    refine leafsAre_of_subs .root fun i v ht => ?_
    obtain ⟨m, hm, hlf, hv⟩ := (ht.laid hl hr).1
    rw [← hv]
    exact h i m (sub_follows hl hr h0 ht) hm hlf
  · intro h i n hi hn hlf
    obtain ⟨t, ht, rfl⟩ := follows_sub hl hr h0 hi
    have h1 := (ht.laid hl hr).1
    cases t with
    | leaf i v =>
      obtain ⟨m, hm, -, hv⟩ := h1
      rw [root_leaf, hm] at hn; cases hn
      rw [hv]
      exact subs_of_leafsAre h ht
    | node i g z o =>
      obtain ⟨⟨m, hm, hlf', -⟩, -, -⟩ := h1
      rw [root_node, hm] at hn; cases hn
      rw [show n.isLeaf = false from hlf'] at hlf; cases hlf

/-- Without the condition that features are decided on once, one direction remains. -/
theorem leafsAre_allComp {d : Nat} {e : PInst} {T : DTree} (hr : ∀ f ∈ T.feats, f < d) (b : Bool)
    (h : LeafsAre (fun i b => e i ≠ some (!b)) b T) : AllComp d T b e := by
  intro x hx
  induction T with
  | leaf j v => exact h
  | node j f z o ihz iho =>
    have hf : f < d := hr f (by simp [DTree.feats])
    simp only [DTree.classify]
    cases hxf : x f
    · refine ihz (fun i hi => hr i (by simp [DTree.feats, hi])) (h.1 fun hc => ?_)
      have := hx f hf _ hc
      rw [hxf] at this; simp at this
    · refine iho (fun i hi => hr i (by simp [DTree.feats, hi])) (h.2 fun hc => ?_)
      have := hx f hf _ hc
      rw [hxf] at this; simp at this

theorem isnodeConst_diagram {d : Nat} {nodes : List Node} {T : DTree} {sc : QConst} (hl : LaysOut nodes T) (hr : ∀ f ∈ T.feats, f < d)
    (h0 : T.root = 0) (hc : GoodVals d sc.val) :
    ∃ vr, isnodeLoop d sc nodes (nodes.length + 1) (nodeAt nodes 0) (newVisitRecord sc) = .ok vr ∧
      (allFeatsVisited vr = true ↔ ∀ f < d, den sc.val f = none ∨ HitsFeat (fun i b => den sc.val i = some b) f T) := by
  have hpos : 0 < nodes.length := by
    have := laysOut_lt hl T.root (root_mem T)
    omega
  obtain ⟨vr, h1, h2⟩ := isnodeConst_laid hl hr hc (fuel := T.indexes.length + (nodes.length + 1)) (by omega)
  rw [h0] at h1
  refine ⟨vr, ?_, h2⟩
  rw [← h1, Nat.add_comm T.indexes.length]
  refine (isnodeLoop_mono _ _ _ _ fun h => ?_).symm
  rw [isnodeLoop_forever hpos (by omega) h] at h1
  cases h1

theorem isNode_of_visits {d : Nat} {T : DTree} {e : PInst} (h : ∀ f < d, e f = none ∨ HitsFeat (fun i b => e i = some b) f T) :
    IsNode d T e :=
  isNode_of_hits (e0 := bot) (fun i _ hi => absurd rfl hi) fun f hf => by simpa [bot] using h f hf

theorem visits_of_isNode {d : Nat} {T : DTree} {e : PInst} (hro : T.ReadOnce) (hr : ∀ f ∈ T.feats, f < d) (h : IsNode d T e) :
    ∀ f < d, e f = none ∨ HitsFeat (fun i b => e i = some b) f T := by
  obtain ⟨p, hp, hs⟩ := h
  intro f hf
  simpa [bot] using hits_of_isNode hro hr hp hs f hf

theorem tells_bool {b : Bool} {P : Prop} (h : b = true ↔ P) (s : Ctx) :
    ∃ k, (if b = true then retTrue else retFalse : M CNF) s = (.ok k, s) ∧ Tells k P := by
  cases b with
  | true =>
    refine ⟨TrueCNF, rfl, fun _ β => ⟨?_, ?_⟩, fun hn => absurd (h.1 rfl) hn⟩ <;>
      simp [SemTrue, ConTrue, clausesTrue, TrueCNF]
  | false =>
    refine ⟨FalseCNF, rfl, fun hp => absurd (h.2 hp) (by simp), ?_⟩
    rintro - ⟨β, h1, -⟩
    simp [SemTrue, clausesTrue, FalseCNF, NegClauses, clauseTrue] at h1

theorem pair_eta {α β} {p : α × β} {a : α} (h : p.1 = a) : p = (a, p.2) := by rw [← h]

/-- The common beginning of both predicates. -/
theorem const_start {s : Ctx} {c : QConst} (hc : (resolve s.scopes c).length = s.dim) (hne : s.nodes ≠ []) (f : Nat → QConst → List Node → M CNF) :
    (M.scopeConst c >>= fun sc => validateM [sc] >>= fun _ => M.dim >>= fun d => M.nodes >>= fun nodes =>
      if nodes.length = 0 then M.throw errEmptyModel else f d sc nodes) s = f s.dim { id := c.id, val := resolve s.scopes c } s.nodes s := by
  have h1 : M.scopeConst c s = (.ok { id := c.id, val := resolve s.scopes c }, s) := by
    show ((.ok (s.scopeConst c).1, s) : Except Err QConst × Ctx) = _
    rw [scopeConst_eq]
  have h2 : validateM [{ id := c.id, val := resolve s.scopes c }] s = (.ok (), s) := by
    refine (M_bind_ok (show M.dim s = (.ok s.dim, s) from rfl)).trans ?_
    show (ValidateConstsDim s.dim _, s) = _
    simp [ValidateConstsDim, validateConstsDimFrom, hc]
  refine (M_bind_ok h1).trans ((M_bind_ok h2).trans ((M_bind_ok (show M.dim s = (.ok s.dim, s) from rfl)).trans
    ((M_bind_ok (show M.nodes s = (.ok s.nodes, s) from rfl)).trans ?_)))
  rw [if_neg (by simpa using hne)]

theorem allcompConst_eq {s : Ctx} {c : QConst} (hc : GoodVals s.dim (resolve s.scopes c)) (hne : s.nodes ≠ []) {leaf : Bool} {P : Prop}
    (h : ∃ b, acLoop s.dim { id := c.id, val := resolve s.scopes c } leaf s.nodes (s.nodes.length + 2) [] [nodeAt s.nodes 0] = .ok b ∧
      (b = true ↔ P)) : ∃ k, allcompConst c leaf s = (.ok k, s) ∧ Tells k P := by
  obtain ⟨b, h1, h2⟩ := h
  obtain ⟨k, h3, h4⟩ := tells_bool h2 s
  refine ⟨k, ?_, h4⟩
  refine (const_start hc.1 hne fun d sc nodes => M.lift (acLoop d sc leaf nodes (nodes.length + 2) [] [nodeAt nodes 0]) >>= fun b =>
    if b then retTrue else retFalse).trans ?_
  rw [h1]
  exact (M_bind_ok (show M.lift (Except.ok b) s = (.ok b, s) from rfl)).trans h3

theorem isnodeConst_eq {s : Ctx} {c : QConst} (hc : GoodVals s.dim (resolve s.scopes c)) (hne : s.nodes ≠ []) {P : Prop}
    (h : ∃ vr, isnodeLoop s.dim { id := c.id, val := resolve s.scopes c } s.nodes (s.nodes.length + 1) (nodeAt s.nodes 0)
      (newVisitRecord { id := c.id, val := resolve s.scopes c }) = .ok vr ∧ (allFeatsVisited vr = true ↔ P)) :
    ∃ k, isnodeConst c s = (.ok k, s) ∧ Tells k P := by
  obtain ⟨vr, h1, h2⟩ := h
  obtain ⟨k, h3, h4⟩ := tells_bool h2 s
  refine ⟨k, ?_, h4⟩
  refine (const_start hc.1 hne fun d sc nodes => M.lift (isnodeLoop d sc nodes (nodes.length + 1) (nodeAt nodes 0) (newVisitRecord sc)) >>=
    fun vr => if allFeatsVisited vr then retTrue else retFalse).trans ?_
  rw [h1]
  exact (M_bind_ok (show M.lift (Except.ok vr) s = (.ok vr, s) from rfl)).trans h3

end Goexpdt

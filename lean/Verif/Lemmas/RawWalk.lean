import Verif.Lemmas.Reported
/- The walk over trees that decide on a feature several times. -/
namespace Goexpdt
open Spec Props

/-- `DTree.kept` with the values of the code. -/
def keptVals : DTree → List FeatV → List (Nat × List FeatV) × List FeatV
  | .leaf i _, t => ([(i, t)], t)
  | .node i f z o, t =>
    let a := keptVals z (t.set f ZERO)
    let b := keptVals o (a.2.set f ONE)
    ((i, t) :: (a.1 ++ b.1), b.2.set f BOT)

theorem keptVals_length (T : DTree) : ∀ t, (keptVals T t).2.length = t.length := by
  induction T with
  | leaf i v => intro t; rfl
  | node i f z o ihz iho => intro t; simp [keptVals, ihz, iho]

/-- The state of the walk relevant to a subtree about to be entered. -/
structure RawPre (nodes : List Node) (T : DTree) (w : WalkSt) : Prop where
  lenP : w.prev.length = nodes.length
  lenV : w.visited.length = nodes.length
  feats : ∀ f ∈ T.feats, f < w.t.length
  cp : w.cp = T.root
  new : ∀ i ∈ T.indexes, ¬ Vis w i

/-- The state of the walk after a subtree. -/
structure RawPost (nodes : List Node) (T : DTree) (w : WalkSt) (vs : List WalkSt) (w' : WalkSt) :
    Prop where
  steps : Steps nodes w vs w'
  lenP : w'.prev.length = nodes.length
  lenV : w'.visited.length = nodes.length
  t : w'.t = (keptVals T w.t).2
  cp : w'.cp = T.root
  vis : ∀ i, Vis w' i ↔ Vis w i ∨ i ∈ T.indexes
  prev : ∀ i, i ∉ T.indexes.tail → w'.prev.getD i 0 = w.prev.getD i 0
  out : vs.map (fun v => (v.cp, v.t)) = (keptVals T w.t).1

theorem raw_child {nodes : List Node} {C : DTree} {w : WalkSt} {p : Nat} {n : Node} {val : FeatV}
    (hl : LaysOut nodes C) (h0 : 0 ∉ C.indexes) (hnd : C.indexes.Nodup) (hn : nodes[p]? = some n) (hcp : w.cp = p)
    (_hfl : n.feat.toNat < w.t.length)
    (_hp : p ∉ C.indexes)
    (hstep : walkStep nodes w = walkDown nodes w C.root val)
    (hlen : w.prev.length = nodes.length) (hlenV : w.visited.length = nodes.length)
    (hnew : ∀ i ∈ C.indexes, ¬ Vis w i)
    (ih : ∀ w : WalkSt, RawPre nodes C w → ∃ vs w', RawPost nodes C w vs w')
    (hfe : ∀ f ∈ C.feats, f < w.t.length) :
    ∃ vs w', Steps nodes w vs w' ∧ w'.prev.length = nodes.length ∧
      w'.visited.length = nodes.length ∧ w'.t = (keptVals C (w.t.set n.feat.toNat val)).2.set n.feat.toNat BOT ∧ w'.cp = p ∧
      (∀ i, Vis w' i ↔ Vis w i ∨ i ∈ C.indexes) ∧
      (∀ i, i ∉ C.indexes → w'.prev.getD i 0 = w.prev.getD i 0) ∧
      vs.map (fun v => (v.cp, v.t)) = (keptVals C (w.t.set n.feat.toNat val)).1 := by
  have hrlt := laysOut_lt hl _ (root_mem C)
  obtain ⟨vs, w2, h2⟩ := ih (walkDown nodes w C.root val).2 (by
    refine ⟨by simp [walkDown, hlen], hlenV, ?_, rfl, hnew⟩
    intro f hf
    have := hfe f hf
    simp only [walkDown, hcp, nodeAt_eq hn, List.length_set]
    exact this)
  have hs1 : walkStep nodes w = (.moved, (walkDown nodes w C.root val).2) := hstep
  have hb : walkStep nodes w2 = walkBackup nodes w2 :=
    done_backup hl h2.cp fun i hi => (h2.vis i).2 (.inr hi)
  have hcne : w2.cp ≠ 0 := by rw [h2.cp]; intro h; exact h0 (h ▸ root_mem C)
  have hprev : w2.prev.getD w2.cp 0 = p := by
    rw [h2.cp]
    have hm : C.root ∉ C.indexes.tail := by
      have := hnd; rw [indexes_eq] at this; exact (List.nodup_cons.1 this).1
    rw [h2.prev _ hm]; simp [walkDown, List.getD, hlen, hrlt, hcp]
  have hs2 : walkStep nodes w2 = (.moved, { w2 with cp := p, t := (keptVals C (w.t.set n.feat.toNat val)).2.set n.feat.toNat BOT }) := by
    rw [hb]
    unfold walkBackup
    rw [if_neg hcne, hprev]
    simp only [h2.t, walkDown, hcp, nodeAt_eq hn]
  refine ⟨vs, { w2 with cp := p, t := (keptVals C (w.t.set n.feat.toNat val)).2.set n.feat.toNat BOT }, ?_, h2.lenP, h2.lenV, rfl, rfl, h2.vis, ?_, ?_⟩
  · have := (Steps.moved hs1 h2.steps).trans (.moved hs2 .refl)
    simpa using this
  · intro i hi
    have h3 := h2.prev i (fun h => hi (List.mem_of_mem_tail h))
    rw [h3]
    have : C.root ≠ i := fun h => hi (h ▸ root_mem C)
    simp [walkDown, List.getD, this]
  · rw [h2.out]; simp [walkDown, hcp, nodeAt_eq hn]

theorem raw_steps {nodes : List Node} (T : DTree) (hl : LaysOut nodes T) (hnd : T.indexes.Nodup)
    (h0 : 0 ∉ T.indexes.tail) :
    ∀ w : WalkSt, RawPre nodes T w → ∃ vs w', RawPost nodes T w vs w' := by
  induction T with
  | leaf i v =>
    intro w hw
    have hcp : w.cp = i := hw.cp
    have hlt := laysOut_lt hl i (by simp [DTree.indexes])
    have hnv : w.visited.getD w.cp false = false := by
      have := hw.new i (by simp [DTree.indexes]); rw [hcp]; simpa [Vis] using this
    refine ⟨[{ w with visited := w.visited.set w.cp true }],
      { w with visited := w.visited.set w.cp true },
      .visited (by unfold walkStep; rw [if_neg (by rw [hnv]; simp)]) .refl,
      hw.lenP, by simp [hw.lenV], rfl, hcp, ?_, fun _ _ => rfl, by simp [keptVals, hcp]⟩
    intro j
    rw [vis_set (w := w) (w' := { w with visited := w.visited.set w.cp true }) rfl
      (by rw [hw.lenV, hcp]; exact hlt)]
    simp [DTree.indexes, hcp]; grind
  | node i f z o ihz iho =>
    intro w hw
    have hcp : w.cp = i := hw.cp
    have hlt := laysOut_lt hl i (by simp [DTree.indexes])
    obtain ⟨⟨n, hn, hleaf, hf, hz, ho⟩, hlz, hlo⟩ := hl
    replace hleaf : n.isLeaf = false := hleaf
    have hnd' := hnd
    simp only [DTree.indexes, List.nodup_cons, List.nodup_append, List.mem_append, not_or] at hnd'
    obtain ⟨⟨hiz, hio⟩, hndz, hndo, hdisj⟩ := hnd'
    simp only [DTree.indexes, List.tail_cons, List.mem_append, not_or] at h0
    have hft : n.feat.toNat = f := by rw [hf]; simp
    have hnv : w.visited.getD w.cp false = false := by
      have := hw.new i (by simp [DTree.indexes]); rw [hcp]; simpa [Vis] using this
    -- visit the node
    obtain ⟨w1, hw1⟩ : ∃ w1, w1 = { w with visited := w.visited.set w.cp true } := ⟨_, rfl⟩
    have hs1 : walkStep nodes w = (.visited, w1) := by
      rw [hw1]; unfold walkStep; rw [if_neg (by rw [hnv]; simp)]
    have hv1 : ∀ j, Vis w1 j ↔ j = i ∨ Vis w j := by
      intro j
      rw [vis_set (w := w) (w' := w1) (by rw [hw1]) (by rw [hw.lenV, hw1]; simpa [hcp] using hlt),
        hw1]
      simp [hcp]
    have hcp1 : w1.cp = i := by rw [hw1]; exact hcp
    have hf1 := hw.feats f (by simp [DTree.feats])
    have hfz1 : ∀ g ∈ z.feats, g < w.t.length := fun g hg => hw.feats g (by simp [DTree.feats, hg])
    have hfo1 : ∀ g ∈ o.feats, g < w.t.length := fun g hg => hw.feats g (by simp [DTree.feats, hg])
    have ht1 : w1.t = w.t := by rw [hw1]
    have hnewz : ∀ j ∈ z.indexes, ¬ Vis w1 j := by
      intro j hj h
      rcases (hv1 j).1 h with rfl | h
      · exact hiz hj
      · exact hw.new j (by simp [DTree.indexes, hj]) h
    -- the zero child
    obtain ⟨vz, w2, hz1, hz2, hz3, hz4, hz5, hz6, hz7, hz8⟩ :=
      raw_child (nodes := nodes) (C := z) (w := w1) (p := i) (n := n) (val := ZERO) hlz h0.1 hndz hn
        hcp1 (by rw [ht1, hft]; exact hf1) hiz (by
          unfold walkStep
          have a1 : w1.visited.getD i false = true := (hv1 i).2 (.inl rfl)
          have a2 : w1.visited.getD z.root false = false := by
            simpa [Vis] using hnewz _ (root_mem z)
          rw [hcp1, if_pos a1, nodeAt_eq hn, if_neg (by simp [hleaf]), hz, Int.toNat_natCast,
            if_pos (by rw [a2]; simp)])
        (by rw [hw1]; exact hw.lenP) (by rw [hw1]; simp [hw.lenV]) hnewz
        (ihz hlz hndz (fun h => h0.1 (List.mem_of_mem_tail h))) (by rw [ht1]; exact hfz1)
    have hnewo : ∀ j ∈ o.indexes, ¬ Vis w2 j := by
      intro j hj h
      rcases (hz6 j).1 h with h | h
      · rcases (hv1 j).1 h with rfl | h
        · exact hio hj
        · exact hw.new j (by simp [DTree.indexes, hj]) h
      · exact hdisj _ h _ hj rfl
    -- the one child
    obtain ⟨vo, w3, ho1, ho2, ho3, ho4, ho5, ho6, ho7, ho8⟩ :=
      raw_child (nodes := nodes) (C := o) (w := w2) (p := i) (n := n) (val := ONE) hlo h0.2 hndo hn
        hz5 (by rw [hz4, ht1, hft]; simpa [keptVals_length] using hf1) hio (by
          unfold walkStep
          have a1 : w2.visited.getD i false = true := (hz6 i).2 (.inl ((hv1 i).2 (.inl rfl)))
          have a2 : w2.visited.getD z.root false = true := (hz6 _).2 (.inr (root_mem z))
          have a3 : w2.visited.getD o.root false = false := by
            simpa [Vis] using hnewo _ (root_mem o)
          rw [hz5, if_pos a1, nodeAt_eq hn, if_neg (by simp [hleaf]), hz, ho, Int.toNat_natCast,
            Int.toNat_natCast, if_neg (by rw [a2]; simp), if_pos (by rw [a3]; simp)])
        hz2 hz3 hnewo
        (iho hlo hndo (fun h => h0.2 (List.mem_of_mem_tail h))) (by rw [hz4, ht1]; simpa [keptVals_length] using hfo1)
    refine ⟨w1 :: (vz ++ vo), w3, .visited hs1 (hz1.trans ho1), ho2, ho3, by rw [ho4, hz4, ht1, hft, List.set_set]; rfl,
      ho5, ?_, ?_, ?_⟩
    · intro j
      rw [ho6, hz6, hv1]
      simp only [DTree.indexes, List.mem_cons, List.mem_append]
      grind
    · intro j hj
      simp only [DTree.indexes, List.tail_cons, List.mem_append, not_or] at hj
      rw [ho7 j hj.2, hz7 j hj.1, hw1]
    · simp only [List.map_cons, List.map_append, hz8, ho8, hz4, ht1, hcp1, hft, keptVals, List.set_set]

/-- On a tree the walk visits the nodes in pre-order, with the values of `keptVals`. -/
theorem raw_iterates {dim : Nat} {nodes : List Node} {T : DTree} (hT : IsRawTree dim nodes T)
    {ws : List WalkSt} (h : Iterates nodes (WalkSt.init dim nodes.length) ws) :
    ws.map (fun v => (v.cp, v.t)) = (keptVals T (List.replicate dim BOT)).1 := by
  obtain ⟨vs, w', hp⟩ := raw_steps T hT.laid hT.nodup (by
    have := hT.nodup; rw [indexes_eq, hT.root] at this; exact (List.nodup_cons.1 this).1)
    (WalkSt.init dim nodes.length) (by
      refine ⟨by simp [WalkSt.init], by simp [WalkSt.init], ?_, hT.root.symm, ?_⟩
      · intro f hf
        have := hT.range f hf
        simpa [WalkSt.init] using this
      · intro i _
        simp only [Vis, WalkSt.init, List.getD_eq_getElem?_getD, List.getElem?_replicate]
        split <;> simp)
  have hb := done_backup hT.laid hp.cp fun i hi => (hp.vis i).2 (.inr hi)
  have hf : walkStep nodes w' = (.finished, w') := by
    rw [hb]; unfold walkBackup; rw [if_pos (by rw [hp.cp]; exact hT.root)]
  rw [iterates_of_steps hp.steps hf h, hp.out]
  simp [WalkSt.init]


theorem den_unset {t : List FeatV} {f : Nat} : den (t.set f BOT) = (den t).unset f := by
  funext i
  simp only [den, PInst.unset, List.getElem?_set]
  by_cases hi : f = i
  · subst hi
    by_cases h : f < t.length <;> simp [h, featDen, BOT]
  · simp [hi, Ne.symm hi]

theorem keptVals_den {T : DTree} : ∀ {t : List FeatV}, (∀ f ∈ T.feats, f < t.length) →
    (keptVals T t).1.map (fun p => (p.1, den p.2)) = (T.kept (den t)).1 ∧ den (keptVals T t).2 = (T.kept (den t)).2 := by
  induction T with
  | leaf i v => intro t _; exact ⟨rfl, rfl⟩
  | node i f z o ihz iho =>
    intro t h
    have hf : f < t.length := h f (by simp [DTree.feats])
    obtain ⟨z1, z2⟩ := ihz (t := t.set f ZERO) fun g hg => by simpa using h g (by simp [DTree.feats, hg])
    rw [(den_set hf).1] at z1 z2
    have hl := keptVals_length z (t.set f ZERO)
    rw [List.length_set] at hl
    obtain ⟨o1, o2⟩ := iho (t := (keptVals z (t.set f ZERO)).2.set f ONE) fun g hg => by
      rw [List.length_set, hl]; exact h g (by simp [DTree.feats, hg])
    rw [(den_set (by rw [hl]; exact hf)).2, z2] at o1 o2
    constructor
    · simp only [keptVals, DTree.kept, List.map_cons, List.map_append, z1, o1]
    · simp only [keptVals, DTree.kept, den_unset, o2]

theorem raw_values {d : Nat} {nodes : List Node} {T : DTree} (hT : IsRawTree d nodes T) {ws : List WalkSt}
    (h : Iterates nodes (WalkSt.init d nodes.length) ws) : ws.map (fun w => (w.cp, den w.t)) = (T.kept bot).1 := by
  have h1 := raw_iterates hT h
  have h2 := (keptVals_den (T := T) (t := List.replicate d BOT) (by simpa using hT.range)).1
  have h3 : den (List.replicate d BOT) = bot := by
    funext i
    simp only [den, List.getElem?_replicate]
    split <;> simp_all [featDen, bot]
  rw [h3, ← h1, List.map_map] at h2
  exact h2

/-- Nothing is known after a subtree that was not known before. -/
theorem kept_sub (T : DTree) : ∀ e i, (T.kept e).2 i = none ∨ (T.kept e).2 i = e i := by
  induction T with
  | leaf _ _ => exact fun _ _ => .inr rfl
  | node j f z o ihz iho =>
    intro e i
    by_cases h : i = f
    · left; simp [DTree.kept, PInst.unset, h]
    · have h2 := iho ((z.kept (e.set f false)).2.set f true) i
      have h1 := ihz (e.set f false) i
      simp only [PInst.set, h, if_false] at h1 h2
      simp only [DTree.kept, PInst.unset, h, if_false]
      grind

theorem lastOn_cons {f g : Nat} {b : Bool} {w : List (Nat × Bool)} :
    lastOn f ((g, b) :: w) = match lastOn f w with | some c => some c | none => if g = f then some b else none := rfl

/-- The nodes in order, each with the way to it, where what is known holds the last decisions, or is known before. -/
theorem kept_ways (T : DTree) : ∀ e, (T.kept e).1.map (·.1) = T.ways.map (·.1) ∧
    ∀ (k : Nat) p w, (T.kept e).1[k]? = some p → T.ways[k]? = some w →
      ∀ f b, p.2 f = some b → lastOn f w.2 = some b ∨ lastOn f w.2 = none ∧ e f = some b := by
  induction T with
  | leaf i v =>
    intro e
    refine ⟨rfl, fun k p w hp hw f b h => ?_⟩
    cases k with
    | zero => cases hp; cases hw; exact .inr ⟨rfl, h⟩
    | succ k => cases hp
  | node i g z o ihz iho =>
    intro e
    have hz := ihz (e.set g false)
    have ho := iho ((z.kept (e.set g false)).2.set g true)
    have hl : (z.kept (e.set g false)).1.length = z.ways.length := by simpa using congrArg List.length hz.1
    constructor
    · simp only [DTree.kept, DTree.ways, List.map_cons, List.map_append, List.map_map, hz.1, ho.1]
      rfl
    · intro k p w hp hw f b h
      cases k with
      | zero => cases hp; cases hw; exact .inr ⟨rfl, h⟩
      | succ k =>
        simp only [DTree.kept, DTree.ways, List.getElem?_cons_succ] at hp hw
        by_cases hk : k < z.ways.length
        · rw [List.getElem?_append_left (by omega)] at hp
          rw [List.getElem?_append_left (by simpa using hk), List.getElem?_map, Option.map_eq_some_iff] at hw
          obtain ⟨w', hw, rfl⟩ := hw
          have := hz.2 k p w' hp hw f b h
          simp only [lastOn_cons, PInst.set] at this ⊢
          grind
        · rw [List.getElem?_append_right (by omega)] at hp
          rw [List.getElem?_append_right (by simpa using Nat.not_lt.1 hk), List.length_map, List.getElem?_map, Option.map_eq_some_iff] at hw
          obtain ⟨w', hw, rfl⟩ := hw
          have := ho.2 _ p w' (by rw [← hl]; exact hp) hw f b h
          have hs := kept_sub z (e.set g false) f
          simp only [lastOn_cons, PInst.set] at this hs ⊢
          grind

/-- A total instance is consistent with what is known at its leaf. -/
theorem kept_leaf {nodes : List Node} {T : DTree} (hl : LaysOut nodes T) (x : Nat → Bool) : ∀ e : PInst, (∀ i b, e i = some b → x i = b) →
    ∃ p ∈ (T.kept e).1, (∃ n, nodes[p.1]? = some n ∧ n.childless = true ∧ n.value = T.classify x) ∧ ∀ i b, p.2 i = some b → x i = b := by
  induction T with
  | leaf i v => exact fun e he => ⟨(i, e), by simp [DTree.kept], hl, he⟩
  | node i f z o ihz iho =>
    intro e he
    obtain ⟨-, hz, ho⟩ := hl
    cases hx : x f with
    | false =>
      obtain ⟨p, hp, h1, h2⟩ := ihz hz (e.set f false) (by
        intro j b h
        simp only [PInst.set] at h
        split at h
        · next hj => subst hj; rw [hx]; simpa using h
        · exact he j b h)
      exact ⟨p, by simp [DTree.kept, hp], by simpa [DTree.classify, hx] using h1, h2⟩
    | true =>
      obtain ⟨p, hp, h1, h2⟩ := iho ho ((z.kept (e.set f false)).2.set f true) (by
        intro j b h
        simp only [PInst.set] at h
        split at h
        · next hj => subst hj; rw [hx]; simpa using h
        · next hj =>
          rcases kept_sub z (e.set f false) j with h0 | h0
          · rw [h0] at h; cases h
          · rw [h0] at h; simp only [PInst.set, hj, if_false] at h; exact he j b h)
      exact ⟨p, by simp [DTree.kept, hp], by simpa [DTree.classify, hx] using h1, h2⟩

theorem kept_dfs {d : Nat} {nodes : List Node} {T : DTree} (hl : LaysOut nodes T) {e : PInst} (h : TellsApart d nodes (T.kept bot).1 e) :
    DFS d T e := by
  intro e' he'
  have key : ∀ x y, Completes d x e' → Completes d y e' → T.classify x = true → T.classify y = false → False := by
    intro x y hx hy h1 h2
    obtain ⟨p, hp, ⟨n, hn, hnc, hnv⟩, hpx⟩ := kept_leaf hl x bot (by simp [bot])
    obtain ⟨q, hq, ⟨m, hm, hmc, hmv⟩, hqy⟩ := kept_leaf hl y bot (by simp [bot])
    obtain ⟨i, hi, a, b, c, hne⟩ := h p hp q hq n m hn hm hnc hmc (hnv.trans h1) (hmv.trans h2)
    obtain ⟨v, hv⟩ := Option.ne_none_iff_exists'.1 (mt (he' i hi).1 a)
    obtain ⟨b1, hb⟩ := Option.ne_none_iff_exists'.1 b
    obtain ⟨c1, hc⟩ := Option.ne_none_iff_exists'.1 c
    apply hne
    rw [hb, hc, ← hpx i b1 hb, ← hqy i c1 hc, hx i hi v hv, hy i hi v hv]
  refine ⟨T.classify fun i => (e' i).getD false, fun x hx => ?_⟩
  have h0 : Completes d (fun i => (e' i).getD false) e' := fun i _ v hv => by simp [hv]
  cases h1 : T.classify x <;> cases h2 : T.classify fun i => (e' i).getD false
  · rfl
  · exact (key _ _ h0 hx h2 h1).elim
  · exact (key _ _ hx h0 h1 h2).elim
  · rfl

end Goexpdt

import Verif.Lemmas.WalkIdx
import Verif.Lemmas.Diagram
import Verif.Spec.DiagramWalk
/- The walk over a decision diagram: every node is visited on the first path to it. -/
namespace Goexpdt
open Spec

variable {d : Nat} {nodes : List Node} {T C z : DTree}

/-! ### First entries -/

theorem firstOf_append {α : Type} (l1 l2 : List (Nat × α)) :
    firstOf (l1 ++ l2) = firstOf l1 ++ (firstOf l2).filter fun q => decide (q.1 ∉ l1.map (·.1)) := by
  induction l1 with
  | nil => simp only [List.nil_append, firstOf, List.map_nil, List.not_mem_nil, not_false_eq_true, decide_true]; exact (List.filter_eq_self.2 fun _ _ => rfl).symm
  | cons p l1 ih =>
    simp only [List.cons_append, firstOf, ih, List.filter_append, List.filter_filter, List.cons.injEq, true_and]
    congr 2
    funext q
    simp only [List.map_cons, List.mem_cons, not_or, ne_eq, Bool.decide_and]

theorem firstOf_sub {α : Type} (l : List (Nat × α)) : ∀ p ∈ firstOf l, p ∈ l := by
  induction l with
  | nil => simp [firstOf]
  | cons p l ih =>
    intro q hq
    simp only [firstOf, List.mem_cons, List.mem_filter] at hq ⊢
    rcases hq with rfl | ⟨hq, -⟩
    · exact .inl rfl
    · exact .inr (ih q hq)

theorem firstOf_map {α β : Type} (g : α → β) (l : List (Nat × α)) :
    firstOf (l.map fun p => (p.1, g p.2)) = (firstOf l).map fun p => (p.1, g p.2) := by
  induction l with
  | nil => rfl
  | cons p l ih => simp only [List.map_cons, firstOf, ih, List.filter_map]; rfl

theorem firstOf_nodup {α : Type} {l : List (Nat × α)} (h : (l.map (·.1)).Nodup) : firstOf l = l := by
  induction l with
  | nil => rfl
  | cons p l ih =>
    simp only [List.map_cons, List.nodup_cons, List.mem_map, not_exists, not_and] at h
    rw [firstOf, ih h.2, List.filter_eq_self.2]
    intro q hq
    simpa using h.1 q hq

/-! ### What a node slice says about the diagrams laid out in it -/

theorem preVals_fst (t : List FeatV) (T : DTree) : (preVals t T).map (·.1) = T.indexes := by
  induction T generalizing t with
  | leaf i v => rfl
  | node i f z o ihz iho => simp [preVals, DTree.indexes, ihz, iho]

theorem laid_unique (h1 : LaysOut nodes C) : ∀ {D : DTree}, LaysOut nodes D → C.root = D.root → C = D := by
  induction C with
  | leaf i v =>
    intro D h2 hr
    obtain ⟨n, hn, hl, hv⟩ := h1
    cases D with
    | leaf j w =>
      obtain rfl : i = j := hr
      obtain ⟨m, hm, -, hw⟩ := h2
      rw [hn] at hm; cases hm
      rw [← hv, ← hw]
    | node j f z o =>
      obtain rfl : i = j := hr
      obtain ⟨⟨m, hm, hl', -⟩, -⟩ := h2
      rw [hn] at hm; cases hm
      rw [hl] at hl'; cases hl'
  | node i f z o ihz iho =>
    intro D h2 hr
    obtain ⟨⟨n, hn, hl, hf, hz, ho⟩, h3, h4⟩ := h1
    cases D with
    | leaf j w =>
      obtain rfl : i = j := hr
      obtain ⟨m, hm, hl', -⟩ := h2
      rw [hn] at hm; cases hm
      rw [hl] at hl'; cases hl'
    | node j f' z' o' =>
      obtain rfl : i = j := hr
      obtain ⟨⟨m, hm, -, hf', hz', ho'⟩, h5, h6⟩ := h2
      rw [hn] at hm; cases hm
      have e1 := ihz h3 h5 (by have := hz.symm.trans hz'; omega)
      have e2 := iho h4 h6 (by have := ho.symm.trans ho'; omega)
      have e3 : f = f' := by have := hf.symm.trans hf'; omega
      rw [e1, e2, e3]

/-- A diagram whose root is a node of another one is a part of it. -/
theorem laid_part (h1 : LaysOut nodes C) (h2 : LaysOut nodes T) (hr : C.root ∈ T.indexes) :
    (∀ i ∈ C.indexes, i ∈ T.indexes) ∧ C.indexes.length ≤ T.indexes.length := by
  induction T with
  | leaf i v =>
    have := laid_unique h1 h2 (by simpa [DTree.indexes, DTree.root] using hr)
    rw [this]; exact ⟨fun _ h => h, Nat.le_refl _⟩
  | node i f z o ihz iho =>
    simp only [DTree.indexes, List.mem_cons, List.mem_append] at hr
    rcases hr with hr | hr | hr
    · have := laid_unique h1 h2 hr
      rw [this]; exact ⟨fun _ h => h, Nat.le_refl _⟩
    · obtain ⟨a, b⟩ := ihz h2.2.1 hr
      exact ⟨fun i hi => by simp [DTree.indexes, a i hi], by simp [DTree.indexes]; omega⟩
    · obtain ⟨a, b⟩ := iho h2.2.2 hr
      exact ⟨fun i hi => by simp [DTree.indexes, a i hi], by simp [DTree.indexes]; omega⟩

theorem laid_acyclic {i f : Nat} {z o : DTree} (h : LaysOut nodes (.node i f z o)) : i ∉ z.indexes ∧ i ∉ o.indexes := by
  constructor
  · intro hi
    have := (laid_part h h.2.1 hi).2
    simp [DTree.indexes] at this; omega
  · intro hi
    have := (laid_part h h.2.2 hi).2
    simp [DTree.indexes] at this; omega

/-! ### The walk -/

/-- A node that has been visited and is not on the path to the current one has been left. -/
def Left (nodes : List Node) (w : WalkSt) (stk : List Nat) : Prop :=
  ∀ C, LaysOut nodes C → Vis w C.root → C.root ∉ stk → ∀ i ∈ C.indexes, Vis w i

/-- The state of the walk at a node it has not visited. -/
structure DiagPre (nodes : List Node) (T : DTree) (w : WalkSt) (stk : List Nat) : Prop where
  lenP : w.prev.length = nodes.length
  lenV : w.visited.length = nodes.length
  feats : ∀ f ∈ T.feats, f < w.t.length ∧ w.t.getD f 0 = BOT
  cp : w.cp = T.root
  new : ¬ Vis w T.root
  above : ∀ i ∈ stk, i ∉ T.indexes
  left : Left nodes w stk

/-- What the walk has done when it is about to go back up from that node. -/
structure DiagPost (nodes : List Node) (T : DTree) (w : WalkSt) (vs : List WalkSt) (w' : WalkSt) : Prop where
  steps : Steps nodes w vs w'
  lenP : w'.prev.length = nodes.length
  lenV : w'.visited.length = nodes.length
  t : w'.t = w.t
  cp : w'.cp = T.root
  vis : ∀ i, Vis w' i ↔ Vis w i ∨ i ∈ T.indexes
  prev : ∀ i, Vis w i ∨ i = T.root → w'.prev.getD i 0 = w.prev.getD i 0
  out : vs.map (fun v => (v.cp, v.t)) = (firstOf (preVals w.t T)).filter fun p => !w.visited.getD p.1 false

theorem diag_child {w : WalkSt} {p : Nat} {n : Node} {val : FeatV} {stk : List Nat}
    (hl : LaysOut nodes C) (h0 : 0 ∉ C.indexes) (hn : nodes[p]? = some n) (hcp : w.cp = p)
    (hfl : n.feat.toNat < w.t.length) (hfb : w.t.getD n.feat.toNat 0 = BOT)
    (hstep : ¬ Vis w C.root → walkStep nodes w = walkDown nodes w C.root val)
    (hlen : w.prev.length = nodes.length) (hlenV : w.visited.length = nodes.length)
    (ha : ∀ i ∈ stk, i ∉ C.indexes) (hleft : Left nodes w stk)
    (ih : ∀ w : WalkSt, DiagPre nodes C w stk → ∃ vs w', DiagPost nodes C w vs w')
    (hfe : ∀ f ∈ C.feats, f < w.t.length ∧ w.t.getD f 0 = BOT ∧ f ≠ n.feat.toNat) :
    ∃ vs w', Steps nodes w vs w' ∧ w'.prev.length = nodes.length ∧
      w'.visited.length = nodes.length ∧ w'.t = w.t ∧ w'.cp = p ∧
      (∀ i, Vis w' i ↔ Vis w i ∨ i ∈ C.indexes) ∧
      (∀ i, Vis w i → w'.prev.getD i 0 = w.prev.getD i 0) ∧
      vs.map (fun v => (v.cp, v.t)) = (firstOf (preVals (w.t.set n.feat.toNat val) C)).filter fun p => !w.visited.getD p.1 false := by
  by_cases hv : Vis w C.root
  · have hall := hleft C hl hv fun h => ha _ h (root_mem C)
    refine ⟨[], w, .refl, hlen, hlenV, rfl, hcp, fun i => ⟨.inl, fun h => h.elim id (hall i)⟩, fun _ _ => rfl, ?_⟩
    symm
    simp only [List.map_nil, List.filter_eq_nil_iff]
    intro q hq
    have : q.1 ∈ C.indexes := by
      rw [← preVals_fst]; exact List.mem_map.2 ⟨q, firstOf_sub _ q hq, rfl⟩
    have := hall _ this
    unfold Vis at this
    rw [this]; simp
  · have hrlt := laysOut_lt hl _ (root_mem C)
    obtain ⟨vs, w2, h2⟩ := ih (walkDown nodes w C.root val).2 (by
      refine ⟨by simp [walkDown, hlen], hlenV, ?_, rfl, hv, ha, hleft⟩
      intro f hf
      have := hfe f hf
      simp only [walkDown, hcp, nodeAt_eq hn, List.length_set]
      refine ⟨this.1, ?_⟩
      rw [List.getD_eq_getElem?_getD, List.getElem?_set_ne (Ne.symm this.2.2),
        ← List.getD_eq_getElem?_getD]
      exact this.2.1)
    have hs1 : walkStep nodes w = (.moved, (walkDown nodes w C.root val).2) := hstep hv
    have hb : walkStep nodes w2 = walkBackup nodes w2 :=
      done_backup hl h2.cp fun i hi => (h2.vis i).2 (.inr hi)
    have hcne : w2.cp ≠ 0 := by rw [h2.cp]; intro h; exact h0 (h ▸ root_mem C)
    have hprev : w2.prev.getD w2.cp 0 = p := by
      rw [h2.cp, h2.prev _ (.inr rfl)]; simp [walkDown, List.getD, hlen, hrlt, hcp]
    have hs2 : walkStep nodes w2 = (.moved, { w2 with cp := p, t := w.t }) := by
      rw [hb]
      unfold walkBackup
      rw [if_neg hcne, hprev]
      simp only [h2.t, walkDown, hcp, nodeAt_eq hn]
      rw [set_set_bot hfb hfl]
    refine ⟨vs, { w2 with cp := p, t := w.t }, ?_, h2.lenP, h2.lenV, rfl, rfl, h2.vis, ?_, ?_⟩
    · have := (Steps.moved hs1 h2.steps).trans (.moved hs2 .refl)
      simpa using this
    · intro i hi
      have h3 := h2.prev i (.inl hi)
      rw [h3]
      have : C.root ≠ i := fun h => hv (h ▸ hi)
      simp [walkDown, List.getD, this]
    · rw [h2.out]; simp [walkDown, hcp, nodeAt_eq hn]

theorem diag_steps (T : DTree) (hl : LaysOut nodes T) (hro : T.ReadOnce) (h0 : 0 ∉ T.indexes.tail) :
    ∀ (w : WalkSt) (stk : List Nat), DiagPre nodes T w stk → ∃ vs w', DiagPost nodes T w vs w' := by
  induction T with
  | leaf i v =>
    intro w stk hw
    have hcp : w.cp = i := hw.cp
    have hlt := laysOut_lt hl i (by simp [DTree.indexes])
    have hnv : w.visited.getD i false = false := by
      have := hw.new; simpa [Vis, DTree.root] using this
    refine ⟨[{ w with visited := w.visited.set w.cp true }],
      { w with visited := w.visited.set w.cp true },
      .visited (by unfold walkStep; rw [if_neg (by rw [hcp, hnv]; simp)]) .refl,
      hw.lenP, by simp [hw.lenV], rfl, hcp, ?_, fun _ _ => rfl, by simp only [preVals, firstOf, List.filter, hnv]; simp [hcp]⟩
    intro j
    rw [vis_set (w := w) (w' := { w with visited := w.visited.set w.cp true }) rfl
      (by rw [hw.lenV, hcp]; exact hlt)]
    simp [DTree.indexes, hcp]; grind
  | node i f z o ihz iho =>
    intro w stk hw
    have hcp : w.cp = i := hw.cp
    have hlt := laysOut_lt hl i (by simp [DTree.indexes])
    obtain ⟨hiz, hio⟩ := laid_acyclic hl
    obtain ⟨⟨n, hn, hleaf, hf, hz, ho⟩, hlz, hlo⟩ := hl
    replace hleaf : n.isLeaf = false := hleaf
    simp only [DTree.indexes, List.tail_cons, List.mem_append, not_or] at h0
    obtain ⟨hfz, hfo, hroz, hroo⟩ := hro
    have hft : n.feat.toNat = f := by rw [hf]; simp
    have hnv : w.visited.getD i false = false := by
      have := hw.new; simpa [Vis, DTree.root] using this
    -- visit the node
    obtain ⟨w1, hw1⟩ : ∃ w1, w1 = { w with visited := w.visited.set w.cp true } := ⟨_, rfl⟩
    have hs1 : walkStep nodes w = (.visited, w1) := by
      rw [hw1]; unfold walkStep; rw [if_neg (by rw [hcp, hnv]; simp)]
    have hv1 : ∀ j, Vis w1 j ↔ j = i ∨ Vis w j := by
      intro j
      rw [vis_set (w := w) (w' := w1) (by rw [hw1]) (by rw [hw.lenV, hw1]; simpa [hcp] using hlt),
        hw1]
      simp [hcp]
    have hcp1 : w1.cp = i := by rw [hw1]; exact hcp
    have hf1 := hw.feats f (by simp [DTree.feats])
    have hfz1 : ∀ g ∈ z.feats, g < w.t.length ∧ w.t.getD g 0 = BOT ∧ g ≠ n.feat.toNat := by
      intro g hg
      have := hw.feats g (by simp [DTree.feats, hg])
      exact ⟨this.1, this.2, by rw [hft]; rintro rfl; exact hfz hg⟩
    have hfo1 : ∀ g ∈ o.feats, g < w.t.length ∧ w.t.getD g 0 = BOT ∧ g ≠ n.feat.toNat := by
      intro g hg
      have := hw.feats g (by simp [DTree.feats, hg])
      exact ⟨this.1, this.2, by rw [hft]; rintro rfl; exact hfo hg⟩
    have ht1 : w1.t = w.t := by rw [hw1]
    have hleft1 : Left nodes w1 (i :: stk) := by
      intro C hC hr hs j hj
      simp only [List.mem_cons, not_or] at hs
      rcases (hv1 _).1 hr with h | h
      · exact absurd h hs.1
      · exact (hv1 j).2 (.inr (hw.left C hC h hs.2 j hj))
    -- the zero child
    obtain ⟨vz, w2, hz1, hz2, hz3, hz4, hz5, hz6, hz7, hz8⟩ :=
      diag_child (nodes := nodes) (C := z) (w := w1) (p := i) (n := n) (val := ZERO) (stk := i :: stk) hlz h0.1 hn
        hcp1 (by rw [ht1, hft]; exact hf1.1) (by rw [ht1, hft]; exact hf1.2) (by
          intro hnew
          unfold walkStep
          have a1 : w1.visited.getD i false = true := (hv1 i).2 (.inl rfl)
          have a2 : w1.visited.getD z.root false = false := by simpa [Vis] using hnew
          rw [hcp1, if_pos a1, nodeAt_eq hn, if_neg (by simp [hleaf]), hz, Int.toNat_natCast,
            if_pos (by rw [a2]; simp)])
        (by rw [hw1]; exact hw.lenP) (by rw [hw1]; simp [hw.lenV])
        (by
          intro j hj hm
          rcases List.mem_cons.1 hj with rfl | hj
          · exact hiz hm
          · exact hw.above j hj (by simp [DTree.indexes, hm]))
        hleft1
        (fun w hw => ihz hlz hroz (fun h => h0.1 (List.mem_of_mem_tail h)) w _ hw) (by rw [ht1]; exact hfz1)
    have hleft2 : Left nodes w2 (i :: stk) := by
      intro C hC hr hs j hj
      rcases (hz6 _).1 hr with h | h
      · exact (hz6 j).2 (.inl (hleft1 C hC h hs j hj))
      · exact (hz6 j).2 (.inr ((laid_part hC hlz h).1 j hj))
    -- the one child
    obtain ⟨vo, w3, ho1, ho2, ho3, ho4, ho5, ho6, ho7, ho8⟩ :=
      diag_child (nodes := nodes) (C := o) (w := w2) (p := i) (n := n) (val := ONE) (stk := i :: stk) hlo h0.2 hn
        hz5 (by rw [hz4, ht1, hft]; exact hf1.1) (by rw [hz4, ht1, hft]; exact hf1.2) (by
          intro hnew
          unfold walkStep
          have a1 : w2.visited.getD i false = true := (hz6 i).2 (.inl ((hv1 i).2 (.inl rfl)))
          have a2 : w2.visited.getD z.root false = true := (hz6 _).2 (.inr (root_mem z))
          have a3 : w2.visited.getD o.root false = false := by simpa [Vis] using hnew
          rw [hz5, if_pos a1, nodeAt_eq hn, if_neg (by simp [hleaf]), hz, ho, Int.toNat_natCast,
            Int.toNat_natCast, if_neg (by rw [a2]; simp), if_pos (by rw [a3]; simp)])
        hz2 hz3
        (by
          intro j hj hm
          rcases List.mem_cons.1 hj with rfl | hj
          · exact hio hm
          · exact hw.above j hj (by simp [DTree.indexes, hm]))
        hleft2
        (fun w hw => iho hlo hroo (fun h => h0.2 (List.mem_of_mem_tail h)) w _ hw) (by rw [hz4, ht1]; exact hfo1)
    refine ⟨w1 :: (vz ++ vo), w3, .visited hs1 (hz1.trans ho1), ho2, ho3, by rw [ho4, hz4, ht1],
      ho5, ?_, ?_, ?_⟩
    · intro j
      rw [ho6, hz6, hv1]
      simp only [DTree.indexes, List.mem_cons, List.mem_append]
      grind
    · intro j hj
      have hj1 : Vis w1 j := (hv1 j).2 (hj.elim .inr .inl)
      rw [ho7 j ((hz6 j).2 (.inl hj1)), hz7 j hj1, hw1]
    · have g1 : ∀ j, w1.visited.getD j false = (decide (j = i) || w.visited.getD j false) := by
        intro j
        have := hv1 j
        unfold Vis at this
        rw [Bool.eq_iff_iff, this]
        simp
      have g2 : ∀ j, w2.visited.getD j false = (decide (j ∈ z.indexes) || (decide (j = i) || w.visited.getD j false)) := by
        intro j
        have := hz6 j
        unfold Vis at this
        rw [← g1, Bool.eq_iff_iff, this]
        simp [Or.comm]
      simp only [List.map_cons, List.map_append, hz8, ho8, hz4, ht1, hcp1, hft, preVals, firstOf, firstOf_append, preVals_fst,
        List.filter_append, List.filter_filter, List.filter_cons, hnv, Bool.not_false, if_true, g1, g2]
      congr 2
      · congr 1; funext q; simp only [Bool.not_or]; grind
      · congr 1; funext q; simp only [Bool.not_or]; grind

/-- The walk visits the nodes of a diagram in the order of the first paths to them, with the values of these paths. -/
theorem diagram_iterates (hD : IsDiagram d nodes T) {ws : List WalkSt} (h : Iterates nodes (WalkSt.init d nodes.length) ws) :
    ws.map (fun v => (v.cp, v.t)) = firstOf (preVals (List.replicate d BOT) T) := by
  have hno : ∀ i, ¬ Vis (WalkSt.init d nodes.length) i := by
    intro i
    simp only [Vis, WalkSt.init, List.getD_eq_getElem?_getD, List.getElem?_replicate]
    split <;> simp
  obtain ⟨vs, w', hp⟩ := diag_steps T hD.laid hD.once (by
    have hl := hD.laid
    have hr := hD.root
    cases T with
    | leaf i v => simp [DTree.indexes]
    | node i f z o =>
      obtain rfl : i = 0 := hr
      simpa [DTree.indexes] using laid_acyclic hl)
    (WalkSt.init d nodes.length) [] (by
      refine ⟨by simp [WalkSt.init], by simp [WalkSt.init], ?_, hD.root.symm, hno _, by simp, fun C _ hv => absurd hv (hno _)⟩
      intro f hf
      have := hD.range f hf
      simp [WalkSt.init, List.getD, this])
  have hb := done_backup hD.laid hp.cp fun i hi => (hp.vis i).2 (.inr hi)
  have hf : walkStep nodes w' = (.finished, w') := by
    rw [hb]; unfold walkBackup; rw [if_pos (by rw [hp.cp]; exact hD.root)]
  rw [iterates_of_steps hp.steps hf h, hp.out, List.filter_eq_self.2]
  · rfl
  · intro p _
    have := hno p.1
    unfold Vis at this
    simpa using this

theorem diagram_values (hD : IsDiagram d nodes T) {ws : List WalkSt} (h : Iterates nodes (WalkSt.init d nodes.length) ws) :
    ws.map (fun w => (w.cp, den w.t)) = firstPaths T ∧ ∀ w ∈ ws, GoodVals d w.t := by
  have key := diagram_iterates hD h
  constructor
  · have h1 : ws.map (fun w => (w.cp, den w.t)) = (ws.map fun v => (v.cp, v.t)).map fun p => (p.1, den p.2) := by simp
    rw [h1, key, ← firstOf_map, preVals_den (by simpa using hD.range), den_replicate]
    rfl
  · intro w hw
    have hm : (w.cp, w.t) ∈ preVals (List.replicate d BOT) T := firstOf_sub _ _ (key ▸ List.mem_map.2 ⟨w, hw, rfl⟩)
    have := preVals_valid (T := T) (t := List.replicate d BOT) (by intro v hv; simp at hv; simp [hv.2]) _ hm
    exact ⟨by simpa using this.1, this.2⟩

end Goexpdt

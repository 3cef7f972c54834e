import Verif.Lemmas.WalkIdx
/-
Properties C17, C18: the walk over the nodes of a model.
-/
namespace Goexpdt.Props
open Goexpdt Spec

/-! ### Example models used below -/

/-- A model that is not a tree: node 1 is shared, and node 2 points back to node 0. -/
def exGraph : List Node :=
  [⟨false, 0, 1, 2⟩, ⟨true, -1, -1, -1⟩, ⟨false, 1, 1, 0⟩, ⟨false, -1, -1, -1⟩]

/-- A decision tree over two features, laid out with the children before their siblings' parent. -/
def exNodes : List Node :=
  [⟨false, 1, 2, 1⟩, ⟨true, -1, -1, -1⟩, ⟨false, 0, 4, 3⟩, ⟨true, -1, -1, -1⟩, ⟨false, -1, -1, -1⟩]

/-- The tree laid out by `exNodes`. -/
def exTree : DTree := .node 0 1 (.node 2 0 (.leaf 4 false) (.leaf 3 true)) (.leaf 1 true)

theorem exNodes_isTree : IsTree 2 exNodes exTree := by
  refine ⟨?_, rfl, by decide, by decide, ?_⟩
  · simp [exTree, LaysOut, exNodes, DTree.root, Node.childless]
  · simp [exTree, DTree.ReadOnce, DTree.feats]

/-! ### C17 -/

/-- C17 (termination, exactly one visit): once validation has accepted the model, the calls of `Next`
end, at most one node per entry of the slice is reported, no node is reported twice, and the reported
nodes are exactly the ones reachable from node 0. Nothing is assumed of the model: children may be
shared or cyclic. -/
theorem C17_terminates (dim : Nat) (nodes : List Node) (w0 : WalkSt)
    (h : newNodeAsValuesIter dim nodes = .ok w0) :
    ∃ ws, Iterates nodes w0 ws ∧ ws.length ≤ nodes.length ∧ (ws.map (·.cp)).Nodup ∧
      (∀ i, i ∈ ws.map (·.cp) ↔ Reach nodes i) ∧ (∀ w ∈ ws, w.t.length = dim) ∧
      ∀ ws', Iterates nodes w0 ws' → ws' = ws := by
  obtain ⟨h1, h2, rfl⟩ := newIter_ok h
  obtain ⟨ws, a, b, c, d, e⟩ := iterates_init h1 h2
  exact ⟨ws, a, b, c, d, e, fun ws' h' => h'.unique a⟩

/-- C17 (indexes): in every state the walk passes through, the turn of the loop with all index
accesses checked gives the same result as the unchecked one of the model: no access is out of
range. -/
theorem C17_in_range (dim : Nat) (nodes : List Node) (w0 w : WalkSt)
    (h : newNodeAsValuesIter dim nodes = .ok w0) (hp : Passes nodes w0 w) :
    walkStepIdx nodes w = .ok (walkStep nodes w) := by
  obtain ⟨h1, h2, rfl⟩ := newIter_ok h
  obtain ⟨stk, hi⟩ := passes_inv h2 ⟨_, WInv.init h1⟩ hp
  exact walkStepIdx_eq h2 hi

/-- C17 (indexes): a checked access panics exactly if the index is out of range. -/
theorem C17_checked {α : Type} (l : List α) (i : Int) (a : α) :
    (0 ≤ i ∧ i < l.length → (∃ b, l[i.toNat]? = some b ∧ goIdx l i = .ok b) ∧ goSet l i a = .ok (l.set i.toNat a)) ∧
    (¬ (0 ≤ i ∧ i < l.length) → (∃ m, goIdx l i = .error (.panic m)) ∧ ∃ m, goSet l i a = .error (.panic m)) := by
  unfold goIdx goSet
  constructor
  · rintro ⟨h1, h2⟩
    have h3 : i.toNat < l.length := by omega
    have h4 : ¬ (i < 0 ∨ i ≥ l.length) := by omega
    simp [h4, List.getElem?_eq_getElem h3]
    grind
  · intro h
    have h4 : i < 0 ∨ i ≥ l.length := by omega
    refine ⟨?_, _, if_pos h4⟩
    split
    · exact ⟨_, rfl⟩
    · rw [List.getElem?_eq_none (by omega)]
      exact ⟨_, rfl⟩

example : goIdx [7, 8] 1 = .ok 8 ∧ goSet [7, 8] 2 9 = .error (.panic "index out of range") := by decide

/-- C17 (which models are accepted): validation accepts exactly the non-empty slices in which the
feature and the children of every internal node are in range; everything else is an error. -/
theorem C17_validation (dim : Nat) (nodes : List Node) :
    ((∃ w0, newNodeAsValuesIter dim nodes = .ok w0) ↔
      nodes ≠ [] ∧ ∀ n ∈ nodes, n.childless = false → 0 ≤ n.feat ∧ n.feat < dim ∧
        0 ≤ n.zChild ∧ n.zChild < nodes.length ∧ 0 ≤ n.oChild ∧ n.oChild < nodes.length) ∧
    (∀ e, newNodeAsValuesIter dim nodes = .error e → ∃ m, e = .msg m) := by
  refine ⟨⟨?_, ?_⟩, ?_⟩
  · rintro ⟨w0, h⟩
    obtain ⟨h1, h2, -⟩ := newIter_ok h
    refine ⟨h1, fun n hn hl => ?_⟩
    obtain ⟨i, hi⟩ := List.mem_iff_getElem?.1 hn
    exact h2 i n hi hl
  · rintro ⟨h1, h2⟩
    refine ⟨WalkSt.init dim nodes.length, ?_⟩
    unfold newNodeAsValuesIter
    rw [if_neg (by simpa using h1), validate_of_valid
      fun i n hi hl => h2 n (List.mem_of_getElem? hi) hl]
  · intro e h
    unfold newNodeAsValuesIter at h
    split at h
    · exact ⟨_, by simpa using h.symm⟩
    · have hv : ∀ ns e, validateNodes dim nodes.length ns = .error e → ∃ m, e = .msg m := by
        intro ns
        induction ns with
        | nil => intro e h; simp [validateNodes] at h
        | cons n ns ih =>
          intro e h
          simp only [validateNodes] at h
          split at h
          · next e' h' =>
            simp only [Except.error.injEq] at h; subst h
            unfold validateNode at h'
            repeat' split at h'
            all_goals first | (simp at h'; done) | exact ⟨_, by simpa using h'.symm⟩
          · exact ih e h
      split at h
      · next e' h' => simp only [Except.error.injEq] at h; subst h; exact hv _ _ h'
      · simp at h

example : newNodeAsValuesIter 2 exGraph = .ok (WalkSt.init 2 4) := by decide
example : (match walkNext exGraph 6 (WalkSt.init 2 4) with
    | .ok (some w) => (match walkNext exGraph 6 w with
      | .ok (some w) => (match walkNext exGraph 6 w with
        | .ok (some w) => some (w.cp, w.t, walkNext exGraph 6 w)
        | _ => none)
      | _ => none)
    | _ => none) = some (2, [ONE, BOT], .ok none) := by decide

/-- C17 for the walk of the dfs extension (the same code, with its own loop): on every model with
at least one node it returns the leafs found by the walk, or the validation error; it never
diverges nor panics. -/
theorem C17_dfs_walk (dim : Nat) (nodes : List Node) (hne : nodes ≠ []) :
    (∃ m, leafsAsConsts dim nodes = .error (.msg m) ∧ newNodeAsValuesIter dim nodes = .error (.msg m)) ∨
    (∃ ws, newNodeAsValuesIter dim nodes = .ok (WalkSt.init dim nodes.length) ∧
      Iterates nodes (WalkSt.init dim nodes.length) ws ∧
      leafsAsConsts dim nodes = .ok
        ((ws.filter fun v => (nodeAt nodes v.cp).childless && (nodeAt nodes v.cp).value).map
            fun v => { val := v.t },
         (ws.filter fun v => (nodeAt nodes v.cp).childless && !(nodeAt nodes v.cp).value).map
            fun v => { val := v.t })) := by
  have hlen : ¬ nodes.length = 0 := by simpa using hne
  cases h : newNodeAsValuesIter dim nodes with
  | error e =>
    obtain ⟨m, rfl⟩ := (C17_validation dim nodes).2 e h
    refine .inl ⟨m, ?_, rfl⟩
    unfold newNodeAsValuesIter at h
    rw [if_neg hlen] at h
    unfold leafsAsConsts
    split at h
    · next e' h' => simp only [Except.error.injEq] at h; rw [h]
    · simp at h
  | ok w0 =>
    obtain ⟨-, h2, rfl⟩ := newIter_ok h
    obtain ⟨ws, a, b, -⟩ := iterates_init hne h2
    refine .inr ⟨ws, rfl, a, ?_⟩
    have hc : Node.childless = Node.isLeaf := rfl
    rw [hc]
    unfold leafsAsConsts
    rw [validate_of_valid h2]
    simp only [if_neg hlen]
    rw [leafsLoop_spec a _ _ _ (by omega)]
    simp

/-- The walk of the dfs extension panics on a model without nodes. -/
theorem C17_dfs_walk_empty (dim : Nat) :
    leafsAsConsts dim [] = .error (.panic "index out of range") := by
  simp [leafsAsConsts, validateNodes]

/-! ### C18 -/

/-- C18: on a decision tree in which no path decides twice on a feature, however it is laid out in
the node slice, the successive values of the iterator are the partial instances `e_u` of the nodes
`u` of the tree, in pre-order, all of the dimension of the model and with proper feature values. -/
theorem C18_values (dim : Nat) (nodes : List Node) (T : DTree) (hT : IsTree dim nodes T)
    (ws : List WalkSt) (h : Iterates nodes (WalkSt.init dim nodes.length) ws) :
    ws.map (fun w => (w.cp, den w.t)) = T.nodeInsts bot ∧
    ∀ w ∈ ws, w.t.length = dim ∧ ValidVals w.t := by
  have key := tree_iterates hT h
  constructor
  · have := preVals_den (T := T) (t := List.replicate dim BOT)
      (by intro f hf; simpa using hT.range f hf)
    rw [← key, den_replicate, List.map_map] at this
    exact this
  · intro w hw
    have hm : (w.cp, w.t) ∈ preVals (List.replicate dim BOT) T := by
      rw [← key]; exact List.mem_map.2 ⟨w, hw, rfl⟩
    simpa using preVals_valid (by intro v hv; left; exact List.eq_of_mem_replicate hv) _ hm

/-- C18: the layout of a tree that covers its slice passes validation, also if features are decided on several times, so that `C18_values` applies
to what `newNodeAsValuesIter` returns. -/
theorem C18_accepted (dim : Nat) (nodes : List Node) (T : DTree) (hT : IsRawTree dim nodes T)
    (hC : Covers nodes T) : newNodeAsValuesIter dim nodes = .ok (WalkSt.init dim nodes.length) := by
  have hmem : ∀ (T : DTree), LaysOut nodes T → (∀ f ∈ T.feats, f < dim) → ∀ i ∈ T.indexes,
      ∀ n, nodes[i]? = some n → n.childless = false → 0 ≤ n.feat ∧ n.feat < dim ∧
        0 ≤ n.zChild ∧ n.zChild < nodes.length ∧ 0 ≤ n.oChild ∧ n.oChild < nodes.length := by
    intro T
    induction T with
    | leaf i v =>
      rintro ⟨n, hn, hl, -⟩ - j hj m hm hml
      simp only [DTree.indexes, List.mem_singleton] at hj
      subst hj
      rw [hn] at hm; simp only [Option.some.injEq] at hm; subst hm
      rw [hl] at hml; simp at hml
    | node i f z o ihz iho =>
      rintro ⟨⟨n, hn, hl, hf, hz, ho⟩, hlz, hlo⟩ hfe j hj m hm hml
      simp only [DTree.indexes, List.mem_cons, List.mem_append] at hj
      rcases hj with rfl | hj | hj
      · rw [hn] at hm; simp only [Option.some.injEq] at hm; subst hm
        have h1 := hfe f (by simp [DTree.feats])
        have h2 := laysOut_lt hlz _ (root_mem z)
        have h3 := laysOut_lt hlo _ (root_mem o)
        omega
      · exact ihz hlz (fun g hg => hfe g (by simp [DTree.feats, hg])) j hj m hm hml
      · exact iho hlo (fun g hg => hfe g (by simp [DTree.feats, hg])) j hj m hm hml
  have hne : nodes ≠ [] := by
    rintro rfl
    have := laysOut_lt hT.laid _ (root_mem T)
    simp at this
  unfold newNodeAsValuesIter
  rw [if_neg (by simpa using hne), validate_of_valid]
  intro i n hi hl
  exact hmem T hT.laid hT.range i
    (hC i (List.getElem?_eq_some_iff.1 hi).1) n hi hl

example : IsTree 2 exNodes exTree ∧ Covers exNodes exTree := by
  refine ⟨exNodes_isTree, ?_⟩
  unfold Covers; decide
example : (exTree.nodeInsts bot).map (fun p => (p.1, p.2 0, p.2 1)) =
    [(0, none, none), (2, none, some false), (4, some false, some false),
     (3, some true, some false), (1, none, some true)] := by decide

/-- C18 needs the condition on the features: when a path decides twice on a feature, going back up
erases the value given by the upper node, and the instance of a later node is wrong (here node 4
comes with feature 0 undefined, although it lies below the 1-branch of feature 0). -/
theorem C18_read_once_needed :
    ∃ nodes T, LaysOut nodes T ∧ T.root = 0 ∧ T.indexes.Nodup ∧ (∀ f ∈ T.feats, f < 2) ∧
      Covers nodes T ∧
      ∃ ws, Iterates nodes (WalkSt.init 2 nodes.length) ws ∧
        ∃ w ∈ ws, ∃ e, (w.cp, e) ∈ T.nodeInsts bot ∧ den w.t 0 ≠ e 0 := by
  refine ⟨[⟨false, 0, 1, 2⟩, ⟨false, -1, -1, -1⟩, ⟨false, 1, 3, 4⟩, ⟨false, 0, 5, 6⟩,
    ⟨true, -1, -1, -1⟩, ⟨true, -1, -1, -1⟩, ⟨true, -1, -1, -1⟩],
    .node 0 0 (.leaf 1 false) (.node 2 1 (.node 3 0 (.leaf 5 true) (.leaf 6 true)) (.leaf 4 true)),
    ?_, rfl, by decide, by decide, by unfold Covers; decide, ?_⟩
  · simp [LaysOut, DTree.root, Node.childless]
  · refine ⟨_, .step (by rfl) (.step (by rfl) (.step (by rfl) (.step (by rfl) (.step (by rfl)
      (.step (by rfl) (.step (by rfl) (.done (by rfl)))))))), _,
      .tail _ (.tail _ (.tail _ (.tail _ (.tail _ (.tail _ (.head _)))))),
      (bot.set 0 true).set 1 true, ?_, ?_⟩
    · show (4, _) ∈ _
      simp [DTree.nodeInsts]
    · decide

end Goexpdt.Props

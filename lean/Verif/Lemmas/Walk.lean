import Verif.Model.Walk
import Verif.Spec.Iter
/- Lemmas on the walk over the nodes of a model. -/
namespace Goexpdt
open Spec

/-- What validation establishes. -/
def Valid (dim : Nat) (nodes : List Node) : Prop :=
  ∀ (i : Nat) (n : Node), nodes[i]? = some n → n.isLeaf = false →
    0 ≤ n.feat ∧ n.feat < dim ∧ 0 ≤ n.zChild ∧ n.zChild < nodes.length ∧
    0 ≤ n.oChild ∧ n.oChild < nodes.length

theorem validateNode_ok {n : Node} {dim nlen : Nat} (h : validateNode n dim nlen = .ok ()) :
    n.isLeaf = false → 0 ≤ n.feat ∧ n.feat < dim ∧ 0 ≤ n.zChild ∧ n.zChild < nlen ∧
    0 ≤ n.oChild ∧ n.oChild < nlen := by
  intro hl
  unfold validateNode at h
  rw [if_neg (by simp [hl])] at h
  split at h
  · simp at h
  · split at h
    · simp at h
    · split at h
      · simp at h
      · omega

theorem validateNodes_ok {ns : List Node} {dim nlen : Nat}
    (h : validateNodes dim nlen ns = .ok ()) : ∀ n ∈ ns, validateNode n dim nlen = .ok () := by
  induction ns with
  | nil => simp
  | cons n ns ih =>
    unfold validateNodes at h
    split at h
    · simp at h
    · next hn =>
      intro m hm
      rcases List.mem_cons.1 hm with rfl | hm
      · exact hn
      · exact ih h m hm

theorem valid_of_validate {dim : Nat} {nodes : List Node}
    (h : validateNodes dim nodes.length nodes = .ok ()) : Valid dim nodes := by
  intro i n hi hl
  exact validateNode_ok (validateNodes_ok h n (List.mem_of_getElem? hi)) hl

theorem validateNode_of {n : Node} {dim nlen : Nat} (h : n.isLeaf = false →
      0 ≤ n.feat ∧ n.feat < dim ∧ 0 ≤ n.zChild ∧ n.zChild < nlen ∧ 0 ≤ n.oChild ∧ n.oChild < nlen) :
    validateNode n dim nlen = .ok () := by
  unfold validateNode
  split
  · rfl
  · next hl =>
    have := h (by simpa using hl)
    rw [if_neg (by omega), if_neg (by omega), if_neg (by omega)]

theorem validate_of_valid {dim : Nat} {nodes : List Node} (h : Valid dim nodes) :
    validateNodes dim nodes.length nodes = .ok () := by
  have : ∀ ns : List Node, (∀ n ∈ ns, n ∈ nodes) → validateNodes dim nodes.length ns = .ok () := by
    intro ns
    induction ns with
    | nil => intro _; rfl
    | cons n ns ih =>
      intro hm
      obtain ⟨i, hi⟩ := List.mem_iff_getElem?.1 (hm n (by simp))
      unfold validateNodes
      rw [validateNode_of (h i n hi)]
      exact ih fun m hm' => hm m (by simp [hm'])
  exact this nodes fun _ h => h

theorem newIter_ok {dim : Nat} {nodes : List Node} {w : WalkSt}
    (h : newNodeAsValuesIter dim nodes = .ok w) :
    nodes ≠ [] ∧ Valid dim nodes ∧ w = WalkSt.init dim nodes.length := by
  unfold newNodeAsValuesIter at h
  split at h
  · simp at h
  · next hn =>
    split at h
    · simp at h
    · next hv =>
      refine ⟨by intro h; simp [h] at hn, valid_of_validate hv, ?_⟩
      simpa using h.symm

theorem nodeAt_eq {nodes : List Node} {i : Nat} {n : Node} (h : nodes[i]? = some n) :
    nodeAt nodes i = n := by simp [nodeAt, List.getD, h]

theorem getElem?_nodeAt {nodes : List Node} {i : Nat} (h : i < nodes.length) :
    nodes[i]? = some (nodeAt nodes i) := by simp [nodeAt, List.getD, h]

/-- Node `i` is marked as visited. -/
def Vis (w : WalkSt) (i : Nat) : Prop := w.visited.getD i false = true

/-- The chain of `prev` pointers from the head of the list to node 0. -/
def Chain (prev : List Nat) : List Nat → Prop
  | [] => False
  | [a] => a = 0
  | a :: b :: r => prev.getD a 0 = b ∧ Chain prev (b :: r)

/-- Invariant of the walk; `stk` is the path from the current node up to node 0. -/
structure WInv (dim : Nat) (nodes : List Node) (w : WalkSt) (stk : List Nat) : Prop where
  lenT : w.t.length = dim
  lenP : w.prev.length = nodes.length
  lenV : w.visited.length = nodes.length
  head : stk.head? = some w.cp
  chain : Chain w.prev stk
  nodup : stk.Nodup
  inR : ∀ i ∈ stk, i < nodes.length ∧ Reach nodes i
  tailVis : ∀ i ∈ stk.tail, Vis w i ∧ (nodeAt nodes i).isLeaf = false
  closed : ∀ i, Vis w i → i ∉ stk → (nodeAt nodes i).isLeaf = true ∨
    (Vis w (nodeAt nodes i).zChild.toNat ∧ Vis w (nodeAt nodes i).oChild.toNat)
  visReach : ∀ i, Vis w i → i < nodes.length ∧ Reach nodes i

theorem WInv.init {dim : Nat} {nodes : List Node} (hne : nodes ≠ []) :
    WInv dim nodes (WalkSt.init dim nodes.length) [0] := by
  have h0 : 0 < nodes.length := List.length_pos_iff.2 hne
  have hv : ∀ i, ¬ Vis (WalkSt.init dim nodes.length) i := by
    intro i
    simp only [Vis, WalkSt.init, List.getD_eq_getElem?_getD, List.getElem?_replicate]
    split <;> simp
  exact ⟨by simp [WalkSt.init], by simp [WalkSt.init], by simp [WalkSt.init], rfl, rfl, by simp,
    by simp [h0, Reach.root], by simp, fun i h => absurd h (hv i), fun i h => absurd h (hv i)⟩

theorem Chain.set {prev : List Nat} {c x : Nat} {l : List Nat} (h : Chain prev l) (hc : c ∉ l) :
    Chain (prev.set c x) l := by
  induction l with
  | nil => exact h
  | cons a l ih =>
    cases l with
    | nil => exact h
    | cons b r =>
      refine ⟨?_, ih h.2 (by simp at hc ⊢; grind)⟩
      rw [← h.1]
      simp only [List.mem_cons, not_or] at hc
      simp [List.getD, hc.1]

/-- The possible turns of the loop in a state satisfying the invariant. -/
theorem walkStep_inv {dim : Nat} {nodes : List Node} {w : WalkSt} {stk : List Nat}
    (hva : Valid dim nodes) (hi : WInv dim nodes w stk) :
    -- an unvisited node is visited
    (¬ Vis w w.cp ∧ walkStep nodes w = (.visited, { w with visited := w.visited.set w.cp true }) ∧
      WInv dim nodes { w with visited := w.visited.set w.cp true } stk) ∨
    -- step down to an unvisited child
    (Vis w w.cp ∧ ∃ w', walkStep nodes w = (.moved, w') ∧ w'.visited = w.visited ∧ ¬ Vis w' w'.cp ∧
      WInv dim nodes w' (w'.cp :: stk)) ∨
    -- step up
    (Vis w w.cp ∧ ∃ w' a b r, walkStep nodes w = (.moved, w') ∧ w'.visited = w.visited ∧
      stk = a :: b :: r ∧ Vis w' w'.cp ∧ WInv dim nodes w' (b :: r)) ∨
    -- end
    (Vis w w.cp ∧ walkStep nodes w = (.finished, w) ∧ stk = [0] ∧
      ((nodeAt nodes 0).isLeaf = true ∨
        (Vis w (nodeAt nodes 0).zChild.toNat ∧ Vis w (nodeAt nodes 0).oChild.toNat))) := by
  obtain ⟨a, r, rfl⟩ : ∃ a r, stk = a :: r := by
    cases stk with
    | nil => exact absurd hi.chain (by simp [Chain])
    | cons a r => exact ⟨a, r, rfl⟩
  have hcp : w.cp = a := by have := hi.head; simp at this; exact this.symm
  have ha := hi.inR a (by simp)
  by_cases hv : Vis w w.cp
  · right
    have hv' : w.visited.getD w.cp false = true := hv
    -- backup
    have hback : ∀ (hcl : (nodeAt nodes a).isLeaf = true ∨
          (Vis w (nodeAt nodes a).zChild.toNat ∧ Vis w (nodeAt nodes a).oChild.toNat)),
        walkStep nodes w = walkBackup nodes w →
        (Vis w w.cp ∧ ∃ w' a' b r', walkStep nodes w = (.moved, w') ∧ w'.visited = w.visited ∧
          a :: r = a' :: b :: r' ∧ Vis w' w'.cp ∧ WInv dim nodes w' (b :: r')) ∨
        (Vis w w.cp ∧ walkStep nodes w = (.finished, w) ∧ a :: r = [0] ∧
          ((nodeAt nodes 0).isLeaf = true ∨
            (Vis w (nodeAt nodes 0).zChild.toNat ∧ Vis w (nodeAt nodes 0).oChild.toNat))) := by
      intro hcl heq
      rw [heq]
      unfold walkBackup
      cases r with
      | nil =>
        right
        have h0 : a = 0 := hi.chain
        subst h0
        rw [if_pos hcp]
        exact ⟨hv, rfl, rfl, hcl⟩
      | cons b r =>
        left
        have hch : w.prev.getD a 0 = b ∧ Chain w.prev (b :: r) := hi.chain
        have hane : a ≠ 0 := by
          intro h0
          have : ∀ l, Chain w.prev l → 0 ∈ l := by
            intro l
            induction l with
            | nil => exact fun h => absurd h (by simp [Chain])
            | cons x l ih =>
              cases l with
              | nil => intro h; have h : x = 0 := h; simp [h]
              | cons y l => intro h; exact List.mem_cons_of_mem _ (ih h.2)
          have h1 := this _ hch.2
          have h2 := hi.nodup
          rw [h0] at h2
          exact (List.nodup_cons.1 h2).1 h1
        rw [if_neg (by omega), hcp, hch.1]
        refine ⟨by rw [← hcp]; exact hv, _, a, b, r, rfl, rfl, rfl, (hi.tailVis b (by simp)).1, ?_⟩
        refine ⟨by simp [hi.lenT], hi.lenP, hi.lenV, rfl, hch.2, (List.nodup_cons.1 hi.nodup).2,
          fun i h => hi.inR i (by simp at h ⊢; grind), ?_, ?_, hi.visReach⟩
        · intro i h
          exact hi.tailVis i (by simp at h ⊢; grind)
        · intro i h1 h2
          by_cases hia : i = a
          · subst hia; exact hcl
          · exact hi.closed i h1 (by simp at h2 ⊢; grind)
    -- down
    have hdown : ∀ (ch : Nat) (val : FeatV), (nodeAt nodes a).isLeaf = false → ¬ Vis w ch →
        ch < nodes.length → Reach nodes ch →
        walkStep nodes w = walkDown nodes w ch val →
        (Vis w w.cp ∧ ∃ w', walkStep nodes w = (.moved, w') ∧ w'.visited = w.visited ∧
          ¬ Vis w' w'.cp ∧ WInv dim nodes w' (w'.cp :: a :: r)) := by
      intro ch val hl hnv hlt hre heq
      have hnot : ch ∉ a :: r := by
        intro hmem
        rcases List.mem_cons.1 hmem with h | h
        · exact hnv (by rw [h, ← hcp]; exact hv)
        · exact hnv (hi.tailVis ch (by simpa using h)).1
      refine ⟨hv, _, heq, rfl, hnv, ?_⟩
      refine ⟨by simp [hi.lenT], by simp [hi.lenP], hi.lenV, rfl, ⟨?_, ?_⟩,
        List.nodup_cons.2 ⟨hnot, hi.nodup⟩, ?_, ?_, ?_, hi.visReach⟩
      · simp [hcp, List.getD, hi.lenP, hlt]
      · exact hi.chain.set hnot
      · intro i h
        rcases List.mem_cons.1 h with rfl | h
        · exact ⟨hlt, hre⟩
        · exact hi.inR i h
      · intro i h
        simp only [List.tail_cons] at h
        rcases List.mem_cons.1 h with rfl | h
        · exact ⟨by show Vis w i; rw [← hcp]; exact hv, hl⟩
        · exact hi.tailVis i (by simpa using h)
      · intro i h1 h2
        exact hi.closed i h1 (by intro h; exact h2 (List.mem_cons_of_mem _ h))
    have hn := getElem?_nodeAt ha.1
    by_cases hl : (nodeAt nodes a).isLeaf = true
    · right
      refine hback (.inl hl) ?_
      unfold walkStep
      rw [if_pos hv', hcp, if_pos hl]
    · have hlf : (nodeAt nodes a).isLeaf = false := by simpa using hl
      obtain ⟨-, -, h3, h4, h5, h6⟩ := hva a _ hn hlf
      by_cases hz : Vis w (nodeAt nodes a).zChild.toNat
      · have hz' : w.visited.getD (nodeAt nodes a).zChild.toNat false = true := hz
        by_cases ho : Vis w (nodeAt nodes a).oChild.toNat
        · have ho' : w.visited.getD (nodeAt nodes a).oChild.toNat false = true := ho
          right
          refine hback (.inr ⟨hz, ho⟩) ?_
          unfold walkStep
          rw [if_pos hv', hcp, if_neg hl, if_neg (by rw [hz']; simp), if_neg (by rw [ho']; simp)]
        · left
          have ho' : w.visited.getD (nodeAt nodes a).oChild.toNat false = false := by
            simpa [Vis] using ho
          refine hdown _ ONE hlf ho (by omega) (Reach.one ha.2 hn hlf (by omega)) ?_
          unfold walkStep
          rw [if_pos hv', hcp, if_neg hl, if_neg (by rw [hz']; simp), if_pos (by rw [ho']; simp)]
      · left
        have hz' : w.visited.getD (nodeAt nodes a).zChild.toNat false = false := by
          simpa [Vis] using hz
        refine hdown _ ZERO hlf hz (by omega) (Reach.zero ha.2 hn hlf (by omega)) ?_
        unfold walkStep
        rw [if_pos hv', hcp, if_neg hl, if_pos (by rw [hz']; simp)]
  · left
    have hv' : w.visited.getD w.cp false = false := by simpa [Vis] using hv
    have hset : ∀ i, Vis { w with visited := w.visited.set w.cp true } i ↔ i = w.cp ∨ Vis w i := by
      intro i
      simp only [Vis, List.getD_eq_getElem?_getD, List.getElem?_set]
      by_cases h : w.cp = i
      · subst h; simp [hi.lenV, hcp, ha.1]
      · simp [h, Ne.symm h]
    refine ⟨hv, by unfold walkStep; rw [if_neg (by rw [hv']; simp)], ?_⟩
    refine ⟨hi.lenT, hi.lenP, by simp [hi.lenV], hi.head, hi.chain, hi.nodup, hi.inR, ?_, ?_, ?_⟩
    · intro i h
      exact ⟨(hset i).2 (.inr (hi.tailVis i h).1), (hi.tailVis i h).2⟩
    · intro i h1 h2
      rcases (hset i).1 h1 with rfl | h1
      · exact absurd (by rw [hcp]; simp) h2
      · rcases hi.closed i h1 h2 with h | ⟨h, h'⟩
        · exact .inl h
        · exact .inr ⟨(hset _).2 (.inr h), (hset _).2 (.inr h')⟩
    · intro i h
      rcases (hset i).1 h with rfl | h
      · rw [hcp]; exact ha
      · exact hi.visReach i h

/-- All nodes reachable from node 0 are visited. -/
def AllVis (nodes : List Node) (w : WalkSt) : Prop := ∀ i, Reach nodes i → Vis w i

theorem allVis_of_finished {dim : Nat} {nodes : List Node} {w : WalkSt}
    (hi : WInv dim nodes w [0]) (hv : Vis w 0)
    (hcl : (nodeAt nodes 0).isLeaf = true ∨
        (Vis w (nodeAt nodes 0).zChild.toNat ∧ Vis w (nodeAt nodes 0).oChild.toNat)) :
    AllVis nodes w := by
  have hc : ∀ i, Vis w i → (nodeAt nodes i).isLeaf = true ∨
      (Vis w (nodeAt nodes i).zChild.toNat ∧ Vis w (nodeAt nodes i).oChild.toNat) := by
    intro i h
    by_cases h0 : i = 0
    · subst h0; exact hcl
    · exact hi.closed i h (by simpa using h0)
  intro i hr
  induction hr with
  | root => exact hv
  | zero _ hn hl hz ih =>
    rcases hc _ ih with h | h
    · rw [nodeAt_eq hn, show Node.isLeaf _ = false from hl] at h; simp at h
    · have h1 := h.1; rw [nodeAt_eq hn, hz] at h1; exact h1
  | one _ hn hl hz ih =>
    rcases hc _ ih with h | h
    · rw [nodeAt_eq hn, show Node.isLeaf _ = false from hl] at h; simp at h
    · have h1 := h.2; rw [nodeAt_eq hn, hz] at h1; exact h1

theorem stk_length {dim : Nat} {nodes : List Node} {w : WalkSt} {stk : List Nat}
    (hi : WInv dim nodes w stk) : stk.length ≤ nodes.length := by
  have h : stk ⊆ List.range nodes.length := fun i h => by simpa using (hi.inR i h).1
  simpa using hi.nodup.length_le_of_subset h

/-- `w'` is the state right after a new node was visited in a walk that was at `w`. -/
structure VisitStep (dim : Nat) (nodes : List Node) (w w' : WalkSt) : Prop where
  inv : ∃ stk, WInv dim nodes w' stk
  new : ¬ Vis w w'.cp
  vis : w'.visited = w.visited.set w'.cp true
  lt : w'.cp < nodes.length

theorem walkNext_spec {dim : Nat} {nodes : List Node} (hva : Valid dim nodes) :
    ∀ (stk : List Nat) (w : WalkSt) (fuel : Nat), WInv dim nodes w stk → stk.length + 2 ≤ fuel →
    (walkNext nodes fuel w = .ok none ∧ AllVis nodes w) ∨
    ∃ w', walkNext nodes fuel w = .ok (some w') ∧ VisitStep dim nodes w w' := by
  intro stk
  induction stk with
  | nil => intro w fuel hi; exact absurd hi.chain (by simp [Chain])
  | cons a r ih =>
    intro w fuel hi hf
    have visit : ∀ (w1 : WalkSt) (stk1 : List Nat) (fuel : Nat), WInv dim nodes w1 stk1 →
        ¬ Vis w1 w1.cp → 0 < fuel → w1.visited = w.visited →
        ∃ w', walkNext nodes fuel w1 = .ok (some w') ∧ VisitStep dim nodes w w' := by
      intro w1 stk1 fuel h1 h2 h3 h4
      obtain ⟨k, rfl⟩ : ∃ k, fuel = k + 1 := ⟨fuel - 1, by omega⟩
      rcases walkStep_inv hva h1 with ⟨-, hs, hinv⟩ | ⟨h, -⟩ | ⟨h, -⟩ | ⟨h, -⟩
      · refine ⟨_, by simp only [walkNext, hs], ⟨_, hinv⟩, ?_, ?_, ?_⟩
        · simp only [Vis] at h2 ⊢; rw [← h4]; exact h2
        · show w1.visited.set w1.cp true = _; rw [h4]
        · have := hinv.head
          exact (hinv.inR w1.cp (List.mem_of_mem_head? this)).1
      · exact absurd h h2
      · exact absurd h h2
      · exact absurd h h2
    obtain ⟨k, rfl⟩ : ∃ k, fuel = k + 1 := ⟨fuel - 1, by omega⟩
    simp only [List.length_cons] at hf
    rcases walkStep_inv hva hi with ⟨h1, -, -⟩ | ⟨-, w1, hs, h1, h2, h3⟩ |
      ⟨hv, w1, a', b, r', hs, h1, h2, h3, h4⟩ | ⟨hv, hs, h2, h3⟩
    · exact .inr (visit w _ _ hi h1 (by omega) rfl)
    · right
      obtain ⟨w', hw', hvs⟩ := visit w1 _ k h3 h2 (by omega) h1
      exact ⟨w', by simp only [walkNext, hs]; exact hw', hvs⟩
    · obtain ⟨rfl, rfl⟩ := List.cons.inj h2
      rcases ih w1 k h4 (by omega) with ⟨h5, h6⟩ | ⟨w', h5, h6⟩
      · left
        refine ⟨by simp only [walkNext, hs]; exact h5, ?_⟩
        intro i hr; have := h6 i hr; simp only [Vis] at this ⊢; rw [← h1]; exact this
      · right
        refine ⟨w', by simp only [walkNext, hs]; exact h5, h6.inv, ?_, ?_, h6.lt⟩
        · have := h6.new; simp only [Vis] at this ⊢; rw [← h1]; exact this
        · rw [← h1]; exact h6.vis
    · left
      refine ⟨by simp only [walkNext, hs], ?_⟩
      rw [h2] at hi
      have hcp : w.cp = 0 := by have := hi.head; simp at this; exact this.symm
      exact allVis_of_finished hi (by rw [hcp] at hv; exact hv) h3

/-- The number of nodes not visited yet. -/
def unvisited (w : WalkSt) : Nat := w.visited.count false

theorem vis_set {w w' : WalkSt} {i : Nat} (h : w'.visited = w.visited.set w'.cp true)
    (hlt : w'.cp < w.visited.length) : Vis w' i ↔ i = w'.cp ∨ Vis w i := by
  simp only [Vis, h, List.getD_eq_getElem?_getD, List.getElem?_set]
  by_cases hc : w'.cp = i
  · subst hc; simp [hlt]
  · simp [hc, Ne.symm hc]

theorem unvisited_lt {w w' : WalkSt} (h : w'.visited = w.visited.set w'.cp true)
    (hlt : w'.cp < w.visited.length) (hn : ¬ Vis w w'.cp) : unvisited w' + 1 = unvisited w := by
  have hf : w.visited[w'.cp] = false := by
    simp only [Vis, List.getD_eq_getElem?_getD, List.getElem?_eq_getElem hlt] at hn
    simpa using hn
  have hpos : 0 < w.visited.count false := by
    rw [List.count_pos_iff]; exact List.mem_iff_getElem.2 ⟨_, hlt, hf⟩
  unfold unvisited
  rw [h, List.count_set hlt, hf]
  simp; omega

theorem iterates_spec {dim : Nat} {nodes : List Node} (hva : Valid dim nodes) :
    ∀ (k : Nat) (w : WalkSt) (stk : List Nat), WInv dim nodes w stk → unvisited w ≤ k →
    ∃ ws, Iterates nodes w ws ∧ ws.length ≤ k ∧ (ws.map (·.cp)).Nodup ∧
      (∀ i ∈ ws.map (·.cp), ¬ Vis w i ∧ Reach nodes i ∧ i < nodes.length) ∧
      (∀ i, Reach nodes i → Vis w i ∨ i ∈ ws.map (·.cp)) ∧
      (∀ w' ∈ ws, w'.t.length = dim) := by
  intro k
  induction k with
  | zero =>
    intro w stk hi hk
    rcases walkNext_spec hva stk w (nextFuel nodes) hi
      (by have := stk_length hi; unfold nextFuel; omega) with ⟨h1, h2⟩ | ⟨w', h1, h2⟩
    · exact ⟨[], .done h1, by simp, by simp, by simp, fun i hr => .inl (h2 i hr), by simp⟩
    · have := unvisited_lt h2.vis (by rw [hi.lenV]; exact h2.lt) h2.new
      omega
  | succ k ih =>
    intro w stk hi hk
    rcases walkNext_spec hva stk w (nextFuel nodes) hi
      (by have := stk_length hi; unfold nextFuel; omega) with ⟨h1, h2⟩ | ⟨w', h1, h2⟩
    · exact ⟨[], .done h1, by simp, by simp, by simp, fun i hr => .inl (h2 i hr), by simp⟩
    · have hlt : w'.cp < w.visited.length := by rw [hi.lenV]; exact h2.lt
      have hun := unvisited_lt h2.vis hlt h2.new
      obtain ⟨stk', hi'⟩ := h2.inv
      obtain ⟨ws, hw1, hw2, hw3, hw4, hw5, hw6⟩ := ih w' stk' hi' (by omega)
      have hvs := fun i => vis_set (i := i) h2.vis hlt
      refine ⟨w' :: ws, .step h1 hw1, by simp; omega, ?_, ?_, ?_, ?_⟩
      · simp only [List.map_cons, List.nodup_cons]
        refine ⟨fun hm => ?_, hw3⟩
        exact (hw4 _ hm).1 ((hvs _).2 (.inl rfl))
      · intro i hm
        simp only [List.map_cons, List.mem_cons] at hm
        rcases hm with rfl | hm
        · exact ⟨h2.new, (hi'.visReach _ ((hvs _).2 (.inl rfl))).2, h2.lt⟩
        · exact ⟨fun h => (hw4 i hm).1 ((hvs _).2 (.inr h)), (hw4 i hm).2⟩
      · intro i hr
        rcases hw5 i hr with h | h
        · rcases (hvs i).1 h with rfl | h
          · right; simp
          · exact .inl h
        · right; simp only [List.map_cons, List.mem_cons]; exact .inr h
      · intro w'' hm
        rcases List.mem_cons.1 hm with rfl | hm
        · exact hi'.lenT
        · exact hw6 w'' hm

/-! ### The walk on a tree -/

/-- Turns of the loop, with the states right after a visit. -/
inductive Steps (nodes : List Node) : WalkSt → List WalkSt → WalkSt → Prop
  | refl {w} : Steps nodes w [] w
  | moved {w w1 ws w'} : walkStep nodes w = (.moved, w1) → Steps nodes w1 ws w' → Steps nodes w ws w'
  | visited {w w1 ws w'} : walkStep nodes w = (.visited, w1) → Steps nodes w1 ws w' →
      Steps nodes w (w1 :: ws) w'

theorem Steps.trans {nodes : List Node} {a b c : WalkSt} {us vs : List WalkSt}
    (h : Steps nodes a us b) (h' : Steps nodes b vs c) : Steps nodes a (us ++ vs) c := by
  induction h with
  | refl => exact h'
  | moved hs _ ih => exact .moved hs (ih h')
  | visited hs _ ih => exact .visited hs (ih h')

theorem walkNext_mono {nodes : List Node} {fuel : Nat} {w : WalkSt} {r : Option WalkSt}
    (h : walkNext nodes fuel w = .ok r) : walkNext nodes (fuel + 1) w = .ok r := by
  induction fuel generalizing w with
  | zero => simp [walkNext] at h
  | succ k ih =>
    rw [walkNext] at h ⊢
    split at h <;> simp_all

theorem iterates_of_steps {nodes : List Node} {w w' : WalkSt} {us ws : List WalkSt}
    (hs : Steps nodes w us w') (hf : walkStep nodes w' = (.finished, w')) (h : Iterates nodes w ws) :
    ws = us := by
  have key : ∀ {w w1 : WalkSt} {r}, walkStep nodes w = (.moved, w1) →
      walkNext nodes (nextFuel nodes) w = .ok r → walkNext nodes (nextFuel nodes) w1 = .ok r := by
    intro w w1 r h1 h2
    unfold nextFuel at h2 ⊢
    rw [walkNext, h1] at h2
    exact walkNext_mono h2
  induction hs generalizing ws with
  | refl =>
    cases h with
    | done => rfl
    | step h1 _ => unfold nextFuel at h1; rw [walkNext, hf] at h1; simp at h1
  | moved h1 _ ih =>
    cases h with
    | done h2 => exact ih hf (.done (key h1 h2))
    | step h2 h3 => exact ih hf (.step (key h1 h2) h3)
  | visited h1 _ ih =>
    cases h with
    | done h2 => unfold nextFuel at h2; rw [walkNext, h1] at h2; simp at h2
    | step h2 h3 =>
      unfold nextFuel at h2; rw [walkNext, h1] at h2
      simp only [Except.ok.injEq, Option.some.injEq] at h2
      subst h2
      rw [ih hf h3]

/-- Indexes and values of the nodes in pre-order, as slices of feature values. -/
def preVals (t : List FeatV) : DTree → List (Nat × List FeatV)
  | .leaf i _ => [(i, t)]
  | .node i f z o => (i, t) :: (preVals (t.set f ZERO) z ++ preVals (t.set f ONE) o)

theorem done_backup {nodes : List Node} {T : DTree} {w : WalkSt} (hl : LaysOut nodes T)
    (hcp : w.cp = T.root) (hv : ∀ i ∈ T.indexes, Vis w i) : walkStep nodes w = walkBackup nodes w := by
  cases T with
  | leaf i v =>
    obtain ⟨n, hn, hleaf, -⟩ := hl
    replace hleaf : n.isLeaf = true := hleaf
    have h1 : w.visited.getD w.cp false = true := hv _ (by simp [DTree.indexes, hcp, DTree.root])
    have hcp : w.cp = i := hcp
    unfold walkStep
    rw [if_pos h1, hcp, nodeAt_eq hn, if_pos hleaf]
  | node i f z o =>
    obtain ⟨⟨n, hn, hleaf, -, hz, ho⟩, -, -⟩ := hl
    replace hleaf : n.isLeaf = false := hleaf
    have h1 : w.visited.getD w.cp false = true := hv _ (by simp [DTree.indexes, hcp, DTree.root])
    have hcp : w.cp = i := hcp
    have hrz : ∀ T : DTree, T.root ∈ T.indexes := by
      intro T; cases T <;> simp [DTree.root, DTree.indexes]
    have h2 : w.visited.getD z.root false = true := hv _ (by simp [DTree.indexes, hrz])
    have h3 : w.visited.getD o.root false = true := hv _ (by simp [DTree.indexes, hrz])
    unfold walkStep
    rw [if_pos h1, hcp, nodeAt_eq hn, if_neg (by simp [hleaf]), hz, ho, Int.toNat_natCast,
      Int.toNat_natCast, if_neg (by rw [h2]; simp), if_neg (by rw [h3]; simp)]

theorem root_mem (T : DTree) : T.root ∈ T.indexes := by
  cases T <;> simp [DTree.root, DTree.indexes]

theorem indexes_eq (T : DTree) : T.indexes = T.root :: T.indexes.tail := by
  cases T <;> simp [DTree.root, DTree.indexes]

theorem laysOut_lt {nodes : List Node} {T : DTree} (h : LaysOut nodes T) :
    ∀ i ∈ T.indexes, i < nodes.length := by
  induction T with
  | leaf i v =>
    obtain ⟨n, hn, -⟩ := h
    intro j hj
    simp only [DTree.indexes, List.mem_singleton] at hj
    subst hj
    exact (List.getElem?_eq_some_iff.1 hn).1
  | node i f z o ihz iho =>
    obtain ⟨⟨n, hn, -⟩, hz, ho⟩ := h
    intro j hj
    simp only [DTree.indexes, List.mem_cons, List.mem_append] at hj
    rcases hj with rfl | hj | hj
    · exact (List.getElem?_eq_some_iff.1 hn).1
    · exact ihz hz j hj
    · exact iho ho j hj

theorem set_set_bot {t : List FeatV} {f : Nat} {v : FeatV} (h : t.getD f 0 = BOT)
    (hf : f < t.length) : (t.set f v).set f BOT = t := by
  rw [List.set_set]
  apply List.ext_getElem?
  intro i
  rw [List.getElem?_set]
  split
  · next he =>
    subst he
    simp only [List.getD_eq_getElem?_getD, List.getElem?_eq_getElem hf, Option.getD_some] at h
    simp [hf, h]
  · rfl

/-- The state of the walk relevant to a subtree about to be entered. -/
structure TreePre (nodes : List Node) (T : DTree) (w : WalkSt) : Prop where
  lenP : w.prev.length = nodes.length
  lenV : w.visited.length = nodes.length
  feats : ∀ f ∈ T.feats, f < w.t.length ∧ w.t.getD f 0 = BOT
  cp : w.cp = T.root
  new : ∀ i ∈ T.indexes, ¬ Vis w i

/-- The state of the walk after a subtree. -/
structure TreePost (nodes : List Node) (T : DTree) (w : WalkSt) (vs : List WalkSt) (w' : WalkSt) :
    Prop where
  steps : Steps nodes w vs w'
  lenP : w'.prev.length = nodes.length
  lenV : w'.visited.length = nodes.length
  t : w'.t = w.t
  cp : w'.cp = T.root
  vis : ∀ i, Vis w' i ↔ Vis w i ∨ i ∈ T.indexes
  prev : ∀ i, i ∉ T.indexes.tail → w'.prev.getD i 0 = w.prev.getD i 0
  out : vs.map (fun v => (v.cp, v.t)) = preVals w.t T

theorem walk_child {nodes : List Node} {C : DTree} {w : WalkSt} {p : Nat} {n : Node} {val : FeatV}
    (hl : LaysOut nodes C) (h0 : 0 ∉ C.indexes) (hnd : C.indexes.Nodup) (hn : nodes[p]? = some n) (hcp : w.cp = p)
    (hfl : n.feat.toNat < w.t.length) (hfb : w.t.getD n.feat.toNat 0 = BOT)
    (_hp : p ∉ C.indexes)
    (hstep : walkStep nodes w = walkDown nodes w C.root val)
    (hlen : w.prev.length = nodes.length) (hlenV : w.visited.length = nodes.length)
    (hnew : ∀ i ∈ C.indexes, ¬ Vis w i)
    (ih : ∀ w : WalkSt, TreePre nodes C w → ∃ vs w', TreePost nodes C w vs w')
    (hfe : ∀ f ∈ C.feats, f < w.t.length ∧ w.t.getD f 0 = BOT ∧ f ≠ n.feat.toNat) :
    ∃ vs w', Steps nodes w vs w' ∧ w'.prev.length = nodes.length ∧
      w'.visited.length = nodes.length ∧ w'.t = w.t ∧ w'.cp = p ∧
      (∀ i, Vis w' i ↔ Vis w i ∨ i ∈ C.indexes) ∧
      (∀ i, i ∉ C.indexes → w'.prev.getD i 0 = w.prev.getD i 0) ∧
      vs.map (fun v => (v.cp, v.t)) = preVals (w.t.set n.feat.toNat val) C := by
  have hrlt := laysOut_lt hl _ (root_mem C)
  obtain ⟨vs, w2, h2⟩ := ih (walkDown nodes w C.root val).2 (by
    refine ⟨by simp [walkDown, hlen], hlenV, ?_, rfl, hnew⟩
    intro f hf
    have := hfe f hf
    simp only [walkDown, hcp, nodeAt_eq hn, List.length_set]
    refine ⟨this.1, ?_⟩
    rw [List.getD_eq_getElem?_getD, List.getElem?_set_ne (Ne.symm this.2.2),
      ← List.getD_eq_getElem?_getD]
    exact this.2.1)
  have hs1 : walkStep nodes w = (.moved, (walkDown nodes w C.root val).2) := hstep
  have hb : walkStep nodes w2 = walkBackup nodes w2 :=
    done_backup hl h2.cp fun i hi => (h2.vis i).2 (.inr hi)
  have hcne : w2.cp ≠ 0 := by rw [h2.cp]; intro h; exact h0 (h ▸ root_mem C)
  have hprev : w2.prev.getD w2.cp 0 = p := by
    rw [h2.cp]
    have hm : C.root ∉ C.indexes.tail := by
      have := hnd; rw [indexes_eq] at this; exact (List.nodup_cons.1 this).1
    rw [h2.prev _ hm]; simp [walkDown, List.getD, hlen, hrlt, hcp]
  have hs2 : walkStep nodes w2 = (.moved, { w2 with cp := p, t := w.t }) := by
    rw [hb]
    unfold walkBackup
    rw [if_neg hcne, hprev]
    simp only [h2.t, walkDown, hcp, nodeAt_eq hn]
    rw [set_set_bot hfb hfl]
  refine ⟨vs, { w2 with cp := p, t := w.t }, ?_, h2.lenP, h2.lenV, rfl, rfl, h2.vis, ?_, ?_⟩
  · have := (Steps.moved hs1 h2.steps).trans (.moved hs2 .refl)
    simpa using this
  · intro i hi
    have h3 := h2.prev i (fun h => hi (List.mem_of_mem_tail h))
    rw [h3]
    have : C.root ≠ i := fun h => hi (h ▸ root_mem C)
    simp [walkDown, List.getD, this]
  · rw [h2.out]; simp [walkDown, hcp, nodeAt_eq hn]

theorem tree_steps {nodes : List Node} (T : DTree) (hl : LaysOut nodes T) (hnd : T.indexes.Nodup)
    (hro : T.ReadOnce) (h0 : 0 ∉ T.indexes.tail) :
    ∀ w : WalkSt, TreePre nodes T w → ∃ vs w', TreePost nodes T w vs w' := by
  induction T with
  | leaf i v =>
    intro w hw
    have hcp : w.cp = i := hw.cp
    have hlt := laysOut_lt hl i (by simp [DTree.indexes])
    have hnv : w.visited.getD w.cp false = false := by
      have := hw.new i (by simp [DTree.indexes]); rw [hcp]; simpa [Vis] using this
    refine ⟨[{ w with visited := w.visited.set w.cp true }],
      { w with visited := w.visited.set w.cp true },
      .visited (by unfold walkStep; rw [if_neg (by rw [hnv]; simp)]) .refl,
      hw.lenP, by simp [hw.lenV], rfl, hcp, ?_, fun _ _ => rfl, by simp [preVals, hcp]⟩
    intro j
    rw [vis_set (w := w) (w' := { w with visited := w.visited.set w.cp true }) rfl
      (by rw [hw.lenV, hcp]; exact hlt)]
    simp [DTree.indexes, hcp]; grind
  | node i f z o ihz iho =>
    intro w hw
    have hcp : w.cp = i := hw.cp
    have hlt := laysOut_lt hl i (by simp [DTree.indexes])
    obtain ⟨⟨n, hn, hleaf, hf, hz, ho⟩, hlz, hlo⟩ := hl
    replace hleaf : n.isLeaf = false := hleaf
    have hnd' := hnd
    simp only [DTree.indexes, List.nodup_cons, List.nodup_append, List.mem_append, not_or] at hnd'
    obtain ⟨⟨hiz, hio⟩, hndz, hndo, hdisj⟩ := hnd'
    simp only [DTree.indexes, List.tail_cons, List.mem_append, not_or] at h0
    obtain ⟨hfz, hfo, hroz, hroo⟩ := hro
    have hft : n.feat.toNat = f := by rw [hf]; simp
    have hnv : w.visited.getD w.cp false = false := by
      have := hw.new i (by simp [DTree.indexes]); rw [hcp]; simpa [Vis] using this
    -- visit the node
    obtain ⟨w1, hw1⟩ : ∃ w1, w1 = { w with visited := w.visited.set w.cp true } := ⟨_, rfl⟩
    have hs1 : walkStep nodes w = (.visited, w1) := by
      rw [hw1]; unfold walkStep; rw [if_neg (by rw [hnv]; simp)]
    have hv1 : ∀ j, Vis w1 j ↔ j = i ∨ Vis w j := by
      intro j
      rw [vis_set (w := w) (w' := w1) (by rw [hw1]) (by rw [hw.lenV, hw1]; simpa [hcp] using hlt),
        hw1]
      simp [hcp]
    have hcp1 : w1.cp = i := by rw [hw1]; exact hcp
    have hf1 := hw.feats f (by simp [DTree.feats])
    have hfz1 : ∀ g ∈ z.feats, g < w.t.length ∧ w.t.getD g 0 = BOT ∧ g ≠ n.feat.toNat := by
      intro g hg
      have := hw.feats g (by simp [DTree.feats, hg])
      exact ⟨this.1, this.2, by rw [hft]; rintro rfl; exact hfz hg⟩
    have hfo1 : ∀ g ∈ o.feats, g < w.t.length ∧ w.t.getD g 0 = BOT ∧ g ≠ n.feat.toNat := by
      intro g hg
      have := hw.feats g (by simp [DTree.feats, hg])
      exact ⟨this.1, this.2, by rw [hft]; rintro rfl; exact hfo hg⟩
    have ht1 : w1.t = w.t := by rw [hw1]
    have hnewz : ∀ j ∈ z.indexes, ¬ Vis w1 j := by
      intro j hj h
      rcases (hv1 j).1 h with rfl | h
      · exact hiz hj
      · exact hw.new j (by simp [DTree.indexes, hj]) h
    -- the zero child
    obtain ⟨vz, w2, hz1, hz2, hz3, hz4, hz5, hz6, hz7, hz8⟩ :=
      walk_child (nodes := nodes) (C := z) (w := w1) (p := i) (n := n) (val := ZERO) hlz h0.1 hndz hn
        hcp1 (by rw [ht1, hft]; exact hf1.1) (by rw [ht1, hft]; exact hf1.2) hiz (by
          unfold walkStep
          have a1 : w1.visited.getD i false = true := (hv1 i).2 (.inl rfl)
          have a2 : w1.visited.getD z.root false = false := by
            simpa [Vis] using hnewz _ (root_mem z)
          rw [hcp1, if_pos a1, nodeAt_eq hn, if_neg (by simp [hleaf]), hz, Int.toNat_natCast,
            if_pos (by rw [a2]; simp)])
        (by rw [hw1]; exact hw.lenP) (by rw [hw1]; simp [hw.lenV]) hnewz
        (ihz hlz hndz hroz (fun h => h0.1 (List.mem_of_mem_tail h))) (by rw [ht1]; exact hfz1)
    have hnewo : ∀ j ∈ o.indexes, ¬ Vis w2 j := by
      intro j hj h
      rcases (hz6 j).1 h with h | h
      · rcases (hv1 j).1 h with rfl | h
        · exact hio hj
        · exact hw.new j (by simp [DTree.indexes, hj]) h
      · exact hdisj _ h _ hj rfl
    -- the one child
    obtain ⟨vo, w3, ho1, ho2, ho3, ho4, ho5, ho6, ho7, ho8⟩ :=
      walk_child (nodes := nodes) (C := o) (w := w2) (p := i) (n := n) (val := ONE) hlo h0.2 hndo hn
        hz5 (by rw [hz4, ht1, hft]; exact hf1.1) (by rw [hz4, ht1, hft]; exact hf1.2) hio (by
          unfold walkStep
          have a1 : w2.visited.getD i false = true := (hz6 i).2 (.inl ((hv1 i).2 (.inl rfl)))
          have a2 : w2.visited.getD z.root false = true := (hz6 _).2 (.inr (root_mem z))
          have a3 : w2.visited.getD o.root false = false := by
            simpa [Vis] using hnewo _ (root_mem o)
          rw [hz5, if_pos a1, nodeAt_eq hn, if_neg (by simp [hleaf]), hz, ho, Int.toNat_natCast,
            Int.toNat_natCast, if_neg (by rw [a2]; simp), if_pos (by rw [a3]; simp)])
        hz2 hz3 hnewo
        (iho hlo hndo hroo (fun h => h0.2 (List.mem_of_mem_tail h))) (by rw [hz4, ht1]; exact hfo1)
    refine ⟨w1 :: (vz ++ vo), w3, .visited hs1 (hz1.trans ho1), ho2, ho3, by rw [ho4, hz4, ht1],
      ho5, ?_, ?_, ?_⟩
    · intro j
      rw [ho6, hz6, hv1]
      simp only [DTree.indexes, List.mem_cons, List.mem_append]
      grind
    · intro j hj
      simp only [DTree.indexes, List.tail_cons, List.mem_append, not_or] at hj
      rw [ho7 j hj.2, hz7 j hj.1, hw1]
    · simp only [List.map_cons, List.map_append, hz8, ho8, hz4, ht1, hcp1, hft, preVals]

/-- On a tree the walk visits the nodes in pre-order, with the values of `preVals`. -/
theorem tree_iterates {dim : Nat} {nodes : List Node} {T : DTree} (hT : IsTree dim nodes T)
    {ws : List WalkSt} (h : Iterates nodes (WalkSt.init dim nodes.length) ws) :
    ws.map (fun v => (v.cp, v.t)) = preVals (List.replicate dim BOT) T := by
  obtain ⟨vs, w', hp⟩ := tree_steps T hT.laid hT.nodup hT.once (by
    have := hT.nodup; rw [indexes_eq, hT.root] at this; exact (List.nodup_cons.1 this).1)
    (WalkSt.init dim nodes.length) (by
      refine ⟨by simp [WalkSt.init], by simp [WalkSt.init], ?_, hT.root.symm, ?_⟩
      · intro f hf
        have := hT.range f hf
        simp [WalkSt.init, List.getD, this]
      · intro i _
        simp only [Vis, WalkSt.init, List.getD_eq_getElem?_getD, List.getElem?_replicate]
        split <;> simp)
  have hb := done_backup hT.laid hp.cp fun i hi => (hp.vis i).2 (.inr hi)
  have hf : walkStep nodes w' = (.finished, w') := by
    rw [hb]; unfold walkBackup; rw [if_pos (by rw [hp.cp]; exact hT.root)]
  rw [iterates_of_steps hp.steps hf h, hp.out]
  simp [WalkSt.init]

theorem den_set {t : List FeatV} {f : Nat} (h : f < t.length) :
    den (t.set f ZERO) = (den t).set f false ∧ den (t.set f ONE) = (den t).set f true := by
  constructor <;> funext i <;> simp only [den, PInst.set, List.getElem?_set]
  · by_cases hi : f = i
    · subst hi; simp [h, featDen, ZERO, BOT]
    · simp [hi, Ne.symm hi]
  · by_cases hi : f = i
    · subst hi; simp [h, featDen, ZERO, BOT, ONE]
    · simp [hi, Ne.symm hi]

theorem preVals_den {T : DTree} {t : List FeatV} (h : ∀ f ∈ T.feats, f < t.length) :
    (preVals t T).map (fun p => (p.1, den p.2)) = T.nodeInsts (den t) := by
  induction T generalizing t with
  | leaf i v => rfl
  | node i f z o ihz iho =>
    have hf := h f (by simp [DTree.feats])
    simp only [preVals, List.map_cons, List.map_append, DTree.nodeInsts]
    rw [ihz (by intro g hg; simpa using h g (by simp [DTree.feats, hg])),
      iho (by intro g hg; simpa using h g (by simp [DTree.feats, hg])), (den_set hf).1, (den_set hf).2]

theorem preVals_valid {T : DTree} {t : List FeatV} (h : ValidVals t) :
    ∀ p ∈ preVals t T, p.2.length = t.length ∧ ValidVals p.2 := by
  have hset : ∀ {t : List FeatV} {f v}, ValidVals t → (v = ZERO ∨ v = ONE) → ValidVals (t.set f v) := by
    intro t f v ht hv x hx
    rcases List.mem_or_eq_of_mem_set hx with h | rfl
    · exact ht x h
    · exact .inr hv
  induction T generalizing t with
  | leaf i v => intro p hp; simp only [preVals, List.mem_singleton] at hp; subst hp; exact ⟨rfl, h⟩
  | node i f z o ihz iho =>
    intro p hp
    simp only [preVals, List.mem_cons, List.mem_append] at hp
    rcases hp with rfl | hp | hp
    · exact ⟨rfl, h⟩
    · simpa using ihz (hset h (.inl rfl)) p hp
    · simpa using iho (hset h (.inr rfl)) p hp

theorem den_replicate (d : Nat) : den (List.replicate d BOT) = bot := by
  funext i
  simp only [den, bot, List.getElem?_replicate]
  split
  · next h => split at h <;> simp_all [featDen]
  · rfl

end Goexpdt

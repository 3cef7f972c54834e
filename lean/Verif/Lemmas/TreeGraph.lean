import Verif.Lemmas.Walk
import Verif.Spec.Graph
/-
Decision trees are acyclic models that pass validation.
-/
namespace Goexpdt
open Spec

theorem Spec.DTree.root_mem (T : DTree) : T.root ∈ T.indexes := by
  cases T <;> simp [DTree.root, DTree.indexes]

theorem tree_below {nodes : List Node} : ∀ T : DTree, LaysOut nodes T → T.indexes.Nodup → ∀ i ∈ T.indexes,
    (∀ j, Below nodes i j → j ∈ T.indexes) ∧ ¬ Below nodes i i
  | .leaf i0 v, hl, _, i, hi => by
    obtain ⟨n, h1, h2, -⟩ := hl
    simp only [DTree.indexes, List.mem_singleton] at hi
    subst hi
    have hno : ∀ j, ¬ ChildOf nodes i j := by
      rintro j ⟨n', m, e1, -, e3, -⟩
      rw [h1] at e1; cases e1
      rw [h2] at e3; cases e3
    have hno' : ∀ j, ¬ Below nodes i j := by
      intro j h
      cases h with
      | child h => exact hno _ h
      | step h _ => exact hno _ h
    exact ⟨fun j h => absurd h (hno' j), hno' i⟩
  | .node i0 f z o, hl, hn, i, hi => by
    obtain ⟨⟨n, h1, h2, -, hz, ho⟩, lz, lo⟩ := hl
    simp only [DTree.indexes, List.nodup_cons, List.mem_append, not_or] at hn
    obtain ⟨⟨n1, n2⟩, n3⟩ := hn
    have nz := (List.nodup_append.1 n3).1
    have no := (List.nodup_append.1 n3).2.1
    have iz := tree_below z lz nz
    have io := tree_below o lo no
    simp only [DTree.indexes, List.mem_cons, List.mem_append] at hi ⊢
    rcases hi with rfl | hi | hi
    · have hfirst : ∀ c, ChildOf nodes i c → c = z.root ∨ c = o.root := by
        rintro c ⟨n', m, e1, -, -, e4⟩
        rw [h1] at e1; cases e1
        rw [hz, ho] at e4
        omega
      have hsub : ∀ j, Below nodes i j → j ∈ z.indexes ∨ j ∈ o.indexes := by
        intro j h
        cases h with
        | child h =>
          rcases hfirst _ h with rfl | rfl
          · exact .inl (DTree.root_mem z)
          · exact .inr (DTree.root_mem o)
        | step h h' =>
          rcases hfirst _ h with rfl | rfl
          · exact .inl ((iz _ (DTree.root_mem z)).1 _ h')
          · exact .inr ((io _ (DTree.root_mem o)).1 _ h')
      exact ⟨fun j h => .inr (hsub j h), fun h => (hsub i h).elim n1 n2⟩
    · exact ⟨fun j h => .inr (.inl ((iz i hi).1 j h)), (iz i hi).2⟩
    · exact ⟨fun j h => .inr (.inr ((io i hi).1 j h)), (io i hi).2⟩

theorem below_lt {nodes : List Node} {i j : Nat} (h : Below nodes i j) : i < nodes.length := by
  have : ∀ j, ChildOf nodes i j → i < nodes.length := by
    rintro j ⟨n, m, h1, -⟩
    exact (List.getElem?_eq_some_iff.1 h1).1
  cases h with
  | child h => exact this _ h
  | step h _ => exact this _ h

theorem Spec.IsTree.acyclic {dim : Nat} {nodes : List Node} {T : DTree} (h : IsTree dim nodes T) (hc : Covers nodes T) : Acyclic nodes :=
  fun i hb => (tree_below T h.laid h.nodup i (hc i (below_lt hb))).2 hb

theorem laysOut_valid {dim : Nat} {nodes : List Node} : ∀ T : DTree, LaysOut nodes T → (∀ f ∈ T.feats, f < dim) → ∀ i ∈ T.indexes, ∀ n,
    nodes[i]? = some n → n.isLeaf = false →
    0 ≤ n.feat ∧ n.feat < dim ∧ 0 ≤ n.zChild ∧ n.zChild < nodes.length ∧ 0 ≤ n.oChild ∧ n.oChild < nodes.length
  | .leaf i0 v, hl, _, i, hi, n, hn, hf => by
    obtain ⟨n', h1, h2, -⟩ := hl
    simp only [DTree.indexes, List.mem_singleton] at hi
    subst hi
    rw [hn] at h1; cases h1
    rw [show n.childless = n.isLeaf from rfl, hf] at h2
    cases h2
  | .node i0 f z o, hl, hr, i, hi, n, hn, hf => by
    obtain ⟨⟨n', h1, h2, h3, hz, ho⟩, lz, lo⟩ := hl
    simp only [DTree.indexes, List.mem_cons, List.mem_append] at hi
    simp only [DTree.feats, List.mem_cons, List.mem_append] at hr
    have hroot : ∀ T : DTree, LaysOut nodes T → T.root < nodes.length := by
      intro T hT
      cases T with
      | leaf i v => obtain ⟨_, h, -⟩ := hT; exact (List.getElem?_eq_some_iff.1 h).1
      | node i f z o => obtain ⟨⟨_, h, -⟩, -⟩ := hT; exact (List.getElem?_eq_some_iff.1 h).1
    rcases hi with rfl | hi | hi
    · rw [hn] at h1; cases h1
      have := hroot z lz; have := hroot o lo; have := hr f (.inl rfl)
      rw [h3, hz, ho]
      omega
    · exact laysOut_valid z lz (fun f hf => hr f (.inr (.inl hf))) i hi n hn hf
    · exact laysOut_valid o lo (fun f hf => hr f (.inr (.inr hf))) i hi n hn hf

theorem Spec.IsTree.validated {dim : Nat} {nodes : List Node} {T : DTree} (h : IsTree dim nodes T) (hc : Covers nodes T) :
    newNodeAsValuesIter dim nodes = .ok (WalkSt.init dim nodes.length) := by
  have hv : Valid dim nodes := fun i n hn hf =>
    laysOut_valid T h.laid h.range i (hc i (List.getElem?_eq_some_iff.1 hn).1) n hn hf
  have hne : nodes.length ≠ 0 := by
    intro he
    have hl := h.laid
    cases T with
    | leaf i v => obtain ⟨_, h, -⟩ := hl; have := (List.getElem?_eq_some_iff.1 h).1; omega
    | node i f z o => obtain ⟨⟨_, h, -⟩, -⟩ := hl; have := (List.getElem?_eq_some_iff.1 h).1; omega
  unfold newNodeAsValuesIter
  rw [if_neg hne, validate_of_valid hv]

end Goexpdt

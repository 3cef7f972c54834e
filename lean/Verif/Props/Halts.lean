import Verif.Lemmas.Halts
import Verif.Lemmas.TreeGraph
import Verif.Props.Encode
/-
C28, C31 and C53: termination of the walks over the nodes, and of encodings. The loops of the model
take a number of turns and return `diverge` when it is used up; the theorems show that the numbers
used in the model are never the reason for an answer, and when `diverge` occurs at all.
-/
namespace Goexpdt.Props
open Goexpdt Goexpdt.Spec

/-- C28: the number of turns given to the loop of isnode.Const decides nothing. If the loop is not
done after that many turns it is not done after any number of turns; if it is done, then more turns
do not change the result. For all node slices, dimensions and constants. -/
theorem C28_fuel (dim : Nat) (sc : QConst) (nodes : List Node) (hne : nodes ≠ []) (vis : List Nat) :
    (isnodeLoop dim sc nodes (nodes.length + 1) (nodeAt nodes 0) vis = .error .diverge →
      ∀ k, isnodeLoop dim sc nodes k (nodeAt nodes 0) vis = .error .diverge) ∧
    (isnodeLoop dim sc nodes (nodes.length + 1) (nodeAt nodes 0) vis ≠ .error .diverge →
      ∀ k, nodes.length + 1 ≤ k → isnodeLoop dim sc nodes k (nodeAt nodes 0) vis =
        isnodeLoop dim sc nodes (nodes.length + 1) (nodeAt nodes 0) vis) := by
  have hpos : 0 < nodes.length := List.length_pos_iff.mpr hne
  refine ⟨fun h k => isnodeLoop_forever hpos (by omega) h k, fun h k hk => ?_⟩
  obtain ⟨j, rfl⟩ := Nat.exists_eq_add_of_le hk
  exact isnodeLoop_mono _ _ _ _ h

/-- C28: isnode.Const returns on every model whose child pointers are acyclic, in every context and
for every constant. The nodes need not form a tree, and need not be valid. -/
theorem C28_acyclic (i : QConst) (s : Ctx) (h : Acyclic s.nodes) :
    (isnodeConst i s).1 ≠ .error .diverge := isnodeConst_nd i h

/-- C28: decision trees are acyclic, so isnode.Const returns on them. -/
theorem C28_tree (d : Nat) (nodes : List Node) (T : DTree) (ht : IsTree d nodes T) (hc : Covers nodes T) :
    Acyclic nodes ∧ ∀ (i : QConst) (s : Ctx), s.nodes = nodes → (isnodeConst i s).1 ≠ .error .diverge :=
  ⟨ht.acyclic hc, fun i s hs => C28_acyclic i s (by rw [hs]; exact ht.acyclic hc)⟩

/-- C28: walks end in nodes with a child `NoChild`: these have no children in any model. -/
theorem C28_noChild (nodes : List Node) (i : Nat) (n : Node) (hn : nodes[i]? = some n) (h : n.zChild = NoChild ∨ n.oChild = NoChild)
    (j : Nat) : ¬ ChildOf nodes i j := by
  rintro ⟨n', m, h1, h2, h3, h4⟩
  rw [hn] at h1
  cases h1
  simp [Node.childless, NoChild] at h h3
  omega

/-- A model in which node 1 is a child of nodes 0 and 2, and which is acyclic. -/
def exShared : List Node :=
  [⟨false, 0, 1, 2⟩, ⟨false, -1, -1, -1⟩, ⟨false, 1, 1, 3⟩, ⟨true, -1, -1, -1⟩]

theorem exShared_children {i j : Nat} (h : ChildOf exShared i j) : (i = 0 ∧ j = 1) ∨ (i = 0 ∧ j = 2) ∨
    (i = 2 ∧ j = 1) ∨ (i = 2 ∧ j = 3) := by
  obtain ⟨n, m, h1, h2, h3, h4⟩ := h
  rcases i with _ | _ | _ | _ | i <;> simp [exShared] at h1 <;> subst h1 <;>
    simp [Node.childless] at h3 h4 <;> omega

theorem exShared_below {i j : Nat} (h : Below exShared i j) :
    (i = 0 ∧ 0 < j) ∨ (i = 2 ∧ (j = 1 ∨ j = 3)) := by
  induction h with
  | child h => have := exShared_children h; omega
  | step h _ ih => have := exShared_children h; omega

theorem exShared_acyclic : Acyclic exShared := by
  intro i h
  have := exShared_below h
  omega

example : (isnodeConst (QConst.mk [] [ONE, ZERO]) (BasicQContext 2 exShared)).1 ≠ .error .diverge :=
  C28_acyclic _ _ exShared_acyclic
example : (match isnodeConst (QConst.mk [] [ONE, ZERO]) (BasicQContext 2 exShared) with
    | (.ok c, _) => some c.sClauses | _ => none) = some [] := by decide

/-- C28: acyclicity cannot be dropped. On a model whose only node is its own child the loop does not
end after any number of turns, although the node slice passes the validation that is made for
guarded quantifiers. -/
theorem C28_cyclic_diverges :
    newNodeAsValuesIter 1 [⟨false, 0, 0, 0⟩] = .ok (WalkSt.init 1 1) ∧
    (isnodeConst (QConst.mk [] [ONE]) (BasicQContext 1 [⟨false, 0, 0, 0⟩])).1 = .error .diverge ∧
    ∀ k, isnodeLoop 1 (QConst.mk [] [ONE]) [⟨false, 0, 0, 0⟩] k ⟨false, 0, 0, 0⟩
      (newVisitRecord (QConst.mk [] [ONE])) = .error .diverge := by
  refine ⟨by decide, by decide, fun k => ?_⟩
  refine (C28_fuel 1 (QConst.mk [] [ONE]) [⟨false, 0, 0, 0⟩] (by simp) _).1 (by decide) k

/-- C31: allcomp.Const returns on every node slice, also on cyclic ones, in every context. -/
theorem C31_const_terminates (i : QConst) (b : Bool) (s : Ctx) :
    (allcompConst i b s).1 ≠ .error .diverge := allcompConst_nd i b s

example : (match allcompConst (QConst.mk [] [BOT]) true (BasicQContext 1 [⟨false, 0, 0, 0⟩]) with
    | (.ok c, _) => some c.sClauses | _ => none) = some [] := by decide

/-- C53: encoding terminates. For every query, with any error in it, and every context whatsoever,
`Encoding` does not loop forever if the child pointers of the model are acyclic. -/
theorem C53_terminates (q : Query) (s : Ctx) (h : Acyclic s.nodes) :
    (q.encode s).1 ≠ .error .diverge := by
  unfold Query.encode
  cases hx : q.comp with
  | none => exact nd_panic _
  | some x => exact q.nd_comp (nodes := s.nodes) (fun _ => h) x hx s rfl

/-- C53: for a query without isnode.Const the model may be any node slice. -/
theorem C53_any_model (q : Query) (s : Ctx) (h : q.walks = false) :
    (q.encode s).1 ≠ .error .diverge := by
  unfold Query.encode
  cases hx : q.comp with
  | none => exact nd_panic _
  | some x => exact q.nd_comp (nodes := s.nodes) (fun h' => by rw [h] at h'; simp at h') x hx s rfl

/-- C53: the condition is needed for queries with isnode.Const. -/
theorem C53_condition_needed :
    ((Query.atom (.isnode (.const (QConst.mk [] [ONE])) none)).encode
      (BasicQContext 1 [⟨false, 0, 0, 0⟩])).1 = .error .diverge := by decide

example : ((Query.forallG (QConst.mk ['c'] []) (.atom (.isnode (.const (QConst.mk ['c'] [])) none))).encode
    (BasicQContext 2 exShared)).1 ≠ .error .diverge := C53_terminates _ _ exShared_acyclic
example : Query.walks (.forallG (QConst.mk ['c'] []) (.atom (.dfs (.const (QConst.mk ['c'] []))))) = false := rfl

end Goexpdt.Props

import Verif.Props.Meaning
import Verif.Lemmas.Blind
/-
Property C78: what the library reads of a model.
-/
namespace Goexpdt.Props
open Goexpdt Spec

variable {d : Nat} {nodes : List Node} {T : DTree} {depth : QVar → Nat} {q : Query}

/-- C78: of the nodes of a model only their content is read: of a leaf its class, of the other nodes the feature they decide on and the
children. On two models of the same dimension and the same contents, every query in every context has the same outcome (CNF, error or
panic), and leaves the context in the same state. -/
theorem C78_content (q : Query) (s : Ctx) (nodes' : List Node) (h : s.nodes.map Node.content = nodes'.map Node.content) :
    q.encode { s with nodes := nodes' } = ((q.encode s).1, { (q.encode s).2 with nodes := nodes' }) :=
  (blind_encode (content_blind h q) s rfl).1

/-- The nodes of `exNodes` with other values where none is read: classes of the nodes that decide, features of the leafs, and the other
child of a node one of whose children is negative. -/
def exNodesToo : List Node :=
  [⟨true, 1, 2, 1⟩, ⟨true, 7, -1, 3⟩, ⟨true, 0, 4, 3⟩, ⟨true, -5, 0, -1⟩, ⟨false, 1, -9, -4⟩]

/-- Concrete case of C78: a query about nodes has one CNF on both. -/
example : (nodeQuery.encode (BasicQContext 2 exNodesToo)).1 = (nodeQuery.encode (BasicQContext 2 exNodes)).1 ∧
    exNodesToo ≠ exNodes ∧ ∃ c, (nodeQuery.encode (BasicQContext 2 exNodes)).1 = .ok c := by
  refine ⟨?_, by decide, ?_⟩
  · rw [show BasicQContext 2 exNodesToo = { BasicQContext 2 exNodes with nodes := exNodesToo } from rfl,
      C78_content nodeQuery _ _ (by decide)]
  obtain ⟨c, s', e, -⟩ := (C39_faithful nodeQuery_good).1
  exact ⟨c, by rw [e]⟩

/-- The content is read: with another class of a leaf, another feature, or exchanged children there is another answer. -/
theorem C78_content_read :
    let pos : Query := .atom (.allcomp (.const { val := [ONE, BOT] }) true none)
    (pos.encode (BasicQContext 2 [⟨false, 0, 1, 2⟩, ⟨false, 0, -1, -1⟩, ⟨true, 0, -1, -1⟩])).1 = .ok TrueCNF ∧
    ∀ nodes ∈ [[⟨false, 0, 1, 2⟩, ⟨false, 0, -1, -1⟩, ⟨false, 0, -1, -1⟩], [⟨false, 1, 1, 2⟩, ⟨false, 0, -1, -1⟩, ⟨true, 0, -1, -1⟩],
        [⟨false, 0, 2, 1⟩, ⟨false, 0, -1, -1⟩, ⟨true, 0, -1, -1⟩]],
      (pos.encode (BasicQContext 2 nodes)).1 = .ok FalseCNF := by decide +kernel

/-- C78: a query without `IsNode`, `AllComp`, `DFS` and `ForAllGuarded` does not read the nodes at all. -/
theorem C78_model_free (h : q.modelFree = true) (s : Ctx) (nodes' : List Node) :
    q.encode { s with nodes := nodes' } = ((q.encode s).1, { (q.encode s).2 with nodes := nodes' }) :=
  (blind_encode (modelFree_blind s.nodes nodes' q h) s rfl).1

/-- C78: such a query is faithfully encoded on every model, also one that has no nodes or whose nodes make no tree, if its other
conditions are met. -/
theorem C78_exact (h : q.modelFree = true) (hg : q.Good d [] (.leaf 0 false) depth) (nodes : List Node) :
    ∃ c s', q.encode (BasicQContext d nodes) = (.ok c, s') ∧ WF c ∧
      Faithful d (q.names d (.leaf 0 false) []) (fun σ => q.sem d (.leaf 0 false) depth σ []) s' c := by
  obtain ⟨c, s', e, hw, hf⟩ := (C39_faithful hg).1
  have := C78_model_free h (BasicQContext d []) nodes
  rw [e] at this
  exact ⟨c, { s' with nodes := nodes }, this, hw, ⟨hf.sat, hf.decode, hf.encode, hf.reads, hf.con, hf.sem⟩⟩

/-- `x` is a full instance that `y` subsumes, and `y` has at least as many undefined features as the constant 1⊥. -/
def freeQuery : Query :=
  .withVar ['x'] (.withVar ['y'] (.and (.and (.atom (.full (.var ['x']))) (.atom (.subs (.var ['y']) (.var ['x']))))
    (.atom (.lel (.var ['y']) (.const { val := [ONE, BOT] }) (some VarGenBotCount)))))

theorem freeQuery_good : freeQuery.Good 2 [] (.leaf 0 false) (fun _ => 0) := by
  refine ⟨by omega, ⟨rfl, rfl, ⟨?_, ?_⟩, ?_⟩, .of_eq (by decide)⟩
  · exact ⟨by simp [Atom.vars, Term.vars], by simp [Spec.Atom.consts, Spec.Term.consts], rfl, trivial, trivial, trivial,
      by simp [Atom.onModel]⟩
  · exact ⟨by simp [Atom.vars, Term.vars], by simp [Spec.Atom.consts, Spec.Term.consts], rfl, trivial, trivial, trivial,
      by simp [Atom.onModel]⟩
  · refine ⟨by simp [Atom.vars, Term.vars], ?_, rfl, trivial, trivial, trivial, by simp [Atom.onModel]⟩
    simp only [Spec.Atom.consts, Spec.Term.consts, List.nil_append, List.mem_singleton, forall_eq]
    exact ⟨rfl, by simp [ValidVals, resolve, ZERO, ONE, BOT]⟩

/-- Concrete case of C78: on a model without nodes, and on one whose only node is its own child. -/
example : ∀ nodes ∈ [[], [⟨true, 0, 0, 0⟩]], ∃ c s', freeQuery.encode (BasicQContext 2 nodes) = (.ok c, s') ∧ WF c ∧
    Faithful 2 [['x'], ['y']] (fun σ => (Full 2 (σ ['x']) ∧ Subsumes 2 (σ ['y']) (σ ['x'])) ∧ LEL 2 (σ ['y']) (den [ONE, BOT])) s' c :=
  fun nodes _ => C78_exact (q := freeQuery) rfl freeQuery_good nodes

/-- The other queries do read the nodes: without nodes they end with an error or a panic. -/
example : (Query.withVar ['x'] (.atom (.isnode (.var ['x']) (some VarGenNodeReach)))).modelFree = false ∧
    ∀ q ∈ [Query.withVar ['x'] (.atom (.isnode (.var ['x']) (some VarGenNodeReach))),
      .withVar ['x'] (.atom (.allcomp (.var ['x']) true (some VarGenNodeReach))), .withVar ['x'] (.atom (.dfs (.var ['x']))),
      .forallG { id := ['c'] } freeQuery], ∃ e, (q.encode (BasicQContext 2 [])).1 = .error e := by
  refine ⟨rfl, fun q hq => ?_⟩
  simp only [List.mem_cons, List.not_mem_nil, or_false] at hq
  rcases hq with rfl | rfl | rfl | rfl <;> exact ⟨_, rfl⟩

end Goexpdt.Props

import Verif.Lemmas.DiagramQuery
import Verif.Props.Diagram
/-
Property C99: quantifiers and sufficient sets of features on decision diagrams.
-/
namespace Goexpdt.Props
open Goexpdt Spec

/-- C99: over a decision diagram the iterator reports the nodes in the order of the first paths to them, every node once, with the instance of
its first path. -/
theorem C99_walk (d : Nat) (nodes : List Node) (T : DTree) (hD : IsDiagram d nodes T) (w0 : WalkSt) (h : newNodeAsValuesIter d nodes = .ok w0)
    (ws : List WalkSt) (hw : Iterates nodes w0 ws) :
    ws.map (fun w => (w.cp, den w.t)) = firstPaths T ∧ ∀ w ∈ ws, w.t.length = d ∧ ValidVals w.t := by
  obtain ⟨-, -, rfl⟩ := newIter_ok h
  exact diagram_values hD hw

/-- Concrete case of C99_walk: both leafs have two paths. They are reported for the paths (0, 0) and (0, 1) only. -/
example : ∃ w0 ws, newNodeAsValuesIter 2 exEqual = .ok w0 ∧ Iterates exEqual w0 ws ∧
    ws.map (fun w => (w.cp, den w.t)) = firstPaths exEqualPaths ∧ ws.map (·.cp) = [0, 1, 3, 4, 2] := by
  have h : newNodeAsValuesIter 2 exEqual = .ok (WalkSt.init 2 5) := rfl
  obtain ⟨ws, hw, -⟩ := C17_terminates _ _ _ h
  have := (C99_walk 2 exEqual exEqualPaths exEqual_diagram _ h ws hw).1
  refine ⟨_, ws, h, hw, this, ?_⟩
  have e : ws.map (·.cp) = (ws.map fun w => (w.cp, den w.t)).map (·.1) := by simp
  rw [e, this]
  rfl

/-- C99: these paths are the ones that no other path to the same node comes before. There is exactly one to every node that can be reached from
node 0. -/
theorem C99_first (T : DTree) :
    (∀ p, p ∈ firstPaths T ↔ ∃ k : Nat, (T.nodeInsts bot)[k]? = some p ∧ ∀ j < k, ∀ q, (T.nodeInsts bot)[j]? = some q → q.1 ≠ p.1) ∧
    ((firstPaths T).map (·.1)).Nodup ∧
    ∀ d nodes w0, IsDiagram d nodes T → newNodeAsValuesIter d nodes = .ok w0 → ∀ i, i ∈ (firstPaths T).map (·.1) ↔ Reach nodes i := by
  refine ⟨?_, ?_, ?_⟩
  · intro p
    exact mem_firstOf _ p
  · exact firstOf_once _
  · intro d nodes w0 hD h i
    obtain ⟨ws, hw, -, -, hr, -⟩ := C17_terminates _ _ _ h
    have e : (firstPaths T).map (·.1) = ws.map (·.cp) := by rw [← (C99_walk d nodes T hD w0 h ws hw).1]; simp
    rw [e]
    exact hr i

/-- Concrete case of C99_first: the path (1, 1) leads to leaf 3, but is not the first to do so; all five nodes can be reached. -/
example : (3, (bot.set 0 true).set 1 true) ∈ exEqualPaths.nodeInsts bot ∧ (3, (bot.set 0 true).set 1 true) ∉ firstPaths exEqualPaths ∧
    ∀ i < 5, Reach exEqual i := by
  refine ⟨by simp [exEqualPaths, DTree.nodeInsts], fun h => ?_, fun i hi => ?_⟩
  · obtain ⟨k, h1, h2⟩ := ((C99_first exEqualPaths).1 _).1 h
    by_cases hk : k ≤ 2
    · have := congrArg (Option.map fun p => p.2 1) h1
      rcases (by omega : k = 0 ∨ k = 1 ∨ k = 2) with rfl | rfl | rfl <;>
        simp [exEqualPaths, DTree.nodeInsts, PInst.set, bot] at this
    · exact h2 2 (by omega) (3, (bot.set 0 false).set 1 false) rfl rfl
  · refine ((C99_first exEqualPaths).2.2 2 exEqual (WalkSt.init 2 5) exEqual_diagram rfl i).1 ?_
    show i ∈ [0, 1, 3, 4, 2]
    simp only [List.mem_cons]
    omega

/-- C99: a closed query over a decision diagram says what it should if its quantifiers are read to range over the first paths, and dfs to compare
the first paths to leafs of different class. Node predicates are on constants. -/
theorem C99_query (d : Nat) (nodes : List Node) (T : DTree) (depth : QVar → Nat) (q : Query) (hg : q.GoodOn d nodes T depth) :
    Exactly d nodes (q.namesOn d T []) q (fun σ => q.semOn d nodes T depth σ []) := by
  intro s hs
  obtain ⟨c, s', e, hw, -, -, hf⟩ := good_on hg hs
  exact ⟨c, s', e, hw, hf⟩

/-- An instance that (1, 1) subsumes, and that subsumes none of the values of a quantifier. -/
def exUnseen : Query := .withVar ['x'] (.and (.atom (.subs (.const { val := [ONE, ONE] }) (.var ['x'])))
  (.forallG { id := ['c'] } (.not (.atom (.subs (.var ['x']) (.const { id := ['c'] }))))))

theorem exUnseen_good : exUnseen.GoodOn 2 exEqual exEqualPaths (fun _ => 0) := by
  refine ⟨by decide, exEqual_diagram, ⟨_, rfl⟩, ⟨rfl, ?_, ?_⟩, ?_⟩
  · exact ⟨by simp [Atom.vars, Term.vars], by simp [Spec.Atom.consts, Spec.Term.consts, resolve, ValidVals], rfl, trivial, trivial, trivial, rfl⟩
  · intro g hg
    obtain ⟨i, p, -, rfl⟩ := mem_firstScopes.1 hg
    refine ⟨by simp [Atom.vars, Term.vars], ?_, rfl, trivial, trivial, trivial, rfl⟩
    intro c hc
    simp [Spec.Atom.consts, Spec.Term.consts] at hc
    subst hc
    exact valsOf_good 2 p.2
  · intro u hu
    simp [exUnseen, Query.usesOn, Atom.uses] at hu

theorem exUnseen_sem : exUnseen.semOn 2 exEqual exEqualPaths (fun _ => 0) (fun _ => (bot.set 0 true).set 1 true) [] := by
  refine ⟨?_, fun g hg h => ?_⟩
  · show Subsumes 2 (den [ONE, ONE]) _
    intro i hi _
    rcases i with - | - | i
    · rfl
    · rfl
    · omega
  · obtain ⟨i, p, hp, rfl⟩ := mem_firstScopes.1 hg
    have h0 : Subsumes 2 ((bot.set 0 true).set 1 true) (den (valsOf 2 p.2)) := h
    have e0 : some true = p.2 0 := (h0 0 (by decide) nofun).trans (den_valsOf 2 p.2 0 (by decide))
    have e1 : some true = p.2 1 := (h0 1 (by decide) nofun).trans (den_valsOf 2 p.2 1 (by decide))
    have hm : p ∈ [(0, bot), (1, bot.set 0 false), (3, (bot.set 0 false).set 1 false), (4, (bot.set 0 false).set 1 true), (2, bot.set 0 true)] :=
      List.mem_of_getElem? hp
    simp only [List.mem_cons, List.not_mem_nil, or_false] at hm
    rcases hm with rfl | rfl | rfl | rfl | rfl <;> simp [PInst.set, bot] at e0 e1

/-- Concrete case of C99_query: the encoding of this query has a model, in which the variable is (1, 1), although this is the instance of a path;
it is not the first path to its leaf. -/
example : ∃ c s' β, exUnseen.encode (BasicQContext 2 exEqual) = (.ok c, s') ∧ Models β c ∧
    Reads 2 s' β ['x'] ((bot.set 0 true).set 1 true) ∧ (3, (bot.set 0 true).set 1 true) ∈ exEqualPaths.nodeInsts bot := by
  obtain ⟨c, s', e, -, hf⟩ := C99_query 2 exEqual exEqualPaths _ exUnseen exUnseen_good _ (Ready.fresh_ctx 2 exEqual _)
  obtain ⟨β, h1, h2⟩ := hf.encode _ exUnseen_sem
  exact ⟨c, s', β, e, h1, h2 ['x'] (by simp [exUnseen, Query.namesOn, suffix]), by simp [exEqualPaths, DTree.nodeInsts]⟩

/-- C99: a set of features that is sufficient is accepted by dfs, on decision diagrams also. (A set that is not may be accepted: C77_dfs_wrong.) -/
theorem C99_dfs (d : Nat) (nodes : List Node) (T : DTree) (hD : IsDiagram d nodes T) (e : PInst) (h : DFS d T e) :
    TellsApart d nodes (firstPaths T) e := dfs_apart hD h

/-- Concrete case of C99_dfs: both features together are sufficient. -/
example : TellsApart 2 exEqual (firstPaths exEqualPaths) (den [ONE, ZERO]) := by
  refine C99_dfs 2 _ _ exEqual_diagram _ fun e he => ⟨exEqualPaths.classify fun i => (e i).getD false, fun x hx => ?_⟩
  have h : ∀ i < 2, x i = (e i).getD false := by
    intro i hi
    have hd : e i ≠ none := fun h0 => by
      have := (he i hi).1 h0
      rcases i with - | - | i
      · cases this
      · cases this
      · omega
    obtain ⟨b, hb⟩ := Option.ne_none_iff_exists'.1 hd
    rw [hb]
    exact hx i hi b hb
  simp only [exEqualPaths, DTree.classify, h 0 (by decide), h 1 (by decide)]

/-- C99: on trees every path is the first, so that C99_query says what C39 does. -/
theorem C99_tree (d : Nat) (nodes : List Node) (T : DTree) (hT : IsTree d nodes T) (depth : QVar → Nat) (σ : Asg) (q : Query) :
    firstPaths T = T.nodeInsts bot ∧ ∀ stack, q.semOn d nodes T depth σ stack ↔ q.sem d T depth σ stack := by
  have hp : firstPaths T = T.nodeInsts bot := tree_first hT
  refine ⟨hp, ?_⟩
  have hsc : ∀ id, firstScopes d T id = scopesOf d T id := fun id => by unfold firstScopes scopesOf; rw [hp]
  induction q with
  | nil => exact fun _ => Iff.rfl
  | atom a =>
    intro stack
    cases a with
    | dfs t => exact (tree_apart hT).symm
    | _ => exact Iff.rfl
  | and q1 q2 ih1 ih2 => exact fun stack => and_congr (ih1 stack) (ih2 stack)
  | or q1 q2 ih1 ih2 => exact fun stack => or_congr (ih1 stack) (ih2 stack)
  | not q ih => exact fun stack => not_congr (ih stack)
  | withVar x q ih => exact fun stack => ih stack
  | forallG c q ih =>
    intro stack
    simp only [Query.semOn, Query.sem, hsc]
    exact forall_congr' fun g => imp_congr_right fun _ => ih _

/-- Concrete case of C99_tree: the tree of C18, and a query with a quantifier and with dfs. -/
example (σ : Asg) : let q : Query := .withVar ['x'] (.and (.atom (.dfs (.var ['x']))) (.forallG { id := ['c'] } (.atom (.cons (.var ['x']) (.const { id := ['c'] })))))
    q.semOn 2 exNodes exTree (fun _ => 0) σ [] ↔ q.sem 2 exTree (fun _ => 0) σ [] :=
  (C99_tree 2 exNodes exTree exNodes_isTree _ σ _).2 []

end Goexpdt.Props

import Verif.Lemmas.Diagram
import Verif.Props.Meaning
/-
Property C77: constants on decision diagrams and other models.
-/
namespace Goexpdt.Props
open Goexpdt Spec

/-- C77: on every model that passes validation, also with shared nodes, cycles, and nodes that cannot be reached, allcomp.Const finds out
whether all leafs to which the constant may lead have the value. The value of the constant is that of an open scope, if there is one. -/
theorem C77_allcomp_any (d : Nat) (nodes : List Node) (w0 : WalkSt) (hv : newNodeAsValuesIter d nodes = .ok w0) (s : Ctx) (hd : s.dim = d)
    (hn : s.nodes = nodes) (c : QConst) (b : Bool) (g : Option (QVar → QVar)) (hc : GoodVals d (resolve s.scopes c)) :
    ∃ k, (Atom.allcomp (.const c) b g).encode s = (.ok k, s) ∧
      Tells k (∀ i n, Follows nodes (den (resolve s.scopes c)) i → nodes[i]? = some n → n.childless = true → n.value = b) := by
  subst hd hn
  obtain ⟨hne, hva, -⟩ := newIter_ok hv
  exact allcompConst_eq hc hne (acLoop_const (sc := { id := c.id, val := resolve s.scopes c }) hc b (valid_sound hne hva))

/-- Concrete case of C77_allcomp_any: a model with a cycle, in which (1, _) leads to the positive leaf only, and (_, _) also back to node 0. -/
example : let nodes : List Node := [⟨false, 0, 1, 2⟩, ⟨false, 1, 0, 2⟩, ⟨true, 0, -1, -1⟩]
    ∃ k, (Atom.allcomp (.const { val := [ONE, BOT] }) true none).encode (BasicQContext 2 nodes) = (.ok k, BasicQContext 2 nodes) ∧
      ∀ β, Models β k := by
  intro nodes
  have hg : GoodVals 2 (resolve (BasicQContext 2 nodes).scopes { val := [ONE, BOT] }) :=
    ⟨rfl, by simp [ValidVals, resolve, BasicQContext, ZERO, ONE, BOT]⟩
  obtain ⟨k, h1, h2⟩ := C77_allcomp_any 2 nodes (WalkSt.init 2 3) (by decide) (BasicQContext 2 nodes) rfl rfl { val := [ONE, BOT] } true none hg
  refine ⟨k, h1, h2.1 fun i n _ hi hc => ?_⟩
  rcases i with - | - | - | i <;> simp [nodes] at hi <;> subst hi <;> revert hc <;> decide

/-- C77: so on decision diagrams it finds out whether all completions have the class. If features are decided on several times on a path, the
answer "yes" is right. -/
theorem C77_allcomp (d : Nat) (nodes : List Node) (T : DTree) (hl : LaysOut nodes T) (h0 : T.root = 0) (hr : ∀ f ∈ T.feats, f < d)
    (s : Ctx) (hd : s.dim = d) (hn : s.nodes = nodes) (c : QConst) (b : Bool) (g : Option (QVar → QVar))
    (hc : GoodVals d (resolve s.scopes c)) :
    ∃ k, (Atom.allcomp (.const c) b g).encode s = (.ok k, s) ∧
      (IsDiagram d nodes T → Tells k (AllComp d T b (den (resolve s.scopes c)))) ∧
      (Satisfiable k → AllComp d T b (den (resolve s.scopes c))) := by
  subst hd hn
  have hne : s.nodes ≠ [] := fun h => by have := laysOut_lt hl T.root (root_mem T); simp [h] at this
  obtain ⟨k, h1, h2⟩ := allcompConst_eq hc hne
    (acLoop_const (sc := { id := c.id, val := resolve s.scopes c }) hc b (diagram_sound hl hr h0))
  have hf := follows_leafs (e := den (resolve s.scopes c)) hl hr h0 b
  refine ⟨k, h1, fun hD => ?_, fun hs => ?_⟩
  · rw [← leafsAre_iff hD.once hD.range, ← hf]
    exact h2
  · refine leafsAre_allComp hr b (hf.1 ?_)
    exact Classical.byContradiction fun h => h2.2 h hs

/-- C77: isnode.Const finds out whether the constant is the instance of a node, that is of a path from the root, on decision diagrams. If
features are decided on several times on a path, the answer "yes" is right. -/
theorem C77_isnode (d : Nat) (nodes : List Node) (T : DTree) (hl : LaysOut nodes T) (h0 : T.root = 0) (hr : ∀ f ∈ T.feats, f < d)
    (s : Ctx) (hd : s.dim = d) (hn : s.nodes = nodes) (c : QConst) (g : Option (QVar → QVar))
    (hc : GoodVals d (resolve s.scopes c)) :
    ∃ k, (Atom.isnode (.const c) g).encode s = (.ok k, s) ∧
      (IsDiagram d nodes T → Tells k (IsNode d T (den (resolve s.scopes c)))) ∧
      (Satisfiable k → IsNode d T (den (resolve s.scopes c))) := by
  subst hd hn
  have hne : s.nodes ≠ [] := fun h => by have := laysOut_lt hl T.root (root_mem T); simp [h] at this
  obtain ⟨k, h1, h2⟩ := isnodeConst_eq hc hne (isnodeConst_diagram (sc := { id := c.id, val := resolve s.scopes c }) hl hr h0 hc)
  refine ⟨k, h1, fun hD => ?_, fun hs => ?_⟩
  · have : IsNode s.dim T (den (resolve s.scopes c)) ↔ ∀ f < s.dim, den (resolve s.scopes c) f = none ∨
        HitsFeat (fun i b => den (resolve s.scopes c) i = some b) f T := ⟨visits_of_isNode hD.once hD.range, isNode_of_visits⟩
    rw [this]
    exact h2
  · exact isNode_of_visits (Classical.byContradiction fun h => h2.2 h hs)

/-- A decision diagram that says whether two features are equal; its leafs have two parents. -/
def exEqual : List Node :=
  [⟨false, 0, 1, 2⟩, ⟨false, 1, 3, 4⟩, ⟨false, 1, 4, 3⟩, ⟨true, 0, -1, -1⟩, ⟨false, 0, -1, -1⟩]

/-- Its paths. -/
def exEqualPaths : DTree :=
  .node 0 0 (.node 1 1 (.leaf 3 true) (.leaf 4 false)) (.node 2 1 (.leaf 4 false) (.leaf 3 true))

theorem exEqual_diagram : IsDiagram 2 exEqual exEqualPaths :=
  ⟨by simp [LaysOut, exEqual, exEqualPaths, Node.childless, DTree.root], rfl, by decide, by simp [exEqualPaths, DTree.ReadOnce, DTree.feats]⟩

/-- Concrete case of C77: (1, _) is the instance of a node, and not all completions of it have the same class; on this model. -/
example : ∃ k, (Atom.allcomp (.const { val := [ONE, BOT] }) true none).encode (BasicQContext 2 exEqual) = (.ok k, BasicQContext 2 exEqual) ∧
    ¬ Satisfiable k ∧ ∃ k', (Atom.isnode (.const { val := [ONE, BOT] }) none).encode (BasicQContext 2 exEqual) =
      (.ok k', BasicQContext 2 exEqual) ∧ ∀ β, Models β k' := by
  have hD := exEqual_diagram
  have hg : GoodVals 2 (resolve (BasicQContext 2 exEqual).scopes { val := [ONE, BOT] }) := ⟨rfl, by simp [ValidVals, resolve, BasicQContext, ZERO, ONE, BOT]⟩
  obtain ⟨k, h1, h2, -⟩ := C77_allcomp 2 _ _ hD.laid hD.root hD.range (BasicQContext 2 exEqual) rfl rfl { val := [ONE, BOT] } true none hg
  obtain ⟨k', h3, h4, -⟩ := C77_isnode 2 _ _ hD.laid hD.root hD.range (BasicQContext 2 exEqual) rfl rfl { val := [ONE, BOT] } none hg
  refine ⟨k, h1, (h2 hD).2 fun h => ?_, k', h3, (h4 hD).1 ⟨(2, bot.set 0 true), by simp [exEqualPaths, DTree.nodeInsts], ?_⟩⟩
  · have := h (fun i => i = 0) (fun i hi b hb => by
      rcases i with - | - | i
      · cases hb; rfl
      · cases hb
      · omega)
    revert this; decide
  · intro i hi
    rcases i with - | - | i
    · rfl
    · rfl
    · omega

/-- C77 does not hold for dfs.Const: there the leafs are collected by a walk that visits every node once. The class of the diagram above is not
determined by the second feature, but dfs.Const says so. -/
theorem C77_dfs_wrong : IsDiagram 2 exEqual exEqualPaths ∧ ¬ DFS 2 exEqualPaths (den [BOT, ONE]) ∧
    ∃ k, (Atom.dfs (.const { val := [BOT, ONE] })).encode (BasicQContext 2 exEqual) = (.ok k, BasicQContext 2 exEqual) ∧
      ∀ β, Models β k := by
  refine ⟨exEqual_diagram, fun h => ?_, ⟨{}, by decide +kernel, fun β => ⟨?_, ?_⟩⟩⟩
  · obtain ⟨b, hb⟩ := h (den [BOT, ONE]) fun i _ => Iff.rfl
    have h1 := hb (fun i => true) (fun i hi b' hb' => by
      rcases i with - | - | i
      · cases hb'
      · cases hb'; rfl
      · omega)
    have h2 := hb (fun i => i = 1) (fun i hi b' hb' => by
      rcases i with - | - | i
      · cases hb'
      · cases hb'; rfl
      · omega)
    exact absurd (h1.trans h2.symm) (by decide)
  all_goals simp [SemTrue, ConTrue, clausesTrue]

/-- … nor for ForAllGuarded, for the same reason: (1, 1) is the instance of a node, but "all nodes do not extend (1, 1)" has a satisfiable CNF. -/
theorem C77_quantifier_wrong :
    let q : Query := .forallG { id := ['c'] } (.not (.atom (.subs (.const { val := [ONE, ONE] }) (.const { id := ['c'] }))))
    IsDiagram 2 exEqual exEqualPaths ∧ (∀ σ, ¬ q.sem 2 exEqualPaths (fun _ => 0) σ []) ∧
    ∃ k s', q.encode (BasicQContext 2 exEqual) = (.ok k, s') ∧ Satisfiable k := by
  intro q
  have hk : (q.encode (BasicQContext 2 exEqual)).1 = .ok {} := by decide +kernel
  refine ⟨exEqual_diagram, fun σ h => ?_, ⟨{}, _, pair_eta hk, fun _ => true, ?_⟩⟩
  · have hm : scopeAt 2 ['c'] 6 (3, (bot.set 0 true).set 1 true) ∈ scopesOf 2 exEqualPaths ['c'] :=
      List.mem_map.2 ⟨((3, (bot.set 0 true).set 1 true), 6), by simp [exEqualPaths, DTree.nodeInsts], rfl⟩
    refine h _ hm ?_
    show Subsumes 2 (den [ONE, ONE]) (den [ONE, ONE])
    exact fun i _ _ => rfl
  · constructor <;> simp [SemTrue, ConTrue, clausesTrue]

end Goexpdt.Props

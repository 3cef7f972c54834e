import Verif.Lemmas.Marking
import Verif.Lemmas.Closed
import Verif.Lemmas.Settle
import Verif.Props.Diagram
/-
Property C97: isnode.Var and allcomp.Var on decision diagrams and other models.
-/
namespace Goexpdt.Props
open Spec

variable {d : Nat} {nodes : List Node} {xs : List QVar} {role : QVar → Option Role} {w0 : WalkSt}

theorem outer_of_ready {s : Ctx} (h : Ready d nodes xs s) : Outer d nodes [] s := ⟨h.vm, h.dim, h.nodes, h.scopes, h.vars, by simp⟩

/-- C97: on every model that passes validation, also with shared nodes, cycles, and nodes that cannot be reached, a quantifier-free query says
that nodes can be marked as its predicates demand, and what it tells about the instances and the marked nodes. Generated names may be shared
in any way. -/
theorem C97_any (hd : 0 < d) (hv : newNodeAsValuesIter d nodes = .ok w0) {q : Query} (hq : q.Marks d xs role) {s : Ctx} (hs : Ready d nodes xs s) :
    ∃ c s', (declare xs q).encode s = (.ok c, s') ∧ WF c ∧
      Says d xs (fun σ => ∃ μ, q.marked nodes σ μ ∧ q.tells d nodes σ μ) s' c := by
  obtain ⟨hne, hv, -⟩ := newIter_ok hv
  exact marks_says hd hv hne hq (outer_of_ready hs) hs.fresh

/-- C97: isnode.Var says that the root can be marked, and for every defined feature some node that decides on it. -/
theorem C97_isnode (hd : 0 < d) (hv : newNodeAsValuesIter d nodes = .ok w0) {x : QVar} (hx : x ∈ xs) {g : QVar → QVar} (hg : g x ∉ xs)
    {s : Ctx} (hs : Ready d nodes xs s) :
    ∃ c s', (declare xs (.atom (.isnode (.var x) (some g)))).encode s = (.ok c, s') ∧ WF c ∧
      Says d xs (fun σ => Free nodes (HasVal (σ x)) 0 ∧
        ∀ f < d, σ x f = none ∨ ∃ i b j, Edge nodes i f b j ∧ Free nodes (HasVal (σ x)) i) s' c := by
  obtain ⟨c, s', e, w, h⟩ := C97_any hd hv (q := .atom (.isnode (.var x) (some g))) (role := fun _ => none) ⟨hx, hg, rfl⟩ hs
  refine ⟨c, s', e, w, h.congr fun σ => ⟨?_, ?_⟩⟩
  · rintro ⟨μ, h1, h2⟩
    replace h1 : Marking nodes (HasVal (σ x)) (μ (g x)) := h1
    refine ⟨h1.free h1.root, fun f hf => (h2 f hf).imp id ?_⟩
    rintro ⟨i, b, j, he, hi⟩
    exact ⟨i, b, j, he, h1.free hi⟩
  · rintro ⟨h0, h⟩
    refine ⟨fun _ => _, marking_of (S := fun i => Free nodes (HasVal (σ x)) i) h0 fun _ h => h, fun f hf => (h f hf).imp id ?_⟩
    rintro ⟨i, b, j, he, hi⟩
    exact ⟨i, b, j, he, .inr ⟨i, hi, .refl⟩⟩

/-- C97: its negation says that the root can be marked, and that no node that then has to be marked decides on some defined feature. -/
theorem C97_not_isnode (hd : 0 < d) (hv : newNodeAsValuesIter d nodes = .ok w0) {x : QVar} (hx : x ∈ xs) {g : QVar → QVar} (hg : g x ∉ xs)
    {s : Ctx} (hs : Ready d nodes xs s) :
    ∃ c s', (declare xs (.not (.atom (.isnode (.var x) (some g))))).encode s = (.ok c, s') ∧ WF c ∧
      Says d xs (fun σ => Free nodes (HasVal (σ x)) 0 ∧
        ∃ f < d, σ x f ≠ none ∧ ∀ i b j, Edge nodes i f b j → ¬ Linked nodes (HasVal (σ x)) 0 i) s' c := by
  obtain ⟨c, s', e, w, h⟩ := C97_any hd hv (q := .not (.atom (.isnode (.var x) (some g)))) (role := fun _ => none) ⟨hx, hg, rfl⟩ hs
  refine ⟨c, s', e, w, h.congr fun σ => ⟨?_, ?_⟩⟩
  · rintro ⟨μ, h1, h2⟩
    replace h1 : Marking nodes (HasVal (σ x)) (μ (g x)) := h1
    refine ⟨h1.free h1.root, Classical.byContradiction fun hn => h2 fun f hf => ?_⟩
    refine Classical.byContradiction fun hf' => hn ⟨f, hf, fun h => hf' (.inl h), fun i b j he hl => hf' (.inr ⟨i, b, j, he, ?_⟩)⟩
    exact h1.linked h1.root hl
  · rintro ⟨h0, f, hf, hne, h⟩
    refine ⟨fun _ => _, marking_of (S := fun _ => False) h0 (fun _ h => h.elim), fun ht => ?_⟩
    rcases ht f hf with h1 | ⟨i, b, j, he, hl | ⟨_, h1, -⟩⟩
    · exact hne h1
    · exact h i b j he hl
    · exact h1

/-- C97: allcomp.Var says that the root can be marked, and that no leaf that then has to be marked has the other class. -/
theorem C97_allcomp (hd : 0 < d) (hv : newNodeAsValuesIter d nodes = .ok w0) {x : QVar} (hx : x ∈ xs) {v : Bool} {g : QVar → QVar}
    (hg : g x ∉ xs) {s : Ctx} (hs : Ready d nodes xs s) :
    ∃ c s', (declare xs (.atom (.allcomp (.var x) v (some g)))).encode s = (.ok c, s') ∧ WF c ∧
      Says d xs (fun σ => Free nodes (MayHave (σ x)) 0 ∧
        ∀ u n, nodes[u]? = some n → n.isLeaf = true → Linked nodes (MayHave (σ x)) 0 u → n.value = v) s' c := by
  obtain ⟨c, s', e, w, h⟩ := C97_any hd hv (q := .atom (.allcomp (.var x) v (some g))) (role := fun _ => none) ⟨hx, hg, rfl⟩ hs
  refine ⟨c, s', e, w, h.congr fun σ => ⟨?_, ?_⟩⟩
  · rintro ⟨μ, h1, h2⟩
    replace h1 : Marking nodes (MayHave (σ x)) (μ (g x)) := h1
    exact ⟨h1.free h1.root, fun u n hn hl hk => h2 u n hn hl (h1.linked h1.root hk)⟩
  · rintro ⟨h0, h⟩
    refine ⟨fun _ => _, marking_of (S := fun _ => False) h0 (fun _ h => h.elim), fun u n hn hl hk => ?_⟩
    rcases hk with hk | ⟨_, h1, -⟩
    · exact h u n hn hl hk
    · exact h1.elim

/-- C97: its negation says that the root and some leaf of the other class can be marked. -/
theorem C97_not_allcomp (hd : 0 < d) (hv : newNodeAsValuesIter d nodes = .ok w0) {x : QVar} (hx : x ∈ xs) {v : Bool} {g : QVar → QVar}
    (hg : g x ∉ xs) {s : Ctx} (hs : Ready d nodes xs s) :
    ∃ c s', (declare xs (.not (.atom (.allcomp (.var x) v (some g))))).encode s = (.ok c, s') ∧ WF c ∧
      Says d xs (fun σ => Free nodes (MayHave (σ x)) 0 ∧
        ∃ u n, nodes[u]? = some n ∧ n.isLeaf = true ∧ n.value ≠ v ∧ Free nodes (MayHave (σ x)) u) s' c := by
  obtain ⟨c, s', e, w, h⟩ := C97_any hd hv (q := .not (.atom (.allcomp (.var x) v (some g)))) (role := fun _ => none) ⟨hx, hg, rfl⟩ hs
  refine ⟨c, s', e, w, h.congr fun σ => ⟨?_, ?_⟩⟩
  · rintro ⟨μ, h1, h2⟩
    replace h1 : Marking nodes (MayHave (σ x)) (μ (g x)) := h1
    refine ⟨h1.free h1.root, Classical.byContradiction fun hn => h2 fun u n hu hl hk => ?_⟩
    exact Classical.byContradiction fun hne => hn ⟨u, n, hu, hl, hne, h1.free hk⟩
  · rintro ⟨h0, u, n, hu, hl, hne, hf⟩
    exact ⟨fun _ => _, marking_of (S := fun w => Free nodes (MayHave (σ x)) w) h0 (fun _ h => h),
      fun ht => hne (ht u n hu hl (.inr ⟨u, hf, .refl⟩))⟩

/-- C97: on decision diagrams without nodes that cannot be reached, whatever a solver finds for a query is right: the instances that the model
represents make the query true. -/
theorem C97_diagram (hd : 0 < d) {T : DTree} (hD : IsDiagram d nodes T) (hC : Covers nodes T) {q : Query} (hq : q.Marks d xs role) {s : Ctx}
    (hs : Ready d nodes xs s) :
    ∃ c s', (declare xs q).encode s = (.ok c, s') ∧ WF c ∧
      Says d xs (fun σ => (∃ μ, q.marked nodes σ μ) ∧ q.sem d T (fun _ => 0) σ []) s' c := by
  obtain ⟨c, s', e, w, h⟩ := marks_says hd (diagram_valid hD hC) (diagram_ne hD) hq (outer_of_ready hs) hs.fresh
  refine ⟨c, s', e, w, h.congr fun σ => ⟨?_, ?_⟩⟩
  · rintro ⟨μ, h1, h2⟩
    exact ⟨⟨μ, h1⟩, (tells_diagram hD hC hq σ μ h1).1 h2⟩
  · rintro ⟨⟨μ, h1⟩, h2⟩
    exact ⟨μ, h1, (tells_diagram hD hC hq σ μ h1).2 h2⟩

/-! ### concrete cases -/

theorem exEqual_covers : Covers exEqual exEqualPaths := by unfold Covers; decide

/-- The instance (0, 0) leads to a leaf of the diagram that has another parent. -/
theorem exEqual_not_free : ¬ Free exEqual (MayHave (den [ZERO, ZERO])) 0 := by
  intro h
  have l1 : Linked exEqual (MayHave (den [ZERO, ZERO])) 0 1 :=
    .down (f := 0) (b := false) .refl ⟨_, rfl, rfl, rfl, rfl⟩ (by unfold MayHave; decide)
  have l2 : Linked exEqual (MayHave (den [ZERO, ZERO])) 0 3 :=
    .down (f := 1) (b := false) l1 ⟨_, rfl, rfl, rfl, rfl⟩ (by unfold MayHave; decide)
  exact h 2 1 true 3 l2 ⟨_, rfl, rfl, rfl, rfl⟩ (by decide)

/-- C97: with shared nodes, answers can be missing. The class of (0, 0) is positive on the diagram of two equal features, but neither the CNF
of "all completions of `x` are positive" nor that of its negation has a model that represents (0, 0). -/
theorem C97_missing : IsDiagram 2 exEqual exEqualPaths ∧ Covers exEqual exEqualPaths ∧ AllComp 2 exEqualPaths true (den [ZERO, ZERO]) ∧
    ∀ q ∈ [Query.atom (.allcomp (.var ['x']) true (some VarGenNodeReach)), .not (.atom (.allcomp (.var ['x']) true (some VarGenNodeReach)))],
    ∃ c s', (declare [['x']] q).encode (BasicQContext 2 exEqual) = (.ok c, s') ∧ ∀ β, Models β c → ¬ Reads 2 s' β ['x'] (den [ZERO, ZERO]) := by
  have same : ∀ {s' : Ctx} {β : Val} {e : PInst}, Reads 2 s' β ['x'] e → Reads 2 s' β ['x'] (den [ZERO, ZERO]) →
      Free exEqual (MayHave e) 0 → False := by
    intro s' β e h1 h2 hf
    have he : ∀ i < 2, e i = den [ZERO, ZERO] i := by
      intro i hi
      have k := (h1 i hi ZERO (by simp [featVals])).symm.trans (h2 i hi ZERO (by simp [featVals]))
      rcases i with - | - | i
      · rcases hx : e 0 with _ | _ | _ <;> simp [hx, valOf, den, featDen, ZERO, ONE, BOT] at k ⊢
      · rcases hx : e 1 with _ | _ | _ <;> simp [hx, valOf, den, featDen, ZERO, ONE, BOT] at k ⊢
      · omega
    refine exEqual_not_free fun i f b j hl hedge => ?_
    have hE : ∀ {i f : Nat} {b : Bool} {j : Nat}, Edge exEqual i f b j → f < 2 := fun h =>
      (edge_of (diagram_valid exEqual_diagram exEqual_covers) h).2.1
    have hl' : Linked exEqual (MayHave e) 0 j := by
      clear hedge
      induction hl with
      | refl => exact .refl
      | down _ hed ha ih => exact .down ih hed (by unfold MayHave at *; rw [he _ (hE hed)]; exact ha)
      | up _ hed ih => exact .up ih hed
    have := hf i f b j hl' hedge
    unfold MayHave at *
    rwa [he _ (hE hedge)] at this
  refine ⟨exEqual_diagram, exEqual_covers, ?_, ?_⟩
  · rw [← leafsAre_iff exEqual_diagram.once exEqual_diagram.range]
    simp [exEqualPaths, LeafsAre, den, featDen, ZERO, BOT]
  · intro q hq
    simp only [List.mem_cons, List.not_mem_nil, or_false] at hq
    have hv : newNodeAsValuesIter 2 exEqual = .ok (WalkSt.init 2 5) := by decide
    rcases hq with rfl | rfl
    · obtain ⟨c, s', e, -, h⟩ := C97_allcomp (v := true) (by omega) hv (x := ['x']) (xs := [['x']]) (by simp) (g := VarGenNodeReach)
        (by decide) (Ready.fresh_ctx 2 exEqual _)
      refine ⟨c, s', e, fun β hβ hr => ?_⟩
      obtain ⟨σ, hσ, h1⟩ := h.decode β hβ
      exact same (h1 _ (by simp)) hr hσ.1
    · obtain ⟨c, s', e, -, h⟩ := C97_not_allcomp (v := true) (by omega) hv (x := ['x']) (xs := [['x']]) (by simp) (g := VarGenNodeReach)
        (by decide) (Ready.fresh_ctx 2 exEqual _)
      refine ⟨c, s', e, fun β hβ hr => ?_⟩
      obtain ⟨σ, hσ, h1⟩ := h.decode β hβ
      exact same (h1 _ (by simp)) hr hσ.1

/-- A leaf as root, and a node on feature 0 with two leafs that cannot be reached from it. -/
def exStray : List Node := [⟨true, 0, -1, -1⟩, ⟨false, 0, 2, 3⟩, ⟨true, 0, -1, -1⟩, ⟨false, 0, -1, -1⟩]

theorem exStray_edge {i f : Nat} {b : Bool} {j : Nat} (h : Edge exStray i f b j) : i = 1 ∧ f = 0 ∧ j = if b then 3 else 2 := by
  obtain ⟨n, hn, hl, hf, hj⟩ := h
  rcases i with - | - | - | - | i <;> simp [exStray] at hn <;> subst hn <;> simp [Node.isLeaf] at hl hf hj
  refine ⟨rfl, by omega, ?_⟩
  cases b <;> simp at hj ⊢ <;> omega

/-- C97: with nodes that cannot be reached, answers can be wrong. The only node that can be reached is the root, that is the instance without
values, but some model of the CNF of "`x` is a node" represents (1). -/
theorem C97_stray : IsDiagram 1 exStray (.leaf 0 true) ∧ ¬ IsNode 1 (.leaf 0 true) (den [ONE]) ∧
    ∃ c s' β, (declare [['x']] (.atom (.isnode (.var ['x']) (some VarGenNodeReach)))).encode (BasicQContext 1 exStray) = (.ok c, s') ∧
      Models β c ∧ Reads 1 s' β ['x'] (den [ONE]) := by
  refine ⟨⟨by simp [LaysOut, exStray, Node.childless], rfl, by decide, by simp [DTree.ReadOnce]⟩, ?_, ?_⟩
  · simp [IsNode, DTree.nodeInsts, Same, bot, den, featDen, ONE, BOT, ZERO]
  · obtain ⟨c, s', e, -, h⟩ := C97_any (d := 1) (nodes := exStray) (w0 := WalkSt.init 1 4) (by omega) (by decide)
      (q := .atom (.isnode (.var ['x']) (some VarGenNodeReach))) (xs := [['x']]) (role := fun _ => none) ⟨by simp, by decide, rfl⟩ (Ready.fresh_ctx 1 exStray _)
    obtain ⟨β, hβ, h1⟩ := h.encode (fun _ => den [ONE]) ⟨fun _ i => i = 0 ∨ i = 1 ∨ i = 3, ⟨.inl rfl, fun i f b j he => by
        obtain ⟨rfl, rfl, rfl⟩ := exStray_edge he
        cases b <;> simp [HasVal, den, featDen, ONE, BOT, ZERO]⟩,
      fun f hf => .inr ⟨1, true, 3, ⟨_, rfl, rfl, by simp; omega, rfl⟩, .inr (.inl rfl)⟩⟩
    exact ⟨c, s', β, e, hβ, h1 _ (by simp)⟩

/-- A node on feature 0 whose child for 0 is the node itself. -/
def exCircle : List Node := [⟨false, 0, 0, 1⟩, ⟨true, 0, -1, -1⟩]

theorem exCircle_edge {i f : Nat} {b : Bool} {j : Nat} (h : Edge exCircle i f b j) : i = 0 ∧ f = 0 ∧ j = if b then 1 else 0 := by
  obtain ⟨n, hn, hl, hf, hj⟩ := h
  rcases i with - | - | i <;> simp [exCircle] at hn <;> subst hn <;> simp [Node.isLeaf] at hl hf hj
  refine ⟨rfl, by omega, ?_⟩
  cases b <;> simp at hj ⊢ <;> omega

/-- Concrete case: on a model with a cycle all completions of (0) are positive and all are negative, as none of them leads to a leaf; (1),
whose only completion leads to the leaf, is represented by no model of the CNF. -/
example (v : Bool) : ∃ c s', (declare [['x']] (.atom (.allcomp (.var ['x']) v (some VarGenNodeReach)))).encode (BasicQContext 1 exCircle) = (.ok c, s') ∧
    (∃ β, Models β c ∧ Reads 1 s' β ['x'] (den [ZERO])) ∧ ∀ β, Models β c → ∃ e, Reads 1 s' β ['x'] e ∧ e 0 ≠ some true := by
  obtain ⟨c, s', e, -, h⟩ := C97_allcomp (v := v) (d := 1) (nodes := exCircle) (w0 := WalkSt.init 1 2) (by omega) (by decide) (x := ['x'])
    (xs := [['x']]) (by simp) (g := VarGenNodeReach) (by decide) (Ready.fresh_ctx 1 exCircle _)
  have l0 : ∀ u, Linked exCircle (MayHave (den [ZERO])) 0 u → u = 0 := by
    intro u hu
    induction hu with
    | refl => rfl
    | @down _ _ b _ _ he ha ih =>
      obtain ⟨-, rfl, rfl⟩ := exCircle_edge he
      cases b <;> simp [MayHave, den, featDen, BOT, ZERO] at ha ⊢
    | up _ he ih => exact (exCircle_edge he).1
  refine ⟨c, s', e, ?_, fun β hβ => ?_⟩
  · obtain ⟨β, hβ, h1⟩ := h.encode (fun _ => den [ZERO]) ⟨fun i f b j hl he => by
        obtain ⟨-, rfl, hj⟩ := exCircle_edge he
        rw [l0 j hl] at hj
        cases b <;> simp [MayHave, den, featDen, BOT, ZERO] at hj ⊢,
      fun u n hn hl hk => by rw [l0 u hk] at hn; simp [exCircle] at hn; subst hn; simp [Node.isLeaf] at hl⟩
    exact ⟨β, hβ, h1 _ (by simp)⟩
  · obtain ⟨σ, hσ, h1⟩ := h.decode β hβ
    exact ⟨_, h1 _ (by simp), hσ.1 0 0 false 0 .refl ⟨_, rfl, rfl, rfl, rfl⟩⟩

/-- Concrete case: isnode on the model with a cycle. Whatever a model of the CNF represents follows the edge from the root to itself, so it is
(0), and not the root, which is the instance without values. -/
example : ∃ c s', (declare [['x']] (.atom (.isnode (.var ['x']) (some VarGenNodeReach)))).encode (BasicQContext 1 exCircle) = (.ok c, s') ∧
    ∀ β, Models β c → ∃ e, Reads 1 s' β ['x'] e ∧ e 0 = some false := by
  obtain ⟨c, s', e, -, h⟩ := C97_isnode (d := 1) (nodes := exCircle) (w0 := WalkSt.init 1 2) (by omega) (by decide) (x := ['x'])
    (xs := [['x']]) (by simp) (g := VarGenNodeReach) (by decide) (Ready.fresh_ctx 1 exCircle _)
  refine ⟨c, s', e, fun β hβ => ?_⟩
  obtain ⟨σ, hσ, h1⟩ := h.decode β hβ
  exact ⟨_, h1 _ (by simp), hσ.1 0 0 false 0 .refl ⟨_, rfl, rfl, rfl, rfl⟩⟩

/-- Concrete case: the CNF of the negation has no model at all, since the root decides on the only feature. -/
example : ∃ c s', (declare [['x']] (.not (.atom (.isnode (.var ['x']) (some VarGenNodeReach))))).encode (BasicQContext 1 exCircle) = (.ok c, s') ∧
    ¬ Satisfiable c := by
  obtain ⟨c, s', e, -, h⟩ := C97_not_isnode (d := 1) (nodes := exCircle) (w0 := WalkSt.init 1 2) (by omega) (by decide) (x := ['x'])
    (xs := [['x']]) (by simp) (g := VarGenNodeReach) (by decide) (Ready.fresh_ctx 1 exCircle _)
  refine ⟨c, s', e, fun hs => ?_⟩
  obtain ⟨σ, -, f, hf, -, hn⟩ := h.sat.1 hs
  exact hn 0 false 0 ⟨_, rfl, rfl, by simp; omega, rfl⟩ .refl

/-- Concrete case: on the diagram of two equal features the instance without values is represented by a model of the CNF of "`x` is not
full, and not all its completions are positive", and this is true of it. -/
example : ∃ c s' β, (declare [['x']] (.and (.not (.atom (.full (.var ['x'])))) (.not (.atom (.allcomp (.var ['x']) true (some VarGenNodeReach)))))).encode
      (BasicQContext 2 exEqual) = (.ok c, s') ∧ Models β c ∧ Reads 2 s' β ['x'] bot ∧ ¬ AllComp 2 exEqualPaths true bot := by
  obtain ⟨c, s', e, -, h⟩ := C97_diagram (by omega) exEqual_diagram exEqual_covers
    (q := .and (.not (.atom (.full (.var ['x'])))) (.not (.atom (.allcomp (.var ['x']) true (some VarGenNodeReach))))) (xs := [['x']])
    (role := fun _ => none) ⟨by simp [Query.Marks, Term.Ok], by simp [Query.Marks]; decide⟩ (Ready.fresh_ctx 2 exEqual _)
  have hA : ¬ AllComp 2 exEqualPaths true bot := by
    rw [← leafsAre_iff exEqual_diagram.once exEqual_diagram.range]
    simp [exEqualPaths, LeafsAre, bot]
  obtain ⟨β, hβ, h1⟩ := h.encode (fun _ => bot) ⟨⟨fun _ _ => True, trivial, ⟨trivial, fun i f b j _ => by simp [MayHave, bot]⟩⟩,
    fun hf => hf 0 (by omega) rfl, hA⟩
  exact ⟨c, s', β, e, hβ, h1 _ (by simp), hA⟩

/-- "`x` is at most as far from (1) as (1) is, and all its completions are positive." -/
def exNearest : Query :=
  .and (.atom (.leh (.const { val := [ONE] }) (.var ['x']) (.const { val := [ONE] }) (some VarGenHammingDistance) (some VarGenEqualFeat)))
    (.atom (.allcomp (.var ['x']) true (some VarGenNodeReach)))

/-- Concrete case: Hamming distances on the model with a cycle. The instance would have to be (1), and the nodes of (1) cannot be marked. -/
example : ∃ c s', (declare [['x']] exNearest).encode (BasicQContext 1 exCircle) = (.ok c, s') ∧ ¬ Satisfiable c := by
  have hm : exNearest.Marks 1 [['x']] fun a =>
      if a = VarGenHammingDistance ['x'] (QConst.asString { val := [ONE] }) then some (.dist (.name ['x']) (.vals [ONE])) else none := by
    refine ⟨⟨⟨by simp [Atom.vars, Term.vars], by simp [Spec.Atom.consts, Spec.Term.consts, resolve, ValidVals], rfl, trivial, trivial,
      fun _ _ => by simp [resolve]; decide, by simp [Atom.onModel]⟩, ?_⟩, by simp, by decide, by decide⟩
    simp [Atom.uses, suffix, keyOf, resolve]
    decide
  obtain ⟨c, s', e, -, h⟩ := C97_any (d := 1) (nodes := exCircle) (w0 := WalkSt.init 1 2) (by omega) (by decide) hm (Ready.fresh_ctx 1 exCircle _)
  refine ⟨c, s', e, fun hs => ?_⟩
  obtain ⟨σ, μ, ⟨-, h1⟩, h2, -⟩ := h.sat.1 hs
  replace h1 : Marking exCircle (MayHave (σ ['x'])) (μ (VarGenNodeReach ['x'])) := h1
  replace h2 : LEH 1 (den [ONE]) (σ ['x']) (den [ONE]) := h2
  have h3 := ((h1.edge 0 0 false 0 ⟨_, rfl, rfl, rfl, rfl⟩).1 h1.root).2
  obtain ⟨-, h4, -, h5⟩ := h2
  have h6 := h4 0 (by omega)
  cases hx : σ ['x'] 0 with
  | none => exact h6 hx
  | some b =>
    cases b with
    | true => exact h3 hx
    | false => simp [hamming, countFeats, hx, den, featDen, ONE, ZERO, BOT] at h5

/-- "`x` is preferred to (1, _) for its first feature, `x` has at most as many features as (1, _), and not all its completions are positive." -/
def exPreferred : Query :=
  .and (.and (.atom (.hepr (.var ['x']) (.const { val := [ONE, BOT] }) [0] (some VarGenFeaturePreference)))
      (.atom (.lel (.var ['x']) (.const { val := [ONE, BOT] }) (some VarGenBotCount))))
    (.not (.atom (.allcomp (.var ['x']) true (some VarGenNodeReach))))

theorem exPreferred_marks : exPreferred.Marks 2 [['x']] fun a =>
    if a = VarGenBotCount ['x'] then some (.bots ['x']) else
    if a = VarGenFeaturePreference (prefVar [0]) ['x'] (QConst.asString { val := [ONE, BOT] }) then
      some (.rank [0] (.name ['x']) (.vals [ONE, BOT])) else none := by
  refine ⟨⟨⟨⟨by simp [Atom.vars, Term.vars], by simp [Spec.Atom.consts, Spec.Term.consts, resolve, ValidVals], rfl, by simp [Atom.PrefOk],
    by simp [Spec.Atom.PrefsNonempty], trivial, by simp [Atom.onModel]⟩, ?_⟩,
    ⟨by simp [Atom.vars, Term.vars], by simp [Spec.Atom.consts, Spec.Term.consts, resolve, ValidVals], rfl, trivial, trivial, trivial,
      by simp [Atom.onModel]⟩, ?_⟩, by simp, by decide, by decide⟩
  · simp [Atom.uses, Term.key, Term.res, suffix, keyOf, resolve]
    decide
  · simp [Atom.uses, Term.res, suffix]
    decide

/-- A diagram in which both children of a node are the same leaf. -/
def exTwin : List Node := [⟨false, 0, 1, 2⟩, ⟨false, 1, 3, 3⟩, ⟨true, 0, -1, -1⟩, ⟨false, 0, -1, -1⟩]

/-- Its paths. -/
def exTwinPaths : DTree := .node 0 0 (.node 1 1 (.leaf 3 false) (.leaf 3 false)) (.leaf 2 true)

theorem exTwin_diagram : IsDiagram 2 exTwin exTwinPaths :=
  ⟨by simp [LaysOut, exTwin, exTwinPaths, Node.childless, DTree.root], rfl, by decide, by simp [exTwinPaths, DTree.ReadOnce, DTree.feats]⟩

theorem exTwin_covers : Covers exTwin exTwinPaths := by unfold Covers; decide

theorem exTwin_marking : Marking exTwin (MayHave (den [ZERO, BOT])) fun u => u ≠ 2 := by
  refine ⟨by decide, ?_⟩
  rintro i f b j ⟨n, hn, hl, hf, hj⟩
  rcases i with - | - | - | - | i <;> simp [exTwin] at hn <;> subst hn <;> simp [Node.isLeaf] at hl hf hj
  · obtain rfl : f = 0 := by omega
    cases b <;> simp [MayHave, den, featDen, ZERO, BOT] at hj ⊢ <;> omega
  · obtain rfl : f = 1 := by omega
    cases b <;> simp [MayHave, den, featDen, ZERO, BOT] at hj ⊢ <;> omega

/-- Concrete case: preferences and numbers of features on this diagram. The CNF has a model, and all models represent (0, _). -/
example : ∃ c s', (declare [['x']] exPreferred).encode (BasicQContext 2 exTwin) = (.ok c, s') ∧ (∃ β, Models β c ∧ Reads 2 s' β ['x'] (den [ZERO, BOT])) ∧
    ∀ β, Models β c → ∃ e, Reads 2 s' β ['x'] e ∧ e 0 = some false ∧ e 1 = none := by
  obtain ⟨c, s', e, -, h⟩ := C97_diagram (by omega) exTwin_diagram exTwin_covers exPreferred_marks (Ready.fresh_ctx 2 exTwin _)
  refine ⟨c, s', e, ?_, fun β hβ => ?_⟩
  · obtain ⟨β, hβ, h1⟩ := h.encode (fun _ => den [ZERO, BOT]) ⟨⟨fun _ u => u ≠ 2, ⟨trivial, trivial⟩, exTwin_marking⟩, ⟨by
        show HEPR [0] (den [ZERO, BOT]) (den [ONE, BOT])
        intro pre f post hp _ ⟨h1, h2⟩
        have hf : f ∈ [0] := hp ▸ by simp
        obtain rfl : f = 0 := by simpa using hf
        simp [den, featDen, ZERO, BOT] at h1,
      by show LEL 2 (den [ZERO, BOT]) (den [ONE, BOT]); unfold LEL; decide⟩, by
        show ¬ AllComp 2 exTwinPaths true (den [ZERO, BOT])
        rw [← leafsAre_iff exTwin_diagram.once exTwin_diagram.range]
        simp [exTwinPaths, LeafsAre, den, featDen, ZERO, BOT]⟩
    exact ⟨β, hβ, h1 _ (by simp)⟩
  · obtain ⟨σ, ⟨-, ⟨h2, h3⟩, h1⟩, h4⟩ := h.decode β hβ
    replace h2 : HEPR [0] (σ ['x']) (den [ONE, BOT]) := h2
    replace h3 : LEL 2 (σ ['x']) (den [ONE, BOT]) := h3
    replace h1 : ¬ AllComp 2 exTwinPaths true (σ ['x']) := h1
    rw [← leafsAre_iff exTwin_diagram.once exTwin_diagram.range] at h1
    have k0 : σ ['x'] 0 ≠ none := fun k => h2 [] 0 [] rfl nofun ⟨k, by decide⟩
    refine ⟨_, h4 _ (by simp), ?_, ?_⟩
    · rcases opt3 (σ ['x'] 0) with k | k | k
      · exact absurd k k0
      · exact k
      · simp [exTwinPaths, LeafsAre, k] at h1
    · cases hx : σ ['x'] 1 with
      | none => rfl
      | some b =>
        obtain ⟨b', hb⟩ := Option.ne_none_iff_exists'.1 k0
        simp [LEL, numBot, countFeats, List.range_succ, hx, hb, den, featDen, ONE, ZERO, BOT] at h3

end Goexpdt.Props

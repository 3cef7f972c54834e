import Verif.Props.Clash
/-
Properties C39 and C40: the encoding of whole queries.
-/
namespace Goexpdt.Props
open Goexpdt Spec

variable {d : Nat} {nodes : List Node} {T : DTree} {depth : QVar → Nat} {q : Query}

/-! ### C39 -/

/-- C39: every closed query that satisfies the conditions (Spec/Meaning.lean) is encoded without error
from a fresh context, and from every context over the model in which its variables have not been
declared. The CNF is faithful to what the query says about the instances of its declared variables
(one per combination of iterations of the enclosing guarded quantifiers): it is satisfiable exactly if
some assignment makes the query true, its models are exactly the representations of such
assignments. -/
theorem C39_faithful (hg : q.Good d nodes T depth) :
    (∃ c s', q.encode (BasicQContext d nodes) = (.ok c, s') ∧ WF c ∧
      Faithful d (q.names d T []) (fun σ => q.sem d T depth σ []) s' c) ∧
    ∀ s, Ready d nodes (q.names d T []) s → ∃ c s', q.encode s = (.ok c, s') ∧ WF c ∧
      Faithful d (q.names d T []) (fun σ => q.sem d T depth σ []) s' c :=
  ⟨closed_query hg _ (Ready.fresh_ctx _ _ _), closed_query hg⟩

/-- `x` is not a node and every node subsumes some `y` with at most as many defined features as `x`. -/
def nodeQuery : Query :=
  .withVar ['x'] (.and (.not (.atom (.isnode (.var ['x']) (some VarGenNodeReach))))
    (.forallG { id := ['c'] } (.withVar ['y'] (.and (.atom (.subs (.const { id := ['c'] }) (.var ['y'])))
      (.atom (.lel (.var ['y']) (.var ['x']) (some VarGenBotCount)))))))

def nodeDepth (x : QVar) : Nat := if x = ['y'] then 1 else 0

theorem nodeQuery_good : nodeQuery.Good 2 exNodes exTree nodeDepth := by
  refine ⟨by omega, ⟨rfl, ?_, exNodes_isTree, exNodes_covers, ?_⟩, .of_eq (by decide +kernel)⟩
  · exact ⟨by simp [Atom.vars, Term.vars], by simp [Spec.Atom.consts, Spec.Term.consts], rfl, trivial, trivial, trivial,
      fun _ => ⟨exNodes_isTree, exNodes_covers⟩⟩
  · intro g hg
    obtain ⟨i, p, -, rfl⟩ := mem_scopesOf.1 hg
    refine ⟨rfl, ⟨by simp [Atom.vars, Term.vars], ?_, rfl, trivial, trivial, trivial, by simp [Atom.onModel]⟩,
      ⟨by simp [Atom.vars, Term.vars], by simp [Spec.Atom.consts, Spec.Term.consts], rfl, trivial, trivial, trivial,
        by simp [Atom.onModel]⟩⟩
    simp only [Spec.Atom.consts, Spec.Term.consts, List.append_nil, List.mem_singleton, forall_eq]
    rw [show resolve ([] ++ [scopeAt 2 ['c'] i p]) { id := ['c'] } = valsOf 2 p.2 by simp [resolve, scopeAt]]
    exact valsOf_good 2 p.2

/-- Concrete case of C39. The query declares `x` and one copy of `y` per node. -/
example : (∃ c s', nodeQuery.encode (BasicQContext 2 exNodes) = (.ok c, s') ∧ WF c ∧
      Faithful 2 (nodeQuery.names 2 exTree []) (fun σ => nodeQuery.sem 2 exTree nodeDepth σ []) s' c) ∧
    (nodeQuery.names 2 exTree []).length = 6 := ⟨(C39_faithful nodeQuery_good).1, by decide⟩

/-! ### C40 -/

/-- C40: if in addition nothing is declared below a negation and no variable is declared twice
(`Query.Plain`), then the CNF is satisfiable exactly if the query is true in first-order semantics. -/
theorem C40_first_order (hg : q.Good d nodes T depth) (hp : q.Plain) :
    ∃ c s', q.encode (BasicQContext d nodes) = (.ok c, s') ∧
      (Satisfiable c ↔ q.fo d T (fun _ => bot) fun _ => none) := by
  obtain ⟨c, s', e, -, hf⟩ := (C39_faithful hg).1
  exact ⟨c, s', e, hf.sat.trans (exists_sem_iff_fo hg.fits hp)⟩

theorem nodeQuery_plain : nodeQuery.Plain := by
  refine ⟨?_, by decide, by decide, ?_⟩
  · exact ⟨rfl, trivial, trivial⟩
  · exact ⟨trivial, by simp, by decide, trivial, trivial⟩

/-- Concrete case of C40: what the query says, and that it is satisfiable (`x` = 11). -/
example : ∃ c s', nodeQuery.encode (BasicQContext 2 exNodes) = (.ok c, s') ∧
    (Satisfiable c ↔ ∃ x, ¬ IsNode 2 exTree x ∧ ∀ p ∈ exTree.nodeInsts bot, ∃ y, Subsumes 2 p.2 y ∧ LEL 2 y x) ∧
    Satisfiable c := by
  obtain ⟨c, s', e, h⟩ := C40_first_order nodeQuery_good nodeQuery_plain
  refine ⟨c, s', e, h, h.2 ⟨den [ONE, ONE], ?_, fun p _ => ⟨p.2, fun i _ _ => rfl, ?_⟩⟩⟩
  · rintro ⟨p, hp, hs⟩
    have h0 := hs 0 (by omega)
    have h1 := hs 1 (by omega)
    simp only [exTree, DTree.nodeInsts, List.mem_cons, List.mem_append, List.not_mem_nil, or_false] at hp
    rcases hp with rfl | (rfl | rfl | rfl) | rfl <;> revert h0 h1 <;> decide
  · show numBot 2 (den [ONE, ONE]) ≤ _
    rw [show numBot 2 (den [ONE, ONE]) = 0 by decide]
    omega

/-- The first condition of C40 is needed: below a negation, `WithVar` still means "there is". No
instance makes "there is no full x" true, but the CNF is satisfiable. -/
theorem C40_not_withVar :
    let q : Query := .not (.withVar ['x'] (.atom (.full (.var ['x']))))
    ¬ q.fo 1 exTree (fun _ => bot) (fun _ => none) ∧
    ∃ c s', q.encode (BasicQContext 1 exNodes) = (.ok c, s') ∧ Satisfiable c := by
  refine ⟨fun h => h ⟨fun _ => some true, fun i _ => by simp [Term.val, upd]⟩, ?_⟩
  obtain ⟨c, s', e, -, hf⟩ := (C39_faithful (q := .not (.withVar ['x'] (.atom (.full (.var ['x'])))))
    (d := 1) (nodes := exNodes) (T := exTree) (depth := fun _ => 0)
    ⟨by omega, ⟨rfl, by simp [Atom.vars, Term.vars], by simp [Spec.Atom.consts, Spec.Term.consts], rfl, trivial, trivial,
      trivial, by simp [Atom.onModel]⟩, by intro u hu; simp [Query.uses, Atom.uses] at hu⟩).1
  exact ⟨c, s', e, hf.sat.2 ⟨fun _ => bot, fun h => h 0 (by omega) rfl⟩⟩

/-- The second condition of C40 is needed: two declarations of the same variable are merged. "There is
a full x, and there is an x that is not full" is true, but the CNF is unsatisfiable. -/
theorem C40_declared_twice :
    let q : Query := .and (.withVar ['x'] (.atom (.full (.var ['x'])))) (.withVar ['x'] (.not (.atom (.full (.var ['x'])))))
    q.fo 1 exTree (fun _ => bot) (fun _ => none) ∧
    ∃ c s', q.encode (BasicQContext 1 exNodes) = (.ok c, s') ∧ ¬ Satisfiable c := by
  refine ⟨⟨⟨fun _ => some true, fun i _ => by simp [Term.val, upd]⟩, ⟨bot, fun h => h 0 (by omega) rfl⟩⟩, ?_⟩
  exact unsat_of_refutedResult (n := 20) (by decide +kernel)

/-- The same for a declaration inside of a guarded quantifier that repeats a name declared outside. The inner variable takes the place of the
outer one until the quantifier ends, also where its declaration is not in scope: after it (first query), and before it in the next
iteration (second query). But if the outer one is declared inside of another quantifier, the two are merged (third query). All three queries
are true, and have unsatisfiable CNFs. -/
theorem C40_redeclared_in_loop :
    let full : Query := .atom (.full (.var ['x']))
    ∀ q ∈ [Query.withVar ['x'] (.forallG { id := ['c'] } (.and (.withVar ['x'] (.not full)) full)),
      .withVar ['x'] (.forallG { id := ['c'] } (.and full (.withVar ['x'] (.not full)))),
      .forallG { id := ['c'] } (.withVar ['x'] (.and full (.forallG { id := ['e'] } (.withVar ['x'] (.not full)))))],
    q.fo 1 oneTree (fun _ => bot) (fun _ => none) ∧
    ∃ c s', q.encode (BasicQContext 1 oneNodes) = (.ok c, s') ∧ ¬ Satisfiable c := by
  have hf : Full 1 (fun _ => some true) := fun i _ => by simp
  have hn : ¬ Full 1 bot := fun h => h 0 (by omega) rfl
  intro full q hq
  simp only [List.mem_cons, List.not_mem_nil, or_false] at hq
  rcases hq with rfl | rfl | rfl
  · exact ⟨⟨fun _ => some true, fun p _ => ⟨⟨bot, hn⟩, hf⟩⟩, unsat_of_refutedResult (n := 40) (by decide +kernel)⟩
  · exact ⟨⟨fun _ => some true, fun p _ => ⟨hf, ⟨bot, hn⟩⟩⟩, unsat_of_refutedResult (n := 40) (by decide +kernel)⟩
  · exact ⟨fun p _ => ⟨fun _ => some true, hf, fun p _ => ⟨bot, hn⟩⟩, unsat_of_refutedResult (n := 40) (by decide +kernel)⟩

/-- The conditions of C39 on the model are needed. With a node that does not belong to the tree, a node with two parents, or a path that
decides twice on a feature, each time all other conditions being met, a query can have a CNF that does not agree with its meaning: "not
all completions of x are positive" becomes satisfiable although the tree has only positive leaves, and "x is full and all completions
are positive" unsatisfiable. -/
theorem C39_tree_needed :
    let some_neg : Query := .withVar ['x'] (.not (.atom (.allcomp (.var ['x']) true (some VarGenNodeReach))))
    let all_pos : Query := .withVar ['x'] (.and (.atom (.full (.var ['x']))) (.atom (.allcomp (.var ['x']) true (some VarGenNodeReach))))
    (∃ nodes T, IsTree 1 nodes T ∧ ¬ Covers nodes T ∧ (∀ σ, ¬ some_neg.sem 1 T (fun _ => 0) σ []) ∧
      ∃ c s', some_neg.encode (BasicQContext 1 nodes) = (.ok c, s') ∧ Satisfiable c) ∧
    (∃ nodes T, LaysOut nodes T ∧ T.root = 0 ∧ ¬ T.indexes.Nodup ∧ (∀ f ∈ T.feats, f < 1) ∧ T.ReadOnce ∧ Covers nodes T ∧
      (∃ σ, all_pos.sem 1 T (fun _ => 0) σ []) ∧
      ∃ c s', all_pos.encode (BasicQContext 1 nodes) = (.ok c, s') ∧ ¬ Satisfiable c) ∧
    (∃ nodes T, LaysOut nodes T ∧ T.root = 0 ∧ T.indexes.Nodup ∧ (∀ f ∈ T.feats, f < 1) ∧ ¬ T.ReadOnce ∧ Covers nodes T ∧
      (∀ σ, ¬ some_neg.sem 1 T (fun _ => 0) σ []) ∧
      ∃ c s', some_neg.encode (BasicQContext 1 nodes) = (.ok c, s') ∧ Satisfiable c) := by
  refine ⟨⟨[⟨true, 0, -1, -1⟩, ⟨false, 0, -1, -1⟩], .leaf 0 true, ?_, ?_, ?_, ?_⟩,
    ⟨[⟨false, 0, 1, 1⟩, ⟨true, 0, -1, -1⟩], .node 0 0 (.leaf 1 true) (.leaf 1 true), ?_, rfl, by decide, by decide, ?_, ?_, ?_, ?_⟩,
    ⟨[⟨false, 0, 1, 2⟩, ⟨false, 0, 3, 4⟩, ⟨true, 0, -1, -1⟩, ⟨true, 0, -1, -1⟩, ⟨false, 0, -1, -1⟩],
      .node 0 0 (.node 1 0 (.leaf 3 true) (.leaf 4 false)) (.leaf 2 true), ?_, rfl, by decide, by decide, ?_, ?_, ?_, ?_⟩⟩
  · refine ⟨?_, rfl, by decide, by decide, ?_⟩
    · simp [LaysOut, Node.childless]
    · simp [DTree.ReadOnce]
  · unfold Covers; decide
  · intro σ h
    exact h fun x _ => rfl
  · refine ⟨_, _, rfl, fun n => decide (3 ≤ n), ?_, ?_⟩
    · unfold SemTrue clausesTrue clauseTrue litTrue; decide +kernel
    · unfold ConTrue clausesTrue clauseTrue litTrue; decide +kernel
  · simp [LaysOut, DTree.root, Node.childless]
  · simp [DTree.ReadOnce, DTree.feats]
  · unfold Covers; decide
  · refine ⟨fun _ _ => some true, fun i _ => by simp [Term.res, RTerm.den], fun x _ => ?_⟩
    simp [DTree.classify]
  · exact unsat_of_refutedResult (n := 40) (by decide +kernel)
  · simp [LaysOut, DTree.root, Node.childless]
  · simp [DTree.ReadOnce, DTree.feats]
  · unfold Covers; decide
  · intro σ h
    refine h fun x _ => ?_
    simp [DTree.classify]
  · refine ⟨_, _, rfl, fun n => decide (3 ≤ n), ?_, ?_⟩
    · unfold SemTrue clausesTrue clauseTrue litTrue; decide +kernel
    · unfold ConTrue clausesTrue clauseTrue litTrue; decide +kernel

end Goexpdt.Props

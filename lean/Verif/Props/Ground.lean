import Verif.Props.Meaning
import Verif.Lemmas.GroundGood
/-
Properties C65 and C66: queries that declare names more than once.
-/
namespace Goexpdt.Props
open Goexpdt Spec

variable {d : Nat} {nodes : List Node} {T : DTree} {depth : QVar → Nat} {q : Query}

/-! ### C65 -/

/-- C65: names are resolved by the state of the context, not by the text of the query. A query whose predicates fit and in which, in the
order in which it is encoded, every name is declared before it is used (`Query.Sound`, Spec/Ground.lean), is encoded without error from a
fresh context, and from every context over the model in which its names have not been declared. The CNF is faithful to what its
ground version says, where every declaration and every occurrence of a variable has its final name. -/
theorem C65_dynamic (hg : q.Sound d nodes T) :
    (∃ c s', q.encode (BasicQContext d nodes) = (.ok c, s') ∧ WF c ∧
      Faithful d (q.flat d T).names (fun σ => (q.flat d T).sem d T σ) s' c) ∧
    ∀ s, Ready d nodes (q.flat d T).names s → ∃ c s', q.encode s = (.ok c, s') ∧ WF c ∧
      Faithful d (q.flat d T).names (fun σ => (q.flat d T).sem d T σ) s' c := by
  have key : ∀ s, Ready d nodes (q.flat d T).names s → ∃ c s', q.encode s = (.ok c, s') ∧ WF c ∧
      Faithful d (q.flat d T).names (fun σ => (q.flat d T).sem d T σ) s' c := by
    intro s hs
    obtain ⟨c, s', e, w, -, -, -, -, -, f⟩ := sound_query_apart hg (others := []) (by simp) (by simpa using hs)
    exact ⟨c, s', e, w, f⟩
  exact ⟨key _ (Ready.fresh_ctx _ _ _), key⟩

/-- C65, the relation to C39: the queries of C39 are among those of C65, and what they say is the same. -/
theorem C65_generalises (hg : q.Good d nodes T depth) :
    q.Sound d nodes T ∧ (q.flat d T).names = q.names d T [] ∧ ∀ σ, (q.flat d T).sem d T σ ↔ q.sem d T depth σ [] := by
  obtain ⟨h1, -, h2⟩ := ground_good q [] [] _ hg.fits good_known
  exact ⟨good_sound hg, h1, h2⟩

/-- The fitting of `Full`. -/
theorem full_fits {x : QVar} {lv : Levels} {stack : List Scope} {Γ : List QVar} (h : x ++ suffix (stack.take (lv x)) ∈ Γ) :
    (Ground.atom (.full (.var x)) lv stack).Fits d nodes T Γ :=
  ⟨⟨by simp [Atom.vars, Term.vars], by simp [Spec.Atom.consts, Spec.Term.consts], rfl, trivial, trivial, trivial,
    by simp [Atom.onModel]⟩, by simpa [Atom.vars, Term.vars] using h⟩

/-- "x is full, and at every node x is not full and then x is full", where the second and third `x` are inside of a quantifier that
declares `x` again, the third after that declaration. -/
def lateQuery : Query :=
  .withVar ['x'] (.and (.atom (.full (.var ['x'])))
    (.forallG { id := ['c'] } (.and (.withVar ['x'] (.not (.atom (.full (.var ['x']))))) (.atom (.full (.var ['x']))))))

theorem lateQuery_sound : lateQuery.Sound 2 exNodes exTree := by
  refine ⟨by omega, fun _ => ⟨exNodes_isTree, exNodes_covers⟩, ⟨full_fits (by decide), conj_fits_of _ _ ?_⟩, .of_eq (by decide +kernel)⟩
  intro g hg Δ hΔ
  obtain ⟨i, p, hp, rfl⟩ := mem_iters.1 hg
  refine ⟨full_fits (by simp), full_fits ?_⟩
  rw [times_levels]
  by_cases hi : i = 0 <;> simp [hi, Query.levels, Levels.declare, Query.ground, Ground.names]

/-- Concrete case of C65, outside of C39: the third `x` is the second one, not the first. So the CNF is unsatisfiable. The query has six
names, one of them for the first `x` and one for every node. -/
example : (lateQuery.flat 2 exTree).names.length = 6 ∧
    ∃ c s', lateQuery.encode (BasicQContext 2 exNodes) = (.ok c, s') ∧ WF c ∧ ¬ Satisfiable c := by
  refine ⟨by decide, ?_⟩
  obtain ⟨c, s', e, w, f⟩ := (C65_dynamic lateQuery_sound).1
  refine ⟨c, s', e, w, fun h => ?_⟩
  obtain ⟨σ, -, ⟨h1, h2⟩, -⟩ := f.sat.1 h
  exact h1 h2

/-! ### C66 -/

/-- C66: if in addition nothing is declared below a negation, every variable is used below a declaration and gets the name of the innermost
one, and no two declarations of a variable have the same quantifiers around them (`Query.WellScoped`), then the CNF is satisfiable exactly if
the query is true in first-order semantics. -/
theorem C66_first_order (hg : q.Sound d nodes T) (hq : q.WellScoped) :
    ∃ c s', q.encode (BasicQContext d nodes) = (.ok c, s') ∧
      (Satisfiable c ↔ q.fo d T (fun _ => bot) fun _ => none) := by
  obtain ⟨c, s', e, -, hf⟩ := (C65_dynamic hg).1
  exact ⟨c, s', e, hf.sat.trans (exists_ground_iff_fo hg.fits hq)⟩

/-- C66, the relation to C40: the queries of C40 are among those of C66. -/
theorem C66_generalises (hg : q.Good d nodes T depth) (hp : q.Plain) : q.Sound d nodes T ∧ q.WellScoped :=
  ⟨good_sound hg, good_scoped hg hp⟩

/-- "There is a full x, such that at every node there is an x that is not full, and at every node there is a full x": `x` is
declared three times. -/
def shadowQuery : Query :=
  .withVar ['x'] (.and (.and (.forallG { id := ['c'] } (.withVar ['x'] (.not (.atom (.full (.var ['x']))))))
    (.forallG { id := ['e'] } (.withVar ['x'] (.atom (.full (.var ['x']))))))
    (.atom (.full (.var ['x']))))

theorem shadowQuery_sound : shadowQuery.Sound 2 exNodes exTree := by
  refine ⟨by omega, fun _ => ⟨exNodes_isTree, exNodes_covers⟩, ⟨⟨conj_fits_of _ _ ?_, conj_fits_of _ _ ?_⟩, full_fits ?_⟩,
    .of_eq (by decide +kernel)⟩
  · intro g hg Δ hΔ
    obtain ⟨i, p, hp, rfl⟩ := mem_iters.1 hg
    exact full_fits (by simp)
  · intro g hg Δ hΔ
    obtain ⟨i, p, hp, rfl⟩ := mem_iters.1 hg
    exact full_fits (by simp)
  · exact List.mem_append_right _ (by decide)

theorem shadowQuery_scoped : shadowQuery.WellScoped := by
  refine ⟨⟨⟨rfl, trivial⟩, trivial⟩, ?_, ?_, by decide, by decide, ?_⟩
  · simp [shadowQuery, Query.Closed, Atom.vars, Term.vars]
  · simp [shadowQuery, Query.Lexical, Query.levels, Levels.declare, upd, Atom.vars, Term.vars]
  · exact ⟨⟨⟨by simp, by decide, trivial⟩, by simp, by decide, trivial⟩, trivial⟩

/-- Concrete case of C66, outside of C40: the query is true, so its CNF is satisfiable. -/
example : ¬ shadowQuery.Plain ∧ ∃ c s', shadowQuery.encode (BasicQContext 2 exNodes) = (.ok c, s') ∧ Satisfiable c := by
  refine ⟨fun h => absurd h.distinct (by decide), ?_⟩
  obtain ⟨c, s', e, h⟩ := C66_first_order shadowQuery_sound shadowQuery_scoped
  have hf : Full 2 (fun _ => some true) := fun i _ => by simp
  exact ⟨c, s', e, h.2 ⟨fun _ => some true, ⟨fun _ _ => ⟨bot, fun h => h 0 (by omega) rfl⟩, fun _ _ => ⟨fun _ => some true, hf⟩⟩, hf⟩⟩

/-- C66, the condition on the names is needed: `lateQuery` meets all other conditions and is true, but has an unsatisfiable CNF. -/
theorem C66_lexical_needed : lateQuery.Sound 2 exNodes exTree ∧ lateQuery.Positive ∧ lateQuery.Closed [] ∧
    (lateQuery.places []).Nodup ∧ ¬ lateQuery.WellScoped ∧ lateQuery.fo 2 exTree (fun _ => bot) (fun _ => none) ∧
    ∃ c s', lateQuery.encode (BasicQContext 2 exNodes) = (.ok c, s') ∧ ¬ Satisfiable c := by
  have hs : ∃ c s', lateQuery.encode (BasicQContext 2 exNodes) = (.ok c, s') ∧ ¬ Satisfiable c := by
    obtain ⟨c, s', e, -, f⟩ := (C65_dynamic lateQuery_sound).1
    refine ⟨c, s', e, fun h => ?_⟩
    obtain ⟨σ, -, ⟨h1, h2⟩, -⟩ := f.sat.1 h
    exact h1 h2
  have hf : Full 2 (fun _ => some true) := fun i _ => by simp
  have hfo : lateQuery.fo 2 exTree (fun _ => bot) (fun _ => none) :=
    ⟨fun _ => some true, hf, fun p _ => ⟨⟨bot, fun h => h 0 (by omega) rfl⟩, hf⟩⟩
  refine ⟨lateQuery_sound, ⟨trivial, rfl, trivial⟩, ?_, by decide, fun h => ?_, hfo, hs⟩
  · simp [lateQuery, Query.Closed, Atom.vars, Term.vars]
  · obtain ⟨c, s', e, hn⟩ := hs
    obtain ⟨c', s'', e', h'⟩ := C66_first_order lateQuery_sound h
    rw [e] at e'
    cases e'
    exact hn (h'.2 hfo)

end Goexpdt.Props

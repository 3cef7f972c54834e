import Verif.Lemmas.Laws
import Verif.Props.Compute
/-
C92: queries that differ by laws of logic get the same answers.
-/
namespace Goexpdt.Props
open Goexpdt Spec

variable {d : Nat} {nodes : List Node} {T : DTree} {depth : QVar → Nat} {q q' f f' : Query} {o o' : QConst → Query} {v : QVar}
variable {S : Type} {sv : Solver S}

/-- C92: the queries are true under the same assignments, wherever they stand. -/
theorem C92_meaning (h : Law q q') (σ : Asg) (stack : List Scope) : q.sem d T depth σ stack ↔ q'.sem d T depth σ stack :=
  Laws.sem_iff h σ stack

/-- C92: the conditions of C39 hold for both queries or for none. -/
theorem C92_good (h : Law q q') : q.Good d nodes T depth ↔ q'.Good d nodes T depth := ⟨Laws.good h, Laws.good h.symm⟩

/-- C92: both queries are encoded without error, and the formulas are faithful to the same statement about the same instances. In
particular one formula is satisfiable exactly if the other is. The contexts may differ. -/
theorem C92_faithful (h : Law q q') (hg : q.Good d nodes T depth) {s t : Ctx} (hs : Ready d nodes (q.names d T []) s)
    (ht : Ready d nodes (q.names d T []) t) :
    ∃ c s' c' t', q.encode s = (.ok c, s') ∧ q'.encode t = (.ok c', t') ∧ WF c ∧ WF c' ∧
      Faithful d (q.names d T []) (fun σ => q.sem d T depth σ []) s' c ∧
      Faithful d (q.names d T []) (fun σ => q.sem d T depth σ []) t' c' ∧ (Satisfiable c ↔ Satisfiable c') := by
  obtain ⟨c, s', e, hw, -, -, -, -, hf⟩ := good_query hg hs
  obtain ⟨c', t', e', hw', -, -, -, -, hf'⟩ := good_query (Laws.good h hg) (Laws.ready (Laws.names_iff h []) ht)
  have hsem : (fun σ => q'.sem d T depth σ []) = fun σ => q.sem d T depth σ [] := by
    funext σ; exact propext (Laws.sem_iff h σ []).symm
  rw [hsem] at hf'
  have hn := Laws.names_iff (d := d) (T := T) h []
  refine ⟨c, s', c', t', e, e', hw, hw', hf, ⟨hf'.sat, ?_, ?_, ?_, ?_, ?_⟩, hf.sat.trans hf'.sat.symm⟩
  · intro β hβ
    obtain ⟨σ, h1, h2⟩ := hf'.decode β hβ
    exact ⟨σ, h1, fun n hm => h2 n ((hn n).1 hm)⟩
  · intro σ hσ
    obtain ⟨β, h1, h2⟩ := hf'.encode σ hσ
    exact ⟨β, h1, fun n hm => h2 n ((hn n).1 hm)⟩
  · intro β hβ
    obtain ⟨σ, h2⟩ := hf'.reads β hβ
    exact ⟨σ, fun n hm => h2 n ((hn n).1 hm)⟩
  · intro σ
    obtain ⟨β, h1, h2⟩ := hf'.con σ
    exact ⟨β, h1, fun n hm => h2 n ((hn n).1 hm)⟩
  · intro β σ hβ hr
    exact hf'.sem β σ hβ fun n hm => hr n ((hn n).2 hm)

/-- C92: the answer to a query, with whatever solvers, states and contexts. -/
theorem C92_answer {S' : Type} {sv' : Solver S'} (h : Law q q') (hg : q.Good d nodes T depth) (hc : Correct sv) (hr : Reliable sv)
    (hc' : Correct sv') (hr' : Reliable sv') {s t : Ctx} (hs : Ready d nodes (q.names d T []) s) (ht : Ready d nodes (q.names d T []) t)
    (negated : Bool) (st : S) (st' : S') :
    ∃ b st1 s1 st2 s2, atomSat sv q.comp negated st s = (.ok b, st1, s1) ∧ atomSat sv' q'.comp negated st' t = (.ok b, st2, s2) := by
  obtain ⟨b, st1, s1, e, -, hb⟩ := C42_atom hc hr hg hs negated st
  obtain ⟨b', st2, s2, e', -, hb'⟩ := C42_atom hc' hr' (Laws.good h hg) (Laws.ready (Laws.names_iff h []) ht) negated st'
  have hsem : (∃ σ, q'.sem d T depth σ []) ↔ ∃ σ, q.sem d T depth σ [] := exists_congr fun σ => (Laws.sem_iff h σ []).symm
  rw [hsem, ← hb] at hb'
  have : b' = b := by cases b <;> cases b' <;> simp_all
  subst this
  exact ⟨b', st1, s1, st2, s2, e, e'⟩

/-- C92: a query and its negation may both be answered with true. What holds is that the answer to `Not(q)` is
false only if every assignment makes `q` true. -/
theorem C92_not (hg : q.Good d nodes T depth) (hc : Correct sv) (hr : Reliable sv) {s : Ctx} (hs : Ready d nodes (q.names d T []) s) (st : S) :
    ∃ b st1 s1, atomSat sv (Query.not q).comp false st s = (.ok b, st1, s1) ∧ (b = false ↔ ∀ σ, q.sem d T depth σ []) := by
  obtain ⟨b, st1, s1, e, -, hb⟩ := C42_atom hc hr (q := .not q) ⟨hg.dim, hg.fits, hg.clean⟩ hs false st
  refine ⟨b, st1, s1, e, ?_⟩
  have h1 : (b = true ↔ ∃ σ, ¬ q.sem d T depth σ []) := by simpa [Query.sem] using hb
  have h2 : (∃ σ, ¬ q.sem d T depth σ []) ↔ ¬ ∀ σ, q.sem d T depth σ [] := Classical.not_forall.symm
  rw [h2] at h1
  cases b <;> simp_all

/-- C92 with C40: a query that follows from one as in C40 by the laws, though it need not be one itself, is encoded to a formula that is
satisfiable exactly if the other is true in first-order logic. -/
theorem C92_first_order (h : Law q q') (hg : q.Good d nodes T depth) (hp : q.Plain) :
    ∃ c s', q'.encode (BasicQContext d nodes) = (.ok c, s') ∧ (Satisfiable c ↔ q.fo d T (fun _ => bot) fun _ => none) := by
  obtain ⟨c, s', c', t', -, e', -, -, hf, -, hi⟩ := C92_faithful h hg (Ready.fresh_ctx d nodes _) (Ready.fresh_ctx d nodes _)
  exact ⟨c', t', e', hi.symm.trans (hf.sat.trans (exists_sem_iff_fo hg.fits hp))⟩

/-- C92: what queries as in C40 say about an instance is the same in first-order logic. -/
theorem C92_about (h : Law f f') (hg : (Query.withVar v f).Good d nodes T depth) (hp : (Query.withVar v f).Plain)
    (hp' : (Query.withVar v f').Plain) (e : PInst) : f.about d T v e ↔ f'.about d T v e := by
  refine (hg.about_iff hp e).trans (Iff.trans ?_ ((Laws.good (.withVar v h) hg).about_iff hp' e).symm)
  exact exists_congr fun σ => and_congr (Laws.sem_iff (.withVar v h) σ []) Iff.rfl

/-- C92: what `ComputeOptim` finds for a formula and an order is an optimum for formulas and orders that differ by the laws. -/
theorem C92_optimum (hf : Law f f') (ho : ∀ b, GoodVals d b → Law (o { val := b }) (o' { val := b })) (h : Optimises d nodes T depth v f o)
    (h' : Optimises d nodes T depth v f' o') (hc : Correct sv) {s : Ctx} (hs : Ready d nodes ((Query.withVar v f).names d T []) s)
    {tmp : Bool} {fuel : Nat} {r : OptOutput} {st st' : S} {s' : Ctx}
    (he : computeOptim sv (fun _ => f'.comp) (fun _ k => (o' k).comp) v tmp fuel st s = (.ok r, st', s')) (hr : r.found = true) :
    r.value.val.length = d ∧ ValidVals r.value.val ∧ f.about d T v (den r.value.val) ∧
      ∀ e, f.about d T v e → ¬ (o { val := r.value.val }).about d T v e := by
  obtain ⟨h1, h2, h3, h4⟩ := C46_queries hc h' (Laws.ready (Laws.names_iff (.withVar v hf) []) hs) he hr
  have hb : GoodVals d r.value.val := ⟨h1, h2⟩
  refine ⟨h1, h2, (C92_about hf h.good h.plain h'.plain _).2 h3, fun e hfe hoe => ?_⟩
  have := (C92_about (.and hf (ho _ hb)) (h.goodNext _ hb) (h.plainNext _ hb) (h'.plainNext _ hb) e).1 ⟨hfe, hoe⟩
  exact h4 e this.1 this.2

/-! ### Concrete cases -/

/-- `nodeQuery` after De Morgan's law, with a declaration below a negation. -/
def nodeQueryDual : Query :=
  .withVar ['x'] (.not (.or (.atom (.isnode (.var ['x']) (some VarGenNodeReach)))
    (.not (.forallG { id := ['c'] } (.withVar ['y'] (.and (.atom (.lel (.var ['y']) (.var ['x']) (some VarGenBotCount)))
      (.atom (.subs (.const { id := ['c'] }) (.var ['y'])))))))))

theorem nodeQuery_dual : Law nodeQuery nodeQueryDual :=
  .withVar _ (.trans (.and (.refl _) (.trans (.forallG _ (.withVar _ (.andComm _ _))) (.symm (.notNot _)))) (.symm (.notOr _ _)))

/-- Concrete case of C92: the second query is not one of C40, but the formula for it says what the first query says. -/
example : ¬ nodeQueryDual.Plain ∧ ∃ c s', nodeQueryDual.encode (BasicQContext 2 exNodes) = (.ok c, s') ∧
    (Satisfiable c ↔ ∃ x, ¬ IsNode 2 exTree x ∧ ∀ p ∈ exTree.nodeInsts bot, ∃ y, Subsumes 2 p.2 y ∧ LEL 2 y x) :=
  ⟨fun h => absurd h.positive (by simp [nodeQueryDual, Query.Positive, Query.binders]),
    C92_first_order nodeQuery_dual nodeQuery_good nodeQuery_plain⟩

/-- The same answers, here in a fresh context. -/
example (hc : Correct sv) (hr : Reliable sv) (negated : Bool) (st : S) :
    ∃ b st1 s1 st2 s2, atomSat sv nodeQuery.comp negated st (BasicQContext 2 exNodes) = (.ok b, st1, s1) ∧
      atomSat sv nodeQueryDual.comp negated st (BasicQContext 2 exNodes) = (.ok b, st2, s2) :=
  C92_answer nodeQuery_dual nodeQuery_good hc hr hc hr (Ready.fresh_ctx _ _ _) (Ready.fresh_ctx _ _ _) negated st st

/-- Concrete case of the laws about declarations: a declaration moves out of a conjunction. -/
example (p : Query) : Law (.and (.withVar ['x'] p) (.atom (.subs (.var ['y']) (.var ['y']))))
    (.withVar ['x'] (.and p (.atom (.subs (.var ['y']) (.var ['y']))))) :=
  .andVar _ _ (by intro a ha; simp only [Query.atoms, List.mem_singleton] at ha; subst ha; decide)

/-- Concrete case of `C92_optimum`: the formula of the test with its conjuncts exchanged. -/
example (hc : Correct sv) {tmp : Bool} {fuel : Nat} {r : OptOutput} {st st' : S} {s' : Ctx}
    (he : computeOptim sv (fun _ => (Query.and (.not (.atom (.subs (.var ['x']) (.const { val := [BOT, BOT, BOT] }))))
        (.atom (.subs (.var ['x']) (.const { val := [ONE, ONE, ONE] })))).comp)
      (fun _ k => (strictSubs ['x'] k).comp) ['x'] tmp fuel st (BasicQContext 3 []) = (.ok r, st', s')) (hr : r.found = true) :
    (testFormula ['x']).about 3 exTree ['x'] (den r.value.val) := by
  have h := optimises_subs testFormula_good testFormula_plain
  have hl : Law (testFormula ['x']) (Query.and (.not (.atom (.subs (.var ['x']) (.const { val := [BOT, BOT, BOT] }))))
    (.atom (.subs (.var ['x']) (.const { val := [ONE, ONE, ONE] })))) := .andComm _ _
  exact (C92_optimum hl (fun b _ => .refl _) h
    (optimises_subs (Laws.good (.withVar _ hl) testFormula_good) ⟨⟨rfl, trivial⟩, by decide, by decide, trivial, trivial⟩) hc
    (Ready.fresh_ctx _ _ _) he hr).2.2.1

end Goexpdt.Props

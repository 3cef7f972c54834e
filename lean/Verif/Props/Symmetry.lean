import Verif.Lemmas.Symmetry
import Verif.Props.Compute
/-
C93: answers do not depend on how features, values, classes and nodes are numbered.
-/
namespace Goexpdt.Props
open Goexpdt Spec

variable {d : Nat} {nodes nodes' : List Node} {T : DTree} {depth : QVar → Nat} {q f : Query} {o o' : QConst → Query} {v : QVar}
variable {S S' : Type} {sv : Solver S} {sv' : Solver S'}

/-- C93: a query is true of a tree in first-order logic exactly if the query in another presentation is true of the tree in that presentation. -/
theorem C93_meaning (y : Symmetry d) (q : Query) (hp : ∀ a ∈ q.atoms, a.PrefOk d) (env : QVar → PInst) (guards : List Char → Option PInst) :
    (y.query q).fo d (y.tree T) (fun x => y.inst (env x)) (fun c => (guards c).map y.inst) ↔ q.fo d T env guards :=
  y.fo q env _ guards _ hp (fun _ _ _ => rfl) fun _ => rfl

/-- C93: classes of total instances. -/
theorem C93_classify (y : Symmetry d) (x : Nat → Bool) : (y.tree T).classify (y.total x) = (y.cls ^^ T.classify x) := y.classify x T

/-- C93: if the nodes keep their places, the model in the new presentation is the slice of the nodes in the new presentation. -/
theorem C93_model (y : Symmetry d) (hid : ∀ i, y.idx i = i) (hT : IsTree d nodes T) (hC : Covers nodes T) :
    IsTree d (nodes.map y.node) (y.tree T) ∧ Covers (nodes.map y.node) (y.tree T) := ⟨y.isTree hid hT, y.covers hid hC⟩

/-- C93: the conditions of C54 on a query hold in all presentations, up to that different preferences must have different names. -/
theorem C93_good (y : Symmetry d) {t : Tags} (hd : 0 < d) (hT : IsTree d nodes' (y.tree T)) (hC : Covers nodes' (y.tree T)) (hok : t.Ok)
    (ht : q.Tidy t) (hs : q.Scoped d depth [] []) (hsep : (y.query q).Separate t) : (y.query q).Good d nodes' (y.tree T) depth :=
  query_good hd hT hC hok (y.tidy ht) hsep (y.scoped' hs)

/-- C93: the CNFs in the two presentations are both satisfiable or both not. -/
theorem C93_satisfiable (y : Symmetry d) (hg : q.Good d nodes T depth) (hg' : (y.query q).Good d nodes' (y.tree T) depth) (hp : q.Plain) :
    ∃ c s c' s', q.encode (BasicQContext d nodes) = (.ok c, s) ∧ (y.query q).encode (BasicQContext d nodes') = (.ok c', s') ∧
      (Satisfiable c ↔ Satisfiable c') := by
  obtain ⟨c, s, e, h⟩ := C40_first_order hg hp
  obtain ⟨c', s', e', h'⟩ := C40_first_order hg' (y.plain hp)
  refine ⟨c, s, c', s', e, e', h.trans (Iff.trans ?_ h'.symm)⟩
  exact (C93_meaning y q (Symmetry.prefOk_of_fits hg.fits) (fun _ => bot) fun _ => none).symm

/-- C93: evaluating the query gives the same answer in the two presentations. -/
theorem C93_answer (y : Symmetry d) (hg : q.Good d nodes T depth) (hg' : (y.query q).Good d nodes' (y.tree T) depth) (hp : q.Plain)
    (hc : Correct sv) (hr : Reliable sv) (hc' : Correct sv') (hr' : Reliable sv') {s t : Ctx} (hs : Ready d nodes (q.names d T []) s)
    (ht : Ready d nodes' ((y.query q).names d (y.tree T) []) t) (negated : Bool) (st : S) (st' : S') :
    ∃ b st1 s1 st2 s2, atomSat sv q.comp negated st s = (.ok b, st1, s1) ∧
      atomSat sv' (y.query q).comp negated st' t = (.ok b, st2, s2) := by
  obtain ⟨b, st1, s1, e, hb⟩ := C42_first_order hc hr hg hp hs negated st
  obtain ⟨b', st2, s2, e', hb'⟩ := C42_first_order hc' hr' hg' (y.plain hp) ht negated st'
  have hm : (y.query q).fo d (y.tree T) (fun _ => bot) (fun _ => none) ↔ q.fo d T (fun _ => bot) fun _ => none :=
    C93_meaning y q (Symmetry.prefOk_of_fits hg.fits) (fun _ => bot) fun _ => none
  rw [hm, ← hb] at hb'
  have : b' = b := by cases b <;> cases b' <;> simp_all
  subst this
  exact ⟨b', st1, s1, st2, s2, e, e'⟩

/-- C93: what `ComputeOptim` finds in one presentation is, in the other, an optimum there. -/
theorem C93_optimum (y : Symmetry d) (h : Optimises d nodes T depth v f o) (h' : Optimises d nodes' (y.tree T) depth v (y.query f) o')
    (ho : ∀ b, GoodVals d b → o' { val := y.vals b } = y.query (o { val := b })) (hc : Correct sv) {s s' : Ctx}
    (hs : Ready d nodes' ((Query.withVar v (y.query f)).names d (y.tree T) []) s) {tmp : Bool} {fuel : Nat} {r : OptOutput} {st st' : S}
    (he : computeOptim sv (fun _ => (y.query f).comp) (fun _ k => (o' k).comp) v tmp fuel st s = (.ok r, st', s')) (hr : r.found = true) :
    ∃ b, GoodVals d b ∧ y.vals b = r.value.val ∧ f.about d T v (den b) ∧ ∀ e, f.about d T v e → ¬ (o { val := b }).about d T v e := by
  obtain ⟨h1, h2, h3, h4⟩ := C46_queries hc h' hs he hr
  obtain ⟨b, hb, hv⟩ := y.vals_surj ⟨h1, h2⟩
  have hpf := Symmetry.prefOk_of_fits h.good.fits
  have hpo := Symmetry.prefOk_of_fits (h.goodNext b hb).fits
  simp only [Query.atoms, List.mem_append] at hpf hpo
  rw [← hv, ho b hb] at h4
  refine ⟨b, hb, hv, ?_, fun e hf => ?_⟩
  · rw [← hv] at h3
    refine (y.fo f _ _ _ _ hpf (fun x => ?_) fun _ => rfl).1 h3
    unfold upd
    split
    · exact y.den_vals b
    · exact fun i _ => rfl
  · rw [← y.about fun a ha => hpo a (.inr ha)]
    exact h4 _ ((y.about hpf v e).2 hf)

/-- C93: `ComputeOptim` says in one presentation that there is no instance exactly if it does in the other. -/
theorem C93_found (y : Symmetry d) (h : Optimises d nodes T depth v f o) (h' : Optimises d nodes' (y.tree T) depth v (y.query f) o')
    (hc : Correct sv) (hr : Reliable sv) (hc' : Correct sv') (hr' : Reliable sv') {s t : Ctx}
    (hs : Ready d nodes ((Query.withVar v f).names d T []) s) (ht : Ready d nodes' ((Query.withVar v (y.query f)).names d (y.tree T) []) t)
    (fuel fuel' : Nat) (st : S) (st' : S') :
    (∃ r st1 s1, computeOptim sv (fun _ => f.comp) (fun _ k => (o k).comp) v true fuel st s = (.ok r, st1, s1) ∧ r.found = false) ↔
    ∃ r st1 s1, computeOptim sv' (fun _ => (y.query f).comp) (fun _ k => (o' k).comp) v true fuel' st' t = (.ok r, st1, s1) ∧ r.found = false := by
  rw [C47_absent_partial hc hr h.poses hs, C47_absent_partial hc' hr' h'.poses ht]
  have hpf := Symmetry.prefOk_of_fits h.good.fits
  simp only [Query.atoms] at hpf
  constructor
  · intro hn e' he
    obtain ⟨e, rfl⟩ := y.inst_surj e'
    exact hn e ((y.about hpf v e).1 he)
  · intro hn e he
    exact hn (y.inst e) ((y.about hpf v e).2 he)

/-! ### Concrete cases -/

/-- Features 0 and 1 exchange their numbers, the values of what was feature 0 are exchanged, and so are the classes, and the places of nodes 1
and 4. -/
def exSymmetry : Symmetry 2 where
  perm i := if i = 0 then 1 else if i = 1 then 0 else i
  inv i := if i = 0 then 1 else if i = 1 then 0 else i
  flip i := i == 0
  cls := true
  idx i := if i = 1 then 4 else if i = 4 then 1 else i
  left i := by grind
  right i := by grind
  range i := by grind

/-- The model of the examples in this presentation. -/
def exNodesOther : List Node :=
  [⟨false, 0, 2, 4⟩, ⟨true, -1, -1, -1⟩, ⟨false, 1, 3, 1⟩, ⟨false, -1, -1, -1⟩, ⟨false, -1, -1, -1⟩]

theorem exNodesOther_isTree : IsTree 2 exNodesOther (exSymmetry.tree exTree) ∧ Covers exNodesOther (exSymmetry.tree exTree) := by
  have e : exSymmetry.tree exTree = .node 0 0 (.node 2 1 (.leaf 3 false) (.leaf 1 true)) (.leaf 4 false) := rfl
  rw [e]
  refine ⟨⟨?_, rfl, by decide, by decide, ?_⟩, by unfold Covers; decide⟩
  · simp [LaysOut, exNodesOther, DTree.root, Node.childless]
  · simp [DTree.ReadOnce, DTree.feats]

/-- An instance all of whose completions have class 1, that agrees with the constant 01 and is smaller. -/
def agreeQuery : Query :=
  .withVar ['x'] (.and (.atom (.allcomp (.var ['x']) true (some (tagged1 testTags.comp))))
    (.and (.atom (.cons (.var ['x']) (.const { val := [ZERO, ONE] })))
      (.atom (.hepr (.const { val := [ZERO, ONE] }) (.var ['x']) [1, 0] (some (tagged3 testTags.pref))))))

theorem agreeQuery_tidy : agreeQuery.Tidy testTags ∧ agreeQuery.Scoped 2 (fun _ => 0) [] [] ∧ agreeQuery.Plain := by
  refine ⟨⟨⟨by decide, 'x', [], rfl, by decide⟩, rfl, trivial, rfl⟩, ⟨rfl, ?_, ?_, ?_⟩, ⟨⟨trivial, trivial, trivial⟩, by decide, by decide, trivial, trivial, trivial⟩⟩
  · exact ⟨by simp [Atom.vars, Term.vars], by simp [Spec.Atom.consts, Spec.Term.consts], trivial, trivial, trivial, trivial⟩
  · exact ⟨by simp [Atom.vars, Term.vars], by simp only [Spec.Atom.consts, Spec.Term.consts, List.nil_append, List.mem_singleton, forall_eq]; decide, trivial,
      trivial, trivial, trivial⟩
  · exact ⟨by simp [Atom.vars, Term.vars], by simp only [Spec.Atom.consts, Spec.Term.consts, List.append_nil, List.mem_singleton, forall_eq]; decide,
      ⟨by simp, by simp⟩, by simp [Spec.Atom.PrefsNonempty], trivial, trivial⟩

/-- The query in the other presentation. -/
example : exSymmetry.query agreeQuery =
    .withVar ['x'] (.and (.atom (.allcomp (.var ['x']) false (some (tagged1 testTags.comp))))
      (.and (.atom (.cons (.var ['x']) (.const { val := [ONE, ONE] })))
        (.atom (.hepr (.const { val := [ONE, ONE] }) (.var ['x']) [0, 1] (some (tagged3 testTags.pref)))))) := rfl

theorem testTags_fine : testTags.Ok := ⟨by decide, by decide, by decide⟩

/-- Concrete case of C93: both queries get the same answer, on different models. -/
example (hc : Correct sv) (hr : Reliable sv) (negated : Bool) (st : S) :
    ∃ b st1 s1 st2 s2, atomSat sv agreeQuery.comp negated st (BasicQContext 2 exNodes) = (.ok b, st1, s1) ∧
      atomSat sv (exSymmetry.query agreeQuery).comp negated st (BasicQContext 2 exNodesOther) = (.ok b, st2, s2) := by
  obtain ⟨h1, h2, h3⟩ := agreeQuery_tidy
  have hsep : agreeQuery.Separate testTags := ⟨by decide, .inr (.inl rfl)⟩
  have hsep' : (exSymmetry.query agreeQuery).Separate testTags := ⟨by decide, .inr (.inl rfl)⟩
  exact C93_answer exSymmetry (query_good (by omega) exNodes_isTree exNodes_covers testTags_fine h1 hsep h2)
    (C93_good exSymmetry (by omega) exNodesOther_isTree.1 exNodesOther_isTree.2 testTags_fine h1 h2 hsep') h3 hc hr hc hr
    (Ready.fresh_ctx _ _ _) (Ready.fresh_ctx _ _ _) negated st st

/-- The orders of the library's predicates are given by the same query in all presentations. -/
example (y : Symmetry d) (b : List FeatV) (v : QVar) (g : QVar → QVar) :
    strictSubs v { val := y.vals b } = y.query (strictSubs v { val := b }) ∧ strictLel g v { val := y.vals b } = y.query (strictLel g v { val := b }) :=
  ⟨rfl, rfl⟩

/-- Concrete case of `C93_optimum`: the formula of the test, in any presentation. -/
example (y : Symmetry 3) (hc : Correct sv) {tmp : Bool} {fuel : Nat} {r : OptOutput} {st st' : S} {s' : Ctx}
    (he : computeOptim sv (fun _ => (y.query (testFormula ['x'])).comp) (fun _ k => (strictSubs ['x'] k).comp) ['x'] tmp fuel st
      (BasicQContext 3 []) = (.ok r, st', s')) (hr : r.found = true) :
    ∃ b, GoodVals 3 b ∧ y.vals b = r.value.val ∧ (testFormula ['x']).about 3 exTree ['x'] (den b) := by
  have hg : (Query.withVar ['x'] (y.query (testFormula ['x']))).Good 3 [] (y.tree exTree) (fun _ => 0) := by
    refine ⟨by omega, ⟨rfl, subs_fits (y.vals_good (by decide)) (.inl ⟨rfl, rfl⟩), subs_fits (y.vals_good (by decide)) (.inl ⟨rfl, rfl⟩)⟩, ?_⟩
    intro u hu
    simp [Query.uses, testFormula, Symmetry.query, Symmetry.atom, Atom.uses] at hu
  obtain ⟨b, h1, h2, h3, -⟩ := C93_optimum (o := strictSubs ['x']) y (optimises_subs testFormula_good testFormula_plain)
    (optimises_subs hg (y.plain testFormula_plain)) (fun _ _ => rfl) hc (Ready.fresh_ctx _ _ _) he hr
  exact ⟨b, h1, h2, h3⟩

end Goexpdt.Props

import Verif.Lemmas.Settle
import Verif.Props.Clash
/-
Property C75: what CNFs say if auxiliary variables are shared.

C36, C37 and C38 show that components that name auxiliary variables alike can exclude instances. C75 says which: exactly those for which
the meanings of the shared variables contradict each other.
-/
namespace Goexpdt.Props
open Goexpdt Spec

variable {d : Nat} {nodes : List Node} {T : DTree} {xs : List QVar} {q : Query}

/-- C75: whatever names the auxiliary variables get, as long as they are not the names of query variables, a query whose predicates fit and
in which names are declared before they are used is encoded without error. Under the consistency clauses the names stand for instances for
which the settled auxiliary variables do not have two meanings, all assignments for which no auxiliary variable has two meanings are
allowed, and the semantic clauses decide the query, with the predicates that are blind (C34) replaced by "true". -/
theorem C75_shared (hg : q.Encodable d nodes T) :
    (∃ c s', q.encode (BasicQContext d nodes) = (.ok c, s') ∧ WF c ∧ Ready d nodes [] s' ∧
      Shared d nodes T (q.flat d T).names (fun σ => (q.flat d T).encoded d T σ) ((q.flat d T).settles d) ((q.flat d T).emits d) s' c) ∧
    ∀ s, Ready d nodes (q.flat d T).names s → ∃ c s', q.encode s = (.ok c, s') ∧ WF c ∧ Ready d nodes [] s' ∧
      Shared d nodes T (q.flat d T).names (fun σ => (q.flat d T).encoded d T σ) ((q.flat d T).settles d) ((q.flat d T).emits d) s' c :=
  ⟨encodable_query hg (Ready.fresh_ctx _ _ _), fun _ hs => encodable_query hg hs⟩

/-- C75, the relation to C65: its conditions are that, in addition, no predicate is blind, and that every auxiliary variable has one meaning
and is no query variable. Then the query as encoded is the query, and no assignment is excluded. -/
theorem C75_generalises :
    (q.Sound d nodes T ↔ q.Encodable d nodes T ∧ (q.flat d T).sighted d = true ∧ Hygienic d T (q.flat d T).names (q.flat d T).uses) ∧
    (q.Sound d nodes T → ∀ σ, ((q.flat d T).encoded d T σ ↔ (q.flat d T).sem d T σ) ∧ Coherent d nodes T ((q.flat d T).emits d) σ) := by
  refine ⟨⟨fun h => ?_, fun h => ⟨h.1.dim, h.1.tree, (ground_fits_iff _).2 ⟨h.1.fits, h.2.1⟩, h.2.2⟩⟩, fun h σ => ?_⟩
  · obtain ⟨h1, h2⟩ := (ground_fits_iff _).1 h.fits
    exact ⟨⟨h.dim, h.tree, h1, fun u hu => (h.clean u (ground_emits_uses _ hu)).1⟩, h2, h.clean⟩
  · exact ⟨ground_sighted _ ((ground_fits_iff _).1 h.fits).2, (h.clean.coherent nodes σ).mono fun u hu => ground_emits_uses _ hu⟩

/-- C75, blind predicates: if every auxiliary variable that appears in clauses has one meaning, the CNF is faithful to the query with blind
predicates replaced by "true". -/
theorem C75_blind (hg : q.Encodable d nodes T) (hu : Hygienic d T (q.flat d T).names ((q.flat d T).emits d))
    {s : Ctx} (hr : Ready d nodes (q.flat d T).names s) :
    ∃ c s', q.encode s = (.ok c, s') ∧ WF c ∧ Faithful d (q.flat d T).names (fun σ => (q.flat d T).encoded d T σ) s' c := by
  obtain ⟨c, s', e, w, -, h⟩ := encodable_query hg hr
  have hs := h.says (Q := fun σ => (q.flat d T).encoded d T σ) (fun σ h1 _ => h1) fun σ h1 => ⟨h1, hu.coherent nodes σ⟩
  exact ⟨c, s', e, w, hs.sat, hs.decode, hs.encode, h.reads, fun σ => h.con σ (hu.coherent nodes σ), h.sem⟩

/-- Concrete case: "x is not at most as far from 00 as 00 is". Every instance that is not full is an answer, but the predicate is blind, so
the CNF is not satisfiable. -/
def blindQuery : Query :=
  .withVar ['x'] (.not (.atom (.leh (.const { val := [ZERO, ZERO] }) (.const { val := [ZERO, ZERO] }) (.var ['x']) (some VarGenHammingDistance)
    (some VarGenEqualFeat))))

example : ∃ c s', blindQuery.encode (BasicQContext 2 []) = (.ok c, s') ∧ WF c ∧ Faithful 2 [['x']] (fun _ => False) s' c ∧
    (blindQuery.flat 2 (.leaf 0 false)).sem 2 (.leaf 0 false) fun _ => bot := by
  have hem : (blindQuery.flat 2 (.leaf 0 false)).emits 2 = [] := by decide
  have hfit : (Atom.leh (.const { val := [ZERO, ZERO] }) (.const { val := [ZERO, ZERO] }) (.var ['x']) (some VarGenHammingDistance)
      (some VarGenEqualFeat)).Loose 2 [] (.leaf 0 false) [['x']] [] :=
    ⟨by simp [Atom.vars, Term.vars], by simp [Spec.Atom.consts, Spec.Term.consts, resolve, ValidVals, ZERO, BOT],
      by simp [Spec.Atom.nilGen, Spec.Term.isVar], trivial, trivial, by simp [Atom.onModel]⟩
  obtain ⟨c, s', e, w, h⟩ := C75_blind (q := blindQuery) (d := 2) (nodes := []) (T := .leaf 0 false)
    ⟨by omega, by simp [blindQuery, Query.loops], ⟨hfit, by simp [Atom.vars, Term.vars, suffix]⟩, by rw [hem]; simp⟩
    (by rw [hem]; exact fun u hu => by simp at hu) (Ready.fresh_ctx 2 [] _)
  have hP : (fun σ => (blindQuery.flat 2 (.leaf 0 false)).encoded 2 (.leaf 0 false) σ) = fun _ => False := by
    funext σ
    exact eq_false fun hn => hn (.inr (by decide))
  rw [hP] at h
  refine ⟨c, s', e, w, h, ?_⟩
  rintro ⟨-, -, h3, -⟩
  exact h3 0 (by omega) rfl

/-- C75, exact meaning: if contradictions are only between settled variables, as far as the query is true, then the CNF says the query and
that the meanings agree. -/
theorem C75_exact (hg : q.Encodable d nodes T)
    (hs : ∀ σ, (q.flat d T).encoded d T σ → Coherent d nodes T ((q.flat d T).settles d) σ → Coherent d nodes T ((q.flat d T).emits d) σ)
    {s : Ctx} (hr : Ready d nodes (q.flat d T).names s) :
    ∃ c s', q.encode s = (.ok c, s') ∧ WF c ∧ Says d (q.flat d T).names
      (fun σ => (q.flat d T).encoded d T σ ∧ Coherent d nodes T ((q.flat d T).emits d) σ) s' c := by
  obtain ⟨c, s', e, w, -, h⟩ := encodable_query hg hr
  exact ⟨c, s', e, w, h.says (fun σ h1 h2 => ⟨h1, hs σ h1 h2⟩) fun σ h => h⟩

/-- C75, isnode and allcomp: where both share the auxiliary variables of a query variable, the CNF says in addition that the variable
defines the features on a path to a leaf. Nothing else is added. -/
theorem C75_nodes (hg : q.Encodable d nodes T) (hT : IsTree d nodes T) (hu : NodesShared ((q.flat d T).emits d))
    {s : Ctx} (hr : Ready d nodes (q.flat d T).names s) :
    ∃ c s', q.encode s = (.ok c, s') ∧ WF c ∧ Says d (q.flat d T).names
      (fun σ => (q.flat d T).encoded d T σ ∧ ∀ n, sharedBy ((q.flat d T).emits d) n → Lands (σ n) T) s' c := by
  obtain ⟨c, s', e, w, -, h⟩ := encodable_query hg hr
  refine ⟨c, s', e, w, h.says (fun σ h1 h2 => ⟨h1, ?_⟩) fun σ h => ⟨h.1, (coherent_nodes hT hu).2 h.2⟩⟩
  have hu' : NodesShared ((q.flat d T).settles d) := fun u h1 u' h2 => hu u (ground_settles_emits _ h1) u' (ground_settles_emits _ h2)
  rintro n ⟨a, h3, h4⟩
  exact (coherent_nodes hT hu').1 h2 n
    ⟨a, ground_uses_settles _ rfl (ground_emits_uses _ h3), ground_uses_settles _ rfl (ground_emits_uses _ h4)⟩

theorem lands_of_full {e : PInst} (h : ∀ f ∈ T.feats, e f ≠ none) : Lands e T := by
  induction T with
  | leaf i v => trivial
  | node i f z o ihz iho =>
    have hz := ihz fun g hg => h g (by simp [DTree.feats, hg])
    have ho := iho fun g hg => h g (by simp [DTree.feats, hg])
    have hf := h f (by simp [DTree.feats])
    cases hb : e f with
    | none => exact absurd hb hf
    | some b => cases b <;> simp [Lands, hb, hz, ho]

/-- C75, when sharing is harmless: if the query says of all variables for which isnode and allcomp share auxiliary variables that they are
full, then the CNF says the query. -/
theorem C75_full (hg : q.Encodable d nodes T) (hT : IsTree d nodes T) (hu : NodesShared ((q.flat d T).emits d))
    (hf : ∀ σ, (q.flat d T).encoded d T σ → ∀ n, sharedBy ((q.flat d T).emits d) n → Full d (σ n))
    {s : Ctx} (hr : Ready d nodes (q.flat d T).names s) :
    ∃ c s', q.encode s = (.ok c, s') ∧ WF c ∧ Says d (q.flat d T).names (fun σ => (q.flat d T).encoded d T σ) s' c := by
  obtain ⟨c, s', e, w, h⟩ := C75_nodes hg hT hu hr
  have key : ∀ σ, ((q.flat d T).encoded d T σ ∧ ∀ n, sharedBy ((q.flat d T).emits d) n → Lands (σ n) T) ↔ (q.flat d T).encoded d T σ := fun σ =>
    ⟨fun h => h.1, fun h => ⟨h, fun n hn => lands_of_full fun f hft => hf σ h n hn f (hT.range f hft)⟩⟩
  exact ⟨c, s', e, w, h.congr key⟩

/-- Concrete case: full instances that are nodes of the example tree and have all completions positive, with one generator. -/
def fullSharedQuery : Query :=
  .withVar ['x'] (.and (.atom (.full (.var ['x']))) (.or (.atom (.isnode (.var ['x']) (some VarGenNodeReach)))
    (.not (.atom (.allcomp (.var ['x']) true (some VarGenNodeReach))))))

example : ∃ c s', fullSharedQuery.encode (BasicQContext 2 exNodes) = (.ok c, s') ∧ WF c ∧
    Says 2 [['x']] (fun σ => Full 2 (σ ['x']) ∧ (IsNode 2 exTree (σ ['x']) ∨ ¬ AllComp 2 exTree true (σ ['x']))) s' c := by
  have hu : (fullSharedQuery.flat 2 exTree).emits 2 = [(VarGenNodeReach ['x'], .onPath ['x']), (VarGenNodeReach ['x'], .reach ['x'])] := rfl
  have hsem : ∀ σ, (fullSharedQuery.flat 2 exTree).encoded 2 exTree σ ↔
      (Full 2 (σ ['x']) ∧ (IsNode 2 exTree (σ ['x']) ∨ ¬ AllComp 2 exTree true (σ ['x']))) := fun σ => by
    rw [ground_sighted _ rfl]; exact Iff.rfl
  have hx : ['x'] ++ suffix (List.take ((Levels.declare (fun _ => 0) 0 ['x']) ['x']) []) ∈ [['x']] := by simp [suffix]
  have hf : ∀ a : Atom, a.vars = [['x']] → a.Loose 2 exNodes exTree a.vars [] →
      (Ground.atom a (Levels.declare (fun _ => 0) 0 ['x']) []).Loose 2 exNodes exTree [['x']] := by
    intro a ha h
    exact ⟨h, fun y hy => by rw [ha] at hy; simp only [List.mem_singleton] at hy; subst hy; exact hx⟩
  obtain ⟨c, s', e, w, h⟩ := C75_full (q := fullSharedQuery) (d := 2) (nodes := exNodes) (T := exTree) (s := BasicQContext 2 exNodes)
    ⟨by omega, by simp [fullSharedQuery, Query.loops],
      ⟨hf _ rfl ⟨by simp, by simp [Spec.Atom.consts, Spec.Term.consts], rfl, trivial, trivial, by simp [Atom.onModel]⟩,
        hf _ rfl ⟨by simp, by simp [Spec.Atom.consts, Spec.Term.consts], rfl, trivial, trivial, fun _ => ⟨exNodes_isTree, exNodes_covers⟩⟩,
        hf _ rfl ⟨by simp, by simp [Spec.Atom.consts, Spec.Term.consts], rfl, trivial, trivial, fun _ => ⟨exNodes_isTree, exNodes_covers⟩⟩⟩,
      by rw [hu]; decide⟩ exNodes_isTree (by
        rw [hu]
        intro u hu u' hu' _
        simp only [List.mem_cons, List.not_mem_nil, or_false] at hu hu'
        rcases hu with rfl | rfl <;> rcases hu' with rfl | rfl <;> simp) (by
        rw [hu]
        rintro σ hσ n ⟨a, h1, h2⟩
        simp only [List.mem_cons, Prod.mk.injEq, Role.onPath.injEq, reduceCtorEq, and_false, List.not_mem_nil, or_false] at h1
        rw [h1.2]
        exact ((hsem σ).1 hσ).1) (Ready.fresh_ctx _ _ _)
  exact ⟨c, s', e, w, h.congr hsem⟩

/-! ### pairs -/

/-- Both, or the first and not the second. -/
def pairOf (both : Bool) (a1 a2 : Atom) : Query := .and (.atom a1) (if both then .atom a2 else .not (.atom a2))

/-- Queries over variables declared at the top. -/
theorem encodable_pairOf {both : Bool} {a1 a2 : Atom} (hd : 0 < d) (h1 : a1.Fits d nodes T xs []) (h2 : a2.Fits d nodes T xs [])
    (hu : ∀ u ∈ a1.uses (fun _ => 0) [] ++ a2.uses (fun _ => 0) [], u.1 ∉ xs) :
    (declare xs (pairOf both a1 a2)).Encodable d nodes T ∧ ((declare xs (pairOf both a1 a2)).flat d T).names = xs ∧
    ((declare xs (pairOf both a1 a2)).flat d T).emits d = a1.emits d (fun _ => 0) [] ++ a2.emits d (fun _ => 0) [] ∧
    ((declare xs (pairOf both a1 a2)).flat d T).settles d = a1.settles d (fun _ => 0) [] ++ a2.settles d (fun _ => 0) [] ∧
    ∀ σ, ((declare xs (pairOf both a1 a2)).flat d T).encoded d T σ ↔
      (a1.says d T (Term.under σ) ∧ if both then a2.says d T (Term.under σ) else ¬ a2.says d T (Term.under σ)) := by
  obtain ⟨k1, -, k2, k4, k5, k3⟩ := declare_flat (d := d) (T := T) (pairOf both a1 a2) xs
  have e : ∀ (σ : Asg) (a : Atom), (a.says d T fun t => (t.res (fun _ => 0) []).den σ) = a.says d T (Term.under σ) := by
    intro σ a
    rw [show (fun t : Term => (t.res (fun _ => 0) []).den σ) = Term.under σ from funext fun t => res_nil t _ σ]
  have hn : ((declare xs (pairOf both a1 a2)).flat d T).names = xs := by
    rw [k1]; cases both <;> simp [pairOf, Query.flat, Query.ground, Ground.names]
  have hus : ((declare xs (pairOf both a1 a2)).flat d T).emits d = a1.emits d (fun _ => 0) [] ++ a2.emits d (fun _ => 0) [] := by
    rw [k2]; cases both <;> simp [pairOf, Query.flat, Query.ground, Ground.emits, Query.levels]
  have b1 := (blind_iff h1.consts).2 h1.regular
  have b2 := (blind_iff h2.consts).2 h2.regular
  refine ⟨⟨hd, ?_, ?_, ?_⟩, hn, hus, ?_, ?_⟩
  · rw [k3]; cases both <;> simp [pairOf, Query.loops]
  · refine declare_flat_loose _ xs [] fun Γ' hΓ => ?_
    have hx : ∀ x ∈ xs, x ++ suffix (List.take ((fun _ => 0 : Levels) x) []) ∈ Γ' := fun x hx => by
      simpa [suffix] using hΓ x (by simpa using hx)
    have g1 : (Ground.atom a1 (fun _ => 0) []).Loose d nodes T Γ' := ⟨{ h1.loose with vars := fun x hx => hx }, fun x hx' => hx x (h1.vars x hx')⟩
    have g2 : (Ground.atom a2 (fun _ => 0) []).Loose d nodes T Γ' := ⟨{ h2.loose with vars := fun x hx => hx }, fun x hx' => hx x (h2.vars x hx')⟩
    cases both
    · exact ⟨g1, g2⟩
    · exact ⟨g1, g2⟩
  · rw [hn, hus]
    exact fun u h => hu u (List.mem_append.2 ((List.mem_append.1 h).imp emits_sub_uses emits_sub_uses))
  · rw [k4]; cases both <;> simp [pairOf, Query.flat, Query.ground, Ground.settles, Query.levels]
  · intro σ
    rw [k5]; cases both <;> simp [pairOf, Query.flat, Query.ground, Ground.encoded, Atom.encoded, b1, b2, Query.levels, e]

/-- C75, the pair of C36: with one generator, "`x` is a node, and all its completions have class `b`" says that `x` is a leaf of class `b`
(a node that defines the features on a path to a leaf). -/
theorem C75_leaf (hd : 0 < d) (hT : IsTree d nodes T) (hC : Covers nodes T) {x : QVar} {b : Bool} {g : QVar → QVar} (hx : x ∈ xs)
    (hg : FreshGen xs g) {s : Ctx} (hr : Ready d nodes xs s) :
    ∃ c s', (declare xs (.and (.atom (.isnode (.var x) (some g))) (.atom (.allcomp (.var x) b (some g))))).encode s = (.ok c, s') ∧ WF c ∧
      Says d xs (fun σ => IsNode d T (σ x) ∧ AllComp d T b (σ x) ∧ Lands (σ x) T) s' c := by
  have f1 : (Atom.isnode (.var x) (some g)).Fits d nodes T xs [] :=
    ⟨by simpa [Atom.vars, Term.vars] using hx, by simp [Spec.Atom.consts, Spec.Term.consts], by simp [Spec.Atom.nilGen], trivial, trivial,
      trivial, fun _ => ⟨hT, hC⟩⟩
  have f2 : (Atom.allcomp (.var x) b (some g)).Fits d nodes T xs [] :=
    ⟨by simpa [Atom.vars, Term.vars] using hx, by simp [Spec.Atom.consts, Spec.Term.consts], by simp [Spec.Atom.nilGen], trivial, trivial,
      trivial, fun _ => ⟨hT, hC⟩⟩
  obtain ⟨he, hn, hus, -, k3⟩ := encodable_pairOf (both := true) hd f1 f2 (by simpa [Atom.uses, suffix] using (hg x hx).1)
  replace hus : _ = [(g x, Role.onPath x), (g x, Role.reach x)] := hus.trans (by simp [Atom.emits, Atom.uses, suffix])
  obtain ⟨c, s', e, w, h⟩ := C75_nodes he hT (by
    rw [hus]
    intro u hu u' hu' _
    simp only [List.mem_cons, List.not_mem_nil, or_false] at hu hu'
    rcases hu with rfl | rfl <;> rcases hu' with rfl | rfl <;> simp) (s := s) (by rwa [hn])
  refine ⟨c, s', e, w, ?_⟩
  rw [hn] at h
  refine h.congr fun σ => ?_
  rw [k3 σ, hus]
  simp [Atom.says, Term.under, sharedBy, and_assoc]

/-- Concrete case: the query of `C36_shared_wrong` without its last part says that `x` is a leaf. -/
example : ∃ c s', (declare [['x']] (.and (.atom (.isnode (.var ['x']) (some VarGenNodeReach)))
      (.atom (.allcomp (.var ['x']) true (some VarGenNodeReach))))).encode (BasicQContext 1 oneNodes) = (.ok c, s') ∧
    (∃ β, Models β c ∧ Reads 1 s' β ['x'] (bot.set 0 false)) ∧ ¬ ∃ β, Models β c ∧ Reads 1 s' β ['x'] bot := by
  obtain ⟨c, s', e, -, h⟩ := C75_leaf (d := 1) (b := true) (by omega) oneTree_ok.1 oneTree_ok.2 (x := ['x']) (xs := [['x']])
    (g := VarGenNodeReach) (by simp) (by unfold FreshGen; decide) (Ready.fresh_ctx 1 oneNodes _)
  refine ⟨c, s', e, ?_, ?_⟩
  · obtain ⟨β, h1, h2⟩ := h.encode (fun _ => bot.set 0 false) ⟨⟨(1, bot.set 0 false), by simp [oneTree, DTree.nodeInsts], fun i _ => rfl⟩,
      by intro x _; simp [oneTree, DTree.classify], by simp [oneTree, Lands, PInst.set]⟩
    exact ⟨β, h1, h2 _ (by simp)⟩
  · rintro ⟨β, h1, h2⟩
    obtain ⟨σ, ⟨-, -, h3⟩, h4⟩ := h.decode β h1
    have h5 := h4 _ (List.mem_singleton.2 rfl)
    simp only [oneTree, Lands, and_true] at h3
    have h6 := (h2 0 (by omega) BOT (by simp [featVals])).symm.trans (h5 0 (by omega) BOT (by simp [featVals]))
    rcases h3 with h3 | h3 <;> simp [h3, bot, valOf, BOT, ZERO, ONE] at h6

theorem eq_of_tests {a b z : Option Bool} (ha : a ≠ none) (hb : b ≠ none) (hz : z ≠ none) (h : z = a ↔ z = b) : a = b := by
  rcases a with _ | _ | _ <;> rcases b with _ | _ | _ <;> rcases z with _ | _ | _ <;> simp_all

/-- C75, the pair of C37: two `ConstVarConst` whose third constants have one name say in addition that the first constants are the same. -/
theorem C75_first (hd : 0 < d) {x : QVar} {c1 c1' c3 c3' : QConst} {g : QVar → QVar → QVar} {e e' : Option (QVar → QVar → QVar)} (hx : x ∈ xs)
    (h1 : (Term.const c1).Ok d xs) (h1' : (Term.const c1').Ok d xs) (h3 : (Term.const c3).Ok d xs) (h3' : (Term.const c3').Ok d xs)
    (hr1 : hamming d (den c1.val) (den c3.val) ≠ d) (hr2 : hamming d (den c1'.val) (den c3'.val) ≠ d)
    (hk : c3'.asString = c3.asString) (hg : g x c3.asString ∉ xs) {s : Ctx} (hr : Ready d nodes xs s) :
    ∃ c s', (declare xs (.and (.atom (.leh (.const c1) (.var x) (.const c3) (some g) e))
        (.atom (.leh (.const c1') (.var x) (.const c3') (some g) e')))).encode s = (.ok c, s') ∧ WF c ∧
      Says d xs (fun σ => LEH d (den c1.val) (σ x) (den c3.val) ∧ LEH d (den c1'.val) (σ x) (den c3'.val) ∧
        Same d (den c1.val) (den c1'.val)) s' c := by
  have fit : ∀ {c1 c3 : QConst} {e : Option (QVar → QVar → QVar)}, (Term.const c1).Ok d xs → (Term.const c3).Ok d xs →
      hamming d (den c1.val) (den c3.val) ≠ d →
      (Atom.leh (.const c1) (.var x) (.const c3) (some g) e).Fits d nodes (.leaf 0 false) xs [] := by
    intro c1 c3 e h1 h3 hr
    refine ⟨by simpa [Atom.vars, Term.vars] using hx, ?_, by simp [Spec.Atom.nilGen, Spec.Term.isVar], trivial, trivial, ?_,
      by simp [Atom.onModel]⟩
    · simp only [Spec.Atom.consts, List.mem_append]
      exact fun c h => h.elim (fun h => h.elim (term_consts_ok h1 c) (by simp [Spec.Term.consts])) (term_consts_ok h3 c)
    · simp only [Atom.Regular, resolve, List.find?_nil]
      exact fun _ _ => hr
  have us : ∀ {c1 c3 : QConst} {e : Option (QVar → QVar → QVar)}, (Atom.leh (.const c1) (.var x) (.const c3) (some g) e).uses (fun _ => 0) [] =
      [(g x c3.asString, .dist (.name x) (.vals c1.val))] := by
    intro c1 c3 e
    simp [Atom.uses, suffix, keyOf, resolve]
  have st : ∀ {c1 c3 : QConst} {e : Option (QVar → QVar → QVar)}, (Term.const c1).Ok d xs → (Term.const c3).Ok d xs → Full d (den c1.val) →
      Full d (den c3.val) → hamming d (den c1.val) (den c3.val) ≠ d → (g x c3.asString, Role.dist (.name x) (.vals c1.val)) ∈
        (Atom.leh (.const c1) (.var x) (.const c3) (some g) e).settles d (fun _ => 0) [] := by
    intro c1 c3 e h1 h3 f1 f3 hne
    have key : ∀ {c : QConst}, (Term.const c).Ok d xs → Full d (den c.val) → BOT ∉ c.val := by
      intro c h f hb
      obtain ⟨i, hi, hb⟩ := List.getElem_of_mem hb
      have hl : c.val.length = d := h.1
      refine f i (by omega) ?_
      simp [den, List.getElem?_eq_getElem hi, hb, featDen, BOT]
    simp only [Atom.settles, Atom.emits, us]
    rw [if_pos]
    · simp [Role.settled]
    · simp only [Atom.blind, beq_eq_false_iff_ne.2 hne, Bool.and_false, Bool.not_false, Total, Spec.Atom.consts, Spec.Term.consts, resolve, List.find?_nil, List.append_nil, List.cons_append, List.nil_append, List.all_cons,
        List.all_nil, Bool.and_true, Bool.and_eq_true, List.all_eq_true, bne_iff_ne]
      exact ⟨fun v hv he => key h1 f1 (he ▸ hv), fun v hv he => key h3 f3 (he ▸ hv)⟩
  obtain ⟨he, hn, hus, hst, hsem⟩ := encodable_pairOf (both := true) hd (fit (e := e) h1 h3 hr1) (fit (e := e') h1' h3' hr2) (by
    rw [us, us, hk]; simpa using hg)
  obtain ⟨c, s', ec, w, -, h⟩ := encodable_query he (s := s) (by rwa [hn])
  rw [hn] at h
  refine ⟨c, s', ec, w, h.says ?_ ?_⟩
  · intro σ hs hc
    have hs := (hsem σ).1 hs
    simp only [if_true, Atom.says, Term.under] at hs
    obtain ⟨l1, l2⟩ := hs
    refine ⟨l1, l2, ?_⟩
    rw [hst] at hc
    have := dist_agree hc (a := g x c3.asString) (n := x) (t := .vals c1.val) (t' := .vals c1'.val)
      (List.mem_append_left _ (st h1 h3 l1.1 l1.2.2.1 hr1)) (List.mem_append_right _ (hk ▸ st h1' h3' l2.1 l2.2.2.1 hr2))
    intro i hi
    have h4 := this i hi
    have f1 := l1.1 i hi
    have f2 := l2.1 i hi
    have f3 := l1.2.1 i hi
    simp only [RTerm.den] at h4
    generalize den c1.val i = a at *
    generalize den c1'.val i = b at *
    generalize σ x i = z at *
    exact eq_of_tests f1 f2 f3 h4
  · rintro σ ⟨l1, l2, hs⟩
    refine ⟨(hsem σ).2 (by simpa [Atom.says, Term.under] using ⟨l1, l2⟩), ?_⟩
    rw [hus]
    refine Coherent.mono (us := _ ++ _) ?_ fun u h => List.mem_append.2 ((List.mem_append.1 h).imp emits_sub_uses emits_sub_uses)
    rw [us, us, hk]
    have key : ∀ i v, Role.range d nodes i v (.dist (.name x) (.vals c1.val)) →
        Role.mean d (.leaf 0 false) σ i v (.dist (.name x) (.vals c1'.val)) = Role.mean d (.leaf 0 false) σ i v (.dist (.name x) (.vals c1.val)) := by
      rintro i v ⟨hi, hi', -, -⟩
      have hc : countFeats (i.toNat + 1) (fun k => σ x k != den c1'.val k) = countFeats (i.toNat + 1) (fun k => σ x k != den c1.val k) := by
        refine List.countP_congr fun k hk => ?_
        rw [hs k (by simp at hk; omega)]
      show decide _ = decide _
      exact decide_eq_decide.2 (by
        show ((countFeats (i.toNat + 1) fun k => σ x k != den c1'.val k : Nat) : Int) = v ↔ _
        rw [hc]
        rfl)
    intro u hu u' hu' _ i v hi hi'
    simp only [List.cons_append, List.nil_append, List.mem_cons, List.not_mem_nil, or_false] at hu hu'
    rcases hu with rfl | rfl <;> rcases hu' with rfl | rfl
    · rfl
    · exact key i v hi
    · exact (key i v hi').symm
    · rfl

/-- Concrete case: the query of `C37_wrong`; two different constants, so it is never satisfiable. -/
example : ∃ c s', distQuery.encode (BasicQContext 2 []) = (.ok c, s') ∧ ¬ Satisfiable c := by
  obtain ⟨c, s', e, -, h⟩ := C75_first (d := 2) (nodes := []) (xs := [['x']]) (x := ['x']) (c1 := { val := [ZERO, ZERO] }) (c1' := { val := [ONE, ONE] })
    (c3 := { val := [ZERO, ONE] }) (c3' := { val := [ZERO, ONE] }) (g := VarGenHammingDistance) (e := some VarGenEqualFeat)
    (e' := some VarGenEqualFeat) (by omega) (by simp) (by simp [Term.Ok, ValidVals, ZERO, ONE, BOT]) (by simp [Term.Ok, ValidVals, ZERO, ONE, BOT])
    (by simp [Term.Ok, ValidVals, ZERO, ONE, BOT]) (by simp [Term.Ok, ValidVals, ZERO, ONE, BOT]) (by decide) (by decide) rfl (by decide)
    (Ready.fresh_ctx 2 [] _)
  refine ⟨c, s', e, fun hs => ?_⟩
  obtain ⟨σ, -, -, h⟩ := h.sat.1 hs
  exact absurd (h 0 (by omega)) (by decide)

/-- C75, the pair of C38: two `hepr` over the same terms whose preferences have one name by accident say in addition that the terms compare
alike by both preferences, and by what remains of them after any number of first features. In particular one cannot be required
without the other. -/
theorem C75_preferences (hd : 0 < d) {both : Bool} {t1 t2 : Term} {p p' : List Nat} {g : QVar → QVar → QVar → QVar}
    (h1 : t1.Ok d xs) (h2 : t2.Ok d xs) (hv : Spec.Term.isVar t1 = true ∨ Spec.Term.isVar t2 = true)
    (hp : ∀ i ∈ p, i < d) (hn : p.Nodup) (hne : p ≠ []) (hp' : ∀ i ∈ p', i < d) (hn' : p'.Nodup) (hne' : p' ≠ [])
    (hk : prefVar (p'.map Int.ofNat) = prefVar (p.map Int.ofNat)) (hg : g (prefVar (p.map Int.ofNat)) t1.keyUnder t2.keyUnder ∉ xs)
    {s : Ctx} (hr : Ready d nodes xs s) :
    ∃ c s', (declare xs (pairOf both (.hepr t1 t2 (p.map Int.ofNat) (some g)) (.hepr t1 t2 (p'.map Int.ofNat) (some g)))).encode s = (.ok c, s') ∧
      WF c ∧ (both = false → ¬ Satisfiable c) ∧ (both = true → Says d xs (fun σ => HEPR p (t1.under σ) (t2.under σ) ∧
        HEPR p' (t1.under σ) (t2.under σ) ∧ ∀ k < p.length, k < p'.length →
          (HEPR (p.drop k) (t1.under σ) (t2.under σ) ↔ HEPR (p'.drop k) (t1.under σ) (t2.under σ))) s' c) := by
  have tn : ∀ p : List Nat, (p.map Int.ofNat).map Int.toNat = p := fun p => by simp [List.map_map, Function.comp_def]
  have fit : ∀ {p : List Nat}, (∀ i ∈ p, i < d) → p.Nodup → p ≠ [] →
      (Atom.hepr t1 t2 (p.map Int.ofNat) (some g)).Fits d nodes (.leaf 0 false) xs [] := by
    intro p hp hn hne
    refine ⟨?_, ?_, by simp [Spec.Atom.nilGen], ⟨?_, ?_⟩, ?_, trivial, by simp [Atom.onModel]⟩
    · simp only [Atom.vars, List.mem_append]
      exact fun x h => h.elim (term_vars_ok h1 x) (term_vars_ok h2 x)
    · simp only [Spec.Atom.consts, List.mem_append]
      exact fun c h => h.elim (term_consts_ok h1 c) (term_consts_ok h2 c)
    · intro i hi
      obtain ⟨j, hj, rfl⟩ := List.mem_map.1 hi
      exact ⟨Int.natCast_nonneg _, Int.ofNat_lt.2 (hp j hj)⟩
    · exact List.Pairwise.map _ (fun a b h => by simpa [Int.ofNat_inj] using h) hn
    · cases t1 <;> cases t2 <;> simp [Spec.Atom.PrefsNonempty] <;> simpa using hne
  have us : ∀ {p : List Nat}, (Atom.hepr t1 t2 (p.map Int.ofNat) (some g)).uses (fun _ => 0) [] =
      [(g (prefVar (p.map Int.ofNat)) t1.keyUnder t2.keyUnder, .rank p (t1.res (fun _ => 0) []) (t2.res (fun _ => 0) []))] := by
    intro p
    cases t1 <;> cases t2 <;> simp [Spec.Term.isVar] at hv <;>
      simp only [Atom.uses, tn] <;> simp [Term.key, Term.keyUnder, keyOf, resolve, suffix]
  obtain ⟨he, hnm, hus, hst, hsem⟩ := encodable_pairOf (both := both) hd (fit hp hn hne) (fit hp' hn' hne') (by
    rw [us, us, hk]; simpa using hg)
  obtain ⟨c, s', ec, w, -, h⟩ := encodable_query he (s := s) (by rwa [hnm])
  have hset : ((declare xs (pairOf both (.hepr t1 t2 (p.map Int.ofNat) (some g)) (.hepr t1 t2 (p'.map Int.ofNat) (some g)))).flat d
      (.leaf 0 false)).settles d = _ := hst.trans hus.symm
  simp only [Atom.emits] at hus
  rw [hset, hus, us, us, hk, hnm] at h
  have hcoh : ∀ σ, Coherent d nodes (.leaf 0 false)
      ([(g (prefVar (p.map Int.ofNat)) t1.keyUnder t2.keyUnder, .rank p (t1.res (fun _ => 0) []) (t2.res (fun _ => 0) []))] ++
        [(g (prefVar (p.map Int.ofNat)) t1.keyUnder t2.keyUnder, .rank p' (t1.res (fun _ => 0) []) (t2.res (fun _ => 0) []))]) σ ↔
      ∀ k < p.length, k < p'.length →
          (HEPR (p.drop k) (t1.under σ) (t2.under σ) ↔ HEPR (p'.drop k) (t1.under σ) (t2.under σ)) := by
    intro σ
    constructor
    · intro hc k hk1 hk2
      have := hc _ (List.mem_append_left _ (List.mem_singleton.2 rfl)) _ (List.mem_append_right _ (List.mem_singleton.2 rfl)) rfl 0 (k : Nat)
        ⟨rfl, by omega, by omega⟩ ⟨rfl, by omega, by omega⟩
      simp only [Role.mean, decide_eq_decide, Int.toNat_natCast, res_nil] at this
      exact this.symm
    · intro hc u hu u' hu' _ i v hi hi'
      simp only [List.cons_append, List.nil_append, List.mem_cons, List.not_mem_nil, or_false] at hu hu'
      rcases hu with rfl | rfl <;> rcases hu' with rfl | rfl
      · rfl
      · simp only [Role.range] at hi hi'
        simp only [Role.mean, decide_eq_decide, res_nil]
        exact (hc _ (by omega) (by omega)).symm
      · simp only [Role.range] at hi hi'
        simp only [Role.mean, decide_eq_decide, res_nil]
        exact hc _ (by omega) (by omega)
      · rfl
  refine ⟨c, s', ec, w, ?_, ?_⟩
  · rintro rfl ⟨β, h3, h4⟩
    obtain ⟨σ, hσ⟩ := h.reads β h4
    have h5 := (hsem σ).1 ((h.sem β σ h4 hσ).1 h3)
    have h6 := (hcoh σ).1 (h.settled β σ h4 hσ) 0 (List.length_pos_iff.2 hne) (List.length_pos_iff.2 hne')
    simp only [Atom.says, tn, Bool.false_eq_true, if_false] at h5
    exact h5.2 (h6.1 h5.1)
  · rintro rfl
    refine h.says ?_ ?_
    · intro σ h3 h4
      have h5 := (hsem σ).1 h3
      simp only [Atom.says, tn, if_true] at h5
      exact ⟨h5.1, h5.2, (hcoh σ).1 h4⟩
    · rintro σ ⟨h3, h4, h5⟩
      refine ⟨(hsem σ).2 ?_, (hcoh σ).2 h5⟩
      simp only [Atom.says, tn, if_true]
      exact ⟨h3, h4⟩

/-- Concrete case: the query of `C38_wrong`. -/
example : ∃ c s', prefQuery.encode (BasicQContext 13 []) = (.ok c, s') ∧ ¬ Satisfiable c := by
  obtain ⟨c, s', e, -, h, -⟩ := C75_preferences (d := 13) (nodes := []) (xs := [['x']]) (both := false) (t1 := .const { val := List.replicate 13 BOT })
    (t2 := .var ['x']) (p := [1, 2]) (p' := [12]) (g := VarGenFeaturePreference) (by omega) (by simp [Term.Ok, ValidVals])
    (by simp [Term.Ok]) (by simp [Spec.Term.isVar]) (by decide) (by decide) (by decide) (by decide) (by decide) (by decide) (by decide) (by decide)
    (Ready.fresh_ctx 13 [] _)
  exact ⟨c, s', e, h rfl⟩

end Goexpdt.Props

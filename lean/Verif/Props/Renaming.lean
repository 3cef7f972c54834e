import Verif.Props.Tidy
import Verif.Props.Compute
import Verif.Lemmas.RenamingCompute
/-
Property C82: of names only their being equal or different matters.
-/
namespace Goexpdt.Props
open Goexpdt Spec

section
variable {V : QVar → QVar → Prop} {K : List Char → List Char → Prop} {R : QVar → QVar → Prop}

/-- C82: two queries that differ by names only are encoded with the same outcome, the same CNF or the same error, in contexts that differ by
names only, and leave such contexts. -/
theorem C82_encode (hn : Naming V K R) {q q' : Query} (h : QueryR V K R q q') {s s' : Ctx} (hs : CtxR V K R s s') :
    (q'.encode s').1 = (q.encode s).1 ∧ CtxR V K R (q.encode s).2 (q'.encode s').2 := sim_eq (q.sim hn h) hs

/-- New contexts differ by nothing. -/
theorem new_ctxR (d : Nat) (nodes : List Node) : CtxR V K R (BasicQContext d nodes) (BasicQContext d nodes) := ⟨rfl, rfl, rfl, .nil, .nil, .nil⟩

/-- C82: with the solver of the library, the decision about the two queries is the same, whatever the executable does, and so is all that the
solver has stored. -/
theorem C82_sat (hn : Naming V K R) {q q' : Query} (h : QueryR V K R q q') (env : Nat → Env) (negated : Bool) (st : BinSt) {s s' : Ctx}
    (hs : CtxR V K R s s') :
    let x := atomSat (binSolver env) q.comp negated st s
    let x' := atomSat (binSolver env) q'.comp negated st s'
    x'.1 = x.1 ∧ x'.2.1 = x.2.1 ∧ CtxR V K R x.2.2 x'.2.2 := atomSat_R env (query_compR hn h) negated st hs

/-- C82: and the search for an optimum returns the same instance after the same number of calls, or the same error. The constants for which
the order has to be the same are those that `Values` may return, which have no name. -/
theorem C82_search (hn : Naming V K R) {v v' : QVar} (hv : V v v') {f f' : Query} (hf : QueryR V K R f f') {ord ord' : QConst → Query}
    (ho : ∀ b : QConst, b.id = [] → QueryR V K R (ord b) (ord' b)) (env : Nat → Env) (tmp : Bool) (fuel : Nat) (st : BinSt) {s s' : Ctx} (hs : CtxR V K R s s') :
    let x := computeOptim (binSolver env) (fun _ => f.comp) (fun _ b => (ord b).comp) v tmp fuel st s
    let x' := computeOptim (binSolver env) (fun _ => f'.comp) (fun _ b => (ord' b).comp) v' tmp fuel st s'
    x'.1 = x.1 ∧ x'.2.1 = x.2.1 ∧ CtxR V K R x.2.2 x'.2.2 :=
  computeOptim_R hn hv (query_compR hn hf) (fun b hb => query_compR hn (ho b hb)) env tmp fuel st hs

end

variable {ρ : QVar → QVar} {κ : List Char → List Char} {vs : QVar → Prop} {is : List Char → Prop} {t t' : Tags}

/-- A renaming, as a relation of names. -/
theorem renames_naming (hr : Renames ρ κ vs is) (ht : TagsAlike t t') :
    Naming (fun x x' => vs x ∧ x' = ρ x) (fun i i' => is i ∧ i' = κ i)
      (TagR t t' (fun x x' => vs x ∧ x' = ρ x) fun i i' => is i ∧ i' = κ i) := by
  refine tag_naming ⟨?_, ?_, ?_, ?_⟩ ⟨?_, ?_, ?_, ?_⟩ ht.left ht.right ht.reach
  · rintro x x' ⟨h, rfl⟩
    exact ⟨(hr.vars x h).1, (hr.vars x h).2.1⟩
  · rintro i i' ⟨h, rfl⟩
    exact (hr.ids i h).1
  · rintro x a b ⟨-, rfl⟩ ⟨-, rfl⟩
    rfl
  · rintro x a b ⟨-, rfl⟩ ⟨-, rfl⟩
    rfl
  · rintro x' x ⟨h, rfl⟩
    exact (hr.vars x h).2.2
  · rintro i' i ⟨h, rfl⟩
    exact (hr.ids i h).2
  · rintro x' x y ⟨h, rfl⟩ ⟨h', e⟩
    exact hr.injVars x y h h' e
  · rintro x' x y ⟨h, rfl⟩ ⟨h', e⟩
    exact hr.injIds x y h h' e

theorem renamed {q : Query} (hg : ∀ a ∈ q.atoms, a.TaggedBy t) (hv : ∀ x ∈ q.varNames, vs x) (hi : ∀ i ∈ q.idNames, is i) :
    QueryR (fun x x' => vs x ∧ x' = ρ x) (fun i i' => is i ∧ i' = κ i)
      (TagR t t' (fun x x' => vs x ∧ x' = ρ x) fun i i' => is i ∧ i' = κ i) q (q.rename ρ κ t') :=
  query_rename hg (fun x h => ⟨hv x h, rfl⟩) fun i h => ⟨hi i h, rfl⟩

/-- C82 for a renaming: if the query uses the generators of some tags, then with other names for its variables, constants and quantifiers and
with the generators of other tags it is encoded in a new context to literally the same CNF, or gives the same error. -/
theorem C82_rename {q : Query} (hr : Renames ρ κ (· ∈ q.varNames) (· ∈ q.idNames)) (ht : TagsAlike t t') (hg : ∀ a ∈ q.atoms, a.TaggedBy t)
    (d : Nat) (nodes : List Node) :
    ((q.rename ρ κ t').encode (BasicQContext d nodes)).1 = (q.encode (BasicQContext d nodes)).1 :=
  (C82_encode (renames_naming hr ht) (renamed hg (fun _ h => h) fun _ h => h) (new_ctxR d nodes)).1

/-- C82 for a renaming, the answers: the same decision, and from the search the same instance. -/
theorem C82_rename_answers {v : QVar} {f : Query} {ord : QConst → Query} (hr : Renames ρ κ vs is) (ht : TagsAlike t t') (hv : vs v)
    (hf : (∀ a ∈ f.atoms, a.TaggedBy t) ∧ (∀ x ∈ f.varNames, vs x) ∧ ∀ i ∈ f.idNames, is i)
    (ho : ∀ b : QConst, b.id = [] → (∀ a ∈ (ord b).atoms, a.TaggedBy t) ∧ (∀ x ∈ (ord b).varNames, vs x) ∧ ∀ i ∈ (ord b).idNames, is i)
    (env : Nat → Env) (st : BinSt) (d : Nat) (nodes : List Node) :
    (∀ negated, (atomSat (binSolver env) (f.rename ρ κ t').comp negated st (BasicQContext d nodes)).1 =
      (atomSat (binSolver env) f.comp negated st (BasicQContext d nodes)).1) ∧
    ∀ tmp fuel, (computeOptim (binSolver env) (fun _ => (f.rename ρ κ t').comp) (fun _ b => ((ord b).rename ρ κ t').comp) (ρ v) tmp fuel st
        (BasicQContext d nodes)).1 =
      (computeOptim (binSolver env) (fun _ => f.comp) (fun _ b => (ord b).comp) v tmp fuel st (BasicQContext d nodes)).1 :=
  ⟨fun negated => (C82_sat (renames_naming hr ht) (renamed hf.1 hf.2.1 hf.2.2) env negated st (new_ctxR d nodes)).1,
    fun tmp fuel => (C82_search (renames_naming hr ht) ⟨hv, rfl⟩ (renamed hf.1 hf.2.1 hf.2.2)
      (fun b hb => renamed (ho b hb).1 (ho b hb).2.1 (ho b hb).2.2) env tmp fuel st (new_ctxR d nodes)).1⟩

/-! ### Concrete cases -/

/-- Other tags. -/
def otherTags : Tags where
  count := ['k']
  node := ['n']
  comp := ['n']
  pref := []
  dist := ['h']
  same := ['=', '=']

theorem otherTags_alike : TagsAlike testTags otherTags :=
  ⟨C54_test_generators.1, ⟨by decide, by decide, by decide⟩, by decide⟩

/-- Some node `x` of the tree, below level `y`, is subsumed by every node `k`, or `k` is above `x`. -/
def namedQuery : Query :=
  .withVar ['x'] (.withVar ['y'] (.and (.and (.atom (.isnode (.var ['x']) (some VarGenNodeReach)))
    (.atom (.lel (.var ['x']) (.var ['y']) (some VarGenBotCount))))
    (.forallG ⟨['k'], []⟩ (.or (.atom (.subs (.const ⟨['k'], []⟩) (.var ['x'])))
      (.atom (.leh (.const ⟨['k'], []⟩) (.var ['y']) (.var ['x']) (some VarGenHammingDistance) (some VarGenEqualFeat)))))))

/-- `x` and `y` change places, with a prefix. -/
def newName (x : QVar) : QVar := if x = ['x'] then ['v', 'y'] else ['v', 'x']

def newId (i : List Char) : List Char := 'q' :: i

theorem newName_renames : Renames newName newId (· ∈ namedQuery.varNames) (· ∈ namedQuery.idNames) := by
  have e1 : namedQuery.varNames = [['x'], ['y'], ['x'], ['x'], ['y'], ['x'], ['y'], ['x']] := by decide
  have e2 : namedQuery.idNames = [['k'], ['k'], ['k']] := by decide
  have ok : ∀ (c : Char) (l : QVar), recSep ∉ c :: l → sep ∉ c :: l → c ∉ ['_', '0', '1'] → NameOk (c :: l) ∧ sep ∉ c :: l :=
    fun c l h1 h2 h3 => ⟨⟨h1, c, l, rfl, h3⟩, h2⟩
  refine ⟨?_, ?_, ?_, ?_⟩
  · intro x hx
    rw [e1] at hx
    have : x = ['x'] ∨ x = ['y'] := by simp at hx; grind
    rcases this with rfl | rfl
    · have h1 := ok 'x' [] (by decide) (by decide) (by decide)
      have h2 := ok 'v' ['y'] (by decide) (by decide) (by decide)
      exact ⟨h1.1, h1.2, h2.1, h2.2⟩
    · have h1 := ok 'y' [] (by decide) (by decide) (by decide)
      have h2 := ok 'v' ['x'] (by decide) (by decide) (by decide)
      exact ⟨h1.1, h1.2, h2.1, h2.2⟩
  · intro i hi
    rw [e2] at hi
    have : i = ['k'] := by simpa using hi
    subst this
    exact ⟨⟨by decide, by decide⟩, by decide, by decide⟩
  · intro x y hx hy
    rw [e1] at hx hy
    have h1 : x = ['x'] ∨ x = ['y'] := by simp at hx; grind
    have h2 : y = ['x'] ∨ y = ['y'] := by simp at hy; grind
    rcases h1 with rfl | rfl <;> rcases h2 with rfl | rfl <;> decide
  · exact fun i j _ _ h => (List.cons.inj h).2

theorem namedQuery_tagged : ∀ a ∈ namedQuery.atoms, a.TaggedBy testTags := by
  obtain ⟨-, h1, h2, -, -, h4, h5⟩ := C54_test_generators
  intro a ha
  simp only [namedQuery, Query.atoms, List.mem_append, List.mem_cons, List.not_mem_nil, or_false] at ha
  rcases ha with (rfl | rfl) | rfl | rfl
  · exact fun _ => by rw [h2]
  · exact fun _ => by rw [h1]
  · trivial
  · exact ⟨fun _ => by rw [h4], fun _ => by rw [h5]⟩

/-- Concrete case of C82: names of all kinds change, the CNF (of more than a hundred clauses) does not. -/
example : ((namedQuery.rename newName newId otherTags).encode (BasicQContext 2 exNodes)).1 = (namedQuery.encode (BasicQContext 2 exNodes)).1 ∧
    (match (namedQuery.encode (BasicQContext 2 exNodes)).1 with
      | .ok c => decide (100 < (c.sClauses ++ c.cClauses).length)
      | _ => false) = true ∧
    (((namedQuery.rename newName newId otherTags).encode (BasicQContext 2 exNodes)).2.vmap ≠ (namedQuery.encode (BasicQContext 2 exNodes)).2.vmap) :=
  ⟨C82_rename newName_renames otherTags_alike namedQuery_tagged 2 exNodes, by decide +kernel, by decide +kernel⟩

/-- Concrete case for the answers: `x` becomes `vy`, and the generators change; the search for a least node returns the same instance. -/
example (env : Nat → Env) (st : BinSt) (d : Nat) (nodes : List Node) (fuel : Nat) :
    let f : Query := .atom (.isnode (.var ['x']) (some VarGenNodeReach))
    (computeOptim (binSolver env) (fun _ => (f.rename newName id otherTags).comp)
        (fun _ b => ((strictSubs ['x'] b).rename newName id otherTags).comp) ['v', 'y'] true fuel st (BasicQContext d nodes)).1 =
      (computeOptim (binSolver env) (fun _ => f.comp) (fun _ b => (strictSubs ['x'] b).comp) ['x'] true fuel st (BasicQContext d nodes)).1 := by
  intro f
  obtain ⟨-, -, h2, -⟩ := C54_test_generators
  have hr : Renames newName id (· = ['x']) (· = []) := by
    refine ⟨?_, ?_, fun x y h h' _ => h.trans h'.symm, fun i j h h' _ => h.trans h'.symm⟩
    · rintro x rfl
      exact ⟨⟨by decide, 'x', [], rfl, by decide⟩, by decide, ⟨by decide, 'v', ['y'], rfl, by decide⟩, by decide⟩
    · rintro i rfl
      exact ⟨⟨by decide, by decide⟩, by decide, by decide⟩
  refine (C82_rename_answers (v := ['x']) (f := f) (ord := strictSubs ['x']) hr otherTags_alike rfl ⟨?_, ?_, ?_⟩ (fun b hb => ⟨?_, ?_, ?_⟩)
    env st d nodes).2 true fuel
  · intro a ha
    simp only [f, Query.atoms, List.mem_singleton] at ha
    subst ha
    exact fun _ => by rw [h2]
  · simp [f, Query.varNames, Atom.args, Term.varNames]
  · simp [f, Query.idNames, Atom.args, Term.idNames]
  · intro a ha
    simp only [strictSubs, Query.atoms, List.mem_append, List.mem_singleton] at ha
    rcases ha with rfl | rfl <;> trivial
  · simp [strictSubs, Query.varNames, Atom.args, Term.varNames]
  · simp [strictSubs, Query.idNames, Atom.args, Term.idNames, hb]

/-- Different names are needed: if two variables get the same name, the CNF changes (it is then about one instance). -/
theorem C82_merged :
    let q : Query := .withVar ['x'] (.withVar ['y'] (.atom (.subs (.var ['x']) (.var ['y']))))
    ((q.rename (fun _ => ['x']) id testTags).encode (BasicQContext 2 exNodes)).1 ≠ (q.encode (BasicQContext 2 exNodes)).1 := by
  intro q h
  have h1 : (match (q.encode (BasicQContext 2 exNodes)).1 with | .ok c => some (c.sClauses, c.cClauses) | _ => none) ≠
    (match ((q.rename (fun _ => ['x']) id testTags).encode (BasicQContext 2 exNodes)).1 with | .ok c => some (c.sClauses, c.cClauses) | _ => none) := by
    decide +kernel
  rw [h] at h1
  exact h1 rfl

end Goexpdt.Props

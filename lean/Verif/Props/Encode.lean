import Verif.Lemmas.Redeclare
import Verif.Props.Dimacs
import Verif.Props.Walk
/-
Properties of the encoding of every query in every context: C21, C23, C24, C35, C41, C52.
-/
namespace Goexpdt.Props
open Goexpdt Spec

/-! ### C23 -/

/-- C23: whatever the outcome, the scope stack after `Encoding` is the one before, for every query
and every context (also one not reachable by public calls). -/
theorem C23_scopes_restored (q : Query) (s : Ctx) : (q.encode s).2.scopes = s.scopes :=
  (q.tame.keep s).scopes

/-- C23 for the names: in contexts reached without `Reset`, a declared variable resolves to the same
name after `Encoding` as before, whatever the outcome; and outside of all scopes the table of
declared variables is what it was. -/
theorem C23_names_restored (d : Nat) (nodes : List Node) (s : Ctx) (hs : ReachableNR d nodes s)
    (q : Query) :
    (∀ v, mapGet s.vars v ≠ none → (q.encode s).2.scopeVar v = s.scopeVar v) ∧
    (s.scopes = [] → ∀ v, mapGet (q.encode s).2.vars v = none ∧
      (q.encode s).2.scopeVar v = s.scopeVar v) := by
  obtain ⟨h1, h2, -⟩ := reachableNR_scope hs
  have h3 := q.tame.vars s h1 h2
  have h4 := (q.tame.keep s).scopes
  have h5 := h3.scopeOk h2 h4
  refine ⟨fun v hv => ?_, fun h0 v => ?_⟩
  · obtain ⟨k, hk⟩ := Option.ne_none_iff_exists'.1 hv
    rw [scopeVar_eq h2, scopeVar_eq h5, h4, hk, h3.keep v k hk]
  · have hn : mapGet (q.encode s).2.vars v = none := by
      cases h : mapGet (q.encode s).2.vars v with
      | none => rfl
      | some k =>
        have := h5 v k h
        rw [h4, h0] at this
        simp only [List.length_nil] at this
        omega
    refine ⟨hn, ?_⟩
    rw [scopeVar_eq h2, scopeVar_eq h5, h4, h0]
    simp

/-- C23 for a child given by the user: if the child restores the scope stack whatever its outcome,
so does `ForAllGuarded` over it. -/
theorem C23_any_child (c : QConst) (q : M CNF) (hq : ∀ s, (q s).2.scopes = s.scopes) (s : Ctx) :
    (encForall c (some q) s).2.scopes = s.scopes := by
  have fold : ∀ (ts : List (List FeatV)) (i : Int) (n : CNF) (s : Ctx) (base : List Scope) (g : Scope),
      s.scopes = base ++ [g] → ∃ g', (forallFold q ts i n s).2.scopes = base ++ [g'] := by
    intro ts
    induction ts with
    | nil => intro i n s base g h; exact ⟨g, h⟩
    | cons t ts ih =>
      intro i n s base g h
      simp only [forallFold]
      rw [M_bind_ok (setScope_append h i t)]
      generalize hs1 : ({ s with scopes := base ++ [{ g with vIdx := i, value := t }] } : Ctx) = s1
      have h1 := hq s1
      cases e : q s1 with
      | mk r s2 =>
        rw [e] at h1
        rw [← hs1] at h1
        cases r with
        | error x => rw [M_bind_error e]; exact ⟨_, h1⟩
        | ok x => rw [M_bind_ok e]; exact ih _ _ _ _ _ h1
  rw [encForall, wrapErr_snd]
  show (forallBuild c q s).2.scopes = s.scopes
  have hsc : (s.addScope c.id).scopes = s.scopes ++ [{ target := c.id }] := rfl
  have key : ∃ g, (forallBody q (s.addScope c.id)).2.scopes = s.scopes ++ [g] := by
    rcases forallBody_eq q (s.addScope c.id) with ⟨e, -, h⟩ | ⟨ws, -, -, h⟩
    · exact ⟨_, by rw [h]; exact hsc⟩
    · rw [h]; exact fold _ _ _ _ _ _ hsc
  obtain ⟨g, hg⟩ := key
  rw [forallBuild_of rfl (by rw [hg]; simp)]
  show (forallBody q (s.addScope c.id)).2.popScope.2.scopes = s.scopes
  rw [popScope_scopes, hg]
  simp

/-- A query whose encoding fails in the first iteration of the inner of two loops: the constant `d`
has the wrong dimension. -/
def exFailing : Query :=
  .forallG { id := ['c'] } (.withVar ['x'] (.forallG { id := ['e'] }
    (.and (.atom (.subs (.const { id := ['c'] }) (.var ['x'])))
      (.atom (.full (.const { id := ['d'], val := [ONE] }))))))

/-- The failing query in a context inside another loop: an error, and the loop's scope is still there
with its value, and nothing else. -/
example : let s := run [.addScope ['f'], .setScope 3 [ONE, BOT]] (BasicQContext 2 exNodes)
    (∃ m, (exFailing.encode s).1 = .error (.msg m)) ∧
    (exFailing.encode s).2.scopes = [⟨['f'], [ONE, BOT], 3⟩] := by
  refine ⟨⟨_, rfl⟩, by decide⟩

/-! ### C41 -/

/-- C41: in every context reachable by public calls, if `Encoding` returns a CNF then every literal
of it is non-zero and at most, in absolute value, the `TopV()` of the CNF and of the context; and the
CNF's `TopV()` is at most the context's. -/
theorem C41_wellformed (d : Nat) (nodes : List Node) (s s' : Ctx) (hs : Reachable d nodes s)
    (q : Query) (c : CNF) (h : q.encode s = (.ok c, s')) :
    (∀ cl ∈ c.sClauses ++ c.cClauses, ∀ l ∈ cl,
      l ≠ 0 ∧ (l.natAbs : Int) ≤ c.topV ∧ (l.natAbs : Int) ≤ s'.topV) ∧ c.topV ≤ s'.topV := by
  obtain ⟨hw, ht⟩ := q.tame.res s c (reachable_vm hs) (by rw [h])
  rw [h] at ht
  refine ⟨fun cl hcl l hl => ?_, ht⟩
  simp only [Ctx.topV, CNF.topV] at *
  rcases List.mem_append.1 hcl with h1 | h1
  · have := hw.sBound cl h1 l hl
    exact ⟨hw.sNonZero cl h1 l hl, this, by omega⟩
  · have := hw.cBound cl h1 l hl
    exact ⟨hw.cNonZero cl h1 l hl, this, by omega⟩

/-- C41: so a DIMACS reader gets back exactly the clauses of the encoding, in order, from the bytes
of the CNF. -/
theorem C41_dimacs (d : Nat) (nodes : List Node) (s s' : Ctx) (hs : Reachable d nodes s)
    (q : Query) (c : CNF) (h : q.encode s = (.ok c, s')) :
    readDimacs c.toBytes = some (c.topV, ((c.sClauses ++ c.cClauses).length : Int),
      c.sClauses ++ c.cClauses) :=
  readDimacs_toBytes c (q.tame.res s c (reachable_vm hs) (by rw [h])).1

/-- The numbers allocated by an encoding are above all earlier ones, earlier triples keep theirs. -/
theorem C41_extends (d : Nat) (nodes : List Node) (s : Ctx) (hs : Reachable d nodes s) (q : Query) :
    s.topV ≤ (q.encode s).2.topV ∧
    ∀ vr, s.cnfVarExists vr = true → ((q.encode s).2.cnfVar vr).1 = (s.cnfVar vr).1 := by
  obtain ⟨h1, h2⟩ := q.tame.vm s (reachable_vm hs)
  refine ⟨h2.topv_le, fun vr hv => ?_⟩
  obtain ⟨n, hn⟩ := Option.isSome_iff_exists.1 hv
  rw [cnfVar_of_some hn, cnfVar_of_some (h2.keep vr n hn)]

/-- A query with a disjunction under a loop. -/
def exQuery : Query :=
  .withVar ['y'] (.forallG { id := ['c'] } (.or (.atom (.subs (.const { id := ['c'] }) (.var ['y'])))
    (.not (.atom (.full (.var ['y']))))))

/-- Its encoding: top variable of the CNF, of the context, number of clauses. -/
example : (match exQuery.encode (BasicQContext 2 exNodes) with
    | (.ok c, s') => some (c.topV, s'.topV, (c.sClauses ++ c.cClauses).length)
    | _ => none) = some (17, 17, 45) := by decide +kernel

/-! ### C24 -/

/-- C24 (nil context): every query other than the nil interface value returns an error. -/
theorem C24_nil_context (q : Query) (h : q ≠ .nil) : ∃ m, q.encodeNilCtx = .error (.msg m) := by
  have h1 : ∀ n (a b : Comp), ∃ m, nilCtxBinary n a b = .error (.msg m) := by
    intro n a b
    cases a <;> cases b <;> exact ⟨_, rfl⟩
  have h2 : ∀ n (a : Comp), ∃ m, nilCtxUnary n a = .error (.msg m) := by
    intro n a
    cases a <;> exact ⟨_, rfl⟩
  cases q with
  | nil => exact absurd rfl h
  | atom a => exact ⟨_, rfl⟩
  | and a b => exact h1 _ _ _
  | or a b => exact h1 _ _ _
  | not a => exact h2 _ _
  | withVar x a => exact h2 _ _
  | forallG c a => exact h2 _ _

/-- C24 (nil context), what the errors say: predicates complain about the context, operators about their first child that is nil, if there is one,
and else about the context, with the name of the operator. -/
theorem C24_nil_context_says (x : QVar) (c : QConst) (a : Atom) (q q' : Query) (h : q ≠ .nil) (h' : q' ≠ .nil) :
    (Query.atom a).encodeNilCtx = .error (.msg "Invalid encoding with nil ctx") ∧
    (∀ op ∈ [("And", Query.and), ("Or", Query.or)],
      (op.2 q q').encodeNilCtx = .error (.msg (op.1 ++ ": Invalid encoding with nil ctx")) ∧
      (op.2 .nil q).encodeNilCtx = .error (.msg (op.1 ++ ": Invalid encoding of nil child (1)")) ∧
      (op.2 .nil .nil).encodeNilCtx = .error (.msg (op.1 ++ ": Invalid encoding of nil child (1)")) ∧
      (op.2 q .nil).encodeNilCtx = .error (.msg (op.1 ++ ": Invalid encoding of nil child (2)"))) ∧
    ∀ op ∈ [("Not", Query.not), ("WithVar", Query.withVar x), ("ForAllGuarded", Query.forallG c)],
      (op.2 q).encodeNilCtx = .error (.msg (op.1 ++ ": Invalid encoding with nil ctx")) ∧
      (op.2 .nil).encodeNilCtx = .error (.msg (op.1 ++ ": Invalid encoding of nil child")) := by
  have hc : ∀ q : Query, q ≠ .nil → ∃ act, q.comp = some act := by
    intro q hq
    cases q <;> first | exact absurd rfl hq | exact ⟨_, rfl⟩
  obtain ⟨act, e⟩ := hc q h
  obtain ⟨act', e'⟩ := hc q' h'
  refine ⟨rfl, ?_, ?_⟩
  · intro op hop
    simp only [List.mem_cons, List.not_mem_nil, or_false] at hop
    rcases hop with rfl | rfl <;> simp [Query.encodeNilCtx, nilCtxBinary, e, e', Query.comp, Err.wrap, errNilCtx]
  · intro op hop
    simp only [List.mem_cons, List.not_mem_nil, or_false] at hop
    rcases hop with rfl | rfl | rfl <;> simp [Query.encodeNilCtx, nilCtxUnary, e, Query.comp, Err.wrap, errNilCtx]

/-- C24 (nil child): a nil child is an error, the context is not changed. -/
theorem C24_nil_child (q : Query) (h : Spec.Query.nilChild q = true) (s : Ctx) :
    ∃ m, q.encode s = (.error (.msg m), s) := by
  have isNil : ∀ q : Query, Query.nilChild.isNil q = true → q.comp = none := by
    intro q hq; cases q <;> simp_all [Query.nilChild.isNil, Query.comp]
  cases q with
  | nil => simp [Spec.Query.nilChild] at h
  | atom a => simp [Spec.Query.nilChild] at h
  | and a b =>
    simp only [Spec.Query.nilChild, Bool.or_eq_true] at h
    show ∃ m, encAnd a.comp b.comp s = _
    rcases h with h | h
    · rw [isNil _ h]; exact ⟨_, rfl⟩
    · rw [isNil _ h]; cases a.comp <;> exact ⟨_, rfl⟩
  | or a b =>
    simp only [Spec.Query.nilChild, Bool.or_eq_true] at h
    show ∃ m, encOr a.comp b.comp s = _
    rcases h with h | h
    · rw [isNil _ h]; exact ⟨_, rfl⟩
    · rw [isNil _ h]; cases a.comp <;> exact ⟨_, rfl⟩
  | not a => show ∃ m, encNot a.comp s = _; rw [isNil _ h]; exact ⟨_, rfl⟩
  | withVar x a => show ∃ m, encWithVar x a.comp s = _; rw [isNil _ h]; exact ⟨_, rfl⟩
  | forallG c a => show ∃ m, encForall c a.comp s = _; rw [isNil _ h]; exact ⟨_, rfl⟩

/-- C24 (nil generator): a predicate with a nil generator is an error, the context is not changed. -/
theorem C24_nil_generator (a : Atom) (h : Spec.Atom.nilGen a = true) (s : Ctx) :
    ∃ m, (Query.atom a).encode s = (.error (.msg m), s) := a.rej_nilGen s h

/-- C24 (anywhere): a query with a nil child or a nil generator anywhere below never yields a CNF. -/
theorem C24_anywhere (q : Query) (h : Spec.Query.Defect (fun a => Spec.Atom.nilGen a = true) q)
    (s : Ctx) : ∃ e, (q.encode s).1 = .error e := by
  unfold Query.encode
  cases hc : q.comp with
  | none => exact ⟨_, rfl⟩
  | some x =>
    exact Query.defect_comp (fun a ha s => by
      obtain ⟨m, e⟩ := a.rej_nilGen s ha; exact ⟨_, by rw [e]⟩) q h x hc s

/-- Concrete cases: a nil child at depth two, and a nil generator under a loop. -/
example : ((Query.withVar ['x'] (.or (.atom (.full (.var ['x']))) .nil)).encode
      (BasicQContext 2 exNodes)).1 = .error (.msg "WithVar: Or: Invalid encoding of nil child (2)") ∧
    ((Query.forallG { id := ['c'] } (.atom (.isnode (.var ['x']) none))).encode
      (BasicQContext 2 exNodes)).1 =
        .error (.msg "ForAllGuarded: Invalid nil var generation function") := by
  decide

/-! ### C35 -/

/-- C35: if the value a constant of a predicate has in the context (the loop's value if its scope is
open, see C15) is not of the dimension of the model, the predicate returns an error and the context
is unchanged. The error is an error value, not a panic, in every context reached without `Reset`. -/
theorem C35_wrong_dimension (a : Atom) (c : QConst) (hc : c ∈ Spec.Atom.consts a) (s : Ctx)
    (hl : (s.scopeConst c).1.val.length ≠ s.dim) :
    ∃ e, (Query.atom a).encode s = (.error e, s) ∧
      ∀ d nodes, ReachableNR d nodes s → ∃ m, e = .msg m := by
  obtain ⟨e, h1, h2⟩ := a.rej_dim s ⟨c, hc, hl⟩
  exact ⟨e, h1, fun d nodes hr => h2 (reachableNR_scope hr).2.1⟩

example : (Query.atom (.leh (.var ['x']) (.const { val := [ONE, ZERO] }) (.const { val := [ONE] })
      (some fun a b => a ++ b) none)).encode (BasicQContext 2 exNodes) =
    (.error (.msg "constant2: wrong dim 1 (2 feats in context)"), BasicQContext 2 exNodes) := by
  decide

/-! ### C52 -/

/-- C52: encoding a query (other than the nil interface value) never panics in a context reached
without `Reset` from a model of positive dimension whose nodes pass validation, if no preference
order is empty. -/
theorem C52_no_panic (d : Nat) (nodes : List Node) (hd : 0 < d) (w0 : WalkSt)
    (hv : newNodeAsValuesIter d nodes = .ok w0) (s : Ctx) (hs : ReachableNR d nodes s) (q : Query)
    (hq : q ≠ .nil) (hp : Spec.Query.PrefsNonempty q) (m : String) :
    (q.encode s).1 ≠ .error (.panic m) := by
  obtain ⟨h1, h2, h3, h4⟩ := reachableNR_scope hs
  obtain ⟨h5, h6, -⟩ := newIter_ok hv
  have hsane : Sane s := ⟨h2, h1, by omega, by rw [h4]; exact h5, by rw [h3, h4]; exact h6⟩
  have : ∃ x, q.comp = some x := by cases q <;> first | exact absurd rfl hq | exact ⟨_, rfl⟩
  obtain ⟨x, hx⟩ := this
  unfold Query.encode
  rw [hx]
  exact q.np_comp hp x hx s hsane m

/-- C52: the predicates that look up a feature of a node in a constant check it first: on models that do not pass
validation, and in every context, isnode.Const does not panic, and allcomp.Const does not if all children are
nodes. -/
theorem C52_walks_checked (s : Ctx) (c : QConst) (b : Bool) (g : Option (QVar → QVar)) (m : String) :
    ((Atom.isnode (.const c) g).encode s).1 ≠ .error (.panic m) ∧
    ((∀ n ∈ s.nodes, n.childless = false → (0 ≤ n.zChild ∧ n.zChild < s.nodes.length) ∧
        (0 ≤ n.oChild ∧ n.oChild < s.nodes.length)) →
      ((Atom.allcomp (.const c) b g).encode s).1 ≠ .error (.panic m)) :=
  ⟨isnodeConst_np c s m, fun h => allcompConst_np h c b m⟩

/-- A model with a feature out of range: both report it. -/
example : let s := BasicQContext 2 [⟨false, 2, 1, 1⟩, ⟨false, 0, -1, -1⟩]
    (∀ n ∈ s.nodes, n.childless = false → (0 ≤ n.zChild ∧ n.zChild < s.nodes.length) ∧
        (0 ≤ n.oChild ∧ n.oChild < s.nodes.length)) ∧
    ((Atom.isnode (.const { val := [ONE, ONE] }) none).encode s).1 =
      .error (.msg "Node's feature 2 is out of range [0, 1]") ∧
    ((Atom.allcomp (.const { val := [ONE, ONE] }) true none).encode s).1 =
      .error (.msg "Node's feature 2 is out of range [0, 1]") := by
  decide

/-- C52: each of the conditions is needed: an empty preference order, dimension 0, an empty model,
a feature out of range, a child out of range, and a context after `Reset` can make `Encoding`
panic. -/
theorem C52_conditions_needed :
    (∃ q s, ReachableNR 2 exNodes s ∧
      (Query.encode q s).1 = .error (.panic "index out of range") ∧ q = .atom (.hepr (.var ['x'])
        (.var ['y']) [] (some fun a b c => a ++ b ++ c))) ∧
    (∃ q s, ReachableNR 0 exNodes s ∧
      (Query.encode q s).1 = .error (.panic "index out of range") ∧ Spec.Query.PrefsNonempty q) ∧
    (∃ q s, ReachableNR 2 [] s ∧
      (Query.encode q s).1 = .error (.panic "index out of range") ∧ Spec.Query.PrefsNonempty q) ∧
    (∃ q nodes s, ReachableNR 2 nodes s ∧
      (Query.encode q s).1 = .error (.panic "index out of range") ∧ Spec.Query.PrefsNonempty q ∧
      nodes = [⟨false, 7, 1, 1⟩, ⟨false, 0, -1, -1⟩]) ∧
    (∃ q nodes s, ReachableNR 2 nodes s ∧
      (Query.encode q s).1 = .error (.panic "index out of range") ∧ Spec.Query.PrefsNonempty q ∧
      nodes = [⟨false, 0, 1, 9⟩, ⟨false, 0, -1, -1⟩]) ∧
    (∃ q s, Reachable 2 exNodes s ∧
      (Query.encode q s).1 = .error (.panic "index out of range") ∧ Spec.Query.PrefsNonempty q) := by
  refine ⟨⟨_, _, .new, ?_, rfl⟩, ⟨.atom (.leh (.var ['x']) (.const {}) (.const {})
      (some fun a b => a ++ b) none), _, .new, ?_, trivial⟩, ⟨.atom (.dfs (.var ['x'])), _, .new, ?_,
      trivial⟩, ⟨.atom (.isnode (.var ['x']) (some fun a => 'r' :: a)), _, _, .new, ?_, trivial, rfl⟩,
      ⟨.atom (.allcomp (.const { val := [ONE, ONE] }) true none), _, _, .new, ?_, trivial, rfl⟩,
      ⟨.atom (.full (.var ['x'])), run [.addScope ['c'], .addScope ['c'], .addVar ['x'], .reset,
        .addScope ['c']] (BasicQContext 2 exNodes), ?_, ?_, trivial⟩⟩
  · decide
  · decide
  · decide
  · decide
  · decide
  · exact .call (.addScope ['c']) (.call .reset (.call (.addVar ['x']) (.call (.addScope ['c'])
      (.call (.addScope ['c']) .new))))
  · decide

example : ReachableNR 2 exNodes (exQuery.encode (BasicQContext 2 exNodes)).2 ∧ exQuery ≠ .nil ∧
    Spec.Query.PrefsNonempty exQuery ∧ newNodeAsValuesIter 2 exNodes = .ok (WalkSt.init 2 5) :=
  ⟨.encode _ .new, by simp [exQuery], by simp [exQuery, Query.PrefsNonempty, Atom.PrefsNonempty],
    by decide⟩

/-! ### C21 -/

/-- C21: encoding `WithVar x` where `x` is already declared adds no clauses and allocates no variable:
the part of the encoding that `WithVar` contributes is the empty CNF. -/
theorem C21_redeclared (x v : QVar) (s : Ctx) (hv : s.scopeVar x = .ok v)
    (he : s.cnfVarExists ⟨v, 0, BOT⟩ = true) : encodeI x s = (.ok {}, s) := encodeI_declared hv he

/-- C21: `WithVar x (WithVar x q)` has the same outcome as `WithVar x q` (up to one more prefix of an
error message) and leaves the same context, for every child. -/
theorem C21_nested (x : QVar) (q : M CNF) (d : Nat) (nodes : List Node) (s : Ctx)
    (hs : ReachableNR d nodes s) :
    (encWithVar x (some (encWithVar x (some q))) s).2 = (encWithVar x (some q) s).2 ∧
    (encWithVar x (some (encWithVar x (some q))) s).1 =
      (match (encWithVar x (some q) s).1 with
        | .ok c => .ok c
        | .error e => .error (e.wrap "WithVar")) := by
  obtain ⟨h1, h2, -⟩ := reachableNR_scope hs
  have hvm := reachable_vm hs.reachable
  have a1 := (addVar_other s x)
  have a2 := addVar_varsExt x h1
  have hsc := a2.scopeOk h2 a1.1.scopes
  obtain ⟨c1, s1, e1, e2, e3, e4⟩ := encodeI_twice (hvm.of_vm_eq a1.2.1 a1.2.2) (scopeVar_eq hsc x)
  have e5 : s1.addVar x = s1 := by
    have := addVar_congr e3 e4 x (addVar_idem s x)
    exact this
  have b1 : M.addVar x s = (.ok (), s.addVar x) := rfl
  have b2 : M.addVar x s1 = (.ok (), s1) := by rw [M.addVar, e5]
  have k : ∀ (q : M CNF) s, encWithVar x (some q) s =
      M.wrapErr "WithVar" (M.addVar x >>= fun _ => withVarBuild x q) s := fun _ _ => rfl
  have outer : ∀ q : M CNF, (M.addVar x >>= fun _ => withVarBuild x q) s =
      (q >>= fun ccnf => pure (c1.conjunction ccnf)) s1 := by
    intro q
    rw [M_bind_ok b1, withVarBuild, M_bind_ok e1]
  have inner : (M.addVar x >>= fun _ => withVarBuild x q) s1 =
      (q >>= fun ccnf => pure (({} : CNF).conjunction ccnf)) s1 := by
    rw [M_bind_ok b2, withVarBuild, M_bind_ok e2]
  rw [k, k q]
  unfold M.wrapErr
  rw [outer, outer]
  cases hq : q s1 with
  | mk r s2 =>
    cases r with
    | ok c =>
      have i1 : encWithVar x (some q) s1 = (.ok (({} : CNF).conjunction c), s2) := by
        rw [k]
        refine wrapErr_ok ?_
        rw [inner, M_bind_ok hq]
        rfl
      rw [M_bind_ok i1, M_bind_ok hq]
      simp only [M_pure, conj_empty_conj, and_self]
    | error e =>
      have i1 : encWithVar x (some q) s1 = (.error (e.wrap "WithVar"), s2) := by
        rw [k]
        unfold M.wrapErr
        rw [inner, M_bind_error hq]
      rw [M_bind_error i1, M_bind_error hq]
      simp

/-- C21 (siblings): after encoding `WithVar x q` in a context of positive dimension, whatever the
outcome of encoding `q`, `x` is declared: a further `WithVar x` at the same place of the query adds
nothing. -/
theorem C21_sibling (x : QVar) (q : Query) (d : Nat) (nodes : List Node) (hd : 0 < d) (s : Ctx)
    (hs : ReachableNR d nodes s) (hq : q ≠ .nil) :
    let s' := ((Query.withVar x q).encode s).2
    encodeI x (s'.addVar x) = (.ok {}, s'.addVar x) ∧ s'.addVar x = s' := by
  intro s'
  obtain ⟨h1, h2, h3, -⟩ := reachableNR_scope hs
  have hvm := reachable_vm hs.reachable
  have a1 := (addVar_other s x)
  have a2 := addVar_varsExt x h1
  have hsc := a2.scopeOk h2 a1.1.scopes
  obtain ⟨c1, s1, e1, e2, e3, e4, e5⟩ := encodeI_declares (hvm.of_vm_eq a1.2.1 a1.2.2) (scopeVar_eq hsc x)
    (by rw [a1.1.dim, h3]; exact hd)
  have : ∃ y, q.comp = some y := by cases q <;> first | exact absurd rfl hq | exact ⟨_, rfl⟩
  obtain ⟨y, hy⟩ := this
  have b1 : M.addVar x s = (.ok (), s.addVar x) := rfl
  have hs' : s' = (y s1).2 := by
    show (encWithVar x q.comp s).2 = _
    rw [hy, encWithVar, wrapErr_snd]
    show ((M.addVar x >>= fun _ => withVarBuild x y) s).2 = _
    rw [M_bind_ok b1, withVarBuild, M_bind_ok e1]
    cases hr : y s1 with
    | mk r s2 =>
      cases r with
      | ok c => rw [M_bind_ok hr]; rfl
      | error e => rw [M_bind_error hr]
  have ht := q.comp_tame y hy
  have hk := (encodeI_tame x).keep (s.addVar x)
  have hv := (encodeI_tame x).vars (s.addVar x) a2.fn hsc
  rw [e1] at hk hv
  have hsc1 := hv.scopeOk hsc hk.scopes
  have hv2 := ht.vars s1 hv.fn hsc1
  have hsc2 := hv2.scopeOk hsc1 (ht.keep s1).scopes
  have hadd : (y s1).2.addVar x = (y s1).2 := by
    have hs3 : (y s1).2.scopes = s.scopes :=
      (ht.keep s1).scopes.trans (hk.scopes.trans a1.1.scopes)
    by_cases h0 : s.scopes.length = 0
    · simp [Ctx.addVar, hs3, h0]
    · have : ∃ k, mapGet (s.addVar x).vars x = some k := by
        rw [addVar_vars]
        split
        · exact ⟨_, rfl⟩
        · next hn =>
          cases hg : mapGet s.vars x with
          | some k => exact ⟨k, rfl⟩
          | none => exact absurd ⟨by simpa using h0, hg, rfl⟩ hn
      obtain ⟨k, hk'⟩ := this
      have := hv2.keep x k (hv.keep x k hk')
      simp [Ctx.addVar, hs3, h0, this]
  have hname : (y s1).2.scopeVar x = s1.scopeVar x := by
    have hs3 := (ht.keep s1).scopes
    rw [scopeVar_eq hsc2, scopeVar_eq hsc1, hs3]
    by_cases h0 : s.scopes.length = 0
    · have : s1.scopes = [] := by rw [hk.scopes, a1.1.scopes]; simpa using h0
      simp [this]
    · have : ∃ k, mapGet (s.addVar x).vars x = some k := by
        rw [addVar_vars]
        split
        · exact ⟨_, rfl⟩
        · next hn =>
          cases hg : mapGet s.vars x with
          | some k => exact ⟨k, rfl⟩
          | none => exact absurd ⟨by simpa using h0, hg, rfl⟩ hn
      obtain ⟨k, hk'⟩ := this
      rw [hv2.keep x k (hv.keep x k hk'), hv.keep x k hk']
  rw [hs', hadd]
  refine ⟨?_, rfl⟩
  refine encodeI_declared (hname.trans e2) ?_
  obtain ⟨n, hn⟩ := Option.isSome_iff_exists.1 e3
  simp [Ctx.cnfVarExists, (ht.vm s1 e4).2.keep _ _ hn]

/-- Concrete cases: declaring `x` twice in a row inside a loop, and in two conjuncts. -/
example : let s := run [.addScope ['c'], .setScope 0 [BOT, BOT]] (BasicQContext 2 exNodes)
    (Query.withVar ['x'] (.withVar ['x'] (.atom (.full (.var ['x']))))).encode s =
      (Query.withVar ['x'] (.atom (.full (.var ['x'])))).encode s ∧
    (match ((Query.and (.withVar ['x'] (.atom (.full (.var ['x'])))) (.withVar ['x'] (.atom
      (.full (.var ['x']))))).encode s).1 with
      | .ok c => some (c.cClauses.length, c.topV)
      | _ => none) = some (8, 6) := by decide

end Goexpdt.Props

import Verif.Lemmas.Trouble
import Verif.Props.Succeeds
import Verif.Props.Compute
/-
C71: what errors say.
-/
namespace Goexpdt.Props
open Goexpdt Spec

/-- C71: on an acyclic model of positive dimension that passes validation, in every context reached without `Reset`, the result
of encoding a query is a CNF, an error with a certain text, or a panic, as `Query.trouble` says: it is determined by the
first thing that is wrong with the query, and an error's text is the labels of the operators around it and a description. -/
theorem C71_text (d : Nat) (nodes : List Node) (hd : 0 < d) (w0 : WalkSt) (hv : newNodeAsValuesIter d nodes = .ok w0)
    (hac : Acyclic nodes) (s : Ctx) (hs : ReachableNR d nodes s) (q : Query) :
    Turns (q.encode s).1 (Query.trouble d (s.scopes.map fun g => (g.target, g.value.length)) q) := by
  obtain ⟨h1, h2, h3, h4⟩ := reachableNR_scope hs
  obtain ⟨h5, h6, -⟩ := newIter_ok hv
  have hsane : Sane s := ⟨h2, h1, by omega, by rw [h4]; exact h5, by rw [h3, h4]; exact h6⟩
  unfold Query.encode
  cases hx : q.comp with
  | none =>
    have : q = .nil := by cases q <;> simp_all [Query.comp]
    subst this
    exact ⟨_, rfl⟩
  | some x =>
    have := q.turns x hx s hsane (by rw [h4]; exact hac)
    rw [h3] at this
    exact this

/-- C71 for decision trees, in a new context: what encoding a query gives is decided by the query and the dimension alone. -/
theorem C71_tree (d : Nat) (nodes : List Node) (T : DTree) (hd : 0 < d) (ht : IsTree d nodes T) (hc : Covers nodes T) (q : Query) :
    Turns (q.encode (BasicQContext d nodes)).1 (Query.trouble d [] q) :=
  C71_text d nodes hd _ (ht.validated hc) (ht.acyclic hc) _ .new q

/-- C71: exactly the valid queries (C62) are without trouble. -/
theorem C71_none_iff (d : Nat) (o : List (List Char × Nat)) (q : Query) : Query.trouble d o q = none ↔ Query.Valid d o q := by
  have hnil : ∀ q : Query, Query.trouble.isNil q = true → ∀ o, ¬ Query.Valid d o q := by
    intro q hq; cases q <;> first | (intro o h; exact h) | cases hq
  have hone : ∀ (q : Query) o, (Query.trouble d o q = none ↔ Query.Valid d o q) →
      (oneTrouble (Query.trouble.isNil q) (Query.trouble d o q) = none ↔ Query.Valid d o q) := by
    intro q o h
    unfold oneTrouble
    cases hq : Query.trouble.isNil q with
    | true => simp [hnil q hq o]
    | false => simpa using h
  have htwo : ∀ (q1 q2 : Query) o, (Query.trouble d o q1 = none ↔ Query.Valid d o q1) →
      (Query.trouble d o q2 = none ↔ Query.Valid d o q2) →
      (twoTrouble (Query.trouble.isNil q1) (Query.trouble.isNil q2) (Query.trouble d o q1) (Query.trouble d o q2) = none ↔
        Query.Valid d o q1 ∧ Query.Valid d o q2) := by
    intro q1 q2 o h1 h2
    unfold twoTrouble
    cases hq : Query.trouble.isNil q1 with
    | true => simp [hnil q1 hq o]
    | false =>
      cases hq' : Query.trouble.isNil q2 with
      | true => simp [hnil q2 hq' o]
      | false =>
        rw [← h1, ← h2]
        cases Query.trouble d o q1 <;> simp
  induction q generalizing o with
  | nil => simp [Query.trouble, Query.Valid]
  | atom a => exact Atom.trouble_none
  | and q1 q2 h1 h2 => simpa [Query.trouble, Query.Valid] using htwo q1 q2 o (h1 o) (h2 o)
  | or q1 q2 h1 h2 => simpa [Query.trouble, Query.Valid] using htwo q1 q2 o (h1 o) (h2 o)
  | not q h1 => simpa [Query.trouble, Query.Valid] using hone q o (h1 o)
  | withVar v q h1 => simpa [Query.trouble, Query.Valid] using hone q o (h1 o)
  | forallG c q h1 => simpa [Query.trouble, Query.Valid] using hone q _ (h1 _)

/-- C71: evaluating the query gives this error. -/
theorem C71_evaluation (d : Nat) (nodes : List Node) (hd : 0 < d) (w0 : WalkSt) (hv : newNodeAsValuesIter d nodes = .ok w0)
    (hac : Acyclic nodes) (s : Ctx) (hs : ReachableNR d nodes s) (q : Query) (text : String)
    (ht : Query.trouble d (s.scopes.map fun g => (g.target, g.value.length)) q = some (.error text))
    (env : Nat → Env) (st : BinSt) (he : (env st.calls).temp = none) (negated : Bool) :
    (atomSat (binSolver env) q.comp negated st s).1 = .error (.msg text) := by
  have h := C71_text d nodes hd w0 hv hac s hs q
  rw [ht] at h
  have hq : q.comp = some q.encode := by
    cases q <;> first | rfl | (simp [Query.trouble] at ht)
  have h' : (q.encode s).1 = .error (.msg text) := h
  rcases hr : q.encode s with ⟨r, s'⟩
  rw [hr] at h'
  cases h'
  unfold atomSat
  rw [show (binSolver env).step q.comp st s = binStep (env st.calls) q.comp st s from rfl, hq]
  unfold binStep
  simp only [he, hr]

/-! ### components that are not of the library -/

/-- C71: an error of a part, also of a user's own component, is passed on with the labels of the operator. -/
theorem C71_operators (x y : M CNF) (s : Ctx) (m : String) :
    ((x s).1 = .error (.msg m) →
      (encAnd (some x) (some y) s).1 = .error (.msg ("And: Q1: " ++ m)) ∧
      (encOr (some x) (some y) s).1 = .error (.msg ("Or: Q1: " ++ m)) ∧
      (encNot (some x) s).1 = .error (.msg ("Not: " ++ m))) ∧
    (∀ c s', x s = (.ok c, s') → (y s').1 = .error (.msg m) →
      (encAnd (some x) (some y) s).1 = .error (.msg ("And: Q2: " ++ m)) ∧
      (encOr (some x) (some y) s).1 = .error (.msg ("Or: Q2: " ++ m))) := by
  have e : ∀ a b : String, a ++ ": " ++ (b ++ ": " ++ m) = (a ++ ": " ++ (b ++ ": ")) ++ m := fun a b => by
    simp only [String.append_assoc]
  have e1 : "And" ++ ": " ++ ("Q1" ++ ": ") = "And: Q1: " := by decide
  have e2 : "Or" ++ ": " ++ ("Q1" ++ ": ") = "Or: Q1: " := by decide
  have e3 : "Not" ++ ": " = "Not: " := by decide
  have e4 : "And" ++ ": " ++ ("Q2" ++ ": ") = "And: Q2: " := by decide
  have e5 : "Or" ++ ": " ++ ("Q2" ++ ": ") = "Or: Q2: " := by decide
  rw [← e1, ← e2, ← e3, ← e4, ← e5, ← e, ← e, ← e, ← e]
  have two : ∀ (w : String) (f : CNF → CNF → M CNF) (hx : (x s).1 = .error (.msg m)),
      (M.wrapErr w (M.wrapErr "Q1" x >>= fun a => M.wrapErr "Q2" y >>= f a) s).1 = .error (.msg (w ++ ": " ++ ("Q1" ++ ": " ++ m))) := by
    intro w f hx
    have h1 : Turns (x s).1 (some (.error m)) := hx
    rcases hr : x s with ⟨r, s'⟩
    rw [hr] at hx; cases hx
    have h2 : M.wrapErr "Q1" x s = (.error (.msg ("Q1" ++ ": " ++ m)), s') := by unfold M.wrapErr; rw [hr]; rfl
    have h3 := M_bind_error (f := fun a => M.wrapErr "Q2" y >>= f a) h2
    unfold M.wrapErr at h3 ⊢
    rw [h3]; rfl
  have two' : ∀ (w : String) (f : CNF → CNF → M CNF) c s', x s = (.ok c, s') → (y s').1 = .error (.msg m) →
      (M.wrapErr w (M.wrapErr "Q1" x >>= fun a => M.wrapErr "Q2" y >>= f a) s).1 = .error (.msg (w ++ ": " ++ ("Q2" ++ ": " ++ m))) := by
    intro w f c s' hx hy
    rcases hr : y s' with ⟨r, s''⟩
    rw [hr] at hy; cases hy
    have h1 : M.wrapErr "Q1" x s = (.ok c, s') := by unfold M.wrapErr; rw [hx]
    have h2 : M.wrapErr "Q2" y s' = (.error (.msg ("Q2" ++ ": " ++ m)), s'') := by unfold M.wrapErr; rw [hr]; rfl
    have h3 := (M_bind_ok (f := fun a => M.wrapErr "Q2" y >>= f a) h1).trans (M_bind_error (f := f c) h2)
    unfold M.wrapErr at h3 ⊢
    rw [h3]; rfl
  refine ⟨fun h => ⟨two "And" _ h, ?_, ?_⟩, fun c s' hx hy => ⟨two' "And" _ c s' hx hy, ?_⟩⟩
  · show (M.wrapErr "Or" (orBuild x y) s).1 = _
    rw [orBuild_eq]
    exact two "Or" _ h
  · rcases hr : x s with ⟨r, s'⟩
    rw [hr] at h; cases h
    show (M.wrapErr "Not" (x >>= negStep) s).1 = _
    unfold M.wrapErr
    rw [M_bind_error hr]; rfl
  · show (M.wrapErr "Or" (orBuild x y) s).1 = _
    rw [orBuild_eq]
    exact two' "Or" _ c s' hx hy

/-- C71: the same for `WithVar`, whose part is encoded in a context that does not depend on it. -/
theorem C71_declaration (d : Nat) (nodes : List Node) (hd : 0 < d) (w0 : WalkSt) (hv : newNodeAsValuesIter d nodes = .ok w0)
    (s : Ctx) (hs : ReachableNR d nodes s) (v : QVar) :
    ∃ s1, ∀ (x : M CNF) (m : String), (x s1).1 = .error (.msg m) →
      (encWithVar v (some x) s).1 = .error (.msg ("WithVar: " ++ m)) := by
  obtain ⟨h1, h2, h3, h4⟩ := reachableNR_scope hs
  obtain ⟨h5, h6, -⟩ := newIter_ok hv
  have hsane : Sane s := ⟨h2, h1, by omega, by rw [h4]; exact h5, by rw [h3, h4]; exact h6⟩
  have e1 := (addVar_other s v).1
  have e2 := addVar_varsExt v hsane.fn
  have hs1 : Sane (s.addVar v) := ⟨e2.scopeOk hsane.scope e1.scopes, e2.fn, by rw [e1.dim]; exact hsane.dim,
    by rw [e1.nodes]; exact hsane.ne, by rw [e1.dim, e1.nodes]; exact hsane.valid⟩
  obtain ⟨k, hk⟩ := encodeI_ok (x := v) hs1
  refine ⟨(encodeI v (s.addVar v)).2, fun x m hx => ?_⟩
  rcases he : encodeI v (s.addVar v) with ⟨r, s1⟩
  rw [he] at hk hx
  cases hk
  rcases hr : x s1 with ⟨r, s2⟩
  rw [hr] at hx
  cases hx
  have h2 := (M_bind_ok (f := fun icnf : CNF => x >>= fun ccnf => pure (icnf.conjunction ccnf)) he).trans (M_bind_error hr)
  have h3 := (M_bind_ok (f := fun _ : Unit => withVarBuild v x) (show M.addVar v s = (.ok (), s.addVar v) from rfl)).trans h2
  have e3 : "WithVar" ++ ": " = "WithVar: " := by decide
  show (M.wrapErr "WithVar" (M.addVar v >>= fun _ => withVarBuild v x) s).1 = _
  unfold M.wrapErr
  rw [h3, ← e3]; rfl

/-- C71: the same for `ForAllGuarded`, whose part is encoded first with the root's instance as the constant. If the part has removed scopes
that it has not added, so that none is left to be removed, the text ends with the complaint about this. -/
theorem C71_quantifier (s : Ctx) (w0 : WalkSt) (hv : newNodeAsValuesIter s.dim s.nodes = .ok w0) (c : QConst) (x : M CNF) (m : String)
    (s2 : Ctx) (hx : x ((s.addScope c.id).setScope 0 (List.replicate s.dim BOT)).2 = (.error (.msg m), s2)) :
    (s2.scopes ≠ [] → (encForall c (some x) s).1 = .error (.msg ("ForAllGuarded: " ++ m))) ∧
    (s2.scopes = [] → (encForall c (some x) s).1 =
      .error (.msg ("ForAllGuarded: " ++ (m ++ "\nInvalid scope removal in empty scoper")))) := by
  have hw : w0 = WalkSt.init s.dim s.nodes.length ∧ s.nodes.length ≠ 0 := by
    unfold newNodeAsValuesIter at hv
    split at hv
    · cases hv
    · split at hv <;> cases hv
      exact ⟨rfl, by assumption⟩
  obtain ⟨rfl, hl⟩ := hw
  have hb : forallBody x (s.addScope c.id) = (.error (.msg m), s2) := by
    obtain ⟨n, hn⟩ : ∃ n, s.nodes.length = n + 1 := ⟨s.nodes.length - 1, by omega⟩
    have hnext : walkNext s.nodes (nextFuel s.nodes) (WalkSt.init s.dim s.nodes.length) =
        .ok (some { WalkSt.init s.dim s.nodes.length with visited := (WalkSt.init s.dim s.nodes.length).visited.set 0 true }) := by
      unfold nextFuel
      simp [walkNext, walkStep, WalkSt.init, hn]
    have hset : M.setScope 0 (List.replicate s.dim BOT) (s.addScope c.id) =
        (.ok (), ((s.addScope c.id).setScope 0 (List.replicate s.dim BOT)).2) := by
      simp [M.setScope, Ctx.setScope, Ctx.addScope]
    show forallBody x (s.addScope c.id) = _
    unfold forallBody
    refine (M_bind_ok (show M.dim (s.addScope c.id) = (.ok s.dim, _) from rfl)).trans
      ((M_bind_ok (show M.nodes (s.addScope c.id) = (.ok s.nodes, _) from rfl)).trans
      ((M_bind_ok (show M.lift (newNodeAsValuesIter s.dim s.nodes) (s.addScope c.id) = (.ok _, _) by rw [hv]; rfl)).trans ?_))
    rw [forallLoop, hnext]
    exact (M_bind_ok hset).trans (M_bind_error hx)
  have e3 : "ForAllGuarded" ++ ": " = "ForAllGuarded: " := by decide
  rw [← e3]
  refine ⟨fun h => ?_, fun h => ?_⟩
  · show (M.wrapErr "ForAllGuarded" (forallBuild c x) s).1 = _
    have : forallBuild c x s = (.error (.msg m), s2.popScope.2) := by
      unfold forallBuild
      rw [hb]
      simp [Ctx.popScope, h]
    unfold M.wrapErr
    rw [this]; rfl
  · show (M.wrapErr "ForAllGuarded" (forallBuild c x) s).1 = _
    have : forallBuild c x s = (.error (.msg (m ++ "\n" ++ "Invalid scope removal in empty scoper")), s2) := by
      unfold forallBuild
      rw [hb]
      simp [Ctx.popScope, h, joinErr]
    unfold M.wrapErr
    rw [this]
    show Except.error (Err.msg _) = _
    have e4 : m ++ "\n" ++ "Invalid scope removal in empty scoper" = m ++ "\nInvalid scope removal in empty scoper" :=
      String.append_assoc
    rw [e4]

/-- A user's component that says whether the variable has numbers; below `WithVar` it has. -/
example : let mine : M CNF := fun s => (.error (.msg (if s.cnfVarExists ⟨['x'], 0, BOT⟩ then "declared" else "not declared")), s)
    (encWithVar ['x'] (some mine) (BasicQContext 3 exShared)).1 = .error (.msg "WithVar: declared") ∧
    ∃ s1, (mine s1).1 = .error (.msg "declared") ∧ ∀ (x : M CNF) (m : String), (x s1).1 = .error (.msg m) →
      (encWithVar ['x'] (some x) (BasicQContext 3 exShared)).1 = .error (.msg ("WithVar: " ++ m)) := by
  intro mine
  have hw : newNodeAsValuesIter 3 exShared = .ok (WalkSt.init 3 4) := by decide
  obtain ⟨s1, h⟩ := C71_declaration 3 exShared (by decide) _ hw _ .new ['x']
  have h0 : (encWithVar ['x'] (some mine) (BasicQContext 3 exShared)).1 = .error (.msg "WithVar: declared") := by decide
  refine ⟨h0, s1, ?_, h⟩
  have h1 := h mine _ rfl
  cases hb : s1.cnfVarExists ⟨['x'], 0, BOT⟩ with
  | true => simp [mine, hb]
  | false =>
    rw [h0] at h1
    simp only [hb] at h1
    exact absurd h1 (by decide)

/-- A user's component that removes a scope and fails, and one that removes a scope and does not. -/
example : let bad : M CNF := fun s => (.error (.msg "no value given"), s.popScope.2)
    let sly : M CNF := fun s => (.ok {}, s.popScope.2)
    (encForall { id := ['c'] } (some bad) (BasicQContext 3 exShared)).1 =
      .error (.msg "ForAllGuarded: no value given\nInvalid scope removal in empty scoper") ∧
    (encForall { id := ['c'] } (some bad) ((BasicQContext 3 exShared).addScope ['k'])).1 = .error (.msg "ForAllGuarded: no value given") ∧
    (encForall { id := ['c'] } (some sly) (BasicQContext 3 exShared)).1 = .error (.msg
      "ForAllGuarded: Invalid setting of scope in empty scoper\nInvalid scope removal in empty scoper") ∧
    (encForall { id := ['c'] } (some sly) (BasicQContext 3 [⟨true, 0, -1, -1⟩])).1 = .error (.msg
      "ForAllGuarded: Invalid scope removal in empty scoper") := by
  intro bad sly
  have hw : newNodeAsValuesIter 3 exShared = .ok (WalkSt.init 3 4) := by decide
  exact ⟨(C71_quantifier (BasicQContext 3 exShared) _ hw _ bad _ _ rfl).2 rfl,
    (C71_quantifier ((BasicQContext 3 exShared).addScope ['k']) _ hw _ bad _ _ rfl).1 (by decide), by decide, by decide⟩

/-- A query with two mistakes: the second constant of an `leh` has two features instead of three, and after it comes a nil. -/
def exMistakes : Query :=
  .withVar ['x'] (.and (.not (.atom (.full (.var ['x']))))
    (.or (.forallG { id := ['c'] } (.atom (.leh (.const { id := ['c'] }) (.const { val := [ONE, BOT] }) (.var ['x']) (some fun a b => a ++ b) none)))
      (.not .nil)))

/-- The trouble with it is the first mistake; without the second constant's mistake it would be the other one. -/
example : Query.trouble 3 [] exMistakes =
    some (.error "WithVar: And: Q2: Or: Q1: ForAllGuarded: constant2: wrong dim 2 (3 feats in context)") := by decide

example : newNodeAsValuesIter 3 exShared = .ok (WalkSt.init 3 4) ∧ Acyclic exShared ∧
    (exMistakes.encode (BasicQContext 3 exShared)).1 =
      .error (.msg "WithVar: And: Q2: Or: Q1: ForAllGuarded: constant2: wrong dim 2 (3 feats in context)") :=
  have hw : newNodeAsValuesIter 3 exShared = .ok (WalkSt.init 3 4) := by decide
  ⟨hw, exShared_acyclic, C71_text 3 exShared (by decide) _ hw exShared_acyclic _ .new exMistakes⟩

/-- Evaluating it gives this error, also where the answer is to be negated. -/
example (env : Nat → Env) (he : (env 0).temp = none) (negated : Bool) :
    (atomSat (binSolver env) exMistakes.comp negated {} (BasicQContext 3 exShared)).1 =
      .error (.msg "WithVar: And: Q2: Or: Q1: ForAllGuarded: constant2: wrong dim 2 (3 feats in context)") :=
  C71_evaluation 3 exShared (by decide) _ (by decide : newNodeAsValuesIter 3 exShared = .ok (WalkSt.init 3 4)) exShared_acyclic _ .new
    exMistakes _ (by decide) env {} he negated

/-- On a tree, with no condition left: a preference twice, found below two operators. -/
example : (Query.encode (.not (.withVar ['x'] (.atom (.hepr (.var ['x']) (.const { val := [ONE, BOT] }) [1, 1] (some fun a b c => a ++ b ++ c)))))
      (BasicQContext 2 exNodes)).1 = .error (.msg "Not: WithVar: Invalid duplicate preference '1'") := by
  have h := C71_tree 2 exNodes exTree (by decide) exNodes_isTree exNodes_covers
    (.not (.withVar ['x'] (.atom (.hepr (.var ['x']) (.const { val := [ONE, BOT] }) [1, 1] (some fun a b c => a ++ b ++ c)))))
  exact h

/-- The same query, where the constant is that of a scope around it: now the nil is found. -/
example : Query.trouble 3 [(['k'], 3)]
    (.or (.atom (.leh (.const { id := ['k'] }) (.const { id := ['k'] }) (.var ['x']) (some fun a b => a ++ b) none)) (.not .nil)) =
    some (.error "Or: Q2: Not: Invalid encoding of nil child") := by decide

/-- Entries of preferences are looked at before constants, generators before preferences. -/
example : Query.trouble 2 [] (.atom (.hepr (.const { val := [ONE] }) (.var ['x']) [1, 1] (some fun a b c => a ++ b ++ c))) =
      some (.error "Invalid duplicate preference '1'") ∧
    Query.trouble 2 [] (.atom (.hepr (.const { val := [ONE] }) (.var ['x']) [0, -1, 1] (some fun a b c => a ++ b ++ c))) =
      some (.error "Preference feature index out of range '-1'") ∧
    Query.trouble 2 [] (.atom (.hepr (.const { val := [ONE] }) (.var ['x']) [1, 1] none)) =
      some (.error "Invalid nil var generation function") ∧
    Query.trouble 2 [] (.atom (.hepr (.const { val := [ONE, BOT] }) (.var ['x']) [] (some fun a b c => a ++ b ++ c))) = some .panic := by
  decide

/-- A user's component that fails, and the errors of operators with it. -/
example : let mine : M CNF := fun s => (.error (.msg "no value given"), s)
    (encAnd (some (Query.encode (.atom (.full (.const { val := [ONE, BOT, ONE] }))))) (some mine) (BasicQContext 3 exShared)).1 =
      .error (.msg "And: Q2: no value given") ∧
    (encNot (some mine) (BasicQContext 3 exShared)).1 = .error (.msg "Not: no value given") := by
  intro mine
  have hq : ∃ c, Query.encode (.atom (.full (.const { val := [ONE, BOT, ONE] }))) (BasicQContext 3 exShared) =
      (.ok c, BasicQContext 3 exShared) := ⟨_, rfl⟩
  obtain ⟨c, hq⟩ := hq
  exact ⟨((C71_operators _ mine _ "no value given").2 c _ hq rfl).1, ((C71_operators mine mine _ "no value given").1 rfl).2.2⟩

end Goexpdt.Props

import Verif.Props.Encode
import Verif.Props.Halts
import Verif.Props.LogOp
import Verif.Props.Preds
import Verif.Props.Size
import Verif.Props.Walk
/-
The theorems of Props/Walk.lean, Encode.lean, LogOp.lean, Halts.lean and Size.lean, each applied to a concrete case that meets its
hypotheses.
-/
namespace Goexpdt.Cases
open Goexpdt Spec Props

/-! ### C17, C18 -/

/-- C17_terminates: a model with a shared node, a cycle and a node that is not reachable. -/
example : ∃ ws, Iterates exGraph (WalkSt.init 2 4) ws ∧ 3 ∉ ws.map (·.cp) ∧ 2 ∈ ws.map (·.cp) := by
  obtain ⟨ws, h1, -, -, h2, -, -⟩ := C17_terminates 2 exGraph (WalkSt.init 2 4) rfl
  refine ⟨ws, h1, fun h => ?_, (h2 2).2 (.one .root rfl rfl rfl)⟩
  have key : ∀ n ∈ exGraph, n.zChild ≠ 3 ∧ n.oChild ≠ 3 := by decide
  cases (h2 3).1 h with
  | zero _ hn _ h => exact (key _ (List.mem_of_getElem? hn)).1 h
  | one _ hn _ h => exact (key _ (List.mem_of_getElem? hn)).2 h

/-- C17_in_range: the first state, and the one after the first round. -/
example : walkStepIdx exGraph (WalkSt.init 2 4) = .ok (walkStep exGraph (WalkSt.init 2 4)) ∧
    walkStepIdx exGraph (walkStep exGraph (WalkSt.init 2 4)).2 = .ok (walkStep exGraph (walkStep exGraph (WalkSt.init 2 4)).2) :=
  ⟨C17_in_range 2 exGraph _ _ rfl .start, C17_in_range 2 exGraph _ _ rfl (.visited .start rfl)⟩

/-- C17_dfs_walk: a model that is accepted, and one that is not. -/
example : (∃ ws, leafsAsConsts 2 exNodes = .ok ws) ∧ ∃ m, leafsAsConsts 1 exNodes = .error (.msg m) := by
  constructor
  · rcases C17_dfs_walk 2 exNodes (by decide) with ⟨m, -, h⟩ | ⟨ws, -, -, h⟩
    · exact nomatch h
    · exact ⟨_, h⟩
  · rcases C17_dfs_walk 1 exNodes (by decide) with ⟨m, h, -⟩ | ⟨ws, h, -⟩
    · exact ⟨m, h⟩
    · exact absurd h (by decide)

/-- C18_accepted and C18_values. -/
example : ∃ ws, Iterates exNodes (WalkSt.init 2 5) ws ∧ ws.map (fun w => (w.cp, den w.t)) = exTree.nodeInsts bot := by
  have h := C18_accepted 2 exNodes exTree exNodes_isTree.raw exNodes_covers
  obtain ⟨ws, h1, -⟩ := C17_terminates 2 exNodes _ h
  exact ⟨ws, h1, (C18_values 2 exNodes exTree exNodes_isTree ws h1).1⟩

/-! ### C20–C24, C35, C41, C52 -/

/-- C20_exactly_one: two features, a child that does nothing. -/
example : ∃ c s', encWithVar ['x'] (some (pure {})) (BasicQContext 2 exNodes) = (.ok c, s') ∧ ∀ β : Val, ConTrue β c →
    ∀ i < 2, ∃ val ∈ [ZERO, ONE, BOT], ∀ val' ∈ [ZERO, ONE, BOT], β (s'.cnfVar ⟨['x'], (i : Nat), val'⟩).1.natAbs = decide (val' = val) :=
  ⟨_, _, rfl, fun β hβ i hi => C20_exactly_one ['x'] ['x'] 2 exNodes _ .new rfl rfl (pure {}) (fun s _ => .refl s) _ _ rfl β hβ i hi⟩

/-- C20_every_instance. -/
example : ∃ c s', encodeI ['x'] ((BasicQContext 2 exNodes).addVar ['x']) = (.ok c, s') ∧ ∃ β, ConTrue β c ∧
    ∀ i < 2, ∀ val ∈ [ZERO, ONE, BOT],
      β (s'.cnfVar ⟨['x'], (i : Nat), val⟩).1.natAbs = decide (valOf (den [ONE, BOT] i) = val) := by
  obtain ⟨c, s', h1, -, h2⟩ := C20_every_instance ['x'] ['x'] 2 exNodes _ (.call (.addVar ['x']) nofun .new) rfl rfl
  exact ⟨c, s', h1, h2 _⟩

/-- C21_redeclared and C21_sibling: after a query that declares the variable. -/
example : encodeI ['y'] ((exQuery.encode (BasicQContext 2 exNodes)).2.addVar ['y']) =
    (.ok {}, (exQuery.encode (BasicQContext 2 exNodes)).2.addVar ['y']) :=
  C21_redeclared ['y'] ['y'] _ (by decide +kernel) (by decide +kernel)
example : let s := ((Query.withVar ['y'] (.atom (.full (.var ['y'])))).encode (BasicQContext 2 exNodes)).2
    encodeI ['y'] (s.addVar ['y']) = (.ok {}, s.addVar ['y']) :=
  (C21_sibling ['y'] (.atom (.full (.var ['y']))) 2 exNodes (by omega) _ .new nofun).1

/-- C21_nested. -/
example (q : M CNF) : (encWithVar ['x'] (some (encWithVar ['x'] (some q))) (exQuery.encode (BasicQContext 2 exNodes)).2).2 =
    (encWithVar ['x'] (some q) (exQuery.encode (BasicQContext 2 exNodes)).2).2 :=
  (C21_nested ['x'] q 2 exNodes _ (.encode _ .new)).1

/-- C23_names_restored: inside a loop, after a failing query. -/
example : (exFailing.encode (((BasicQContext 2 exNodes).addScope ['f']).addVar ['z'])).2.scopeVar ['z'] =
    (((BasicQContext 2 exNodes).addScope ['f']).addVar ['z']).scopeVar ['z'] :=
  (C23_names_restored 2 exNodes _ (.call (.addVar ['z']) nofun (.call (.addScope ['f']) nofun .new)) exFailing).1 _ (by decide)

/-- C23_any_child: a child that fails with a panic, but leaves the scopes. -/
example : (encForall { id := ['c'] } (some fun s => (.error (.panic "of a user"), s)) (BasicQContext 2 exNodes)).2.scopes = [] :=
  C23_any_child _ _ (fun _ => rfl) _

/-- C41_wellformed, C41_dimacs, C57_size and C57_no_overflow: the query of Props/Encode.lean. -/
example : ∃ c s', exQuery.encode (BasicQContext 2 exNodes) = (.ok c, s') ∧
    (∀ cl ∈ c.sClauses ++ c.cClauses, ∀ l ∈ cl, l ≠ 0 ∧ (l.natAbs : Int) ≤ c.topV) ∧
    readDimacs c.toBytes = some (c.topV, ((c.sClauses ++ c.cClauses).length : Int), c.sClauses ++ c.cClauses) ∧
    (c.weight : Int) + s'.topV ≤ 1500 * exQuery.size * 8 ^ 4 ∧ s'.topV < 2 ^ 63 := by
  cases e : exQuery.encode (BasicQContext 2 exNodes) with
  | mk r s' =>
    cases r with
    | error x =>
      have h : (exQuery.encode (BasicQContext 2 exNodes)).1.isOk = true := by decide +kernel
      rw [e] at h
      exact absurd h (by simp [Except.isOk, Except.toBool])
    | ok c =>
      have h1 := C57_size 2 exNodes _ s' .new exQuery c e
      have h0 : (BasicQContext 2 exNodes).topV = 0 := rfl
      have hk : (1500 * exQuery.size * (2 + exNodes.length + 1) ^ (exQuery.rank + 3) : Nat) = 1500 * exQuery.size * 8 ^ 4 := by decide
      refine ⟨c, s', rfl, fun cl hcl l hl => ?_, C41_dimacs 2 exNodes _ s' .new exQuery c e, ?_, ?_⟩
      · have := (C41_wellformed 2 exNodes _ s' .new exQuery c e).1 cl hcl l hl
        exact ⟨this.1, this.2.1⟩
      · rw [hk, h0] at h1
        omega
      · exact (C57_no_overflow 2 exNodes _ s' .new exQuery c e (by decide)).1

/-- C41_extends: a second query after the first. -/
example : (exQuery.encode (BasicQContext 2 exNodes)).2.topV ≤ (exFailing.encode (exQuery.encode (BasicQContext 2 exNodes)).2).2.topV :=
  (C41_extends 2 exNodes _ (.encode _ .new) exFailing).1

/-- C57_rank_needed: two nested loops over the five nodes. -/
example : ∃ c s', (nested { id := ['c'] } (.full (.const { val := [BOT, BOT] })) 2).encode (BasicQContext 2 exNodes) = (.ok c, s') ∧
    c.weight = 25 :=
  (C57_rank_needed 2 exNodes exTree exNodes_isTree exNodes_covers (by omega) 2).2.2

/-- C24_nil_context, C24_nil_context_says, C24_nil_child, C24_nil_generator and C24_anywhere. -/
example : ∃ m, exQuery.encodeNilCtx = .error (.msg m) := C24_nil_context exQuery nofun
example : (Query.and exQuery .nil).encodeNilCtx = .error (.msg "And: Invalid encoding of nil child (2)") :=
  ((C24_nil_context_says ['x'] {} (.full (.var ['x'])) exQuery exFailing nofun nofun).2.1 ("And", .and) (by simp)).2.2.2
example : ∃ m, (Query.and exQuery .nil).encode (exQuery.encode (BasicQContext 2 exNodes)).2 =
    (.error (.msg m), (exQuery.encode (BasicQContext 2 exNodes)).2) :=
  C24_nil_child _ rfl _
example : ∃ m, (Query.atom (.isnode (.var ['x']) none)).encode (BasicQContext 2 exNodes) = (.error (.msg m), BasicQContext 2 exNodes) :=
  C24_nil_generator _ rfl _
example : ∃ e, ((Query.withVar ['x'] (.or exQuery (.not (.atom (.isnode (.var ['x']) none))))).encode (BasicQContext 2 exNodes)).1 = .error e :=
  C24_anywhere _ (by exact Or.inr rfl) _

/-- C35_wrong_dimension. -/
example : ∃ m, (Query.atom (.subs (.const { val := [ONE] }) (.var ['x']))).encode (BasicQContext 2 exNodes) =
    (.error (.msg m), BasicQContext 2 exNodes) := by
  obtain ⟨e, h1, h2⟩ := C35_wrong_dimension (.subs (.const { val := [ONE] }) (.var ['x'])) { val := [ONE] } (by simp [Spec.Atom.consts, Spec.Term.consts])
    (BasicQContext 2 exNodes) (by decide)
  obtain ⟨m, rfl⟩ := h2 2 exNodes .new
  exact ⟨m, h1⟩

/-- C52_no_panic: a failing query, in the context that another left. -/
example (m : String) : (exFailing.encode (exQuery.encode (BasicQContext 2 exNodes)).2).1 ≠ .error (.panic m) :=
  C52_no_panic 2 exNodes (by omega) _ rfl _ (.encode _ .new) exFailing nofun
    (by simp [exFailing, Spec.Query.PrefsNonempty, Spec.Atom.PrefsNonempty]) m

/-- C52_walks_checked: a model with a cycle. -/
example (m : String) : ((Atom.allcomp (.const { val := [ONE, ONE] }) true none).encode (BasicQContext 2 exGraph)).1 ≠ .error (.panic m) :=
  (C52_walks_checked (BasicQContext 2 exGraph) { val := [ONE, ONE] } true none m).2 (by decide)

/-! ### C28, C53 -/

/-- C28_fuel: a walk that ends in a model with a cycle, however large the bound. -/
example : ∀ k, 5 ≤ k → isnodeLoop 2 { val := [ZERO, BOT] } exGraph k (nodeAt exGraph 0) [] =
    isnodeLoop 2 { val := [ZERO, BOT] } exGraph 5 (nodeAt exGraph 0) [] :=
  (C28_fuel 2 { val := [ZERO, BOT] } exGraph (by decide) []).2 (by decide +kernel)

/-- C28_tree. -/
example (i : QConst) : Acyclic exNodes ∧ (isnodeConst i (BasicQContext 2 exNodes)).1 ≠ .error .diverge :=
  ⟨(C28_tree 2 exNodes exTree exNodes_isTree exNodes_covers).1, (C28_tree 2 exNodes exTree exNodes_isTree exNodes_covers).2 i _ rfl⟩

/-- C28_noChild: a node with one child missing. -/
example : ¬ ChildOf [⟨false, 0, -1, 1⟩, ⟨true, -1, -1, -1⟩] 0 1 := C28_noChild _ 0 ⟨false, 0, -1, 1⟩ rfl (.inl rfl) 1

/-- C53_any_model: a model with a cycle. -/
example : (exQuery.encode (BasicQContext 2 exGraph)).1 ≠ .error .diverge := C53_any_model exQuery _ (by decide)

end Goexpdt.Cases

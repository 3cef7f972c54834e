import Verif.Lemmas.Succeeds
import Verif.Lemmas.TreeGraph
import Verif.Props.Encode
import Verif.Props.Halts
/-
The queries that can be encoded: C62.
-/
namespace Goexpdt.Props
open Goexpdt Spec

/-- C62: on an acyclic model of positive dimension that passes validation, in every context reached without `Reset`, encoding
returns a CNF exactly for the valid queries: nothing in them is nil, every constant has the dimension of the model (the constant of
an open loop always has it), and every preference order consists of different features, at least one if there is a variable. -/
theorem C62_succeeds (d : Nat) (nodes : List Node) (hd : 0 < d) (w0 : WalkSt) (hv : newNodeAsValuesIter d nodes = .ok w0)
    (hac : Acyclic nodes) (s : Ctx) (hs : ReachableNR d nodes s) (q : Query) :
    (∃ k, (q.encode s).1 = .ok k) ↔ Query.Valid d (s.scopes.map fun g => (g.target, g.value.length)) q := by
  obtain ⟨h1, h2, h3, h4⟩ := reachableNR_scope hs
  obtain ⟨h5, h6, -⟩ := newIter_ok hv
  have hsane : Sane s := ⟨h2, h1, by omega, by rw [h4]; exact h5, by rw [h3, h4]; exact h6⟩
  unfold Query.encode
  cases hx : q.comp with
  | none =>
    have : q = .nil := by cases q <;> simp_all [Query.comp]
    subst this
    simp [Query.Valid, M.throw]
  | some x =>
    have := q.ok_iff x hx s hsane (by rw [h4]; exact hac)
    rw [h3] at this
    exact this

/-- C62 for decision trees, in a new context. -/
theorem C62_tree (d : Nat) (nodes : List Node) (T : DTree) (hd : 0 < d) (ht : IsTree d nodes T) (hc : Covers nodes T) (q : Query) :
    (∃ k, (q.encode (BasicQContext d nodes)).1 = .ok k) ↔ Query.Valid d [] q :=
  C62_succeeds d nodes hd _ (ht.validated hc) (ht.acyclic hc) _ .new q

/-- C62: every other query is rejected by an error value, unless it is the nil interface value or has an empty preference order (which
panic, see C24 and C52). -/
theorem C62_rejects (d : Nat) (nodes : List Node) (hd : 0 < d) (w0 : WalkSt) (hv : newNodeAsValuesIter d nodes = .ok w0)
    (hac : Acyclic nodes) (s : Ctx) (hs : ReachableNR d nodes s) (q : Query) (hq : q ≠ .nil) (hp : Query.PrefsNonempty q)
    (hn : ¬ Query.Valid d (s.scopes.map fun g => (g.target, g.value.length)) q) :
    ∃ m, (q.encode s).1 = .error (.msg m) := by
  have h1 := (not_congr (C62_succeeds d nodes hd w0 hv hac s hs q)).2 hn
  have h2 := C52_no_panic d nodes hd w0 hv s hs q hq hp
  have h3 := C53_terminates q s (by rw [(reachableNR_scope hs).2.2.2]; exact hac)
  cases h : (q.encode s).1 with
  | ok k => exact absurd ⟨k, h⟩ h1
  | error e =>
    cases e with
    | msg m => exact ⟨m, rfl⟩
    | panic m => exact absurd h (h2 m)
    | diverge => exact absurd h h3

/-- C62: whether a query can be encoded does not depend on what was encoded before: with no scope open, it is the same as in a new
context. -/
theorem C62_independent (d : Nat) (nodes : List Node) (hd : 0 < d) (w0 : WalkSt) (hv : newNodeAsValuesIter d nodes = .ok w0)
    (hac : Acyclic nodes) (s : Ctx) (hs : ReachableNR d nodes s) (h0 : s.scopes = []) (q : Query) :
    (∃ k, (q.encode s).1 = .ok k) ↔ ∃ k, (q.encode (BasicQContext d nodes)).1 = .ok k := by
  rw [C62_succeeds d nodes hd w0 hv hac s hs q, C62_succeeds d nodes hd w0 hv hac _ .new q, h0]
  rfl

/-- C62: the model has to be acyclic: on a cyclic one a valid query may fail (and not only by running forever). -/
theorem C62_condition_needed :
    ∃ nodes : List Node, newNodeAsValuesIter 1 nodes = .ok (WalkSt.init 1 1) ∧
      Query.Valid 1 [] (.atom (.dfs (.const { val := [ONE] }))) ∧
      ∃ m, ((Query.atom (.dfs (.const { val := [ONE] }))).encode (BasicQContext 1 nodes)).1 = .error (.msg m) := by
  refine ⟨[⟨false, 0, 0, 0⟩], by decide, ⟨rfl, by decide, trivial, trivial⟩, ?_⟩
  exact ⟨_, rfl⟩

/-- A valid query with a constant of a loop and one of a scope that is open around it. -/
def exLoop : Query :=
  .withVar ['x'] (.forallG { id := ['c'] } (.or (.atom (.hepr (.var ['x']) (.const { id := ['c'] }) [1, 0] (some fun a b c => a ++ b ++ c)))
    (.not (.atom (.leh (.const { id := ['f'] }) (.var ['x']) (.const { id := ['c'] }) (some fun a b => a ++ b) none)))))

example : let s := run [.addScope ['f'], .setScope 3 [ONE, BOT]] (BasicQContext 2 exShared)
    ReachableNR 2 exShared s ∧ newNodeAsValuesIter 2 exShared = .ok (WalkSt.init 2 4) ∧ Acyclic exShared ∧
    Query.Valid 2 (s.scopes.map fun g => (g.target, g.value.length)) exLoop ∧
    (∃ k, (exLoop.encode s).1 = .ok k) ∧
    -- without the outer scope the constant has no value
    ¬ Query.Valid 2 [] exLoop ∧ Query.PrefsNonempty exLoop ∧
    ∃ m, (exLoop.encode (BasicQContext 2 exShared)).1 = .error (.msg m) := by
  intro s
  have hr : ReachableNR 2 exShared s := .call (.setScope 3 [ONE, BOT]) (by simp) (.call (.addScope ['f']) (by simp) .new)
  have hw : newNodeAsValuesIter 2 exShared = .ok (WalkSt.init 2 4) := by decide
  have hv : Query.Valid 2 (s.scopes.map fun g => (g.target, g.value.length)) exLoop := by
    refine ⟨⟨rfl, by decide, ?_, by simp [Atom.PrefsNonempty]⟩, ⟨rfl, by decide, trivial, trivial⟩⟩
    simp [Atom.PrefOk]
  have hn : ¬ Query.Valid 2 [] exLoop := by
    rintro ⟨-, h⟩
    exact absurd (h.dims { id := ['f'] } (by simp [Atom.consts, Term.consts])) (by decide)
  have hp : Query.PrefsNonempty exLoop := by simp [exLoop, Query.PrefsNonempty, Atom.PrefsNonempty]
  exact ⟨hr, hw, exShared_acyclic, hv, (C62_succeeds 2 exShared (by decide) _ hw exShared_acyclic s hr exLoop).2 hv, hn, hp,
    C62_rejects 2 exShared (by decide) _ hw exShared_acyclic _ .new exLoop (by simp [exLoop]) hp hn⟩

end Goexpdt.Props

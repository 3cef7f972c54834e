import Verif.Lemmas.Shared
import Verif.Props.Tidy
import Verif.Lemmas.OptimOrder
/-
C88: that scopes and constants are references to arrays, and that the iterator of ForAllGuarded writes into an array that a scope refers to,
makes no difference for encodings; and the library does not write into arrays of its caller.
-/
namespace Goexpdt.Props
open Goexpdt Spec

variable {pl : Place} {s : RCtx} {q : Query} {d : Nat} {nodes : List Node} {T : DTree} {depth : QVar → Nat} {m : Mem}

theorem sound_current (h : InUse pl s) : Sound pl (s.mem.current pl) s where
  refs := h.scopes
  consts c a hc := ⟨h.consts c a hc, by simp [Mem.current, hc]⟩
  own c hc := by simp [Mem.current, hc]

/-- C88: encoding a query with references gives the same result as encoding it with values, for the query whose constants have the values that
are in their arrays when `Encoding` is called; the context is then the same too. This holds for all queries, also for those that fail, and
in every state. -/
theorem C88_same (h : InUse pl s) (q : Query) :
    (q.encodeR pl s).1 = ((q.withVals (s.mem.current pl)).encode s.load).1 ∧
    (q.encodeR pl s).2.load = ((q.withVals (s.mem.current pl)).encode s.load).2 :=
  have k := Over.loads_encode q s (sound_current h)
  ⟨k.1, k.2.1⟩

/-- C88: no array that was in use before is written to, whatever the outcome is; in particular not those of the constants of the program. -/
theorem C88_untouched (h : InUse pl s) (q : Query) :
    Untouched s.mem (q.encodeR pl s).2.mem ∧ (q.encodeR pl s).2.scopes = s.scopes ∧ InUse pl (q.encodeR pl s).2 := by
  have k := (Over.loads_encode q s (sound_current h)).2.2
  have hs := (sound_current h).kept k
  exact ⟨⟨k.next, k.cells⟩, k.scopes, hs.refs, fun c a hc => (hs.consts c a hc).1⟩

/-- C88: so the constants of the program have the same values after an encoding as before. -/
theorem C88_constants (h : InUse pl s) (q : Query) : (q.encodeR pl s).2.mem.current pl = s.mem.current pl := by
  funext c
  unfold Mem.current
  cases hc : pl c with
  | none => rfl
  | some a => exact (C88_untouched h q).1.2 a (h.consts c a hc)

/-- C88: so, with a new context, queries that meet the conditions of C39 with the values that their constants have when `Encoding` is called
are encoded faithfully. -/
theorem C88_faithful (h : ∀ c a, pl c = some a → a < m.next) (hg : (q.withVals (m.current pl)).Good d nodes T depth) :
    ∃ c s', q.encodeR pl (RCtx.start m d nodes) = (.ok c, s') ∧ WF c ∧
      Faithful d ((q.withVals (m.current pl)).names d T []) (fun σ => (q.withVals (m.current pl)).sem d T depth σ []) s'.load c := by
  have hu : InUse pl (RCtx.start m d nodes) := ⟨fun _ h => by simp [RCtx.start] at h, h⟩
  obtain ⟨c, s', e, hw, hf⟩ := (C39_faithful hg).1
  obtain ⟨k1, k2⟩ := C88_same hu q
  change _ = ((q.withVals (m.current pl)).encode (BasicQContext d nodes)).1 at k1
  change _ = ((q.withVals (m.current pl)).encode (BasicQContext d nodes)).2 at k2
  rw [e] at k1 k2
  exact ⟨c, _, Prod.ext k1 rfl, hw, k2 ▸ hf⟩

/-- C88: the constants that `leafsAsConsts` returns have the values that the rest of the model says. Their arrays are new, and different from each
other; no array that was in use is written to. -/
theorem C88_leafs (d : Nat) (nodes : List Node) (m : Mem) :
    ∃ r m', leafsAsConstsR d nodes m = (r, m') ∧ Untouched m m' ∧
      leafsAsConsts d nodes = r.map (fun p => (p.1.map fun a => { val := m'.cells a }, p.2.map fun a => { val := m'.cells a })) ∧
      ∀ p, r = .ok p → (∀ a ∈ p.1 ++ p.2, m.next ≤ a ∧ a < m'.next) ∧ (p.1 ++ p.2).Nodup := by
  obtain ⟨r, m', h1, h2, h3, h4⟩ := leafsAsConstsR_load d nodes m
  exact ⟨r, m', h1, h3, h2, fun p hp => ⟨fun a ha => ⟨Nat.le_of_lt ((h4 p hp).1 a ha).1, ((h4 p hp).1 a ha).2⟩, (h4 p hp).2⟩⟩

/-! ### Concrete cases -/

/-- A program with two constants whose arrays are 0 and 1. -/
def twoPlaces : Place := fun c => if c.id = ['a'] then some 0 else if c.id = ['b'] then some 1 else none

def twoArrays : Mem := { cells := fun a => if a = 0 then [BOT, ONE] else [ZERO, ONE], next := 2 }

/-- Every node that is consistent with `a` subsumes some `x` that `b` does not subsume. (The values in the query are not those in the arrays.) -/
def placedQuery : Query :=
  .forallG { id := ['n'] } (.withVar ['x'] (.or (.not (.atom (.cons (.const { id := ['n'] }) (.const { id := ['a'] }))))
    (.and (.atom (.subs (.const { id := ['n'] }) (.var ['x']))) (.not (.atom (.subs (.const { id := ['b'], val := [BOT, BOT] }) (.var ['x'])))))))

theorem twoPlaces_inUse (d : Nat) (nodes : List Node) : InUse twoPlaces (RCtx.start twoArrays d nodes) := by
  refine ⟨fun _ h => by simp [RCtx.start] at h, fun c a hc => ?_⟩
  show a < 2
  unfold twoPlaces at hc
  split at hc
  · simp only [Option.some.injEq] at hc; omega
  · split at hc
    · simp only [Option.some.injEq] at hc; omega
    · cases hc

/-- The query with the values that are in the arrays. -/
def placedQueryNow : Query :=
  .forallG { id := ['n'] } (.withVar ['x'] (.or (.not (.atom (.cons (.const { id := ['n'] }) (.const { id := ['a'], val := [BOT, ONE] }))))
    (.and (.atom (.subs (.const { id := ['n'] }) (.var ['x']))) (.not (.atom (.subs (.const { id := ['b'], val := [ZERO, ONE] }) (.var ['x'])))))))

theorem placedQuery_now : placedQuery.withVals (twoArrays.current twoPlaces) = placedQueryNow := rfl

theorem placedQueryNow_good : placedQueryNow.Good 2 exNodes exTree (fun x => if x = ['x'] then 1 else 0) := by
  refine ⟨by omega, ⟨exNodes_isTree, exNodes_covers, ?_⟩, .of_eq (by decide +kernel)⟩
  intro g hg
  obtain ⟨i, p, -, rfl⟩ := mem_scopesOf.1 hg
  have h1 : (resolve ([] ++ [scopeAt 2 ['n'] i p]) { id := ['n'] }) = valsOf 2 p.2 := by simp [resolve, scopeAt]
  have h2 : (resolve ([] ++ [scopeAt 2 ['n'] i p]) { id := ['a'], val := [BOT, ONE] }) = [BOT, ONE] := by simp [resolve, scopeAt]
  have h3 : (resolve ([] ++ [scopeAt 2 ['n'] i p]) { id := ['b'], val := [ZERO, ONE] }) = [ZERO, ONE] := by simp [resolve, scopeAt]
  have hv := valsOf_good 2 p.2
  refine ⟨rfl, ⟨by simp [Atom.vars, Term.vars], ?_, rfl, trivial, trivial, trivial, by simp [Atom.onModel]⟩,
    ⟨by simp [Atom.vars, Term.vars], ?_, rfl, trivial, trivial, trivial, by simp [Atom.onModel]⟩,
    ⟨by simp [Atom.vars, Term.vars], ?_, rfl, trivial, trivial, trivial, by simp [Atom.onModel]⟩⟩
  · intro c hc
    simp only [Spec.Atom.consts, Spec.Term.consts, List.cons_append, List.nil_append, List.mem_cons, List.not_mem_nil, or_false] at hc
    rcases hc with rfl | rfl
    · rw [h1]; exact hv
    · rw [h2]; exact (by decide : GoodVals 2 [BOT, ONE])
  · intro c hc
    simp only [Spec.Atom.consts, Spec.Term.consts, List.append_nil, List.mem_singleton] at hc
    rw [hc, h1]; exact hv
  · intro c hc
    simp only [Spec.Atom.consts, Spec.Term.consts, List.append_nil, List.mem_singleton] at hc
    rw [hc, h3]; exact (by decide : GoodVals 2 [ZERO, ONE])

/-- Concrete case of `C88_faithful`: a query with a quantifier. -/
example : ∃ c s', placedQuery.encodeR twoPlaces (RCtx.start twoArrays 2 exNodes) = (.ok c, s') ∧ WF c ∧
    Faithful 2 (placedQueryNow.names 2 exTree []) (fun σ => placedQueryNow.sem 2 exTree (fun x => if x = ['x'] then 1 else 0) σ []) s'.load c :=
  C88_faithful (twoPlaces_inUse 2 exNodes).consts placedQueryNow_good

/-- Concrete case of `C88_same`, `C88_untouched` and `C88_constants`. -/
example : (placedQuery.encodeR twoPlaces (RCtx.start twoArrays 2 exNodes)).1 = (placedQueryNow.encode (BasicQContext 2 exNodes)).1 ∧
    Untouched twoArrays (placedQuery.encodeR twoPlaces (RCtx.start twoArrays 2 exNodes)).2.mem ∧
    (placedQuery.encodeR twoPlaces (RCtx.start twoArrays 2 exNodes)).2.mem.next = 3 ∧
    (placedQuery.encodeR twoPlaces (RCtx.start twoArrays 2 exNodes)).2.mem.current twoPlaces { id := ['b'] } = [ZERO, ONE] :=
  ⟨(C88_same (twoPlaces_inUse 2 exNodes) placedQuery).1, (C88_untouched (twoPlaces_inUse 2 exNodes) placedQuery).1, by decide +kernel,
    congrFun (C88_constants (twoPlaces_inUse 2 exNodes) placedQuery) { id := ['b'] }⟩

/-- The array of a scope does change between calls of `SetScope`: after the second `Next` the scope that was set to the root's values, with
no defined feature, reads as the second node's. So a component that keeps the slice it got from `ScopeConst` reads other values later. -/
theorem C88_slices_change :
    let m0 : Mem := { cells := fun _ => [], next := 0 }
    ∃ w0 m1 w1 m2 w2 m3 s2, newIterR 2 exNodes m0 = (.ok w0, m1) ∧ walkNextR exNodes (nextFuel exNodes) m1 w0 = (.ok (some w1), m2) ∧
      ({ mem := m2, scopes := [{ target := ['n'] }], dim := 2, nodes := exNodes } : RCtx).setScope 0 (some w1.t) = (.ok (), s2) ∧
      s2.load.scopes = [{ target := ['n'], value := [BOT, BOT], vIdx := 0 }] ∧
      walkNextR exNodes (nextFuel exNodes) s2.mem w1 = (.ok (some w2), m3) ∧
      ({ s2 with mem := m3 } : RCtx).load.scopes = [{ target := ['n'], value := [BOT, ZERO], vIdx := 0 }] :=
  ⟨_, _, _, _, _, _, _, rfl, rfl, rfl, rfl, rfl, rfl⟩

/-- Concrete case of `C88_leafs`: two positive leafs and a negative one. -/
example : (leafsAsConstsR 2 exNodes { cells := fun _ => [], next := 7 }).1 = .ok ([9, 10], [8]) ∧
    ([9, 10, 8].map (leafsAsConstsR 2 exNodes { cells := fun _ => [], next := 7 }).2.cells) = [[ONE, ZERO], [BOT, ONE], [ZERO, ZERO]] := by
  decide

end Goexpdt.Props

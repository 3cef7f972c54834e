import Verif.Props.Meaning
import Verif.Lemmas.Shift
/-
Property C81: earlier use of a context only shifts the numbers of variables.
-/
namespace Goexpdt.Props
open Goexpdt Spec

/-- C81: if a query gives no number to a triple that already has one, its encoding in a used context is the encoding in the context without
numbers, with all variables shifted by the used context's top variable: the same errors and panics, the same clauses in the same order up to
the shift. The context keeps its numbers, and has those of the other encoding, shifted, as well. -/
theorem C81_shift (q : Query) {t : Ctx} (ht : 0 ≤ t.topv) (ha : ApartFrom t (q.encode (unnumbered t)).2) :
    ShiftedBy t.topv (q.encode (unnumbered t)).1 (q.encode t).1 ∧ (q.encode t).2 = onTopOf t (q.encode (unnumbered t)).2 := by
  obtain ⟨h1, h2⟩ := (q.shC ht).2 _ _ (unnumbered_moved t) ha
  refine ⟨?_, h1.eq⟩
  revert h2
  cases (q.encode (unnumbered t)).1 <;> cases (q.encode t).1
  · exact id
  · exact id
  · exact id
  · exact fun h => ⟨h.sem, h.con, h.tv.2⟩

/-- C81: between closed queries, that is outside of all scopes, the encoding without numbers is the one in a new context. -/
theorem C81_new_context (q : Query) {t : Ctx} (hs : t.scopes = []) (hv : t.vars = []) (ht : 0 ≤ t.topv)
    (ha : ApartFrom t (q.encode (BasicQContext t.dim t.nodes)).2) :
    ShiftedBy t.topv (q.encode (BasicQContext t.dim t.nodes)).1 (q.encode t).1 ∧
      (q.encode t).2 = onTopOf t (q.encode (BasicQContext t.dim t.nodes)).2 := by
  have e : unnumbered t = BasicQContext t.dim t.nodes := by
    cases t
    subst hs hv
    rfl
  rw [← e] at ha ⊢
  exact C81_shift q ht ha

/-- C81: the models of the shifted CNF are those of the other, with shifted variables. -/
theorem C81_models (q : Query) {t : Ctx} (ht : 0 ≤ t.topv) {c : CNF} {s' : Ctx} (e : q.encode (unnumbered t) = (.ok c, s'))
    (ha : ApartFrom t s') :
    ∃ c', (q.encode t).1 = .ok c' ∧ (∀ β, Models β c' ↔ Models (fun v => β (v + t.topv.toNat)) c) ∧ (Satisfiable c' ↔ Satisfiable c) := by
  obtain ⟨h, -⟩ := C81_shift q ht (by rw [e]; exact ha)
  rw [e] at h
  have hvm : VMok (unnumbered t) :=
    ⟨Int.le_refl 0, fun _ _ h => (by cases h), fun _ _ _ h => (by cases h)⟩
  have hw := (q.tame.res (unnumbered t) c hvm (by rw [e])).1
  cases hc : (q.encode t).1 with
  | error er => rw [hc] at h; exact h.elim
  | ok c' =>
    rw [hc] at h
    obtain ⟨h1, h2, -⟩ := h
    have hm : ∀ β, Models β c' ↔ Models (fun v => β (v + t.topv.toNat)) c := by
      intro β
      unfold Models SemTrue ConTrue
      rw [h1, h2, shiftClauses_true ht hw.sNonZero, shiftClauses_true ht hw.cNonZero]
    refine ⟨c', rfl, hm, fun ⟨β, hb⟩ => ⟨_, (hm β).1 hb⟩, fun ⟨β, hb⟩ => ⟨fun v => β (v - t.topv.toNat), (hm _).2 ?_⟩⟩
    simpa using hb

/-- Some node subsumes `y`, which is not full. -/
def shiftQuery : Query :=
  .withVar ['y'] (.withVar ['z'] (.and (.atom (.isnode (.var ['z']) (some VarGenNodeReach)))
    (.not (.or (.atom (.full (.var ['y']))) (.not (.atom (.subs (.var ['z']) (.var ['y']))))))))

/-- A context of `exNodes` in which a query about `x` was encoded. -/
def usedCtx : Ctx := ((Query.withVar ['x'] (.not (.atom (.full (.var ['x']))))).encode (BasicQContext 2 exNodes)).2

theorem usedCtx_apart : usedCtx.scopes = [] ∧ usedCtx.vars = [] ∧ usedCtx.topv = 7 ∧
    ∀ p ∈ usedCtx.vmap, mapGet (shiftQuery.encode (BasicQContext 2 exNodes)).2.vmap p.1 = none := by decide +kernel

/-- Concrete case of C81: the query about `y` and `z` is encoded in the context in which one about `x` was encoded before. -/
example : ShiftedBy 7 (shiftQuery.encode (BasicQContext 2 exNodes)).1 (shiftQuery.encode usedCtx).1 ∧
    (match (shiftQuery.encode (BasicQContext 2 exNodes)).1, (shiftQuery.encode usedCtx).1 with
      | .ok c, .ok c' => decide (c.sClauses ≠ c'.sClauses ∧ c'.tv = c.tv + 7 ∧ 0 < c.tv)
      | _, _ => false) = true := by
  refine ⟨?_, by decide +kernel⟩
  obtain ⟨h1, h2, h3, h4⟩ := usedCtx_apart
  have hd : usedCtx.dim = 2 ∧ usedCtx.nodes = exNodes := by decide +kernel
  have := (C81_new_context shiftQuery h1 h2 (by rw [h3]; decide) (by rw [hd.1, hd.2]; exact apartFrom_of h4)).1
  rwa [h3, hd.1, hd.2] at this

/-- With a triple that already has a number the claim is false: the same variable declared again has no consistency clauses. -/
theorem C81_shared_names :
    let q : Query := .withVar ['x'] (.atom (.full (.var ['x'])))
    let t := (q.encode (BasicQContext 2 exNodes)).2
    ¬ ShiftedBy t.topv (q.encode (unnumbered t)).1 (q.encode t).1 ∧ ¬ ApartFrom t (q.encode (unnumbered t)).2 := by
  intro q t
  constructor
  · have h : (match (q.encode (unnumbered t)).1, (q.encode t).1 with
      | .ok c, .ok c' => decide (c'.cClauses = shiftClauses t.topv c.cClauses)
      | .error _, .error _ => true
      | _, _ => false) = false := by decide +kernel
    revert h
    cases (q.encode (unnumbered t)).1 <;> cases (q.encode t).1
    · exact fun h _ => by cases h
    · exact fun _ h => h
    · exact fun _ h => h
    · exact fun h h' => by simp [h'.2.1] at h
  · intro h
    have := h ⟨['x'], 0, BOT⟩
    revert this
    decide +kernel

end Goexpdt.Props

import Verif.Lemmas.Calls
import Verif.Props.Encode
/-
C58: encodings and the memory behind slices. C08 is false for CNFs that are used twice; the library does
not use any CNF twice, so its encodings mean what they would mean with immutable values.
-/
namespace Goexpdt.Props
open Goexpdt Goexpdt.Spec Goexpdt.Alias

/-- C58: any number of encodings, of any queries in any contexts. Whatever `append` allocates, whatever spare capacity
the slices of clauses have and however the predicates cut their lists of clauses, what the memory holds at the end as
the result of each encoding is the CNF of the model with immutable values, and the contexts and the errors are the same. -/
theorem C58_encodings_undisturbed (A : Policy) (jobs : List (Ctx × Query)) :
    let r := encodeAll A jobs []
    let mem := run A.grow r.2
    r.1.map (fun x => (x.1.map (fun i => mem.vals[i]?.map mem.h.cnf), x.2)) =
      jobs.map (fun j => ((j.2.encode j.1).1.map some, (j.2.encode j.1).2)) := by
  obtain ⟨H, h1, h2⟩ := encodeAll_held (A := A) jobs Held.nil
  rw [List.append_nil] at h2
  refine h1.results fun p hp => ?_
  obtain ⟨v, e1, e2⟩ := h2.memory A.grow hp
  simp only [e1, e2, Option.map_some]

/-- C58: the calls are such that every result of package cnf is used at most once, and only after it has been
computed. -/
theorem C58_linear (A : Policy) (jobs : List (Ctx × Query)) :
    let ops := (encodeAll A jobs []).2
    Linear ops ∧ ∀ k (h : k < ops.length), ∀ u ∈ Op.uses ops[k], u < k := by
  obtain ⟨H, _, h2⟩ := encodeAll_held (A := A) jobs Held.nil
  exact ⟨h2.sane.linear, h2.sane.earlier⟩

/-- Go's policy, two spare places in every clause and list of clauses, and lists of clauses appended in two parts. -/
def exPolicy : Policy where
  grow := doubling
  spare _ k := k % 3
  room _ := 2
  cut _ cls := [cls.take 2, cls.drop 2]
  cut_all _ cls := by simp

/-- Two encodings, the second one in the context that the first one leaves. -/
def exJobs : List (Ctx × Query) :=
  [(BasicQContext 2 exNodes, exQuery), ((exQuery.encode (BasicQContext 2 exNodes)).2, .or exQuery exQuery)]

/-- They make more than fifty calls and succeed. -/
example : 50 < (encodeAll exPolicy exJobs []).2.length ∧
    (encodeAll exPolicy exJobs []).1.map (fun x => match x.1 with | .ok _ => true | .error _ => false) = [true, true] := by
  decide +kernel

/-- A component of the user's that returns a CNF which it has computed once, as call 0. -/
def cachedComp : HM Nat := pure 0

/-- C58 does not extend to components that return the same CNF twice. A component with `1` as its clause (and room for
one more) is used on both sides of `And{And{c, 2}, And{c, 3}}`. The result has lost the clause `2`, for
every allocation policy. -/
theorem C58_cached_component_refuted (g : Grow) (s : Ctx) :
    let r := andCalls (andCalls cachedComp (HM.call (.fromClauses [([2], 0)] 0)))
      (andCalls cachedComp (HM.call (.fromClauses [([3], 0)] 0))) s [.fromClauses [([1], 0)] 1]
    ∃ i v c, r.1 = .ok i ∧ (run g r.2.2).vals[i]? = some v ∧ (pureRun r.2.2)[i]? = some c ∧
      (∃ β : Val, β 2 = false ∧ Models β ((run g r.2.2).h.cnf v)) ∧ (∀ β : Val, Models β c → β 2 = true) := by
  intro r
  have e0 : r.2.2 = [Op.fromClauses [([1], 0)] 1, .fromClauses [([2], 0)] 0, .conjunction 0 1,
    .fromClauses [([3], 0)] 0, .conjunction 0 3, .conjunction 2 4] := rfl
  have e1 : (run g r.2.2).vals[5]?.map (run g r.2.2).h.cnf = some { tv := 3, sClauses := [[1], [3], [1], [3]] } := by
    rw [e0]
    simp [Alias.run, step, Heap.newClauses, Heap.newInts, goNew, Heap.newOuts, Heap.fromClauses, Heap.start,
      Heap.clauses, Heap.hdrs, Heap.clause, view, Heap.conjunction, Heap.appendSemantics, Heap.appendConsistency,
      Heap.appendOuts, goAppend, nilSl, Heap.cnf, maxInt]
    decide +kernel
  have e2 : (pureRun r.2.2)[5]? = some { tv := 3, sClauses := [[1], [2], [1], [3]] } := by
    rw [e0]; decide +kernel
  obtain ⟨v, e1, e3⟩ := Option.map_eq_some_iff.mp e1
  refine ⟨5, v, _, rfl, e1, e2, ⟨fun n => n != 2, rfl, ?_⟩, ?_⟩
  · rw [e3]; decide
  · intro β h
    simp [Models, SemTrue, ConTrue, clausesTrue, clauseTrue, litTrue] at h
    exact h.2.1

end Goexpdt.Props

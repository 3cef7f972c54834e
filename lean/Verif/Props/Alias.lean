import Verif.Lemmas.Alias
import Verif.Spec.Sat
/-
C08: CNF values and the memory behind their slices. The property as stated does not hold: two results
derived from one CNF can share an array, and the second `append` overwrites what the first one wrote.
It holds for histories in which every result is used as an operand at most once.
-/
namespace Goexpdt.Props
open Goexpdt Goexpdt.Spec Goexpdt.Alias

/-- C08, full statement: at the end of every history, whatever `append` allocates, all results are what they
would be if values were immutable. -/
def OperandsUndisturbed : Prop :=
  ∀ g ops, (run g ops).vals.map (run g ops).h.cnf = pureRun ops

/-- C08, for histories that use every result at most once as an operand: for all allocation policies,
all spare capacities of the slices given by the user and all histories, all results (the used ones
too) are at the end what they would be if values were immutable. Missing: results used twice, for which the
claim is false (below). -/
theorem C08_linear_partial (g : Grow) (ops : List Op) (hl : Linear ops) :
    (run g ops).vals.map (run g ops).h.cnf = pureRun ops := by
  obtain ⟨u, _, _, _, _, _, _, _, _, h⟩ := sound_run (g := g) ops sound_start hl (by simp)
  exact h

/-- Go's `append` for small slices of pointers or ints, without its rounding to size classes: the
capacity is doubled if that suffices. -/
def doubling : Grow := fun cap need => if 2 * cap < need then need else 2 * cap

/-- A history with all operations, spare capacities and two levels of negation, used linearly. -/
def exLinear : List Op :=
  [.fromClauses [([1, 2], 3), ([-3], 0), ([2, 3, -4], 1)] 2, .negate 0 (some 6),
    .falseCNF, .conjunction 1 2, .falseCNF, .appendSemantics 4 [([5, 6], 1)],
    .fromClauses [([1, -2], 1), ([2, 3], 0), ([4], 2)] 0, .negate 6 none, .negate 7 none,
    .conjunction 8 5, .appendConsistency 9 [([7], 1)], .zero, .negate 11 none, .conjunction 10 12]

/-- `exLinear` is linear, and its results are distinct and not trivial. -/
example : Linear exLinear ∧ (pureRun exLinear).length = 14 ∧ (pureRun exLinear).Nodup = False ∧
    (pureRun exLinear)[8]?.map (fun c => c.cClauses.length) = some 10 ∧
    (run doubling exLinear).vals.map (run doubling exLinear).h.cnf = pureRun exLinear := by
  refine ⟨by decide +kernel, by decide +kernel, ?_, by decide +kernel, by decide +kernel⟩
  simp only [eq_iff_iff, iff_false]; decide +kernel

theorem run_append (g : Grow) (ops more : List Op) :
    run g (ops ++ more) = more.foldl (step g) (run g ops) := List.foldl_append

/-- C08, same restriction: a result keeps its meaning and clauses for the rest of the history. -/
theorem C08_unchanged_partial (g : Grow) (ops more : List Op) (hl : Linear (ops ++ more)) (i : Nat) (v : HCNF)
    (hv : (run g ops).vals[i]? = some v) :
    (run g (ops ++ more)).vals[i]? = some v ∧
      (run g (ops ++ more)).h.cnf v = (run g ops).h.cnf v := by
  have hvals : ∀ (more : List Op) st, st.vals <+: (more.foldl (step g) st).vals := by
    intro more
    induction more with
    | nil => intro st; exact List.prefix_refl _
    | cons op more ih =>
      intro st
      refine List.IsPrefix.trans ?_ (ih (step g st op))
      cases op <;> simp only [step] <;>
        first
        | exact List.prefix_append _ _
        | (split <;> first | exact List.prefix_append _ _ | exact List.prefix_refl _)
  have hp := hvals more (run g ops)
  rw [← run_append] at hp
  have hv' : (run g (ops ++ more)).vals[i]? = some v := by
    obtain ⟨t, ht⟩ := hp
    rw [← ht, List.getElem?_append_left (List.getElem?_eq_some_iff.mp hv).1, hv]
  have hpp : ∀ (more : List Op) vs, vs <+: more.foldl pureStep vs := by
    intro more
    induction more with
    | nil => intro st; exact List.prefix_refl _
    | cons op more ih =>
      intro st
      refine List.IsPrefix.trans ?_ (ih (pureStep st op))
      cases op <;> simp only [pureStep] <;>
        first
        | exact List.prefix_append _ _
        | (split <;> first | exact List.prefix_append _ _ | exact List.prefix_refl _)
  have hl1 : Linear ops := by
    unfold Linear at hl ⊢
    rw [List.flatMap_append] at hl
    exact (List.nodup_append.mp hl).1
  have e1 : (pureRun ops)[i]? = some ((run g ops).h.cnf v) := by
    rw [← C08_linear_partial g ops hl1, List.getElem?_map, hv]; rfl
  have e2 : (pureRun (ops ++ more))[i]? = some ((run g (ops ++ more)).h.cnf v) := by
    rw [← C08_linear_partial g _ hl, List.getElem?_map, hv']; rfl
  have e3 : (pureRun (ops ++ more))[i]? = (pureRun ops)[i]? := by
    obtain ⟨t, ht⟩ := hpp more (pureRun ops)
    have : pureRun (ops ++ more) = more.foldl pureStep (pureRun ops) := List.foldl_append
    rw [this, ← ht, List.getElem?_append_left (List.getElem?_eq_some_iff.mp e1).1]
  refine ⟨hv', ?_⟩
  rw [e2, e1] at e3
  exact Option.some.inj e3

/-- Result 6 of `exLinear` is negated in the next call, and two of its clauses have spare capacity. -/
example : Linear (exLinear.take 7 ++ exLinear.drop 7) ∧
    ((run doubling (exLinear.take 7)).vals[6]?).map (fun v => v.s) = some ⟨8, 3, 3⟩ := by
  decide +kernel

/-- C08 is false: two clauses appended to one CNF whose list of clauses has room for one more. The
first result loses its clause and has the clause of the second one instead. For every allocation policy. -/
theorem C08_append_twice_refuted (g : Grow) :
    let ops := [Op.fromClauses [([1], 0)] 1, .appendSemantics 0 [([2], 0)]]
    let more := [Op.appendSemantics 0 [([-2], 0)]]
    ∃ v, (run g ops).vals[1]? = some v ∧ ((run g ops).h.cnf v).sClauses = [[1], [2]] ∧
      ((run g (ops ++ more)).h.cnf v).sClauses = [[1], [-2]] :=
  ⟨_, rfl, rfl, rfl⟩

/-- The same for `AppendConsistency` of CNFs that only the library has allocated, with Go's allocation policy: the third
clause appended leaves room for a fourth. -/
theorem C08_consistency_twice_refuted :
    let ops := [Op.zero, .appendConsistency 0 [([1], 0)], .appendConsistency 1 [([2], 0)],
      .appendConsistency 2 [([3], 0)], .appendConsistency 3 [([4], 0)]]
    let more := [Op.appendConsistency 3 [([-4], 0)]]
    ∃ v, (run doubling ops).vals[4]? = some v ∧
      ((run doubling ops).h.cnf v).cClauses = [[1], [2], [3], [4]] ∧
      ((run doubling (ops ++ more)).h.cnf v).cClauses = [[1], [2], [3], [-4]] :=
  ⟨_, rfl, rfl, rfl⟩

/-- C08 is false for negations: `c` is the clause `1 ∨ 2` with room for a third literal, and is negated twice. The
second negation overwrites the auxiliary variable in a clause of the first one. The negation of the
first one, which means `1 ∨ 2`, is then true when 1 and 2 are false. For every allocation policy. -/
theorem C08_negate_twice_refuted (g : Grow) :
    let ops := [Op.fromClauses [([1, 2], 1)] 0, .negate 0 none, .negate 0 (some 10), .negate 1 none]
    ∃ v c, (run g ops).vals[3]? = some v ∧ (pureRun ops)[3]? = some c ∧
      (∃ β : Val, β 1 = false ∧ β 2 = false ∧ Models β ((run g ops).h.cnf v)) ∧
      (∀ β : Val, Models β c → β 1 = true ∨ β 2 = true) := by
  intro ops
  have e1 : (run g ops).vals[3]?.map (run g ops).h.cnf = some
      { tv := 3, sClauses := [[-3]], cClauses := [[-1, -3], [-2, -3], [1, 2, 11]] } := by
    simp [run, ops, step, Heap.newClauses, Heap.newInts, goNew, Heap.newOuts, Heap.fromClauses, Heap.start,
      Heap.clauses, Heap.hdrs, Heap.clause, view, Heap.negate, Heap.tseytinNegation, Heap.tseytinLoop,
      Heap.tseytinClause, Heap.appendInts, Heap.appendOuts, goAppend, nilSl, Heap.cnf, maxVar, maxInt]
    decide +kernel
  have e2 : (pureRun ops)[3]? = some
    { tv := 3, sClauses := [[-3]], cClauses := [[-1, -3], [-2, -3], [1, 2, 3]] } := by decide +kernel
  obtain ⟨v, e1, e3⟩ := Option.map_eq_some_iff.mp e1
  refine ⟨v, _, e1, e2, ⟨fun n => n == 11, rfl, rfl, ?_⟩, ?_⟩
  · rw [e3]; decide
  · intro β h
    simp [Models, SemTrue, ConTrue, clausesTrue, clauseTrue, litTrue] at h
    grind

/-- C08, as stated, is false. -/
theorem C08_refuted : ¬ OperandsUndisturbed := by
  intro h
  have := h (fun _ n => n) [.fromClauses [([1], 0)] 1, .appendSemantics 0 [([2], 0)], .appendSemantics 0 [([-2], 0)]]
  revert this
  decide +kernel

end Goexpdt.Props

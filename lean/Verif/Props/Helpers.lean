import Verif.Lemmas.Helpers
import Verif.Model.Walk
import Verif.Props.LogOp
/-
C72, C73: what the helpers of the repository's tests check.
-/
namespace Goexpdt.Props
open Goexpdt Spec Helpers

/-! ### C72 -/

/-- Literals of clauses in tests: numbers of variables are small. -/
def SmallLits (cs : List Clause) : Prop := ∀ c ∈ cs, ∀ v ∈ c, -55296 < v ∧ v < 55296

/-- C72, exactly what the comparison accepts: as many clauses, and for every clause of the first list one of the second that has
the same literals in the same order, except that all negative literals are the same to it. -/
theorem C72_exactly (cs1 cs2 : List Clause) (h1 : SmallLits cs1) (h2 : SmallLits cs2) :
    equalClauseSlice cs1 cs2 = true ↔ cs1.length = cs2.length ∧ ∀ c ∈ cs1, ∃ c' ∈ cs2, c.length = c'.length ∧
      ∀ i (h : i < c.length) (h' : i < c'.length), c[i] = c'[i] ∨ (c[i] < 0 ∧ c'[i] < 0) := by
  have key : ∀ c ∈ cs1, ∀ c' ∈ cs2, (clauseId c' = clauseId c ↔ c.length = c'.length ∧
      ∀ i (h : i < c.length) (h' : i < c'.length), c[i] = c'[i] ∨ (c[i] < 0 ∧ c'[i] < 0)) := by
    intro c hc c' hc'
    rw [eq_comm, clauseId_eq]
    refine and_congr_right fun hl => ⟨fun h i hi hi' => ?_, fun h => ?_⟩
    · have := congrArg (fun l => l[i]?) h
      simp only [List.getElem?_map, List.getElem?_eq_getElem hi, List.getElem?_eq_getElem hi', Option.map_some, Option.some.injEq] at this
      exact (rune_eq (h1 c hc _ (List.getElem_mem hi)) (h2 c' hc' _ (List.getElem_mem hi'))).1 this
    · refine List.ext_getElem (by simpa using hl) fun i hi hi' => ?_
      simp only [List.length_map] at hi hi'
      simp only [List.getElem_map]
      exact (rune_eq (h1 c hc _ (List.getElem_mem hi)) (h2 c' hc' _ (List.getElem_mem hi'))).2 (h i hi hi')
  unfold equalClauseSlice
  by_cases hl : cs1.length = cs2.length
  · rw [if_neg (by simpa using hl)]
    simp only [List.all_map, List.all_eq_true, Function.comp, List.contains_iff_mem, List.mem_map, hl, true_and]
    refine forall_congr' fun c => forall_congr' fun hc => exists_congr fun c' => and_congr_right fun hc' => key c hc c' hc'
  · rw [if_pos hl]
    simp [hl]

/-- As many clauses, and every clause of the first list is in the second one, up to the numbers of negative literals. -/
def Alike (cs1 cs2 : List Clause) : Prop :=
  cs1.length = cs2.length ∧ ∀ c ∈ cs1, ∃ c' ∈ cs2, c.length = c'.length ∧
    ∀ i (h : i < c.length) (h' : i < c'.length), c[i] = c'[i] ∨ (c[i] < 0 ∧ c'[i] < 0)

/-- C72: `ValidClauses` accepts exactly if the clauses of the formula are alike and the consistency clauses are alike. -/
theorem C72_valid (sc cc esc ecc : List Clause) (h : SmallLits sc ∧ SmallLits cc ∧ SmallLits esc ∧ SmallLits ecc) :
    validClauses sc cc esc ecc = true ↔ Alike sc esc ∧ Alike cc ecc := by
  unfold validClauses Alike
  rw [Bool.and_eq_true_iff, C72_exactly _ _ h.1 h.2.2.1, C72_exactly _ _ h.2.1 h.2.2.2]

/-- Concrete case: a difference in either is noticed. -/
example : validClauses [[1], [2]] [[3]] [[2], [1]] [[3]] = true ∧ validClauses [[1], [2]] [[3]] [[2], [1]] [[4]] = false ∧
    validClauses [[1], [2]] [[3]] [[2], [3]] [[3]] = false := by decide

/-- C72: no false alarm: lists with the same clauses, in any order, are accepted, whatever the literals. -/
theorem C72_accepts (cs1 cs2 : List Clause) (h : cs1.Perm cs2) : equalClauseSlice cs1 cs2 = true := by
  unfold equalClauseSlice
  rw [if_neg (by simpa using h.length_eq)]
  simp only [List.all_map, List.all_eq_true, Function.comp, List.contains_iff_mem, List.mem_map]
  exact fun c hc => ⟨c, h.mem_iff.1 hc, rfl⟩

/-- C72 holds if there are no negative literals and no clause is given twice in the first list: then it accepts exactly the lists
with the same clauses. Missing for the full claim: negative literals, and repeated clauses. -/
theorem C72_partial (cs1 cs2 : List Clause) (h1 : SmallLits cs1) (h2 : SmallLits cs2) (hp : ∀ c ∈ cs1, ∀ v ∈ c, 0 ≤ v)
    (hn : cs1.Nodup) : equalClauseSlice cs1 cs2 = true ↔ cs1.Perm cs2 := by
  refine ⟨fun h => ?_, C72_accepts cs1 cs2⟩
  obtain ⟨hl, hc⟩ := (C72_exactly cs1 cs2 h1 h2).1 h
  refine perm_of_subset _ _ hn (fun c hm => ?_) (by omega)
  obtain ⟨c', hm', hl', hv⟩ := hc c hm
  have : c = c' := List.ext_getElem hl' fun i hi hi' => by
    rcases hv i hi hi' with h | h
    · exact h
    · have := hp c hm _ (List.getElem_mem hi); omega
  rw [this]; exact hm'

/-- C72 refuted: a CNF whose negative literals have wrong variables passes. The first list says that the two variables have the
same value, the second one only that variable 1 implies variable 2. -/
theorem C72_negative_refuted : equalClauseSlice [[-1, 2], [-2, 1]] [[-1, 2], [-1, 1]] = true ∧
    ¬ [[-1, 2], [-2, 1]].Perm ([[-1, 2], [-1, 1]] : List Clause) ∧
    validClauses [[-3]] [] [[-7]] [] = true := by decide

/-- C72 refuted: of clauses that occur several times others can be missing; the comparison looks in one direction only. -/
theorem C72_repeated_refuted : equalClauseSlice [[1], [1]] [[1], [2]] = true ∧
    equalClauseSlice [[1], [2]] [[1], [1]] = false := by decide

/-- The order of literals matters to the comparison, though not to the meaning. -/
example : equalClauseSlice [[1, 2]] [[2, 1]] = false := by decide

example : SmallLits [[1, 2], [3]] ∧ [[1, 2], [3]].Nodup ∧ equalClauseSlice [[1, 2], [3]] [[3], [1, 2]] = true ∧
    equalClauseSlice [[1, 2], [3]] [[3], [1, 3]] = false := by
  refine ⟨?_, by decide⟩
  intro c hc v hv
  simp at hc
  rcases hc with rfl | rfl <;> simp at hv <;> omega

/-! ### C73 -/

/-- C73, exactly what `NewMockTree` accepts: all features, also those of leaves, are features of the model. -/
theorem C73_exactly (dim : Int) (nodes : List Node) :
    (∃ t, newMockTree dim nodes = .ok t) ↔ ∀ n ∈ nodes, 0 ≤ n.feat ∧ n.feat < dim := by
  unfold newMockTree
  by_cases h : nodes.any (mockNodeInvalid dim) = true
  · rw [if_pos h]
    simp only [List.any_eq_true, mockNodeInvalid, Bool.or_eq_true, decide_eq_true_eq] at h
    obtain ⟨n, hn, hx⟩ := h
    refine ⟨(fun ⟨_, h⟩ => nomatch h), fun h => ?_⟩
    have := h n hn
    omega
  · rw [if_neg h]
    simp only [List.any_eq_true, mockNodeInvalid, Bool.or_eq_true, decide_eq_true_eq, not_exists, not_and] at h
    refine ⟨fun _ n hn => ?_, fun _ => ⟨_, rfl⟩⟩
    have := h n hn
    omega

/-- C73: models that validation accepts and whose leaves have a feature of the model are accepted, and kept as they are. -/
theorem C73_accepts_partial (dim : Nat) (nodes : List Node) (w : WalkSt) (h : newNodeAsValuesIter dim nodes = .ok w)
    (hl : ∀ n ∈ nodes, n.childless = true → 0 ≤ n.feat ∧ n.feat < dim) : newMockTree dim nodes = .ok ((dim : Int), nodes) := by
  have h' : ∃ t, newMockTree dim nodes = .ok t := (C73_exactly dim nodes).2 fun n hn => by
    by_cases hc : n.childless = true
    · exact hl n hn hc
    · obtain ⟨i, hi⟩ := List.mem_iff_getElem?.1 hn
      simp only [Bool.not_eq_true] at hc
      have := (newIter_ok h).2.1 i n hi hc
      exact ⟨this.1, this.2.1⟩
  obtain ⟨t, ht⟩ := h'
  unfold newMockTree at ht ⊢
  split at ht
  · cases ht
  · next hx => rw [if_neg hx]

/-- C73 refuted: a node whose child does not exist is accepted: the condition on features is tested twice instead of one on
children. Encoding a quantifier over this model fails. -/
theorem C73_refuted : ∃ nodes : List Node, newMockTree 1 nodes = .ok (1, nodes) ∧
    (∃ m, newNodeAsValuesIter 1 nodes = .error (.msg m)) := ⟨[⟨false, 0, 5, 5⟩], rfl, _, rfl⟩

example : newNodeAsValuesIter 2 [⟨false, 0, 1, 2⟩, ⟨false, 1, -1, -1⟩, ⟨true, 0, -1, -1⟩] = .ok (WalkSt.init 2 3) ∧
    newMockTree 2 [⟨false, 0, 1, 2⟩, ⟨false, 1, -1, -1⟩, ⟨true, 0, -1, -1⟩] = .ok (2, [⟨false, 0, 1, 2⟩, ⟨false, 1, -1, -1⟩, ⟨true, 0, -1, -1⟩]) :=
  have h : newNodeAsValuesIter 2 [⟨false, 0, 1, 2⟩, ⟨false, 1, -1, -1⟩, ⟨true, 0, -1, -1⟩] = .ok (WalkSt.init 2 3) := by decide
  ⟨h, C73_accepts_partial 2 _ _ h (by simp [Node.childless])⟩

/-! ### Trivial -/

/-- C19 for the component of the tests: `Trivial(t)` means `t`, in every context. -/
theorem C19_trivial {W : World} {Γ : List QVar} {stack : List Scope} (t : Bool) :
    Captures W Γ stack (Helpers.trivial t) (fun _ => t = true) := by
  cases t with
  | true => exact Captures.retTrue.congr fun _ => by simp
  | false => exact Captures.retFalse.congr fun _ => by simp

/-- The operators over it, as in query/logop/*_test.go. -/
example {W : World} {Γ : List QVar} {stack : List Scope} (a b : Bool) :
    Captures W Γ stack (encOr (some (encNot (some (Helpers.trivial a)))) (some (encAnd (some (Helpers.trivial a)) (some (Helpers.trivial b)))))
      (fun _ => (!a || b) = true) :=
  (C19_or (C19_not (C19_trivial a)) (C19_and (C19_trivial a) (C19_trivial b))).congr fun _ => by cases a <;> cases b <;> simp

end Goexpdt.Props

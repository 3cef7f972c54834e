import Verif.Spec.Sat
import Verif.Model.Query
/- A search that shows that clauses cannot be satisfied (used for concrete counterexamples). -/
namespace Goexpdt
open Spec

/-- The clauses after literal `l` has been made true. -/
def assign (l : Int) (cs : List Clause) : List Clause :=
  (cs.filter fun c => !c.contains l).map fun c => c.filter fun k => k != -l

/-- A shortest clause. -/
def shortest : List Clause → Clause
  | [] => []
  | [c] => c
  | c :: cs => let b := shortest cs; if b.length < c.length then b else c

/-- Branch on the first literal of a shortest clause; `true` if every branch ends with an empty
clause. -/
def refute : Nat → List Clause → Bool
  | 0, _ => false
  | n + 1, cs =>
    if cs.contains [] then true
    else match shortest cs with
      | [] => false
      | l :: _ => refute n (assign l cs) && refute n (assign (-l) cs)

theorem litTrue_neg {β : Val} {l : Int} (h0 : l ≠ 0) : litTrue β (-l) ↔ ¬ litTrue β l := by
  unfold litTrue
  rw [Int.natAbs_neg]
  by_cases h : l > 0
  · rw [if_neg (by omega : ¬ -l > 0), if_pos h]; simp
  · rw [if_pos (by omega : -l > 0), if_neg h]; simp

theorem nonZero_assign {l : Int} {cs : List Clause} (h : NonZero cs) : NonZero (assign l cs) := by
  intro c hc k hk
  simp only [assign, List.mem_map, List.mem_filter] at hc
  obtain ⟨c', ⟨hc', -⟩, rfl⟩ := hc
  exact h c' hc' k (List.mem_filter.1 hk).1

theorem assign_true {β : Val} {l : Int} {cs : List Clause} (h0 : l ≠ 0) (hl : litTrue β l) (h : clausesTrue β cs) :
    clausesTrue β (assign l cs) := by
  intro c hc
  simp only [assign, List.mem_map, List.mem_filter] at hc
  obtain ⟨c', ⟨hc', -⟩, rfl⟩ := hc
  obtain ⟨k, hk, ht⟩ := h c' hc'
  refine ⟨k, List.mem_filter.2 ⟨hk, ?_⟩, ht⟩
  simp only [bne_iff_ne, ne_eq]
  rintro rfl
  exact (litTrue_neg h0).1 ht hl

theorem shortest_mem {cs : List Clause} (h : shortest cs ≠ []) : shortest cs ∈ cs := by
  induction cs with
  | nil => exact absurd rfl h
  | cons c cs ih =>
    cases cs with
    | nil => simp [shortest]
    | cons c' cs =>
      simp only [shortest] at h ⊢
      split
      · next hlt =>
        rw [if_pos hlt] at h
        exact List.mem_cons_of_mem _ (ih h)
      · simp

theorem refute_sound {n : Nat} : ∀ {cs : List Clause}, NonZero cs → refute n cs = true → ∀ β, ¬ clausesTrue β cs := by
  induction n with
  | zero => intro cs _ h; simp [refute] at h
  | succ n ih =>
    intro cs h0 h β hβ
    unfold refute at h
    split at h
    · next hc =>
      obtain ⟨l, hl, -⟩ := hβ [] (by simpa using hc)
      simp at hl
    · split at h
      · simp at h
      · next l c hs =>
        have hm : (l :: c) ∈ cs := by rw [← hs]; exact shortest_mem (by rw [hs]; simp)
        have hl0 : l ≠ 0 := h0 _ hm l (by simp)
        simp only [Bool.and_eq_true] at h
        by_cases hl : litTrue β l
        · exact ih (nonZero_assign h0) h.1 β (assign_true hl0 hl hβ)
        · exact ih (nonZero_assign h0) h.2 β (assign_true (by omega) ((litTrue_neg hl0).2 hl) hβ)

/-- The CNF is refuted by the search. -/
def refuted (n : Nat) (c : CNF) : Bool :=
  decide (NonZero (c.sClauses ++ c.cClauses)) && refute n (c.sClauses ++ c.cClauses)

theorem unsat_of_refuted {n : Nat} {c : CNF} (h : refuted n c = true) : ¬ Satisfiable c := by
  simp only [refuted, Bool.and_eq_true, decide_eq_true_eq] at h
  rintro ⟨β, h1, h2⟩
  refine refute_sound h.1 h.2 β ?_
  intro cl hcl
  rcases List.mem_append.1 hcl with hc | hc
  · exact h1 cl hc
  · exact h2 cl hc

/-- A result that is a CNF refuted by the search. -/
def refutedResult (n : Nat) (r : Except Err CNF × Ctx) : Bool :=
  match r.1 with
  | .ok c => refuted n c
  | _ => false

end Goexpdt

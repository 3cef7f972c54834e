import Verif.Lemmas.CNF
import Verif.Spec.State
import Verif.Spec.Built
/- The invariant of CNF values built through the API. -/
namespace Goexpdt
open Spec

theorem WF.empty : WF {} := ⟨by simp, by simp, by simp, by simp, by simp⟩

theorem WF.appendSemantics {c : CNF} (h : WF c) {cls : List Clause} (hc : NonZero cls) :
    WF (c.appendSemantics cls) := by
  have h0 := h.tv_nonneg
  refine ⟨?_, ?_, ?_, ?_, h.cNonZero⟩ <;> simp only [CNF.appendSemantics, maxInt_eq]
  · omega
  · exact boundedBy_append.2 ⟨h.sBound.mono (by omega), (boundedBy_maxVar cls).mono (by omega)⟩
  · exact h.cBound.mono (by omega)
  · exact nonZero_append.2 ⟨h.sNonZero, hc⟩

theorem WF.appendConsistency {c : CNF} (h : WF c) {cls : List Clause} (hc : NonZero cls) :
    WF (c.appendConsistency cls) := by
  have h0 := h.tv_nonneg
  refine ⟨?_, ?_, ?_, h.sNonZero, ?_⟩ <;> simp only [CNF.appendConsistency, maxInt_eq]
  · omega
  · exact h.sBound.mono (by omega)
  · exact boundedBy_append.2 ⟨h.cBound.mono (by omega), (boundedBy_maxVar cls).mono (by omega)⟩
  · exact nonZero_append.2 ⟨h.cNonZero, hc⟩

theorem WF.conjunction {c d : CNF} (h : WF c) (hd : WF d) : WF (c.conjunction d) := by
  unfold CNF.conjunction
  exact (h.appendSemantics hd.sNonZero).appendConsistency hd.cNonZero

theorem WF.fromClauses {cls : List Clause} (h : NonZero cls) : WF (FromClauses cls) :=
  ⟨maxVar_nonneg cls, boundedBy_maxVar cls, by simp [FromClauses], h, by simp [FromClauses]⟩

theorem le_negTop (c : CNF) (o : Option Int) : c.tv ≤ negTop c o := by
  unfold negTop; split <;> omega

theorem WF.negate {c : CNF} (h : WF c) (o : Option Int) : WF (c.negate o) := by
  obtain ⟨new, h1, h2, h3, h4, h5, h6, h7, h8⟩ := negate_spec c o h.tv_nonneg h.sNonZero
  have := h.tv_nonneg
  have ht := le_negTop c o
  have hb : BoundedBy (c.negate o).tv ((c.negate o).sClauses ++ new) := by
    intro cl hcl l hl
    rcases h6 cl hcl l hl with h | ⟨c', hc', h' | h'⟩
    · exact h.2
    · have := h.sBound c' hc' l h'; omega
    · have := h.sBound c' hc' _ h'; omega
  rw [boundedBy_append] at hb
  refine ⟨by omega, hb.1, ?_, h4, ?_⟩
  · rw [h1]; exact boundedBy_append.2 ⟨h.cBound.mono (by omega), hb.2⟩
  · rw [h1]; exact nonZero_append.2 ⟨h.cNonZero, h5⟩

theorem Spec.Built.wf {c : CNF} (h : Built c) : WF c := by
  induction h with
  | zero => exact .empty
  | trueCNF => exact .empty
  | falseCNF => exact ⟨by decide, by simp [FalseCNF, NegClauses], by simp [FalseCNF],
      by simp [FalseCNF, NegClauses], by simp [FalseCNF]⟩
  | fromClauses cls h => exact .fromClauses h
  | appendSemantics cls _ hc ih => exact ih.appendSemantics hc
  | appendConsistency cls _ hc ih => exact ih.appendConsistency hc
  | conjunction _ _ ih1 ih2 => exact ih1.conjunction ih2
  | negate o _ ih => exact ih.negate o

end Goexpdt

import Verif.Model.Helpers
import Verif.Lemmas.Itoa
/-
Lemmas on the helpers of the tests.
-/
namespace Goexpdt.Helpers
open Goexpdt

theorem itoaNat_length_mono : ∀ n m : Nat, m ≤ n → (itoaNat m).length ≤ (itoaNat n).length := by
  intro n
  induction n using Nat.strongRecOn with
  | ind n ih =>
    intro m h
    by_cases hn : n < 10
    · rw [itoaNat_lt hn, itoaNat_lt (by omega)]; simp
    · rw [itoaNat_ge hn]
      by_cases hm : m < 10
      · rw [itoaNat_lt hm]; simp
      · rw [itoaNat_ge hm]
        have := ih (n / 10) (by omega) (m / 10) (by omega)
        simp only [List.length_append, List.length_cons, List.length_nil]
        omega

theorem clauseId_eq {c c' : Clause} : clauseId c = clauseId c' ↔ c.length = c'.length ∧ c.map rune = c'.map rune := by
  constructor
  · intro h
    have hl := congrArg List.length h
    simp only [clauseId, List.length_append, List.length_map] at hl
    have e : ∀ n : Nat, itoa (n : Int) = itoaNat n := fun n => by simp [itoa]
    rw [e, e] at hl
    have hlen : c.length = c'.length := by
      rcases Nat.lt_trichotomy c.length c'.length with h1 | h1 | h1
      · have := itoaNat_length_mono c'.length c.length (by omega); omega
      · exact h1
      · have := itoaNat_length_mono c.length c'.length (by omega); omega
    refine ⟨hlen, ?_⟩
    unfold clauseId at h
    rw [hlen] at h
    exact List.append_cancel_left h
  · rintro ⟨h1, h2⟩
    unfold clauseId
    rw [h1, h2]

theorem toNat_ofNat {n : Nat} (h : n.isValidChar) : (Char.ofNat n).toNat = n := by
  unfold Char.ofNat
  rw [dif_pos h]
  rfl

theorem rune_nonneg {v : Int} (h0 : 0 ≤ v) (h1 : v < 55296) : (rune v).toNat = v.toNat := by
  have e : v % 4294967296 = v := Int.emod_eq_of_lt h0 (by omega)
  have hv : v.toNat.isValidChar := Or.inl (by omega)
  unfold rune
  simp only [e]
  rw [if_pos hv, toNat_ofNat hv]

theorem rune_neg {v : Int} (h0 : v < 0) (h1 : -55296 < v) : (rune v).toNat = 65533 := by
  have e : v % 4294967296 = v + 4294967296 := by omega
  have hv : ¬ (v % 4294967296).toNat.isValidChar := by
    unfold Nat.isValidChar
    omega
  unfold rune
  simp only
  rw [if_neg hv, toNat_ofNat (by decide)]

theorem rune_eq {v w : Int} (hv : -55296 < v ∧ v < 55296) (hw : -55296 < w ∧ w < 55296) :
    rune v = rune w ↔ v = w ∨ v < 0 ∧ w < 0 := by
  have hinj : rune v = rune w ↔ (rune v).toNat = (rune w).toNat :=
    ⟨fun h => by rw [h], fun h => Char.toNat_inj.1 h⟩
  rw [hinj]
  by_cases h1 : v < 0 <;> by_cases h2 : w < 0
  · rw [rune_neg h1 hv.1, rune_neg h2 hw.1]; simp [h1, h2]
  · rw [rune_neg h1 hv.1, rune_nonneg (by omega) hw.2]; omega
  · rw [rune_nonneg (by omega) hv.2, rune_neg h2 hw.1]; omega
  · rw [rune_nonneg (by omega) hv.2, rune_nonneg (by omega) hw.2]; omega

theorem perm_of_subset {α : Type} [DecidableEq α] : ∀ l1 l2 : List α, l1.Nodup → (∀ a ∈ l1, a ∈ l2) → l2.length ≤ l1.length → l1.Perm l2
  | [], l2, _, _, h => by
    have : l2 = [] := List.eq_nil_of_length_eq_zero (by simpa using h)
    rw [this]
  | a :: l1, l2, hn, hs, h => by
    have ha : a ∈ l2 := hs a (by simp)
    have hp := List.perm_cons_erase ha
    rw [List.nodup_cons] at hn
    refine ((perm_of_subset l1 (l2.erase a) hn.2 (fun b hb => ?_) ?_).cons a).trans hp.symm
    · have hne : b ≠ a := by rintro rfl; exact hn.1 hb
      exact (List.mem_erase_of_ne hne).2 (hs b (by simp [hb]))
    · have := hp.length_eq
      simp at this h
      omega

end Goexpdt.Helpers

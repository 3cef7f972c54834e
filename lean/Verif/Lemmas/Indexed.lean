import Verif.Model.Ext
/- Indices in range. -/
namespace Goexpdt

theorem indexed_ok {is : List Int} {cs : List QConst} (h : ∀ c ∈ cs, ∀ i ∈ is, 0 ≤ i ∧ i < c.val.length) :
    indexed is cs = .ok () := by
  unfold indexed
  rw [if_pos]
  simpa only [List.all_eq_true, decide_eq_true_eq] using h

theorem mem_upto {n : Nat} {i : Int} : i ∈ upto n ↔ 0 ≤ i ∧ i < n := by
  simp only [upto, List.mem_map, List.mem_range]
  constructor
  · rintro ⟨k, hk, rfl⟩; simp only [Int.ofNat_eq_natCast]; omega
  · intro h; exact ⟨i.toNat, by omega, by simp only [Int.ofNat_eq_natCast]; omega⟩

theorem indexed_upto {n : Nat} {cs : List QConst} (h : ∀ c ∈ cs, n ≤ c.val.length) : indexed (upto n) cs = .ok () :=
  indexed_ok fun c hc i hi => by have := h c hc; rw [mem_upto] at hi; omega

/-- Apart from a panic, nothing else can happen. -/
theorem indexed_cases (is : List Int) (cs : List QConst) :
    indexed is cs = .ok () ∨ indexed is cs = .error (.panic "index out of range") := by
  unfold indexed; split <;> simp

theorem pref_range {pref : List Int} {d : Nat} (h : validatePref pref d = .ok ()) : ∀ i ∈ pref, 0 ≤ i ∧ i < d := by
  have key : ∀ (p seen : List Int), validatePrefFrom d seen p = .ok () → ∀ i ∈ p, 0 ≤ i ∧ i < d := by
    intro p
    induction p with
    | nil => intro _ _ i hi; simp at hi
    | cons a p ih =>
      intro seen h
      simp only [validatePrefFrom] at h
      split at h
      · simp at h
      · split at h
        · simp at h
        · intro i hi
          rcases List.mem_cons.mp hi with rfl | hi
          · omega
          · exact ih _ h i hi
  exact key pref [] h

end Goexpdt

import Verif.Lemmas.OptimOrder
/- Preference orders as binary numbers. -/
namespace Goexpdt
open Spec

/-- The features of the preference order read as digits: 1 if defined, the first one is the most significant. -/
def level : List Nat → PInst → Nat
  | [], _ => 0
  | f :: p, e => (if e f = none then 0 else 2 ^ p.length) + level p e

theorem level_lt (p : List Nat) (e : PInst) : level p e < 2 ^ p.length := by
  induction p with
  | nil => simp [level]
  | cons f p ih =>
    simp only [level, List.length_cons, Nat.pow_succ]
    split <;> omega

theorem HEPR_level (p : List Nat) (e1 e2 : PInst) : HEPR p e1 e2 ↔ level p e2 ≤ level p e1 := by
  induction p with
  | nil => exact ⟨fun _ => Nat.le_refl _, fun _ pre f post h => by simp at h⟩
  | cons f p ih =>
    have h1 := level_lt p e1
    have h2 := level_lt p e2
    rw [HEPR_cons, ih]
    simp only [level]
    by_cases hf1 : e1 f = none <;> by_cases hf2 : e2 f = none <;> simp [hf1, hf2]
    · omega
    · omega

theorem level_map_succ (p : List Nat) (k : FeatV) (b : List FeatV) : level (p.map Nat.succ) (den (k :: b)) = level p (den b) := by
  induction p with
  | nil => rfl
  | cons f p ih =>
    simp only [List.map_cons, level, List.length_map, ih]
    congr 1

/-- All constants without zeros, in the order of binary numbers. -/
def binary : Nat → List (List FeatV)
  | 0 => [[]]
  | d + 1 => (binary d).map (BOT :: ·) ++ (binary d).map (ONE :: ·)

theorem length_binary (d : Nat) : (binary d).length = 2 ^ d := by
  induction d with
  | zero => rfl
  | succ d ih => simp only [binary, List.length_append, List.length_map, ih, Nat.pow_succ]; omega

theorem binary_good {d : Nat} {b : List FeatV} (h : b ∈ binary d) : GoodVals d b := by
  induction d generalizing b with
  | zero =>
    simp only [binary, List.mem_singleton] at h
    subst h
    exact ⟨rfl, by intro w hw; simp at hw⟩
  | succ d ih =>
    simp only [binary, List.mem_append, List.mem_map] at h
    rcases h with ⟨b', hb, rfl⟩ | ⟨b', hb, rfl⟩
    all_goals
      have := ih hb
      refine ⟨by simp [this.1], ?_⟩
      intro w hw
      rcases List.mem_cons.1 hw with rfl | hw
      · decide
      · exact this.2 w hw

theorem level_binary (d : Nat) : ∀ (i : Nat) (b : List FeatV), (binary d)[i]? = some b → level (List.range d) (den b) = i := by
  induction d with
  | zero =>
    intro i b h
    obtain ⟨hi, -⟩ := List.getElem?_eq_some_iff.1 h
    simp [binary] at hi
    simp [level, hi]
  | succ d ih =>
    intro i b h
    rw [List.range_succ_eq_map]
    by_cases hi : i < 2 ^ d
    · rw [binary, List.getElem?_append_left (by simpa [length_binary] using hi), List.getElem?_map] at h
      obtain ⟨b', hb, rfl⟩ := Option.map_eq_some_iff.1 h
      simp only [level, List.length_map, level_map_succ, ih i b' hb]
      simp [den, featDen]
    · rw [binary, List.getElem?_append_right (by simpa [length_binary] using hi), List.getElem?_map, List.length_map, length_binary] at h
      obtain ⟨b', hb, rfl⟩ := Option.map_eq_some_iff.1 h
      simp only [level, List.length_map, level_map_succ, ih _ b' hb]
      simp [den, featDen, ONE, ZERO, BOT]
      omega

/-- Powers of two outgrow every polynomial. -/
theorem pow_lt_two_pow (k : Nat) : ∃ d, 0 < d ∧ d ^ k + k < 2 ^ d := by
  have lt2 : ∀ n : Nat, n < 2 ^ n := fun n => Nat.lt_two_pow_self
  refine ⟨2 ^ (2 * (2 * k + 1)), Nat.pow_pos (by omega), ?_⟩
  generalize hm : 2 * (2 * k + 1) = m
  have h1 : m * k + 2 ≤ 2 ^ m := by
    have h := lt2 (2 * k + 1)
    have h3 : (2 * k + 2) * (2 * k + 2) ≤ 2 ^ (2 * k + 1) * 2 ^ (2 * k + 1) := Nat.mul_le_mul h h
    rw [← Nat.pow_add, ← Nat.two_mul, hm] at h3
    refine Nat.le_trans ?_ h3
    rw [← hm]
    grind
  have h2 : 2 ^ (m * k + 2) ≤ 2 ^ (2 ^ m) := Nat.pow_le_pow_right (by omega) h1
  have h3 : (2 ^ m) ^ k = 2 ^ (m * k) := by rw [← Nat.pow_mul]
  have h4 : k < 2 ^ (m * k) := by
    refine Nat.lt_of_lt_of_le (lt2 k) (Nat.pow_le_pow_right (by omega) ?_)
    exact Nat.le_mul_of_pos_left k (by omega)
  rw [h3]
  rw [Nat.pow_add] at h2
  omega

end Goexpdt

import Verif.Spec.Numeral
import Verif.Lemmas.Solver
namespace Goexpdt
open Spec

theorem digit_iff (c : Char) : ('0' ≤ c ∧ c ≤ '9') ↔ (48 ≤ c.toNat ∧ c.toNat ≤ 57) := Iff.rfl

theorem atoiDigits_iff (cs : List Char) : ∀ acc n, atoiDigits acc cs = some n ↔
    (∀ c ∈ cs, 48 ≤ c.toNat ∧ c.toNat ≤ 57) ∧ n = acc * 10 ^ cs.length + decVal cs := by
  induction cs with
  | nil => intro acc n; simp [atoiDigits, decVal, eq_comm]
  | cons c cs ih =>
    intro acc n
    unfold atoiDigits
    by_cases h : 48 ≤ c.toNat ∧ c.toNat ≤ 57
    · rw [if_pos h, ih]
      have : (acc * 10 + (c.toNat - 48)) * 10 ^ cs.length = acc * 10 ^ (cs.length + 1) + (c.toNat - 48) * 10 ^ cs.length := by
        rw [Nat.add_mul, Nat.mul_assoc, Nat.pow_succ']
      have e : '0'.toNat = 48 := rfl
      simp only [List.mem_cons, forall_eq_or_imp, h, true_and, decVal, List.length_cons, this, e, Nat.add_assoc, and_self]
    · rw [if_neg h]
      simp only [List.mem_cons, forall_eq_or_imp, h, false_and, reduceCtorEq]

theorem atoi_iff (w : List Char) (v : Int) : atoi w = .ok v ↔ Numeral w v := by
  have key : ∀ c cs, (∃ n, atoiDigits 0 (c :: cs) = some n) ↔ Digits (c :: cs) := by
    intro c cs
    constructor
    · rintro ⟨n, h⟩
      exact ⟨by simp, ((atoiDigits_iff _ _ _).1 h).1⟩
    · rintro ⟨-, h⟩
      exact ⟨_, (atoiDigits_iff _ _ _).2 ⟨h, rfl⟩⟩
  have val : ∀ c cs n, atoiDigits 0 (c :: cs) = some n → n = decVal (c :: cs) := by
    intro c cs n h
    have := ((atoiDigits_iff _ _ _).1 h).2
    omega
  have nosign : ∀ c, c = '-' ∨ c = '+' → ∀ cs, ¬ Digits (c :: cs) := by
    rintro c (rfl | rfl) cs ⟨-, h⟩ <;> exact absurd (h _ (List.mem_cons_self ..)) (by decide)
  unfold atoi
  split
  · next c cs =>
    cases h : atoiDigits 0 (c :: cs) with
    | none =>
      have hn : ¬ Digits (c :: cs) := fun hd => by
        obtain ⟨n, hn⟩ := (key c cs).2 hd
        rw [h] at hn
        cases hn
      simp only [reduceCtorEq, false_iff]
      rintro ⟨ds, hd, (⟨rfl | he, -⟩ | ⟨he, -⟩)⟩
      · exact nosign _ (.inl rfl) _ hd
      · cases he
      · cases he; exact hn hd
    | some n =>
      have hd := (key c cs).1 ⟨n, h⟩
      have hv := val _ _ _ h
      subst hv
      simp only [Except.ok.injEq]
      constructor
      · rintro rfl
        exact ⟨_, hd, .inr ⟨rfl, rfl⟩⟩
      · rintro ⟨ds, hd', (⟨rfl | he, -⟩ | ⟨he, e⟩)⟩
        · exact absurd hd' (nosign _ (.inl rfl) _)
        · cases he
        · cases he; exact e.symm
  · next c cs =>
    cases h : atoiDigits 0 (c :: cs) with
    | none =>
      have hn : ¬ Digits (c :: cs) := fun hd => by
        obtain ⟨n, hn⟩ := (key c cs).2 hd
        rw [h] at hn
        cases hn
      simp only [reduceCtorEq, false_iff]
      rintro ⟨ds, hd, (⟨rfl | he, -⟩ | ⟨he, -⟩)⟩
      · exact nosign _ (.inr rfl) _ hd
      · cases he; exact hn hd
      · cases he
    | some n =>
      have hd := (key c cs).1 ⟨n, h⟩
      have hv := val _ _ _ h
      subst hv
      simp only [Except.ok.injEq]
      constructor
      · rintro rfl
        exact ⟨_, hd, .inl ⟨.inr rfl, rfl⟩⟩
      · rintro ⟨ds, hd', (⟨rfl | he, e⟩ | ⟨he, e⟩)⟩
        · exact absurd hd' (nosign _ (.inr rfl) _)
        · cases he; exact e.symm
        · cases he
  · simp only [reduceCtorEq, false_iff]
    rintro ⟨ds, hd, (⟨rfl | he, -⟩ | ⟨he, -⟩)⟩
    · exact hd.1 rfl
    · cases he
    · cases he
  · next c cs h1 h2 =>
    have sg : ∀ ds, Digits ds → c :: cs ≠ '-' :: ds ∧ c :: cs ≠ '+' :: ds := by
      rintro ds ⟨hne, -⟩
      cases ds with
      | nil => exact absurd rfl hne
      | cons d ds =>
        exact ⟨fun e => by cases e; exact h1 _ _ rfl rfl, fun e => by cases e; exact h2 _ _ rfl rfl⟩
    cases h : atoiDigits 0 (c :: cs) with
    | none =>
      have hn : ¬ Digits (c :: cs) := fun hd => by
        obtain ⟨n, hn⟩ := (key c cs).2 hd
        rw [h] at hn
        cases hn
      simp only [reduceCtorEq, false_iff]
      rintro ⟨ds, hd, (⟨rfl | he, -⟩ | ⟨he, -⟩)⟩
      · exact hn hd
      · exact (sg ds hd).2 he
      · exact (sg ds hd).1 he
    | some n =>
      have hd := (key c cs).1 ⟨n, h⟩
      have hv := val _ _ _ h
      subst hv
      simp only [Except.ok.injEq]
      constructor
      · rintro rfl
        exact ⟨_, hd, .inl ⟨.inl rfl, rfl⟩⟩
      · rintro ⟨ds, hd', (⟨rfl | he, e⟩ | ⟨he, e⟩)⟩
        · exact e.symm
        · exact absurd he (sg ds hd').2
        · exact absurd he (sg ds hd').1

end Goexpdt

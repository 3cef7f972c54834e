import Verif.Spec.Dimacs
/- Lemmas about decimal numerals. -/
namespace Goexpdt
open Spec

theorem digitChar_toNat {n : Nat} (h : n < 10) : (digitChar n).toNat = 48 + n := by
  match n, h with
  | 0, _ | 1, _ | 2, _ | 3, _ | 4, _ | 5, _ | 6, _ | 7, _ | 8, _ | 9, _ => rfl

theorem readDigit_digitChar {n : Nat} (h : n < 10) : readDigit (digitChar n) = some n := by
  match n, h with
  | 0, _ | 1, _ | 2, _ | 3, _ | 4, _ | 5, _ | 6, _ | 7, _ | 8, _ | 9, _ => rfl

theorem readDigits_append (a : Nat) (xs ys : List Char) :
    readDigits a (xs ++ ys) = (readDigits a xs).bind (fun b => readDigits b ys) := by
  induction xs generalizing a with
  | nil => simp [readDigits]
  | cons x xs ih =>
    simp only [List.cons_append, readDigits]
    cases readDigit x with
    | none => rfl
    | some d => exact ih _

theorem itoaAux_fuel : ∀ f g n : Nat, n < f → n < g → itoaAux f n = itoaAux g n
  | 0, _, _, h, _ => by omega
  | _ + 1, 0, _, _, h => by omega
  | f + 1, g + 1, n, hf, hg => by
    simp only [itoaAux]
    split
    · rfl
    · rw [itoaAux_fuel f g (n / 10) (by omega) (by omega)]

theorem itoaNat_lt {n : Nat} (h : n < 10) : itoaNat n = [digitChar n] := by
  rw [itoaNat, itoaAux, if_pos h]

theorem itoaNat_ge {n : Nat} (h : ¬ n < 10) :
    itoaNat n = itoaNat (n / 10) ++ [digitChar (n % 10)] := by
  rw [itoaNat, itoaAux, if_neg h, itoaNat, itoaAux_fuel n (n / 10 + 1) _ (by omega) (by omega)]

theorem itoaNat_ne_nil (n : Nat) : itoaNat n ≠ [] := by
  by_cases h : n < 10
  · simp [itoaNat_lt h]
  · simp [itoaNat_ge h]

theorem readDigits_itoaNat (n : Nat) : readDigits 0 (itoaNat n) = some n := by
  induction n using Nat.strongRecOn with
  | _ n ih =>
    by_cases h : n < 10
    · rw [itoaNat_lt h]; simp [readDigits, readDigit_digitChar h]
    · rw [itoaNat_ge h, readDigits_append, ih (n / 10) (by omega)]
      have : n % 10 < 10 := by omega
      simp only [Option.bind_some, readDigits, readDigit_digitChar this]
      congr 1; omega

/-- Every character of a numeral is a digit. -/
theorem itoaNat_digits (n : Nat) : ∀ c ∈ itoaNat n, 48 ≤ c.toNat ∧ c.toNat ≤ 57 := by
  induction n using Nat.strongRecOn with
  | _ n ih =>
    by_cases h : n < 10
    · rw [itoaNat_lt h]; simp [digitChar_toNat h]; omega
    · rw [itoaNat_ge h]
      intro c hc
      rw [List.mem_append, List.mem_singleton] at hc
      rcases hc with hc | rfl
      · exact ih _ (by omega) c hc
      · rw [digitChar_toNat (by omega)]; omega

theorem itoaNat_inj {a b : Nat} (h : itoaNat a = itoaNat b) : a = b := by
  have := readDigits_itoaNat a
  rw [h, readDigits_itoaNat] at this
  simpa using this.symm

theorem readInt_of_digits {cs : List Char} (hne : cs ≠ [])
    (h : ∀ c ∈ cs, 48 ≤ c.toNat ∧ c.toNat ≤ 57) :
    readInt cs = (readDigits 0 cs).map (fun n => (n : Int)) := by
  match cs, hne with
  | c :: cs, _ =>
    have hc : c ≠ '-' := by
      rintro rfl
      have := h '-' (by simp)
      have e : '-'.toNat = 45 := rfl
      omega
    unfold readInt
    split
    · simp_all
    · simp_all
    · rename_i h1; simp_all

theorem readInt_itoa (v : Int) : readInt (itoa v) = some v := by
  unfold itoa
  split
  · have hne := itoaNat_ne_nil v.natAbs
    have hr := readDigits_itoaNat v.natAbs
    cases hd : itoaNat v.natAbs with
    | nil => exact absurd hd hne
    | cons c cs =>
      rw [hd] at hr
      simp only [readInt, hr]
      show some (-(v.natAbs : Int)) = some _
      congr 1; omega
  · rw [readInt_of_digits (itoaNat_ne_nil _) (itoaNat_digits _), readDigits_itoaNat]
    show some (v.natAbs : Int) = some _
    congr 1; omega

/-- Characters of `itoa v`: digits and minus. -/
theorem itoa_chars (v : Int) : ∀ c ∈ itoa v, c.toNat = 45 ∨ (48 ≤ c.toNat ∧ c.toNat ≤ 57) := by
  unfold itoa
  split
  · intro c hc
    rw [List.mem_cons] at hc
    rcases hc with rfl | hc
    · left; rfl
    · right; exact itoaNat_digits _ c hc
  · intro c hc; right; exact itoaNat_digits _ c hc

theorem itoa_ne_nil (v : Int) : itoa v ≠ [] := by
  unfold itoa; split
  · simp
  · exact itoaNat_ne_nil _

theorem itoa_inj {a b : Int} (h : itoa a = itoa b) : a = b := by
  have := readInt_itoa a
  rw [h, readInt_itoa] at this
  simpa using this.symm

theorem itoa_ne_ws (v : Int) : ∀ c ∈ itoa v, c ≠ ' ' ∧ c ≠ '\n' := by
  intro c hc
  have := itoa_chars v c hc
  constructor
  · rintro rfl
    have e : ' '.toNat = 32 := rfl
    omega
  · rintro rfl
    have e : '\n'.toNat = 10 := rfl
    omega

/-! ### tokens -/

theorem tokens_word {w : List Char} (hw : ∀ c ∈ w, c ≠ ' ' ∧ c ≠ '\n') (cur rest : List Char) :
    tokens cur (w ++ rest) = tokens (cur ++ w) rest := by
  induction w generalizing cur with
  | nil => simp
  | cons c w ih =>
    have := hw c (by simp)
    simp only [List.cons_append, tokens, this.1, this.2, or_self, if_false]
    rw [ih (fun c hc => hw c (by simp [hc]))]
    simp

theorem tokens_sep {w : List Char} (hne : w ≠ []) (hw : ∀ c ∈ w, c ≠ ' ' ∧ c ≠ '\n')
    {s : Char} (hs : s = ' ' ∨ s = '\n') (rest : List Char) :
    tokens [] (w ++ s :: rest) = w :: tokens [] rest := by
  rw [tokens_word hw]
  simp only [List.nil_append, tokens, hs, if_true, hne, if_false]

theorem tokens_itoa (v : Int) {s : Char} (hs : s = ' ' ∨ s = '\n') (rest : List Char) :
    tokens [] (itoa v ++ s :: rest) = itoa v :: tokens [] rest :=
  tokens_sep (itoa_ne_nil v) (itoa_ne_ws v) hs rest

theorem tokens_clause (cl : Clause) (rest : List Char) :
    tokens [] (clauseToDIMACS cl ++ '\n' :: rest) =
      cl.map itoa ++ ['0'] :: tokens [] rest := by
  unfold clauseToDIMACS
  induction cl with
  | nil =>
    have := tokens_itoa 0 (s := '\n') (.inr rfl) rest
    have e : itoa 0 = ['0'] := by decide
    rw [e] at this
    simpa using this
  | cons v cl ih =>
    simp only [List.flatMap_cons, List.append_assoc, List.map_cons, List.cons_append,
      List.nil_append] at ih ⊢
    rw [tokens_itoa v (.inl rfl), ih]

theorem readClauses_clause (cl : Clause) (hnz : ∀ l ∈ cl, l ≠ 0) (cur : Clause)
    (ts : List (List Char)) :
    readClauses cur (cl.map itoa ++ ['0'] :: ts) = (readClauses [] ts).map ((cur ++ cl) :: ·) := by
  induction cl generalizing cur with
  | nil =>
    have e : readInt ['0'] = some 0 := by rfl
    simp [readClauses, e]
  | cons v cl ih =>
    have hv := hnz v (by simp)
    simp only [List.map_cons, List.cons_append, readClauses, readInt_itoa, hv, if_false]
    rw [ih (fun l hl => hnz l (by simp [hl]))]
    simp

theorem readClauses_lines (cls : List Clause) (hnz : ∀ cl ∈ cls, ∀ l ∈ cl, l ≠ 0)
    (rest : List Char) :
    readClauses [] (tokens [] (cls.flatMap (fun cl => clauseToDIMACS cl ++ ['\n']) ++ rest)) =
      (readClauses [] (tokens [] rest)).map (cls ++ ·) := by
  induction cls with
  | nil => simp
  | cons cl cls ih =>
    simp only [List.flatMap_cons, List.append_assoc, List.cons_append, List.nil_append]
    rw [tokens_clause, readClauses_clause cl (hnz cl (by simp)),
      ih (fun c hc => hnz c (by simp [hc]))]
    cases readClauses [] (tokens [] rest) <;> simp

end Goexpdt

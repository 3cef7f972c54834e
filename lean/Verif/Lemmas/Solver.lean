import Verif.Spec.Solver
import Verif.Lemmas.Itoa
import Verif.Lemmas.Emit
import Verif.Lemmas.Closed
/- `Values` reads the solution that a solver has printed. -/
namespace Goexpdt
open Spec

/-! ### texts -/

theorem splitOn_ne_nil (sep : Char) (t : List Char) : splitOn sep t ≠ [] := by
  cases t with
  | nil => simp [splitOn]
  | cons c cs =>
    unfold splitOn
    split
    · simp
    · split <;> simp

theorem splitOn_append {sep : Char} {p : List Char} (h : sep ∉ p) (t : List Char) :
    splitOn sep (p ++ sep :: t) = p :: splitOn sep t := by
  induction p with
  | nil => simp [splitOn]
  | cons c p ih =>
    have hc : c ≠ sep := fun e => h (by simp [e])
    have hp := ih fun hm => h (by simp [hm])
    simp only [List.cons_append, splitOn, if_neg hc, hp]

theorem splitOn_self {sep : Char} {p : List Char} (h : sep ∉ p) : splitOn sep p = [p] := by
  induction p with
  | nil => simp [splitOn]
  | cons c p ih =>
    have hc : c ≠ sep := fun e => h (by simp [e])
    have hp := ih fun hm => h (by simp [hm])
    simp only [splitOn, if_neg hc, hp]

theorem splitOn_joinLines {ls : List (List Char)} (h : ∀ l ∈ ls, '\n' ∉ l) (hne : ls ≠ []) :
    splitOn '\n' (joinLines ls) = ls := by
  induction ls with
  | nil => exact absurd rfl hne
  | cons l ls ih =>
    cases ls with
    | nil => simpa [joinLines] using splitOn_self (h l (by simp))
    | cons l' ls =>
      simp only [joinLines]
      rw [splitOn_append (h l (by simp)), ih (fun k hk => h k (by simp [hk])) (by simp)]

theorem splitOn_lits {l : Int} {ls : List Int} :
    splitOn ' ' (itoa l ++ ls.flatMap fun l => ' ' :: itoa l) = (l :: ls).map itoa := by
  induction ls generalizing l with
  | nil =>
    simp only [List.flatMap_nil, List.append_nil, List.map_cons, List.map_nil]
    exact splitOn_self fun h => (itoa_ne_ws l _ h).1 rfl
  | cons k ls ih =>
    simp only [List.flatMap_cons, List.cons_append, List.map_cons]
    rw [splitOn_append fun h => (itoa_ne_ws l _ h).1 rfl, ih]
    rfl

theorem atoiDigits_eq (acc : Nat) (cs : List Char) : atoiDigits acc cs = readDigits acc cs := by
  induction cs generalizing acc with
  | nil => rfl
  | cons c cs ih =>
    unfold atoiDigits readDigits readDigit
    by_cases h : 48 ≤ c.toNat ∧ c.toNat ≤ 57
    · rw [if_pos h, if_pos (show '0'.toNat ≤ c.toNat ∧ c.toNat ≤ '9'.toNat from h), ih]
      rfl
    · rw [if_neg h, if_neg (show ¬ ('0'.toNat ≤ c.toNat ∧ c.toNat ≤ '9'.toNat) from h)]

theorem atoi_itoa (v : Int) : atoi (itoa v) = .ok v := by
  unfold itoa
  have hd := readDigits_itoaNat v.natAbs
  have hc := itoaNat_digits v.natAbs
  cases hn : itoaNat v.natAbs with
  | nil => exact absurd hn (itoaNat_ne_nil _)
  | cons c cs =>
    rw [hn] at hd hc
    have h1 := hc c (by simp)
    split
    · simp only [atoi, atoiDigits_eq, hd]
      congr 1; omega
    · unfold atoi
      split
      · next e => cases e; exact absurd h1 (by decide)
      · next e => cases e; exact absurd h1 (by decide)
      · next e => cases e
      · next e =>
        cases e
        simp only [atoiDigits_eq, hd]
        congr 1; omega

/-! ### scanning -/

/-- The map after the literals have been read. -/
def record (vfilter : List Int) (vval : List (Int × Bool)) : List Int → List (Int × Bool)
  | [] => vval
  | l :: ls => record vfilter (if iAbs l ∈ vfilter then (iAbs l, decide (l > 0)) :: vval else vval) ls

theorem record_append (vfilter : List Int) (a b : List Int) : ∀ vval,
    record vfilter vval (a ++ b) = record vfilter (record vfilter vval a) b := by
  induction a with
  | nil => intro vval; rfl
  | cons l a ih => intro vval; exact ih _

theorem scanLits_itoa (vfilter : List Int) (ls : List Int) : ∀ vval,
    scanLits vfilter vval (ls.map itoa) = .ok (record vfilter vval ls) := by
  induction ls with
  | nil => intro vval; rfl
  | cons l ls ih =>
    intro vval
    simp only [List.map_cons, scanLits, atoi_itoa, record]
    split <;> exact ih _

theorem scanLines_text (vfilter : List Int) (ls : List OutLine) (h : ∀ l ∈ ls, l.Ok) : ∀ vval,
    scanLines vfilter vval (ls.map OutLine.text) = .ok (record vfilter vval (ls.flatMap OutLine.lits)) := by
  induction ls with
  | nil => intro vval; rfl
  | cons l ls ih =>
    intro vval
    have ih := ih fun k hk => h k (by simp [hk])
    have hl := h l (by simp)
    simp only [List.map_cons, List.flatMap_cons]
    rw [record_append]
    cases l with
    | other t =>
      cases t with
      | nil => exact ih vval
      | cons c cs =>
        have hc : c ≠ 'v' := fun e => hl.2 (by simp [e])
        simp only [OutLine.text, scanLines, if_pos hc]
        exact ih vval
    | vals lits =>
      cases lits with
      | nil => exact absurd rfl hl
      | cons k ks =>
        simp only [OutLine.text, List.flatMap_cons, List.cons_append, scanLines, ne_eq, not_true_eq_false, if_false,
          splitOn_lits, scanLits_itoa]
        exact ih _

theorem text_no_newline {l : OutLine} (h : l.Ok) : '\n' ∉ l.text := by
  cases l with
  | other t => exact h.1
  | vals ls =>
    simp only [OutLine.text, List.mem_cons, List.mem_flatMap, not_or]
    refine ⟨by decide, ?_⟩
    rintro ⟨k, -, hk⟩
    rcases hk with hk | hk
    · exact absurd hk (by decide)
    · exact (itoa_ne_ws k _ hk).2 rfl

theorem scan_out (vfilter : List Int) (ls : List OutLine) (h : ∀ l ∈ ls, l.Ok) :
    scanLines vfilter [] (splitOn '\n' (joinLines (ls.map OutLine.text))) =
      .ok (record vfilter [] (ls.flatMap OutLine.lits)) := by
  cases ls with
  | nil => rfl
  | cons l ls =>
    rw [splitOn_joinLines _ (by simp), scanLines_text _ _ h]
    intro t ht
    obtain ⟨k, hk, rfl⟩ := List.mem_map.1 ht
    exact text_no_newline (h k hk)

theorem record_get {vfilter : List Int} {β : Val} {k : Int} (hk : 1 ≤ k) (hf : k ∈ vfilter) (ls : List Int)
    (ht : ∀ l ∈ ls, l ≠ 0 → litTrue β l) : ∀ vval,
    mapGet (record vfilter vval ls) k = if k ∈ ls ∨ -k ∈ ls then some (β k.natAbs) else mapGet vval k := by
  induction ls with
  | nil => intro vval; simp [record]
  | cons l ls ih =>
    intro vval
    simp only [record]
    rw [ih (fun m hm => ht m (by simp [hm]))]
    by_cases hm : k ∈ ls ∨ -k ∈ ls
    · rw [if_pos hm, if_pos (by rcases hm with h | h <;> simp [h])]
    · rw [if_neg hm]
      by_cases hl : iAbs l = k
      · rw [if_pos (by rw [hl]; exact hf)]
        have hl0 : l ≠ 0 := by rintro rfl; simp [iAbs] at hl; omega
        have htl := ht l (by simp) hl0
        simp only [mapGet, if_pos hl]
        have hkl : k = l ∨ -k = l := by unfold iAbs at hl; split at hl <;> omega
        rw [if_pos (by rcases hkl with h | h <;> simp [h])]
        congr 1
        unfold litTrue at htl
        rcases hkl with rfl | rfl
        · have : k > 0 := by omega
          simp only [if_pos this] at htl
          simp [htl, this]
        · have : ¬ -k > 0 := by omega
          simp only [if_neg this, Int.natAbs_neg] at htl
          simp only [htl]
          simp
          omega
      · have hn : ¬ (k ∈ l :: ls ∨ -k ∈ l :: ls) := by
          simp only [List.mem_cons]
          rintro ((h | h) | (h | h))
          · exact hl (by unfold iAbs; split <;> omega)
          · exact hm (.inl h)
          · exact hl (by unfold iAbs; split <;> omega)
          · exact hm (.inr h)
        rw [if_neg hn]
        split
        · simp [mapGet, hl]
        · rfl

/-! ### reading the features -/

theorem cnfVar_named {s : Ctx} {vr : VarRep} (h : Named s vr) : M.cnfVar vr s = (.ok (num s vr), s) := by
  obtain ⟨n, hn⟩ := h
  simp [M.cnfVar, Ctx.cnfVar, hn, num]

theorem variableFilter_named {s : Ctx} {v : QVar} (is : List Nat)
    (h : ∀ i ∈ is, ∀ k ∈ featVals, Named s ⟨v, (i : Nat), k⟩) :
    ∃ fs, variableFilter v is s = (.ok fs, s) ∧ ∀ i ∈ is, ∀ k ∈ featVals, num s ⟨v, (i : Nat), k⟩ ∈ fs := by
  induction is with
  | nil => exact ⟨[], rfl, by simp⟩
  | cons i is ih =>
    obtain ⟨fs, e, hf⟩ := ih fun j hj => h j (by simp [hj])
    have hi := h i (by simp)
    refine ⟨num s ⟨v, (i : Nat), BOT⟩ :: num s ⟨v, (i : Nat), ZERO⟩ :: num s ⟨v, (i : Nat), ONE⟩ :: fs, ?_, ?_⟩
    · unfold variableFilter
      rw [M_bind_ok (cnfVar_named (hi BOT (by simp [featVals]))),
        M_bind_ok (cnfVar_named (hi ZERO (by simp [featVals]))),
        M_bind_ok (cnfVar_named (hi ONE (by simp [featVals]))), M_bind_ok e]
      rfl
    · intro j hj k hk
      rcases List.mem_cons.1 hj with rfl | hj
      · simp only [featVals, List.mem_cons, List.not_mem_nil, or_false] at hk
        rcases hk with rfl | rfl | rfl <;> simp
      · simp [hf j hj k hk]

theorem readFeats_named {s : Ctx} {v : QVar} {vval : List (Int × Bool)} {e : PInst} (is : List Nat)
    (h : ∀ i ∈ is, ∀ k ∈ featVals, Named s ⟨v, (i : Nat), k⟩)
    (hr : ∀ i ∈ is, ∀ k ∈ featVals, (mapGet vval (num s ⟨v, (i : Nat), k⟩)).getD false = decide (valOf (e i) = k)) :
    readFeats v vval is s = (.ok (is.map fun i => valOf (e i)), s) := by
  induction is with
  | nil => rfl
  | cons i is ih =>
    have ih := ih (fun j hj => h j (by simp [hj])) (fun j hj => hr j (by simp [hj]))
    have hi := h i (by simp)
    have hri := hr i (by simp)
    have h0 := hri BOT (by simp [featVals])
    have h1 := hri ZERO (by simp [featVals])
    have h2 := hri ONE (by simp [featVals])
    unfold readFeats
    rw [M_bind_ok (cnfVar_named (hi BOT (by simp [featVals]))), h0]
    cases hv : e i with
    | none =>
      simp only [valOf, decide_true, if_true]
      rw [M_bind_ok ih]
      simp [valOf, hv]
    | some b =>
      have n0 : ¬ valOf (some b) = BOT := by cases b <;> decide
      simp only [n0, decide_false, Bool.false_eq_true, if_false]
      rw [M_bind_ok (cnfVar_named (hi ONE (by simp [featVals]))), h2, hv]
      cases b with
      | true =>
        simp only [valOf, decide_true, if_true]
        rw [M_bind_ok ih]
        simp [valOf, hv]
      | false =>
        have n1 : ¬ valOf (some false) = ONE := by decide
        simp only [n1, decide_false, Bool.false_eq_true, if_false]
        rw [M_bind_ok (cnfVar_named (hi ZERO (by simp [featVals]))), h1, hv]
        simp only [valOf, decide_true, if_true]
        rw [M_bind_ok ih]
        simp [valOf, hv]

/-- The output of a solver that has printed `β`, where all numbers above `n` are false under `β`. -/
theorem varValue_prints {s : Ctx} (hv : VMok s) {n : Int} {β : Val} {out : List Char} (hp : Prints n β out)
    (hn : ∀ k : Int, n < k → β k.natAbs = false) {v : QVar} {e : PInst}
    (hnm : ∀ i < s.dim, ∀ k ∈ featVals, Named s ⟨v, (i : Nat), k⟩) (hr : Reads s.dim s β v e) :
    varValueFromBytes out v s = (.ok { val := valsOf s.dim e }, s) := by
  obtain ⟨ls, rfl, hok, hall, htrue⟩ := hp
  obtain ⟨fs, ef, hf⟩ := variableFilter_named (v := v) (List.range s.dim)
    (fun i hi => hnm i (List.mem_range.1 hi))
  have e0 : M.dim s = (.ok s.dim, s) := rfl
  have e1 : (M.lift (scanLines fs [] (splitOn '\n' (joinLines (ls.map OutLine.text)))) : M _) s =
      (.ok (record fs [] (ls.flatMap OutLine.lits)), s) := by
    rw [scan_out _ _ hok]; rfl
  have e2 := readFeats_named (s := s) (v := v) (vval := record fs [] (ls.flatMap OutLine.lits)) (e := e) (List.range s.dim)
    (fun i hi => hnm i (List.mem_range.1 hi)) (by
      intro i hi k hk
      have hi' := List.mem_range.1 hi
      rw [← hr i hi' k hk]
      obtain ⟨m, hm⟩ := hnm i hi' k hk
      have hnum : num s ⟨v, (i : Nat), k⟩ = m := num_eq hm
      have hm1 := (hv.range _ _ hm).1
      have hmf : m ∈ fs := by rw [← hnum]; exact hf i hi k hk
      unfold symVal
      rw [hnum, record_get hm1 hmf _ fun l hl h0 => (htrue l hl h0).2]
      by_cases hmn : m ≤ n
      · rw [if_pos (hall m hm1 hmn)]; rfl
      · split
        · rfl
        · simp [mapGet, hn m (by omega)])
  unfold varValueFromBytes
  rw [M_bind_ok e0, M_bind_ok ef, M_bind_ok e1, M_bind_ok e2]
  rfl

theorem binValues_prints {s : Ctx} (hv : VMok s) {n : Int} {β : Val} {st : BinSt} (hp : Prints n β st.output)
    (hn : ∀ k : Int, n < k → β k.natAbs = false) (vs : List QVar) (es : QVar → PInst)
    (h : ∀ v ∈ vs, (∀ i < s.dim, ∀ k ∈ featVals, Named s ⟨v, (i : Nat), k⟩) ∧ Reads s.dim s β v (es v)) :
    binValues vs st s = (.ok (vs.map fun v => { val := valsOf s.dim (es v) }), st, s) := by
  have : binValuesLoop st.output vs s = (.ok (vs.map fun v => { val := valsOf s.dim (es v) }), s) := by
    induction vs with
    | nil => rfl
    | cons v vs ih =>
      have hh := h v (by simp)
      unfold binValuesLoop
      rw [M_bind_ok (varValue_prints hv hp hn hh.1 hh.2), M_bind_ok (ih fun w hw => h w (by simp [hw]))]
      rfl
  unfold binValues
  rw [this]

end Goexpdt

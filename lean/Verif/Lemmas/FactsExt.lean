import Verif.Lemmas.FactsCount
/- What the clauses of full, cons, hepr and leh say. -/
namespace Goexpdt
open Spec

variable {d : Nat} {ν : VarRep → Bool} {n n1 n2 cv : QVar} {e e1 e2 : PInst}

/-! ### full -/

theorem fullC_iff (vs : List FeatV) (hc : GoodVals d vs) : fullC vs = true ↔ Full d (den vs) := by
  have h1 : fullC vs = true ↔ ∀ v ∈ vs, v ≠ BOT := by
    clear hc
    induction vs with
    | nil => simp [fullC]
    | cons a vs ih =>
      simp only [fullC, List.mem_cons, forall_eq_or_imp]
      split
      · next h => simp [h]
      · next h => rw [ih]; simp [h]
  rw [h1]
  constructor
  · intro h i hi
    have hi' : i < vs.length := by have := hc.1; omega
    have := h vs[i] (List.getElem_mem hi')
    have ha := at_eq hc hi ⟨[], vs⟩ rfl
    simp only [QConst.at, List.getD_eq_getElem?_getD, List.getElem?_eq_getElem hi', Option.getD_some] at ha
    rw [ha] at this
    simpa [valOf_bot] using this
  · intro h v hv
    obtain ⟨i, hi, rfl⟩ := List.mem_iff_getElem.1 hv
    have ha := at_eq hc (i := i) (by have := hc.1; omega) ⟨[], vs⟩ rfl
    simp only [QConst.at, List.getD_eq_getElem?_getD, List.getElem?_eq_getElem hi, Option.getD_some] at ha
    rw [ha]
    simpa [valOf_bot] using h i (by have := hc.1; omega)

theorem varFull_iff (hr : Rd d ν n e) : ssTrue ν (varFullClauses d n) ↔ Full d e := by
  simp only [varFullClauses, ssTrue_map, mem_rng, Nat.zero_le, true_and, scTrue_cons, scTrue_nil, or_false,
    slTrue_N, Full]
  refine forall_congr' fun i => forall_congr' fun hi => ?_
  rw [hr.bot hi]; simp

theorem isFull_iff {c : QConst} (hc : GoodVals d c.val) : c.isFull = true ↔ Full d (den c.val) := by
  rw [← fullC_iff c.val hc]
  have h1 : ∀ vs : List FeatV, fullC vs = true ↔ ∀ v ∈ vs, v ≠ BOT := by
    intro vs
    induction vs with
    | nil => simp [fullC]
    | cons a vs ih =>
      simp only [fullC, List.mem_cons, forall_eq_or_imp]
      split
      · next h => simp [h]
      · next h => rw [ih]; simp [h]
  rw [h1]
  have h2 : ∀ vs : List FeatV, QConst.isFull.go vs = true ↔ ∀ v ∈ vs, v ≠ BOT := by
    intro vs
    induction vs with
    | nil => simp [QConst.isFull.go]
    | cons a vs ih =>
      simp only [QConst.isFull.go, List.mem_cons, forall_eq_or_imp]
      split
      · next h => simp_all
      · next h => simp_all
  exact h2 c.val

/-! ### cons -/

theorem consCC_iff {c1 c2 : QConst} (h1 : GoodVals d c1.val) (h2 : GoodVals d c2.val) :
    consCC d c1 c2 = true ↔ Cons d (den c1.val) (den c2.val) := by
  simp only [consCC, List.all_eq_true, mem_rng, Nat.zero_le, true_and, Cons]
  refine forall_congr' fun i => forall_congr' fun hi => ?_
  rw [at_eq h1 hi c1 rfl, at_eq h2 hi c2 rfl]
  simp only [ne_eq, valOf_bot, valOf_inj]
  by_cases a : den c1.val i = none <;> by_cases b : den c2.val i = none <;> simp [a, b]

theorem consConst_iff {c : QConst} (hc : GoodVals d c.val) (hr : Rd d ν n e) :
    ssTrue ν (consConstClauses d c n) ↔ Cons d (den c.val) e := by
  simp only [consConstClauses, ssTrue_flatMap, mem_rng, Nat.zero_le, true_and, Cons]
  refine forall_congr' fun i => forall_congr' fun hi => ?_
  rw [at_eq hc hi c rfl]
  simp only [valOf_bot, valOf_zero]
  rcases opt3 (den c.val i) with h | h | h <;> rcases opt3 (e i) with h' | h' | h' <;>
    simp [hr.zero hi, hr.one hi, h, h']

theorem Cons.symm (h : Cons d e1 e2) : Cons d e2 e1 := fun i hi a b => (h i hi b a).symm

theorem consVarVar_iff (h1 : Rd d ν n1 e1) (h2 : Rd d ν n2 e2) :
    ssTrue ν (consVarVarClauses d n1 n2) ↔ Cons d e1 e2 := by
  simp only [consVarVarClauses, ssTrue_flatMap, mem_rng, Nat.zero_le, true_and, Cons]
  refine forall_congr' fun i => forall_congr' fun hi => ?_
  rcases opt3 (e1 i) with h | h | h <;> rcases opt3 (e2 i) with h' | h' | h' <;>
    simp [h1.zero hi, h1.one hi, h2.zero hi, h2.one hi, h, h']

/-! ### hepr -/

theorem HEPR_nil : HEPR [] e1 e2 := by
  intro pre f post h
  simp at h

theorem HEPR_cons {f : Nat} {pref : List Nat} : HEPR (f :: pref) e1 e2 ↔
    ¬ (e1 f = none ∧ e2 f ≠ none) ∧ ((e1 f = none ↔ e2 f = none) → HEPR pref e1 e2) := by
  constructor
  · intro h
    refine ⟨h [] f pref rfl (by simp), fun hf pre g post hp hpre => ?_⟩
    refine h (f :: pre) g post (by simp [hp]) ?_
    simp only [List.mem_cons, forall_eq_or_imp]
    exact ⟨hf, hpre⟩
  · rintro ⟨h1, h2⟩ pre g post hp hpre
    cases pre with
    | nil =>
      simp only [List.nil_append, List.cons.injEq] at hp
      obtain ⟨rfl, rfl⟩ := hp
      exact h1
    | cons a pre =>
      simp only [List.cons_append, List.cons.injEq] at hp
      obtain ⟨rfl, rfl⟩ := hp
      simp only [List.mem_cons, forall_eq_or_imp] at hpre
      exact h2 hpre.1 pre g post rfl hpre.2

/-- The preference order is accepted. -/
theorem validatePref_ok {pref : List Int} {dim : Nat} :
    validatePref pref dim = .ok () ↔ (∀ i ∈ pref, 0 ≤ i ∧ i < dim) ∧ pref.Nodup := by
  have key : ∀ (pref seen : List Int), validatePrefFrom dim seen pref = .ok () ↔
      (∀ i ∈ pref, (0 ≤ i ∧ i < dim) ∧ i ∉ seen) ∧ pref.Nodup := by
    intro pref
    induction pref with
    | nil => intro seen; simp [validatePrefFrom]
    | cons a pref ih =>
      intro seen
      simp only [validatePrefFrom, List.mem_cons, forall_eq_or_imp, List.nodup_cons]
      split
      · next h =>
        simp only [reduceCtorEq, false_iff]
        rintro ⟨⟨⟨⟨h1, h2⟩, -⟩, -⟩, -⟩
        omega
      · next h =>
        split
        · next hs => simp [hs]
        · next hs =>
          rw [ih]
          simp only [List.mem_cons, not_or]
          constructor
          · rintro ⟨h1, h2⟩
            refine ⟨⟨⟨by omega, hs⟩, fun i hi => ⟨(h1 i hi).1, (h1 i hi).2.2⟩⟩, fun ha => ?_, h2⟩
            exact (h1 a ha).2.1 rfl
          · rintro ⟨⟨-, h1⟩, ha, h2⟩
            exact ⟨fun i hi => ⟨(h1 i hi).1, fun e => ha (e ▸ hi), (h1 i hi).2⟩, h2⟩
  unfold validatePref
  rw [key]
  simp

theorem heprCC_iff {c1 c2 : QConst} (h1 : GoodVals d c1.val) (h2 : GoodVals d c2.val) (pref : List Int)
    (hp : ∀ i ∈ pref, 0 ≤ i ∧ i < d) :
    heprCC c1 c2 pref = true ↔ HEPR (pref.map Int.toNat) (den c1.val) (den c2.val) := by
  induction pref with
  | nil => simp [heprCC, HEPR_nil]
  | cons f pref ih =>
    have hf := hp f (by simp)
    have hf' : f.toNat < d := by omega
    simp only [heprCC, List.map_cons, HEPR_cons]
    rw [at_eq h1 hf' c1 rfl, at_eq h2 hf' c2 rfl]
    simp only [ne_eq, valOf_bot]
    have ih := ih fun i hi => hp i (by simp [hi])
    by_cases a : den c1.val f.toNat = none <;> by_cases b : den c2.val f.toNat = none <;>
      simp [a, b, ih]

/-- The triples `(0, k)` of `r` say `HEPR` for the preferences from `k` on. -/
def Rank (ν : VarRep → Bool) (r : QVar) (pref : List Nat) (e1 e2 : PInst) : Prop :=
  ∀ k < pref.length, (ν ⟨r, 0, (k : Nat)⟩ = true ↔ HEPR (pref.drop k) e1 e2)

/-- The same as recursion equations. -/
def RankRec (ν : VarRep → Bool) (r : QVar) (pref : List Nat) (e1 e2 : PInst) : Prop :=
  ∀ k < pref.length, (ν ⟨r, 0, (k : Nat)⟩ = true ↔
    ¬ (e1 (pref.getD k 0) = none ∧ e2 (pref.getD k 0) ≠ none) ∧
    (k + 1 < pref.length → (e1 (pref.getD k 0) = none ↔ e2 (pref.getD k 0) = none) →
      ν ⟨r, 0, (k : Nat) + 1⟩ = true))

theorem rank_iff {r : QVar} {pref : List Nat} : RankRec ν r pref e1 e2 ↔ Rank ν r pref e1 e2 := by
  have hdrop : ∀ k (hk : k < pref.length), pref.drop k = pref.getD k 0 :: pref.drop (k + 1) := by
    intro k hk
    rw [List.getD_eq_getElem?_getD, List.getElem?_eq_getElem hk]
    simp
  constructor
  · intro h
    have key : ∀ m k, k < pref.length → pref.length - k = m → 
        (ν ⟨r, 0, (k : Nat)⟩ = true ↔ HEPR (pref.drop k) e1 e2) := by
      intro m
      induction m with
      | zero => intro k hk hm; omega
      | succ m ih =>
        intro k hk hm
        rw [h k hk, hdrop k hk, HEPR_cons]
        apply and_congr_right
        intro _
        by_cases hk1 : k + 1 < pref.length
        · have := ih (k + 1) hk1 (by omega)
          rw [show (((k + 1 : Nat)) : Int) = (k : Int) + 1 by omega] at this
          simp only [hk1, true_imp_iff, this]
        · rw [List.drop_eq_nil_of_le (by omega)]
          simp [hk1, HEPR_nil]
    exact fun k hk => key _ k hk rfl
  · intro h k hk
    rw [h k hk, hdrop k hk, HEPR_cons]
    apply and_congr_right
    intro _
    by_cases hk1 : k + 1 < pref.length
    · have := h (k + 1) hk1
      rw [show (((k + 1 : Nat)) : Int) = (k : Int) + 1 by omega] at this
      simp only [hk1, true_imp_iff, this]
    · rw [List.drop_eq_nil_of_le (by omega)]
      simp [hk1, HEPR_nil]

theorem getD_map_toNat (pref : List Int) (k : Nat) : (pref.map Int.toNat).getD k 0 = (prefAt pref k).toNat := by
  simp only [prefAt, List.getD_eq_getElem?_getD, List.getElem?_map]
  cases pref[k]? <;> simp

theorem mem_downFrom {plen i : Nat} : i ∈ downFrom plen ↔ i + 1 < plen := by
  simp only [downFrom, List.mem_reverse, mem_rng]; omega

theorem prefAt_mem {pref : List Int} {k : Nat} (h : k < pref.length) : prefAt pref k ∈ pref := by
  simp only [prefAt, List.getD_eq_getElem?_getD, List.getElem?_eq_getElem h, Option.getD_some]
  exact List.getElem_mem h

section
variable {pref : List Int} {r : QVar} (hp : ∀ i ∈ pref, 0 ≤ i ∧ i < d)
include hp

theorem prefAt_lt {k : Nat} (h : k < pref.length) :
    (prefAt pref k).toNat < d ∧ prefAt pref k = ((prefAt pref k).toNat : Nat) := by
  have := hp _ (prefAt_mem h); omega

theorem Rd.prefBot (hr : Rd d ν n e) {k : Nat} (h : k < pref.length) :
    ν ⟨n, prefAt pref k, BOT⟩ = decide (e (prefAt pref k).toNat = none) := by
  obtain ⟨h1, h2⟩ := prefAt_lt hp h
  have := hr.bot h1
  rwa [← h2] at this

omit hp in
/-- Splitting the positions of a preference order into the last one and the others. -/
theorem forall_pos (hne : pref ≠ []) {Q : Nat → Prop} : (∀ k < pref.length, Q k) ↔
    Q (pref.length - 1) ∧ ∀ k, k + 1 < pref.length → Q k := by
  have := List.length_pos_iff.2 hne
  constructor
  · intro h; exact ⟨h _ (by omega), fun k hk => h k (by omega)⟩
  · rintro ⟨h1, h2⟩ k hk
    by_cases hk1 : k + 1 < pref.length
    · exact h2 k hk1
    · rw [show k = pref.length - 1 by omega]; exact h1

theorem heprConstVarCon_iff {c : QConst} (hc : GoodVals d c.val) (hr : Rd d ν n e) (hne : pref ≠ []) :
    ssTrue ν (heprConstVarCon c n r pref) ↔ Rank ν r (pref.map Int.toNat) (den c.val) e := by
  have hpos := List.length_pos_iff.2 hne
  rw [← rank_iff]
  unfold RankRec
  simp only [List.length_map, getD_map_toNat]
  rw [forall_pos hne]
  simp only [heprConstVarCon, ssTrue_append, ssTrue_flatMap, mem_downFrom]
  apply and_congr
  · have h1 := prefAt_lt hp (k := pref.length - 1) (by omega)
    rw [at_eq hc h1.1 c rfl, show ((pref.length : Int) - 1) = ((pref.length - 1 : Nat) : Int) by omega]
    have hb := Rd.prefBot hp hr (k := pref.length - 1) (by omega)
    simp only [ne_eq, valOf_bot, show ¬ (pref.length - 1 + 1 < pref.length) by omega, false_imp_iff, and_true]
    by_cases a : den c.val (prefAt pref (pref.length - 1)).toNat = none <;>
      by_cases b : e (prefAt pref (pref.length - 1)).toNat = none <;> simp [a, b, hb]
  · refine forall_congr' fun k => forall_congr' fun hk => ?_
    have h1 := prefAt_lt hp (k := k) (by omega)
    rw [at_eq hc h1.1 c rfl]
    have hb := Rd.prefBot hp hr (k := k) (by omega)
    simp only [ne_eq, valOf_bot, hk, true_imp_iff]
    cases x : ν ⟨r, 0, (k : Nat)⟩ <;> cases y : ν ⟨r, 0, (k : Nat) + 1⟩ <;>
    by_cases a : den c.val (prefAt pref k).toNat = none <;>
      by_cases b : e (prefAt pref k).toNat = none <;> simp [a, b, hb, x, y]

theorem heprVarConstCon_iff {c : QConst} (hc : GoodVals d c.val) (hr : Rd d ν n e) (hne : pref ≠ []) :
    ssTrue ν (heprVarConstCon n c r pref) ↔ Rank ν r (pref.map Int.toNat) e (den c.val) := by
  have hpos := List.length_pos_iff.2 hne
  rw [← rank_iff]
  unfold RankRec
  simp only [List.length_map, getD_map_toNat]
  rw [forall_pos hne]
  simp only [heprVarConstCon, ssTrue_append, ssTrue_flatMap, mem_downFrom]
  apply and_congr
  · have h1 := prefAt_lt hp (k := pref.length - 1) (by omega)
    rw [at_eq hc h1.1 c rfl, show ((pref.length : Int) - 1) = ((pref.length - 1 : Nat) : Int) by omega]
    have hb := Rd.prefBot hp hr (k := pref.length - 1) (by omega)
    simp only [ne_eq, valOf_bot, show ¬ (pref.length - 1 + 1 < pref.length) by omega, false_imp_iff, and_true]
    by_cases a : den c.val (prefAt pref (pref.length - 1)).toNat = none <;>
      by_cases b : e (prefAt pref (pref.length - 1)).toNat = none <;> simp [a, b, hb]
  · refine forall_congr' fun k => forall_congr' fun hk => ?_
    have h1 := prefAt_lt hp (k := k) (by omega)
    rw [at_eq hc h1.1 c rfl]
    have hb := Rd.prefBot hp hr (k := k) (by omega)
    simp only [ne_eq, valOf_bot, hk, true_imp_iff]
    cases x : ν ⟨r, 0, (k : Nat)⟩ <;> cases y : ν ⟨r, 0, (k : Nat) + 1⟩ <;>
    by_cases a : den c.val (prefAt pref k).toNat = none <;>
      by_cases b : e (prefAt pref k).toNat = none <;> simp [a, b, hb, x, y]

theorem heprVarVarCon_iff (hr1 : Rd d ν n1 e1) (hr2 : Rd d ν n2 e2) (hne : pref ≠ []) :
    ssTrue ν (heprVarVarCon n1 n2 r pref) ↔ Rank ν r (pref.map Int.toNat) e1 e2 := by
  have hpos := List.length_pos_iff.2 hne
  rw [← rank_iff]
  unfold RankRec
  simp only [List.length_map, getD_map_toNat]
  rw [forall_pos hne]
  simp only [heprVarVarCon, ssTrue_append, ssTrue_flatMap, mem_downFrom]
  apply and_congr
  · rw [show ((pref.length : Int) - 1) = ((pref.length - 1 : Nat) : Int) by omega]
    have hb1 := Rd.prefBot hp hr1 (k := pref.length - 1) (by omega)
    have hb2 := Rd.prefBot hp hr2 (k := pref.length - 1) (by omega)
    simp only [show ¬ (pref.length - 1 + 1 < pref.length) by omega, false_imp_iff, and_true]
    cases x : ν ⟨r, 0, ((pref.length - 1 : Nat) : Int)⟩ <;>
    by_cases a : e1 (prefAt pref (pref.length - 1)).toNat = none <;>
      by_cases b : e2 (prefAt pref (pref.length - 1)).toNat = none <;> simp [a, b, hb1, hb2, x]
  · refine forall_congr' fun k => forall_congr' fun hk => ?_
    have hb1 := Rd.prefBot hp hr1 (k := k) (by omega)
    have hb2 := Rd.prefBot hp hr2 (k := k) (by omega)
    simp only [hk, true_imp_iff]
    cases x : ν ⟨r, 0, (k : Nat)⟩ <;> cases y : ν ⟨r, 0, (k : Nat) + 1⟩ <;>
    by_cases a : e1 (prefAt pref k).toNat = none <;>
      by_cases b : e2 (prefAt pref k).toNat = none <;> simp [a, b, hb1, hb2, x, y]

end

/-! ### leh -/

theorem hdCount_eq {vs ws : List FeatV} (h1 : GoodVals d vs) (h2 : GoodVals d ws) :
    hdCount vs ws = hamming d (den vs) (den ws) := by
  have key : ∀ (vs ws : List FeatV) (q : Nat → Bool), vs.length = ws.length →
      (∀ i, i < vs.length → q i = decide (vs.getD i 0 ≠ ws.getD i 0)) →
      hdCount vs ws = countFeats vs.length q := by
    intro vs
    induction vs with
    | nil => intro ws q h _; cases ws <;> simp [hdCount, countFeats_zero]
    | cons v vs ih =>
      intro ws q h hq
      cases ws with
      | nil => simp at h
      | cons w ws =>
        simp only [hdCount, List.length_cons]
        rw [countFeats_succ', ih ws (fun i => q (i + 1)) (by simpa using h) (fun i hi => by
          have := hq (i + 1) (by simpa using hi)
          simpa using this)]
        have := hq 0 (by simp)
        simp only [List.getD_cons_zero] at this
        rw [this]
        simp
  unfold hamming
  rw [key vs ws (fun i => den vs i != den ws i) (h1.1.trans h2.1.symm), h1.1]
  intro i hi
  have hi' : i < d := by rw [← h1.1]; exact hi
  have a1 := at_eq h1 hi' ⟨[], vs⟩ rfl
  have a2 := at_eq h2 hi' ⟨[], ws⟩ rfl
  simp only [QConst.at] at a1 a2
  rw [a1, a2]
  simp only [ne_eq, valOf_inj]
  rcases opt3 (den vs i) with h | h | h <;> rcases opt3 (den ws i) with h' | h' | h' <;> rw [h, h'] <;> rfl

theorem hamming_comm (d : Nat) (e e' : PInst) : hamming d e e' = hamming d e' e := by
  unfold hamming
  apply countFeats_congr
  intro i _
  rcases opt3 (e i) with h | h | h <;> rcases opt3 (e' i) with h' | h' | h' <;> rw [h, h'] <;> rfl

theorem hamming_le (d : Nat) (e e' : PInst) : hamming d e e' ≤ d := countFeats_le _ _

/-- The distance to a constant. -/
theorem hdVC_iff (hd : 0 < d) {c : QConst} (hc : GoodVals d c.val) (hr : Rd d ν n e) :
    ssTrue ν (hdClauses d cv fun i => ⟨n, (i : Nat), c.at i⟩) ↔
      Counter d ν cv (fun i => e i != den c.val i) := by
  rw [hdClauses_iff hd]
  have he : ∀ i < d, (!ν ⟨n, (i : Nat), c.at i⟩) = (e i != den c.val i) := by
    intro i hi
    rw [at_eq hc hi c rfl, hr.val hi]
    rcases opt3 (e i) with h | h | h <;> rcases opt3 (den c.val i) with h' | h' | h' <;> rw [h, h'] <;> rfl
  exact ⟨fun h => h.congr he, fun h => h.congr fun i hi => (he i hi).symm⟩

/-- Equal features of full instances. -/
theorem fullVarEqual_full {q : QVar} (hr1 : Rd d ν n1 e1) (hr2 : Rd d ν n2 e2) (h1 : Full d e1) (h2 : Full d e2)
    (h : ssTrue ν (fullVarEqualClauses d n1 n2 q)) {i : Nat} (hi : i < d) :
    ν ⟨q, (i : Nat), 0⟩ = decide (e1 i = e2 i) := by
  simp only [fullVarEqualClauses, ssTrue_flatMap, mem_rng, Nat.zero_le, true_and] at h
  have h := h i hi
  have a1 := h1 i hi
  have a2 := h2 i hi
  rcases opt3 (e1 i) with h | h | h <;> rcases opt3 (e2 i) with h' | h' | h' <;>
    simp_all [hr1.zero hi, hr1.one hi, hr2.zero hi, hr2.one hi]

theorem fullVarEqual_of {q : QVar} (hr1 : Rd d ν n1 e1) (hr2 : Rd d ν n2 e2)
    (h : ∀ i < d, ν ⟨q, (i : Nat), 0⟩ = decide (e1 i = e2 i)) :
    ssTrue ν (fullVarEqualClauses d n1 n2 q) := by
  simp only [fullVarEqualClauses, ssTrue_flatMap, mem_rng, Nat.zero_le, true_and]
  intro i hi
  rcases opt3 (e1 i) with h1 | h1 | h1 <;> rcases opt3 (e2 i) with h2 | h2 | h2 <;>
    simp [hr1.zero hi, hr1.one hi, hr2.zero hi, hr2.one hi, h i hi, h1, h2]

/-- The comparison of two distances. -/
theorem hdLeSem_iff (hd : 0 < d) {a b : QVar} {A B : Nat → Bool} (ha : Counter d ν a A)
    (hb : Counter d ν b B) : ssTrue ν (hdLeSem d a b) ↔ countFeats d A ≤ countFeats d B := by
  have hA := countFeats_le d A
  have hB := countFeats_le d B
  simp only [hdLeSem, ssTrue_flatMap, ssTrue_map, mem_rng, scTrue_cons, scTrue_nil, slTrue_N, or_false,
    Nat.zero_le, true_and]
  constructor
  · intro h
    rcases Nat.lt_or_ge (countFeats d B) (countFeats d A) with hlt | hge
    · have := h (countFeats d A) ⟨by omega, by omega⟩ (countFeats d B) hlt
      rw [ha.last hd hA, hb.last hd hB] at this
      simp at this
    · exact hge
  · intro h i hi j hj
    rw [ha.last hd (by omega), hb.last hd (by omega)]
    simp only [decide_eq_false_iff_not]
    omega

/-- The last row of a counter against a range of values. -/
theorem last_ne_iff (hd : 0 < d) {a : QVar} {A : Nat → Bool} (ha : Counter d ν a A) {l h : Nat}
    (hh : h ≤ d + 1) :
    ssTrue ν ((rng l h).map fun (i : Nat) => [N a (d - 1) i]) ↔ ¬ (l ≤ countFeats d A ∧ countFeats d A < h) := by
  simp only [ssTrue_map, mem_rng, scTrue_cons, scTrue_nil, slTrue_N, or_false]
  constructor
  · intro H hc
    have := H (countFeats d A) hc
    rw [ha.last hd (by omega)] at this
    simp at this
  · intro H i hi
    rw [ha.last hd (by omega), decide_eq_false_iff_not]
    intro e
    exact H (e ▸ hi)

end Goexpdt

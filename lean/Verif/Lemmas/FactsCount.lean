import Verif.Lemmas.Facts
/- Counters: the clauses of lel and leh that count features. -/
namespace Goexpdt
open Spec

variable {d : Nat} {ν : VarRep → Bool} {n n1 n2 cv : QVar} {e e1 e2 : PInst} {B : Nat → Bool}

theorem countFeats_succ (d : Nat) (p : Nat → Bool) :
    countFeats (d + 1) p = countFeats d p + (if p d then 1 else 0) := by
  unfold countFeats
  rw [List.range_succ, List.countP_append]
  simp [List.countP_cons]

theorem countFeats_zero (p : Nat → Bool) : countFeats 0 p = 0 := rfl

theorem countFeats_le (d : Nat) (p : Nat → Bool) : countFeats d p ≤ d := by
  have := List.countP_le_length (p := p) (l := List.range d)
  simpa [countFeats] using this

theorem countFeats_congr {d : Nat} {p q : Nat → Bool} (h : ∀ i < d, p i = q i) :
    countFeats d p = countFeats d q := by
  unfold countFeats
  apply List.countP_congr
  intro x hx
  rw [h x (by simpa using hx)]

/-- The triples `(i, j)` of `cv` say that exactly `j` of the features up to `i` satisfy `B`. -/
def Counter (d : Nat) (ν : VarRep → Bool) (cv : QVar) (B : Nat → Bool) : Prop :=
  ∀ i < d, ∀ j ≤ d, ν ⟨cv, (i : Nat), (j : Nat)⟩ = decide (countFeats (i + 1) B = j)

/-- The same as recursion equations. -/
structure CounterRec (d : Nat) (ν : VarRep → Bool) (cv : QVar) (B : Nat → Bool) : Prop where
  zero : ν ⟨cv, 0, 0⟩ = !B 0 ∧ ν ⟨cv, 0, 1⟩ = B 0
  step0 : ∀ i, 1 ≤ i → i < d → ν ⟨cv, (i : Nat), 0⟩ = (ν ⟨cv, (i : Nat) - 1, 0⟩ && !B i)
  step : ∀ i, 1 ≤ i → i < d → ∀ j, 1 ≤ j → j < i + 2 → ν ⟨cv, (i : Nat), (j : Nat)⟩ =
    if B i then ν ⟨cv, (i : Nat) - 1, (j : Nat) - 1⟩ else ν ⟨cv, (i : Nat) - 1, (j : Nat)⟩
  big : ∀ i < d, ∀ j, i + 2 ≤ j → j < d + 1 → ν ⟨cv, (i : Nat), (j : Nat)⟩ = false

theorem CounterRec.counter (h : CounterRec d ν cv B) : Counter d ν cv B := by
  intro i
  induction i with
  | zero =>
    intro hi j hj
    rw [countFeats_succ, countFeats_zero]
    rcases Nat.lt_or_ge j 2 with hj2 | hj2
    · have : j = 0 ∨ j = 1 := by omega
      rcases this with rfl | rfl
      · have := h.zero.1
        simp only [Int.natCast_zero] at this ⊢
        rw [this]; cases B 0 <;> simp
      · have := h.zero.2
        show ν ⟨cv, 0, 1⟩ = _
        rw [this]; cases B 0 <;> simp
    · rw [h.big 0 hi j (by omega) (by omega)]
      split <;> simp <;> omega
  | succ i ih =>
    intro hi j hj
    have ih := ih (by omega)
    rw [countFeats_succ]
    have hb := countFeats_le (i + 1) B
    have ei : (((i + 1 : Nat) : Int) - 1) = (i : Nat) := by omega
    rcases Nat.lt_or_ge j (i + 3) with hj2 | hj2
    · rcases Nat.eq_zero_or_pos j with rfl | hpos
      · have := h.step0 (i + 1) (by omega) hi
        rw [ei] at this
        rw [show (((0 : Nat) : Int)) = 0 from rfl, this]
        have e0 := ih 0 (by omega)
        rw [show (((0 : Nat) : Int)) = 0 from rfl] at e0
        rw [e0]
        cases B (i + 1) <;> simp
      · have := h.step (i + 1) (by omega) hi j hpos (by omega)
        rw [ei] at this
        rw [this]
        have ej : ((j : Int) - 1) = ((j - 1 : Nat) : Int) := by omega
        cases hB : B (i + 1)
        · simp only [Bool.false_eq_true, if_false, Nat.add_zero]
          exact ih j (by omega)
        · simp only [if_true]
          rw [ej, ih (j - 1) (by omega), decide_eq_decide]
          omega
    · rw [h.big (i + 1) hi j (by omega) (by omega)]
      symm
      rw [decide_eq_false_iff_not]
      split <;> omega

theorem Counter.rec (hd : 0 < d) (h : Counter d ν cv B) : CounterRec d ν cv B := by
  have c1 : ∀ i, countFeats (i + 1) B ≤ i + 1 := fun i => countFeats_le (i + 1) B
  refine ⟨⟨?_, ?_⟩, ?_, ?_, ?_⟩
  · have := h 0 hd 0 (by omega)
    rw [countFeats_succ, countFeats_zero] at this
    rw [show (⟨cv, 0, 0⟩ : VarRep) = ⟨cv, ((0 : Nat) : Int), ((0 : Nat) : Int)⟩ from rfl, this]
    cases B 0 <;> simp
  · have := h 0 hd 1 (by omega)
    rw [countFeats_succ, countFeats_zero] at this
    rw [show (⟨cv, 0, 1⟩ : VarRep) = ⟨cv, ((0 : Nat) : Int), ((1 : Nat) : Int)⟩ from rfl, this]
    cases B 0 <;> simp
  · intro i hi hid
    have h1 := h i hid 0 (by omega)
    have h2 := h (i - 1) (by omega) 0 (by omega)
    rw [show ((i : Int) - 1) = ((i - 1 : Nat) : Int) by omega]
    rw [show (((0 : Nat) : Int)) = 0 from rfl] at h1 h2
    rw [h1, h2, countFeats_succ, show i - 1 + 1 = i by omega]
    cases B i <;> simp
  · intro i hi hid j hj hji
    have e1 : ((i : Int) - 1) = ((i - 1 : Nat) : Int) := by omega
    have e2 : ((j : Int) - 1) = ((j - 1 : Nat) : Int) := by omega
    rw [e1, e2, h i hid j (by omega), h (i - 1) (by omega) j (by omega), h (i - 1) (by omega) (j - 1) (by omega),
      countFeats_succ, show i - 1 + 1 = i by omega]
    cases B i
    · simp
    · simp only [if_true, decide_eq_decide]; omega
  · intro i hi j hj hjd
    rw [h i hi j (by omega), decide_eq_false_iff_not]
    have := c1 i
    omega

theorem countTooBig_iff : ssTrue ν (countTooBig d cv) ↔
    ∀ i < d, ∀ j, i + 2 ≤ j → j < d + 1 → ν ⟨cv, (i : Nat), (j : Nat)⟩ = false := by
  simp only [countTooBig, ssTrue_flatMap, ssTrue_map, mem_rng, Nat.zero_le, true_and, scTrue_cons,
    scTrue_nil, slTrue_N, or_false, and_imp]

/-- The clauses of lel's counter. -/
theorem varBotCount_iff (hd : 0 < d) : ssTrue ν (varBotCountClauses d n cv) ↔
    Counter d ν cv (fun i => ν ⟨n, (i : Nat), BOT⟩) := by
  refine Iff.trans ?_ (⟨CounterRec.counter, Counter.rec hd⟩ :
    CounterRec d ν cv (fun i => ν ⟨n, (i : Nat), BOT⟩) ↔ _)
  simp only [varBotCountClauses, ssTrue_append, ssTrue_flatMap, botCountStep, countTooBig_iff, ssTrue_cons,
    ssTrue_nil, scTrue_cons, scTrue_nil, slTrue_P, slTrue_N, or_false, and_true, mem_rng, and_imp]
  constructor
  · rintro ⟨⟨h1, h2⟩, h3⟩
    refine ⟨?_, ?_, ?_, h2⟩
    · rw [show (((0 : Nat) : Int)) = 0 from rfl]; grind
    · intro i hi hid
      have := (h1 i hi hid).1
      grind
    · intro i hi hid j hj hji
      have := (h1 i hi hid).2 j hj hji
      grind
  · rintro ⟨h1, h2, h3, h4⟩
    refine ⟨⟨fun i hi hid => ⟨?_, fun j hj hji => ?_⟩, h4⟩, ?_⟩
    · have := h2 i hi hid; grind
    · have := h3 i hi hid j hj hji; grind
    · rw [show (((0 : Nat) : Int)) = 0 from rfl] at h1; grind

/-- The clauses of leh's counters. -/
theorem hdClauses_iff (hd : 0 < d) {eq : Nat → VarRep} : ssTrue ν (hdClauses d cv eq) ↔
    Counter d ν cv (fun i => !ν (eq i)) := by
  refine Iff.trans ?_ (⟨CounterRec.counter, Counter.rec hd⟩ :
    CounterRec d ν cv (fun i => !ν (eq i)) ↔ _)
  simp only [hdClauses, ssTrue_append, ssTrue_flatMap, countTooBig_iff, ssTrue_cons,
    ssTrue_nil, scTrue_cons, scTrue_nil, slTrue_P, slTrue_N, slTrue_mk, or_false, and_true, mem_rng, and_imp]
  constructor
  · rintro ⟨⟨h1, h2⟩, h3⟩
    refine ⟨?_, ?_, ?_, h3⟩
    · grind
    · intro i hi hid
      have := (h2 i hi hid).1
      grind
    · intro i hi hid j hj hji
      have := (h2 i hi hid).2 j hj hji
      grind
  · rintro ⟨h1, h2, h3, h4⟩
    refine ⟨⟨?_, fun i hi hid => ⟨?_, fun j hj hji => ?_⟩⟩, h4⟩
    · grind
    · have := h2 i hi hid; grind
    · have := h3 i hi hid j hj hji; grind

theorem Counter.congr {C : Nat → Bool} (h : Counter d ν cv B) (e : ∀ i < d, B i = C i) : Counter d ν cv C := by
  intro i hi j hj
  rw [h i hi j hj, countFeats_congr fun k hk => e k (by omega)]

/-- The last row of a counter. -/
theorem Counter.last (hd : 0 < d) (h : Counter d ν cv B) {j : Nat} (hj : j ≤ d) :
    ν ⟨cv, (d : Nat) - 1, (j : Nat)⟩ = decide (countFeats d B = j) := by
  have := h (d - 1) (by omega) j hj
  rw [show d - 1 + 1 = d by omega] at this
  rw [show ((d : Int) - 1) = ((d - 1 : Nat) : Int) by omega, this]

/-! ### lel -/

theorem countFeats_succ' (d : Nat) (p : Nat → Bool) :
    countFeats (d + 1) p = (if p 0 then 1 else 0) + countFeats d fun i => p (i + 1) := by
  unfold countFeats
  rw [List.range_succ_eq_map, List.countP_cons, List.countP_map, Nat.add_comm]
  rfl

theorem countFeats_list {α : Type} (vs : List α) (p : α → Bool) (q : Nat → Bool)
    (h : ∀ i (hi : i < vs.length), q i = p vs[i]) : countFeats vs.length q = vs.countP p := by
  induction vs generalizing q with
  | nil => rfl
  | cons v vs ih =>
    rw [List.length_cons, countFeats_succ', List.countP_cons, ih (fun i => q (i + 1))
      (fun i hi => by have := h (i + 1) (by simpa using hi); simpa using this), Nat.add_comm]
    have := h 0 (by simp)
    simp only [List.getElem_cons_zero] at this
    rw [this]

theorem botCount_eq (c : QConst) (hc : GoodVals d c.val) : c.botCount = numBot d (den c.val) := by
  have key : ∀ (l : List FeatV) n,
      l.foldl (fun count ft => if ft = BOT then count + 1 else count) n =
        n + l.countP (fun ft => decide (ft = BOT)) := by
    intro l
    induction l with
    | nil => intro n; rfl
    | cons a l ih =>
      intro n
      simp only [List.foldl_cons, List.countP_cons, decide_eq_true_eq]
      rw [ih]
      split <;> omega
  unfold QConst.botCount numBot
  rw [key, Nat.zero_add, ← hc.1]
  symm
  apply countFeats_list
  intro i hi
  have := at_eq hc (i := i) (by have := hc.1; omega) c rfl
  simp only [QConst.at, List.getD_eq_getElem?_getD, List.getElem?_eq_getElem hi, Option.getD_some] at this
  rw [this]
  rcases opt3 (den c.val i) with h | h | h <;> rw [h] <;> decide

theorem lelConstVar_iff (hd : 0 < d) {c : QConst} (hc : GoodVals d c.val)
    (hk : Counter d ν cv (fun i => (e i).isNone)) :
    ssTrue ν (lelConstVarSem d c cv) ↔ LEL d (den c.val) e := by
  have hb := countFeats_le d fun i => (e i).isNone
  simp only [lelConstVarSem, ssTrue_map, mem_rng, scTrue_cons, scTrue_nil, slTrue_N, or_false, LEL,
    botCount_eq c hc]
  constructor
  · intro h
    rcases Nat.lt_or_ge (numBot d (den c.val)) (numBot d e) with hlt | hge
    · have := h (numBot d e) ⟨by omega, by unfold numBot; omega⟩
      rw [hk.last hd (j := numBot d e) hb] at this
      simp [numBot] at this
    · exact hge
  · intro h j hj
    rw [hk.last hd (by omega), decide_eq_false_iff_not]
    unfold numBot at *
    omega

theorem lelVarConst_iff (hd : 0 < d) {c : QConst} (hc : GoodVals d c.val)
    (hk : Counter d ν cv (fun i => (e i).isNone)) :
    ssTrue ν (lelVarConstSem d c cv) ↔ LEL d e (den c.val) := by
  have hb := countFeats_le d fun i => (e i).isNone
  have hb' := countFeats_le d fun i => (den c.val i).isNone
  simp only [lelVarConstSem, ssTrue_map, mem_rng, scTrue_cons, scTrue_nil, slTrue_N, or_false, LEL,
    botCount_eq c hc]
  constructor
  · intro h
    rcases Nat.lt_or_ge (numBot d e) (numBot d (den c.val)) with hlt | hge
    · have := h (numBot d e) ⟨by omega, by omega⟩
      rw [hk.last hd (j := numBot d e) hb] at this
      simp [numBot] at this
    · exact hge
  · intro h j hj
    unfold numBot at *
    rw [hk.last hd (by omega), decide_eq_false_iff_not]
    omega

theorem lelVarVar_iff (hd : 0 < d) {cv1 cv2 : QVar}
    (h1 : Counter d ν cv1 (fun i => (e1 i).isNone)) (h2 : Counter d ν cv2 (fun i => (e2 i).isNone)) :
    ssTrue ν (lelVarVarSem d cv1 cv2) ↔ LEL d e1 e2 := by
  have hb1 := countFeats_le d fun i => (e1 i).isNone
  have hb2 := countFeats_le d fun i => (e2 i).isNone
  simp only [lelVarVarSem, ssTrue_map, mem_rng, scTrue_cons, slTrue_N, scTrue_map, slTrue_P, LEL]
  constructor
  · intro h
    rcases Nat.lt_or_ge (numBot d e1) d with hlt | hge
    · rcases h (numBot d e1) ⟨by omega, hlt⟩ with h | ⟨j, hj, h⟩
      · rw [h1.last hd (j := numBot d e1) hb1] at h; simp [numBot] at h
      · rw [h2.last hd (by omega)] at h
        simp only [decide_eq_true_eq] at h
        unfold numBot at *
        omega
    · unfold numBot at *; omega
  · intro h j hj
    by_cases hj1 : numBot d e1 = j
    · right
      refine ⟨numBot d e2, by omega, ?_⟩
      rw [h2.last hd (j := numBot d e2) hb2]
      simp [numBot]
    · left
      rw [h1.last hd (by omega), decide_eq_false_iff_not]
      exact hj1

end Goexpdt

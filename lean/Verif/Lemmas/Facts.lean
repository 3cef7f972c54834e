import Verif.Lemmas.Emit
import Verif.Spec.Formula
import Verif.Lemmas.CaptureBind
/- What the clauses of the simple predicates say, and counters. -/
namespace Goexpdt
open Spec

/-! ### feature values -/

theorem valOf_bot {a : Option Bool} : valOf a = BOT ↔ a = none := by
  rcases a with - | a
  · simp [valOf]
  · cases a <;> simp [valOf] <;> decide
theorem valOf_zero {a : Option Bool} : valOf a = ZERO ↔ a = some false := by
  rcases a with - | a
  · simp [valOf]; decide
  · cases a <;> simp [valOf]; decide
theorem valOf_one {a : Option Bool} : valOf a = ONE ↔ a = some true := by
  rcases a with - | a
  · simp [valOf]; decide
  · cases a <;> simp [valOf]; decide
theorem valOf_mem (a : Option Bool) : valOf a ∈ featVals := by
  rcases a with - | a
  · simp [valOf, featVals]
  · cases a <;> simp [valOf, featVals]
theorem valOf_inj {a b : Option Bool} : valOf a = valOf b ↔ a = b := by
  constructor
  · intro h
    rcases b with - | b
    · exact valOf_bot.1 h
    · cases b
      · exact valOf_zero.1 h
      · exact valOf_one.1 h
  · rintro rfl; rfl

theorem featDen_valOf (a : Option Bool) : featDen (valOf a) = a := by
  rcases a with - | a
  · rfl
  · cases a <;> rfl

theorem valOf_featDen {v : FeatV} (h : v = BOT ∨ v = ZERO ∨ v = ONE) : valOf (featDen v) = v := by
  rcases h with rfl | rfl | rfl <;> rfl

theorem opt3 (a : Option Bool) : a = none ∨ a = some false ∨ a = some true := by
  rcases a with - | a
  · simp
  · cases a <;> simp

theorem at_eq {d : Nat} {vs : List FeatV} (h : GoodVals d vs) {i : Nat} (hi : i < d) (c : QConst)
    (hc : c.val = vs) : c.at i = valOf (den vs i) := by
  obtain ⟨h1, h2⟩ := h
  subst hc
  have hi' : i < c.val.length := by omega
  simp only [QConst.at, den, List.getElem?_eq_getElem hi', List.getD_eq_getElem?_getD]
  simp only [Option.getD_some]
  rw [valOf_featDen]
  exact h2 _ (List.getElem_mem hi')

/-- The valuation of triples assigns instance `e` to the name `n`. -/
def Rd (d : Nat) (ν : VarRep → Bool) (n : QVar) (e : PInst) : Prop :=
  ∀ i < d, ∀ v ∈ featVals, ν ⟨n, (i : Nat), v⟩ = decide (valOf (e i) = v)

section
variable {d : Nat} {ν : VarRep → Bool} {n n1 n2 : QVar} {e e1 e2 : PInst}

theorem Rd.bot (h : Rd d ν n e) {i : Nat} (hi : i < d) : ν ⟨n, (i : Nat), BOT⟩ = decide (e i = none) := by
  rw [h i hi BOT (by simp [featVals]), decide_eq_decide]; exact valOf_bot
theorem Rd.zero (h : Rd d ν n e) {i : Nat} (hi : i < d) :
    ν ⟨n, (i : Nat), ZERO⟩ = decide (e i = some false) := by
  rw [h i hi ZERO (by simp [featVals]), decide_eq_decide]; exact valOf_zero
theorem Rd.one (h : Rd d ν n e) {i : Nat} (hi : i < d) :
    ν ⟨n, (i : Nat), ONE⟩ = decide (e i = some true) := by
  rw [h i hi ONE (by simp [featVals]), decide_eq_decide]; exact valOf_one
theorem Rd.val (h : Rd d ν n e) {i : Nat} (hi : i < d) (a : Option Bool) :
    ν ⟨n, (i : Nat), valOf a⟩ = decide (e i = a) := by
  rw [h i hi _ (valOf_mem a), decide_eq_decide]; exact valOf_inj

/-! ### subsumption -/

theorem subsCC_iff (vs ws : List FeatV) : ∀ d, GoodVals d vs → GoodVals d ws →
    (subsCC vs ws = true ↔ Subsumes d (den vs) (den ws)) := by
  induction vs generalizing ws with
  | nil =>
    rintro d ⟨rfl, -⟩ -
    simp [subsCC, Subsumes]
  | cons v vs ih =>
    rintro d ⟨rfl, h1⟩ ⟨h2, h3⟩
    cases ws with
    | nil => simp at h2
    | cons w ws =>
      have hv := h1 v (by simp)
      have hw := h3 w (by simp)
      have ih' := ih ws vs.length ⟨rfl, fun x hx => h1 x (by simp [hx])⟩
        ⟨by simpa using h2, fun x hx => h3 x (by simp [hx])⟩
      have e0 : den (v :: vs) 0 = featDen v := by simp [den]
      have f0 : den (w :: ws) 0 = featDen w := by simp [den]
      have es : ∀ i, den (v :: vs) (i + 1) = den vs i := by simp [den]
      have fs : ∀ i, den (w :: ws) (i + 1) = den ws i := by simp [den]
      have key : (v ≠ BOT ∧ v ≠ w) ↔ ¬ (featDen v ≠ none → featDen v = featDen w) := by
        rw [← valOf_featDen hv, ← valOf_featDen hw]
        simp only [ne_eq, valOf_bot, valOf_inj, featDen_valOf]
        simp
      have hsplit : Subsumes (v :: vs).length (den (v :: vs)) (den (w :: ws)) ↔
          (featDen v ≠ none → featDen v = featDen w) ∧ Subsumes vs.length (den vs) (den ws) := by
        constructor
        · intro h
          refine ⟨?_, fun i hi => ?_⟩
          · have := h 0 (by simp); rwa [e0, f0] at this
          · have := h (i + 1) (by simpa using hi); rwa [es, fs] at this
        · rintro ⟨a, b⟩ i hi
          cases i with
          | zero => rw [e0, f0]; exact a
          | succ i => rw [es, fs]; exact b i (by simpa using hi)
      rw [hsplit, ← ih']
      simp only [subsCC]
      by_cases hc : v ≠ BOT ∧ v ≠ w
      · rw [if_pos hc]
        simp only [Bool.false_eq_true, false_iff, not_and]
        intro h; exact absurd h (key.1 hc)
      · rw [if_neg hc]
        have : featDen v ≠ none → featDen v = featDen w := by
          rcases Classical.em (featDen v ≠ none → featDen v = featDen w) with h | h
          · exact h
          · exact absurd (key.2 h) hc
        exact ⟨fun h => ⟨this, h⟩, fun h => h.2⟩

theorem subsConstVar_iff {c : QConst} (hc : GoodVals d c.val) (hr : Rd d ν n e) :
    ssTrue ν (subsConstVarClauses d c n) ↔ Subsumes d (den c.val) e := by
  simp only [subsConstVarClauses, ssTrue_flatMap, mem_rng, Nat.zero_le, true_and, Subsumes]
  refine forall_congr' fun i => forall_congr' fun hi => ?_
  rw [at_eq hc hi c rfl]
  by_cases h : den c.val i = none
  · simp [h, valOf]
  · rw [if_pos (by simpa [valOf_bot] using h)]
    simp only [ssTrue_cons, ssTrue_nil, scTrue_cons, scTrue_nil, slTrue_P, or_false, and_true,
      hr.val hi, decide_eq_true_eq]
    simp [h, eq_comm]

theorem subsVarConst_iff {c : QConst} (hc : GoodVals d c.val) (hr : Rd d ν n e) :
    ssTrue ν (subsVarConstClauses d n c) ↔ Subsumes d e (den c.val) := by
  simp only [subsVarConstClauses, ssTrue_flatMap, mem_rng, Nat.zero_le, true_and, Subsumes]
  refine forall_congr' fun i => forall_congr' fun hi => ?_
  rw [at_eq hc hi c rfl]
  simp only [valOf_one, valOf_zero]
  rcases opt3 (den c.val i) with h | h | h <;> rcases opt3 (e i) with h' | h' | h' <;>
    simp [hr.zero hi, hr.one hi, h, h']

theorem subsVarVar_iff (hr1 : Rd d ν n1 e1) (hr2 : Rd d ν n2 e2) :
    ssTrue ν (subsVarVarClauses d n1 n2) ↔ Subsumes d e1 e2 := by
  simp only [subsVarVarClauses, ssTrue_flatMap, mem_rng, Nat.zero_le, true_and, Subsumes]
  refine forall_congr' fun i => forall_congr' fun hi => ?_
  simp only [ssTrue_cons, ssTrue_nil, scTrue_cons, scTrue_nil, slTrue_P, slTrue_N, or_false, and_true,
    hr1.zero hi, hr1.one hi, hr2.zero hi, hr2.one hi]
  rcases e1 i with - | b <;> rcases e2 i with - | b' <;> simp <;> grind

end

end Goexpdt

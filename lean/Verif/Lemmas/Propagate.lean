import Verif.Spec.Propagate
import Verif.Lemmas.Sole
/- Unit propagation. -/
namespace Goexpdt
open Spec Props
namespace Force

section
variable {cls : List Clause}

/-- What unit propagation finds. -/
def found (cls : List Clause) : Found := fun n b => Forced cls (if b then (n : Int) else -(n : Int))

theorem TL_found {l : Int} : TL (found cls) l ↔ Forced cls l := by
  unfold TL found
  by_cases h : 0 < l
  · rw [if_pos (by simpa using h), show ((l.natAbs : Nat) : Int) = l by omega]
  · rw [if_neg (by simpa using h), show (-((l.natAbs : Nat) : Int)) = l by omega]

theorem FL_found {l : Int} : FL (found cls) l ↔ Forced cls (-l) := by
  unfold FL found
  by_cases h : 0 < l
  · rw [if_neg (by simpa using h), show ((l.natAbs : Nat) : Int) = l by omega]
  · rw [if_pos (by simp; omega), show (((l.natAbs : Nat) : Int)) = -l by omega]

theorem LS_found {a : List Clause} (h : ∀ cl ∈ a, cl ∈ cls) : LS (found cls) a := by
  intro cl hcl l hl hf
  exact TL_found.2 (.unit cl l (h cl hcl) hl fun k hk hne => FL_found.1 (hf k hk hne))

theorem forced_mono {cls' : List Clause} (h : ∀ cl ∈ cls, cl ∈ cls') {l : Int} (hl : Forced cls l) : Forced cls' l := by
  induction hl with
  | unit cl l h1 h2 _ ih => exact .unit cl l (h cl h1) h2 ih

/-- Unit propagation finds no literal that is false in a model. -/
theorem forced_true (hz : NonZero cls) {β : Val} (h : clausesTrue β cls) {l : Int} (hl : Forced cls l) : litTrue β l := by
  induction hl with
  | unit cl l h1 h2 _ ih =>
    obtain ⟨k, hk, ht⟩ := h cl h1
    by_cases e : k = l
    · exact e ▸ ht
    · exact absurd ht ((litTrue_neg (hz cl h1 k hk)).1 (ih k hk e))

theorem not_refuted (hz : NonZero cls) {β : Val} (h : clausesTrue β cls) : ¬ Refuted cls := by
  rintro ⟨cl, hcl, hf⟩
  obtain ⟨k, hk, ht⟩ := h cl hcl
  exact (litTrue_neg (hz cl hcl k hk)).1 (forced_true hz h (hf k hk)) ht

theorem refuted_of {l : Int} (h1 : Forced cls l) (h2 : Forced cls (-l)) : Refuted cls := by
  cases h1 with
  | unit cl _ hcl _ hf =>
    refine ⟨cl, hcl, fun k hk => ?_⟩
    by_cases e : k = l
    · exact e ▸ h2
    · exact hf k hk e

/-- Without a conflict, what unit propagation finds is a model of the clauses of which it finds all truth values. -/
theorem model_of {a : List Clause} (ha : ∀ cl ∈ a, cl ∈ cls) (hz : NonZero a) (hn : ¬ Refuted cls)
    (hd : ∀ cl ∈ a, ∀ l ∈ cl, Forced cls l ∨ Forced cls (-l)) : ∃ β : Val, clausesTrue β a ∧ ∀ n : Nat, β n = true ↔ Forced cls (n : Int) := by
  classical
  refine ⟨fun n => decide (Forced cls (n : Int)), fun cl hcl => ?_, fun n => by simp⟩
  refine Classical.byContradiction fun hno => hn ⟨cl, ha cl hcl, fun l hl => ?_⟩
  refine (hd cl hcl l hl).resolve_left fun h => hno ⟨l, hl, ?_⟩
  unfold litTrue
  have h0 := hz cl hcl l hl
  split
  · next hp =>
    have e : ((l.natAbs : Nat) : Int) = l := by omega
    show decide (Forced cls ((l.natAbs : Nat) : Int)) = true
    rw [e]
    exact decide_eq_true h
  · next hp =>
    have e : ((l.natAbs : Nat) : Int) = -l := by omega
    show decide (Forced cls ((l.natAbs : Nat) : Int)) = false
    rw [e]
    exact decide_eq_false fun h' => hn (refuted_of h h')

end

theorem mem_given {d : Nat} {names : List QVar} {s : Ctx} {σ : Asg} {cl : Clause} : cl ∈ given d names s σ ↔
    ∃ n ∈ names, ∃ i < d, ∃ v ∈ featVals, cl = [if valOf (σ n i) = v then num s ⟨n, (i : Nat), v⟩ else -num s ⟨n, (i : Nat), v⟩] := by
  simp only [given, List.mem_flatMap, List.mem_map, List.mem_range, eq_comm]

/-- The features of the instances are found. -/
theorem rd_given {d : Nat} {names : List QVar} {s : Ctx} (hv : VMok s) {σ : Asg} {cls : List Clause} (h : ∀ cl ∈ given d names s σ, cl ∈ cls)
    {n : QVar} (hn : n ∈ names) : Rd d (known s (found cls)) n (σ n) := by
  intro i hi v hvv
  have hm := h _ (mem_given.2 ⟨n, hn, i, hi, v, hvv, rfl⟩)
  have hp : 0 ≤ num s ⟨n, (i : Nat), v⟩ := by
    unfold num
    cases e : mapGet s.vmap ⟨n, (i : Nat), v⟩ with
    | none => simp
    | some k => have := hv.range _ _ e; simp only [Option.getD_some]; omega
  have e : (((num s ⟨n, (i : Nat), v⟩).natAbs : Nat) : Int) = num s ⟨n, (i : Nat), v⟩ := by omega
  have key : Forced cls (if valOf (σ n i) = v then num s ⟨n, (i : Nat), v⟩ else -num s ⟨n, (i : Nat), v⟩) :=
    .unit _ _ hm (by simp) fun k hk hne => absurd (by simpa using hk) hne
  unfold known found
  rw [e]
  simpa using key

end Force
end Goexpdt

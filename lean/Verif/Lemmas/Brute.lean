import Verif.Lemmas.SolverBin
/- A SAT solver that tries all valuations: the assumptions on solvers can be met. -/
namespace Goexpdt
open Spec

def boolLists : Nat → List (List Bool)
  | 0 => [[]]
  | n + 1 => (boolLists n).flatMap fun bs => [false :: bs, true :: bs]

theorem mem_boolLists (bs : List Bool) : bs ∈ boolLists bs.length := by
  induction bs with
  | nil => simp [boolLists]
  | cons b bs ih =>
    simp only [List.length_cons, boolLists, List.mem_flatMap]
    exact ⟨bs, ih, by cases b <;> simp⟩

/-- Variable `k` has the value at position `k - 1`. -/
def valList (bs : List Bool) : Val := fun k => bs.getD (k - 1) false

def litsOf (n : Nat) (β : Val) : List Int :=
  (List.range n).map fun k => if β (k + 1) then ((k + 1 : Nat) : Int) else -((k + 1 : Nat) : Int)

/-- Reads a DIMACS text and prints a solution, if there is one. -/
def bruteRun (text : List Char) : Run :=
  match readDimacs text with
  | none => .exited 1 [] []
  | some (n, _, cls) =>
    match (boolLists n.toNat).find? fun bs => decide (clausesTrue (valList bs) cls) with
    | none => .exited 20 [] []
    | some bs => .exited 10 (OutLine.vals (litsOf n.toNat (valList bs) ++ [0])).text []

theorem bruteRun_solves : Solves bruteRun := by
  intro text n m cls hr hb hz
  unfold bruteRun
  rw [hr]
  simp only
  cases hf : (boolLists n.toNat).find? fun bs => decide (clausesTrue (valList bs) cls) with
  | none =>
    refine .inr ⟨_, _, rfl, fun ⟨β, hβ⟩ => ?_⟩
    have hm := List.find?_eq_none.1 hf ((List.range n.toNat).map fun k => β (k + 1)) (by
      have := mem_boolLists ((List.range n.toNat).map fun k => β (k + 1))
      simpa using this)
    simp only [decide_eq_true_eq] at hm
    apply hm
    intro cl hcl
    obtain ⟨l, hl, ht⟩ := hβ cl hcl
    refine ⟨l, hl, ?_⟩
    have hbl := hb cl hcl l hl
    have h0 := hz cl hcl l hl
    have : valList ((List.range n.toNat).map fun k => β (k + 1)) l.natAbs = β l.natAbs := by
      unfold valList
      rw [List.getD_eq_getElem?_getD, List.getElem?_map, List.getElem?_range (by omega)]
      simp only [Option.map_some, Option.getD_some]
      congr 1; omega
    unfold litTrue at ht ⊢
    rw [this]
    exact ht
  | some bs =>
    have h1 := List.find?_some hf
    simp only [decide_eq_true_eq] at h1
    refine .inl ⟨_, _, valList bs, rfl, h1, [.vals (litsOf n.toNat (valList bs) ++ [0])], ?_, ?_, ?_, ?_⟩
    · simp [joinLines]
    · simp [OutLine.Ok]
    · intro k hk hkn
      simp only [List.flatMap_cons, List.flatMap_nil, List.append_nil, OutLine.lits, List.mem_append, litsOf, List.mem_map,
        List.mem_range]
      have hk' : ((k.toNat - 1 + 1 : Nat) : Int) = k := by omega
      cases hv : valList bs (k.toNat - 1 + 1) with
      | true => exact .inl (.inl ⟨k.toNat - 1, by omega, by rw [if_pos hv, hk']⟩)
      | false => exact .inr (.inl ⟨k.toNat - 1, by omega, by rw [if_neg (by simp [hv]), hk']⟩)
    · intro k hk h0
      simp only [List.flatMap_cons, List.flatMap_nil, List.append_nil, OutLine.lits, List.mem_append, litsOf, List.mem_map,
        List.mem_range, List.mem_singleton] at hk
      rcases hk with ⟨j, hj, rfl⟩ | rfl
      · cases hv : valList bs (j + 1) with
        | true =>
          refine ⟨by simp; omega, ?_⟩
          simp only [if_true, litTrue]
          rw [if_pos (by omega)]
          rw [Int.natAbs_natCast]; exact hv
        | false =>
          refine ⟨by simp; omega, ?_⟩
          simp only [Bool.false_eq_true, if_false, litTrue]
          rw [if_neg (by omega)]
          rw [Int.natAbs_neg, Int.natAbs_natCast]; exact hv
      · exact absurd rfl h0

/-- A solver that is correct, never fails, and counts its calls. -/
def bruteSolver : Solver BinSt := binSolver fun _ => ⟨none, some none, bruteRun⟩

theorem bruteSolver_correct : Correct bruteSolver := binSolver_correct fun _ => bruteRun_solves

theorem bruteSolver_reliable : Reliable bruteSolver :=
  binSolver_reliable (fun _ => bruteRun_solves) (fun _ => rfl) fun _ => rfl

end Goexpdt

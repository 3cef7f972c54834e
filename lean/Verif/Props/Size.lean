import Verif.Lemmas.SizeAtoms
import Verif.Lemmas.SizeNested
import Verif.Props.Halts
/-
C57: the size of encodings.
-/
namespace Goexpdt.Props
open Goexpdt Goexpdt.Spec

/-- C57: the numbers in the DIMACS lines of an encoding and the variables that it adds to the context
are together at most `1500 · |q| · n ^ (r + 3)`, where `|q|` is the number of operators and predicates of
the query, `n` is the dimension plus the number of nodes plus one, and `r` is the nesting depth of
guarded quantifiers. For every query, every model (a tree or not), all generators and all reachable
contexts. -/
theorem C57_size (d : Nat) (nodes : List Node) (s s' : Ctx) (hs : Reachable d nodes s) (q : Query) (c : CNF)
    (h : q.encode s = (.ok c, s')) :
    (c.weight : Int) + (s'.topV - s.topV) ≤
      (1500 * q.size * (d + nodes.length + 1) ^ (q.rank + 3) : Nat) := by
  obtain ⟨hd, hn⟩ := reachable_model hs
  obtain ⟨x, hx⟩ : ∃ x, q.comp = some x := by
    cases hq : q.comp with
    | none => simp [Query.encode, hq, M.throw] at h
    | some x => exact ⟨x, rfl⟩
  have e : q.encode = x := by simp [Query.encode, hx]
  rw [e] at h
  have := q.cost (d := d) (n := nodes.length) x hx s c (reachable_vm hs) hd (by rw [hn]) (by rw [h])
  rw [h] at this
  have hw : c.weight ≤ pot c := by simp only [CNF.weight, pot]; omega
  simp only [sizeBound, Ctx.topV] at *
  omega

/-- C57: so on 64 bit integers nothing overflows as long as the bound, added to the number of variables
in use before, is below 2^63: all numbers in the formula, its top variable and the context's. -/
theorem C57_no_overflow (d : Nat) (nodes : List Node) (s s' : Ctx) (hs : Reachable d nodes s) (q : Query) (c : CNF)
    (h : q.encode s = (.ok c, s'))
    (hb : s.topV + (1500 * q.size * (d + nodes.length + 1) ^ (q.rank + 3) : Nat) < 2 ^ 63) :
    s'.topV < 2 ^ 63 ∧ c.topV < 2 ^ 63 ∧ ∀ cl ∈ c.sClauses ++ c.cClauses, ∀ l ∈ cl, -2 ^ 63 < l ∧ l < 2 ^ 63 := by
  have h1 := C57_size d nodes s s' hs q c h
  obtain ⟨h2, h3⟩ := C41_wellformed d nodes s s' hs q c h
  refine ⟨by omega, by omega, fun cl hcl l hl => ?_⟩
  have := (h2 cl hcl l hl).2.2
  omega

/-- C57: the exponent is needed. On every tree with `n` nodes, `r` nested quantifiers around a predicate
that is false give a formula of size `n ^ r`. -/
theorem C57_rank_needed (d : Nat) (nodes : List Node) (T : DTree) (hT : IsTree d nodes T) (hc : Covers nodes T)
    (hd : 0 < d) (r : Nat) :
    let q := nested { id := ['c'] } (.full (.const { val := List.replicate d BOT })) r
    q.size = r + 1 ∧ q.rank = r ∧
    ∃ c s', q.encode (BasicQContext d nodes) = (.ok c, s') ∧ c.weight = nodes.length ^ r := by
  refine ⟨?_, ?_, ?_⟩
  · induction r with
    | zero => rfl
    | succ r ih => simp only [nested, Query.size] at *; omega
  · induction r with
    | zero => rfl
    | succ r ih => simp only [nested, Query.rank] at *; omega
  · cases hq : (nested { id := ['c'] } (.full (.const { val := List.replicate d BOT })) r).comp with
    | none => cases r <;> simp [nested, Query.comp] at hq
    | some q =>
      obtain ⟨c, s', e, w⟩ := nested_weight hT hc hd r q hq (BasicQContext d nodes) (by
        intro g hg; simp [BasicQContext] at hg) rfl rfl
      exact ⟨c, s', by simp only [Query.encode, hq]; exact e, w⟩

/-- The hypotheses hold for the query of C41 on a tree with five nodes: its encoding has 144 numbers and
17 variables; the bound is far above. -/
example : (match exQuery.encode (BasicQContext 2 exNodes) with
    | (.ok c, s') => (c.weight, s'.topV)
    | _ => (0, 0)) = (144, 17) ∧ exQuery.size = 6 ∧ exQuery.rank = 1 := by
  decide +kernel
example : (BasicQContext 2 exNodes).topV + (1500 * exQuery.size * (2 + exNodes.length + 1) ^ (exQuery.rank + 3) : Nat) < 2 ^ 63 := by
  decide +kernel
/-- Three nested quantifiers on that tree. -/
example : (match (nested { id := ['c'] } (.full (.const { val := [BOT, BOT] })) 3).encode (BasicQContext 2 exNodes) with
    | (.ok c, _) => c.weight
    | _ => 0) = 125 := by
  decide +kernel

end Goexpdt.Props

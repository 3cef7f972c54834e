import Verif.Model.Alias
/- Specification: what the results of calls of package cnf would be if values were immutable. -/
namespace Goexpdt.Spec
open Alias

/-- One call on immutable values (`Verif.Model.CNF`). -/
def pureStep (vals : List CNF) : Op → List CNF
  | .zero => vals ++ [{}]
  | .falseCNF => vals ++ [FalseCNF]
  | .fromClauses cls _ => vals ++ [FromClauses (cls.map (·.1))]
  | .appendSemantics i cls =>
    match vals[i]? with
    | none => vals
    | some c => vals ++ [c.appendSemantics (cls.map (·.1))]
  | .appendConsistency i cls =>
    match vals[i]? with
    | none => vals
    | some c => vals ++ [c.appendConsistency (cls.map (·.1))]
  | .conjunction i j =>
    match vals[i]?, vals[j]? with
    | some c, some d => vals ++ [c.conjunction d]
    | _, _ => vals
  | .negate i o =>
    match vals[i]? with
    | none => vals
    | some c => vals ++ [c.negate o]

/-- A sequence of calls. -/
def pureRun (ops : List Op) : List CNF := ops.foldl pureStep []

/-- The operands of a call. -/
def Op.uses : Op → List Nat
  | .zero | .falseCNF | .fromClauses _ _ => []
  | .appendSemantics i _ | .appendConsistency i _ | .negate i _ => [i]
  | .conjunction i j => [i, j]

/-- No result is used as an operand more than once. -/
def Linear (ops : List Op) : Prop := (ops.flatMap Op.uses).Nodup

instance (ops : List Op) : Decidable (Linear ops) := by unfold Linear; infer_instance

end Goexpdt.Spec

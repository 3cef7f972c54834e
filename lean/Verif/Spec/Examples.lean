import Verif.Spec.Preds
/- Specification: the notions that the programs in /repo/examples are about, as their comments define them. -/
namespace Goexpdt.Spec

/-- examples/computation.go:18-20: `x` is subsumed by `c` and all completions of `x` have the same
classification as `c`. -/
def SufficientReason (d : Nat) (T : DTree) (c x : PInst) : Prop :=
  Subsumes d x c ∧ ∀ y z, Completes d y x → Completes d z c → T.classify y = T.classify z

/-- examples/computation.go:25-27: and there is no other sufficient reason of `c` that is subsumed by `x`. -/
def MinimalSufficientReason (d : Nat) (T : DTree) (c x : PInst) : Prop :=
  SufficientReason d T c x ∧ ∀ y, SufficientReason d T c y → Subsumes d y x → Same d y x

/-- examples/evaluation.go:3-5: `x` is a determinant feature set and for every instance `y`, if `y` has
fewer defined features than `x` then `y` is not. -/
def LeastDFS (d : Nat) (T : DTree) (x : PInst) : Prop :=
  DFS d T x ∧ ∀ y, countFeats d (fun i => (y i).isSome) < countFeats d (fun i => (x i).isSome) → ¬ DFS d T y

/-- A feature as it is printed. -/
def featText : Option Bool → Char
  | none => '_'
  | some false => '0'
  | some true => '1'

/-- Characters with spaces between them. -/
def spaced : List Char → List Char
  | [] => []
  | [c] => [c]
  | c :: cs => c :: ' ' :: spaced cs

/-- What is printed for an instance that was found. -/
def foundText (d : Nat) (e : PInst) : List Char :=
  "Value found: [".toList ++ spaced ((List.range d).map fun i => featText (e i)) ++ "]\n".toList

end Goexpdt.Spec

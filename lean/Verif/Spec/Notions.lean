import Verif.Spec.Examples
/- Specification: notions of explanation that README.md:27-29 refers to, in terms of instances and classes only. -/
namespace Goexpdt.Spec

/-- How many features are defined. -/
def numDef (d : Nat) (e : PInst) : Nat := countFeats d fun i => (e i).isSome

/-- A sufficient reason with the fewest features. -/
def MinimumSufficientReason (d : Nat) (T : DTree) (c x : PInst) : Prop :=
  SufficientReason d T c x ∧ ∀ y, SufficientReason d T c y → numDef d x ≤ numDef d y

/-- A determinant feature set none of whose proper parts is one. -/
def MinimalDFS (d : Nat) (T : DTree) (x : PInst) : Prop :=
  DFS d T x ∧ ∀ y, DFS d T y → Subsumes d y x → Same d y x

/-- A full instance of another class than `c`. -/
def Contrast (d : Nat) (T : DTree) (c x : PInst) : Prop :=
  Full d x ∧ ∀ y z, Completes d y x → Completes d z c → T.classify y ≠ T.classify z

/-- The least change of `c` that changes its class. -/
def MinimumChangeRequired (d : Nat) (T : DTree) (c x : PInst) : Prop :=
  Contrast d T c x ∧ ∀ y, Contrast d T c y → hamming d c x ≤ hamming d c y

/-- A full instance of the class of `c`. -/
def Alike (d : Nat) (T : DTree) (c x : PInst) : Prop :=
  Full d x ∧ ∀ y z, Completes d y x → Completes d z c → T.classify y = T.classify z

/-- The greatest change of `c` that keeps its class. -/
def MaximumChangeAllowed (d : Nat) (T : DTree) (c x : PInst) : Prop :=
  Alike d T c x ∧ ∀ y, Alike d T c y → hamming d c y ≤ hamming d c x

end Goexpdt.Spec

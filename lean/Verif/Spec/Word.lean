/- Specification: integers of 64 bits. -/
namespace Goexpdt.Spec

/-- The number and its negative are integers of 64 bits. -/
def Fits64 (n : Int) : Prop := -2 ^ 63 < n ∧ n < 2 ^ 63

instance (n : Int) : Decidable (Fits64 n) := inferInstanceAs (Decidable (_ ∧ _))

end Goexpdt.Spec

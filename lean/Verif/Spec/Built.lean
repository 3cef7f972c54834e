import Verif.Spec.Sat
/- Specification: the CNF values a user can obtain through the exported API of package cnf. -/
namespace Goexpdt.Spec

/-- CNF values obtained from the exported constructors and methods, in any order, when the clauses
passed in do not use 0 as a literal (0 is not a variable in DIMACS). -/
inductive Built : CNF → Prop
  | zero : Built {}
  | trueCNF : Built TrueCNF
  | falseCNF : Built FalseCNF
  | fromClauses (cls) : NonZero cls → Built (FromClauses cls)
  | appendSemantics {c} (cls) : Built c → NonZero cls → Built (c.appendSemantics cls)
  | appendConsistency {c} (cls) : Built c → NonZero cls → Built (c.appendConsistency cls)
  | conjunction {c d} : Built c → Built d → Built (c.conjunction d)
  | negate {c} (o) : Built c → Built (c.negate o)

end Goexpdt.Spec

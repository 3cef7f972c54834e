import Verif.Model.Query
import Verif.Spec.Sat
/-
Specification: well-formed CNFs and the invariants of a context's variable manager and scoper.
-/
namespace Goexpdt
open Spec

/-- A well-formed CNF: `tv` bounds all variables, and no literal is 0. -/
structure WF (c : CNF) : Prop where
  tv_nonneg : 0 ≤ c.tv
  sBound : BoundedBy c.tv c.sClauses
  cBound : BoundedBy c.tv c.cClauses
  sNonZero : NonZero c.sClauses
  cNonZero : NonZero c.cClauses

/-- Invariant of the variable manager. -/
structure VMok (s : Ctx) : Prop where
  topv_nonneg : 0 ≤ s.topv
  range : ∀ vr n, mapGet s.vmap vr = some n → 1 ≤ n ∧ n ≤ s.topv
  inj : ∀ vr vr' n, mapGet s.vmap vr = some n → mapGet s.vmap vr' = some n → vr = vr'

/-- `s'` extends `s`: old numbers are kept, new ones are above the old top variable. -/
structure Ext (s s' : Ctx) : Prop where
  topv_le : s.topv ≤ s'.topv
  keep : ∀ vr n, mapGet s.vmap vr = some n → mapGet s'.vmap vr = some n
  fresh : ∀ vr n, mapGet s.vmap vr = none → mapGet s'.vmap vr = some n → s.topv < n

/-- The unit separator of ASCII. -/
def sep : Char := '\x1f'

/-- Suffix appended by `ScopeVar` for a list of scopes. -/
def suffix (gs : List Scope) : List Char :=
  gs.flatMap (fun g => [sep] ++ g.target ++ [sep] ++ itoa g.vIdx)

/-- Invariant of the scoper without `Reset`: variable levels lie within the stack. -/
def ScopeOk (s : Ctx) : Prop := ∀ v k, mapGet s.vars v = some k → 1 ≤ k ∧ k ≤ s.scopes.length

/-- The association list of variable levels has no duplicate keys. -/
def VarsFun (s : Ctx) : Prop := ∀ v k, (v, k) ∈ s.vars → mapGet s.vars v = some k

end Goexpdt

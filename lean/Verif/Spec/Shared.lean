import Verif.Model.Shared
/-
Specification: queries whose constants are references to arrays.
-/
namespace Goexpdt

/-- The values of the constants of the program at the moment. -/
def Mem.current (m : Mem) (pl : Place) (c : QConst) : List FeatV :=
  match pl c with
  | none => c.val
  | some a => m.cells a

/-- The argument with these values. -/
def Term.withVals (v : QConst → List FeatV) : Term → Term
  | .const c => .const { c with val := v c }
  | .var x => .var x

/-- The predicate with these values of its constants. -/
def Atom.withVals (v : QConst → List FeatV) : Atom → Atom
  | .subs t1 t2 => .subs (t1.withVals v) (t2.withVals v)
  | .lel t1 t2 g => .lel (t1.withVals v) (t2.withVals v) g
  | .isnode t g => .isnode (t.withVals v) g
  | .full t => .full (t.withVals v)
  | .cons t1 t2 => .cons (t1.withVals v) (t2.withVals v)
  | .allcomp t b g => .allcomp (t.withVals v) b g
  | .dfs t => .dfs (t.withVals v)
  | .hepr t1 t2 p g => .hepr (t1.withVals v) (t2.withVals v) p g
  | .leh t1 t2 t3 g e => .leh (t1.withVals v) (t2.withVals v) (t3.withVals v) g e

/-- The query with these values of its constants. -/
def Query.withVals (v : QConst → List FeatV) : Query → Query
  | .nil => .nil
  | .atom a => .atom (a.withVals v)
  | .and q1 q2 => .and (q1.withVals v) (q2.withVals v)
  | .or q1 q2 => .or (q1.withVals v) (q2.withVals v)
  | .not q => .not (q.withVals v)
  | .withVar x q => .withVar x (q.withVals v)
  | .forallG c q => .forallG { c with val := v c } (q.withVals v)

/-- All references, those of the scopes and those of the program's constants, are to arrays in use. -/
structure InUse (pl : Place) (s : RCtx) : Prop where
  scopes : ∀ g ∈ s.scopes, ∀ a, g.value = some a → a < s.mem.next
  consts : ∀ c a, pl c = some a → a < s.mem.next

/-- The arrays that are in use in `m` have the same contents in `m'`. -/
def Untouched (m m' : Mem) : Prop := m.next ≤ m'.next ∧ ∀ a < m.next, m'.cells a = m.cells a

/-- A new basic context, in a program that uses some arrays. -/
def RCtx.start (m : Mem) (d : Nat) (nodes : List Node) : RCtx := { mem := m, dim := d, nodes := nodes }

end Goexpdt

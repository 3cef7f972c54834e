import Verif.Model.Ext
/-
The queries of the library as a syntax, with their encoding. `Term` stands for the choice between the
`Const` and the `Var` variants of a predicate's types.
-/
namespace Goexpdt

/-- An argument of a predicate. -/
inductive Term where
  | const (c : QConst)
  | var (x : QVar)
  deriving DecidableEq, Repr

/-- The predicates and extensions, with the fields of their types. The generator fields do not exist
(and are ignored here) in the variants without variables. -/
inductive Atom where
  /-- query/predicates/subsumption -/
  | subs (t1 t2 : Term)
  /-- query/predicates/lel -/
  | lel (t1 t2 : Term) (countGen : Option (QVar → QVar))
  /-- query/predicates/isnode -/
  | isnode (t : Term) (reachGen : Option (QVar → QVar))
  /-- query/extensions/full -/
  | full (t : Term)
  /-- query/extensions/cons -/
  | cons (t1 t2 : Term)
  /-- query/extensions/allcomp -/
  | allcomp (t : Term) (leaf : Bool) (reachGen : Option (QVar → QVar))
  /-- query/extensions/dfs -/
  | dfs (t : Term)
  /-- query/extensions/hepr -/
  | hepr (t1 t2 : Term) (pref : List Int) (rankGen : Option (QVar → QVar → QVar → QVar))
  /-- query/extensions/leh -/
  | leh (t1 t2 t3 : Term) (hdGen eqGen : Option (QVar → QVar → QVar))

/-- The method `Encoding` of a predicate, with a non-nil context. -/
def Atom.encode : Atom → M CNF
  | .subs (.const c1) (.const c2) => subsConstConst c1 c2
  | .subs (.const c) (.var x) => subsConstVar c x
  | .subs (.var x) (.const c) => subsVarConst x c
  | .subs (.var x) (.var y) => subsVarVar x y
  | .lel (.const c1) (.const c2) _ => lelConstConst c1 c2
  | .lel (.const c) (.var x) g => lelConstVar c x g
  | .lel (.var x) (.const c) g => lelVarConst x c g
  | .lel (.var x) (.var y) g => lelVarVar x y g
  | .isnode (.const c) _ => isnodeConst c
  | .isnode (.var x) g => isnodeVar x g
  | .full (.const c) => fullConst c
  | .full (.var x) => fullVar x
  | .cons (.const c1) (.const c2) => consConstConst c1 c2
  | .cons (.const c) (.var x) => consConstVar c x
  | .cons (.var x) (.const c) => consVarConst x c
  | .cons (.var x) (.var y) => consVarVar x y
  | .allcomp (.const c) b _ => allcompConst c b
  | .allcomp (.var x) b g => allcompVar x b g
  | .dfs (.const c) => dfsConst c
  | .dfs (.var x) => dfsVar x
  | .hepr (.const c1) (.const c2) p _ => heprConstConst c1 c2 p
  | .hepr (.const c) (.var x) p g => heprConstVar c x p g
  | .hepr (.var x) (.const c) p g => heprVarConst x c p g
  | .hepr (.var x) (.var y) p g => heprVarVar x y p g
  | .leh (.const c1) (.const c2) (.const c3) _ _ => lehConstConstConst c1 c2 c3
  | .leh (.const c1) (.const c2) (.var x) g _ => lehConstConstVar c1 c2 x g
  | .leh (.const c1) (.var x) (.const c2) g _ => lehConstVarConst c1 x c2 g
  | .leh (.const c) (.var x) (.var y) g _ => lehConstVarVar c x y g
  | .leh (.var x) (.const c1) (.const c2) g _ => lehVarConstConst x c1 c2 g
  | .leh (.var x) (.const c) (.var y) g e => lehVarConstVar x c y g e
  | .leh (.var x) (.var y) (.const c) g e => lehVarVarConst x y c g e
  | .leh (.var x) (.var y) (.var z) g e => lehVarVarVar x y z g e

/-- Queries. `nil` is the nil interface value. -/
inductive Query where
  | nil
  | atom (a : Atom)
  | and (q1 q2 : Query)
  | or (q1 q2 : Query)
  | not (q : Query)
  | withVar (x : QVar) (q : Query)
  | forallG (c : QConst) (q : Query)

/-- A query as a value of the interface type `LogOpQ`. -/
def Query.comp : Query → Comp
  | .nil => none
  | .atom a => some a.encode
  | .and q1 q2 => some (encAnd q1.comp q2.comp)
  | .or q1 q2 => some (encOr q1.comp q2.comp)
  | .not q => some (encNot q.comp)
  | .withVar x q => some (encWithVar x q.comp)
  | .forallG c q => some (encForall c q.comp)

/-- The call `q.Encoding(ctx)` with a non-nil context. Calling a method of a nil interface value
panics. -/
def Query.encode (q : Query) : M CNF :=
  match q.comp with
  | none => M.throw (.panic "nil pointer dereference")
  | some act => act

/-- The call `q.Encoding(nil)`: the predicates check the context first, the logical operators check
their children first. -/
def Query.encodeNilCtx : Query → Except Err CNF
  | .nil => .error (.panic "nil pointer dereference")
  | .atom _ => .error errNilCtx
  | .and q1 q2 => nilCtxBinary "And" q1.comp q2.comp
  | .or q1 q2 => nilCtxBinary "Or" q1.comp q2.comp
  | .not q => nilCtxUnary "Not" q.comp
  | .withVar _ q => nilCtxUnary "WithVar" q.comp
  | .forallG _ q => nilCtxUnary "ForAllGuarded" q.comp

end Goexpdt

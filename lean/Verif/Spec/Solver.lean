import Verif.Model.Compute
import Verif.Spec.Dimacs
import Verif.Spec.Meaning
import Verif.Spec.Fo
/-
Specification: SAT solvers, as executables and as implementations of the interface `Solver`; components
that answer a question about instances.
-/
namespace Goexpdt
open Spec

/-! ### executables -/

/-- A line of the output of a SAT solver. -/
inductive OutLine where
  /-- a comment, the status line, an empty line, … -/
  | other (text : List Char)
  /-- a line with literals, `v 1 -2 3` -/
  | vals (lits : List Int)

def OutLine.text : OutLine → List Char
  | .other t => t
  | .vals ls => 'v' :: ls.flatMap fun l => ' ' :: itoa l

def OutLine.Ok : OutLine → Prop
  | .other t => '\n' ∉ t ∧ t.head? ≠ some 'v'
  | .vals ls => ls ≠ []

def OutLine.lits : OutLine → List Int
  | .other _ => []
  | .vals ls => ls

/-- Texts joined by newlines. -/
def joinLines : List (List Char) → List Char
  | [] => []
  | [l] => l
  | l :: l' :: ls => l ++ '\n' :: joinLines (l' :: ls)

/-- The output says that `β` is a solution with variables 1 to `n`: its value lines list, for every
variable, the literal that is true, and nothing else but zeros. -/
def Prints (n : Int) (β : Val) (out : List Char) : Prop :=
  ∃ ls : List OutLine, out = joinLines (ls.map OutLine.text) ∧ (∀ l ∈ ls, l.Ok) ∧
    (∀ k : Int, 1 ≤ k → k ≤ n → k ∈ ls.flatMap OutLine.lits ∨ -k ∈ ls.flatMap OutLine.lits) ∧
    ∀ k ∈ ls.flatMap OutLine.lits, k ≠ 0 → (k.natAbs : Int) ≤ n ∧ litTrue β k

/-- The executable solves every DIMACS text: it exits with 10 and prints a solution, or it exits with 20
if there is none. -/
def Solves (run : List Char → Run) : Prop :=
  ∀ text n m cls, readDimacs text = some (n, m, cls) → BoundedBy n cls → NonZero cls →
    (∃ out err β, run text = .exited 10 out err ∧ clausesTrue β cls ∧ Prints n β out) ∨
    (∃ out err, run text = .exited 20 out err ∧ ¬ ∃ β, clausesTrue β cls)

/-! ### implementations of the interface -/

/-- `Values` reads the instances that `β` gives to variables. -/
def Recalls {S : Type} (sv : Solver S) (st : S) (s : Ctx) (β : Val) : Prop :=
  ∀ (vs : List QVar) (es : QVar → PInst),
    (∀ v ∈ vs, (∀ i < s.dim, ∀ k ∈ featVals, Named s ⟨v, (i : Nat), k⟩) ∧ Reads s.dim s β v (es v)) →
    ∃ st', sv.values vs st s = (.ok (vs.map fun v => { val := valsOf s.dim (es v) }), st', s)

/-- The solver never gives a wrong answer (but it may fail): it says "satisfiable" only for satisfiable
formulas and then `Values` reads a solution, and "unsatisfiable" only for unsatisfiable ones. -/
def Correct {S : Type} (sv : Solver S) : Prop :=
  ∀ (act : M CNF) (st : S) (s s' : Ctx) (c : CNF), act s = (.ok c, s') → WF c → VMok s' →
    match sv.step (some act) st s with
    | (.ok (), st', s'') => s'' = s' ∧ ∃ β, Models β c ∧ Recalls sv st' s' β
    | (.error .unsat, _, s'') => s'' = s' ∧ ¬ Satisfiable c
    | (.error (.other _), _, _) => True

/-- The solver never fails on an encoding that succeeds. -/
def Reliable {S : Type} (sv : Solver S) : Prop :=
  ∀ (act : M CNF) (st : S) (s s' : Ctx) (c : CNF), act s = (.ok c, s') → WF c → VMok s' →
    ∀ e, (sv.step (some act) st s).1 ≠ .error (.other e)

/-- `cnt` counts the calls of `Step`. -/
structure Counts {S : Type} (sv : Solver S) (cnt : S → Nat) : Prop where
  step : ∀ q st s, cnt (sv.step q st s).2.1 = cnt st + 1
  values : ∀ vs st s, cnt (sv.values vs st s).2.1 = cnt st

/-! ### components -/

/-- The encoding of the component, from contexts in which its names have not been declared, says `P`. -/
def Decides (d : Nat) (nodes : List Node) (names : List QVar) (act : M CNF) (P : Asg → Prop) : Prop :=
  ∀ s, Ready d nodes names s → ∃ c s', act s = (.ok c, s') ∧ WF c ∧ Says d names P s' c ∧ Ready d nodes [] s' ∧
    ∀ n ∈ names, ∀ i < d, ∀ k ∈ featVals, Named s' ⟨n, (i : Nat), k⟩

/-- The component asks for an instance `v` with the property `F`. -/
def Asks (d : Nat) (nodes : List Node) (names : List QVar) (v : QVar) (act : M CNF) (F : PInst → Prop) : Prop :=
  v ∈ names ∧ ∃ P : Asg → Prop, Decides d nodes names act P ∧ ∀ e, F e ↔ ∃ σ, P σ ∧ Same d (σ v) e

/-- The components given to `ComputeOptim` ask for an instance with the property `F`, and for one that is
better (`R`) than a given one. -/
structure Poses (d : Nat) (nodes : List Node) (v : QVar) (fg : QVar → Comp) (og : QVar → QConst → Comp)
    (F : PInst → Prop) (R : PInst → PInst → Prop) (names : List QVar) : Prop where
  first : Asks d nodes names v (encWithVar v (fg v)) F
  next : ∀ k : QConst, GoodVals d k.val → k.id = [] →
    ∃ names', Asks d nodes names' v (encWithVar v (some (encAnd (fg v) (og v k)))) (fun e => F e ∧ R e (den k.val))

/-- What a query says about the instance `v`, in first-order semantics. -/
def Query.about (d : Nat) (T : DTree) (v : QVar) (q : Query) (e : PInst) : Prop :=
  q.fo d T (upd (fun _ => bot) v e) (fun _ => none)

/-- The conditions of `C40` on the queries that `ComputeOptim` encodes, given formula `f` and order `o`. -/
structure Optimises (d : Nat) (nodes : List Node) (T : DTree) (depth : QVar → Nat) (v : QVar) (f : Query)
    (o : QConst → Query) : Prop where
  good : (Query.withVar v f).Good d nodes T depth
  plain : (Query.withVar v f).Plain
  goodNext : ∀ b, GoodVals d b → (Query.withVar v (.and f (o { val := b }))).Good d nodes T depth
  plainNext : ∀ b, GoodVals d b → (Query.withVar v (.and f (o { val := b }))).Plain

/-- `R` is a strict order on the constants that satisfy `F`. -/
structure StrictOn (F : PInst → Prop) (R : PInst → PInst → Prop) (d : Nat) : Prop where
  irrefl : ∀ b, GoodVals d b → F (den b) → ¬ R (den b) (den b)
  trans : ∀ a b c, GoodVals d a → GoodVals d b → GoodVals d c → F (den a) → F (den b) → F (den c) →
    R (den a) (den b) → R (den b) (den c) → R (den a) (den c)

/-! ### Boolean combinations -/

/-- The elements, evaluated one after the other, all give `b`. -/
inductive AllGive {S : Type} (b : Bool) : List (Option (SatM S)) → S → Ctx → S → Ctx → Prop
  | nil (st s) : AllGive b [] st s st s
  | cons {elem : SatM S} {es st s st1 s1 st2 s2} : elem st s = (.ok b, st1, s1) → AllGive b es st1 s1 st2 s2 →
      AllGive b (some elem :: es) st s st2 s2

/-- The method `Sat` computes the truth value of `P` and returns no error, in every context over the model in
which none of the names `need` has been declared; it declares only names in `touch`. -/
def Computes {S : Type} (d : Nat) (nodes : List Node) (sat : SatM S) (need touch : List QVar) (P : Prop) : Prop :=
  ∀ others, (∀ n ∈ others, n ∉ touch) → ∀ st s, Ready d nodes (need ++ others) s →
    ∃ b st' s', sat st s = (.ok b, st', s') ∧ (b = true ↔ P) ∧ Ready d nodes others s'

/-- The names of all triples in the encoding of a query: declared and auxiliary variables. -/
def Query.touches (d : Nat) (T : DTree) (depth : QVar → Nat) (q : Query) : List QVar :=
  q.names d T [] ++ (q.uses d T depth []).map Prod.fst

/-- An element of a combination of queries. -/
structure Elem (S : Type) where
  sat : SatM S
  need : List QVar
  touch : List QVar
  holds : Prop

/-- The element computes the truth value it stands for. -/
def Elem.Right {S : Type} (d : Nat) (nodes : List Node) (e : Elem S) : Prop :=
  Computes d nodes e.sat e.need e.touch e.holds

/-- The query, or its negation. -/
def Elem.query {S : Type} (sv : Solver S) (d : Nat) (T : DTree) (depth : QVar → Nat) (q : Query) (negated : Bool) : Elem S where
  sat := atomSat sv q.comp negated
  need := q.names d T []
  touch := q.touches d T depth
  holds := q.fo d T (fun _ => bot) (fun _ => none) ↔ negated = false

/-- The conjunction of elements. -/
def Elem.and {S : Type} (es : List (Elem S)) : Elem S where
  sat := andSat (es.map fun e => some e.sat)
  need := es.flatMap Elem.need
  touch := es.flatMap Elem.touch
  holds := ∀ e ∈ es, e.holds

/-- The disjunction of elements. -/
def Elem.or {S : Type} (es : List (Elem S)) : Elem S where
  sat := orSat (es.map fun e => some e.sat)
  need := es.flatMap Elem.need
  touch := es.flatMap Elem.touch
  holds := ∃ e ∈ es, e.holds

/-- No element needs a name that an earlier element may declare. -/
def Apart {S : Type} (es : List (Elem S)) : Prop :=
  es.Pairwise fun e1 e2 => ∀ n ∈ e2.need, n ∉ e1.touch

end Goexpdt

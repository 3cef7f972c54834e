import Verif.Spec.Tidy
/-
Specification: queries that differ by names only. `V` relates the variables of the one query to those of the other, `K` the names of
constants and guarded quantifiers, and `R` all names that get numbers: those of variables below quantifiers and those of auxiliary variables.
-/
namespace Goexpdt
open Spec

/-- Lists of the same length with related elements. -/
inductive All2 {α β : Type} (P : α → β → Prop) : List α → List β → Prop where
  | nil : All2 P [] []
  | cons {a b as bs} : P a b → All2 P as bs → All2 P (a :: as) (b :: bs)

/-- One-to-one. -/
structure OneOne {α β : Type} (P : α → β → Prop) : Prop where
  right : ∀ {a b b'}, P a b → P a b' → b = b'
  left : ∀ {a a' b}, P a b → P a' b → a = a'

/-- Two suffixes of names: for each enclosing quantifier its name and the number of the node, with separators. -/
inductive SuffixR (K : List Char → List Char → Prop) : List Char → List Char → Prop where
  | nil : SuffixR K [] []
  | cons {t t' : List Char} {r r' : List Char} (i : Int) : K t t' → SuffixR K r r' →
      SuffixR K ([sep] ++ t ++ [sep] ++ itoa i ++ r) ([sep] ++ t' ++ [sep] ++ itoa i ++ r')

/-- Names of the variables `x` and `x'` below quantifiers. -/
def VarNameR (K : List Char → List Char → Prop) (x x' a a' : QVar) : Prop :=
  ∃ suf suf', SuffixR K suf suf' ∧ a = x ++ suf ∧ a' = x' ++ suf'

/-- Two arguments of a predicate: related variables, or constants with related names and equal values. -/
def TermR (V : QVar → QVar → Prop) (K : List Char → List Char → Prop) : Term → Term → Prop
  | .var x, .var x' => V x x'
  | .const c, .const c' => K c.id c'.id ∧ c'.val = c.val
  | _, _ => False

/-- The argument is a variable. -/
def Term.IsVar : Term → Prop
  | .var _ => True
  | .const _ => False

/-- What a generator gets for an argument: the name of the variable, or the values of a constant. -/
def KeyR (K : List Char → List Char → Prop) : Term → Term → QVar → QVar → Prop
  | .var x, .var x', a, a' => VarNameR K x x' a a'
  | .const _, .const _, a, a' => ∃ c : QConst, a = c.asString ∧ a' = c.asString
  | _, _, _, _ => False

/-- The same for a variable. -/
def VarKeyR (K : List Char → List Char → Prop) : Term → Term → QVar → QVar → Prop
  | .var x, .var x', a, a' => VarNameR K x x' a a'
  | _, _, _, _ => False

/-- Two generators: both nil, or related. -/
def GenR {α : Type} (P : α → α → Prop) : Option α → Option α → Prop
  | none, none => True
  | some g, some g' => P g g'
  | _, _ => False

/-- Two predicates: of the same type, with related arguments, and with generators that give related names (where they are used). -/
def AtomR (V : QVar → QVar → Prop) (K : List Char → List Char → Prop) (R : QVar → QVar → Prop) : Atom → Atom → Prop
  | .subs t1 t2, .subs t1' t2' => TermR V K t1 t1' ∧ TermR V K t2 t2'
  | .lel t1 t2 g, .lel t1' t2' g' => TermR V K t1 t1' ∧ TermR V K t2 t2' ∧ (t1.IsVar ∨ t2.IsVar → GenR (fun g g' =>
      ∀ a a', VarKeyR K t1 t1' a a' ∨ VarKeyR K t2 t2' a a' → R (g a) (g' a')) g g')
  | .isnode t g, .isnode t' g' => TermR V K t t' ∧ (t.IsVar → GenR (fun g g' => ∀ a a', VarKeyR K t t' a a' → R (g a) (g' a')) g g')
  | .full t, .full t' => TermR V K t t'
  | .cons t1 t2, .cons t1' t2' => TermR V K t1 t1' ∧ TermR V K t2 t2'
  | .allcomp t b g, .allcomp t' b' g' => TermR V K t t' ∧ b' = b ∧
      (t.IsVar → GenR (fun g g' => ∀ a a', VarKeyR K t t' a a' → R (g a) (g' a')) g g')
  | .dfs t, .dfs t' => TermR V K t t'
  | .hepr t1 t2 p g, .hepr t1' t2' p' g' => TermR V K t1 t1' ∧ TermR V K t2 t2' ∧ p' = p ∧ (t1.IsVar ∨ t2.IsVar → GenR (fun g g' =>
      ∀ a a' b b', KeyR K t1 t1' a a' → KeyR K t2 t2' b b' → R (g (prefVar p) a b) (g' (prefVar p) a' b')) g g')
  | .leh t1 t2 t3 g e, .leh t1' t2' t3' g' e' => TermR V K t1 t1' ∧ TermR V K t2 t2' ∧ TermR V K t3 t3' ∧
      (t1.IsVar ∨ t2.IsVar ∨ t3.IsVar → GenR (fun g g' => ∀ a a' b b',
        VarKeyR K t1 t1' a a' ∧ (KeyR K t2 t2' b b' ∨ KeyR K t3 t3' b b') ∨
        VarKeyR K t2 t2' a a' ∧ (KeyR K t1 t1' b b' ∨ KeyR K t3 t3' b b') ∨
        VarKeyR K t3 t3' a a' ∧ KeyR K t1 t1' b b' → R (g a b) (g' a' b')) g g') ∧
      (t1.IsVar ∧ (t2.IsVar ∨ t3.IsVar) → GenR (fun g g' => ∀ a a' b b',
        VarKeyR K t1 t1' a a' → VarKeyR K t2 t2' b b' ∨ VarKeyR K t3 t3' b b' → R (g a b) (g' a' b')) e e')
  | _, _ => False

/-- Two queries of the same form. -/
def QueryR (V : QVar → QVar → Prop) (K : List Char → List Char → Prop) (R : QVar → QVar → Prop) : Query → Query → Prop
  | .nil, .nil => True
  | .atom a, .atom a' => AtomR V K R a a'
  | .and q1 q2, .and q1' q2' => QueryR V K R q1 q1' ∧ QueryR V K R q2 q2'
  | .or q1 q2, .or q1' q2' => QueryR V K R q1 q1' ∧ QueryR V K R q2 q2'
  | .not q, .not q' => QueryR V K R q q'
  | .withVar x q, .withVar x' q' => V x x' ∧ QueryR V K R q q'
  | .forallG c q, .forallG c' q' => K c.id c'.id ∧ QueryR V K R q q'
  | _, _ => False

/-- The relations are one-to-one, and variables have related names. -/
structure Naming (V : QVar → QVar → Prop) (K : List Char → List Char → Prop) (R : QVar → QVar → Prop) : Prop where
  ids : OneOne K
  names : OneOne R
  var : ∀ {x x' a a'}, V x x' → VarNameR K x x' a a' → R a a'

/-- Contexts that differ by names only: the same numbers for related names. -/
structure CtxR (V : QVar → QVar → Prop) (K : List Char → List Char → Prop) (R : QVar → QVar → Prop) (s s' : Ctx) : Prop where
  dim : s'.dim = s.dim
  nodes : s'.nodes = s.nodes
  topv : s'.topv = s.topv
  scopes : All2 (fun g g' => K g.target g'.target ∧ g'.value = g.value ∧ g'.vIdx = g.vIdx) s.scopes s'.scopes
  vars : All2 (fun p p' => V p.1 p'.1 ∧ p'.2 = p.2) s.vars s'.vars
  vmap : All2 (fun p p' => R p.1.v p'.1.v ∧ p'.1.idx = p.1.idx ∧ p'.1.val = p.1.val ∧ p'.2 = p.2) s.vmap s'.vmap

/-! ### Renaming -/

/-- The argument with other names. -/
def Term.rename (ρ : QVar → QVar) (κ : List Char → List Char) : Term → Term
  | .var x => .var (ρ x)
  | .const c => .const { c with id := κ c.id }

/-- The predicate with other names, and with the generators of the tags `t`. -/
def Atom.rename (ρ : QVar → QVar) (κ : List Char → List Char) (t : Tags) : Atom → Atom
  | .subs t1 t2 => .subs (t1.rename ρ κ) (t2.rename ρ κ)
  | .lel t1 t2 _ => .lel (t1.rename ρ κ) (t2.rename ρ κ) (some (tagged1 t.count))
  | .isnode t1 _ => .isnode (t1.rename ρ κ) (some (tagged1 t.node))
  | .full t1 => .full (t1.rename ρ κ)
  | .cons t1 t2 => .cons (t1.rename ρ κ) (t2.rename ρ κ)
  | .allcomp t1 b _ => .allcomp (t1.rename ρ κ) b (some (tagged1 t.comp))
  | .dfs t1 => .dfs (t1.rename ρ κ)
  | .hepr t1 t2 p _ => .hepr (t1.rename ρ κ) (t2.rename ρ κ) p (some (tagged3 t.pref))
  | .leh t1 t2 t3 _ _ => .leh (t1.rename ρ κ) (t2.rename ρ κ) (t3.rename ρ κ) (some (tagged2 t.dist)) (some (tagged2 t.same))

/-- The query with other names of variables (`ρ`), of constants and quantifiers (`κ`) and of auxiliary variables. -/
def Query.rename (ρ : QVar → QVar) (κ : List Char → List Char) (t : Tags) : Query → Query
  | .nil => .nil
  | .atom a => .atom (a.rename ρ κ t)
  | .and q1 q2 => .and (q1.rename ρ κ t) (q2.rename ρ κ t)
  | .or q1 q2 => .or (q1.rename ρ κ t) (q2.rename ρ κ t)
  | .not q => .not (q.rename ρ κ t)
  | .withVar x q => .withVar (ρ x) (q.rename ρ κ t)
  | .forallG c q => .forallG { c with id := κ c.id } (q.rename ρ κ t)

/-- Where the predicate has a generator, it is the one of the tags. -/
def Atom.TaggedBy (t : Tags) : Atom → Prop
  | .lel t1 t2 g => t1.IsVar ∨ t2.IsVar → g = some (tagged1 t.count)
  | .isnode t1 g => t1.IsVar → g = some (tagged1 t.node)
  | .allcomp t1 _ g => t1.IsVar → g = some (tagged1 t.comp)
  | .hepr t1 t2 _ g => t1.IsVar ∨ t2.IsVar → g = some (tagged3 t.pref)
  | .leh t1 t2 t3 g e => (t1.IsVar ∨ t2.IsVar ∨ t3.IsVar → g = some (tagged2 t.dist)) ∧
      (t1.IsVar ∧ (t2.IsVar ∨ t3.IsVar) → e = some (tagged2 t.same))
  | _ => True

/-- The variables of an argument. -/
def Term.varNames : Term → List QVar
  | .var x => [x]
  | .const _ => []

/-- The names of the constants of an argument. -/
def Term.idNames : Term → List (List Char)
  | .var _ => []
  | .const c => [c.id]

/-- The arguments of a predicate. -/
def Atom.args : Atom → List Term
  | .subs t1 t2 => [t1, t2]
  | .lel t1 t2 _ => [t1, t2]
  | .isnode t1 _ => [t1]
  | .full t1 => [t1]
  | .cons t1 t2 => [t1, t2]
  | .allcomp t1 _ _ => [t1]
  | .dfs t1 => [t1]
  | .hepr t1 t2 _ _ => [t1, t2]
  | .leh t1 t2 t3 _ _ => [t1, t2, t3]

/-- All variables of a query, declared or not. -/
def Query.varNames : Query → List QVar
  | .nil => []
  | .atom a => a.args.flatMap Term.varNames
  | .and q1 q2 => q1.varNames ++ q2.varNames
  | .or q1 q2 => q1.varNames ++ q2.varNames
  | .not q => q.varNames
  | .withVar x q => x :: q.varNames
  | .forallG _ q => q.varNames

/-- The names of all constants and quantifiers of a query. -/
def Query.idNames : Query → List (List Char)
  | .nil => []
  | .atom a => a.args.flatMap Term.idNames
  | .and q1 q2 => q1.idNames ++ q2.idNames
  | .or q1 q2 => q1.idNames ++ q2.idNames
  | .not q => q.idNames
  | .withVar _ q => q.idNames
  | .forallG c q => c.id :: q.idNames

/-- No separator occurs in the name of a constant or quantifier. -/
def IdOk (i : List Char) : Prop := recSep ∉ i ∧ sep ∉ i

/-- `ρ` and `κ` give different names to the different variables in `vs`, and to the different constants and quantifiers in `is`. The names
are as required, the old and the new. -/
structure Renames (ρ : QVar → QVar) (κ : List Char → List Char) (vs : QVar → Prop) (is : List Char → Prop) : Prop where
  vars : ∀ x, vs x → NameOk x ∧ sep ∉ x ∧ NameOk (ρ x) ∧ sep ∉ ρ x
  ids : ∀ i, is i → IdOk i ∧ IdOk (κ i)
  injVars : ∀ x y, vs x → vs y → ρ x = ρ y → x = y
  injIds : ∀ i j, is i → is j → κ i = κ j → i = j

/-- The tags are as required, and both or neither have the same tag for isnode and allcomp. -/
structure TagsAlike (t t' : Tags) : Prop where
  left : t.Ok
  right : t'.Ok
  reach : t.node = t.comp ↔ t'.node = t'.comp

end Goexpdt

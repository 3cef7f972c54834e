import Verif.Spec.Fo
import Verif.Spec.Tidy
/-
Specification: symmetries (property C93). Features may be given other numbers, the two values of a feature may be exchanged, the two classes may
be exchanged, and nodes may be given other places in the slice.
-/
namespace Goexpdt
open Spec

/-- A change of presentation for dimension `d`: feature `i` gets the number `perm i`, its values are exchanged if `flip i`, the classes are
exchanged if `cls`, and node `k` gets the place `idx k`. -/
structure Symmetry (d : Nat) where
  perm : Nat → Nat
  inv : Nat → Nat
  flip : Nat → Bool
  cls : Bool
  idx : Nat → Nat
  left : ∀ i, inv (perm i) = i
  right : ∀ j, perm (inv j) = j
  range : ∀ i, perm i < d ↔ i < d

namespace Symmetry
variable {d : Nat} (S : Symmetry d)

/-- The instance in the new presentation. -/
def inst (e : PInst) : PInst := fun j => (e (S.inv j)).map (S.flip (S.inv j) ^^ ·)

/-- The total instance in the new presentation. -/
def total (x : Nat → Bool) : Nat → Bool := fun j => S.flip (S.inv j) ^^ x (S.inv j)

/-- The other value of a feature. -/
def other (v : FeatV) : FeatV := if v = BOT then BOT else if v = ZERO then ONE else ZERO

/-- The values of a constant in the new presentation. -/
def vals (vs : List FeatV) : List FeatV :=
  (List.range d).map fun j => let v := vs.getD (S.inv j) BOT; if S.flip (S.inv j) then other v else v

/-- The tree in the new presentation. -/
def tree : DTree → DTree
  | .leaf i v => .leaf (S.idx i) (S.cls ^^ v)
  | .node i f z o => if S.flip f then .node (S.idx i) (S.perm f) (tree o) (tree z) else .node (S.idx i) (S.perm f) (tree z) (tree o)

/-- A node in the new presentation, if the places of nodes stay as they are. -/
def node (n : Node) : Node where
  value := S.cls ^^ n.value
  feat := S.perm n.feat.toNat
  zChild := if S.flip n.feat.toNat then n.oChild else n.zChild
  oChild := if S.flip n.feat.toNat then n.zChild else n.oChild

def const (c : QConst) : QConst := { id := c.id, val := S.vals c.val }

def term : Term → Term
  | .const c => .const (S.const c)
  | .var x => .var x

/-- The preference order in the new presentation. -/
def pref (p : List Int) : List Int := p.map fun i => (S.perm i.toNat : Int)

def atom : Atom → Atom
  | .subs t1 t2 => .subs (S.term t1) (S.term t2)
  | .lel t1 t2 g => .lel (S.term t1) (S.term t2) g
  | .isnode t g => .isnode (S.term t) g
  | .full t => .full (S.term t)
  | .cons t1 t2 => .cons (S.term t1) (S.term t2)
  | .allcomp t b g => .allcomp (S.term t) (S.cls ^^ b) g
  | .dfs t => .dfs (S.term t)
  | .hepr t1 t2 p g => .hepr (S.term t1) (S.term t2) (S.pref p) g
  | .leh t1 t2 t3 g e => .leh (S.term t1) (S.term t2) (S.term t3) g e

/-- The query in the new presentation. -/
def query : Query → Query
  | .nil => .nil
  | .atom a => .atom (S.atom a)
  | .and p q => .and (query p) (query q)
  | .or p q => .or (query p) (query q)
  | .not p => .not (query p)
  | .withVar x p => .withVar x (query p)
  | .forallG c p => .forallG (S.const c) (query p)

end Symmetry

end Goexpdt

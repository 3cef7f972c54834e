import Verif.Model.CNF
/-
Model of /repo/cnf/cnf.go with the memory behind its slices: a slice is a view of an array, `append`
writes into the array if its capacity suffices, and a CNF value holds slices that may share arrays
with those of other values. Used for property C08; the other properties use `Verif.Model.CNF`.

Simplifications: every slice begins at the start of its array (no slice expression of package cnf
moves the start, and the clauses given by the user are assumed not to overlap); the user does not
write to a slice after passing it; the local slice `clauses` of `tseytinNegation` is a list, since only its
elements are copied (line 136); memory is never released.
-/
namespace Goexpdt.Alias

/-- A slice: the number of its array, its length and its capacity. -/
structure Sl where
  arr : Nat := 0
  len : Nat := 0
  cap : Nat := 0
  deriving DecidableEq, Repr, Inhabited

/-- How much `append` allocates: new capacity for an old capacity and the length needed. Go's policy
(`growslice`) doubles small slices; nothing here depends on it. -/
abbrev Grow := Nat → Nat → Nat

section
variable {α : Type}

/-- The elements of a slice, in the memory `mem` of arrays. -/
def view (mem : List (List α)) (s : Sl) : List α := (mem.getD s.arr []).take s.len

/-- `append(s, xs...)`. Without elements to append the slice itself is returned. -/
def goAppend [Inhabited α] (g : Grow) (mem : List (List α)) (s : Sl) (xs : List α) : List (List α) × Sl :=
  if xs.length = 0 then (mem, s)
  else if s.len + xs.length ≤ s.cap then
    (mem.modify s.arr fun a => a.take s.len ++ xs ++ a.drop (s.len + xs.length),
      { s with len := s.len + xs.length })
  else
    let need := s.len + xs.length
    let cap := max (g s.cap need) need
    (mem ++ [view mem s ++ xs ++ List.replicate (cap - need) default], ⟨mem.length, need, cap⟩)

/-- A new slice with the given elements and spare capacity; a composite literal has none. -/
def goNew [Inhabited α] (mem : List (List α)) (xs : List α) (spare : Nat) : List (List α) × Sl :=
  (mem ++ [xs ++ List.replicate spare default], ⟨mem.length, xs.length, xs.length + spare⟩)

end

/-- The arrays of ints, behind clauses, and the arrays of clauses, behind lists of clauses. -/
structure Heap where
  ints : List (List Int)
  outs : List (List Sl)
  deriving DecidableEq, Repr

/-- The nil slice; also the empty composite literal. -/
def nilSl : Sl := {}

/-- The memory when the program starts: array 0 of both kinds is empty; array 1 of clauses belongs to
cnf/cnf.go:42 `NegClauses`. -/
def Heap.start : Heap := { ints := [[]], outs := [[], [nilSl]] }

/-- cnf/cnf.go:29-37 `type CNF struct`. -/
structure HCNF where
  tv : Int := 0
  s : Sl := nilSl
  c : Sl := nilSl
  deriving DecidableEq, Repr, Inhabited

/-- cnf/cnf.go:46 `FalseCNF`. -/
def falseCNF : HCNF := { s := ⟨1, 1, 1⟩ }

namespace Heap

/-- A clause. -/
def clause (h : Heap) (s : Sl) : Clause := view h.ints s
/-- The clauses of a list of clauses, as slices. -/
def hdrs (h : Heap) (s : Sl) : List Sl := view h.outs s
/-- The clauses of a list of clauses. -/
def clauses (h : Heap) (s : Sl) : List Clause := (h.hdrs s).map h.clause
/-- What a CNF value means at this moment. -/
def cnf (h : Heap) (v : HCNF) : CNF := { tv := v.tv, sClauses := h.clauses v.s, cClauses := h.clauses v.c }

/-- `append(s, lits...)` for a clause. -/
def appendInts (g : Grow) (h : Heap) (s : Sl) (xs : List Int) : Heap × Sl :=
  let r := goAppend g h.ints s xs
  ({ h with ints := r.1 }, r.2)
/-- `append(s, clauses...)` for a list of clauses. -/
def appendOuts (g : Grow) (h : Heap) (s : Sl) (xs : List Sl) : Heap × Sl :=
  let r := goAppend g h.outs s xs
  ({ h with outs := r.1 }, r.2)
/-- A new clause. -/
def newInts (h : Heap) (xs : List Int) (spare : Nat) : Heap × Sl :=
  let r := goNew h.ints xs spare
  ({ h with ints := r.1 }, r.2)
/-- A new list of clauses. -/
def newOuts (h : Heap) (xs : List Sl) (spare : Nat) : Heap × Sl :=
  let r := goNew h.outs xs spare
  ({ h with outs := r.1 }, r.2)

/-- New clauses. -/
def newClauses (h : Heap) : List (Clause × Nat) → Heap × List Sl
  | [] => (h, [])
  | (c, spare) :: cs =>
    let r := h.newInts c spare
    let r' := newClauses r.1 cs
    (r'.1, r.2 :: r'.2)

/-- cnf/cnf.go:49-54 `FromClauses`. -/
def fromClauses (h : Heap) (clauses : Sl) : HCNF :=
  { s := clauses, tv := maxVar (h.clauses clauses) }

/-- cnf/cnf.go:171-179 `CNF.AppendSemantics`. -/
def appendSemantics (g : Grow) (h : Heap) (v : HCNF) (xs : List Sl) : Heap × HCNF :=
  let topv := maxInt v.tv (maxVar (xs.map h.clause))
  let r := h.appendOuts g v.s xs
  (r.1, { tv := topv, s := r.2, c := v.c })

/-- cnf/cnf.go:181-189 `CNF.AppendConsistency`. -/
def appendConsistency (g : Grow) (h : Heap) (v : HCNF) (xs : List Sl) : Heap × HCNF :=
  let topv := maxInt v.tv (maxVar (xs.map h.clause))
  let r := h.appendOuts g v.c xs
  (r.1, { tv := topv, s := v.s, c := r.2 })

/-- cnf/cnf.go:162-169 `CNF.Conjunction`. The slices of `oc` are read when they are passed. -/
def conjunction (g : Grow) (h : Heap) (v oc : HCNF) : Heap × HCNF :=
  let r := h.appendSemantics g v (h.hdrs oc.s)
  let rcnf := { r.2 with c := v.c }
  r.1.appendConsistency g rcnf (r.1.hdrs oc.c)

/-- The loop variables of `tseytinNegation`. -/
structure TSt where
  h : Heap
  tv : Int
  clauses : List Sl
  enclits : Sl

/-- cnf/cnf.go:123-128: the clauses for a clause with more than one literal. -/
def tseytinClause (g : Grow) (st : TSt) (clause : Sl) : TSt :=
  let tv := st.tv + 1
  let auxv := tv
  let r := st.h.newClauses ((st.h.clause clause).map fun lit => ([-lit, -auxv], 0))
  let r' := r.1.appendInts g clause [auxv]
  let r'' := r'.1.appendInts g st.enclits [auxv]
  { h := r''.1, tv := tv, clauses := st.clauses ++ r.2 ++ [r'.2], enclits := r''.2 }

/-- cnf/cnf.go:109-133, the loop of `tseytinNegation`; `.error` is the early return. -/
def tseytinLoop (g : Grow) (st : TSt) : List Sl → Except TSt TSt
  | [] => .ok st
  | clause :: rest =>
    match st.h.clause clause with
    | [] => .error st
    | [l] =>
      let r := st.h.appendInts g st.enclits [-l]
      tseytinLoop g { st with h := r.1, enclits := r.2 } rest
    | _ :: _ :: _ => tseytinLoop g (tseytinClause g st clause) rest

/-- cnf/cnf.go:152-154: the loop of `addNegationIFFClauses`. -/
def iffLoop (g : Grow) (h : Heap) (c : Sl) (auxv : Int) : List Int → Heap × Sl
  | [] => (h, c)
  | lit :: lits =>
    let r := h.newInts [-lit, auxv] 0
    let r' := r.1.appendOuts g c [r.2]
    iffLoop g r'.1 r'.2 auxv lits

/-- cnf/cnf.go:148-160 `CNF.addNegationIFFClauses`. -/
def addNegationIFFClauses (g : Grow) (h : Heap) (v : HCNF) (enclits : Sl) : Heap × HCNF :=
  let tv := v.tv + 1
  let auxv := tv
  let r := iffLoop g h v.c auxv (h.clause enclits)
  let e := r.1.appendInts g enclits [-auxv]
  let c := e.1.appendOuts g r.2 [e.2]
  let one := c.1.newInts [auxv] 0
  let s := one.1.newOuts [one.2] 0
  (s.1, { tv := tv, s := s.2, c := c.2 })

/-- cnf/cnf.go:103-146 `CNF.tseytinNegation`. -/
def tseytinNegation (g : Grow) (h : Heap) (v : HCNF) (tv : Int) : Heap × HCNF :=
  match tseytinLoop g ⟨h, tv, [], nilSl⟩ (h.hdrs v.s) with
  | .error st => (st.h, { v with s := nilSl, tv := st.tv })
  | .ok st =>
    let r := st.h.appendOuts g v.c st.clauses
    let v := { v with c := r.2, tv := st.tv }
    if st.enclits.len = 1 then
      let s := r.1.newOuts [st.enclits] 0
      (s.1, { v with s := s.2 })
    else addNegationIFFClauses g r.1 v st.enclits

/-- cnf/cnf.go:62-101 `CNF.Negate`. -/
def negate (g : Grow) (h : Heap) (v : HCNF) (optTopv : Option Int) : Heap × HCNF :=
  let topv := match optTopv with
    | some t => maxInt v.tv t
    | none => v.tv
  if v.s.len = 0 then
    let r := h.appendSemantics g v [nilSl]
    (r.1, { r.2 with tv := topv })
  else if (h.hdrs v.s).any fun cl => cl.len == 0 then
    (h, { c := v.c, tv := topv })
  else
    tseytinNegation g h { tv := topv, s := v.s, c := v.c } topv

end Heap

/-- A call of the exported API of package cnf on earlier results, named by their position in the list of
all results. Clauses given by the user are new slices with some spare capacity each. -/
inductive Op where
  | zero
  | falseCNF
  | fromClauses (cls : List (Clause × Nat)) (spare : Nat)
  | appendSemantics (i : Nat) (cls : List (Clause × Nat))
  | appendConsistency (i : Nat) (cls : List (Clause × Nat))
  | conjunction (i j : Nat)
  | negate (i : Nat) (o : Option Int)
  deriving DecidableEq, Repr

/-- The memory and all results so far. -/
structure St where
  h : Heap := Heap.start
  vals : List HCNF := []

/-- One call; without effect if an operand does not exist. -/
def step (g : Grow) (st : St) : Op → St
  | .zero => { st with vals := st.vals ++ [{}] }
  | .falseCNF => { st with vals := st.vals ++ [falseCNF] }
  | .fromClauses cls spare =>
    let r := st.h.newClauses cls
    let r' := r.1.newOuts r.2 spare
    { h := r'.1, vals := st.vals ++ [r'.1.fromClauses r'.2] }
  | .appendSemantics i cls =>
    match st.vals[i]? with
    | none => st
    | some v =>
      let r := st.h.newClauses cls
      let r' := r.1.appendSemantics g v r.2
      { h := r'.1, vals := st.vals ++ [r'.2] }
  | .appendConsistency i cls =>
    match st.vals[i]? with
    | none => st
    | some v =>
      let r := st.h.newClauses cls
      let r' := r.1.appendConsistency g v r.2
      { h := r'.1, vals := st.vals ++ [r'.2] }
  | .conjunction i j =>
    match st.vals[i]?, st.vals[j]? with
    | some v, some w =>
      let r := st.h.conjunction g v w
      { h := r.1, vals := st.vals ++ [r.2] }
    | _, _ => st
  | .negate i o =>
    match st.vals[i]? with
    | none => st
    | some v =>
      let r := st.h.negate g v o
      { h := r.1, vals := st.vals ++ [r.2] }

/-- A sequence of calls. -/
def run (g : Grow) (ops : List Op) : St := ops.foldl (step g) {}

end Goexpdt.Alias

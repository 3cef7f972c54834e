import Verif.Lemmas.FactsTree
import Verif.Lemmas.Indexed
/- What the clauses and the loops of isnode, allcomp and dfs say on a decision tree. -/
namespace Goexpdt
open Spec Props

theorem root_leaf (i : Nat) (v : Bool) : (DTree.leaf i v).root = i := rfl
theorem root_node (i f : Nat) (z o : DTree) : (DTree.node i f z o).root = i := rfl

variable {d : Nat} {nodes : List Node} {T : DTree} {e : PInst} {ν : VarRep → Bool} {n r : QVar}

theorem raw_valid (hT : IsRawTree d nodes T) (hC : Covers nodes T) : Valid d nodes :=
  (newIter_ok (C18_accepted d nodes T hT hC)).2.1

theorem tree_valid (hT : IsTree d nodes T) (hC : Covers nodes T) : Valid d nodes := raw_valid hT.raw hC

theorem tree_ne (hT : IsTree d nodes T) : nodes ≠ [] := by
  have := laysOut_lt hT.laid T.root (root_mem T)
  intro h
  simp [h] at this

/-- The fields of an internal node. -/
theorem valid_node (hv : Valid d nodes) {i : Nat} (hi : i < nodes.length) (hl : (nodeAt nodes i).isLeaf = false) :
    ∃ f z o : Nat, f < d ∧ z < nodes.length ∧ o < nodes.length ∧ (nodeAt nodes i).feat = (f : Int) ∧
      (nodeAt nodes i).zChild = (z : Int) ∧ (nodeAt nodes i).oChild = (o : Int) := by
  have hn := getElem?_nodeAt hi
  obtain ⟨a, b, c, dd, e, f⟩ := hv i _ hn hl
  exact ⟨(nodeAt nodes i).feat.toNat, (nodeAt nodes i).zChild.toNat, (nodeAt nodes i).oChild.toNat,
    by omega, by omega, by omega, by omega, by omega, by omega⟩

theorem featsInRange_of (hv : Valid d nodes) : featsInRange d nodes = true := by
  simp only [featsInRange, List.all_eq_true]
  intro n hn
  obtain ⟨i, hi⟩ := List.mem_iff_getElem?.1 hn
  cases hl : n.isLeaf
  · have := hv i n hi hl
    simp [this.1, this.2.1]
  · simp

/-- The triples `(0, u)` of `r` hold of the nodes in the set. -/
def Marks (nodes : List Node) (ν : VarRep → Bool) (r : QVar) (S : Nat → Prop) : Prop :=
  ∀ u < nodes.length, (ν ⟨r, 0, (u : Nat)⟩ = true ↔ S u)

theorem prop1_at {A : Nat → Bool → Prop} {ρ : Nat → Bool} {i : Nat} (hi : i < nodes.length) {f z o : Nat}
    (hl : (nodeAt nodes i).isLeaf = false) (hf : (nodeAt nodes i).feat = (f : Int))
    (hz : (nodeAt nodes i).zChild = (z : Int)) (ho : (nodeAt nodes i).oChild = (o : Int)) :
    Prop1 A ρ nodes i ↔ (ρ z = true ↔ ρ i = true ∧ A f false) ∧ (ρ o = true ↔ ρ i = true ∧ A f true) := by
  constructor
  · intro h; exact h _ (getElem?_nodeAt hi) hl f z o hf hz ho
  · intro h m hm _ f' z' o' hf' hz' ho'
    rw [getElem?_nodeAt hi] at hm
    simp only [Option.some.injEq] at hm
    subst hm
    obtain rfl : f = f' := by rw [hf] at hf'; exact_mod_cast hf'
    obtain rfl : z = z' := by rw [hz] at hz'; exact_mod_cast hz'
    obtain rfl : o = o' := by rw [ho] at ho'; exact_mod_cast ho'
    exact h

theorem prop1_leaf {A : Nat → Bool → Prop} {ρ : Nat → Bool} {i : Nat} (hi : i < nodes.length)
    (hl : (nodeAt nodes i).isLeaf = true) : Prop1 A ρ nodes i := by
  intro m hm hml
  rw [getElem?_nodeAt hi] at hm
  simp only [Option.some.injEq] at hm
  subst hm
  rw [hl] at hml; simp at hml

theorem isnodeCon_hits (hT : IsRawTree d nodes T) (hC : Covers nodes T) (hr : Rd d ν n e) :
    ssTrue ν ([P r 0 0] :: isnodeProp nodes n r) ↔ Marks nodes ν r fun u => Hits (fun i b => e i = some b) u T := by
  have hv := raw_valid hT hC
  unfold Marks
  rw [← prop_iff (ρ := fun u => ν ⟨r, 0, (u : Nat)⟩) hT hC]
  simp only [ssTrue_cons, scTrue_cons, scTrue_nil, or_false, slTrue_P, isnodeProp, ssTrue_flatMap, mem_rng,
    Nat.zero_le, true_and]
  refine and_congr Iff.rfl (forall_congr' fun i => forall_congr' fun hi => ?_)
  cases hl : (nodeAt nodes i).isLeaf
  · obtain ⟨f, z, o, hf, -, -, h1, h2, h3⟩ := valid_node hv hi hl
    rw [prop1_at hi hl h1 h2 h3, h1, h2, h3]
    simp only [Bool.false_eq_true, if_false]
    cases x : ν ⟨r, 0, (i : Nat)⟩ <;> cases y : ν ⟨r, 0, (z : Nat)⟩ <;> cases w : ν ⟨r, 0, (o : Nat)⟩ <;>
      rcases opt3 (e f) with h | h | h <;> simp [hr.zero hf, hr.one hf, h, x, y, w]
  · simp [prop1_leaf hi hl]

theorem isnodeCon_iff (hT : IsTree d nodes T) (hC : Covers nodes T) (hr : Rd d ν n e) :
    ssTrue ν ([P r 0 0] :: isnodeProp nodes n r) ↔
      Marks nodes ν r fun u => ∃ p ∈ T.nodeInsts bot, p.1 = u ∧ Subsumes d p.2 e := by
  simp only [← hits_subsumes hT]
  exact isnodeCon_hits hT.raw hC hr

theorem isnodeSem_hits (hT : IsRawTree d nodes T) (hr : Rd d ν n e) (hm : Marks nodes ν r fun u => Hits (fun i b => e i = some b) u T) :
    ssTrue ν (isnodeFcl d nodes n r) ↔ ∀ f < d, e f = none ∨ HitsFeat (fun i b => e i = some b) f T := by
  simp only [isnodeFcl, ssTrue_map, mem_rng, Nat.zero_le, true_and, scTrue_cons, slTrue_P, scTrue_map,
    List.mem_filter, Bool.and_eq_true, Bool.not_eq_true', beq_iff_eq]
  refine forall_congr' fun f => forall_congr' fun hf => ?_
  rw [hr.bot hf, decide_eq_true_eq]
  refine or_congr Iff.rfl ?_
  rw [← hitsFeat_iff hT.laid]
  constructor
  · rintro ⟨u, ⟨hu, h1, h2⟩, h3⟩
    exact ⟨u, hu, h1, h2, (hm u hu).1 h3⟩
  · rintro ⟨u, hu, h1, h2, h3⟩
    exact ⟨u, ⟨hu, h1, h2⟩, (hm u hu).2 h3⟩

theorem isnodeSem_iff (hT : IsTree d nodes T) (hr : Rd d ν n e)
    (hm : Marks nodes ν r fun u => ∃ p ∈ T.nodeInsts bot, p.1 = u ∧ Subsumes d p.2 e) :
    ssTrue ν (isnodeFcl d nodes n r) ↔ IsNode d T e := by
  simp only [← hits_subsumes hT] at hm
  rw [isNode_iff hT, isnodeSem_hits hT.raw hr hm]

theorem conOf_allcomp (leaf : Bool) (l : List Nat) : conOf (l.map (allcompStep leaf nodes n r)) =
    l.flatMap fun i => if (nodeAt nodes i).isLeaf then [] else
      conOf [allcompStep leaf nodes n r i] := by
  induction l with
  | nil => rfl
  | cons i l ih =>
    simp only [List.map_cons, List.flatMap_cons, ← ih]
    cases hl : (nodeAt nodes i).isLeaf <;> simp [allcompStep, hl, conOf]

theorem semOf_allcomp (leaf : Bool) (l : List Nat) : semOf (l.map (allcompStep leaf nodes n r)) =
    l.flatMap fun (i : Nat) => if (nodeAt nodes i).isLeaf ∧ (nodeAt nodes i).value ≠ leaf then [[N r 0 i]] else [] := by
  induction l with
  | nil => rfl
  | cons i l ih =>
    simp only [List.map_cons, List.flatMap_cons, ← ih]
    cases hl : (nodeAt nodes i).isLeaf <;> simp [allcompStep, hl, semOf]

theorem allcompCon_hits (hT : IsRawTree d nodes T) (hC : Covers nodes T) (hr : Rd d ν n e) (leaf : Bool) :
    ssTrue ν (conOf (.con [[P r 0 0]] :: (rng 0 nodes.length).map (allcompStep leaf nodes n r))) ↔
      Marks nodes ν r fun u => Hits (fun i b => e i ≠ some (!b)) u T := by
  have hv := raw_valid hT hC
  unfold Marks
  rw [← prop_iff (ρ := fun u => ν ⟨r, 0, (u : Nat)⟩) hT hC]
  simp only [conOf, List.cons_append, List.nil_append, conOf_allcomp,
    ssTrue_cons, scTrue_cons, scTrue_nil, or_false, slTrue_P, ssTrue_flatMap, mem_rng, Nat.zero_le, true_and]
  refine and_congr Iff.rfl (forall_congr' fun i => forall_congr' fun hi => ?_)
  cases hl : (nodeAt nodes i).isLeaf
  · obtain ⟨f, z, o, hf, -, -, h1, h2, h3⟩ := valid_node hv hi hl
    rw [prop1_at hi hl h1 h2 h3]
    simp only [allcompStep, hl, h1, h2, h3, conOf, Bool.false_eq_true, if_false]
    cases x : ν ⟨r, 0, (i : Nat)⟩ <;> cases y : ν ⟨r, 0, (z : Nat)⟩ <;> cases w : ν ⟨r, 0, (o : Nat)⟩ <;>
      rcases opt3 (e f) with h | h | h <;> simp [hr.zero hf, hr.one hf, hr.bot hf, h, x, y, w]
  · simp [prop1_leaf hi hl]

theorem allcompCon_iff (hT : IsTree d nodes T) (hC : Covers nodes T) (hr : Rd d ν n e) (leaf : Bool) :
    ssTrue ν (conOf (.con [[P r 0 0]] :: (rng 0 nodes.length).map (allcompStep leaf nodes n r))) ↔
      Marks nodes ν r fun u => ∃ p ∈ T.nodeInsts bot, p.1 = u ∧ Cons d p.2 e := by
  simp only [← hits_cons hT]
  exact allcompCon_hits hT.raw hC hr leaf

theorem allcompSem_hits (hT : IsRawTree d nodes T) (leaf : Bool) (hm : Marks nodes ν r fun u => Hits (fun i b => e i ≠ some (!b)) u T) :
    ssTrue ν (semOf (.con [[P r 0 0]] :: (rng 0 nodes.length).map (allcompStep leaf nodes n r))) ↔
      LeafsAre (fun i b => e i ≠ some (!b)) leaf T := by
  rw [leafsAre_hits hT.laid]
  simp only [semOf, semOf_allcomp, ssTrue_flatMap, mem_rng, Nat.zero_le, true_and]
  refine forall_congr' fun u => forall_congr' fun hu => ?_
  have : ν ⟨r, 0, (u : Nat)⟩ = true ↔ _ := hm u hu
  split
  · next h =>
    simp only [h.1, h.2, ne_eq, not_false_eq_true, true_imp_iff, ← this]
    simp
  · next h =>
    simp only [ssTrue_nil, true_iff]
    intro h1 h2
    exact absurd ⟨h1, h2⟩ h

theorem allcompSem_iff (hT : IsTree d nodes T) (leaf : Bool)
    (hm : Marks nodes ν r fun u => ∃ p ∈ T.nodeInsts bot, p.1 = u ∧ Cons d p.2 e) :
    ssTrue ν (semOf (.con [[P r 0 0]] :: (rng 0 nodes.length).map (allcompStep leaf nodes n r))) ↔
      AllComp d T leaf e := by
  simp only [← hits_cons hT] at hm
  rw [← leafsAre_iff hT.once hT.range, allcompSem_hits hT.raw leaf hm]

/-! ### isnode on a constant -/

theorem foldl_add (l : List Nat) : ∀ a, l.foldl (· + ·) a = a + l.sum := by
  induction l with
  | nil => simp
  | cons x l ih => intro a; simp only [List.foldl_cons, ih, List.sum_cons]; omega

theorem allVisited_iff (vr : List Nat) (h : ∀ x ∈ vr, x ≤ 1) : allFeatsVisited vr = true ↔ ∀ x ∈ vr, x = 1 := by
  unfold allFeatsVisited
  rw [foldl_add, Nat.zero_add, beq_iff_eq]
  induction vr with
  | nil => simp
  | cons x vr ih =>
    have hx := h x (by simp)
    have h' : ∀ y ∈ vr, y ≤ 1 := fun y hy => h y (by simp [hy])
    have hle : vr.sum ≤ vr.length := by
      clear ih h
      induction vr with
      | nil => simp
      | cons y vr ih2 =>
        have := h' y (by simp)
        have := ih2 fun z hz => h' z (by simp [hz])
        simp only [List.sum_cons, List.length_cons]; omega
    simp only [List.sum_cons, List.length_cons, List.mem_cons, forall_eq_or_imp, ← ih h']
    omega

/-- The walk of isnode.Const down a tree. -/
theorem isnodeLoop_tree {sc : QConst} (hc : GoodVals d sc.val) (hl : LaysOut nodes T) (hr : ∀ f ∈ T.feats, f < d) :
    ∀ (fuel : Nat) (vr : List Nat), vr.length = d → (∀ x ∈ vr, x ≤ 1) → T.indexes.length ≤ fuel →
    ∃ vr', isnodeLoop d sc nodes fuel (nodeAt nodes T.root) vr = .ok vr' ∧ vr'.length = d ∧ (∀ x ∈ vr', x ≤ 1) ∧
      ∀ f < d, (vr'.getD f 0 = 1 ↔ vr.getD f 0 = 1 ∨
        (den sc.val f ≠ none ∧ HitsFeat (fun i b => den sc.val i = some b) f T)) := by
  induction T with
  | leaf i v =>
    obtain ⟨m, hm, hlf, -⟩ := hl
    replace hlf : m.isLeaf = true := hlf
    intro fuel vr h1 h2 h3
    simp only [DTree.indexes, List.length_singleton] at h3
    obtain ⟨k, rfl⟩ : ∃ k, fuel = k + 1 := ⟨fuel - 1, by omega⟩
    refine ⟨vr, ?_, h1, h2, fun f _ => by simp [HitsFeat]⟩
    simp [isnodeLoop, root_leaf, nodeAt_eq hm, hlf]
  | node i g z o ihz iho =>
    have hltz := laysOut_lt hl z.root (by simp [DTree.indexes, root_mem])
    have hlto := laysOut_lt hl o.root (by simp [DTree.indexes, root_mem])
    obtain ⟨⟨m, hm, hlf, hg, hz, ho⟩, hlz, hlo⟩ := hl
    replace hlf : m.isLeaf = false := hlf
    intro fuel vr h1 h2 h3
    simp only [DTree.indexes, List.length_cons, List.length_append] at h3
    obtain ⟨k, rfl⟩ : ∃ k, fuel = k + 1 := ⟨fuel - 1, by omega⟩
    have hgd : g < d := hr g (by simp [DTree.feats])
    have hat := at_eq hc hgd sc rfl
    unfold isnodeLoop
    simp only [root_node, nodeAt_eq hm, hlf, hg, hz, ho, Bool.false_eq_true, if_false, Int.toNat_natCast, hat,
      valOf_bot, valOf_zero]
    have hlen := hc.1
    rw [if_neg (by omega), indexed_ok (by simp; omega)]
    simp only
    have hset : ∀ f < d, ((vr.set g 1).getD f 0 = 1 ↔ vr.getD f 0 = 1 ∨ f = g) := by
      intro f hf
      simp only [List.getD_eq_getElem?_getD, List.getElem?_set]
      by_cases hgf : g = f
      · subst hgf; simp [show g < vr.length by omega]
      · simp only [hgf, if_false]; simp [Ne.symm hgf]
    have hle : ∀ x ∈ vr.set g 1, x ≤ 1 := by
      intro x hx
      rcases List.mem_or_eq_of_mem_set hx with h | h
      · exact h2 x h
      · omega
    rcases opt3 (den sc.val g) with h | h | h
    · refine ⟨vr, by simp [h], h1, h2, fun f hf => ?_⟩
      simp only [HitsFeat, h, reduceCtorEq, false_and, or_false]
      constructor
      · exact .inl
      · rintro (h' | ⟨h', rfl⟩)
        · exact h'
        · exact absurd h h'
    · obtain ⟨vr', e1, e2, e3, e4⟩ := ihz hlz (fun f hf => hr f (by simp [DTree.feats, hf])) k (vr.set g 1)
        (by simpa using h1) hle (by omega)
      refine ⟨vr', ?_, e2, e3, fun f hf => ?_⟩
      · simp only [h, reduceCtorEq, if_false, if_true]
        rw [if_neg (by omega), e1]
      · rw [e4 f hf, hset f hf]
        simp only [HitsFeat, h, true_and, Option.some.injEq, Bool.false_eq_true, false_and, or_false]
        constructor
        · rintro ((h' | rfl) | ⟨h', h''⟩)
          · exact .inl h'
          · exact .inr ⟨by simp [h], .inl rfl⟩
          · exact .inr ⟨h', .inr h''⟩
        · rintro (h' | ⟨h', (rfl | h'')⟩)
          · exact .inl (.inl h')
          · exact .inl (.inr rfl)
          · exact .inr ⟨h', h''⟩
    · obtain ⟨vr', e1, e2, e3, e4⟩ := iho hlo (fun f hf => hr f (by simp [DTree.feats, hf])) k (vr.set g 1)
        (by simpa using h1) hle (by omega)
      refine ⟨vr', ?_, e2, e3, fun f hf => ?_⟩
      · simp only [h, reduceCtorEq, if_false, Option.some.injEq, Bool.true_eq_false]
        rw [if_neg (by omega), e1]
      · rw [e4 f hf, hset f hf]
        simp only [HitsFeat, h, true_and, Option.some.injEq, Bool.true_eq_false, false_and, false_or]
        constructor
        · rintro ((h' | rfl) | ⟨h', h''⟩)
          · exact .inl h'
          · exact .inr ⟨by simp [h], .inl rfl⟩
          · exact .inr ⟨h', .inr h''⟩
        · rintro (h' | ⟨h', (rfl | h'')⟩)
          · exact .inl (.inl h')
          · exact .inl (.inr rfl)
          · exact .inr ⟨h', h''⟩

theorem indexes_length_le (hl : LaysOut nodes T) (hnd : T.indexes.Nodup) : T.indexes.length ≤ nodes.length := by
  have hlt := laysOut_lt hl
  have hsub : T.indexes ⊆ List.range nodes.length := fun i hi => List.mem_range.2 (hlt i hi)
  simpa using hnd.length_le_of_subset hsub

theorem isnodeConst_laid (hl : LaysOut nodes T) (hr : ∀ f ∈ T.feats, f < d) {sc : QConst} (hc : GoodVals d sc.val) {fuel : Nat}
    (hf : T.indexes.length ≤ fuel) :
    ∃ vr, isnodeLoop d sc nodes fuel (nodeAt nodes T.root) (newVisitRecord sc) = .ok vr ∧
      (allFeatsVisited vr = true ↔ ∀ f < d, den sc.val f = none ∨ HitsFeat (fun i b => den sc.val i = some b) f T) := by
  have hlen : (newVisitRecord sc).length = d := by simp [newVisitRecord, hc.1]
  have hle : ∀ x ∈ newVisitRecord sc, x ≤ 1 := by
    intro x hx
    simp only [newVisitRecord, List.mem_map] at hx
    obtain ⟨v, -, rfl⟩ := hx
    split <;> omega
  obtain ⟨vr, e1, e2, e3, e4⟩ := isnodeLoop_tree hc hl hr fuel _ hlen hle hf
  refine ⟨vr, e1, ?_⟩
  rw [allVisited_iff vr e3]
  have : (∀ x ∈ vr, x = 1) ↔ ∀ f < d, vr.getD f 0 = 1 := by
    constructor
    · intro h f hf
      rw [List.getD_eq_getElem?_getD, List.getElem?_eq_getElem (by omega : f < vr.length)]
      exact h _ (List.getElem_mem _)
    · intro h x hx
      obtain ⟨f, hf, rfl⟩ := List.mem_iff_getElem.1 hx
      have := h f (by omega)
      rwa [List.getD_eq_getElem?_getD, List.getElem?_eq_getElem hf] at this
  rw [this]
  refine forall_congr' fun f => forall_congr' fun hf => ?_
  rw [e4 f hf]
  have h0 : (newVisitRecord sc).getD f 0 = 1 ↔ den sc.val f = none := by
    have hat := at_eq hc hf sc rfl
    have hf' : f < sc.val.length := by have := hc.1; omega
    simp only [newVisitRecord, List.getD_eq_getElem?_getD, List.getElem?_map,
      List.getElem?_eq_getElem hf', Option.map_some, Option.getD_some]
    simp only [QConst.at, List.getD_eq_getElem?_getD, List.getElem?_eq_getElem hf', Option.getD_some] at hat
    rw [hat]
    simp [valOf_bot]
  rw [h0]
  by_cases h : den sc.val f = none <;> simp [h]

theorem isnodeConst_raw (hT : IsRawTree d nodes T) {sc : QConst} (hc : GoodVals d sc.val) :
    ∃ vr, isnodeLoop d sc nodes (nodes.length + 1) (nodeAt nodes 0) (newVisitRecord sc) = .ok vr ∧
      (allFeatsVisited vr = true ↔ ∀ f < d, den sc.val f = none ∨ HitsFeat (fun i b => den sc.val i = some b) f T) := by
  rw [← hT.root]
  exact isnodeConst_laid hT.laid hT.range hc (by have := indexes_length_le hT.laid hT.nodup; omega)

theorem isnodeConst_tree (hT : IsTree d nodes T) {sc : QConst} (hc : GoodVals d sc.val) :
    ∃ vr, isnodeLoop d sc nodes (nodes.length + 1) (nodeAt nodes 0) (newVisitRecord sc) = .ok vr ∧
      (allFeatsVisited vr = true ↔ IsNode d T (den sc.val)) := by
  rw [isNode_iff hT]
  exact isnodeConst_raw hT.raw hc

/-! ### allcomp on a constant -/

/-- The sizes of the trees of a stack. -/
def stackSize (ts : List DTree) : Nat := (ts.map fun t => t.indexes.length).sum

theorem acLoop_tree {sc : QConst} (hc : GoodVals d sc.val) (leaf : Bool) :
    ∀ (fuel : Nat) (ts : List DTree) (vis : List Int), (∀ t ∈ ts, LaysOut nodes t ∧ (∀ f ∈ t.feats, f < d)) →
      (ts.flatMap DTree.indexes).Nodup →
      (∀ t ∈ ts, ∀ i ∈ t.indexes.tail, (i : Int) ∉ vis) →
      stackSize ts < fuel →
      ∃ b, acLoop d sc leaf nodes fuel vis (ts.map fun t => nodeAt nodes t.root) = .ok b ∧
        (b = true ↔ ∀ t ∈ ts, LeafsAre (fun i b => den sc.val i ≠ some (!b)) leaf t) := by
  intro fuel
  induction fuel with
  | zero => intro ts vis _ _ _ h; omega
  | succ fuel ih =>
    intro ts vis hts hnd hvis hsz
    cases ts with
    | nil => exact ⟨true, by simp [acLoop], by simp⟩
    | cons t ts =>
      have hts' : ∀ t ∈ ts, LaysOut nodes t ∧ (∀ f ∈ t.feats, f < d) := fun t ht => hts t (by simp [ht])
      simp only [List.flatMap_cons, List.nodup_append] at hnd
      obtain ⟨hndt, hndts, hdis⟩ := hnd
      simp only [stackSize, List.map_cons, List.sum_cons] at hsz
      cases t with
      | leaf i v =>
        obtain ⟨⟨m, hm, hlf, hv⟩, -⟩ := hts (.leaf i v) (by simp)
        replace hlf : m.isLeaf = true := hlf
        simp only [List.map_cons, root_leaf, nodeAt_eq hm]
        unfold acLoop
        simp only [hlf, if_true, hv]
        by_cases hvl : v = leaf
        · obtain ⟨b, h1, h2⟩ := ih ts vis hts' hndts (fun t ht => hvis t (by simp [ht])) (by
            simp only [DTree.indexes, List.length_singleton] at hsz; unfold stackSize; omega)
          refine ⟨b, by simp [hvl, h1], ?_⟩
          rw [h2]
          simp [LeafsAre, hvl]
        · refine ⟨false, by simp [hvl], ?_⟩
          simp [LeafsAre, hvl]
      | node i g z o =>
        obtain ⟨hl, hr⟩ := hts (.node i g z o) (by simp)
        have hltz := laysOut_lt hl z.root (by simp [DTree.indexes, root_mem])
        have hlto := laysOut_lt hl o.root (by simp [DTree.indexes, root_mem])
        obtain ⟨⟨m, hm, hlf, hg, hz, ho⟩, hlz, hlo⟩ := hl
        replace hlf : m.isLeaf = false := hlf
        have hgd : g < d := hr g (by simp [DTree.feats])
        have hat := at_eq hc hgd sc rfl
        simp only [DTree.indexes, List.length_cons, List.length_append] at hsz
        simp only [DTree.indexes, List.nodup_cons, List.mem_append, not_or, List.nodup_append] at hndt
        obtain ⟨⟨hiz, hio⟩, hndz, hndo, hdzo⟩ := hndt
        have hz' := hvis (.node i g z o) (by simp)
        simp only [DTree.indexes, List.tail_cons, List.mem_append] at hz'
        have hztail : ∀ j ∈ z.indexes.tail, j ≠ z.root := by
          intro j hj he
          rw [indexes_eq z, List.nodup_cons] at hndz
          exact hndz.1 (he ▸ hj)
        have hotail : ∀ j ∈ o.indexes.tail, j ≠ o.root := by
          intro j hj he
          rw [indexes_eq o, List.nodup_cons] at hndo
          exact hndo.1 (he ▸ hj)
        have hdz : ∀ a ∈ z.indexes, ∀ b ∈ ts.flatMap DTree.indexes, a ≠ b := fun a ha b hb =>
          hdis a (by simp [DTree.indexes, ha]) b hb
        have hdo : ∀ a ∈ o.indexes, ∀ b ∈ ts.flatMap DTree.indexes, a ≠ b := fun a ha b hb =>
          hdis a (by simp [DTree.indexes, ha]) b hb
        have hpz : ∀ stack, acPush nodes z.root vis stack = .ok ((z.root : Int) :: vis, nodeAt nodes z.root :: stack) := by
          intro stack
          unfold acPush
          rw [if_neg (hz' z.root (.inl (root_mem z))), if_neg (by omega)]
          simp
        have hpo : ∀ stack vis, (o.root : Int) ∉ vis →
            acPush nodes o.root vis stack = .ok ((o.root : Int) :: vis, nodeAt nodes o.root :: stack) := by
          intro stack vis hv
          unfold acPush
          rw [if_neg hv, if_neg (by omega)]
          simp
        have hrz : ∀ f ∈ z.feats, f < d := fun f hf => hr f (by simp [DTree.feats, hf])
        have hro : ∀ f ∈ o.feats, f < d := fun f hf => hr f (by simp [DTree.feats, hf])
        have hvts : ∀ t ∈ ts, ∀ j ∈ t.indexes.tail, (j : Int) ∉ vis := fun t ht => hvis t (by simp [ht])
        have htm : ∀ t ∈ ts, ∀ j ∈ t.indexes.tail, j ∈ ts.flatMap DTree.indexes := fun t ht j hj =>
          List.mem_flatMap.2 ⟨t, ht, List.mem_of_mem_tail hj⟩
        have castne : ∀ {a b : Nat}, a ≠ b → (a : Int) ≠ (b : Int) := fun h h' => h (by exact_mod_cast h')
        simp only [List.map_cons, root_node, nodeAt_eq hm]
        unfold acLoop
        simp only [hlf, hg, hz, ho, Bool.false_eq_true, if_false, Int.toNat_natCast, hat, valOf_bot, valOf_zero,
          valOf_one, LeafsAre, List.mem_cons, forall_eq_or_imp]
        have hlen := hc.1
        rw [if_neg (by omega), indexed_ok (by simp; omega)]
        simp only
        rcases opt3 (den sc.val g) with h | h | h
        · obtain ⟨b, h1, h2⟩ := ih (o :: z :: ts) ((o.root : Int) :: (z.root : Int) :: vis) (by
            simp only [List.mem_cons, forall_eq_or_imp]
            exact ⟨⟨hlo, hro⟩, ⟨hlz, hrz⟩, hts'⟩) (by
            simp only [List.flatMap_cons, List.nodup_append]
            refine ⟨hndo, ⟨hndz, hndts, hdz⟩, ?_⟩
            intro a ha b hb
            rcases List.mem_append.1 hb with hb | hb
            · exact fun he => hdzo b hb a ha he.symm
            · exact hdo a ha b hb) (by
            simp only [List.mem_cons, forall_eq_or_imp, not_or]
            refine ⟨fun j hj => ⟨castne (hotail j hj), castne fun he => ?_, hz' j (.inr (List.mem_of_mem_tail hj))⟩,
              fun j hj => ⟨castne fun he => ?_, castne (hztail j hj), hz' j (.inl (List.mem_of_mem_tail hj))⟩,
              fun t ht j hj => ⟨castne fun he => ?_, castne fun he => ?_, hvts t ht j hj⟩⟩
            · exact hdzo z.root (root_mem z) j (List.mem_of_mem_tail hj) he.symm
            · exact hdzo j (List.mem_of_mem_tail hj) o.root (root_mem o) he
            · exact hdo _ (root_mem o) j (htm t ht j hj) he.symm
            · exact hdz _ (root_mem z) j (htm t ht j hj) he.symm) (by
            simp only [stackSize, List.map_cons, List.sum_cons]; omega)
          refine ⟨b, ?_, ?_⟩
          · simp only [h, if_true, hpz]
            rw [hpo _ _ (by
              simp only [List.mem_cons, not_or]
              exact ⟨castne fun he => hdzo _ (root_mem z) _ (root_mem o) he.symm, hz' _ (.inr (root_mem o))⟩)]
            exact h1
          · rw [h2]
            simp only [h, List.mem_cons, forall_eq_or_imp]
            constructor
            · rintro ⟨a, b, c⟩; exact ⟨⟨fun _ => b, fun _ => a⟩, c⟩
            · rintro ⟨⟨b, a⟩, c⟩; exact ⟨a (by simp), b (by simp), c⟩
        · obtain ⟨b, h1, h2⟩ := ih (z :: ts) ((z.root : Int) :: vis) (by
            simp only [List.mem_cons, forall_eq_or_imp]
            exact ⟨⟨hlz, hrz⟩, hts'⟩) (by
            simp only [List.flatMap_cons, List.nodup_append]
            exact ⟨hndz, hndts, hdz⟩) (by
            simp only [List.mem_cons, forall_eq_or_imp, not_or]
            refine ⟨fun j hj => ⟨castne (hztail j hj), hz' j (.inl (List.mem_of_mem_tail hj))⟩,
              fun t ht j hj => ⟨castne fun he => ?_, hvts t ht j hj⟩⟩
            exact hdz _ (root_mem z) j (htm t ht j hj) he.symm) (by
            simp only [stackSize, List.map_cons, List.sum_cons]; omega)
          refine ⟨b, ?_, ?_⟩
          · simp only [h, reduceCtorEq, if_false, if_true, hpz]
            exact h1
          · rw [h2]
            simp [h]
        · obtain ⟨b, h1, h2⟩ := ih (o :: ts) ((o.root : Int) :: vis) (by
            simp only [List.mem_cons, forall_eq_or_imp]
            exact ⟨⟨hlo, hro⟩, hts'⟩) (by
            simp only [List.flatMap_cons, List.nodup_append]
            exact ⟨hndo, hndts, hdo⟩) (by
            simp only [List.mem_cons, forall_eq_or_imp, not_or]
            refine ⟨fun j hj => ⟨castne (hotail j hj), hz' j (.inr (List.mem_of_mem_tail hj))⟩,
              fun t ht j hj => ⟨castne fun he => ?_, hvts t ht j hj⟩⟩
            exact hdo _ (root_mem o) j (htm t ht j hj) he.symm) (by
            simp only [stackSize, List.map_cons, List.sum_cons]; omega)
          refine ⟨b, ?_, ?_⟩
          · simp only [h, reduceCtorEq, if_false, if_true, Option.some.injEq, Bool.true_eq_false]
            rw [hpo _ _ (hz' _ (.inr (root_mem o)))]
            exact h1
          · rw [h2]
            simp [h]

theorem allcompConst_raw (hT : IsRawTree d nodes T) {sc : QConst} (hc : GoodVals d sc.val) (leaf : Bool) :
    ∃ b, acLoop d sc leaf nodes (nodes.length + 2) [] [nodeAt nodes 0] = .ok b ∧
      (b = true ↔ LeafsAre (fun i b => den sc.val i ≠ some (!b)) leaf T) := by
  obtain ⟨b, h1, h2⟩ := acLoop_tree (nodes := nodes) hc leaf (nodes.length + 2) [T] []
    (by simp only [List.mem_singleton, forall_eq]; exact ⟨hT.laid, hT.range⟩)
    (by simpa using hT.nodup) (by simp) (by
      have := indexes_length_le hT.laid hT.nodup
      simp only [stackSize, List.map_cons, List.map_nil, List.sum_cons, List.sum_nil]; omega)
  refine ⟨b, ?_, ?_⟩
  · simpa [hT.root] using h1
  · rw [h2]; simp only [List.mem_singleton, forall_eq]

theorem allcompConst_tree (hT : IsTree d nodes T) {sc : QConst} (hc : GoodVals d sc.val) (leaf : Bool) :
    ∃ b, acLoop d sc leaf nodes (nodes.length + 2) [] [nodeAt nodes 0] = .ok b ∧
      (b = true ↔ AllComp d T leaf (den sc.val)) := by
  rw [← leafsAre_iff hT.once hT.range]
  exact allcompConst_raw hT.raw hc leaf

/-! ### dfs -/

/-- The leafs the code finds are the leafs of the tree. -/
theorem leafs_tree (hT : IsTree d nodes T) (hC : Covers nodes T) :
    ∃ ps ns : List QConst, leafsAsConsts d nodes = .ok (ps, ns) ∧ ¬ (ps.length = 0 ∧ ns.length = 0) ∧
      (∀ c ∈ ps ++ ns, GoodVals d c.val) ∧
      (∀ q, (∃ c ∈ ps, den c.val = q) ↔ (true, q) ∈ leafInsts bot T) ∧
      (∀ q, (∃ c ∈ ns, den c.val = q) ↔ (false, q) ∈ leafInsts bot T) := by
  rcases C17_dfs_walk d nodes (tree_ne hT) with ⟨m, -, h⟩ | ⟨ws, -, hit, hl⟩
  · rw [C18_accepted d nodes T hT.raw hC] at h; simp at h
  · obtain ⟨hv, hg⟩ := C18_values d nodes T hT ws hit
    have key : ∀ b : Bool, ∀ q, (∃ c ∈ (ws.filter fun v => (nodeAt nodes v.cp).isLeaf && ((nodeAt nodes v.cp).value == b)).map
        (fun v => ({ val := v.t } : QConst)), den c.val = q) ↔ (b, q) ∈ leafInsts bot T := by
      intro b q
      rw [leafInsts_iff hT.laid, ← hv]
      simp only [List.mem_map, List.mem_filter, Bool.and_eq_true, beq_iff_eq]
      constructor
      · rintro ⟨c, ⟨w, ⟨hw, h1, h2⟩, rfl⟩, rfl⟩
        exact ⟨_, ⟨w, hw, rfl⟩, h1, h2, rfl⟩
      · rintro ⟨p, ⟨w, hw, rfl⟩, h1, h2, rfl⟩
        exact ⟨_, ⟨w, ⟨hw, h1, h2⟩, rfl⟩, rfl⟩
    have e1 : (fun v : WalkSt => (nodeAt nodes v.cp).isLeaf && (nodeAt nodes v.cp).value) =
        fun v => (nodeAt nodes v.cp).isLeaf && ((nodeAt nodes v.cp).value == true) := by funext v; simp
    have e2 : (fun v : WalkSt => (nodeAt nodes v.cp).isLeaf && !(nodeAt nodes v.cp).value) =
        fun v => (nodeAt nodes v.cp).isLeaf && ((nodeAt nodes v.cp).value == false) := by funext v; simp
    rw [show Node.childless = Node.isLeaf from rfl, e1, e2] at hl
    refine ⟨_, _, hl, ?_, ?_, key true, key false⟩
    · obtain ⟨⟨b, q⟩, hp, -⟩ := exists_leaf (e0 := bot) T (fun _ => false) (fun i b h => by simp [bot] at h)
      rintro ⟨h1, h2⟩
      cases b
      · obtain ⟨c, hc, -⟩ := (key false q).2 hp
        rw [List.length_eq_zero_iff] at h2
        rw [h2] at hc; simp at hc
      · obtain ⟨c, hc, -⟩ := (key true q).2 hp
        rw [List.length_eq_zero_iff] at h1
        rw [h1] at hc; simp at hc
    · intro c hc
      simp only [List.mem_append, List.mem_map, List.mem_filter] at hc
      rcases hc with ⟨w, ⟨hw, -⟩, rfl⟩ | ⟨w, ⟨hw, -⟩, rfl⟩ <;> exact hg w hw

theorem dfs_iff' (hT : IsTree d nodes T) {ps ns : List QConst}
    (hp : ∀ q, (∃ c ∈ ps, den c.val = q) ↔ (true, q) ∈ leafInsts bot T)
    (hn : ∀ q, (∃ c ∈ ns, den c.val = q) ↔ (false, q) ∈ leafInsts bot T) : DFS d T e ↔
    ∀ p ∈ ps, ∀ n ∈ ns, ∃ i < d, e i ≠ none ∧ den p.val i ≠ none ∧ den n.val i ≠ none ∧ den p.val i ≠ den n.val i := by
  rw [dfs_iff hT]
  constructor
  · intro h p hpm n hnm
    exact h _ ((hp _).1 ⟨p, hpm, rfl⟩) _ ((hn _).1 ⟨n, hnm, rfl⟩) rfl rfl
  · rintro h ⟨b, p⟩ hpm ⟨c, n⟩ hnm hb hc
    simp only at hb hc
    subst hb hc
    obtain ⟨cp, h1, rfl⟩ := (hp p).2 hpm
    obtain ⟨cn, h2, rfl⟩ := (hn n).2 hnm
    exact h cp h1 cn h2

theorem leafCompare_good {c p n : QConst} (h : GoodVals d c.val) (h1 : GoodVals d p.val) (h2 : GoodVals d n.val) :
    ∃ b, leafCompare c p n = .ok b ∧ (b = true ↔ ∃ i < d, den c.val i ≠ none ∧ den p.val i ≠ none ∧
      den n.val i ≠ none ∧ den p.val i ≠ den n.val i) := by
  refine ⟨_, by unfold leafCompare; rw [if_neg (by rw [h.1, h1.1, h2.1]; simp), indexed_upto (by simp [h.1, h1.1, h2.1])]; rfl, ?_⟩
  simp only [List.any_eq_true, mem_rng, Nat.zero_le, true_and, h.1, decide_eq_true_eq]
  refine exists_congr fun i => and_congr_right fun hi => ?_
  rw [at_eq h hi c rfl, at_eq h1 hi p rfl, at_eq h2 hi n rfl]
  simp only [ne_eq, valOf_bot, valOf_inj]

theorem dfsOuter_good {c : QConst} (h : GoodVals d c.val) (ns : List QConst) (hns : ∀ n ∈ ns, GoodVals d n.val) :
    ∀ ps : List QConst, (∀ p ∈ ps, GoodVals d p.val) → ∃ b, dfsOuter c ns ps = .ok b ∧ (b = true ↔
      ∀ p ∈ ps, ∀ n ∈ ns, ∃ i < d, den c.val i ≠ none ∧ den p.val i ≠ none ∧ den n.val i ≠ none ∧
        den p.val i ≠ den n.val i) := by
  have inner : ∀ (p : QConst) (hp : GoodVals d p.val) (ns : List QConst) (_ : ∀ n ∈ ns, GoodVals d n.val),
      ∃ b, dfsInner c p ns = .ok b ∧ (b = true ↔ ∀ n ∈ ns, ∃ i < d, den c.val i ≠ none ∧ den p.val i ≠ none ∧
        den n.val i ≠ none ∧ den p.val i ≠ den n.val i) := by
    intro p hp ns
    induction ns with
    | nil => intro _; exact ⟨true, rfl, by simp⟩
    | cons n ns ih =>
      intro hns
      obtain ⟨b, h1, h2⟩ := leafCompare_good h hp (hns n (by simp))
      obtain ⟨b', h3, h4⟩ := ih fun n hn => hns n (by simp [hn])
      simp only [dfsInner, h1, List.mem_cons, forall_eq_or_imp, ← h2, ← h4]
      cases b
      · exact ⟨false, rfl, by simp⟩
      · exact ⟨b', h3, by simp⟩
  intro ps
  induction ps with
  | nil => intro _; exact ⟨true, rfl, by simp⟩
  | cons p ps ih =>
    intro hps
    obtain ⟨b, h1, h2⟩ := inner p (hps p (by simp)) ns hns
    obtain ⟨b', h3, h4⟩ := ih fun n hn => hps n (by simp [hn])
    simp only [dfsOuter, h1, List.mem_cons, forall_eq_or_imp, ← h2, ← h4]
    cases b
    · exact ⟨false, rfl, by simp⟩
    · exact ⟨b', h3, by simp⟩

theorem dfsClauses_good (v : QVar) : ∀ ls : List (QConst × QConst), (∀ l ∈ ls, GoodVals d l.1.val ∧ GoodVals d l.2.val) →
    ∃ cls, dfsClauses d v ls = .ok cls ∧ (∀ vr, usedIn cls vr → ∃ i < d, vr = ⟨v, (i : Nat), BOT⟩) ∧
      ∀ ν e, Rd d ν v e → (ssTrue ν cls ↔ ∀ l ∈ ls, ∃ i < d, e i ≠ none ∧ den l.1.val i ≠ none ∧ den l.2.val i ≠ none ∧
        den l.1.val i ≠ den l.2.val i) := by
  intro ls
  induction ls with
  | nil => intro _; exact ⟨[], rfl, by simp, by simp⟩
  | cons l ls ih =>
    intro hls
    obtain ⟨p, n⟩ := l
    obtain ⟨h1, h2⟩ := hls (p, n) (by simp)
    obtain ⟨cls, e1, e2, e3⟩ := ih fun l hl => hls l (by simp [hl])
    simp only [dfsClauses]
    have hw : notAWitnessClause d v p n = .ok (((rng 0 d).filter fun i =>
        decide (p.at i ≠ BOT ∧ n.at i ≠ BOT ∧ p.at i ≠ n.at i)).map fun (i : Nat) => N v i BOT) := by
      unfold notAWitnessClause
      simp only at h1 h2
      rw [if_neg (by rw [h1.1, h2.1]; simp), indexed_upto (by simp [h1.1, h2.1])]
      rfl
    rw [hw]
    simp only [e1]
    refine ⟨_, rfl, ?_, ?_⟩
    · intro vr hvr
      rcases usedIn_cons.1 hvr with ⟨l, hl, rfl⟩ | h
      · simp only [List.mem_map, List.mem_filter, mem_rng] at hl
        obtain ⟨i, ⟨⟨-, hi⟩, -⟩, rfl⟩ := hl
        exact ⟨i, hi, rfl⟩
      · exact e2 vr h
    · intro ν e hr
      simp only [ssTrue_cons, e3 ν e hr, List.mem_cons, forall_eq_or_imp]
      refine and_congr ?_ Iff.rfl
      simp only [scTrue_map, List.mem_filter, mem_rng, Nat.zero_le, true_and, slTrue_N, decide_eq_true_eq]
      constructor
      · rintro ⟨i, ⟨hi, ha⟩, hv⟩
        rw [at_eq h1 hi p rfl, at_eq h2 hi n rfl] at ha
        rw [hr.bot hi] at hv
        simp only [ne_eq, valOf_bot, valOf_inj] at ha
        exact ⟨i, hi, by simpa using hv, ha⟩
      · rintro ⟨i, hi, hv, ha⟩
        refine ⟨i, ⟨hi, ?_⟩, ?_⟩
        · rw [at_eq h1 hi p rfl, at_eq h2 hi n rfl]
          simpa only [ne_eq, valOf_bot, valOf_inj] using ha
        · rw [hr.bot hi]; simpa using hv

end Goexpdt

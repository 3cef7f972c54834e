import Verif.Lemmas.Halts
import Verif.Lemmas.Diagram
import Verif.Lemmas.Marking
import Verif.Spec.Descend
/- isnode.Const on any model. -/
namespace Goexpdt
open Spec

variable {d : Nat} {nodes : List Node} {sc : QConst} {e e' : PInst}

theorem edge_unique {i f f' j j' : Nat} {b b' : Bool} (h : Edge nodes i f b j) (h' : Edge nodes i f' b' j') (he : e f = some b) (he' : e f' = some b') :
    f = f' ∧ b = b' ∧ j = j' := by
  obtain ⟨n, h1, -, h3, h4⟩ := h
  obtain ⟨m, k1, -, k3, k4⟩ := h'
  obtain rfl : n = m := by rw [h1] at k1; exact Option.some.inj k1
  obtain rfl : f = f' := by omega
  rw [he] at he'
  obtain rfl := Option.some.inj he'
  exact ⟨rfl, rfl, by omega⟩

/-- One turn of the loop. -/
theorem isnodeLoop_turn (hv : Valid d nodes) (hc : GoodVals d sc.val) {i : Nat} (hi : i < nodes.length) :
    (Stops nodes (den sc.val) i ∧ ∀ k vr, isnodeLoop d sc nodes (k + 1) (nodeAt nodes i) vr = .ok vr) ∨
    ∃ f b j, Edge nodes i f b j ∧ den sc.val f = some b ∧
      ∀ k vr, isnodeLoop d sc nodes (k + 1) (nodeAt nodes i) vr = isnodeLoop d sc nodes k (nodeAt nodes j) (vr.set f 1) := by
  have hm : nodes[i]? = some (nodeAt nodes i) := getElem?_nodeAt hi
  cases hl : (nodeAt nodes i).isLeaf with
  | true =>
    left
    refine ⟨?_, fun k vr => by simp [isnodeLoop, hl]⟩
    rintro f b j ⟨n, h1, h2, -⟩
    rw [hm] at h1
    obtain rfl := Option.some.inj h1
    rw [hl] at h2
    cases h2
  | false =>
    obtain ⟨a1, a2, a3, a4, a5, a6⟩ := hv i _ hm hl
    obtain ⟨f, hf⟩ : ∃ f : Nat, (nodeAt nodes i).feat = f := ⟨_, (Int.toNat_of_nonneg a1).symm⟩
    obtain ⟨z, hz⟩ : ∃ z : Nat, (nodeAt nodes i).zChild = z := ⟨_, (Int.toNat_of_nonneg a3).symm⟩
    obtain ⟨o, ho⟩ : ∃ o : Nat, (nodeAt nodes i).oChild = o := ⟨_, (Int.toNat_of_nonneg a5).symm⟩
    have hfd : f < d := by omega
    have hat := at_eq hc hfd sc rfl
    have hlen := hc.1
    have key : ∀ k vr, isnodeLoop d sc nodes (k + 1) (nodeAt nodes i) vr = if den sc.val f = none then .ok vr else
        if den sc.val f = some false then isnodeLoop d sc nodes k (nodeAt nodes z) (vr.set f 1) else
        isnodeLoop d sc nodes k (nodeAt nodes o) (vr.set f 1) := by
      intro k vr
      rw [isnodeLoop]
      simp only [hl, hf, hz, ho, Bool.false_eq_true, if_false, Int.toNat_natCast, hat, valOf_bot, valOf_zero]
      rw [if_neg (by omega), indexed_ok (by simp; omega)]
      simp only
      have hz' : ¬ ((z : Int) < 0 ∨ (z : Int) ≥ nodes.length) := by omega
      have ho' : ¬ ((o : Int) < 0 ∨ (o : Int) ≥ nodes.length) := by omega
      rw [if_neg hz', if_neg ho']
    rcases opt3 (den sc.val f) with h | h | h
    · left
      refine ⟨?_, fun k vr => by rw [key]; simp [h]⟩
      rintro g b j ⟨n, h1, -, h3, -⟩ hg
      rw [hm] at h1
      obtain rfl := Option.some.inj h1
      obtain rfl : f = g := by omega
      rw [h] at hg
      cases hg
    · exact .inr ⟨f, false, z, ⟨_, hm, hl, hf, by simpa using hz⟩, h, fun k vr => by rw [key]; simp [h]⟩
    · exact .inr ⟨f, true, o, ⟨_, hm, hl, hf, by simpa using ho⟩, h, fun k vr => by rw [key]; simp [h]⟩

theorem isnodeLoop_any (hv : Valid d nodes) (hc : GoodVals d sc.val) : ∀ (fuel i : Nat) (vr : List Nat), i < nodes.length → vr.length = d →
    (∀ x ∈ vr, x ≤ 1) → isnodeLoop d sc nodes fuel (nodeAt nodes i) vr = .error .diverge ∨
    ∃ vr', isnodeLoop d sc nodes fuel (nodeAt nodes i) vr = .ok vr' ∧ vr'.length = d ∧ (∀ x ∈ vr', x ≤ 1) ∧
      (∃ j, Leads nodes (den sc.val) i j ∧ Stops nodes (den sc.val) j) ∧
      ∀ f < d, (vr'.getD f 0 = 1 ↔ vr.getD f 0 = 1 ∨ (den sc.val f ≠ none ∧ ∃ j b k, Leads nodes (den sc.val) i j ∧ Edge nodes j f b k)) := by
  intro fuel
  induction fuel with
  | zero => exact fun _ _ _ _ _ => .inl rfl
  | succ k ih =>
    intro i vr hi h1 h2
    rcases isnodeLoop_turn hv hc hi with ⟨hs, e⟩ | ⟨g, b, j, he, hg, e⟩
    · refine .inr ⟨vr, e k vr, h1, h2, ⟨i, .here i, hs⟩, fun f hf => ⟨.inl, ?_⟩⟩
      rintro (h | ⟨hn, j, b, l, hj, hb⟩)
      · exact h
      · exfalso
        cases hj with
        | on h h' _ => exact hs _ _ _ h h'
        | here =>
          obtain ⟨n, n1, n2, n3, -⟩ := hb
          obtain ⟨a1, a2, a3, a4, a5, a6⟩ := hv i n n1 n2
          rcases opt3 (den sc.val f) with h | h | h
          · exact hn h
          · exact hs f false n.zChild.toNat ⟨n, n1, n2, n3, by simp; omega⟩ h
          · exact hs f true n.oChild.toNat ⟨n, n1, n2, n3, by simp; omega⟩ h
    · obtain ⟨-, hgd, hj⟩ := edge_of hv he
      have hset : ∀ f < d, ((vr.set g 1).getD f 0 = 1 ↔ vr.getD f 0 = 1 ∨ f = g) := by
        intro f hf
        simp only [List.getD_eq_getElem?_getD, List.getElem?_set]
        by_cases hgf : g = f
        · subst hgf; simp [show g < vr.length by omega]
        · simp only [hgf, if_false]; simp [Ne.symm hgf]
      have hle : ∀ x ∈ vr.set g 1, x ≤ 1 := by
        intro x hx
        rcases List.mem_or_eq_of_mem_set hx with h | h
        · exact h2 x h
        · omega
      rw [e]
      refine (ih j (vr.set g 1) hj (by simpa using h1) hle).imp id ?_
      rintro ⟨vr', e1, e2, e3, ⟨l, l1, l2⟩, e4⟩
      refine ⟨vr', e1, e2, e3, ⟨l, .on he hg l1, l2⟩, fun f hf => ?_⟩
      rw [e4 f hf, hset f hf]
      constructor
      · rintro ((h | rfl) | ⟨h, m, b', k', h', h''⟩)
        · exact .inl h
        · exact .inr ⟨by simp [hg], i, b, j, .here i, he⟩
        · exact .inr ⟨h, m, b', k', .on he hg h', h''⟩
      · rintro (h | ⟨h, m, b', k', h', h''⟩)
        · exact .inl (.inl h)
        · cases h' with
          | here =>
            left; right
            obtain ⟨n, n1, -, n3, -⟩ := he
            obtain ⟨n', n1', -, n3', -⟩ := h''
            rw [n1] at n1'
            obtain rfl := Option.some.inj n1'
            omega
          | on ha hb hc' =>
            obtain ⟨-, -, rfl⟩ := edge_unique ha he hb hg
            exact .inr ⟨h, m, b', k', hc', h''⟩

theorem isnodeLoop_ends (hv : Valid d nodes) (hc : GoodVals d sc.val) {i j : Nat} (h : Leads nodes (den sc.val) i j) :
    i < nodes.length → Stops nodes (den sc.val) j → ∃ fuel, ∀ vr, isnodeLoop d sc nodes fuel (nodeAt nodes i) vr ≠ .error .diverge := by
  induction h with
  | here i =>
    intro hi hs
    rcases isnodeLoop_turn hv hc hi with ⟨-, e⟩ | ⟨g, b, j, he, hg, -⟩
    · exact ⟨1, fun vr => by rw [e 0 vr]; simp⟩
    · exact absurd hg (hs _ _ _ he)
  | on h h' _ ih =>
    intro hi hs
    obtain ⟨fuel, hfuel⟩ := ih (edge_of hv h).2.2 hs
    rcases isnodeLoop_turn hv hc hi with ⟨hs', -⟩ | ⟨g, b, j, he, hg, e⟩
    · exact absurd h' (hs' _ _ _ h)
    · obtain ⟨-, -, rfl⟩ := edge_unique he h hg h'
      exact ⟨fuel + 1, fun vr => by rw [e]; exact hfuel _⟩

/-- The loop ends exactly if the way down does. -/
theorem isnodeConst_any (hv : Valid d nodes) (hne : nodes ≠ []) (hc : GoodVals d sc.val) :
    (WayEnds nodes (den sc.val) → ∃ vr, isnodeLoop d sc nodes (nodes.length + 1) (nodeAt nodes 0) (newVisitRecord sc) = .ok vr ∧
      (allFeatsVisited vr = true ↔ AllDecided d nodes (den sc.val))) ∧
    (¬ WayEnds nodes (den sc.val) → ∀ k, isnodeLoop d sc nodes k (nodeAt nodes 0) (newVisitRecord sc) = .error .diverge) := by
  have hpos : 0 < nodes.length := List.length_pos_iff.mpr hne
  have hlen : (newVisitRecord sc).length = d := by simp [newVisitRecord, hc.1]
  have hle : ∀ x ∈ newVisitRecord sc, x ≤ 1 := by
    intro x hx
    simp only [newVisitRecord, List.mem_map] at hx
    obtain ⟨v, -, rfl⟩ := hx
    split <;> omega
  constructor
  · rintro ⟨j, h1, h2⟩
    obtain ⟨fuel, hf⟩ := isnodeLoop_ends hv hc h1 hpos h2
    rcases isnodeLoop_any hv hc (nodes.length + 1) 0 _ hpos hlen hle with h | ⟨vr, e1, e2, e3, -, e4⟩
    · exact absurd (isnodeLoop_forever hpos (by omega) h fuel) (hf _)
    refine ⟨vr, e1, ?_⟩
    rw [allVisited_iff vr e3]
    have : (∀ x ∈ vr, x = 1) ↔ ∀ f < d, vr.getD f 0 = 1 := by
      constructor
      · intro h f hf
        rw [List.getD_eq_getElem?_getD, List.getElem?_eq_getElem (by omega : f < vr.length)]
        exact h _ (List.getElem_mem _)
      · intro h x hx
        obtain ⟨f, hf, rfl⟩ := List.mem_iff_getElem.1 hx
        have := h f (by omega)
        rwa [List.getD_eq_getElem?_getD, List.getElem?_eq_getElem hf] at this
    rw [this]
    refine forall_congr' fun f => forall_congr' fun hf => ?_
    rw [e4 f hf]
    have h0 : (newVisitRecord sc).getD f 0 = 1 ↔ den sc.val f = none := by
      have hat := at_eq hc hf sc rfl
      have hf' : f < sc.val.length := by have := hc.1; omega
      simp only [newVisitRecord, List.getD_eq_getElem?_getD, List.getElem?_map,
        List.getElem?_eq_getElem hf', Option.map_some, Option.getD_some]
      simp only [QConst.at, List.getD_eq_getElem?_getD, List.getElem?_eq_getElem hf', Option.getD_some] at hat
      rw [hat]
      simp [valOf_bot]
    rw [h0]
    by_cases h : den sc.val f = none <;> simp [h]
  · intro hn k
    rcases isnodeLoop_any hv hc k 0 _ hpos hlen hle with h | ⟨vr, -, -, -, h, -⟩
    · exact h
    · exact absurd h hn

theorem leads_same (hv : Valid d nodes) (h : Same d e e') {i j : Nat} (hl : Leads nodes e i j) : Leads nodes e' i j := by
  induction hl with
  | here i => exact .here i
  | on h1 h2 _ ih => exact .on h1 (by rw [← h _ (edge_of hv h1).2.1]; exact h2) ih

theorem decided_same (hv : Valid d nodes) (h : Same d e e') (ha : AllDecided d nodes e) : AllDecided d nodes e' := by
  intro f hf
  rcases ha f hf with h1 | ⟨i, b, j, h1, h2⟩
  · exact .inl (by rw [← h f hf]; exact h1)
  · exact .inr ⟨i, b, j, leads_same hv h h1, h2⟩

end Goexpdt

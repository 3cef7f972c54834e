import Verif.Lemmas.FactsExt
import Verif.Props.Walk
/- Decision trees: which nodes an instance reaches, and what that says about it. -/
namespace Goexpdt
open Spec

/-! ### reached nodes -/

/-- `A f b`: from a node that decides on `f` one may go on to the child of value `b`. Node `u` can be
reached from the root. -/
def Hits (A : Nat → Bool → Prop) (u : Nat) : DTree → Prop
  | .leaf i _ => u = i
  | .node i f z o => u = i ∨ (A f false ∧ Hits A u z) ∨ (A f true ∧ Hits A u o)

/-- An internal node that decides on `f` can be reached. -/
def HitsFeat (A : Nat → Bool → Prop) (f : Nat) : DTree → Prop
  | .leaf _ _ => False
  | .node _ g z o => f = g ∨ (A g false ∧ HitsFeat A f z) ∨ (A g true ∧ HitsFeat A f o)

/-- All leafs that can be reached have the value `b`. -/
def LeafsAre (A : Nat → Bool → Prop) (b : Bool) : DTree → Prop
  | .leaf _ v => v = b
  | .node _ f z o => (A f false → LeafsAre A b z) ∧ (A f true → LeafsAre A b o)

/-- The leafs with their values and instances. -/
def leafInsts (e : PInst) : DTree → List (Bool × PInst)
  | .leaf _ v => [(v, e)]
  | .node _ f z o => leafInsts (e.set f false) z ++ leafInsts (e.set f true) o

variable {d : Nat} {nodes : List Node} {T : DTree} {A : Nat → Bool → Prop} {e e0 : PInst} {ρ : Nat → Bool}

/-- The propagation conditions at an internal node. -/
def Prop1 (A : Nat → Bool → Prop) (ρ : Nat → Bool) (nodes : List Node) (i : Nat) : Prop :=
  ∀ n, nodes[i]? = some n → n.isLeaf = false → ∀ f z o : Nat, n.feat = (f : Int) → n.zChild = (z : Int) → n.oChild = (o : Int) →
    (ρ z = true ↔ ρ i = true ∧ A f false) ∧ (ρ o = true ↔ ρ i = true ∧ A f true)

theorem hits_mem {u : Nat} : ∀ {T : DTree}, Hits A u T → u ∈ T.indexes := by
  intro T
  induction T with
  | leaf i v => rintro rfl; simp [DTree.indexes]
  | node i f z o ihz iho =>
    rintro (rfl | ⟨-, h⟩ | ⟨-, h⟩)
    · simp [DTree.indexes]
    · simp [DTree.indexes, ihz h]
    · simp [DTree.indexes, iho h]

theorem hits_root : Hits A T.root T := by cases T <;> simp [Hits, DTree.root]

theorem prop_hits (hl : LaysOut nodes T) (hp : ∀ i ∈ T.indexes, Prop1 A ρ nodes i) (hnd : T.indexes.Nodup)
    (u : Nat) (hu : u ∈ T.indexes) : ρ u = true ↔ ρ T.root = true ∧ Hits A u T := by
  induction T with
  | leaf i v =>
    simp only [DTree.indexes, List.mem_singleton] at hu
    simp [Hits, DTree.root, hu]
  | node i f z o ihz iho =>
    obtain ⟨⟨n, hn, hlf, hf, hz, ho⟩, hlz, hlo⟩ := hl
    replace hlf : n.isLeaf = false := hlf
    simp only [DTree.indexes, List.nodup_cons, List.mem_append, not_or, List.nodup_append] at hnd
    obtain ⟨⟨hiz, hio⟩, hndz, hndo, hdis⟩ := hnd
    have hpi := hp i (by simp [DTree.indexes]) n hn hlf f z.root o.root hf hz ho
    have ihz := ihz hlz (fun j hj => hp j (by simp [DTree.indexes, hj])) hndz
    have iho := iho hlo (fun j hj => hp j (by simp [DTree.indexes, hj])) hndo
    simp only [DTree.indexes, List.mem_cons, List.mem_append] at hu
    simp only [Hits, DTree.root]
    rcases hu with rfl | hu | hu
    · simp
    · have hne : u ≠ i := by rintro rfl; exact hiz hu
      have hno : ¬ Hits A u o := fun h => hdis u hu u (hits_mem h) rfl
      rw [ihz hu, hpi.1]
      simp [hne, hno, and_assoc]
    · have hne : u ≠ i := by rintro rfl; exact hio hu
      have hno : ¬ Hits A u z := fun h => hdis u (hits_mem h) u hu rfl
      rw [iho hu, hpi.2]
      simp [hne, hno, and_assoc]

/-- Nodes other than the root of a subtree are reached through their parent. -/
theorem hits_prop (hl : LaysOut nodes T) (hnd : T.indexes.Nodup) (c : Prop)
    (hρ : ∀ u ∈ T.indexes, (ρ u = true ↔ c ∧ Hits A u T)) : ∀ i ∈ T.indexes, Prop1 A ρ nodes i := by
  induction T generalizing c with
  | leaf i v =>
    obtain ⟨n, hn, hlf, -⟩ := hl
    replace hlf : n.isLeaf = true := hlf
    intro j hj m hm hml
    simp only [DTree.indexes, List.mem_singleton] at hj
    subst hj
    rw [hn] at hm
    simp only [Option.some.injEq] at hm
    subst hm
    rw [hlf] at hml
    simp at hml
  | node i f z o ihz iho =>
    obtain ⟨⟨n, hn, hlf, hf, hz, ho⟩, hlz, hlo⟩ := hl
    replace hlf : n.isLeaf = false := hlf
    simp only [DTree.indexes, List.nodup_cons, List.mem_append, not_or, List.nodup_append] at hnd
    obtain ⟨⟨hiz, hio⟩, hndz, hndo, hdis⟩ := hnd
    have hρz : ∀ u ∈ z.indexes, (ρ u = true ↔ (c ∧ A f false) ∧ Hits A u z) := by
      intro u hu
      have hne : u ≠ i := by rintro rfl; exact hiz hu
      have hno : ¬ Hits A u o := fun h => hdis u hu u (hits_mem h) rfl
      rw [hρ u (by simp [DTree.indexes, hu])]
      simp [Hits, hne, hno, and_assoc]
    have hρo : ∀ u ∈ o.indexes, (ρ u = true ↔ (c ∧ A f true) ∧ Hits A u o) := by
      intro u hu
      have hne : u ≠ i := by rintro rfl; exact hio hu
      have hno : ¬ Hits A u z := fun h => hdis u (hits_mem h) u hu rfl
      rw [hρ u (by simp [DTree.indexes, hu])]
      simp [Hits, hne, hno, and_assoc]
    intro j hj
    simp only [DTree.indexes, List.mem_cons, List.mem_append] at hj
    rcases hj with rfl | hj | hj
    · intro m hm _ f' z' o' hf' hz' ho'
      rw [hn] at hm
      simp only [Option.some.injEq] at hm
      subst hm
      obtain rfl : f = f' := by rw [hf] at hf'; exact_mod_cast hf'
      obtain rfl : z.root = z' := by rw [hz] at hz'; exact_mod_cast hz'
      obtain rfl : o.root = o' := by rw [ho] at ho'; exact_mod_cast ho'
      rw [hρz _ (root_mem z), hρo _ (root_mem o), hρ j (by simp [DTree.indexes])]
      simp [hits_root, Hits]
    · exact ihz hlz hndz _ hρz j hj
    · exact iho hlo hndo _ hρo j hj

/-- The propagation conditions and the condition on the root pin down the reached nodes. -/
theorem prop_iff (hT : IsRawTree d nodes T) (hC : Covers nodes T) :
    (ρ 0 = true ∧ ∀ i < nodes.length, Prop1 A ρ nodes i) ↔ ∀ u < nodes.length, (ρ u = true ↔ Hits A u T) := by
  have hlt := laysOut_lt hT.laid
  constructor
  · rintro ⟨h0, hp⟩ u hu
    rw [prop_hits hT.laid (fun i hi => hp i (hlt i hi)) hT.nodup u (hC u hu), hT.root]
    simp [h0]
  · intro h
    refine ⟨?_, fun i hi => ?_⟩
    · rw [h 0 (hlt 0 (by rw [← hT.root]; exact root_mem T))]
      have := hits_root (A := A) (T := T)
      rwa [hT.root] at this
    · exact hits_prop hT.laid hT.nodup True (fun u hu => by simpa using h u (hlt u hu)) i (hC i hi)

/-! ### instances of nodes -/

theorem nodeInsts_out {p : Nat × PInst} {i : Nat} (hp : p ∈ T.nodeInsts e0) (hi : i ∉ T.feats) : p.2 i = e0 i := by
  induction T generalizing e0 with
  | leaf j v =>
    simp only [DTree.nodeInsts, List.mem_singleton] at hp
    simp [hp]
  | node j f z o ihz iho =>
    simp only [DTree.nodeInsts, List.mem_cons, List.mem_append] at hp
    simp only [DTree.feats, List.mem_cons, List.mem_append, not_or] at hi
    rcases hp with rfl | hp | hp
    · rfl
    · rw [ihz hp hi.2.1]; simp [PInst.set, hi.1]
    · rw [iho hp hi.2.2]; simp [PInst.set, hi.1]

theorem hits_iff (hro : T.ReadOnce) (h0 : ∀ i ∈ T.feats, e0 i = none) (u : Nat) :
    Hits A u T ↔ ∃ p ∈ T.nodeInsts e0, p.1 = u ∧ ∀ i ∈ T.feats, ∀ b, p.2 i = some b → A i b := by
  induction T generalizing e0 with
  | leaf j v => simp [Hits, DTree.nodeInsts, DTree.feats, eq_comm]
  | node j f z o ihz iho =>
    obtain ⟨hfz, hfo, hroz, hroo⟩ := hro
    have h0z : ∀ b, ∀ i ∈ z.feats, (e0.set f b) i = none := by
      intro b i hi
      have : i ≠ f := by rintro rfl; exact hfz hi
      simp [PInst.set, this, h0 i (by simp [DTree.feats, hi])]
    have h0o : ∀ b, ∀ i ∈ o.feats, (e0.set f b) i = none := by
      intro b i hi
      have : i ≠ f := by rintro rfl; exact hfo hi
      simp [PInst.set, this, h0 i (by simp [DTree.feats, hi])]
    simp only [Hits, DTree.nodeInsts, List.mem_cons, List.mem_append, DTree.feats]
    rw [ihz hroz (h0z false), iho hroo (h0o true)]
    constructor
    · rintro (rfl | ⟨ha, p, hp, rfl, h⟩ | ⟨ha, p, hp, rfl, h⟩)
      · refine ⟨_, .inl rfl, rfl, fun i hi b hb => ?_⟩
        have := h0 i (by simpa [DTree.feats] using hi)
        simp only at hb
        rw [this] at hb; simp at hb
      · refine ⟨p, .inr (.inl hp), rfl, fun i hi b hb => ?_⟩
        by_cases hif : i = f
        · subst hif
          rw [nodeInsts_out hp hfz] at hb
          simp only [PInst.set, if_true, Option.some.injEq] at hb
          exact hb ▸ ha
        · by_cases hiz : i ∈ z.feats
          · exact h i hiz b hb
          · rw [nodeInsts_out hp hiz] at hb
            simp only [PInst.set, hif, if_false] at hb
            rw [h0 i (by simpa [DTree.feats] using hi)] at hb; simp at hb
      · refine ⟨p, .inr (.inr hp), rfl, fun i hi b hb => ?_⟩
        by_cases hif : i = f
        · subst hif
          rw [nodeInsts_out hp hfo] at hb
          simp only [PInst.set, if_true, Option.some.injEq] at hb
          exact hb ▸ ha
        · by_cases hio : i ∈ o.feats
          · exact h i hio b hb
          · rw [nodeInsts_out hp hio] at hb
            simp only [PInst.set, hif, if_false] at hb
            rw [h0 i (by simpa [DTree.feats] using hi)] at hb; simp at hb
    · rintro ⟨p, (rfl | hp | hp), hpu, h⟩
      · exact .inl hpu.symm
      · refine .inr (.inl ⟨h f (by simp) false ?_, p, hp, hpu, fun i hi => h i (by simp [hi])⟩)
        rw [nodeInsts_out hp hfz]; simp [PInst.set]
      · refine .inr (.inr ⟨h f (by simp) true ?_, p, hp, hpu, fun i hi => h i (by simp [hi])⟩)
        rw [nodeInsts_out hp hfo]; simp [PInst.set]

theorem hits_subsumes (hT : IsTree d nodes T) (u : Nat) :
    Hits (fun i b => e i = some b) u T ↔ ∃ p ∈ T.nodeInsts bot, p.1 = u ∧ Subsumes d p.2 e := by
  rw [hits_iff (e0 := bot) hT.once (fun _ _ => rfl)]
  refine exists_congr fun p => and_congr_right fun hp => and_congr_right fun _ => ?_
  constructor
  · intro h i _ hi
    have hif : i ∈ T.feats := by
      refine Classical.byContradiction fun hc => ?_; rw [nodeInsts_out hp hc] at hi; exact hi rfl
    obtain ⟨b, hb⟩ := Option.ne_none_iff_exists'.1 hi
    rw [hb, h i hif b hb]
  · intro h i hi b hb
    rw [← h i (hT.range i hi) (by simp [hb]), hb]

theorem hits_cons (hT : IsTree d nodes T) (u : Nat) :
    Hits (fun i b => e i ≠ some (!b)) u T ↔ ∃ p ∈ T.nodeInsts bot, p.1 = u ∧ Cons d p.2 e := by
  rw [hits_iff (e0 := bot) hT.once (fun _ _ => rfl)]
  refine exists_congr fun p => and_congr_right fun hp => and_congr_right fun _ => ?_
  constructor
  · intro h i _ hi he
    have hif : i ∈ T.feats := by
      refine Classical.byContradiction fun hc => ?_; rw [nodeInsts_out hp hc] at hi; exact hi rfl
    obtain ⟨b, hb⟩ := Option.ne_none_iff_exists'.1 hi
    have := h i hif b hb
    rw [hb]
    rcases opt3 (e i) with h' | h' | h' <;> cases b <;> simp_all
  · intro h i hi b hb he
    have := h i (hT.range i hi) (by simp [hb]) (by simp [he])
    rw [hb, he] at this
    cases b <;> simp at this

/-! ### isnode -/

theorem hitsFeat_iff (hl : LaysOut nodes T) (f : Nat) :
    (∃ u < nodes.length, (nodeAt nodes u).isLeaf = false ∧ (nodeAt nodes u).feat = (f : Int) ∧ Hits A u T) ↔
      HitsFeat A f T := by
  induction T with
  | leaf i v =>
    obtain ⟨n, hn, hlf, -⟩ := hl
    replace hlf : n.isLeaf = true := hlf
    simp only [Hits, HitsFeat, iff_false, not_exists, not_and]
    rintro u - h1 - rfl
    rw [nodeAt_eq hn, hlf] at h1
    simp at h1
  | node i g z o ihz iho =>
    have hlt := laysOut_lt hl i (by simp [DTree.indexes])
    obtain ⟨⟨n, hn, hlf, hf, -, -⟩, hlz, hlo⟩ := hl
    replace hlf : n.isLeaf = false := hlf
    simp only [HitsFeat, ← ihz hlz, ← iho hlo, Hits]
    constructor
    · rintro ⟨u, hu, h1, h2, (rfl | ⟨ha, h⟩ | ⟨ha, h⟩)⟩
      · rw [nodeAt_eq hn, hf] at h2
        left; exact_mod_cast h2.symm
      · exact .inr (.inl ⟨ha, u, hu, h1, h2, h⟩)
      · exact .inr (.inr ⟨ha, u, hu, h1, h2, h⟩)
    · rintro (rfl | ⟨ha, u, hu, h1, h2, h⟩ | ⟨ha, u, hu, h1, h2, h⟩)
      · exact ⟨i, hlt, by rw [nodeAt_eq hn, hlf], by rw [nodeAt_eq hn, hf], .inl rfl⟩
      · exact ⟨u, hu, h1, h2, .inr (.inl ⟨ha, h⟩)⟩
      · exact ⟨u, hu, h1, h2, .inr (.inr ⟨ha, h⟩)⟩

theorem isNode_of_hits (hs : ∀ i < d, e0 i ≠ none → e0 i = e i)
    (h : ∀ f < d, e f = none ∨ e0 f ≠ none ∨ HitsFeat (fun i b => e i = some b) f T) :
    ∃ p ∈ T.nodeInsts e0, Same d p.2 e := by
  induction T generalizing e0 with
  | leaf i v =>
    refine ⟨_, List.mem_singleton.2 rfl, fun i hi => ?_⟩
    rcases h i hi with h | h | h
    · by_cases h0 : e0 i = none
      · simp [h0, h]
      · exact hs i hi h0
    · exact hs i hi h
    · exact h.elim
  | node j g z o ihz iho =>
    simp only [DTree.nodeInsts, List.mem_cons, List.mem_append]
    have hset : ∀ b, e g = some b → ∀ i < d, (e0.set g b) i ≠ none → (e0.set g b) i = e i := by
      intro b hb i hi hne
      by_cases hig : i = g
      · subst hig; simp [PInst.set, hb]
      · simp only [PInst.set, hig, if_false] at hne ⊢; exact hs i hi hne
    rcases opt3 (e g) with hg | hg | hg
    · refine ⟨_, .inl rfl, fun i hi => ?_⟩
      by_cases h0 : e0 i = none
      · rcases h i hi with h | h | h
        · simp [h0, h]
        · exact absurd h0 h
        · simp only [HitsFeat, hg, reduceCtorEq, false_and, or_false] at h
          subst h; simp [h0, hg]
      · exact hs i hi h0
    · obtain ⟨p, hp, hsame⟩ := ihz (hset false hg) (fun f hf => by
        by_cases hfg : f = g
        · right; left; simp [PInst.set, hfg]
        · simp only [PInst.set, hfg, if_false]
          rcases h f hf with h | h | h
          · exact .inl h
          · exact .inr (.inl h)
          · simp only [HitsFeat, hg, hfg, true_and, false_or, Option.some.injEq, Bool.false_eq_true, false_and, or_false] at h
            exact .inr (.inr h))
      exact ⟨p, .inr (.inl hp), hsame⟩
    · obtain ⟨p, hp, hsame⟩ := iho (hset true hg) (fun f hf => by
        by_cases hfg : f = g
        · right; left; simp [PInst.set, hfg]
        · simp only [PInst.set, hfg, if_false]
          rcases h f hf with h | h | h
          · exact .inl h
          · exact .inr (.inl h)
          · simp only [HitsFeat, hg, hfg, true_and, false_or, Option.some.injEq, Bool.true_eq_false, false_and] at h
            exact .inr (.inr h))
      exact ⟨p, .inr (.inr hp), hsame⟩

theorem hits_of_isNode (hro : T.ReadOnce) (hr : ∀ f ∈ T.feats, f < d) {p : Nat × PInst} (hp : p ∈ T.nodeInsts e0)
    (hs : Same d p.2 e) : ∀ f < d, e f = none ∨ e0 f ≠ none ∨ HitsFeat (fun i b => e i = some b) f T := by
  induction T generalizing e0 with
  | leaf i v =>
    simp only [DTree.nodeInsts, List.mem_singleton] at hp
    subst hp
    intro f hf
    have := hs f hf
    simp only at this
    rw [this]
    by_cases h : e f = none <;> simp [h]
  | node j g z o ihz iho =>
    obtain ⟨hfz, hfo, hroz, hroo⟩ := hro
    have hg : g < d := hr g (by simp [DTree.feats])
    simp only [DTree.nodeInsts, List.mem_cons, List.mem_append] at hp
    intro f hf
    rcases hp with rfl | hp | hp
    · have := hs f hf
      simp only at this
      rw [this]
      by_cases h : e f = none <;> simp [h]
    · have hv : e g = some false := by
        rw [← hs g hg, nodeInsts_out hp hfz]; simp [PInst.set]
      rcases ihz hroz (fun i hi => hr i (by simp [DTree.feats, hi])) hp f hf with h | h | h
      · exact .inl h
      · by_cases hfg : f = g
        · exact .inr (.inr (.inl hfg))
        · simp only [PInst.set, hfg, if_false] at h; exact .inr (.inl h)
      · exact .inr (.inr (.inr (.inl ⟨hv, h⟩)))
    · have hv : e g = some true := by
        rw [← hs g hg, nodeInsts_out hp hfo]; simp [PInst.set]
      rcases iho hroo (fun i hi => hr i (by simp [DTree.feats, hi])) hp f hf with h | h | h
      · exact .inl h
      · by_cases hfg : f = g
        · exact .inr (.inr (.inl hfg))
        · simp only [PInst.set, hfg, if_false] at h; exact .inr (.inl h)
      · exact .inr (.inr (.inr (.inr ⟨hv, h⟩)))

theorem isNode_iff (hT : IsTree d nodes T) :
    IsNode d T e ↔ ∀ f < d, e f = none ∨ HitsFeat (fun i b => e i = some b) f T := by
  constructor
  · rintro ⟨p, hp, hs⟩ f hf
    simpa [bot] using hits_of_isNode hT.once hT.range hp hs f hf
  · intro h
    exact isNode_of_hits (e0 := bot) (fun i _ hi => absurd rfl hi) fun f hf => by simpa [bot] using h f hf

/-! ### allcomp -/

theorem classify_congr {x y : Nat → Bool} (h : ∀ i ∈ T.feats, x i = y i) : T.classify x = T.classify y := by
  induction T with
  | leaf j v => rfl
  | node j f z o ihz iho =>
    simp only [DTree.classify]
    rw [h f (by simp [DTree.feats]), ihz fun i hi => h i (by simp [DTree.feats, hi]),
      iho fun i hi => h i (by simp [DTree.feats, hi])]

theorem exists_completion (d : Nat) (e : PInst) : ∃ x, Completes d x e :=
  ⟨fun i => (e i).getD false, fun i _ b hb => by simp [hb]⟩

theorem leafsAre_iff (hro : T.ReadOnce) (hr : ∀ f ∈ T.feats, f < d) (b : Bool) :
    LeafsAre (fun i b => e i ≠ some (!b)) b T ↔ AllComp d T b e := by
  induction T with
  | leaf j v =>
    obtain ⟨x, hx⟩ := exists_completion d e
    simp only [LeafsAre, AllComp, DTree.classify]
    exact ⟨fun h _ _ => h, fun h => h x hx⟩
  | node j f z o ihz iho =>
    obtain ⟨hfz, hfo, hroz, hroo⟩ := hro
    have hf : f < d := hr f (by simp [DTree.feats])
    simp only [LeafsAre, ihz hroz fun i hi => hr i (by simp [DTree.feats, hi]),
      iho hroo fun i hi => hr i (by simp [DTree.feats, hi])]
    constructor
    · rintro ⟨h1, h2⟩ x hx
      simp only [DTree.classify]
      cases hxf : x f
      · refine h1 (fun hc => ?_) x hx
        have := hx f hf _ hc
        rw [hxf] at this; simp at this
      · refine h2 (fun hc => ?_) x hx
        have := hx f hf _ hc
        rw [hxf] at this; simp at this
    · intro h
      refine ⟨fun hc x hx => ?_, fun hc x hx => ?_⟩
      · have := h (fun i => if i = f then false else x i) (fun i hi b hb => by
          by_cases hif : i = f
          · subst hif
            cases b <;> simp_all
          · simp only [hif, if_false]; exact hx i hi b hb)
        simp only [DTree.classify, if_true, Bool.false_eq_true, if_false] at this
        rw [← this]
        apply classify_congr
        intro i hi
        have : i ≠ f := by rintro rfl; exact hfz hi
        simp [this]
      · have := h (fun i => if i = f then true else x i) (fun i hi b hb => by
          by_cases hif : i = f
          · subst hif
            cases b <;> simp_all
          · simp only [hif, if_false]; exact hx i hi b hb)
        simp only [DTree.classify, if_true] at this
        rw [← this]
        apply classify_congr
        intro i hi
        have : i ≠ f := by rintro rfl; exact hfo hi
        simp [this]

theorem leafsAre_hits (hl : LaysOut nodes T) (b : Bool) :
    LeafsAre A b T ↔ ∀ u < nodes.length, (nodeAt nodes u).isLeaf = true → (nodeAt nodes u).value ≠ b → ¬ Hits A u T := by
  induction T with
  | leaf i v =>
    have hlt := laysOut_lt hl i (by simp [DTree.indexes])
    obtain ⟨n, hn, hlf, hv⟩ := hl
    replace hlf : n.isLeaf = true := hlf
    simp only [LeafsAre, Hits]
    constructor
    · rintro rfl u _ _ hne rfl
      rw [nodeAt_eq hn] at hne
      exact hne hv
    · intro h
      refine Classical.byContradiction fun hc => ?_
      exact h i hlt (by rw [nodeAt_eq hn, hlf]) (by rw [nodeAt_eq hn, hv]; exact hc) rfl
  | node i g z o ihz iho =>
    obtain ⟨⟨n, hn, hlf, hf, -, -⟩, hlz, hlo⟩ := hl
    replace hlf : n.isLeaf = false := hlf
    simp only [LeafsAre, ihz hlz, iho hlo, Hits]
    constructor
    · rintro ⟨h1, h2⟩ u hu hul huv (rfl | ⟨ha, h⟩ | ⟨ha, h⟩)
      · rw [nodeAt_eq hn, hlf] at hul; simp at hul
      · exact h1 ha u hu hul huv h
      · exact h2 ha u hu hul huv h
    · intro h
      exact ⟨fun ha u hu hul huv hh => h u hu hul huv (.inr (.inl ⟨ha, hh⟩)),
        fun ha u hu hul huv hh => h u hu hul huv (.inr (.inr ⟨ha, hh⟩))⟩

/-! ### dfs -/

theorem leafInsts_out {p : Bool × PInst} {i : Nat} (hp : p ∈ leafInsts e0 T) (hi : i ∉ T.feats) : p.2 i = e0 i := by
  induction T generalizing e0 with
  | leaf j v =>
    simp only [leafInsts, List.mem_singleton] at hp
    simp [hp]
  | node j f z o ihz iho =>
    simp only [leafInsts, List.mem_append] at hp
    simp only [DTree.feats, List.mem_cons, List.mem_append, not_or] at hi
    rcases hp with hp | hp
    · rw [ihz hp hi.2.1]; simp [PInst.set, hi.1]
    · rw [iho hp hi.2.2]; simp [PInst.set, hi.1]

/-- The class of a completion of a leaf's instance is the value of the leaf. -/
theorem classify_leaf (hro : T.ReadOnce) {p : Bool × PInst} (hp : p ∈ leafInsts e0 T) {x : Nat → Bool}
    (hx : ∀ i b, p.2 i = some b → x i = b) : T.classify x = p.1 := by
  induction T generalizing e0 with
  | leaf j v =>
    simp only [leafInsts, List.mem_singleton] at hp
    simp [hp, DTree.classify]
  | node j f z o ihz iho =>
    obtain ⟨hfz, hfo, hroz, hroo⟩ := hro
    simp only [leafInsts, List.mem_append] at hp
    rcases hp with hp | hp
    · have : x f = false := hx f false (by rw [leafInsts_out hp hfz]; simp [PInst.set])
      simp only [DTree.classify, this, Bool.false_eq_true, if_false]
      exact ihz hroz hp
    · have : x f = true := hx f true (by rw [leafInsts_out hp hfo]; simp [PInst.set])
      simp only [DTree.classify, this, if_true]
      exact iho hroo hp

/-- Every total instance completes the instance of a leaf. -/
theorem exists_leaf (T : DTree) (x : Nat → Bool) (h0 : ∀ i b, e0 i = some b → x i = b) :
    ∃ p ∈ leafInsts e0 T, p.1 = T.classify x ∧ ∀ i b, p.2 i = some b → x i = b := by
  induction T generalizing e0 with
  | leaf j v => exact ⟨(v, e0), List.mem_singleton.2 rfl, rfl, h0⟩
  | node j f z o ihz iho =>
    simp only [leafInsts, List.mem_append, DTree.classify]
    cases hx : x f
    · obtain ⟨p, hp, h1, h2⟩ := ihz (e0 := e0.set f false) (fun i b => by
        by_cases hif : i = f
        · subst hif; simp [PInst.set, hx]
        · simp only [PInst.set, hif, if_false]; exact h0 i b)
      exact ⟨p, .inl hp, by simpa using h1, h2⟩
    · obtain ⟨p, hp, h1, h2⟩ := iho (e0 := e0.set f true) (fun i b => by
        by_cases hif : i = f
        · subst hif; simp [PInst.set, hx]
        · simp only [PInst.set, hif, if_false]; exact h0 i b)
      exact ⟨p, .inr hp, by simpa using h1, h2⟩

theorem dfs_iff (hT : IsTree d nodes T) : DFS d T e ↔
    ∀ p ∈ leafInsts bot T, ∀ n ∈ leafInsts bot T, p.1 = true → n.1 = false →
      ∃ i < d, e i ≠ none ∧ p.2 i ≠ none ∧ n.2 i ≠ none ∧ p.2 i ≠ n.2 i := by
  have hout : ∀ p ∈ leafInsts bot T, ∀ i, ¬ i < d → p.2 i = none := by
    intro p hp i hi
    exact leafInsts_out hp fun h => hi (hT.range i h)
  constructor
  · intro h p hp n hn hpt hnf
    refine Classical.byContradiction fun hc => ?_
    simp only [not_exists, not_and] at hc
    have hcc : ∀ i < d, e i ≠ none → p.2 i ≠ none → n.2 i ≠ none → p.2 i = n.2 i := fun i hi a b c => by
      refine Classical.byContradiction fun hne => ?_; exact hc i hi a b c hne
    obtain ⟨b, hb⟩ := h (fun i => if e i = none then none else (p.2 i).or ((n.2 i).or (some false))) (by
      intro i _
      by_cases he : e i = none
      · simp [he]
      · simp only [he, if_false, iff_false]
        cases p.2 i <;> cases n.2 i <;> simp)
    have key : ∀ q : Bool × PInst, q ∈ leafInsts bot T →
        (∀ i < d, e i ≠ none → ∀ b, (p.2 i).or ((n.2 i).or (some false)) = some b →
          ∀ c, q.2 i = some c → c = b) → q.1 = b := by
      intro q hq hqc
      have := hb (fun i => (q.2 i).getD (((p.2 i).or ((n.2 i).or (some false))).getD false)) (fun i hi b hb => by
        simp only at hb
        by_cases he : e i = none
        · simp [he] at hb
        · simp only [he, if_false] at hb
          cases hqi : q.2 i with
          | some c => simpa [hqi] using hqc i hi he b hb c hqi
          | none => simp only [hqi, hb, Option.getD_none, Option.getD_some])
      rw [← this]
      exact (classify_leaf hT.once hq fun i c hc => by simp [hc]).symm
    have h1 := key p hp (fun i hi he b hb c hc => by rw [hc] at hb; simpa using hb)
    have h2 := key n hn (fun i hi he b hb c hc => by
      cases hpi : p.2 i with
      | none => rw [hpi, hc] at hb; simpa using hb
      | some c' =>
        have := hcc i hi he (by simp [hpi]) (by simp [hc])
        rw [hpi, hc] at this
        rw [hpi] at hb
        simp only [Option.some.injEq, Option.some_or] at this hb
        rw [← hb, this])
    rw [hpt] at h1; rw [hnf, ← h1] at h2; simp at h2
  · intro h e' he'
    obtain ⟨x0, hx0⟩ := exists_completion d e'
    refine ⟨T.classify x0, fun x hx => ?_⟩
    refine Classical.byContradiction fun hne => ?_
    obtain ⟨p, hp, hp1, hp2⟩ := exists_leaf (e0 := bot) T x (fun i b h => by simp [bot] at h)
    obtain ⟨n, hn, hn1, hn2⟩ := exists_leaf (e0 := bot) T x0 (fun i b h => by simp [bot] at h)
    have hfin : ∀ p n : Bool × PInst, ∀ x y : Nat → Bool, (∃ i < d, e i ≠ none ∧ p.2 i ≠ none ∧ n.2 i ≠ none ∧ p.2 i ≠ n.2 i) →
        (∀ i b, p.2 i = some b → x i = b) → (∀ i b, n.2 i = some b → y i = b) → Completes d x e' → Completes d y e' →
        False := by
      rintro p n x y ⟨i, hi, h1, h2, h3, h4⟩ hp hn hx hy
      obtain ⟨a, ha⟩ := Option.ne_none_iff_exists'.1 h2
      obtain ⟨b, hb⟩ := Option.ne_none_iff_exists'.1 h3
      have he : e' i ≠ none := fun hc => h1 ((he' i hi).1 hc)
      obtain ⟨c, hc⟩ := Option.ne_none_iff_exists'.1 he
      have e1 := hx i hi c hc
      have e2 := hy i hi c hc
      rw [hp i a ha] at e1
      rw [hn i b hb] at e2
      rw [ha, hb, e1, e2] at h4
      exact h4 rfl
    cases hcx : T.classify x
    · have hcx0 : T.classify x0 = true := by
        rw [hcx] at hne
        cases h : T.classify x0
        · exact absurd h.symm hne
        · rfl
      exact hfin n p x0 x (h n hn p hp (by rw [hn1, hcx0]) (by rw [hp1, hcx])) hn2 hp2 hx0 hx
    · have hcx0 : T.classify x0 = false := by
        rw [hcx] at hne
        cases h : T.classify x0
        · rfl
        · exact absurd h.symm hne
      exact hfin p n x x0 (h p hp n hn (by rw [hp1, hcx]) (by rw [hn1, hcx0])) hp2 hn2 hx hx0

theorem leafInsts_iff (hl : LaysOut nodes T) (b : Bool) (q : PInst) : (b, q) ∈ leafInsts e0 T ↔
    ∃ p ∈ T.nodeInsts e0, (nodeAt nodes p.1).isLeaf = true ∧ (nodeAt nodes p.1).value = b ∧ p.2 = q := by
  induction T generalizing e0 with
  | leaf i v =>
    obtain ⟨n, hn, hlf, hv⟩ := hl
    replace hlf : n.isLeaf = true := hlf
    simp only [leafInsts, DTree.nodeInsts, List.mem_singleton, Prod.mk.injEq, exists_eq_left, nodeAt_eq hn, hlf, hv,
      true_and]
    exact ⟨fun h => ⟨h.1.symm, h.2.symm⟩, fun h => ⟨h.1.symm, h.2.symm⟩⟩
  | node i g z o ihz iho =>
    obtain ⟨⟨n, hn, hlf, hf, -, -⟩, hlz, hlo⟩ := hl
    replace hlf : n.isLeaf = false := hlf
    simp only [leafInsts, DTree.nodeInsts, List.mem_append, List.mem_cons, ihz hlz, iho hlo]
    constructor
    · rintro (⟨p, hp, h⟩ | ⟨p, hp, h⟩)
      · exact ⟨p, .inr (.inl hp), h⟩
      · exact ⟨p, .inr (.inr hp), h⟩
    · rintro ⟨p, (rfl | hp | hp), h⟩
      · simp only [nodeAt_eq hn, hlf] at h; simp at h
      · exact .inl ⟨p, hp, h⟩
      · exact .inr ⟨p, hp, h⟩

end Goexpdt

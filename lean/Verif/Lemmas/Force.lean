import Verif.Lemmas.CaptureAtoms
/- What unit propagation finds out from the consistency clauses of predicates about their auxiliary variables. -/
namespace Goexpdt
open Spec Props
namespace Force

/-- Literals over triples that have been found: `K vr b` says that `vr` has the truth value `b`. -/
abbrev Known := VarRep → Bool → Prop

/-- Closed under unit propagation with the clause. -/
def KC (K : Known) (c : SClause) : Prop := ∀ l ∈ c, (∀ k ∈ c, k ≠ l → K k.vr (!k.pos)) → K l.vr l.pos

/-- Closed under unit propagation with the clauses. -/
def KS (K : Known) (cls : List SClause) : Prop := ∀ c ∈ cls, KC K c

variable {K : Known} {d : Nat} {n n1 n2 r cv : QVar} {e e1 e2 : PInst} {nodes : List Node} {T : DTree}

theorem KS_nil : KS K [] ↔ True := by simp [KS]
theorem KS_cons {c : SClause} {cls : List SClause} : KS K (c :: cls) ↔ KC K c ∧ KS K cls := by simp [KS]
theorem KS_append {a b : List SClause} : KS K (a ++ b) ↔ KS K a ∧ KS K b := by simp only [KS, List.mem_append]; grind
theorem KS_flatMap {α : Type} {l : List α} {f : α → List SClause} : KS K (l.flatMap f) ↔ ∀ a ∈ l, KS K (f a) := by
  simp only [KS, List.mem_flatMap]; grind
theorem KS_map {α : Type} {l : List α} {f : α → SClause} : KS K (l.map f) ↔ ∀ a ∈ l, KC K (f a) := by
  simp only [KS, List.mem_map]; grind

theorem KC1 {a : SLit} : KC K [a] ↔ K a.vr a.pos := by simp [KC]
theorem KC2 {a b : SLit} (h : KC K [a, b]) : (K b.vr (!b.pos) → K a.vr a.pos) ∧ (K a.vr (!a.pos) → K b.vr b.pos) := by
  simp only [KC, List.mem_cons, List.not_mem_nil, or_false] at h; grind
theorem KC3 {a b c : SLit} (h : KC K [a, b, c]) : (K b.vr (!b.pos) → K c.vr (!c.pos) → K a.vr a.pos) ∧
    (K a.vr (!a.pos) → K c.vr (!c.pos) → K b.vr b.pos) ∧ (K a.vr (!a.pos) → K b.vr (!b.pos) → K c.vr c.pos) := by
  simp only [KC, List.mem_cons, List.not_mem_nil, or_false] at h; grind

/-- The features of the instance are found. -/
def Rd (d : Nat) (K : Known) (n : QVar) (e : PInst) : Prop := ∀ i < d, ∀ v ∈ featVals, K ⟨n, (i : Nat), v⟩ (decide (valOf (e i) = v))

theorem Rd.bot (h : Rd d K n e) {i : Nat} (hi : i < d) : K ⟨n, (i : Nat), BOT⟩ (decide (e i = none)) := by
  have := h i hi BOT (by simp [featVals])
  rwa [decide_eq_decide.2 valOf_bot] at this
theorem Rd.zero (h : Rd d K n e) {i : Nat} (hi : i < d) : K ⟨n, (i : Nat), ZERO⟩ (decide (e i = some false)) := by
  have := h i hi ZERO (by simp [featVals])
  rwa [decide_eq_decide.2 valOf_zero] at this
theorem Rd.one (h : Rd d K n e) {i : Nat} (hi : i < d) : K ⟨n, (i : Nat), ONE⟩ (decide (e i = some true)) := by
  have := h i hi ONE (by simp [featVals])
  rwa [decide_eq_decide.2 valOf_one] at this
theorem Rd.val (h : Rd d K n e) {i : Nat} (hi : i < d) (a : Option Bool) : K ⟨n, (i : Nat), valOf a⟩ (decide (e i = a)) := by
  have := h i hi _ (valOf_mem a)
  rwa [decide_eq_decide.2 valOf_inj] at this

/-! ### counters -/

/-- All numbers of a counter are found. -/
def Counter (d : Nat) (K : Known) (cv : QVar) (B : Nat → Bool) : Prop :=
  ∀ i < d, ∀ j ≤ d, K ⟨cv, (i : Nat), (j : Nat)⟩ (decide (countFeats (i + 1) B = j))

theorem Counter.congr {B B' : Nat → Bool} (h : Counter d K cv B) (hb : ∀ i < d, B i = B' i) : Counter d K cv B' := by
  intro i hi j hj
  have := h i hi j hj
  rwa [countFeats_congr (q := B') fun k hk => hb k (by omega)] at this

/-- The same as steps. -/
structure CounterRec (d : Nat) (K : Known) (cv : QVar) (B : Nat → Bool) : Prop where
  zero : K ⟨cv, 0, 0⟩ (!B 0) ∧ K ⟨cv, 0, 1⟩ (B 0)
  step0 : ∀ i, 1 ≤ i → i < d → ∀ b, K ⟨cv, (i : Nat) - 1, 0⟩ b → K ⟨cv, (i : Nat), 0⟩ (b && !B i)
  step : ∀ i, 1 ≤ i → i < d → ∀ j, 1 ≤ j → j < i + 2 → ∀ a b, K ⟨cv, (i : Nat) - 1, (j : Nat) - 1⟩ a → K ⟨cv, (i : Nat) - 1, (j : Nat)⟩ b →
    K ⟨cv, (i : Nat), (j : Nat)⟩ (if B i then a else b)
  big : ∀ i < d, ∀ j, i + 2 ≤ j → j < d + 1 → K ⟨cv, (i : Nat), (j : Nat)⟩ false

theorem CounterRec.counter {B : Nat → Bool} (h : CounterRec d K cv B) : Counter d K cv B := by
  intro i
  induction i with
  | zero =>
    intro hi j hj
    rw [countFeats_succ, countFeats_zero]
    rcases Nat.lt_or_ge j 2 with hj2 | hj2
    · have : j = 0 ∨ j = 1 := by omega
      rcases this with rfl | rfl
      · have := h.zero.1
        cases hB : B 0 <;> simpa [hB] using this
      · have := h.zero.2
        cases hB : B 0 <;> simpa [hB] using this
    · have := h.big 0 hi j (by omega) (by omega)
      rw [show (decide (0 + (if B 0 = true then 1 else 0) = j)) = false by split <;> simp <;> omega]
      exact this
  | succ i ih =>
    intro hi j hj
    have ih := ih (by omega)
    rw [countFeats_succ]
    have hb := countFeats_le (i + 1) B
    have ei : (((i + 1 : Nat) : Int) - 1) = (i : Nat) := by omega
    rcases Nat.lt_or_ge j (i + 3) with hj2 | hj2
    · rcases Nat.eq_zero_or_pos j with rfl | hpos
      · have := h.step0 (i + 1) (by omega) hi
        rw [ei] at this
        have e0 := this _ (ih 0 (by omega))
        rw [show (decide (countFeats (i + 1) B + (if B (i + 1) = true then 1 else 0) = 0)) = (decide (countFeats (i + 1) B = 0) && !B (i + 1)) by
          cases B (i + 1) <;> simp]
        exact e0
      · have := h.step (i + 1) (by omega) hi j hpos (by omega)
        rw [ei] at this
        have ej : ((j : Int) - 1) = ((j - 1 : Nat) : Int) := by omega
        rw [ej] at this
        have := this _ _ (ih (j - 1) (by omega)) (ih j (by omega))
        rw [show (decide (countFeats (i + 1) B + (if B (i + 1) = true then 1 else 0) = j)) =
          (if B (i + 1) then decide (countFeats (i + 1) B = j - 1) else decide (countFeats (i + 1) B = j)) by
            cases B (i + 1)
            · simp
            · simp only [if_true, decide_eq_decide]; omega]
        exact this
    · have := h.big (i + 1) hi j (by omega) (by omega)
      rw [show (decide (countFeats (i + 1) B + (if B (i + 1) = true then 1 else 0) = j)) = false by
        rw [decide_eq_false_iff_not]; split <;> omega]
      exact this

theorem tooBig (h : KS K (countTooBig d cv)) : ∀ i < d, ∀ j, i + 2 ≤ j → j < d + 1 → K ⟨cv, (i : Nat), (j : Nat)⟩ false := by
  simp only [countTooBig, KS_flatMap, KS_map, mem_rng, Nat.zero_le, true_and, KC1, N, and_imp] at h
  exact h

/-- lel's counter of undefined features. -/
theorem bots {B : Nat → Bool} (hd : 0 < d) (hB : ∀ i < d, K ⟨n, (i : Nat), BOT⟩ (B i)) (h : KS K (varBotCountClauses d n cv)) :
    Counter d K cv B := by
  simp only [varBotCountClauses, KS_append, KS_flatMap, botCountStep, KS_cons, KS_nil, and_true, mem_rng, and_imp] at h
  obtain ⟨⟨h1, h2⟩, h3⟩ := h
  refine CounterRec.counter ⟨?_, ?_, ?_, tooBig h2⟩
  · have hB := hB 0 hd
    obtain ⟨a1, a2, a3, a4⟩ := h3
    have a1 := KC2 a1
    have a2 := KC2 a2
    have a3 := KC2 a3
    have a4 := KC2 a4
    simp only [P, N, Bool.not_true, Bool.not_false] at a1 a2 a3 a4
    cases hb : B 0 <;> rw [hb] at hB
    · exact ⟨a4.2 hB, a1.1 hB⟩
    · exact ⟨a3.1 hB, a2.2 hB⟩
  · intro i hi hid b hb
    have hB := hB i hid
    obtain ⟨a1, a2, a3⟩ := (h1 i hi hid).1
    have a1 := KC2 a1
    have a2 := KC2 a2
    have a3 := KC3 a3
    simp only [P, N, Bool.not_true, Bool.not_false] at a1 a2 a3
    cases hb' : B i <;> rw [hb'] at hB <;> cases b
    · exact a2.1 hb
    · exact a3.2.2 hb hB
    · exact a1.1 hB
    · exact a1.1 hB
  · intro i hi hid j hj hji a b ha hb
    have hB := hB i hid
    obtain ⟨a1, a2, a3, a4⟩ := (h1 i hi hid).2 j hj hji
    have a1 := KC3 a1
    have a2 := KC3 a2
    have a3 := KC3 a3
    have a4 := KC3 a4
    simp only [P, N, Bool.not_true, Bool.not_false] at a1 a2 a3 a4
    cases hb' : B i <;> rw [hb'] at hB
    · cases b
      · exact a3.1 hb hB
      · exact a4.1 hb hB
    · cases a
      · exact a1.1 ha hB
      · exact a2.1 ha hB

theorem bots_rd (hd : 0 < d) (hr : Rd d K n e) (h : KS K (varBotCountClauses d n cv)) : Counter d K cv (fun i => (e i).isNone) := by
  refine bots hd (fun i hi => ?_) h
  have := hr.bot hi
  rcases opt3 (e i) with h | h | h <;> simpa [h] using this

/-- leh's counters of different features. -/
theorem dist {B : Nat → Bool} {eq : Nat → VarRep} (hd : 0 < d) (hB : ∀ i < d, K (eq i) (!B i)) (h : KS K (hdClauses d cv eq)) :
    Counter d K cv B := by
  simp only [hdClauses, KS_append, KS_flatMap, KS_cons, KS_nil, and_true, mem_rng, and_imp] at h
  obtain ⟨⟨h1, h2⟩, h3⟩ := h
  refine CounterRec.counter ⟨?_, ?_, ?_, tooBig h3⟩
  · have hB := hB 0 hd
    obtain ⟨a1, a2, a3, a4⟩ := h1
    have a1 := KC2 a1
    have a2 := KC2 a2
    have a3 := KC2 a3
    have a4 := KC2 a4
    simp only [P, N, Bool.not_true, Bool.not_false] at a1 a2 a3 a4
    cases hb : B 0 <;> rw [hb] at hB
    · exact ⟨a2.2 hB, a3.1 hB⟩
    · exact ⟨a1.1 hB, a4.2 hB⟩
  · intro i hi hid b hb
    have hB := hB i hid
    obtain ⟨a1, a2, a3⟩ := (h2 i hi hid).1
    have a1 := KC2 a1
    have a2 := KC2 a2
    have a3 := KC3 a3
    simp only [P, N, Bool.not_true, Bool.not_false] at a1 a2 a3
    cases hb' : B i <;> rw [hb'] at hB <;> cases b
    · exact a1.1 hb
    · exact a3.2.2 hb hB
    · exact a2.1 hB
    · exact a2.1 hB
  · intro i hi hid j hj hji a b ha hb
    have hB := hB i hid
    obtain ⟨a1, a2, a3, a4⟩ := (h2 i hi hid).2 j hj hji
    have a1 := KC3 a1
    have a2 := KC3 a2
    have a3 := KC3 a3
    have a4 := KC3 a4
    simp only [P, N, Bool.not_true, Bool.not_false] at a1 a2 a3 a4
    cases hb' : B i <;> rw [hb'] at hB
    · cases b
      · exact a2.1 hb hB
      · exact a4.1 hb hB
    · cases a
      · exact a1.1 ha hB
      · exact a3.1 ha hB

theorem dist_const (hd : 0 < d) {c : QConst} (hc : GoodVals d c.val) (hr : Rd d K n e)
    (h : KS K (hdClauses d cv fun i => ⟨n, (i : Nat), c.at i⟩)) : Counter d K cv (fun i => e i != den c.val i) := by
  refine dist hd (fun i hi => ?_) h
  have := hr.val hi (den c.val i)
  rw [at_eq hc hi c rfl]
  rcases opt3 (e i) with h | h | h <;> rcases opt3 (den c.val i) with h' | h' | h' <;> rw [h, h'] at this <;> rw [h, h'] <;> exact this

/-- leh's equal features. -/
theorem same {q : QVar} (hr1 : Rd d K n1 e1) (hr2 : Rd d K n2 e2) (h1 : Full d e1) (h2 : Full d e2)
    (h : KS K (fullVarEqualClauses d n1 n2 q)) {i : Nat} (hi : i < d) : K ⟨q, (i : Nat), 0⟩ (decide (e1 i = e2 i)) := by
  simp only [fullVarEqualClauses, KS_flatMap, mem_rng, Nat.zero_le, true_and, KS_cons, KS_nil, and_true] at h
  obtain ⟨b1, b2, b3, b4⟩ := h i hi
  have b1 := (KC3 b1).2.2
  have b2 := (KC3 b2).2.2
  have b3 := (KC3 b3).2.2
  have b4 := (KC3 b4).2.2
  simp only [P, N, Bool.not_false] at b1 b2 b3 b4
  have a1 := h1 i hi
  have a2 := h2 i hi
  have z1 := hr1.zero hi
  have z2 := hr2.zero hi
  have o1 := hr1.one hi
  have o2 := hr2.one hi
  rcases opt3 (e1 i) with h | h | h <;> rcases opt3 (e2 i) with h' | h' | h' <;> simp_all

theorem far {a q : QVar} (hd : 0 < d) (hr1 : Rd d K n1 e1) (hr2 : Rd d K n2 e2) (h1 : Full d e1) (h2 : Full d e2)
    (h : KS K (fullVarEqualClauses d n1 n2 q)) (h' : KS K (hdClauses d a fun i => ⟨q, (i : Nat), 0⟩)) :
    Counter d K a (fun i => e1 i != e2 i) := by
  refine dist hd (fun i hi => ?_) h'
  have := same hr1 hr2 h1 h2 h hi
  rcases opt3 (e1 i) with h | h | h <;> rcases opt3 (e2 i) with h' | h' | h' <;> rw [h, h'] at this <;> rw [h, h'] <;> exact this

/-! ### nodes of the model -/

/-- For all nodes it is found whether they are in the set. -/
def Marks (nodes : List Node) (K : Known) (r : QVar) (S : Nat → Prop) : Prop :=
  ∀ u < nodes.length, (S u → K ⟨r, 0, (u : Nat)⟩ true) ∧ (¬ S u → K ⟨r, 0, (u : Nat)⟩ false)

/-- From what is known of a node follows what is known of its children. -/
def Pass (A : Nat → Bool → Prop) (K : Nat → Bool → Prop) (nodes : List Node) (i : Nat) : Prop :=
  ∀ n, nodes[i]? = some n → n.isLeaf = false → ∀ f z o : Nat, n.feat = (f : Int) → n.zChild = (z : Int) → n.oChild = (o : Int) →
    (K i true → A f false → K z true) ∧ ((K i false ∨ ¬ A f false) → K z false) ∧
    (K i true → A f true → K o true) ∧ ((K i false ∨ ¬ A f true) → K o false)

theorem pass_down {A : Nat → Bool → Prop} {M : Nat → Bool → Prop} (T : DTree) (hl : LaysOut nodes T) (hp : ∀ i ∈ T.indexes, Pass A M nodes i)
    (hnd : T.indexes.Nodup) (u : Nat) (hu : u ∈ T.indexes) :
    (M T.root true → (Hits A u T → M u true) ∧ (¬ Hits A u T → M u false)) ∧ (M T.root false → M u false) := by
  induction T with
  | leaf i v =>
    simp only [DTree.indexes, List.mem_singleton] at hu
    subst hu
    simp [Hits, DTree.root]
  | node i f z o ihz iho =>
    obtain ⟨⟨n, hn, hlf, hf, hz, ho⟩, hlz, hlo⟩ := hl
    replace hlf : n.isLeaf = false := hlf
    simp only [DTree.indexes, List.nodup_cons, List.mem_append, not_or, List.nodup_append] at hnd
    obtain ⟨⟨hiz, hio⟩, hndz, hndo, hdis⟩ := hnd
    have hpi := hp i (by simp [DTree.indexes]) n hn hlf f z.root o.root hf hz ho
    have ihz := ihz hlz (fun j hj => hp j (by simp [DTree.indexes, hj])) hndz
    have iho := iho hlo (fun j hj => hp j (by simp [DTree.indexes, hj])) hndo
    simp only [DTree.indexes, List.mem_cons, List.mem_append] at hu
    simp only [Hits, DTree.root]
    obtain ⟨p1, p2, p3, p4⟩ := hpi
    rcases hu with rfl | hu | hu
    · exact ⟨fun h => ⟨fun _ => h, fun h' => absurd (.inl rfl) h'⟩, id⟩
    · have hio' : ¬ Hits A u o := fun h => hdis u hu u (hits_mem h) rfl
      have hne : u ≠ i := fun h => hiz (h ▸ hu)
      obtain ⟨i1, i2⟩ := ihz hu
      simp only [hne, hio', and_false, or_false, false_or]
      refine ⟨fun h => ⟨fun k => (i1 (p1 h k.1)).1 k.2, fun k => ?_⟩, fun h => i2 (p2 (.inl h))⟩
      by_cases hA : A f false
      · exact (i1 (p1 h hA)).2 fun hh => k ⟨hA, hh⟩
      · exact i2 (p2 (.inr hA))
    · have hiz' : ¬ Hits A u z := fun h => hdis u (hits_mem h) u hu rfl
      have hne : u ≠ i := fun h => hio (h ▸ hu)
      obtain ⟨i1, i2⟩ := iho hu
      simp only [hne, hiz', and_false, false_or]
      refine ⟨fun h => ⟨fun k => (i1 (p3 h k.1)).1 k.2, fun k => ?_⟩, fun h => i2 (p4 (.inl h))⟩
      by_cases hA : A f true
      · exact (i1 (p3 h hA)).2 fun hh => k ⟨hA, hh⟩
      · exact i2 (p4 (.inr hA))

theorem marks_of {A : Nat → Bool → Prop} (hT : IsRawTree d nodes T) (hC : Covers nodes T) (h0 : K ⟨r, 0, 0⟩ true)
    (hp : ∀ i < nodes.length, Pass A (fun u b => K ⟨r, 0, (u : Nat)⟩ b) nodes i) : Marks nodes K r fun u => Hits A u T := by
  have hlt := laysOut_lt hT.laid
  intro u hu
  have := (pass_down (M := fun u b => K ⟨r, 0, (u : Nat)⟩ b) T hT.laid (fun i hi => hp i (hlt i hi)) hT.nodup u (hC u hu)).1
  rw [hT.root] at this
  exact this h0

theorem pass_at {A : Nat → Bool → Prop} {M : Nat → Bool → Prop} {i : Nat} (hi : i < nodes.length) {f z o : Nat}
    (hf : (nodeAt nodes i).feat = (f : Int))
    (hz : (nodeAt nodes i).zChild = (z : Int)) (ho : (nodeAt nodes i).oChild = (o : Int))
    (h : (M i true → A f false → M z true) ∧ ((M i false ∨ ¬ A f false) → M z false) ∧
      (M i true → A f true → M o true) ∧ ((M i false ∨ ¬ A f true) → M o false)) : Pass A M nodes i := by
  intro m hm _ f' z' o' hf' hz' ho'
  rw [getElem?_nodeAt hi] at hm
  simp only [Option.some.injEq] at hm
  subst hm
  obtain rfl : f = f' := by rw [hf] at hf'; exact_mod_cast hf'
  obtain rfl : z = z' := by rw [hz] at hz'; exact_mod_cast hz'
  obtain rfl : o = o' := by rw [ho] at ho'; exact_mod_cast ho'
  exact h

theorem pass_leaf {A : Nat → Bool → Prop} {M : Nat → Bool → Prop} {i : Nat} (hi : i < nodes.length)
    (hl : (nodeAt nodes i).isLeaf = true) : Pass A M nodes i := by
  intro m hm hml
  rw [getElem?_nodeAt hi] at hm
  simp only [Option.some.injEq] at hm
  subst hm
  rw [hl] at hml; simp at hml

theorem onPath (hT : IsTree d nodes T) (hC : Covers nodes T) (hr : Rd d K n e) (h : KS K ([P r 0 0] :: isnodeProp nodes n r)) :
    Marks nodes K r fun u => ∃ p ∈ T.nodeInsts bot, p.1 = u ∧ Subsumes d p.2 e := by
  have hv := raw_valid hT.raw hC
  simp only [← hits_subsumes hT]
  simp only [KS_cons, KC1, isnodeProp, KS_flatMap, mem_rng, Nat.zero_le, true_and] at h
  refine marks_of hT.raw hC h.1 fun i hi => ?_
  have h := h.2 i hi
  cases hl : (nodeAt nodes i).isLeaf
  · obtain ⟨f, z, o, hf, -, -, h1, h2, h3⟩ := valid_node hv hi hl
    refine pass_at hi h1 h2 h3 ?_
    simp only [hl, h1, h2, h3, Bool.false_eq_true, if_false, KS_cons, KS_nil, and_true] at h
    obtain ⟨c1, c2, c3, c4, c5, c6⟩ := h
    have c1 := KC3 c1
    have c2 := KC3 c2
    have c3 := KC2 c3
    have c4 := KC2 c4
    have c5 := KC2 c5
    have c6 := KC2 c6
    simp only [P, N, Bool.not_true, Bool.not_false] at c1 c2 c3 c4 c5 c6
    have hz := hr.zero hf
    have ho := hr.one hf
    refine ⟨fun k a => c1.2.2 (by simpa [a] using hz) k, ?_, fun k a => c2.2.2 (by simpa [a] using ho) k, ?_⟩
    · rintro (k | a)
      · exact c5.1 k
      · exact c6.1 (by simpa [a] using hz)
    · rintro (k | a)
      · exact c3.1 k
      · exact c4.1 (by simpa [a] using ho)
  · exact pass_leaf hi hl

theorem reach (hT : IsTree d nodes T) (hC : Covers nodes T) (hr : Rd d K n e) (leaf : Bool)
    (h : KS K (conOf (.con [[P r 0 0]] :: (rng 0 nodes.length).map (allcompStep leaf nodes n r)))) :
    Marks nodes K r fun u => ∃ p ∈ T.nodeInsts bot, p.1 = u ∧ Cons d p.2 e := by
  have hv := raw_valid hT.raw hC
  simp only [← hits_cons hT]
  simp only [conOf, List.cons_append, List.nil_append, conOf_allcomp, KS_cons, KC1, KS_flatMap, mem_rng, Nat.zero_le, true_and] at h
  refine marks_of hT.raw hC h.1 fun i hi => ?_
  have h := h.2 i hi
  cases hl : (nodeAt nodes i).isLeaf
  · obtain ⟨f, z, o, hf, -, -, h1, h2, h3⟩ := valid_node hv hi hl
    refine pass_at hi h1 h2 h3 ?_
    simp only [allcompStep, hl, h1, h2, h3, conOf, Bool.false_eq_true, if_false, KS_append, KS_cons, KS_nil, and_true] at h
    obtain ⟨c1, c2, c3, c4, c5, c6, c7, c8⟩ := h
    have c1 := KC3 c1
    have c2 := KC3 c2
    have c3 := KC3 c3
    have c4 := KC3 c4
    have c5 := KC2 c5
    have c6 := KC3 c6
    have c7 := KC2 c7
    have c8 := KC3 c8
    simp only [P, N, Bool.not_true, Bool.not_false] at c1 c2 c3 c4 c5 c6 c7 c8
    have hb := hr.bot hf
    have hz := hr.zero hf
    have ho := hr.one hf
    refine ⟨fun k a => ?_, ?_, fun k a => ?_, ?_⟩
    · rcases opt3 (e f) with h | h | h
      · exact c3.2.2 (by simpa [h] using hb) k
      · exact c1.2.2 (by simpa [h] using hz) k
      · exact absurd h a
    · rintro (k | a)
      · exact c7.1 k
      · have h : e f = some true := by simpa using a
        exact c8.1 (by simpa [h] using hz) (by simpa [h] using hb)
    · rcases opt3 (e f) with h | h | h
      · exact c4.2.2 (by simpa [h] using hb) k
      · exact absurd h a
      · exact c2.2.2 (by simpa [h] using ho) k
    · rintro (k | a)
      · exact c5.1 k
      · have h : e f = some false := by simpa using a
        exact c6.1 (by simpa [h] using ho) (by simpa [h] using hb)
  · exact pass_leaf hi hl

/-! ### hepr -/

/-- For all positions of the preference order it is found whether `HEPR` holds from there on. -/
def Rank (K : Known) (r : QVar) (pref : List Nat) (e1 e2 : PInst) : Prop :=
  ∀ k < pref.length, (HEPR (pref.drop k) e1 e2 → K ⟨r, 0, (k : Nat)⟩ true) ∧ (¬ HEPR (pref.drop k) e1 e2 → K ⟨r, 0, (k : Nat)⟩ false)

/-- The last position and the step from one position to the one before. `a` and `b`: the feature is undefined in the first and second instance. -/
theorem rank_of {pref : List Int} (hne : pref ≠ [])
    (h0 : ∀ f, f = (prefAt pref (pref.length - 1)).toNat → K ⟨r, 0, (pref.length : Int) - 1⟩ (!(decide (e1 f = none) && !decide (e2 f = none))))
    (h1 : ∀ k, k + 1 < pref.length → ∀ f, f = (prefAt pref k).toNat → ∀ b, K ⟨r, 0, (k : Nat) + 1⟩ b →
      K ⟨r, 0, (k : Nat)⟩ (!(decide (e1 f = none) && !decide (e2 f = none)) && (b || (decide (e1 f = none) != decide (e2 f = none))))) :
    Rank K r (pref.map Int.toNat) e1 e2 := by
  have hpos := List.length_pos_iff.2 hne
  have hdrop : ∀ k, k < pref.length → (pref.map Int.toNat).drop k = (prefAt pref k).toNat :: (pref.map Int.toNat).drop (k + 1) := by
    intro k hk
    rw [← getD_map_toNat, List.getD_eq_getElem?_getD, List.getElem?_eq_getElem (by simpa using hk), Option.getD_some]
    exact List.drop_eq_getElem_cons (by simpa using hk)
  suffices h : ∀ m k, k < pref.length → pref.length - k = m → ∃ b, K ⟨r, 0, (k : Nat)⟩ b ∧
      (b = true ↔ HEPR ((pref.map Int.toNat).drop k) e1 e2) by
    intro k hk
    rw [List.length_map] at hk
    obtain ⟨b, hb, hbb⟩ := h _ k hk rfl
    rw [← hbb]
    cases b <;> simp [hb]
  intro m
  induction m with
  | zero => intro k hk hm; omega
  | succ m ih =>
    intro k hk hm
    rw [hdrop k hk, HEPR_cons]
    by_cases hk1 : k + 1 < pref.length
    · obtain ⟨b, hb, hbb⟩ := ih (k + 1) hk1 (by omega)
      rw [show (((k + 1 : Nat)) : Int) = (k : Int) + 1 by omega] at hb
      refine ⟨_, h1 k hk1 _ rfl b hb, ?_⟩
      rw [← hbb]
      by_cases a : e1 (prefAt pref k).toNat = none <;> by_cases c : e2 (prefAt pref k).toNat = none <;> cases b <;> simp [a, c]
    · obtain rfl : k = pref.length - 1 := by omega
      refine ⟨_, by
        have := h0 _ rfl
        rwa [show ((pref.length : Int) - 1) = ((pref.length - 1 : Nat) : Int) by omega] at this, ?_⟩
      rw [List.drop_eq_nil_of_le (by rw [List.length_map]; omega)]
      by_cases a : e1 (prefAt pref (pref.length - 1)).toNat = none <;> by_cases c : e2 (prefAt pref (pref.length - 1)).toNat = none <;>
        simp [a, c, HEPR_nil]

section
variable {pref : List Int} (hp : ∀ i ∈ pref, 0 ≤ i ∧ i < d)
include hp

theorem Rd.prefBot (hr : Rd d K n e) {k : Nat} (h : k < pref.length) :
    K ⟨n, prefAt pref k, BOT⟩ (decide (e (prefAt pref k).toNat = none)) := by
  obtain ⟨h1, h2⟩ := prefAt_lt hp h
  have := hr.bot h1
  rwa [← h2] at this

theorem rankCV {c : QConst} (hc : GoodVals d c.val) (hr : Rd d K n e) (hne : pref ≠ []) (h : KS K (heprConstVarCon c n r pref)) :
    Rank K r (pref.map Int.toNat) (den c.val) e := by
  have hpos := List.length_pos_iff.2 hne
  simp only [heprConstVarCon, KS_append, KS_flatMap, mem_downFrom] at h
  refine rank_of hne ?_ ?_
  · rintro f rfl
    have h := h.1
    have h1 := prefAt_lt hp (k := pref.length - 1) (by omega)
    have hb := Rd.prefBot hp hr (k := pref.length - 1) (by omega)
    rw [at_eq hc h1.1 c rfl] at h
    simp only [ne_eq, valOf_bot] at h
    by_cases a : den c.val (prefAt pref (pref.length - 1)).toNat = none <;> by_cases b : e (prefAt pref (pref.length - 1)).toNat = none <;>
      simp only [a, b, not_true, not_false_eq_true, if_true, if_false, KS_cons, KS_nil, and_true, KC1, decide_true, decide_false] at h hb ⊢
    · exact (KC2 h.2).2 hb
    · exact (KC2 h.1).1 hb
    · exact h
    · exact h
  · rintro k hk f rfl b hb'
    have h := h.2 k hk
    have h1 := prefAt_lt hp (k := k) (by omega)
    have hb := Rd.prefBot hp hr (k := k) (by omega)
    rw [at_eq hc h1.1 c rfl] at h
    simp only [ne_eq, valOf_bot] at h
    by_cases a : den c.val (prefAt pref k).toNat = none <;> by_cases c : e (prefAt pref k).toNat = none <;>
      simp only [a, c, not_true, not_false_eq_true, if_true, if_false, KS_cons, KS_nil, and_true, decide_true, decide_false] at h hb ⊢ <;>
      cases b
    · exact (KC2 h.2.2).1 hb'
    · exact (KC3 h.1).2.2 hb hb'
    · exact (KC2 h.2.1).1 hb
    · exact (KC2 h.2.1).1 hb
    · exact (KC2 h.2.1).2 hb
    · exact (KC2 h.2.1).2 hb
    · exact (KC3 h.1).1 hb hb'
    · exact (KC2 h.2.2).2 hb'

theorem rankVC {c : QConst} (hc : GoodVals d c.val) (hr : Rd d K n e) (hne : pref ≠ []) (h : KS K (heprVarConstCon n c r pref)) :
    Rank K r (pref.map Int.toNat) e (den c.val) := by
  have hpos := List.length_pos_iff.2 hne
  simp only [heprVarConstCon, KS_append, KS_flatMap, mem_downFrom] at h
  refine rank_of hne ?_ ?_
  · rintro f rfl
    have h := h.1
    have h1 := prefAt_lt hp (k := pref.length - 1) (by omega)
    have hb := Rd.prefBot hp hr (k := pref.length - 1) (by omega)
    rw [at_eq hc h1.1 c rfl] at h
    simp only [ne_eq, valOf_bot] at h
    by_cases a : den c.val (prefAt pref (pref.length - 1)).toNat = none <;> by_cases b : e (prefAt pref (pref.length - 1)).toNat = none <;>
      simp only [a, b, not_true, not_false_eq_true, if_true, if_false, KS_cons, KS_nil, and_true, KC1, decide_true, decide_false] at h hb ⊢
    · exact h
    · exact h
    · exact (KC2 h.1).1 hb
    · exact (KC2 h.2).1 hb
  · rintro k hk f rfl b hb'
    have h := h.2 k hk
    have h1 := prefAt_lt hp (k := k) (by omega)
    have hb := Rd.prefBot hp hr (k := k) (by omega)
    rw [at_eq hc h1.1 c rfl] at h
    simp only [ne_eq, valOf_bot] at h
    by_cases a : den c.val (prefAt pref k).toNat = none <;> by_cases c : e (prefAt pref k).toNat = none <;>
      simp only [a, c, not_true, not_false_eq_true, if_true, if_false, KS_cons, KS_nil, and_true, decide_true, decide_false] at h hb ⊢ <;>
      cases b
    · exact (KC3 h.1).2.2 hb hb'
    · exact (KC2 h.2.2).1 hb'
    · exact (KC2 h.2.1).1 hb
    · exact (KC2 h.2.1).1 hb
    · exact (KC2 h.2.1).1 hb
    · exact (KC2 h.2.1).1 hb
    · exact (KC2 h.2.2).1 hb'
    · exact (KC3 h.1).2.2 hb hb'

theorem rankVV (hr1 : Rd d K n1 e1) (hr2 : Rd d K n2 e2) (hne : pref ≠ []) (h : KS K (heprVarVarCon n1 n2 r pref)) :
    Rank K r (pref.map Int.toNat) e1 e2 := by
  have hpos := List.length_pos_iff.2 hne
  simp only [heprVarVarCon, KS_append, KS_flatMap, mem_downFrom] at h
  refine rank_of hne ?_ ?_
  · rintro f rfl
    have h := h.1
    have hb1 := Rd.prefBot hp hr1 (k := pref.length - 1) (by omega)
    have hb2 := Rd.prefBot hp hr2 (k := pref.length - 1) (by omega)
    simp only [KS_cons, KS_nil, and_true] at h
    by_cases a : e1 (prefAt pref (pref.length - 1)).toNat = none <;> by_cases b : e2 (prefAt pref (pref.length - 1)).toNat = none <;>
      simp only [a, b, decide_true, decide_false] at hb1 hb2 ⊢
    · exact (KC2 h.2.2).2 hb2
    · exact (KC3 h.1).1 hb1 hb2
    · exact (KC2 h.2.1).2 hb1
    · exact (KC2 h.2.1).2 hb1
  · rintro k hk f rfl b hb'
    have h := h.2 k hk
    have hb1 := Rd.prefBot hp hr1 (k := k) (by omega)
    have hb2 := Rd.prefBot hp hr2 (k := k) (by omega)
    simp only [KS_cons, KS_nil, and_true] at h
    by_cases a : e1 (prefAt pref k).toNat = none <;> by_cases c : e2 (prefAt pref k).toNat = none <;>
      simp only [a, c, decide_true, decide_false] at hb1 hb2 ⊢ <;>
      cases b
    · exact (KC3 h.2.1).2.1 hb1 hb'
    · exact (KC3 h.2.2.2.2.2).2.1 hb2 hb'
    · exact (KC3 h.1).2.2 hb1 hb2
    · exact (KC3 h.1).2.2 hb1 hb2
    · exact (KC3 h.2.2.2.1).2.2 hb1 hb2
    · exact (KC3 h.2.2.2.1).2.2 hb1 hb2
    · exact (KC3 h.2.2.1).2.1 hb2 hb'
    · exact (KC3 h.2.2.2.2.1).2.1 hb1 hb'

end

/-! ### literals as integers -/

/-- Literals that have been found: `L n b` says that variable `n` has the truth value `b`. -/
abbrev Found := Nat → Bool → Prop

/-- The literal has been found to be true. -/
def TL (L : Found) (l : Int) : Prop := L l.natAbs (decide (0 < l))
/-- The literal has been found to be false. -/
def FL (L : Found) (l : Int) : Prop := L l.natAbs (!decide (0 < l))

/-- Closed under unit propagation with the clause. -/
def LC (L : Found) (cl : Clause) : Prop := ∀ l ∈ cl, (∀ k ∈ cl, k ≠ l → FL L k) → TL L l

/-- Closed under unit propagation with the clauses. -/
def LS (L : Found) (cls : List Clause) : Prop := ∀ cl ∈ cls, LC L cl

/-- The truth values of all variables of the clauses have been found. -/
def Dec (L : Found) (cls : List Clause) : Prop := ∀ cl ∈ cls, ∀ l ∈ cl, TL L l ∨ FL L l

section
variable {L : Found} {l : Int} {s : Ctx}

theorem TL_neg (h : l ≠ 0) : TL L (-l) ↔ FL L l := by
  unfold TL FL
  rw [Int.natAbs_neg, show decide (0 < -l) = !decide (0 < l) by rw [Bool.eq_iff_iff]; simp; omega]
theorem FL_neg (h : l ≠ 0) : FL L (-l) ↔ TL L l := by
  unfold TL FL
  rw [Int.natAbs_neg, show (!decide (0 < -l)) = decide (0 < l) by rw [Bool.eq_iff_iff]; simp; omega]

theorem dec_iff : (TL L l ∨ FL L l) ↔ (L l.natAbs true ∨ L l.natAbs false) := by
  unfold TL FL
  cases decide (0 < l) <;> simp [or_comm]

theorem LS_append {a b : List Clause} : LS L (a ++ b) ↔ LS L a ∧ LS L b := by simp only [LS, List.mem_append]; grind
theorem LS_cons {a : Clause} {b : List Clause} : LS L (a :: b) ↔ LC L a ∧ LS L b := by simp [LS]
theorem dec_nil : Dec L [] := by intro cl h; simp at h
theorem dec_append {a b : List Clause} : Dec L (a ++ b) ↔ Dec L a ∧ Dec L b := by simp only [Dec, List.mem_append]; grind
theorem dec_cons {a : Clause} {b : List Clause} : Dec L (a :: b) ↔ (∀ l ∈ a, TL L l ∨ FL L l) ∧ Dec L b := by simp [Dec]

/-- What a valuation makes true is closed under unit propagation with the clauses it makes true. -/
theorem LS_of {β : Val} {cls : List Clause} (h : clausesTrue β cls) : LS (fun n b => β n = b) cls := by
  intro cl hcl l hl hf
  obtain ⟨k, hk, ht⟩ := h cl hcl
  have ht' : β k.natAbs = decide (0 < k) := by
    unfold litTrue at ht
    split at ht
    · next h => rw [ht]; simp [h]
    · next h => rw [ht]; simp; omega
  by_cases e : k = l
  · exact e ▸ ht'
  · have := hf k hk e
    have this : β k.natAbs = !decide (0 < k) := this
    rw [ht'] at this
    simp at this

theorem LS_and {L1 L2 : Found} {cls : List Clause} (h1 : LS L1 cls) (h2 : LS L2 cls) : LS (fun n b => L1 n b ∧ L2 n b) cls :=
  fun cl hcl l hl hf => ⟨h1 cl hcl l hl fun k hk e => (hf k hk e).1, h2 cl hcl l hl fun k hk e => (hf k hk e).2⟩

/-- What has been found about triples. -/
def known (s : Ctx) (L : Found) : Known := fun vr b => L (num s vr).natAbs b

theorem TL_img (hv : VMok s) {l : SLit} (h : Named s l.vr) : TL L (imgL s l) ↔ known s L l.vr l.pos := by
  obtain ⟨n, hn⟩ := h
  have hr := hv.range _ _ hn
  unfold TL known imgL
  rw [num_eq hn]
  cases hp : l.pos
  · rw [if_neg (by simp), Int.natAbs_neg, show decide (0 < -n) = false by simp; omega]
  · rw [if_pos rfl, show decide (0 < n) = true by simp; omega]

theorem FL_img (hv : VMok s) {l : SLit} (h : Named s l.vr) : FL L (imgL s l) ↔ known s L l.vr (!l.pos) := by
  obtain ⟨n, hn⟩ := h
  have hr := hv.range _ _ hn
  unfold FL known imgL
  rw [num_eq hn]
  cases hp : l.pos
  · rw [if_neg (by simp), Int.natAbs_neg, show decide (0 < -n) = false by simp; omega]
  · rw [if_pos rfl, show decide (0 < n) = true by simp; omega]

theorem KS_img (hv : VMok s) {cls : List SClause} (h : ∀ vr, usedIn cls vr → Named s vr) (hL : LS L (imgS s cls)) : KS (known s L) cls := by
  intro c hc l hl hf
  refine (TL_img hv (h _ ⟨c, hc, l, hl, rfl⟩)).1 (hL _ (List.mem_map.2 ⟨c, hc, rfl⟩) _ (List.mem_map.2 ⟨l, hl, rfl⟩) ?_)
  intro k hk hne
  obtain ⟨k, hk', rfl⟩ := List.mem_map.1 hk
  exact (FL_img hv (h _ ⟨c, hc, k, hk', rfl⟩)).2 (hf k hk' fun e => hne (e ▸ rfl))

/-! ### negation -/

/-- The variable that says that a clause is false. -/
theorem gate {cl : Clause} {y : Int} (hy : y ≠ 0) (hnz : ∀ l ∈ cl, l ≠ 0) (hd : ∀ l ∈ cl, TL L l ∨ FL L l)
    (h1 : LS L (cl.map fun lit => [-lit, -y])) (h2 : LC L (cl ++ [y])) : TL L y ∨ FL L y := by
  by_cases h : ∃ l ∈ cl, TL L l
  · obtain ⟨l, hl, ht⟩ := h
    refine .inr ((TL_neg hy).1 (h1 _ (List.mem_map.2 ⟨l, hl, rfl⟩) _ (by simp) ?_))
    intro k hk hne
    simp only [List.mem_cons, List.not_mem_nil, or_false] at hk
    rcases hk with rfl | rfl
    · exact (FL_neg (hnz l hl)).2 ht
    · exact absurd rfl hne
  · refine .inl (h2 y (by simp) fun k hk hne => ?_)
    rcases List.mem_append.1 hk with hk | hk
    · exact (hd k hk).resolve_left fun h' => h ⟨k, hk, h'⟩
    · simp only [List.mem_singleton] at hk; exact absurd hk hne

theorem loop (s : List Clause) : ∀ (tv : Int) (cls : List Clause) (enc : Clause) (tv' : Int) (cls' : List Clause) (enc' : Clause),
    0 ≤ tv → NonZero s → (∀ l ∈ enc, l ≠ 0) → CNF.tseytinLoop tv cls enc s = .ok (tv', cls', enc') →
    (∃ x, cls' = cls ++ x) ∧ 0 ≤ tv' ∧ (∀ l ∈ enc', l ≠ 0) ∧ ∀ L : Found, LS L cls' → Dec L s → Dec L cls →
      (∀ l ∈ enc, TL L l ∨ FL L l) → Dec L cls' ∧ ∀ l ∈ enc', TL L l ∨ FL L l := by
  induction s with
  | nil =>
    intro tv cls enc tv' cls' enc' h0 _ he e
    simp only [CNF.tseytinLoop, Except.ok.injEq, Prod.mk.injEq] at e
    obtain ⟨rfl, rfl, rfl⟩ := e
    exact ⟨⟨[], by simp⟩, h0, he, fun L _ _ h1 h2 => ⟨h1, h2⟩⟩
  | cons cl rest ih =>
    intro tv cls enc tv' cls' enc' h0 hnz he e
    rw [nonZero_cons] at hnz
    match cl with
    | [] => simp [CNF.tseytinLoop] at e
    | [l] =>
      simp only [CNF.tseytinLoop] at e
      have hl := hnz.1 l (by simp)
      obtain ⟨h1, h2, h3, h4⟩ := ih _ _ _ _ _ _ h0 hnz.2 (by
        intro k hk
        rcases List.mem_append.1 hk with hk | hk
        · exact he k hk
        · simp only [List.mem_singleton] at hk; omega) e
      refine ⟨h1, h2, h3, fun L t hs hc hen => h4 L t (dec_cons.1 hs).2 hc ?_⟩
      intro k hk
      rcases List.mem_append.1 hk with hk | hk
      · exact hen k hk
      · simp only [List.mem_singleton] at hk
        subst hk
        rw [TL_neg hl, FL_neg hl, or_comm]
        exact (dec_cons.1 hs).1 l (by simp)
    | l :: l' :: ls =>
      simp only [CNF.tseytinLoop] at e
      generalize hcl : l :: l' :: ls = cl at *
      obtain ⟨⟨x, h1⟩, h2, h3, h4⟩ := ih _ _ _ _ _ _ (by omega) hnz.2 (by
        intro k hk
        rcases List.mem_append.1 hk with hk | hk
        · exact he k hk
        · simp only [List.mem_singleton] at hk; omega) e
      refine ⟨⟨_, by rw [h1, List.append_assoc, List.append_assoc]⟩, h2, h3, fun L t hs hc hen => ?_⟩
      obtain ⟨hs1, hs2⟩ := dec_cons.1 hs
      have key : TL L (tv + 1) ∨ FL L (tv + 1) := by
        have t' := t
        rw [h1] at t'
        simp only [LS_append, LS_cons] at t'
        exact gate (by omega) hnz.1 hs1 t'.1.1.2 t'.1.2.1
      refine h4 L t hs2 ?_ ?_
      · simp only [dec_append, dec_cons]
        refine ⟨⟨hc, ?_⟩, ?_, dec_nil⟩
        · intro c hc' y hy
          obtain ⟨z, hz, rfl⟩ := List.mem_map.1 hc'
          simp only [List.mem_cons, List.not_mem_nil, or_false] at hy
          rcases hy with rfl | rfl
          · rw [TL_neg (hnz.1 z hz), FL_neg (hnz.1 z hz), or_comm]; exact hs1 z hz
          · rw [TL_neg (by omega), FL_neg (by omega), or_comm]; exact key
        · intro y hy
          rcases List.mem_append.1 hy with hy | hy
          · exact hs1 y hy
          · simp only [List.mem_singleton] at hy; subst hy; exact key
      · intro y hy
        rcases List.mem_append.1 hy with hy | hy
        · exact hen y hy
        · simp only [List.mem_singleton] at hy; subst hy; exact key

theorem negate {c : CNF} (o : Option Int) (h0 : 0 ≤ c.tv) (hnz : NonZero c.sClauses)
    (h : LS L (c.negate o).cClauses) (hon : Dec L (c.sClauses ++ c.cClauses)) :
    Dec L ((c.negate o).sClauses ++ (c.negate o).cClauses) := by
  obtain ⟨hs, hc⟩ := dec_append.1 hon
  have htop : 0 ≤ negTop c o := by unfold negTop; split <;> omega
  revert h
  rw [negate_eq]
  generalize negTop c o = T at *
  split
  · intro _
    simp only [CNF.appendSemantics, dec_append, dec_cons]
    exact ⟨⟨hs, by simp, dec_nil⟩, hc⟩
  split
  · intro _
    exact dec_append.2 ⟨dec_nil, hc⟩
  simp only [CNF.tseytinNegation]
  cases e : CNF.tseytinLoop T [] [] c.sClauses with
  | error tv => intro _; exact dec_append.2 ⟨dec_nil, hc⟩
  | ok r =>
    obtain ⟨tv, cls, enc⟩ := r
    obtain ⟨-, htv, hen, hd⟩ := loop _ _ _ _ _ _ _ htop hnz (by simp) e
    simp only
    split
    · intro t
      simp only [LS_append] at t
      obtain ⟨d1, d2⟩ := hd L t.2 hs dec_nil (by simp)
      simp only [dec_append, dec_cons]
      exact ⟨⟨d2, dec_nil⟩, hc, d1⟩
    · simp only [CNF.addNegationIFFClauses]
      intro t
      simp only [LS_append, LS_cons] at t
      obtain ⟨d1, d2⟩ := hd L t.1.1.2 hs dec_nil (by simp)
      have key : TL L (tv + 1) ∨ FL L (tv + 1) := by
        have := gate (L := L) (y := -(tv + 1)) (by omega) hen d2 (by simpa using t.1.2) t.2.1
        rwa [TL_neg (by omega), FL_neg (by omega), or_comm] at this
      simp only [dec_append, dec_cons]
      refine ⟨⟨by simpa using key, dec_nil⟩, ⟨⟨hc, d1⟩, ?_⟩, ?_, dec_nil⟩
      · intro cl hcl y hy
        obtain ⟨z, hz, rfl⟩ := List.mem_map.1 hcl
        simp only [List.mem_cons, List.not_mem_nil, or_false] at hy
        rcases hy with rfl | rfl
        · rw [TL_neg (hen z hz), FL_neg (hen z hz), or_comm]; exact d2 z hz
        · exact key
      · intro y hy
        rcases List.mem_append.1 hy with hy | hy
        · exact d2 y hy
        · simp only [List.mem_singleton] at hy; subst hy
          rw [TL_neg (by omega), FL_neg (by omega), or_comm]; exact key

end

end Force
end Goexpdt

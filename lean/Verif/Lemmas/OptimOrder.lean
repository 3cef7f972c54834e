import Verif.Lemmas.Optim
/- Orders given to `ComputeOptim`: queries, ranks. -/
namespace Goexpdt
open Spec

section
variable {d : Nat} {nodes : List Node} {T : DTree} {depth : QVar → Nat} {v : QVar} {f : Query} {o : QConst → Query}

theorem Query.comp_eq {q : Query} (h : q ≠ .nil) : q.comp = some q.encode := by
  cases q <;> simp_all [Query.comp, Query.encode]

theorem Query.Good.ne_nil {q : Query} (h : q.Good d nodes T depth) : q ≠ .nil := by
  rintro rfl; exact h.fits

/-- Queries as the arguments of `ComputeOptim`. -/
theorem Optimises.poses (h : Optimises d nodes T depth v f o) :
    Poses d nodes v (fun _ => f.comp) (fun _ k => (o k).comp) (f.about d T v)
      (fun e p => (o { val := valsOf d p }).about d T v e) ((Query.withVar v f).names d T []) := by
  refine ⟨h.good.asks h.plain, fun k hk hid => ⟨(Query.withVar v (.and f (o k))).names d T [], ?_⟩⟩
  have hk' : k = { val := k.val } := by cases k; simp_all
  have := (h.goodNext k.val hk).asks (h.plainNext k.val hk)
  rw [valsOf_den hk]
  rw [← hk'] at this ⊢
  exact this

end

/-! ### counting -/

section
variable {α : Type} {p q : α → Bool}

theorem countP_lt {l : List α} (h : ∀ a ∈ l, p a = true → q a = true) (hx : ∃ a ∈ l, q a = true ∧ p a = false) :
    l.countP p < l.countP q := by
  induction l with
  | nil => simp at hx
  | cons a l ih =>
    have hm := List.countP_mono_left (l := l) (p := p) (q := q) fun b hb => h b (by simp [hb])
    have ha := h a (by simp)
    simp only [List.countP_cons]
    obtain ⟨b, hb, h1, h2⟩ := hx
    rcases List.mem_cons.1 hb with rfl | hb
    · simp [h1, h2]; omega
    · have := ih (fun b hb => h b (by simp [hb])) ⟨b, hb, h1, h2⟩
      cases hp : p a
      · simp; split <;> omega
      · simp [ha hp]; omega

end

instance (vs : List FeatV) : Decidable (ValidVals vs) := by unfold ValidVals; infer_instance
instance (d : Nat) (vs : List FeatV) : Decidable (GoodVals d vs) := by unfold GoodVals; infer_instance
instance (d : Nat) (e f : PInst) : Decidable (Subsumes d e f) := by unfold Subsumes; infer_instance

/-- All constants of dimension `d`. -/
def allVals : Nat → List (List FeatV)
  | 0 => [[]]
  | d + 1 => (allVals d).flatMap fun b => [BOT :: b, ZERO :: b, ONE :: b]

theorem length_allVals (d : Nat) : (allVals d).length = 3 ^ d := by
  induction d with
  | zero => rfl
  | succ d ih =>
    simp only [allVals, List.length_flatMap, List.length_cons, List.length_nil]
    rw [List.map_const', List.sum_replicate_nat, ih, Nat.pow_succ]

theorem mem_allVals {d : Nat} {b : List FeatV} (h : GoodVals d b) : b ∈ allVals d := by
  induction d generalizing b with
  | zero => simp [allVals, List.length_eq_zero_iff.1 h.1]
  | succ d ih =>
    cases b with
    | nil => exact absurd h.1 (by simp)
    | cons k b =>
      have hb := ih (b := b) ⟨by simpa using h.1, fun w hw => h.2 w (by simp [hw])⟩
      simp only [allVals, List.mem_flatMap]
      refine ⟨b, hb, ?_⟩
      rcases h.2 k (by simp) with rfl | rfl | rfl <;> simp

theorem allVals_good {d : Nat} {b : List FeatV} (h : b ∈ allVals d) : GoodVals d b := by
  induction d generalizing b with
  | zero =>
    simp only [allVals, List.mem_singleton] at h
    subst h
    exact ⟨rfl, by intro w hw; simp at hw⟩
  | succ d ih =>
    simp only [allVals, List.mem_flatMap] at h
    obtain ⟨b', hb', h⟩ := h
    have hg := ih hb'
    have key : ∀ k, k = BOT ∨ k = ZERO ∨ k = ONE → GoodVals (d + 1) (k :: b') := by
      intro k hk
      refine ⟨by simp [hg.1], ?_⟩
      intro w hw
      rcases List.mem_cons.1 hw with rfl | hw
      · exact hk
      · exact hg.2 w hw
    simp only [List.mem_cons, List.not_mem_nil, or_false] at h
    rcases h with rfl | rfl | rfl
    · exact key _ (.inl rfl)
    · exact key _ (.inr (.inl rfl))
    · exact key _ (.inr (.inr rfl))

section
variable {d : Nat} (F : PInst → Prop) (R : PInst → PInst → Prop)

open Classical in
/-- The number of constants below `b`. -/
noncomputable def rankOf (d : Nat) (b : List FeatV) : Nat :=
  (allVals d).countP fun b' => decide (F (den b') ∧ R (den b') (den b))

variable {F R}

theorem rankOf_lt (h : StrictOn F R d) {b b' : List FeatV} (hb : GoodVals d b) (hb' : GoodVals d b') (hF : F (den b))
    (hF' : F (den b')) (hR : R (den b') (den b)) : rankOf F R d b' < rankOf F R d b := by
  apply countP_lt
  · intro a ha hp
    simp only [decide_eq_true_eq] at hp ⊢
    exact ⟨hp.1, h.trans a b' b (allVals_good ha) hb' hb hp.1 hF' hF hp.2 hR⟩
  · refine ⟨b', mem_allVals hb', by simp [hF', hR], ?_⟩
    simp only [decide_eq_false_iff_not]
    exact fun hh => h.irrefl b' hb' hF' hh.2

theorem rankOf_bound (h : StrictOn F R d) {b : List FeatV} (hb : GoodVals d b) (hF : F (den b)) :
    rankOf F R d b < 3 ^ d := by
  rw [← length_allVals, ← List.countP_true]
  apply countP_lt
  · simp
  · refine ⟨b, mem_allVals hb, rfl, ?_⟩
    simp only [decide_eq_false_iff_not]
    exact fun hh => h.irrefl b hb hF hh.2

end

/-! ### counts of features -/

theorem countFeats_le' (d : Nat) (p : Nat → Bool) : countFeats d p ≤ d := by
  unfold countFeats
  exact Nat.le_trans List.countP_le_length (by simp)

theorem countFeats_lt {d : Nat} {p q : Nat → Bool} (h : ∀ i < d, p i = true → q i = true)
    (hx : ∃ i < d, q i = true ∧ p i = false) : countFeats d p < countFeats d q := by
  unfold countFeats
  apply countP_lt
  · intro i hi; exact h i (List.mem_range.1 hi)
  · obtain ⟨i, hi, hh⟩ := hx
    exact ⟨i, List.mem_range.2 hi, hh⟩

/-- Strictly more defined instances have fewer undefined features. -/
theorem numBot_lt {d : Nat} {e f : PInst} (h : Subsumes d e f) (hn : ¬ Subsumes d f e) : numBot d f < numBot d e := by
  obtain ⟨i, hi⟩ := Classical.not_forall.1 hn
  obtain ⟨hid, hi⟩ := Classical.not_imp.1 hi
  apply countFeats_lt
  · intro j hj hb
    cases he : e j with
    | none => rfl
    | some b =>
      have := h j hj (by simp [he])
      rw [← this, he] at hb
      simp at hb
  · refine ⟨i, hid, ?_⟩
    cases hf : f i with
    | none => exact absurd (by simp [hf]) hi
    | some b =>
      refine ⟨?_, rfl⟩
      cases he : e i with
      | none => rfl
      | some c =>
        have := h i hid (by simp [he])
        exact absurd (fun _ => this.symm) hi

end Goexpdt

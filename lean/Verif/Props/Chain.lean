import Verif.Lemmas.Guided
import Verif.Lemmas.Level
import Verif.Props.Compute
import Verif.Props.Tidy
/-
C59, C60: how many calls of the solver `ComputeOptim` makes in the worst case.
-/
namespace Goexpdt.Props
open Goexpdt Spec

variable {S : Type} {sv : Solver S} {d : Nat} {nodes : List Node} {T : DTree} {depth : QVar → Nat} {names : List QVar}
  {v : QVar} {fg : QVar → Comp} {og : QVar → QConst → Comp} {F : PInst → Prop} {R : PInst → PInst → Prop} {st : S} {s : Ctx}

/-! ### C59 -/

/-- C59: if no sequence of better and better instances is longer than `L`, then `ComputeOptim` ends, whatever
solutions the solver finds, with at most `L + 1` calls. -/
theorem C59_at_most (hc : Correct sv) (hr : Reliable sv) (h : Poses d nodes v fg og F R names) (hs : Ready d nodes names s)
    {L : Nat} (hL : ∀ ch, Improving d F R ch → ch.length ≤ L) {fuel : Nat} (hfuel : L ≤ fuel) :
    ∃ o st' s', computeOptim sv fg og v true fuel st s = (.ok o, st', s') ∧ o.calls ≤ L + 1 := by
  unfold computeOptim
  simp only [Bool.not_true, Bool.false_eq_true, if_false]
  rcases asks_step (st := st) hc h.first hs with ⟨st1, s1, b, e, hH, hF⟩ | ⟨st1, s1, e, hu⟩ | ⟨err, st1, s1, e, hn⟩
  · rw [e]
    obtain ⟨o, st', s', h1, h2⟩ := optimLoop_chain hc hr h hL fuel [] 1 st1 s1 b hH (Improving.single hH.1 hF) (by simp; omega)
    exact ⟨o, st', s', h1, by simp at h2; omega⟩
  · rw [e]
    exact ⟨_, st1, s1, rfl, by simp⟩
  · exact absurd hr hn

/-- C59: for every sequence of better and better instances there is a solver that never gives a wrong answer and
never fails, with which `ComputeOptim` makes at least one call more than the length of the sequence, or does not end. -/
theorem C59_at_least (h : Poses d nodes v fg og F R names) (hs : Ready d nodes names s) {ch : List (List FeatV)}
    (hch : Improving d F R ch) :
    ∃ (sv : Solver (Nat × Val)) (st : Nat × Val), Correct sv ∧ Reliable sv ∧ Counts sv Prod.fst ∧ ∀ fuel,
      (computeOptim sv fg og v true fuel st s).1 = .error .diverge ∨
      ∃ o st' s', computeOptim sv fg og v true fuel st s = (.ok o, st', s') ∧ ch.length + 1 ≤ o.calls := by
  refine ⟨guided d v (ch.getD · []), (0, fun _ => false), guided_correct, guided_reliable, guided_counts, fun fuel => ?_⟩
  unfold computeOptim
  simp only [Bool.not_true, Bool.false_eq_true, if_false]
  cases ch with
  | nil =>
    rcases asks_step (st := (0, fun _ => false)) guided_correct h.first hs with ⟨st1, s1, b, e, hH, hF⟩ | ⟨st1, s1, e, hu⟩ | ⟨err, st1, s1, e, hn⟩
    · rw [e]
      rcases guided_loop_more h fuel 1 st1 s1 b hH hF with h1 | ⟨o, st', s', h1, h2⟩
      · exact .inl h1
      · exact .inr ⟨o, st', s', h1, by simp; omega⟩
    · rw [e]
      exact .inr ⟨_, st1, s1, rfl, by simp⟩
    · exact absurd guided_reliable hn
  | cons b ch =>
    obtain ⟨hg, hF⟩ := hch.good b (by simp)
    obtain ⟨st1, s1, e, hc1, hH⟩ := guided_follows (st := (0, fun _ => false)) (plan := ((b :: ch).getD · [])) h.first hs rfl hg hF
    rw [e]
    rcases guided_loop h hch ch.length fuel 1 st1 s1 b hH hF (by simp [hc1]) (by omega) (by simp [hc1]; omega) with h1 | ⟨o, st', s', h1, h2⟩
    · exact .inl h1
    · exact .inr ⟨o, st', s', h1, by simp; omega⟩

/-- C59: if the longest sequence of better and better instances has length `L`, then `L + 1` is the number of calls
in the worst case: no solver that never gives a wrong answer and never fails needs more, and some solver needs as many. -/
theorem C59_worst_case (h : Poses d nodes v fg og F R names) (hs : Ready d nodes names s) {L : Nat}
    (hL : ∀ ch, Improving d F R ch → ch.length ≤ L) (hex : ∃ ch, Improving d F R ch ∧ ch.length = L) :
    (∀ (S : Type) (sv : Solver S) (st : S) (fuel : Nat), Correct sv → Reliable sv → L ≤ fuel →
      ∃ o st' s', computeOptim sv fg og v true fuel st s = (.ok o, st', s') ∧ o.calls ≤ L + 1) ∧
    ∃ (sv : Solver (Nat × Val)) (st : Nat × Val), Correct sv ∧ Reliable sv ∧ Counts sv Prod.fst ∧ ∀ fuel, L ≤ fuel →
      ∃ o st' s', computeOptim sv fg og v true fuel st s = (.ok o, st', s') ∧ o.calls = L + 1 ∧ st'.1 = st.1 + (L + 1) := by
  refine ⟨fun S sv st fuel hc hr hf => C59_at_most hc hr h hs hL hf, ?_⟩
  obtain ⟨ch, hch, rfl⟩ := hex
  obtain ⟨sv, st, hc, hr, hC, hlow⟩ := C59_at_least h hs hch
  refine ⟨sv, st, hc, hr, hC, fun fuel hf => ?_⟩
  obtain ⟨o, st', s', e, hup⟩ := C59_at_most (st := st) hc hr h hs hL hf
  refine ⟨o, st', s', e, ?_⟩
  have : o.calls = ch.length + 1 := by
    rcases hlow fuel with h1 | ⟨o', st1, s1, h1, h2⟩
    · rw [e] at h1; simp at h1
    · rw [e] at h1
      simp only [Prod.mk.injEq, Except.ok.injEq] at h1
      obtain ⟨rfl, -, -⟩ := h1
      omega
  exact ⟨this, by rw [C50_calls hC e, this]⟩

/-! ### orders -/

/-- A formula that every instance satisfies: the empty instance subsumes `v`. -/
def anything (d : Nat) (v : QVar) : Query := .atom (.subs (.const { val := List.replicate d BOT }) (.var v))

theorem about_anything {e : PInst} : (anything d v).about d T v e := by
  simp [anything, Query.about, Query.fo, Atom.says, Term.val, upd, Subsumes, den_replicate, bot]

theorem replicate_good (d : Nat) {k : FeatV} (hk : k = BOT ∨ k = ZERO ∨ k = ONE) : GoodVals d (List.replicate d k) := by
  refine ⟨by simp, ?_⟩
  intro w hw
  rw [List.eq_of_mem_replicate hw]
  exact hk

/-- The first `n` of `d` features are defined. -/
def firstOnes (d n : Nat) : List FeatV := List.replicate n ONE ++ List.replicate (d - n) BOT

theorem firstOnes_good {n : Nat} (hn : n ≤ d) : GoodVals d (firstOnes d n) := by
  refine ⟨by simp [firstOnes]; omega, ?_⟩
  intro w hw
  rcases List.mem_append.1 hw with h | h <;> rw [List.eq_of_mem_replicate h] <;> decide

theorem den_firstOnes {n i : Nat} (hi : i < d) : den (firstOnes d n) i = if i < n then some true else none := by
  have h : (firstOnes d n)[i]? = some (if i < n then ONE else BOT) := by
    unfold firstOnes
    by_cases h : i < n
    · rw [List.getElem?_append_left (by simpa using h), List.getElem?_replicate, if_pos h, if_pos h]
    · rw [List.getElem?_append_right (by simpa using h), List.getElem?_replicate, if_neg h, List.length_replicate, if_pos (by omega)]
  unfold den
  rw [h]
  by_cases h : i < n <;> simp [h, featDen, ONE, ZERO, BOT]

/-- Concrete case of C59: minimal instances of a formula that all instances satisfy. In the worst case the solver is
called exactly `d + 2` times (with `C48_subsumption`: never more often, for any formula). -/
theorem C59_subsumption (hd : 0 < d) :
    ∃ (sv : Solver (Nat × Val)) (st : Nat × Val), Correct sv ∧ Reliable sv ∧ ∀ fuel, d < fuel →
      ∃ o st' s', computeOptim sv (fun _ => (anything d ['x']).comp) (fun _ k => (strictSubs ['x'] k).comp) ['x'] true fuel st
        (BasicQContext d nodes) = (.ok o, st', s') ∧ o.calls = d + 2 := by
  have hg : (Query.withVar ['x'] (anything d ['x'])).Good d nodes (.leaf 0 false) (fun _ => 0) :=
    ⟨hd, ⟨rfl, subs_fits (replicate_good d (.inl rfl)) (.inr ⟨rfl, rfl⟩)⟩, by intro u hu; simp [Query.uses, anything, Atom.uses] at hu⟩
  have hp : (Query.withVar ['x'] (anything d ['x'])).Plain :=
    ⟨trivial, by simp [Query.binders, anything], by simp [Query.binders, anything]; decide, trivial⟩
  have hO := optimises_subs hg hp
  have hready := Ready.fresh_ctx d nodes ((Query.withVar ['x'] (anything d ['x'])).names d (.leaf 0 false) [])
  have hL : ∀ ch, Improving d ((anything d ['x']).about d (.leaf 0 false) ['x'])
      (fun e p => (strictSubs ['x'] { val := valsOf d p }).about d (.leaf 0 false) ['x'] e) ch → ch.length ≤ d + 1 := by
    intro ch hch
    -- the number of undefined features grows
    have key : ∀ i b, ch[i]? = some b → i ≤ numBot d (den b) := by
      intro i
      induction i with
      | zero => intro _ _; omega
      | succ i ih =>
        intro b hb
        obtain ⟨hi, -⟩ := List.getElem?_eq_some_iff.1 hb
        obtain ⟨a, ha⟩ : ∃ a, ch[i]? = some a := ⟨_, List.getElem?_eq_getElem (by omega)⟩
        have h1 := ih a ha
        have h2 := hch.linked i a b ha hb
        rw [valsOf_den (hch.good a (List.mem_of_getElem? ha)).1, about_strictSubs] at h2
        have := numBot_lt h2.1 h2.2
        omega
    cases hl : ch.length with
    | zero => omega
    | succ n =>
      have hlt : n < ch.length := by omega
      have := key n ch[n] (List.getElem?_eq_getElem hlt)
      have h2 : numBot d (den ch[n]) ≤ d := countFeats_le' _ _
      omega
  have hex : ∃ ch, Improving d ((anything d ['x']).about d (.leaf 0 false) ['x'])
      (fun e p => (strictSubs ['x'] { val := valsOf d p }).about d (.leaf 0 false) ['x'] e) ch ∧ ch.length = d + 1 := by
    refine ⟨(List.range (d + 1)).map fun i => firstOnes d (d - i), ⟨?_, ?_⟩, by simp⟩
    · intro b hb
      obtain ⟨i, hi, rfl⟩ := List.mem_map.1 hb
      exact ⟨firstOnes_good (by omega), about_anything⟩
    · intro i a b ha hb
      rw [List.getElem?_map] at ha hb
      obtain ⟨i1, h1, rfl⟩ := Option.map_eq_some_iff.1 ha
      obtain ⟨i2, h2, rfl⟩ := Option.map_eq_some_iff.1 hb
      obtain ⟨h3, rfl⟩ := List.getElem?_eq_some_iff.1 h1
      obtain ⟨h4, rfl⟩ := List.getElem?_eq_some_iff.1 h2
      simp only [List.length_range, List.getElem_range] at h3 h4 ⊢
      rw [valsOf_den (firstOnes_good (by omega)), about_strictSubs]
      constructor
      · intro j hj hn
        rw [den_firstOnes hj] at hn ⊢
        rw [den_firstOnes hj]
        split at hn
        · rw [if_pos (by omega), if_pos (by omega)]
        · simp at hn
      · intro hS
        have := hS (d - (i + 1)) (by omega) (by rw [den_firstOnes (by omega)]; simp; omega)
        rw [den_firstOnes (by omega), den_firstOnes (by omega), if_pos (by omega), if_neg (by omega)] at this
        cases this
  obtain ⟨-, sv, st, hc, hr, -, hh⟩ := C59_worst_case hO.poses hready hL hex
  refine ⟨sv, st, hc, hr, fun fuel hf => ?_⟩
  obtain ⟨o, st', s', e, h1, -⟩ := hh fuel (by omega)
  exact ⟨o, st', s', e, by omega⟩

/-! ### C60 -/

/-- The strict order by preferences: at the first of the features `p` that one of `v` and `k` defines and the other
does not, it is `v` that defines it. -/
def strictHepr (p : List Int) (v : QVar) (k : QConst) : Query :=
  .and (.atom (.hepr (.var v) (.const k) p (some VarGenFeaturePreference)))
    (.not (.atom (.hepr (.const k) (.var v) p (some VarGenFeaturePreference))))

theorem about_strictHepr {p : List Int} {b : List FeatV} {e : PInst} :
    (strictHepr p v { val := b }).about d T v e ↔ level (p.map Int.toNat) (den b) < level (p.map Int.toNat) e := by
  simp only [strictHepr, Query.about, Query.fo, Atom.says, Term.val, upd, Option.getD_none, if_true, HEPR_level]
  omega

/-- The conditions on a formula and a preference order, all of them syntactic (see C54). -/
structure PrefersIn (d : Nat) (depth : QVar → Nat) (v : QVar) (f : Query) (p : List Int) : Prop where
  tidy : (Query.withVar v f).Tidy testTags
  separate : f.Separate testTags
  inScope : (Query.withVar v f).Scoped d depth [] []
  plain : (Query.withVar v f).Plain
  range : ∀ i ∈ p, 0 ≤ i ∧ i < d
  nodup : p.Nodup
  nonempty : p ≠ []
  names : ∀ p' ∈ f.atoms.flatMap Atom.prefs, prefVar p' = prefVar p → p' = p

theorem optimises_hepr {f : Query} {p : List Int} (hd : 0 < d) (hT : IsTree d nodes T) (hC : Covers nodes T)
    (h : PrefersIn d depth v f p) : Optimises d nodes T depth v f (strictHepr p v) := by
  obtain ⟨hok, -, -, -, hgen, -, -⟩ := C54_test_generators
  have hsep : (Query.withVar v f).Separate testTags := ⟨by simpa [Query.atoms] using h.separate.prefs, by simpa [Query.atoms] using h.separate.reach⟩
  refine ⟨query_good hd hT hC hok h.tidy hsep h.inScope, h.plain, fun b hb => query_good hd hT hC hok ?_ ?_ ?_, fun b _ => ?_⟩
  · exact ⟨h.tidy.1, h.tidy.2, congrArg some hgen, congrArg some hgen⟩
  · refine ⟨?_, ?_⟩
    · intro p1 h1 p2 h2 he
      simp only [Query.atoms, strictHepr, List.flatMap_append, List.flatMap_cons, List.flatMap_nil, Atom.prefs, List.mem_append,
        List.mem_singleton, List.append_nil, or_self] at h1 h2
      rcases h1 with h1 | rfl <;> rcases h2 with h2 | rfl
      · exact h.separate.prefs p1 h1 p2 h2 he
      · exact h.names p1 h1 he
      · exact (h.names p2 h2 he.symm).symm
      · rfl
    · simpa [Query.atoms, strictHepr, Atom.isNodeVar, Atom.isCompVar] using h.separate.reach
  · refine ⟨h.inScope.1, h.inScope.2, ?_, ?_⟩
    all_goals
      exact ⟨by simp [Atom.vars, Term.vars], by simpa [Spec.Atom.consts, Spec.Term.consts] using hb, ⟨h.range, h.nodup⟩, h.nonempty, trivial,
        trivial⟩
  · exact ⟨⟨h.plain.positive, trivial, rfl⟩, by simpa [Query.binders, strictHepr] using h.plain.distinct,
      by simpa [Query.binders, strictHepr] using h.plain.names, h.plain.guards, trivial, trivial⟩

/-- C60 for preference orders: at most `2 ^ n + 1` calls, for a preference order with `n` features. -/
theorem C60_hepr (hc : Correct sv) (hr : Reliable sv) (hd : 0 < d) (hT : IsTree d nodes T) (hC : Covers nodes T) {f : Query}
    {p : List Int} (h : PrefersIn d depth v f p) (hs : Ready d nodes ((Query.withVar v f).names d T []) s) {fuel : Nat}
    (hfuel : 2 ^ p.length ≤ fuel) :
    ∃ o st' s', computeOptim sv (fun _ => f.comp) (fun _ k => (strictHepr p v k).comp) v true fuel st s = (.ok o, st', s') ∧
      o.calls ≤ 2 ^ p.length + 1 := by
  have hpos : 0 < 2 ^ p.length := Nat.pow_pos (by omega)
  have hlt : ∀ e, level (p.map Int.toNat) e < 2 ^ p.length := fun e => by simpa using level_lt (p.map Int.toNat) e
  obtain ⟨o, st', s', h1, h2⟩ := C48_rank (st := st) hc hr (optimises_hepr hd hT hC h).poses hs
    (fun b => 2 ^ p.length - 1 - level (p.map Int.toNat) (den b)) (2 ^ p.length - 1) (fun _ _ _ => by omega)
    (fun b b' hb hb' _ _ hR => by
      rw [about_strictHepr, valsOf_den hb] at hR
      have := hlt (den b')
      omega) (fuel := fuel) (by omega)
  exact ⟨o, st', s', h1, by omega⟩

/-- All features, in order. -/
def allFeatures (d : Nat) : List Int := (List.range d).map Int.ofNat

theorem allFeatures_toNat (d : Nat) : (allFeatures d).map Int.toNat = List.range d := by
  unfold allFeatures
  rw [List.map_map]
  conv => rhs; rw [← List.map_id (List.range d)]
  exact List.map_congr_left fun i _ => rfl

theorem anything_prefers (hd : 0 < d) : PrefersIn d (fun _ => 0) ['x'] (anything d ['x']) (allFeatures d) where
  tidy := ⟨⟨by decide, 'x', [], rfl, by decide⟩, trivial⟩
  separate := ⟨by simp [anything, Query.atoms, Atom.prefs], by simp [anything, Query.atoms, Atom.isNodeVar, Atom.isCompVar]⟩
  inScope := ⟨rfl, by simp [Atom.vars, Term.vars],
    by simpa [Spec.Atom.consts, Spec.Term.consts] using replicate_good d (.inl rfl), trivial, trivial, trivial, trivial⟩
  plain := ⟨trivial, by simp [Query.binders, anything], by simp [Query.binders, anything]; decide, trivial⟩
  range := by
    intro i hi
    obtain ⟨n, hn, rfl⟩ := List.mem_map.1 hi
    have := List.mem_range.1 hn
    simp only [Int.ofNat_eq_natCast]
    omega
  nodup := List.Pairwise.map _ (fun a b h => by simpa [Int.ofNat_inj] using h) List.nodup_range
  nonempty := by simp [allFeatures]; omega
  names := by simp [anything, Query.atoms, Atom.prefs]

/-- C60 fails for preference orders: the formula and the order have no guarded universal quantifier and the order is
strict, but in the worst case the solver is called `2 ^ d + 1` times. -/
theorem C60_exponential (hd : 0 < d) (hT : IsTree d nodes T) (hC : Covers nodes T) :
    (anything d ['x']).noForall = true ∧ (∀ k, (strictHepr (allFeatures d) ['x'] k).noForall = true) ∧
    StrictOn ((anything d ['x']).about d T ['x'])
      (fun e p => (strictHepr (allFeatures d) ['x'] { val := valsOf d p }).about d T ['x'] e) d ∧
    ∃ (sv : Solver (Nat × Val)) (st : Nat × Val), Correct sv ∧ Reliable sv ∧ Counts sv Prod.fst ∧ ∀ fuel, 2 ^ d ≤ fuel →
      ∃ o st' s', computeOptim sv (fun _ => (anything d ['x']).comp) (fun _ k => (strictHepr (allFeatures d) ['x'] k).comp) ['x']
        true fuel st (BasicQContext d nodes) = (.ok o, st', s') ∧ o.calls = 2 ^ d + 1 ∧ st'.1 = st.1 + (2 ^ d + 1) := by
  have hready := Ready.fresh_ctx d nodes ((Query.withVar ['x'] (anything d ['x'])).names d T [])
  have hO := optimises_hepr hd hT hC (anything_prefers hd)
  have hR : ∀ a b, GoodVals d b → ((strictHepr (allFeatures d) ['x'] { val := valsOf d (den b) }).about d T ['x'] (den a) ↔
      level (List.range d) (den b) < level (List.range d) (den a)) := by
    intro a b hb
    rw [valsOf_den hb, about_strictHepr, allFeatures_toNat]
  refine ⟨rfl, fun _ => rfl, ⟨?_, ?_⟩, (C59_worst_case hO.poses hready ?_ ⟨binary d, ⟨?_, ?_⟩, length_binary d⟩).2⟩
  · intro b hb _
    rw [hR b b hb]; omega
  · intro a b c ha hb hc _ _ _
    rw [hR a b hb, hR b c hc, hR a c hc]; omega
  · intro ch hch
    have key : ∀ i b, ch[i]? = some b → i ≤ level (List.range d) (den b) := by
      intro i
      induction i with
      | zero => intro _ _; omega
      | succ i ih =>
        intro b hb
        obtain ⟨hi, -⟩ := List.getElem?_eq_some_iff.1 hb
        obtain ⟨a, ha⟩ : ∃ a, ch[i]? = some a := ⟨_, List.getElem?_eq_getElem (by omega)⟩
        have h1 := ih a ha
        have h2 := hch.linked i a b ha hb
        rw [hR b a (hch.good a (List.mem_of_getElem? ha)).1] at h2
        omega
    cases hl : ch.length with
    | zero => exact Nat.zero_le _
    | succ n =>
      have hlt : n < ch.length := by omega
      have h1 := key n ch[n] (List.getElem?_eq_getElem hlt)
      have h2 := level_lt (List.range d) (den ch[n])
      rw [List.length_range] at h2
      omega
  · exact fun b hb => ⟨binary_good hb, about_anything⟩
  · intro i a b ha hb
    rw [hR b a (binary_good (List.mem_of_getElem? ha)), level_binary d i a ha, level_binary d _ b hb]
    omega

/-- A model with one leaf. -/
def oneLeaf : List Node := [{ zChild := -1, oChild := -1 }]

theorem oneLeaf_tree : IsTree d oneLeaf (.leaf 0 false) := by
  refine ⟨?_, rfl, by decide, by simp [DTree.feats], ?_⟩
  · simp [oneLeaf, LaysOut, Node.childless]
  · simp [DTree.ReadOnce]

theorem oneLeaf_covers : Covers oneLeaf (.leaf 0 false) := by
  unfold Covers; decide

/-- Concrete case of C60 for preference orders: three features in the order 0, 1, 2, at most nine calls. -/
example (hc : Correct sv) (hr : Reliable sv) :
    ∃ o st' s', computeOptim sv (fun _ => (anything 3 ['x']).comp) (fun _ k => (strictHepr [0, 1, 2] ['x'] k).comp) ['x'] true 8 st
      (BasicQContext 3 oneLeaf) = (.ok o, st', s') ∧ o.calls ≤ 9 :=
  C60_hepr hc hr (by omega) oneLeaf_tree oneLeaf_covers (anything_prefers (by omega)) (Ready.fresh_ctx 3 oneLeaf _)
    (p := [0, 1, 2]) (Nat.le_refl 8)

/-- C60 fails: no polynomial bounds the number of calls. -/
theorem C60_not_polynomial (k : Nat) : ∃ (d : Nat) (nodes : List Node) (f : Query) (ord : QConst → Query) (sv : Solver (Nat × Val))
    (st : Nat × Val) (fuel : Nat) (o : OptOutput) (st' : Nat × Val) (s' : Ctx), f.noForall = true ∧ (∀ k, (ord k).noForall = true) ∧
    StrictOn (f.about d (.leaf 0 false) ['x']) (fun e p => (ord { val := valsOf d p }).about d (.leaf 0 false) ['x'] e) d ∧
    Correct sv ∧ Reliable sv ∧
    computeOptim sv (fun _ => f.comp) (fun _ k => (ord k).comp) ['x'] true fuel st (BasicQContext d nodes) = (.ok o, st', s') ∧
    d ^ k + k < o.calls := by
  obtain ⟨d, hd, hlt⟩ := pow_lt_two_pow k
  obtain ⟨h1, h2, h3, sv, st, hc, hr, -, hh⟩ := C60_exponential (d := d) (nodes := oneLeaf) (T := .leaf 0 false) hd oneLeaf_tree oneLeaf_covers
  obtain ⟨o, st', s', e, hcalls, -⟩ := hh (2 ^ d) (Nat.le_refl _)
  exact ⟨d, oneLeaf, _, _, sv, st, 2 ^ d, o, st', s', h1, h2, h3, hc, hr, e, by omega⟩

end Goexpdt.Props

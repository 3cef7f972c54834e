import Verif.Props.Chain
/-
C67: when `ComputeOptim` ends.
-/
namespace Goexpdt.Props
open Goexpdt Spec

variable {S : Type} {sv : Solver S} {st : S} {d : Nat} {nodes : List Node} {T : DTree} {depth : QVar → Nat} {names : List QVar}
  {v : QVar} {fg : QVar → Comp} {og : QVar → QConst → Comp} {F : PInst → Prop} {R : PInst → PInst → Prop} {s : Ctx}

/-- C67: if no sequence of better and better instances comes back to an instance, then `ComputeOptim` ends, whatever solutions the solver
finds, with at most `3 ^ dim + 1` calls. The order need not be transitive. -/
theorem C67_ends (hc : Correct sv) (hr : Reliable sv) (h : Poses d nodes v fg og F R names) (hs : Ready d nodes names s)
    (hR : ∀ ch, Improving d F R ch → ch.Nodup) {fuel : Nat} (hfuel : 3 ^ d ≤ fuel) :
    ∃ o st' s', computeOptim sv fg og v true fuel st s = (.ok o, st', s') ∧ o.calls ≤ 3 ^ d + 1 := by
  refine C59_at_most hc hr h hs (fun ch hch => ?_) hfuel
  rw [← length_allVals]
  exact (hR ch hch).length_le_of_subset fun b hb => mem_allVals (hch.good b hb).1

theorem succ_mod (k : Nat) {p : Nat} (hp : 0 < p) : (k + 1) % p = if k % p + 1 = p then 0 else k % p + 1 := by
  have h1 := Nat.mod_add_div k p
  have h2 := Nat.mod_lt k hp
  split
  · next h =>
    rw [show k + 1 = p * (k / p + 1) by rw [Nat.mul_add]; omega]
    exact Nat.mul_mod_right _ _
  · rw [show k + 1 = (k % p + 1) + p * (k / p) by omega, Nat.add_mul_mod_self_left]
    exact Nat.mod_eq_of_lt (by omega)

/-- C67: if some sequence comes back, then with some solver that never gives a wrong answer and never fails, `ComputeOptim` runs forever. -/
theorem C67_forever (h : Poses d nodes v fg og F R names) (hs : Ready d nodes names s) {ch : List (List FeatV)} (hch : Improving d F R ch)
    (hn : ¬ ch.Nodup) : ∃ (sv : Solver (Nat × Val)) (st : Nat × Val), Correct sv ∧ Reliable sv ∧
      ∀ fuel, (computeOptim sv fg og v true fuel st s).1 = .error .diverge := by
  obtain ⟨i, j, hij, hj, he⟩ : ∃ i j, i < j ∧ j < ch.length ∧ ch.getD i [] = ch.getD j [] := by
    refine Classical.byContradiction fun hc => hn (List.pairwise_iff_getElem.2 fun i j hi hj hij he => hc ⟨i, j, hij, hj, ?_⟩)
    simp [List.getD_eq_getElem?_getD, hi, hj, he]
  have hget : ∀ k, k < ch.length → ch[k]? = some (ch.getD k []) := fun k hk => by simp [List.getD_eq_getElem?_getD, hk]
  have hmod : ∀ k, i + k % (j - i) < j := fun k => by have := Nat.mod_lt k (y := j - i) (by omega); omega
  let plan : Nat → List FeatV := fun k => ch.getD (i + k % (j - i)) []
  have hg : ∀ k, GoodVals d (plan k) ∧ F (den (plan k)) := fun k =>
    hch.good _ (List.mem_of_getElem? (hget _ (Nat.lt_trans (hmod k) hj)))
  have hR : ∀ k, R (den (plan (k + 1))) (den (plan k)) := by
    intro k
    have hk := hmod k
    refine hch.linked (i + k % (j - i)) _ _ (hget _ (by omega)) ?_
    rw [hget _ (by omega)]
    show some (ch.getD (i + k % (j - i) + 1) []) = some (ch.getD (i + (k + 1) % (j - i)) [])
    rw [succ_mod k (by omega)]
    split
    · rw [show i + k % (j - i) + 1 = j by omega, ← he]
      rfl
    · rfl
  refine ⟨guided d v plan, (0, fun _ => false), guided_correct, guided_reliable, fun fuel => ?_⟩
  unfold computeOptim
  simp only [Bool.not_true, Bool.false_eq_true, if_false]
  obtain ⟨st1, s1, e, hc1, hH⟩ := guided_follows (st := (0, fun _ => false)) (plan := plan) h.first hs rfl (hg 0).1 (hg 0).2
  rw [e]
  exact guided_forever h hg hR fuel 1 0 st1 s1 hH (by simp [hc1])

/-- C67: `ComputeOptim` ends with every solver that never gives a wrong answer and never fails, whatever solutions it finds, exactly if no
sequence of better and better instances comes back to an instance. -/
theorem C67_ends_iff (h : Poses d nodes v fg og F R names) (hs : Ready d nodes names s) :
    (∀ (S : Type) (sv : Solver S) (st : S), Correct sv → Reliable sv → ∃ fuel, (computeOptim sv fg og v true fuel st s).1 ≠ .error .diverge) ↔
    ∀ ch, Improving d F R ch → ch.Nodup := by
  refine ⟨fun hall ch hch => Classical.byContradiction fun hn => ?_, fun hR S sv st hc hr => ?_⟩
  · obtain ⟨sv, st, hc, hr, hd⟩ := C67_forever h hs hch hn
    obtain ⟨fuel, hf⟩ := hall _ sv st hc hr
    exact hf (hd fuel)
  · obtain ⟨o, st', s', e, -⟩ := C67_ends (st := st) hc hr h hs hR (Nat.le_refl _)
    exact ⟨3 ^ d, by rw [e]; simp⟩

/-- C67: it ends with some such solver exactly if no instance satisfies the formula, or there is one that none is better than. -/
theorem C67_may_end_iff (h : Poses d nodes v fg og F R names) (hs : Ready d nodes names s) :
    (∃ (S : Type) (sv : Solver S) (st : S) (fuel : Nat), Correct sv ∧ Reliable sv ∧ (computeOptim sv fg og v true fuel st s).1 ≠ .error .diverge) ↔
    (∀ e, ¬ F e) ∨ ∃ b, GoodVals d b ∧ F (den b) ∧ ∀ e, F e → ¬ R e (den b) := by
  constructor
  · rintro ⟨S, sv, st, fuel, hc, hr, hne⟩
    refine Classical.byContradiction fun hn => hne (C49_no_minimum hc hr h hs (fun b hb hF => ?_) ?_ fuel)
    · refine Classical.byContradiction fun hm => hn (.inr ⟨b, hb, hF, fun e he hR => hm ⟨e, he, hR⟩⟩)
    · exact Classical.byContradiction fun hm => hn (.inl fun e he => hm ⟨e, he⟩)
  · intro hmin
    rcases hmin with hno | ⟨b, hb, hF, hm⟩
    · refine ⟨Nat × Val, guided d v fun _ => [], (0, fun _ => false), 0, guided_correct, guided_reliable, ?_⟩
      unfold computeOptim
      simp only [Bool.not_true, Bool.false_eq_true, if_false]
      rcases asks_step (st := (0, fun _ => false)) guided_correct h.first hs with ⟨st1, s1, b, e, hH, hF⟩ | ⟨st1, s1, e, hu⟩ | ⟨err, st1, s1, e, hn⟩
      · exact absurd hF (hno _)
      · rw [e]; simp
      · exact absurd guided_reliable hn
    · refine ⟨Nat × Val, guided d v fun _ => b, (0, fun _ => false), 1, guided_correct, guided_reliable, ?_⟩
      unfold computeOptim
      simp only [Bool.not_true, Bool.false_eq_true, if_false]
      obtain ⟨st1, s1, e, hc1, hH⟩ := guided_follows (st := (0, fun _ => false)) (plan := fun _ => b) h.first hs rfl hb hF
      rw [e]
      simp only
      rcases optim_round guided_correct h hH 0 1 with ⟨st1, s1, e, -, -⟩ | ⟨st1, s1, b1, e, hH, hF1, hR, -⟩ | ⟨err, st1, s1, e, hn⟩
      · rw [e]; simp
      · exact absurd hR (hm _ hF1)
      · exact absurd guided_reliable hn

/-- The order "k does not subsume v", which is not transitive. -/
theorem notSubs_optimises : Optimises 1 [] exTree (fun _ => 0) ['x'] (anything 1 ['x']) (fun k => .not (.atom (.subs (.const k) (.var ['x'])))) := by
  have hg : (Query.withVar ['x'] (anything 1 ['x'])).Good 1 [] exTree (fun _ => 0) :=
    ⟨by omega, ⟨rfl, subs_fits (replicate_good 1 (.inl rfl)) (.inr ⟨rfl, rfl⟩)⟩, by intro u hu; simp [Query.uses, anything, Atom.uses] at hu⟩
  have hp : (Query.withVar ['x'] (anything 1 ['x'])).Plain :=
    ⟨trivial, by simp [Query.binders, anything], by simp [Query.binders, anything]; decide, trivial⟩
  refine ⟨hg, hp, fun b hb => ⟨by omega, ⟨rfl, hg.fits.2, subs_fits hb (.inr ⟨rfl, rfl⟩)⟩, ?_⟩,
    fun b hb => ⟨⟨hp.positive, rfl⟩, by simpa [Query.binders] using hp.distinct,
      by simpa [Query.binders] using hp.names, hp.guards, trivial⟩⟩
  intro u hu
  simp [Query.uses, anything, Atom.uses] at hu

/-- Concrete case of C67. With this order the choice of the solver matters: (1), (0), (1), … never ends, but (_) is better than nothing else. -/
example : (∃ (sv : Solver (Nat × Val)) (st : Nat × Val), Correct sv ∧ Reliable sv ∧ ∀ fuel,
      (computeOptim sv (fun _ => (anything 1 ['x']).comp) (fun _ k => (Query.not (.atom (.subs (.const k) (.var ['x'])))).comp) ['x'] true fuel st
        (BasicQContext 1 [])).1 = .error .diverge) ∧
    ∃ (S : Type) (sv : Solver S) (st : S) (fuel : Nat), Correct sv ∧ Reliable sv ∧
      (computeOptim sv (fun _ => (anything 1 ['x']).comp) (fun _ k => (Query.not (.atom (.subs (.const k) (.var ['x'])))).comp) ['x'] true fuel st
        (BasicQContext 1 [])).1 ≠ .error .diverge := by
  have hR : ∀ e p, (Query.not (.atom (.subs (.const { val := valsOf 1 p }) (.var ['x'])))).about 1 exTree ['x'] e ↔ ¬ Subsumes 1 p e := by
    intro e p
    have h0 := den_valsOf 1 p 0 (by omega)
    simp only [Query.about, Query.fo, Atom.says, Term.val, upd, Option.getD_none, if_true, Subsumes]
    have hi : ∀ i, i < 1 ↔ i = 0 := by omega
    simp only [hi, forall_eq, h0]
  refine ⟨C67_forever notSubs_optimises.poses (Ready.fresh_ctx _ _ _) (ch := [[ONE], [ZERO], [ONE]]) ⟨?_, ?_⟩ (by decide),
    (C67_may_end_iff notSubs_optimises.poses (Ready.fresh_ctx _ _ _)).2 (.inr ⟨[BOT], by decide, about_anything, ?_⟩)⟩
  · intro b hb
    refine ⟨?_, about_anything⟩
    simp only [List.mem_cons, List.not_mem_nil, or_false] at hb
    rcases hb with rfl | rfl | rfl <;> decide
  · intro i a b ha hb
    rw [hR]
    match i with
    | 0 => cases ha; cases hb; decide
    | 1 => cases ha; cases hb; decide
    | 2 => cases hb
    | i + 3 => cases ha
  · intro e _ h
    rw [hR] at h
    exact h (by intro i hi hb; have : i = 0 := by omega
                subst this; exact absurd rfl hb)

end Goexpdt.Props

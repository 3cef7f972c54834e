import Verif.Lemmas.OptimOrder
import Verif.Spec.Chain
/- A correct solver that follows a plan: which solutions it finds is up to the plan, where there is a choice. -/
namespace Goexpdt
open Spec

/-- The instance that a valuation gives to a variable. -/
def instOf (s : Ctx) (β : Val) (v : QVar) : PInst := fun i =>
  if symVal s β ⟨v, (i : Nat), ONE⟩ then some true
  else if symVal s β ⟨v, (i : Nat), ZERO⟩ then some false
  else none

theorem instOf_reads {d : Nat} {s : Ctx} {β : Val} {v : QVar} {e : PInst} (h : Reads d s β v e) : Same d (instOf s β v) e := by
  intro i hi
  have h1 := h i hi ONE (by simp [featVals])
  have h0 := h i hi ZERO (by simp [featVals])
  unfold instOf
  rw [h1, h0]
  rcases e i with _ | _ | _ <;> simp [valOf, ONE, ZERO, BOT]

theorem valsOf_same {d : Nat} {e e' : PInst} (h : Same d e e') : valsOf d e = valsOf d e' := by
  unfold valsOf
  apply List.map_congr_left
  intro i hi
  rw [h i (List.mem_range.1 hi)]

open Classical in
/-- A model of the CNF, one with the property if there is one. -/
noncomputable def pick (c : CNF) (Q : Val → Prop) : Option Val :=
  if h : ∃ β, Models β c ∧ Q β then some h.choose
  else if h : ∃ β, Models β c then some h.choose
  else none

theorem pick_models {c : CNF} {Q : Val → Prop} {β : Val} (h : pick c Q = some β) : Models β c := by
  unfold pick at h
  split at h
  · next h' => cases h; exact h'.choose_spec.1
  · split at h
    · next h' => cases h; exact h'.choose_spec
    · cases h

theorem pick_none {c : CNF} {Q : Val → Prop} (h : pick c Q = none) : ¬ Satisfiable c := by
  unfold pick at h
  split at h
  · cases h
  · split at h
    · cases h
    · assumption

theorem pick_prefers {c : CNF} {Q : Val → Prop} (h : ∃ β, Models β c ∧ Q β) : ∃ β, pick c Q = some β ∧ Q β := by
  refine ⟨h.choose, ?_, h.choose_spec.2⟩
  unfold pick
  rw [dif_pos h]

/-- The `k`-th call of `Step` finds a solution in which `v` is the `k`-th instance of the plan, if there is one. -/
noncomputable def guided (d : Nat) (v : QVar) (plan : Nat → List FeatV) : Solver (Nat × Val) where
  values vs st s := (.ok (vs.map fun w => { val := valsOf s.dim (instOf s st.2 w) }), st, s)
  step q st s :=
    match q with
    | none => (.error (.other (.panic "nil pointer dereference")), (st.1 + 1, st.2), s)
    | some act =>
      match act s with
      | (.error e, s') => (.error (.other e), (st.1 + 1, st.2), s')
      | (.ok c, s') =>
        match pick c (fun β => Reads d s' β v (den (plan st.1))) with
        | some β => (.ok (), (st.1 + 1, β), s')
        | none => (.error .unsat, (st.1 + 1, st.2), s')

section
variable {d : Nat} {v : QVar} {plan : Nat → List FeatV}

theorem guided_recalls (st : Nat × Val) (s : Ctx) : Recalls (guided d v plan) st s st.2 := by
  intro vs es h
  refine ⟨st, ?_⟩
  unfold guided
  simp only [Prod.mk.injEq, Except.ok.injEq, and_true]
  apply List.map_congr_left
  intro w hw
  rw [valsOf_same (instOf_reads (h w hw).2)]

theorem guided_step {act : M CNF} {st : Nat × Val} {s s' : Ctx} {c : CNF} (he : act s = (.ok c, s')) :
    (guided d v plan).step (some act) st s =
      match pick c (fun β => Reads d s' β v (den (plan st.1))) with
      | some β => (.ok (), (st.1 + 1, β), s')
      | none => (.error .unsat, (st.1 + 1, st.2), s') := by
  unfold guided
  simp only [he]

theorem guided_correct : Correct (guided d v plan) := by
  intro act st s s' c he _ _
  rw [guided_step he]
  cases hp : pick c (fun β => Reads d s' β v (den (plan st.1))) with
  | some β => exact ⟨rfl, β, pick_models hp, guided_recalls (st.1 + 1, β) s'⟩
  | none => exact ⟨rfl, pick_none hp⟩

theorem guided_reliable : Reliable (guided d v plan) := by
  intro act st s s' c he _ _ e
  rw [guided_step he]
  cases pick c (fun β => Reads d s' β v (den (plan st.1))) <;> simp

theorem guided_counts : Counts (guided d v plan) Prod.fst := by
  refine ⟨fun q st s => ?_, fun _ _ _ => rfl⟩
  unfold guided
  cases q with
  | none => rfl
  | some act =>
    rcases h : act s with ⟨e | c, s'⟩
    · simp only [h]
    · simp only [h]
      cases pick c (fun β => Reads d s' β v (den (plan st.1))) <;> rfl

end

section
variable {d : Nat} {nodes : List Node} {names : List QVar} {v : QVar} {act : M CNF} {F : PInst → Prop}
  {plan : Nat → List FeatV} {st : Nat × Val} {s : Ctx} {b : List FeatV}

/-- The solver finds the planned instance if it satisfies the formula. -/
theorem guided_follows (h : Asks d nodes names v act F) (hs : Ready d nodes names s) (hp : plan st.1 = b)
    (hb : GoodVals d b) (hF : F (den b)) :
    ∃ st' s', (guided d v plan).step (some act) st s = (.ok (), st', s') ∧ st'.1 = st.1 + 1 ∧
      Holds (guided d v plan) d nodes v st' s' b := by
  obtain ⟨hv, P, hD, hPF⟩ := h
  obtain ⟨c, s', e, hw, hf, hr, hn⟩ := hD s hs
  obtain ⟨σ, hσ, hsame⟩ := (hPF _).1 hF
  obtain ⟨β, hβ, hβr⟩ := hf.encode σ hσ
  have hreads : Reads d s' β v (den b) := by
    intro i hi k hk
    rw [← hsame i hi]
    exact hβr v hv i hi k hk
  obtain ⟨γ, h1, h2⟩ := pick_prefers (c := c) (Q := fun β => Reads d s' β v (den (plan st.1)))
    ⟨β, hβ, by rw [hp]; exact hreads⟩
  rw [hp] at h2
  refine ⟨(st.1 + 1, γ), s', ?_, rfl, hb, hr, (st.1 + 1, γ), ?_, fun _ _ => rfl⟩
  · rw [guided_step e, h1]
  · show ((Except.ok [({ val := valsOf s'.dim (instOf s' γ v) } : QConst)] : Except Err (List QConst)), _, _) = _
    rw [hr.dim, valsOf_same (instOf_reads h2), valsOf_den hb]

end

section
variable {d : Nat} {nodes : List Node} {names : List QVar} {v : QVar} {fg : QVar → Comp} {og : QVar → QConst → Comp}
  {F : PInst → Prop} {R : PInst → PInst → Prop} {plan : Nat → List FeatV}

/-- Whatever happens, one more call is made. -/
theorem guided_loop_more (h : Poses d nodes v fg og F R names) (fuel : Nat) : ∀ (steps : Nat)
    (st : Nat × Val) (s : Ctx) (b : List FeatV), Holds (guided d v plan) d nodes v st s b → F (den b) →
    (optimLoop (guided d v plan) fg og v fuel steps st s).1 = .error .diverge ∨
    ∃ o st' s', optimLoop (guided d v plan) fg og v fuel steps st s = (.ok o, st', s') ∧ steps + 1 ≤ o.calls := by
  induction fuel with
  | zero => intro _ _ _ _ _ _; exact .inl rfl
  | succ fuel ih =>
    intro steps st s b hh hF
    rcases optim_round guided_correct h hh fuel steps with ⟨st1, s1, e, -, -⟩ | ⟨st1, s1, b1, e, hH, hF1, -, -⟩ | ⟨err, st1, s1, e, hn⟩
    · exact .inr ⟨_, st1, s1, e, by simp⟩
    · rw [e]
      rcases ih (steps + 1) st1 s1 b1 hH hF1 with h1 | ⟨o, st', s', h1, h2⟩
      · exact .inl h1
      · exact .inr ⟨o, st', s', h1, by omega⟩
    · exact absurd guided_reliable hn

/-- One round of the loop, if the next instance of the plan is better. -/
theorem guided_round (h : Poses d nodes v fg og F R names) (fuel steps : Nat) {st : Nat × Val} {s : Ctx} {b : List FeatV}
    (hh : Holds (guided d v plan) d nodes v st s b) (hg' : GoodVals d (plan st.1)) (hF' : F (den (plan st.1))) (hR : R (den (plan st.1)) (den b)) :
    ∃ st' s', optimLoop (guided d v plan) fg og v (fuel + 1) steps st s = optimLoop (guided d v plan) fg og v fuel (steps + 1) st' s' ∧
      st'.1 = st.1 + 1 ∧ Holds (guided d v plan) d nodes v st' s' (plan st.1) := by
  obtain ⟨hg, hr, st1, hv, hcnt⟩ := hh
  have hst1 : st1 = st := by
    unfold guided at hv
    simp only [Prod.mk.injEq] at hv
    exact hv.2.1.symm
  subst hst1
  obtain ⟨names', hA⟩ := h.next { val := b } hg rfl
  obtain ⟨st2, s2, e, hc2, hH2⟩ := guided_follows (st := st1) (s := s.reset) hA (hr.reset names') rfl hg' ⟨hF', hR⟩
  refine ⟨st2, s2, ?_, hc2, hH2⟩
  rw [optimLoop]
  simp only [hv, e]

/-- The loop follows the plan. -/
theorem guided_loop {ch : List (List FeatV)} (h : Poses d nodes v fg og F R names) (hch : Improving d F R ch) (n : Nat) : ∀ (fuel steps : Nat)
    (st : Nat × Val) (s : Ctx) (b : List FeatV), Holds (guided d v (ch.getD · [])) d nodes v st s b → F (den b) →
    ch[st.1 - 1]? = some b → 1 ≤ st.1 → st.1 + n = ch.length →
    (optimLoop (guided d v (ch.getD · [])) fg og v fuel steps st s).1 = .error .diverge ∨
    ∃ o st' s', optimLoop (guided d v (ch.getD · [])) fg og v fuel steps st s = (.ok o, st', s') ∧ steps + n + 1 ≤ o.calls := by
  induction n with
  | zero =>
    intro fuel steps st s b hh hF _ _ _
    exact guided_loop_more h fuel steps st s b hh hF
  | succ n ih =>
    intro fuel steps st s b hh hF hb h1 hlen
    cases fuel with
    | zero => exact .inl rfl
    | succ fuel =>
      obtain ⟨b', hb'⟩ : ∃ b', ch[st.1]? = some b' := ⟨_, List.getElem?_eq_getElem (by omega)⟩
      have hR := hch.linked (st.1 - 1) b b' hb (by rwa [Nat.sub_add_cancel h1])
      obtain ⟨hg', hF'⟩ := hch.good b' (List.mem_of_getElem? hb')
      have hp : ch.getD st.1 [] = b' := by simp [List.getD_eq_getElem?_getD, hb']
      obtain ⟨st2, s2, e, hc2, hH2⟩ := guided_round h fuel steps hh (by rwa [hp]) (by rwa [hp]) (by rwa [hp])
      rw [hp] at hH2
      rw [e]
      rcases ih fuel (steps + 1) st2 s2 b' hH2 hF' (by rw [hc2]; simpa using hb') (by omega) (by omega) with h3 | ⟨o, st', s', h3, h4⟩
      · exact .inl h3
      · exact .inr ⟨o, st', s', h3, by omega⟩

/-- With a plan that improves forever, the loop does not end. -/
theorem guided_forever (h : Poses d nodes v fg og F R names) (hg : ∀ k, GoodVals d (plan k) ∧ F (den (plan k)))
    (hR : ∀ k, R (den (plan (k + 1))) (den (plan k))) (fuel : Nat) : ∀ (steps k : Nat)
    (st : Nat × Val) (s : Ctx), Holds (guided d v plan) d nodes v st s (plan k) → st.1 = k + 1 →
    (optimLoop (guided d v plan) fg og v fuel steps st s).1 = .error .diverge := by
  induction fuel with
  | zero => intro _ _ _ _ _ _; rfl
  | succ fuel ih =>
    intro steps k st s hh hk
    obtain ⟨st2, s2, e, hc2, hH2⟩ := guided_round h fuel steps hh (by rw [hk]; exact (hg _).1) (by rw [hk]; exact (hg _).2) (by rw [hk]; exact hR k)
    rw [e]
    rw [hk] at hH2
    exact ih _ (k + 1) _ _ hH2 (by rw [hc2, hk])

end

/-! ### chains and the loop, for any solver -/

section
variable {S : Type} {sv : Solver S} {d : Nat} {nodes : List Node} {names : List QVar} {v : QVar}
  {fg : QVar → Comp} {og : QVar → QConst → Comp} {F : PInst → Prop} {R : PInst → PInst → Prop}

theorem Improving.snoc {ch : List (List FeatV)} {b b' : List FeatV} (h : Improving d F R (ch ++ [b])) (hg : GoodVals d b')
    (hF : F (den b')) (hR : R (den b') (den b)) : Improving d F R (ch ++ [b] ++ [b']) := by
  refine ⟨?_, ?_⟩
  · intro a ha
    rcases List.mem_append.1 ha with ha | ha
    · exact h.good a ha
    · rw [List.mem_singleton.1 ha]; exact ⟨hg, hF⟩
  · intro i a c ha hc
    by_cases hi : i + 1 < (ch ++ [b]).length
    · rw [List.getElem?_append_left (by omega)] at ha
      rw [List.getElem?_append_left hi] at hc
      exact h.linked i a c ha hc
    · have hlt : i + 1 < (ch ++ [b] ++ [b']).length := by
        rcases List.getElem?_eq_some_iff.1 hc with ⟨h, -⟩; exact h
      simp only [List.length_append, List.length_cons, List.length_nil] at hi hlt
      have hi' : i = ch.length := by omega
      subst hi'
      simp at ha hc
      subst ha; subst hc
      exact hR

theorem Improving.single {b : List FeatV} (hg : GoodVals d b) (hF : F (den b)) : Improving d F R [b] := by
  refine ⟨by simp [hg, hF], ?_⟩
  intro i a c _ hc
  simp at hc

/-- If all chains are short the loop ends early. -/
theorem optimLoop_chain (hc : Correct sv) (hrel : Reliable sv) (h : Poses d nodes v fg og F R names) {L : Nat}
    (hL : ∀ ch, Improving d F R ch → ch.length ≤ L) (fuel : Nat) : ∀ (ch : List (List FeatV)) (steps : Nat) (st : S) (s : Ctx) (b : List FeatV),
    Holds sv d nodes v st s b → Improving d F R (ch ++ [b]) → L < fuel + (ch.length + 1) →
    ∃ o st' s', optimLoop sv fg og v fuel steps st s = (.ok o, st', s') ∧ o.calls + ch.length ≤ steps + L := by
  induction fuel with
  | zero =>
    intro ch steps st s b _ hch hf
    have := hL _ hch
    simp at this
    omega
  | succ fuel ih =>
    intro ch steps st s b hh hch hf
    have hlen := hL _ hch
    simp at hlen
    have hF := (hch.good b (by simp)).2
    rcases optim_round hc h hh fuel steps with ⟨st1, s1, e, hu, hcnt⟩ | ⟨st1, s1, b1, e, hH, hF1, hR, hcnt⟩ | ⟨err, st1, s1, e, hn⟩
    · exact ⟨_, st1, s1, e, by simp; omega⟩
    · obtain ⟨o, st', s', h1, h2⟩ := ih (ch ++ [b]) (steps + 1) st1 s1 b1 hH (hch.snoc hH.1 hF1 hR) (by simp; omega)
      refine ⟨o, st', s', by rw [e, h1], ?_⟩
      simp at h2
      omega
    · exact absurd hrel hn

end

end Goexpdt

import Verif.Lemmas.SolverBin
import Verif.Lemmas.Fo
/- Steps of a solver on components that ask for an instance; the loop of `ComputeOptim`. -/
namespace Goexpdt
open Spec

/-! ### queries as questions -/

section
variable {d : Nat} {nodes : List Node} {T : DTree} {depth : QVar → Nat}

theorem same_refl (e : PInst) : Same d e e := fun _ _ => rfl

theorem same_trans {e f g : PInst} (h : Same d e f) (h' : Same d f g) : Same d e g :=
  fun i hi => (h i hi).trans (h' i hi)

/-- First-order semantics only looks at the features below the dimension. -/
theorem fo_congr (q : Query) : ∀ (Γ : List QVar) (stack : List Scope) (env env' : QVar → PInst)
    (guards : List Char → Option PInst), q.Fits d nodes T depth Γ stack → (∀ x, Same d (env x) (env' x)) →
    (q.fo d T env guards ↔ q.fo d T env' guards) := by
  induction q with
  | nil => intro _ _ _ _ _ h; exact h.elim
  | atom a =>
    intro Γ stack env env' guards hf h
    refine says_congr hf.pref fun t _ => ?_
    cases t with
    | var x => exact h x
    | const c => exact same_refl _
  | and q1 q2 ih1 ih2 =>
    intro Γ stack env env' guards hf h
    exact and_congr (ih1 _ _ _ _ _ hf.1 h) (ih2 _ _ _ _ _ hf.2 h)
  | or q1 q2 ih1 ih2 =>
    intro Γ stack env env' guards hf h
    exact or_congr (ih1 _ _ _ _ _ hf.1 h) (ih2 _ _ _ _ _ hf.2 h)
  | not q ih => intro Γ stack env env' guards hf h; exact not_congr (ih _ _ _ _ _ hf h)
  | withVar x q ih =>
    intro Γ stack env env' guards hf h
    refine exists_congr fun e => ih _ _ _ _ _ hf.2 fun y => ?_
    unfold upd
    split
    · exact same_refl _
    · exact h y
  | forallG c q ih =>
    intro Γ stack env env' guards hf h
    refine forall_congr' fun p => forall_congr' fun hp => ?_
    obtain ⟨i, hi⟩ := List.mem_iff_getElem?.1 hp
    exact ih _ _ _ _ _ (hf.2.2 _ (mem_scopesOf.2 ⟨i, p, hi, rfl⟩)) h

theorem Faithful.says {names : List QVar} {P : Asg → Prop} {s' : Ctx} {c : CNF} (h : Faithful d names P s' c) : Says d names P s' c :=
  ⟨h.sat, h.decode, h.encode⟩

theorem Query.Good.decides {q : Query} (hg : q.Good d nodes T depth) :
    Decides d nodes (q.names d T []) q.encode (fun σ => q.sem d T depth σ []) := by
  intro s hs
  obtain ⟨c, s', e, hw, -, -, hn, hr, hf⟩ := good_query hg hs
  exact ⟨c, s', e, hw, hf.says, hr, hn⟩

/-- What `WithVar v f` says about the instance `v`. -/
theorem Query.Good.about_iff {v : QVar} {f : Query} (hg : (Query.withVar v f).Good d nodes T depth)
    (hp : (Query.withVar v f).Plain) (e : PInst) :
    f.fo d T (upd (fun _ => bot) v e) (fun _ => none) ↔ ∃ σ, (Query.withVar v f).sem d T depth σ [] ∧ Same d (σ v) e := by
  have hnm : nmOf depth [] v = v := by simp [nmOf, suffix]
  have hu : sep ∉ v := hp.names v (by simp [Query.binders])
  have hnd := hp.distinct
  simp only [Query.binders, List.nodup_cons] at hnd
  refine ⟨fun h => ?_, ?_⟩
  · have hi : Inv f [v] [] depth := by
      refine ⟨hnd.2, ?_, fun x hx => hp.names x (by simp [Query.binders, hx]), by simpa using hu, by simp, hp.guards, ?_⟩
      · simpa using hnd.1
      · simp [hg.fits.1]
    obtain ⟨σ, h1, h2⟩ := fo_sem (depth := depth) (nodes := nodes) f [v] [] (upd (fun _ => bot) v e) _ (fun _ => e) hp.positive hi hg.fits.2
      ⟨.nil, by simp [upd], hi.depth⟩ h
    refine ⟨σ, h2, ?_⟩
    rw [h1 v ?_]
    · exact same_refl _
    · have := hi.free_apart (d := d) (T := T) v (by simp)
      rwa [hnm] at this
  · rintro ⟨σ, hs, he⟩
    have := sem_fo (nodes := nodes) (depth := depth) f [v] [] (upd (fun _ => bot) v (σ v)) (fun _ => none) σ hp.positive hnd.2
      (by simpa using hnd.1) hg.fits.2 hp.guards ⟨.nil, by simp [upd, hnm], by simp [hg.fits.1]⟩ hs
    refine (fo_congr f [v] [] _ _ _ hg.fits.2 fun x => ?_).1 this
    unfold upd
    split
    · exact he
    · exact same_refl _

/-- `WithVar v f` asks for an instance with the property `f`. -/
theorem Query.Good.asks {v : QVar} {f : Query} (hg : (Query.withVar v f).Good d nodes T depth)
    (hp : (Query.withVar v f).Plain) :
    Asks d nodes ((Query.withVar v f).names d T []) v (encWithVar v f.comp)
      (fun e => f.fo d T (upd (fun _ => bot) v e) (fun _ => none)) :=
  ⟨by simp [Query.names, suffix], _, hg.decides, hg.about_iff hp⟩

end

/-! ### steps -/

section
variable {S : Type} {sv : Solver S} {d : Nat} {nodes : List Node} {names : List QVar} {v : QVar} {act : M CNF}
  {F : PInst → Prop} {P : Asg → Prop} {st : S} {s : Ctx}

theorem Ready.reset (h : Ready d nodes [] s) (names : List QVar) : Ready d nodes names s.reset :=
  ⟨⟨Int.le_refl _, by intro vr n hn; simp [Ctx.reset] at hn, by intro a b n hn; simp [Ctx.reset] at hn⟩,
    h.dim, h.nodes, rfl, h.vars, by rintro n _ ⟨k, hk⟩; simp [Ctx.reset] at hk⟩

theorem Asks.congr (h : Asks d nodes names v act F) {e e' : PInst} (hs : Same d e e') : F e ↔ F e' := by
  obtain ⟨-, P, -, hF⟩ := h
  rw [hF, hF]
  exact ⟨fun ⟨σ, h1, h2⟩ => ⟨σ, h1, same_trans h2 hs⟩, fun ⟨σ, h1, h2⟩ => ⟨σ, h1, same_trans h2 (Same.symm hs)⟩⟩

/-- The solver has a solution in which `v` is the instance with values `b`. -/
def Holds (sv : Solver S) (d : Nat) (nodes : List Node) (v : QVar) (st : S) (s : Ctx) (b : List FeatV) : Prop :=
  GoodVals d b ∧ Ready d nodes [] s ∧ ∃ st', sv.values [v] st s = (.ok [{ val := b }], st', s) ∧
    ∀ cnt, Counts sv cnt → cnt st' = cnt st

theorem decides_step (hc : Correct sv) (h : Decides d nodes names act P) (hs : Ready d nodes names s) :
    (∃ st' s', sv.step (some act) st s = (.ok (), st', s') ∧ Ready d nodes [] s' ∧ ∃ β σ, P σ ∧ Recalls sv st' s' β ∧
      ∀ n ∈ names, (∀ i < d, ∀ k ∈ featVals, Named s' ⟨n, (i : Nat), k⟩) ∧ Reads d s' β n (σ n)) ∨
    (∃ st' s', sv.step (some act) st s = (.error .unsat, st', s') ∧ Ready d nodes [] s' ∧ ¬ ∃ σ, P σ) ∨
    (∃ err st' s', sv.step (some act) st s = (.error (.other err), st', s') ∧ ¬ Reliable sv) := by
  obtain ⟨c, s', e, hw, hf, hr, hn⟩ := h s hs
  have hh := hc act st s s' c e hw hr.vm
  rcases hq : sv.step (some act) st s with ⟨r, st', s''⟩
  rw [hq] at hh
  match r with
  | .ok () =>
    obtain ⟨rfl, β, hm, hv⟩ := hh
    obtain ⟨σ, hP, hR⟩ := hf.decode β hm
    exact .inl ⟨st', s'', rfl, hr, β, σ, hP, hv, fun n hnm => ⟨hn n hnm, hR n hnm⟩⟩
  | .error .unsat =>
    obtain ⟨rfl, hu⟩ := hh
    exact .inr (.inl ⟨st', s'', rfl, hr, fun h => hu (hf.sat.2 h)⟩)
  | .error (.other err) =>
    refine .inr (.inr ⟨err, st', s'', rfl, fun hrel => ?_⟩)
    have := hrel act st s s' c e hw hr.vm err
    rw [hq] at this
    exact this rfl

theorem asks_step (hc : Correct sv) (h : Asks d nodes names v act F) (hs : Ready d nodes names s) :
    (∃ st' s' b, sv.step (some act) st s = (.ok (), st', s') ∧ Holds sv d nodes v st' s' b ∧ F (den b)) ∨
    (∃ st' s', sv.step (some act) st s = (.error .unsat, st', s') ∧ ∀ e, ¬ F e) ∨
    (∃ err st' s', sv.step (some act) st s = (.error (.other err), st', s') ∧ ¬ Reliable sv) := by
  have hcg := h
  obtain ⟨hv, P, hD, hF⟩ := h
  rcases decides_step (st := st) hc hD hs with ⟨st', s', e, hr, β, σ, hP, hR, hn⟩ | ⟨st', s', e, hr, hu⟩ | h
  · refine .inl ⟨st', s', valsOf d (σ v), e, ⟨valsOf_good _ _, hr, ?_⟩, ?_⟩
    · obtain ⟨st'', h1⟩ := hR [v] (fun _ => σ v) (by
        intro w hw
        rw [List.mem_singleton.1 hw, hr.dim]
        exact hn v hv)
      refine ⟨st'', by simpa [hr.dim] using h1, fun cnt hcnt => ?_⟩
      have := hcnt.values [v] st' s'
      rw [h1] at this
      exact this
    · rw [hcg.congr (den_valsOf d (σ v)), hF]
      exact ⟨σ, hP, same_refl _⟩
  · refine .inr (.inl ⟨st', s', e, fun f hf => hu ?_⟩)
    obtain ⟨σ, h1, -⟩ := (hF f).1 hf
    exact ⟨σ, h1⟩
  · exact .inr (.inr h)

end

/-! ### the loop -/

section
variable {S : Type} {sv : Solver S} {d : Nat} {nodes : List Node} {names : List QVar} {v : QVar}
  {fg : QVar → Comp} {og : QVar → QConst → Comp} {F : PInst → Prop} {R : PInst → PInst → Prop} {st : S} {s : Ctx}
  {b : List FeatV}

/-- One round of the loop. -/
theorem optim_round (hc : Correct sv) (h : Poses d nodes v fg og F R names) (hh : Holds sv d nodes v st s b) (fuel steps : Nat) :
    (∃ st' s', optimLoop sv fg og v (fuel + 1) steps st s = (.ok ⟨true, { val := b }, steps + 1⟩, st', s') ∧
      (∀ e, F e → ¬ R e (den b)) ∧ ∀ cnt, Counts sv cnt → cnt st' = cnt st + 1) ∨
    (∃ st' s' b', optimLoop sv fg og v (fuel + 1) steps st s = optimLoop sv fg og v fuel (steps + 1) st' s' ∧
      Holds sv d nodes v st' s' b' ∧ F (den b') ∧ R (den b') (den b) ∧ ∀ cnt, Counts sv cnt → cnt st' = cnt st + 1) ∨
    (∃ err st' s', optimLoop sv fg og v (fuel + 1) steps st s = (.error err, st', s') ∧ ¬ Reliable sv) := by
  obtain ⟨hg, hr, st1, h1, hcnt⟩ := hh
  obtain ⟨names', hA⟩ := h.next { val := b } hg rfl
  have hcount : ∀ cnt, Counts sv cnt →
      cnt (sv.step (some (encWithVar v (some (encAnd (fg v) (og v { val := b }))))) st1 s.reset).2.1 = cnt st + 1 := by
    intro cnt hC
    rw [hC.step, hcnt cnt hC]
  have hl : optimLoop sv fg og v (fuel + 1) steps st s =
      match sv.step (some (encWithVar v (some (encAnd (fg v) (og v { val := b }))))) st1 s.reset with
      | (.error .unsat, st, s) => (.ok ⟨true, { val := b }, steps + 1⟩, st, s)
      | (.error (.other e), st, s) => (.error e, st, s)
      | (.ok (), st, s) => optimLoop sv fg og v fuel (steps + 1) st s := by
    rw [optimLoop]
    simp only [h1]
    rcases sv.step (some (encWithVar v (some (encAnd (fg v) (og v { val := b }))))) st1 s.reset with
      ⟨(_ | _) | ⟨⟩, _, _⟩ <;> rfl
  rw [hl]
  rcases asks_step (st := st1) hc hA (hr.reset names') with ⟨st', s', b', e, hH, hF, hR⟩ | ⟨st', s', e, hu⟩ | ⟨err, st', s', e, hrel⟩
  · rw [e] at hcount ⊢
    exact .inr (.inl ⟨st', s', b', rfl, hH, hF, hR, hcount⟩)
  · rw [e] at hcount ⊢
    exact .inl ⟨st', s', rfl, fun f hf hR => hu f ⟨hf, hR⟩, hcount⟩
  · rw [e]
    exact .inr (.inr ⟨err, st', s', rfl, hrel⟩)

/-- What the loop returns is optimal. -/
theorem optimLoop_sound (hc : Correct sv) (h : Poses d nodes v fg og F R names) (fuel : Nat) : ∀ (steps : Nat) (st : S) (s : Ctx)
    (b : List FeatV), Holds sv d nodes v st s b → F (den b) → ∀ o st' s', optimLoop sv fg og v fuel steps st s = (.ok o, st', s') →
    (∃ b', o.found = true ∧ o.value = { val := b' } ∧ GoodVals d b' ∧ F (den b') ∧ ∀ e, F e → ¬ R e (den b')) ∧
    ∀ cnt, Counts sv cnt → cnt st' + steps = cnt st + o.calls := by
  induction fuel with
  | zero => intro steps st s b _ _ o st' s' he; simp [optimLoop] at he
  | succ fuel ih =>
    intro steps st s b hh hF o st' s' he
    rcases optim_round hc h hh fuel steps with ⟨st1, s1, e, hu, hcnt⟩ | ⟨st1, s1, b1, e, hH, hF1, -, hcnt⟩ | ⟨err, st1, s1, e, -⟩
    · rw [e] at he
      simp only [Prod.mk.injEq, Except.ok.injEq] at he
      obtain ⟨rfl, rfl, rfl⟩ := he
      refine ⟨⟨b, rfl, rfl, hh.1, hF, hu⟩, fun cnt hC => ?_⟩
      have := hcnt cnt hC
      simp only; omega
    · rw [e] at he
      obtain ⟨h1, h2⟩ := ih _ _ _ _ hH hF1 o st' s' he
      refine ⟨h1, fun cnt hC => ?_⟩
      have := hcnt cnt hC
      have := h2 cnt hC
      omega
    · rw [e] at he; simp at he

/-- The loop ends if every better instance has a smaller rank. -/
theorem optimLoop_ends (hc : Correct sv) (hrel : Reliable sv) (h : Poses d nodes v fg og F R names) (rk : List FeatV → Nat)
    (hrk : ∀ b b', GoodVals d b → GoodVals d b' → F (den b) → F (den b') → R (den b') (den b) → rk b' < rk b) (fuel : Nat) :
    ∀ (steps : Nat) (st : S) (s : Ctx) (b : List FeatV), Holds sv d nodes v st s b → F (den b) → rk b < fuel →
    ∃ o st' s', optimLoop sv fg og v fuel steps st s = (.ok o, st', s') ∧ o.calls ≤ steps + 1 + rk b := by
  induction fuel with
  | zero => intro _ _ _ _ _ _ hb; omega
  | succ fuel ih =>
    intro steps st s b hh hF hb
    rcases optim_round hc h hh fuel steps with ⟨st1, s1, e, hu, hcnt⟩ | ⟨st1, s1, b1, e, hH, hF1, hR, hcnt⟩ | ⟨err, st1, s1, e, hn⟩
    · exact ⟨_, st1, s1, e, by simp⟩
    · have := hrk b b1 hh.1 hH.1 hF hF1 hR
      obtain ⟨o, st', s', h1, h2⟩ := ih (steps + 1) st1 s1 b1 hH hF1 (by omega)
      exact ⟨o, st', s', by rw [e, h1], by omega⟩
    · exact absurd hrel hn

/-- The loop does not end if there is always a better instance. -/
theorem optimLoop_diverges (hc : Correct sv) (hrel : Reliable sv) (h : Poses d nodes v fg og F R names)
    (hR : ∀ b, GoodVals d b → F (den b) → ∃ e, F e ∧ R e (den b)) (fuel : Nat) :
    ∀ (steps : Nat) (st : S) (s : Ctx) (b : List FeatV), Holds sv d nodes v st s b → F (den b) →
    (optimLoop sv fg og v fuel steps st s).1 = .error .diverge := by
  induction fuel with
  | zero => intro steps st s b _ _; rfl
  | succ fuel ih =>
    intro steps st s b hh hF
    rcases optim_round hc h hh fuel steps with ⟨st1, s1, e, hu, -⟩ | ⟨st1, s1, b1, e, hH, hF1, -, -⟩ | ⟨err, st1, s1, e, hn⟩
    · obtain ⟨f, h1, h2⟩ := hR b hh.1 hF
      exact absurd h2 (hu f h1)
    · rw [e]; exact ih _ _ _ _ hH hF1
    · exact absurd hrel hn

end

end Goexpdt

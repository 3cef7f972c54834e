import Verif.Lemmas.GroundFo
import Verif.Lemmas.GroundQuery
import Verif.Lemmas.OptimOrder
import Verif.Spec.Scoped
/- Formulas given to `ComputeOptim` in which variables are declared several times. -/
namespace Goexpdt
open Spec Props

variable {d : Nat} {nodes : List Node} {T : DTree} {q : Query} {v : QVar} {f : Query}

/-- Only the features below the dimension matter. -/
theorem Ground.ex_congr (g : Ground) : ∀ (Γ : List QVar) (σ σ' : Asg), g.Fits d nodes T Γ → (∀ n, Same d (σ n) (σ' n)) →
    (g.ex d T σ ↔ g.ex d T σ') := by
  induction g with
  | nil => intro _ _ _ h; exact h.elim
  | tt => intro _ _ _ _ _; exact Iff.rfl
  | atom a lv stack =>
    intro Γ σ σ' hf h
    refine says_congr hf.1.pref fun t _ => ?_
    cases hr : t.res lv stack with
    | name n => exact h n
    | vals c => exact same_refl _
  | and g1 g2 ih1 ih2 => intro Γ σ σ' hf h; exact and_congr (ih1 _ _ _ hf.1 h) (ih2 _ _ _ hf.2 h)
  | or g1 g2 ih1 ih2 => intro Γ σ σ' hf h; exact or_congr (ih1 _ _ _ hf.1 h) (ih2 _ _ _ hf.2 h)
  | not g ih => intro Γ σ σ' hf h; exact not_congr (ih _ _ _ hf h)
  | decl n g ih =>
    intro Γ σ σ' hf h
    refine exists_congr fun e => ih _ _ _ hf fun m => ?_
    unfold upd
    split
    · exact same_refl _
    · exact h m

theorem Query.Sound.decides (hg : q.Sound d nodes T) :
    Decides d nodes (q.flat d T).names q.encode (fun σ => (q.flat d T).sem d T σ) := by
  intro s hs
  obtain ⟨c, s', e, hw, -, -, hn, hr, -, hf⟩ := sound_query_apart hg (others := []) (by simp) (by simpa using hs)
  exact ⟨c, s', e, hw, hf.says, hr, hn⟩

/-- What the formula says about `v`, in both semantics. -/
theorem about_iff (hg : (Query.withVar v f).Sound d nodes T) (hq : (Query.withVar v f).WellScoped) (e : PInst) :
    f.about d T v e ↔ ∃ σ, ((Query.withVar v f).flat d T).sem d T σ ∧ Same d (σ v) e := by
  have h0 : Levels.declare (fun _ => 0) 0 v = fun _ => 0 := by funext x; simp [Levels.declare]
  have hflat : (Query.withVar v f).flat d T = .decl v (f.ground d T [] fun _ => 0) := by
    simp [Query.flat, Query.ground, h0, suffix]
  have hfit : (f.ground d T [] fun _ => 0).Fits d nodes T [v] := by have := hg.fits; rw [hflat] at this; exact this
  have hgd : f.GuardsApart [] := hq.guards
  have hb := hq.names
  simp only [Query.binders, List.mem_cons] at hb
  have hnd := hq.distinct
  simp only [Query.places, List.nodup_cons] at hnd
  have hlex : f.Lexical 0 (fun _ => 0) (fun _ => 0) := by
    have h := hq.lexical.2
    rw [h0] at h
    have : upd (fun _ : QVar => 0) v 0 = fun _ => 0 := by funext x; simp [upd]
    rwa [this] at h
  have key : ∀ σ : Asg, f.about d T v (σ v) ↔ (f.ground d T [] fun _ => 0).ex d T σ := fun σ =>
    fo_iff_ex f [v] [] _ _ _ _ σ hlex hq.closed ⟨_, hfit⟩ (fun x hx => hb x (.inr hx)) (by simpa using hb v (.inl rfl))
      (by simpa using hgd) (by simp [nmOf, suffix, upd]) .nil
  have hpos : (f.ground d T [] fun _ => 0).Positive := ground_positive f [] _ hq.positive
  rw [hflat]
  simp only [Ground.sem]
  constructor
  · intro h
    have hap := ground_apart (d := d) (T := T) f [v] [] _ _ hlex hq.closed (by simpa using hgd) hnd.2 (fun x hx => hb x (.inr hx))
      (by simpa using hb v (.inl rfl)) (by simp) (by simpa [idsOf] using hnd.1)
    obtain ⟨σ, h1, h2⟩ := ex_sem _ (fun _ => e) hpos hap ((key fun _ => e).1 h)
    refine ⟨σ, h2, ?_⟩
    rw [h1 v]
    · exact same_refl _
    · intro hn
      have := ground_names_own (d := d) (T := T) f [] _ _ _ hlex hq.guards v hn
      have hno := free_not_own (q := f) (stack := []) (lex := fun _ => 0) (x := v) (hb v (.inl rfl)) (fun x hx => hb x (.inr hx)) (by simp)
        (by simpa [idsOf] using hnd.1)
      simp [nmOf, suffix] at hno
      exact hno this
  · rintro ⟨σ, h1, h2⟩
    have h3 := sem_ex _ σ hpos h1
    rw [Ground.ex_congr _ _ σ (upd σ v e) hfit fun n => by
      unfold upd
      split
      · next h => subst h; exact h2
      · exact same_refl _] at h3
    have := (key _).2 h3
    simpa [upd] using this

/-- `WithVar v f` asks for an instance with the property `f`. -/
theorem Query.Sound.asks (hg : (Query.withVar v f).Sound d nodes T) (hq : (Query.withVar v f).WellScoped) :
    Asks d nodes ((Query.withVar v f).flat d T).names v (encWithVar v f.comp) (f.about d T v) := by
  refine ⟨?_, _, hg.decides, about_iff hg hq⟩
  simp [Query.flat, Query.ground, Ground.names, suffix]

/-- Queries as the arguments of `ComputeOptim`. -/
theorem Explores.poses {o : QConst → Query} (h : Explores d nodes T v f o) :
    Poses d nodes v (fun _ => f.comp) (fun _ k => (o k).comp) (f.about d T v)
      (fun e p => (o { val := valsOf d p }).about d T v e) ((Query.withVar v f).flat d T).names := by
  refine ⟨h.sound.asks h.wellScoped, fun k hk hid => ⟨((Query.withVar v (.and f (o k))).flat d T).names, ?_⟩⟩
  have hk' : k = { val := k.val } := by cases k; simp_all
  have := (h.soundNext k.val hk).asks (h.wellScopedNext k.val hk)
  rw [valsOf_den hk]
  rw [← hk'] at this ⊢
  exact this

/-- At the outermost level no depths are recorded. -/
theorem levels_zero (q : Query) : q.levels 0 (fun _ => 0) = fun _ => 0 := by
  funext x; rw [levels_eq]; split <;> rfl

end Goexpdt

import Verif.Spec.Session
import Verif.Lemmas.GroundOptim
/- What calls leave in the context. -/
namespace Goexpdt
open Spec Props

variable {S : Type} {sv : Solver S} {d : Nat} {nodes : List Node} {T : DTree} {q : Query} {v : QVar} {f : Query} {o : QConst → Query}

/-- An encoding declares only names of its query. -/
theorem sound_query_marks (hg : q.Sound d nodes T) {s : Ctx} (hs : Ready d nodes (q.flat d T).names s) :
    ∃ c s', q.encode s = (.ok c, s') ∧ WF c ∧ Faithful d (q.flat d T).names (fun σ => (q.flat d T).sem d T σ) s' c ∧
      Ready d nodes [] s' ∧ ∀ n, Declared s' n → Declared s n ∨ n ∈ q.marks d T := by
  obtain ⟨c, s', e, hw, -, -, -, hr, -, hf⟩ := sound_query_apart hg (others := []) (by simp) (by simpa using hs)
  refine ⟨c, s', e, hw, hf, hr, fun n hn => Classical.byContradiction fun h => ?_⟩
  simp only [Query.marks, List.mem_append, not_or] at h
  obtain ⟨h1, h2, h3⟩ := h
  have hfr : ∀ m ∈ (q.flat d T).names ++ [n], ¬ Declared s m := fun m hm => (List.mem_append.1 hm).elim (hs.fresh m) fun hm => by
    rw [List.mem_singleton.1 hm]; exact h1
  obtain ⟨c1, s1, e1, -, -, -, -, -, ho, -⟩ := sound_query_apart hg (others := [n]) (by
    intro u hu hm
    rw [List.mem_singleton] at hm
    exact h3 (List.mem_map.2 ⟨u, hu, hm⟩)) (s := s) { hs with fresh := hfr }
  rw [e] at e1
  obtain ⟨-, rfl⟩ := Prod.mk.inj e1
  exact ho n (by simp) h2 hn

/-- A step of a solver on a query, and the context afterwards. -/
theorem sound_step (hc : Correct sv) (hg : q.Sound d nodes T) {s : Ctx} (hs : Ready d nodes (q.flat d T).names s) (st : S) :
    (∃ r st' s', sv.step (some q.encode) st s = (r, st', s') ∧ Ready d nodes [] s' ∧
      (∀ n, Declared s' n → Declared s n ∨ n ∈ q.marks d T) ∧
      ((r = .ok () ∧ ∃ σ, (q.flat d T).sem d T σ) ∨ (r = .error .unsat ∧ ¬ ∃ σ, (q.flat d T).sem d T σ))) ∨
    ((∃ err st' s', sv.step (some q.encode) st s = (.error (.other err), st', s')) ∧ ¬ Reliable sv) := by
  obtain ⟨c, s', e, hw, hf, hr, hm⟩ := sound_query_marks hg hs
  have h := hc q.encode st s s' c e hw hr.vm
  rcases hq : sv.step (some q.encode) st s with ⟨(_ | err) | ⟨⟩, st1, s1⟩ <;> rw [hq] at h
  · obtain ⟨rfl, h⟩ := h
    exact .inl ⟨_, _, _, rfl, hr, hm, .inr ⟨rfl, fun x => h (hf.sat.2 x)⟩⟩
  · refine .inr ⟨⟨_, _, _, rfl⟩, fun hrel => ?_⟩
    have := hrel q.encode st s s' c e hw hr.vm err
    rw [hq] at this
    exact this rfl
  · obtain ⟨rfl, β, hβ, -⟩ := h
    exact .inl ⟨_, _, _, rfl, hr, hm, .inl ⟨rfl, hf.sat.1 ⟨β, hβ⟩⟩⟩

theorem not_declared_reset {s : Ctx} {n : QVar} : ¬ Declared s.reset n := by
  rintro ⟨k, hk⟩; simp [Ctx.reset] at hk

/-- The loop of `ComputeOptim` leaves only names of the last query in the context. -/
theorem optimLoop_marks (hc : Correct sv) (h : Explores d nodes T v f o) (fuel : Nat) : ∀ (steps : Nat) (st : S) (s : Ctx) (b : List FeatV),
    Holds sv d nodes v st s b → ∀ r st' s', optimLoop sv (fun _ => f.comp) (fun _ k => (o k).comp) v fuel steps st s = (.ok r, st', s') →
    Ready d nodes [] s' ∧ ∀ n, Declared s' n → ∃ b, GoodVals d b ∧ n ∈ (Query.withVar v (.and f (o { val := b }))).marks d T := by
  induction fuel with
  | zero => intro steps st s b _ r st' s' he; simp [optimLoop] at he
  | succ fuel ih =>
    intro steps st s b hh r st' s' he
    obtain ⟨hg, hr, st1, h1, -⟩ := hh
    have hs := h.soundNext b hg
    have hcomp : (Query.withVar v (.and f (o { val := b }))).encode = encWithVar v (some (encAnd f.comp (o { val := b }).comp)) := rfl
    have hk := hs.asks (h.wellScopedNext b hg)
    unfold optimLoop at he
    simp only [h1] at he
    rcases asks_step (st := st1) hc hk (hr.reset _) with ⟨st2, s2, b2, e, hH, -⟩ | ⟨st2, s2, e, -⟩ | ⟨err, st2, s2, e, -⟩
    · simp only [Query.comp] at e
      rw [e] at he
      exact ih _ _ _ _ hH _ _ _ he
    · have e' := e
      simp only [Query.comp] at e
      rw [e] at he
      simp only [Prod.mk.injEq] at he
      obtain ⟨-, rfl, rfl⟩ := he
      rcases sound_step hc hs (hr.reset _) st1 with ⟨r2, st3, s3, e3, hr3, hm3, -⟩ | ⟨⟨err, st3, s3, e3⟩, -⟩
      · rw [hcomp, e] at e3
        obtain ⟨-, -, rfl⟩ := (by simpa using e3 : _ ∧ _ ∧ _)
        exact ⟨hr3, fun n hn => ⟨b, hg, (hm3 n hn).resolve_left not_declared_reset⟩⟩
      · rw [hcomp, e] at e3
        simp at e3
    · simp only [Query.comp] at e
      rw [e] at he
      simp at he

end Goexpdt

import Verif.Lemmas.ClosedAtom
import Verif.Props.Query
/- The auxiliary variables of `leh` do not clash. -/
namespace Goexpdt
open Spec Props

variable {d : Nat} {T : DTree} {xs : List QVar}

theorem leh_uses {t1 t2 t3 : Term} {g e : QVar → QVar → QVar} (h1 : t1.Ok d xs) (h2 : t2.Ok d xs) (h3 : t3.Ok d xs) :
    (∃ u, (Atom.leh t1 t2 t3 (some g) (some e)).uses (fun _ => 0) [] = [u] ∧
      ∃ x ∈ xs, ∃ t ∈ [t1, t2, t3], u.1 = g x t.keyUnder) ∨
    ∀ u ∈ (Atom.leh t1 t2 t3 (some g) (some e)).uses (fun _ => 0) [],
      (∃ x ∈ xs, ∃ t ∈ [t1, t2, t3], u = (g x t.keyUnder, .dist (.name x) (t.res (fun _ => 0) []))) ∨
      ∃ x ∈ xs, ∃ y ∈ xs, u = (e x y, .same x y) := by
  cases t1 <;> cases t2 <;> cases t3 <;>
    simp only [Atom.uses, List.mem_cons, List.not_mem_nil, or_false, List.flatMap_cons, List.flatMap_nil, List.append_nil,
      List.map_cons, List.map_nil, List.mem_append, Term.res, Term.keyUnder, Term.key, nm_nil, Term.Ok] at h1 h2 h3 ⊢
  · exact .inr (by simp)
  · exact .inl ⟨_, rfl, _, h3, _, .inl rfl, rfl⟩
  · exact .inl ⟨_, rfl, _, h2, _, .inr (.inr rfl), rfl⟩
  · right
    rintro u (rfl | rfl)
    · exact .inl ⟨_, h2, _, .inl rfl, rfl⟩
    · exact .inl ⟨_, h3, _, .inl rfl, rfl⟩
  · right
    rintro u (rfl | rfl)
    · exact .inl ⟨_, h1, _, .inr (.inl rfl), rfl⟩
    · exact .inl ⟨_, h1, _, .inr (.inr rfl), rfl⟩
  · right
    rintro u (rfl | rfl | rfl)
    · exact .inl ⟨_, h1, _, .inr (.inl rfl), rfl⟩
    · exact .inl ⟨_, h1, _, .inr (.inr rfl), by simp⟩
    · exact .inr ⟨_, h1, _, h3, rfl⟩
  · right
    rintro u ((rfl | rfl) | rfl)
    · exact .inl ⟨_, h1, _, .inr (.inl rfl), by simp⟩
    · exact .inr ⟨_, h1, _, h2, rfl⟩
    · exact .inl ⟨_, h1, _, .inr (.inr rfl), rfl⟩
  · right
    rintro u ((rfl | rfl) | rfl | rfl)
    · exact .inl ⟨_, h1, _, .inr (.inl rfl), by simp⟩
    · exact .inr ⟨_, h1, _, h2, rfl⟩
    · exact .inl ⟨_, h1, _, .inr (.inr rfl), by simp⟩
    · exact .inr ⟨_, h1, _, h3, rfl⟩

theorem pairs_clean {ts : List Term} {ks : List QVar} {g e : QVar → QVar → QVar} {uses : List (QVar × Role)}
    (hok : ∀ t ∈ ts, t.Ok d xs) (hg : LehGens xs ts ks g e)
    (key : ∀ u ∈ uses,
      (∃ x ∈ xs, ∃ t ∈ ts, u = (g x t.keyUnder, .dist (.name x) (t.res (fun _ => 0) []))) ∨
      ∃ x ∈ xs, ∃ y ∈ xs, u = (e x y, .same x y)) : Hygienic d T xs uses := by
  have hxk : ∀ x ∈ xs, x ∈ ks := fun x hx => hg.all (List.mem_append_left _ hx)
  have htk : ∀ t ∈ ts, t.keyUnder ∈ ks := fun t ht => hg.all (List.mem_append_right _ (List.mem_map_of_mem ht))
  intro u hu
  refine ⟨?_, ?_⟩
  · rcases key u hu with ⟨x, hx, t, ht, rfl⟩ | ⟨x, hx, y, hy, rfl⟩
    · exact (hg.notVar _ (hxk x hx) _ (htk t ht)).1
    · exact (hg.notVar _ (hxk x hx) _ (hxk y hy)).2
  · intro u' hu' he σ i v
    rcases key u hu with ⟨x, hx, t, ht, rfl⟩ | ⟨x, hx, y, hy, rfl⟩ <;>
      rcases key u' hu' with ⟨x', hx', t', ht', rfl⟩ | ⟨x', hx', y', hy', rfl⟩
    · rcases hg.pair _ (hxk _ hx') _ (htk _ ht') _ (hxk _ hx) _ (htk _ ht) he with ⟨rfl, hk⟩ | ⟨rfl, hk⟩
      · have : t.res (fun _ => 0) [] = t'.res (fun _ => 0) [] := by
          cases t with
          | const c =>
            cases t' with
            | const c' =>
              have hv := (C16_asString_injective c' c (hok _ ht').2 (hok _ ht).2).1 hk
              show RTerm.vals c.val = RTerm.vals c'.val
              rw [hv]
            | var y =>
              have : c.asString = y := hk.symm
              exact absurd (hok _ ht') (by rw [← this]; exact hg.keys c ht)
          | var y =>
            cases t' with
            | const c' =>
              have : c'.asString = y := hk
              exact absurd (hok _ ht) (by rw [← this]; exact hg.keys c' ht')
            | var y' =>
              have : y' = y := hk
              rw [this]
        rw [this]
      · have e1 : t = .var t.keyUnder := by
          cases t with
          | var y => rfl
          | const c => exact absurd hx' (hg.keys c ht)
        have e2 : t' = .var x := by
          cases t' with
          | var y => rw [show y = x from hk]
          | const c => exact absurd hx (by rw [← hk]; exact hg.keys c ht')
        have d1 : (t.res (fun _ => 0) []).den σ = σ t.keyUnder := by rw [res_nil]; rw [e1]; rfl
        have d2 : (t'.res (fun _ => 0) []).den σ = σ x := by rw [res_nil, e2]; rfl
        simp only [Role.mean, d1, d2]
        rw [show (fun k => RTerm.den σ (.name t.keyUnder) k != σ x k) =
          fun k => RTerm.den σ (.name x) k != σ t.keyUnder k from funext fun k => bne_comm]
    · exact absurd he.symm (hg.apart _ (hxk _ hx) _ (htk _ ht) _ (hxk _ hx') _ (hxk _ hy'))
    · exact absurd he (hg.apart _ (hxk _ hx') _ (htk _ ht') _ (hxk _ hx) _ (hxk _ hy))
    · rcases hg.pairE _ (hxk _ hx') _ (hxk _ hy') _ (hxk _ hx) _ (hxk _ hy) he with ⟨rfl, rfl⟩ | ⟨rfl, rfl⟩
      · rfl
      · simp only [Role.mean, eq_comm]

theorem leh_clean {t1 t2 t3 : Term} {ks : List QVar} {g e : QVar → QVar → QVar} (h1 : t1.Ok d xs) (h2 : t2.Ok d xs)
    (h3 : t3.Ok d xs) (hg : LehGens xs [t1, t2, t3] ks g e) :
    Hygienic d T xs ((Atom.leh t1 t2 t3 (some g) (some e)).uses (fun _ => 0) []) := by
  have hxk : ∀ x ∈ xs, x ∈ ks := fun x hx => hg.all (List.mem_append_left _ hx)
  have htk : ∀ t ∈ [t1, t2, t3], t.keyUnder ∈ ks := fun t ht => hg.all (List.mem_append_right _ (List.mem_map_of_mem ht))
  rcases leh_uses (g := g) (e := e) h1 h2 h3 with ⟨u, hu, x, hx, t, ht, hab⟩ | key
  · rw [hu]
    refine .of_eq ?_
    simp only [List.mem_singleton, forall_eq, implies_true, and_true]
    rw [hab]
    exact (hg.notVar _ (hxk x hx) _ (htk t ht)).1
  · exact pairs_clean (by simp [h1, h2, h3]) hg key

theorem leh_uses_apart {t1 t2 t3 : Term} {g e : QVar → QVar → QVar} (h1 : t1.Ok d xs) (h2 : t2.Ok d xs) (h3 : t3.Ok d xs)
    (hn : ∀ c x c', (t1, t2, t3) ≠ (.const c, .var x, .const c')) :
    ∀ u ∈ (Atom.leh t1 t2 t3 (some g) (some e)).uses (fun _ => 0) [],
      (∃ x ∈ xs, ∃ t ∈ [t1, t2, t3], u = (g x t.keyUnder, .dist (.name x) (t.res (fun _ => 0) []))) ∨
      ∃ x ∈ xs, ∃ y ∈ xs, u = (e x y, .same x y) := by
  rcases leh_uses (g := g) (e := e) h1 h2 h3 with ⟨u, hu, -⟩ | key
  · cases t1 with
    | const c1 =>
      cases t2 with
      | const c2 =>
        cases t3 with
        | const c3 => simp [Atom.uses] at hu
        | var x =>
          intro u hu
          simp only [Atom.uses, nm_nil, List.mem_singleton] at hu
          exact .inl ⟨x, h3, .const c1, by simp, hu⟩
      | var x =>
        cases t3 with
        | const c3 => exact absurd rfl (hn _ _ _)
        | var y => simp [Atom.uses] at hu
    | var x => cases t2 <;> cases t3 <;> simp [Atom.uses, Term.res] at hu
  · exact key

end Goexpdt

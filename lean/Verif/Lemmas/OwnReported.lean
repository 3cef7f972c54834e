import Verif.Lemmas.RawWalk
import Verif.Lemmas.Repeats
import Verif.Spec.OwnReported
/- Queries with predicates of any kind where a quantifier ranges over what the walk reports. -/
namespace Goexpdt
open Spec Props

variable {W : World} {ps : List (Nat × PInst)}

theorem own_over (hR : Reported W.dim W.nodes ps) (q : OQuery) : ∀ (Γ : List QVar) (stack : List Scope),
    q.FitsOver W.dim W.nodes ps W.depth Γ stack →
    (∀ n ∈ q.skel.namesIn W.dim ps stack, W.isInst n ∧ W.may n) →
    (∀ u ∈ q.auxOver W.dim ps W.depth stack, Serves W u) →
    Captures W Γ stack q.encode (fun σ => q.semOver W.dim ps W.depth σ stack) ∧
      Declares W Γ stack q.encode (· ∈ q.skel.namesIn W.dim ps stack) := by
  induction q with
  | pred p =>
    intro Γ stack h _ hu
    exact ⟨h.1.captures W Γ stack rfl rfl h.2.1 h.2.2.1 h.2.2.2 hu, fun _ _ _ n hn => by simp [OQuery.skel, Query.namesIn] at hn⟩
  | and q1 q2 ih1 ih2 =>
    intro Γ stack h hn hu
    simp only [OQuery.skel, Query.namesIn, OQuery.auxOver, List.mem_append] at hn hu
    obtain ⟨c1, d1⟩ := ih1 Γ stack h.1 (fun n hn' => hn n (.inl hn')) (fun u hu' => hu u (.inl hu'))
    obtain ⟨c2, d2⟩ := ih2 Γ stack h.2 (fun n hn' => hn n (.inr hn')) (fun u hu' => hu u (.inr hu'))
    refine ⟨c1.encAnd c2, ?_⟩
    intro s hp hs n hn
    exact Declares.encAnd c1 c2 d1 d2 s hp hs n (by simpa [OQuery.skel, Query.namesIn] using hn)
  | or q1 q2 ih1 ih2 =>
    intro Γ stack h hn hu
    simp only [OQuery.skel, Query.namesIn, OQuery.auxOver, List.mem_append] at hn hu
    obtain ⟨c1, d1⟩ := ih1 Γ stack h.1 (fun n hn' => hn n (.inl hn')) (fun u hu' => hu u (.inl hu'))
    obtain ⟨c2, d2⟩ := ih2 Γ stack h.2 (fun n hn' => hn n (.inr hn')) (fun u hu' => hu u (.inr hu'))
    refine ⟨c1.encOr c2, ?_⟩
    intro s hp hs n hn
    exact Declares.encOr c1 c2 d1 d2 s hp hs n (by simpa [OQuery.skel, Query.namesIn] using hn)
  | not q ih =>
    intro Γ stack h hn hu
    obtain ⟨c, dd⟩ := ih Γ stack h hn hu
    exact ⟨c.encNot, Declares.encNot c dd⟩
  | withVar x q ih =>
    intro Γ stack h hn hu
    simp only [OQuery.skel, Query.namesIn, List.mem_cons] at hn
    obtain ⟨c, dd⟩ := ih (x :: Γ) stack h.2 (fun n hn' => hn n (.inr hn')) hu
    have hnm : W.nm stack x = x ++ suffix stack := by
      unfold World.nm
      rw [h.1, List.take_length]
    have hin : W.isInst (W.nm stack x) ∧ W.may (W.nm stack x) := by rw [hnm]; exact hn _ (.inl rfl)
    refine ⟨Captures.encWithVar h.1 hin.1 hin.2 c, ?_⟩
    intro s hp hs n hn
    refine Declares.encWithVar h.1 hin.1 hin.2 c dd s hp hs n ?_
    rw [hnm]
    simpa [OQuery.skel, Query.namesIn] using hn
  | forallG k q ih =>
    intro Γ stack h hn hu
    have hf := h
    obtain ⟨w0, ws, hok, hws, hv⟩ := hR
    obtain rfl : w0 = WalkSt.init W.dim W.nodes.length := (newIter_ok hok).2.2
    replace hv := hv.symm
    have hg := reported_good hok hws
    simp only [OQuery.skel, Query.namesIn, OQuery.auxOver, List.mem_flatMap] at hn hu
    have hscope : ∀ i w, ws[i]? = some w →
        (⟨k.id, w.t, (i : Nat)⟩ : Scope) ∈ scopesIn W.dim ps k.id ∧ ps[i]? = some (w.cp, den w.t) ∧
        (⟨k.id, w.t, (i : Nat)⟩ : Scope) = scopeAt W.dim k.id i (w.cp, den w.t) := by
      intro i w hw
      have h1 : ps[i]? = some (w.cp, den w.t) := by rw [← hv, List.getElem?_map, hw]; rfl
      have h2 : (⟨k.id, w.t, (i : Nat)⟩ : Scope) = scopeAt W.dim k.id i (w.cp, den w.t) := by
        unfold scopeAt
        rw [valsOf_den (hg w (List.mem_of_getElem? hw))]
      exact ⟨mem_scopesIn.2 ⟨i, _, h1, h2⟩, h1, h2⟩
    have hch : ∀ i w, ws[i]? = some w →
        Captures W Γ (stack ++ [⟨k.id, w.t, (i : Nat)⟩]) q.encode
          (fun σ => ∀ w, ws[i]? = some w → q.semOver W.dim ps W.depth σ (stack ++ [⟨k.id, w.t, (i : Nat)⟩])) ∧
        Declares W Γ (stack ++ [⟨k.id, w.t, (i : Nat)⟩]) q.encode
          (fun n => ∃ w, ws[i]? = some w ∧ n ∈ q.skel.namesIn W.dim ps (stack ++ [⟨k.id, w.t, (i : Nat)⟩])) := by
      intro i w hw
      obtain ⟨hm, -, -⟩ := hscope i w hw
      obtain ⟨c, dd⟩ := ih Γ _ (hf _ hm) (fun n hn' => hn n ⟨_, hm, hn'⟩) (fun u hu' => hu u ⟨_, hm, hu'⟩)
      refine ⟨c.congr fun σ => ?_, ?_⟩
      · constructor
        · intro hs w' hw'
          rw [hw] at hw'
          simp only [Option.some.injEq] at hw'
          subst hw'
          exact hs
        · intro hs; exact hs w hw
      · rintro s hp hs n ⟨w', hw', hn'⟩
        rw [hw] at hw'
        simp only [Option.some.injEq] at hw'
        subst hw'
        exact dd s hp hs n hn'
    have hback : ∀ g ∈ scopesIn W.dim ps k.id, ∃ i, ∃ hi : i < ws.length, g = ⟨k.id, ws[i].t, (i : Nat)⟩ := by
      intro g hg'
      obtain ⟨i, p, hp, rfl⟩ := mem_scopesIn.1 hg'
      have hi : i < ws.length := by
        have := (List.getElem?_eq_some_iff.1 hp).1
        rw [← hv] at this
        simpa using this
      obtain ⟨-, h1, h2⟩ := hscope i ws[i] (List.getElem?_eq_getElem hi)
      rw [hp] at h1
      simp only [Option.some.injEq] at h1
      subst h1
      exact ⟨i, hi, h2.symm⟩
    refine ⟨?_, ?_⟩
    · refine (Captures.encForall hok hws fun i w hw => (hch i w hw).1).congr fun σ => ?_
      constructor
      · intro hs g hg'
        obtain ⟨i, hi, rfl⟩ := hback g hg'
        exact hs i hi ws[i] (List.getElem?_eq_getElem hi)
      · intro hs i hi w hw
        exact hs _ (hscope i w hw).1
    · intro s hp hs n hn'
      refine Declares.encForall hok hws hch s hp hs n ?_
      simp only [OQuery.skel, Query.namesIn, List.mem_flatMap] at hn'
      obtain ⟨g, hg', hn'⟩ := hn'
      obtain ⟨i, hi, rfl⟩ := hback g hg'
      exact ⟨i, hi, ws[i], List.getElem?_eq_getElem hi, hn'⟩

theorem good_over {d : Nat} {nodes : List Node} {depth : QVar → Nat} {q : OQuery}
    (hg : q.GoodOver d nodes ps depth) {s : Ctx} (hs : Ready d nodes (q.skel.namesIn d ps []) s) :
    ∃ c s', q.encode s = (.ok c, s') ∧ WF c ∧ c.tv ≤ s'.topv ∧ Ext s s' ∧
      (∀ n ∈ q.skel.namesIn d ps [], ∀ i < d, ∀ v ∈ featVals, Named s' ⟨n, (i : Nat), v⟩) ∧ Ready d nodes [] s' ∧
      Faithful d (q.skel.namesIn d ps []) (fun σ => q.semOver d ps depth σ []) s' c := by
  let W := ownWorld d nodes depth hg.dim (q.skel.namesIn d ps []) [] (q.auxOver d ps depth [])
  obtain ⟨hc, hd⟩ := own_over (W := W) hg.reported q [] [] hg.fits
    (fun n hn => ⟨List.mem_append_left _ hn, hn⟩) (ownWorld_serves (by rw [List.append_nil]; exact hg.clean))
  have hp : Pre W [] s := Ready.pre (W := W) hs fun n hn => by simpa [W, ownWorld] using hn
  obtain ⟨c, s', e', hx⟩ := hc.exact hp hs.scopes fun n hn => hs.fresh n (by simpa [W, ownWorld] using hn)
  have hdecl : ∀ n ∈ q.skel.namesIn d ps [], Declared s' n := by
    intro n hn
    have := hd s hp hs.scopes n hn
    rw [e'] at this
    exact this
  have hag : ∀ β σ, (∀ n ∈ q.skel.namesIn d ps [], Reads d s' β n (σ n)) ↔ Agree W s' β σ := by
    intro β σ
    exact ⟨fun h n hn hnd => h n (hx.decl n hn hnd), fun h n hn => h n (List.mem_append_left _ hn) (hdecl n hn)⟩
  refine ⟨c, s', e', hx.wf, hx.top, hx.ext,
    fun n hn => hx.named n (List.mem_append_left _ hn) (hdecl n hn),
    ⟨hx.vm, hx.dim.trans hs.dim, hx.nodes.trans hs.nodes, hx.scopes, hx.vars, by simp⟩,
    hx.satisfiable fun σ _ => trivial, ?_, ?_, ?_, ?_, ?_⟩
  · rintro β ⟨h1, h2⟩
    obtain ⟨σ, hσ⟩ := hx.reads β h2
    exact ⟨σ, (hx.sem β σ h2 hσ).1 h1, (hag β σ).2 hσ⟩
  · intro σ hσ
    obtain ⟨β, h1, h2⟩ := hx.con σ trivial
    exact ⟨β, ⟨(hx.sem β σ h1 h2).2 hσ, h1⟩, (hag β σ).2 h2⟩
  · intro β hβ
    obtain ⟨σ, hσ⟩ := hx.reads β hβ
    exact ⟨σ, (hag β σ).2 hσ⟩
  · intro σ
    obtain ⟨β, h1, h2⟩ := hx.con σ trivial
    exact ⟨β, h1, (hag β σ).2 h2⟩
  · intro β σ h1 h2
    exact hx.sem β σ h1 ((hag β σ).1 h2)

end Goexpdt

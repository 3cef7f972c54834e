import Verif.Spec.Reuse
import Verif.Lemmas.GroundQuery
/- The encoding of queries in contexts in which their names have been declared before. -/
namespace Goexpdt
open Spec Props

variable {d : Nat} {nodes : List Node} {T : DTree} {q : Query} {names others : List QVar} {s : Ctx}

theorem Ready.reused (h : Ready d nodes names s) : Reused d nodes names s :=
  ⟨h.vm, h.dim, h.nodes, h.scopes, h.vars, fun n hn hd => absurd hd (h.fresh n hn)⟩

theorem Reused.mono (h : Reused d nodes names s) (hn : ∀ n ∈ others, n ∈ names) : Reused d nodes others s :=
  { h with whole := fun n hn' => h.whole n (hn n hn') }

theorem Reused.pre {W : World} (h : Reused W.dim W.nodes names s) (hn : ∀ n, W.isInst n → n ∈ names) : Pre W [] s := by
  refine ⟨h.vm, h.dim, h.nodes, ?_, ?_, ?_, ?_, by simp⟩
  · intro v k hk; rw [h.vars] at hk; simp at hk
  · intro v k hk; rw [h.vars] at hk; simp at hk
  · intro n hi hd; exact h.whole n (hn n hi) hd
  · intro v k hk; rw [h.vars] at hk; simp at hk

/-- A sound query in a context where its names may have been declared before: the outcome and its meaning, … -/
theorem sound_query_permits (hg : q.Sound d nodes T) (hs : Reused d nodes (q.flat d T).names s) :
    ∃ c s', q.encode s = (.ok c, s') ∧ WF c ∧ Ext s s' ∧ (∀ n ∈ (q.flat d T).names, Declared s' n) ∧
      Permits d (q.flat d T).names (fun σ => (q.flat d T).sem d T σ) s s' c := by
  let W := worldOf d nodes T (fun _ => 0) hg.dim (q.flat d T).names [] (q.flat d T).uses
  have hWI : ∀ n, W.isInst n → n ∈ (q.flat d T).names := fun n hn => (List.mem_append.1 hn).elim id (by simp)
  obtain ⟨act, e, hc⟩ := query_shows (W := W) (T := T) q [] [] (fun _ => 0) hg.fits hg.tree
    (fun n hn => ⟨List.mem_append_left _ hn, hn⟩) (worldOf_plays fun u hu => by simpa using (hg.clean u hu).1)
  have hp : Pre W [] s := Reused.pre (W := W) hs hWI
  obtain ⟨c, s', e', p, l, hd⟩ := hc s hp (fun x => by rw [hs.vars]; rfl) (fun n hn => by simp at hn) hs.scopes
  have hp' := p.moves.pre
  have hdecl : ∀ n ∈ (q.flat d T).names, Declared s' n := fun n hn => (hd n (List.mem_append_left _ hn)).2
  refine ⟨c, s', by rw [Query.encode_eq e]; exact e', p.wf, p.moves.ext, hdecl, ?_, ?_⟩
  · intro σ hσ
    obtain ⟨β, hβ⟩ := exists_canon (W.at (q.levels 0 fun _ => 0)) hp'.vm (σ := σ) (hg.clean.coherent nodes σ)
    obtain ⟨β', h1, h2⟩ := p.con β σ hβ
    have hc' := h1.canon hp'.vm hβ
    have ha : Agree (W.at (q.levels 0 fun _ => 0)) s' β' σ := by
      intro n hn hnd i hi v hv
      rw [hc'.2 _ (hp'.inst n hn hnd i hi v hv)]
      exact W.inst_mean n hn σ i v hv
    exact ⟨β', ⟨(p.sem β' σ h2 ha).2 hσ, h2⟩, fun n hn => ha n (List.mem_append_left _ hn) (hdecl n hn)⟩
  · rintro β ⟨h1, h2⟩ hr
    classical
    have hex : ∀ n ∈ (q.flat d T).names, ∃ e, Reads d s' β n e := fun n hn =>
      if h : Declared s n then hr n hn h else p.inst β h2 n (List.mem_append_left _ hn) (hdecl n hn) h
    let σ : Asg := fun n => if h : n ∈ (q.flat d T).names then (hex n h).choose else bot
    have hσ : ∀ n ∈ (q.flat d T).names, Reads d s' β n (σ n) := by
      intro n hn
      simp only [σ, dif_pos hn]
      exact (hex n hn).choose_spec
    exact ⟨σ, (p.sem β σ h2 fun n hn _ => hσ n (hWI n hn)).1 h1, hσ⟩

/-- … and the context afterwards. -/
theorem sound_query_reused (hg : q.Sound d nodes T) (hw : q.Within d T names) (hs : Reused d nodes names s) :
    ∃ c s', q.encode s = (.ok c, s') ∧ WF c ∧ Ext s s' ∧ Reused d nodes names s' ∧ (∀ n ∈ (q.flat d T).names, Declared s' n) ∧
      (∀ n ∈ names, Declared s' n → Declared s n ∨ n ∈ (q.flat d T).names) ∧
      Permits d (q.flat d T).names (fun σ => (q.flat d T).sem d T σ) s s' c := by
  let W := worldOf d nodes T (fun _ => 0) hg.dim (q.flat d T).names names (q.flat d T).uses
  have hWI : ∀ n, W.isInst n → n ∈ names := fun n hn => (List.mem_append.1 hn).elim (hw.1 n) id
  obtain ⟨act, e, hc⟩ := query_shows (W := W) (T := T) q [] [] (fun _ => 0) hg.fits hg.tree
    (fun n hn => ⟨List.mem_append_left _ hn, hn⟩) (worldOf_plays fun u hu => by
      rw [List.mem_append, not_or]
      exact ⟨(hg.clean u hu).1, hw.2 u hu⟩)
  have hp : Pre W [] s := Reused.pre (W := W) hs hWI
  obtain ⟨c, s', e', p, l, hd⟩ := hc s hp (fun x => by rw [hs.vars]; rfl) (fun n hn => by simp at hn) hs.scopes
  have hp' := p.moves.pre
  have hsc : s'.scopes = [] := p.moves.scopes.trans hs.scopes
  have hvars : s'.vars = [] := by
    refine List.eq_nil_iff_forall_not_mem.2 ?_
    rintro ⟨x, k⟩ hx
    have := hp'.scope x k (hp'.fn x k hx)
    rw [hsc] at this
    simp at this
    omega
  obtain ⟨c1, s1, e1, w, x, dc, hpm⟩ := sound_query_permits hg (hs.mono hw.1)
  rw [Query.encode_eq e, e'] at e1
  obtain ⟨h1, rfl⟩ := Prod.mk.inj e1
  obtain rfl := Except.ok.inj h1
  exact ⟨c, s', by rw [Query.encode_eq e]; exact e', w, x,
    ⟨hp'.vm, hp'.dim, hp'.nodes, hsc, hvars, fun n hn => hp'.inst n (List.mem_append_right _ hn)⟩, dc,
    fun n hn => p.moves.decl n (List.mem_append_right _ hn), hpm⟩

/-- The same query twice: together with the consistency clauses of the first CNF, the second one says what the query says. -/
theorem sound_query_twice (hg : q.Sound d nodes T) (hs : Ready d nodes (q.flat d T).names s) :
    ∃ c1 s1 c2 s2, q.encode s = (.ok c1, s1) ∧ q.encode s1 = (.ok c2, s2) ∧ WF c1 ∧ WF c2 ∧
      (∀ β, ConTrue β c1 → Models β c2 → ∃ σ, (q.flat d T).sem d T σ ∧ ∀ n ∈ (q.flat d T).names, Reads d s2 β n (σ n)) ∧
      ∀ σ, (q.flat d T).sem d T σ → ∃ β, ConTrue β c1 ∧ Models β c2 ∧ ∀ n ∈ (q.flat d T).names, Reads d s2 β n (σ n) := by
  let W := worldOf d nodes T (fun _ => 0) hg.dim (q.flat d T).names [] (q.flat d T).uses
  have hWI : ∀ n, W.isInst n → n ∈ (q.flat d T).names := fun n hn => (List.mem_append.1 hn).elim id (by simp)
  obtain ⟨act, e, hc⟩ := query_shows (W := W) (T := T) q [] [] (fun _ => 0) hg.fits hg.tree
    (fun n hn => ⟨List.mem_append_left _ hn, hn⟩) (worldOf_plays fun u hu => by simpa using (hg.clean u hu).1)
  obtain ⟨c1, s1, e1, p1, -, hd1⟩ := hc s (Reused.pre (W := W) hs.reused hWI) (fun x => by rw [hs.vars]; rfl) (fun n hn => by simp at hn) hs.scopes
  obtain ⟨c1', s1', e1', -, -, hs1, -⟩ := sound_query_reused (names := (q.flat d T).names) hg
    ⟨fun _ => id, fun u hu => (hg.clean u hu).1⟩ hs.reused
  rw [Query.encode_eq e, e1] at e1'
  obtain ⟨h1, rfl⟩ := Prod.mk.inj e1'
  obtain rfl := Except.ok.inj h1
  clear h1 e1'
  obtain ⟨c2, s2, e2, p2, -, hd2⟩ := hc s1 (Reused.pre (W := W) hs1 hWI) (fun x => by rw [hs1.vars]; rfl) (fun n hn => by simp at hn) hs1.scopes
  have hp2 := p2.moves.pre
  have hdecl1 : ∀ n ∈ (q.flat d T).names, Declared s1 n := fun n hn => (hd1 n (List.mem_append_left _ hn)).2
  have hdecl2 : ∀ n ∈ (q.flat d T).names, Declared s2 n := fun n hn => (hd2 n (List.mem_append_left _ hn)).2
  rw [Query.encode_eq e]
  refine ⟨c1, s1, c2, s2, e1, e2, p1.wf, p2.wf, ?_, ?_⟩
  · rintro β h1 ⟨h2, h3⟩
    classical
    have hex : ∀ n ∈ (q.flat d T).names, ∃ e, Reads d s2 β n e := by
      intro n hn
      obtain ⟨e, he⟩ := p1.inst β h1 n (List.mem_append_left _ hn) (hdecl1 n hn) (hs.fresh n hn)
      exact ⟨e, fun i hi v hv => by
        rw [← he i hi v hv]
        exact symVal_ext p2.moves.ext (hs1.whole n hn (hdecl1 n hn) i hi v hv) β⟩
    let σ : Asg := fun n => if h : n ∈ (q.flat d T).names then (hex n h).choose else bot
    have hσ : ∀ n ∈ (q.flat d T).names, Reads d s2 β n (σ n) := by
      intro n hn
      simp only [σ, dif_pos hn]
      exact (hex n hn).choose_spec
    exact ⟨σ, (p2.sem β σ h3 fun n hn _ => hσ n (hWI n hn)).1 h2, hσ⟩
  · intro σ hσ
    obtain ⟨β, hβ⟩ := exists_canon (W.at (q.levels 0 fun _ => 0)) hp2.vm (σ := σ) (hg.clean.coherent nodes σ)
    obtain ⟨β1, h1, h2⟩ := p1.con β σ (Canon.of_ext p2.moves.ext hβ)
    have hβ1 : Canon (W.at (q.levels 0 fun _ => 0)) s2 β1 σ := by
      refine ⟨hβ.1, ?_⟩
      rintro vr ⟨n, hn⟩
      have hr := hp2.vm.range _ _ hn
      rw [← hβ.2 vr ⟨n, hn⟩]
      unfold symVal
      rw [num_eq hn]
      refine h1 _ ?_
      rw [show ((n.natAbs : Nat) : Int) = n by omega]
      cases hv : mapGet s1.vmap vr with
      | none => exact .inr (.inl (p2.moves.ext.fresh vr n hv hn))
      | some k =>
        have := p2.moves.ext.keep vr k hv
        rw [hn] at this
        obtain rfl := Option.some.inj this
        exact .inr (.inr ⟨vr, hv⟩)
    obtain ⟨β2, h3, h4⟩ := p2.con β1 σ hβ1
    have hβ2 := h3.canon hp2.vm hβ1
    have ha : Agree (W.at (q.levels 0 fun _ => 0)) s2 β2 σ := by
      intro n hn hnd i hi v hv
      rw [hβ2.2 _ (hp2.inst n hn hnd i hi v hv)]
      exact W.inst_mean n hn σ i v hv
    exact ⟨β2, conTrue_same p1.wf p1.top h3 h2, ⟨(p2.sem β2 σ h4 ha).2 hσ, h4⟩, fun n hn => ha n (List.mem_append_left _ hn) (hdecl2 n hn)⟩

end Goexpdt

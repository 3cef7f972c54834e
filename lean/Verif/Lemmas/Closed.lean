import Verif.Lemmas.CaptureQuery
/- The encoding of a closed query is faithful to what it says. -/
namespace Goexpdt
open Spec

theorem Ready.fresh_ctx (d : Nat) (nodes : List Node) (names : List QVar) :
    Ready d nodes names (BasicQContext d nodes) := by
  refine ⟨⟨Int.le_refl _, ?_, ?_⟩, rfl, rfl, rfl, rfl, ?_⟩
  · intro vr n h; exact absurd h (by simp [BasicQContext])
  · intro vr vr' n h; exact absurd h (by simp [BasicQContext])
  · rintro n _ ⟨k, h⟩; exact absurd h (by simp [BasicQContext])

theorem Ready.pre {W : World} {s : Ctx} {names : List QVar} (h : Ready W.dim W.nodes names s)
    (hn : ∀ n, W.isInst n → n ∈ names) : Pre W [] s := by
  refine ⟨h.vm, h.dim, h.nodes, ?_, ?_, ?_, ?_, by simp⟩
  · intro v k hk; rw [h.vars] at hk; simp at hk
  · intro v k hk; rw [h.vars] at hk; simp at hk
  · intro n hi hd; exact absurd hd (h.fresh n (hn n hi))
  · intro v k hk; rw [h.vars] at hk; simp at hk

theorem Query.encode_eq {q : Query} {act : M CNF} (h : q.comp = some act) : q.encode = act := by
  unfold Query.encode; rw [h]

/-- A closed query satisfying the conditions: outcome and meaning of its encoding. It declares none of the
names `others`, unless they are names of the query. -/
theorem good_query_apart {d : Nat} {nodes : List Node} {T : DTree} {depth : QVar → Nat} {q : Query}
    (hg : q.Good d nodes T depth) {others : List QVar} (ho : ∀ u ∈ q.uses d T depth [], u.1 ∉ others)
    {s : Ctx} (hs : Ready d nodes (q.names d T [] ++ others) s) :
    ∃ c s', q.encode s = (.ok c, s') ∧ WF c ∧ c.tv ≤ s'.topv ∧ Ext s s' ∧
      (∀ n ∈ q.names d T [], ∀ i < d, ∀ v ∈ featVals, Named s' ⟨n, (i : Nat), v⟩) ∧ Ready d nodes [] s' ∧
      (∀ n ∈ others, n ∉ q.names d T [] → ¬ Declared s' n) ∧
      Faithful d (q.names d T []) (fun σ => q.sem d T depth σ []) s' c := by
  let W := worldOf d nodes T depth hg.dim (q.names d T []) others (q.uses d T depth [])
  obtain ⟨act, e, hc, hd⟩ := query_captures (W := W) (T := T) q [] [] hg.fits
    (fun n hn => ⟨List.mem_append_left _ hn, hn⟩) (worldOf_plays fun u hu => by
      rw [List.mem_append, not_or]
      exact ⟨(hg.clean u hu).1, ho u hu⟩)
  have hco : ∀ σ, W.dom σ := hg.clean.coherent nodes
  have hp : Pre W [] s := Ready.pre (W := W) hs fun n hn => hn
  obtain ⟨c, s', e', hx⟩ := hc.exact hp hs.scopes hs.fresh
  have hdecl : ∀ n ∈ q.names d T [], Declared s' n := by
    intro n hn
    have := hd s hp hs.scopes n hn
    rw [e'] at this
    exact this
  have hag : ∀ β σ, (∀ n ∈ q.names d T [], Reads d s' β n (σ n)) ↔ Agree W s' β σ := by
    intro β σ
    exact ⟨fun h n hn hnd => h n (hx.decl n hn hnd), fun h n hn => h n (List.mem_append_left _ hn) (hdecl n hn)⟩
  refine ⟨c, s', by rw [Query.encode_eq e]; exact e', hx.wf, hx.top, hx.ext,
    fun n hn => hx.named n (List.mem_append_left _ hn) (hdecl n hn),
    ⟨hx.vm, hx.dim.trans hs.dim, hx.nodes.trans hs.nodes, hx.scopes, hx.vars, by simp⟩,
    fun n hn hnn hnd => hnn (hx.decl n (List.mem_append_right _ hn) hnd),
    hx.satisfiable fun σ _ => hco σ, ?_, ?_, ?_, ?_, ?_⟩
  · rintro β ⟨h1, h2⟩
    obtain ⟨σ, hσ⟩ := hx.reads β h2
    exact ⟨σ, (hx.sem β σ h2 hσ).1 h1, (hag β σ).2 hσ⟩
  · intro σ hσ
    obtain ⟨β, h1, h2⟩ := hx.con σ (hco σ)
    exact ⟨β, ⟨(hx.sem β σ h1 h2).2 hσ, h1⟩, (hag β σ).2 h2⟩
  · intro β hβ
    obtain ⟨σ, hσ⟩ := hx.reads β hβ
    exact ⟨σ, (hag β σ).2 hσ⟩
  · intro σ
    obtain ⟨β, h1, h2⟩ := hx.con σ (hco σ)
    exact ⟨β, h1, (hag β σ).2 h2⟩
  · intro β σ h1 h2
    exact hx.sem β σ h1 ((hag β σ).1 h2)

theorem good_query {d : Nat} {nodes : List Node} {T : DTree} {depth : QVar → Nat} {q : Query}
    (hg : q.Good d nodes T depth) {s : Ctx} (hs : Ready d nodes (q.names d T []) s) :
    ∃ c s', q.encode s = (.ok c, s') ∧ WF c ∧ c.tv ≤ s'.topv ∧ Ext s s' ∧
      (∀ n ∈ q.names d T [], ∀ i < d, ∀ v ∈ featVals, Named s' ⟨n, (i : Nat), v⟩) ∧ Ready d nodes [] s' ∧
      Faithful d (q.names d T []) (fun σ => q.sem d T depth σ []) s' c := by
  obtain ⟨c, s', h1, h2, h3, h4, h5, h6, -, h7⟩ := good_query_apart hg (others := []) (by simp) (by simpa using hs)
  exact ⟨c, s', h1, h2, h3, h4, h5, h6, h7⟩

/-- A sufficient condition without instances. -/
theorem Hygienic.of_eq {d : Nat} {T : DTree} {names : List QVar} {uses : List (QVar × Role)}
    (h : ∀ u ∈ uses, u.1 ∉ names ∧ ∀ u' ∈ uses, u'.1 = u.1 → u'.2 = u.2) : Hygienic d T names uses :=
  fun u hu => ⟨(h u hu).1, fun u' hu' e σ i v => by rw [(h u hu).2 u' hu' e]⟩

end Goexpdt

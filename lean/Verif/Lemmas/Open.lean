import Verif.Spec.Open
import Verif.Lemmas.Closed
import Verif.Lemmas.Fo
namespace Goexpdt
open Spec

theorem ReadyIn.pre {W : World} {stack : List Scope} {s : Ctx} {names : List QVar} (h : ReadyIn W.dim W.nodes stack names s)
    (hn : ∀ n, W.isInst n → n ∈ names) : Pre W [] s := by
  refine ⟨h.vm, h.dim, h.nodes, ?_, ?_, ?_, ?_, by simp⟩
  · intro v k hk; rw [h.vars] at hk; simp at hk
  · intro v k hk; rw [h.vars] at hk; simp at hk
  · intro n hi hd; exact absurd hd (h.fresh n (hn n hi))
  · intro v k hk; rw [h.vars] at hk; simp at hk

theorem ReadyIn.fresh_ctx (d : Nat) (nodes : List Node) (stack : List Scope) (names : List QVar) :
    ReadyIn d nodes stack names { BasicQContext d nodes with scopes := stack } := by
  refine ⟨⟨Int.le_refl _, ?_, ?_⟩, rfl, rfl, rfl, rfl, ?_⟩
  · intro vr n h; exact absurd h (by simp [BasicQContext])
  · intro vr vr' n h; exact absurd h (by simp [BasicQContext])
  · rintro n _ ⟨k, h⟩; exact absurd h (by simp [BasicQContext])

/-- Outcome and meaning of the encoding of a query where scopes are open. -/
theorem open_query {d : Nat} {nodes : List Node} {T : DTree} {depth : QVar → Nat} {stack : List Scope} {q : Query}
    (hg : q.GoodIn d nodes T depth stack) {others : List QVar} (ho : ∀ u ∈ q.uses d T depth stack, u.1 ∉ others)
    {s : Ctx} (hs : ReadyIn d nodes stack (q.names d T stack ++ others) s) :
    ∃ c s', q.encode s = (.ok c, s') ∧ WF c ∧ (VMok s' ∧ s'.dim = d ∧ s'.nodes = nodes ∧ s'.scopes = stack) ∧
      (∀ p ∈ s'.vars, p.2 = stack.length ∧ 0 < stack.length) ∧
      (∀ n ∈ others, n ∉ q.names d T stack → ¬ Declared s' n) ∧
      Faithful d (q.names d T stack) (fun σ => q.sem d T depth σ stack) s' c := by
  let W := worldOf d nodes T depth hg.dim (q.names d T stack) others (q.uses d T depth stack)
  obtain ⟨act, e, hc, hd⟩ := query_captures (W := W) (T := T) q [] stack hg.fits
    (fun n hn => ⟨List.mem_append_left _ hn, hn⟩) (worldOf_plays fun u hu => by
      rw [List.mem_append, not_or]
      exact ⟨(hg.clean u hu).1, ho u hu⟩)
  have hco : ∀ σ, W.dom σ := hg.clean.coherent nodes
  have hp : Pre W [] s := ReadyIn.pre (W := W) hs fun n hn => hn
  obtain ⟨c, s', e', p⟩ := hc s hp hs.scopes
  have hp' := p.moves.pre
  have hnew : ∀ n, W.isInst n → ¬ Declared s n := fun n hn => hs.fresh n hn
  have hin : ∀ n, W.isInst n → Declared s' n → n ∈ q.names d T stack :=
    fun n hn hd => (p.moves.decl n hn hd).elim (fun h => absurd h (hnew n hn)) id
  have hdecl : ∀ n ∈ q.names d T stack, Declared s' n := by
    intro n hn
    have := hd s hp hs.scopes n hn
    rw [e'] at this
    exact this
  have hag : ∀ β σ, (∀ n ∈ q.names d T stack, Reads d s' β n (σ n)) ↔ Agree W s' β σ := by
    intro β σ
    exact ⟨fun h n hn hd => h n (hin n hn hd), fun h n hn => h n (List.mem_append_left _ hn) (hdecl n hn)⟩
  have hcan : ∀ β σ, Canon W s' β σ → Agree W s' β σ := by
    intro β σ hc n hn hd i hi v hv
    rw [hc.2 _ (hp'.inst n hn hd i hi v hv)]
    exact W.inst_mean n hn σ i v hv
  have reads : ∀ β, ConTrue β c → ∃ σ, Agree W s' β σ := by
    intro β hc
    classical
    refine ⟨fun n => if h : W.isInst n ∧ Declared s' n then
      (p.inst β hc n h.1 h.2 (hnew n h.1)).choose else bot, ?_⟩
    intro n hn hd
    have hh : W.isInst n ∧ Declared s' n := ⟨hn, hd⟩
    simp only [dif_pos hh]
    exact (p.inst β hc n hn hd (hnew n hn)).choose_spec
  have con : ∀ σ, ∃ β, ConTrue β c ∧ Agree W s' β σ := by
    intro σ
    obtain ⟨β, hβ⟩ := exists_canon W hp'.vm (hco σ)
    obtain ⟨β', h1, h2⟩ := p.con β σ hβ
    exact ⟨β', h2, hcan _ _ (h1.canon hp'.vm hβ)⟩
  refine ⟨c, s', by rw [Query.encode_eq e]; exact e', p.wf,
    ⟨hp'.vm, hp'.dim, hp'.nodes, p.moves.scopes.trans hs.scopes⟩, ?_,
    fun n hn hnn hd => hnn (hin n (List.mem_append_right _ hn) hd), ?_, ?_, ?_, ?_, ?_, ?_⟩
  · rintro ⟨x, k⟩ hk
    rcases p.moves.new x k (hp'.fn x k hk) with h | h
    · rw [hs.vars] at h; simp at h
    · rw [← hs.scopes]; exact h
  · constructor
    · rintro ⟨β, h1, h2⟩
      obtain ⟨σ, hσ⟩ := reads β h2
      exact ⟨σ, (p.sem β σ h2 hσ).1 h1⟩
    · rintro ⟨σ, hσ⟩
      obtain ⟨β, h1, h2⟩ := con σ
      exact ⟨β, (p.sem β σ h1 h2).2 hσ, h1⟩
  · rintro β ⟨h1, h2⟩
    obtain ⟨σ, hσ⟩ := reads β h2
    exact ⟨σ, (p.sem β σ h2 hσ).1 h1, (hag β σ).2 hσ⟩
  · intro σ hσ
    obtain ⟨β, h1, h2⟩ := con σ
    exact ⟨β, ⟨(p.sem β σ h1 h2).2 hσ, h1⟩, (hag β σ).2 h2⟩
  · intro β hβ
    obtain ⟨σ, hσ⟩ := reads β hβ
    exact ⟨σ, (hag β σ).2 hσ⟩
  · intro σ
    obtain ⟨β, h1, h2⟩ := con σ
    exact ⟨β, h1, (hag β σ).2 h2⟩
  · intro β σ h1 h2
    exact p.sem β σ h1 ((hag β σ).1 h2)

theorem openScopes_eq (gs : List Scope) : ∀ s : Ctx, openScopes s gs = { s with scopes := s.scopes ++ gs } := by
  induction gs with
  | nil => intro s; simp [openScopes]
  | cons g gs ih =>
    intro s
    rw [openScopes, ih]
    simp [Ctx.addScope, Ctx.setScope, setLast_append]

theorem closeScopes_eq (n : Nat) : ∀ s : Ctx, s.scopes.length = n → (∀ p ∈ s.vars, p.2 = n) → (n = 0 → s.vars = []) →
    closeScopes s n = { s with scopes := [], vars := [] } := by
  induction n with
  | zero =>
    intro s h1 _ h3
    have := List.eq_nil_of_length_eq_zero h1
    cases s
    simp_all [closeScopes]
  | succ n ih =>
    intro s h1 h2 _
    have hv : s.vars.filter (fun p => ¬ p.2 = s.scopes.length) = [] := by
      rw [List.filter_eq_nil_iff]
      intro p hp
      simp [h2 p hp, h1]
    have he : (s.popScope).2 = { s with scopes := s.scopes.dropLast, vars := [] } := by
      unfold Ctx.popScope
      rw [if_neg (by omega), hv]
    rw [closeScopes, he, ih _ (by simp [h1]) (by simp) (fun _ => rfl)]

theorem guardVals_rel (d : Nat) (stack : List Scope) : GRel d stack (guardVals stack) := by
  intro id
  unfold guardVals
  cases stack.find? (fun g => g.target == id) with
  | none => rfl
  | some g => exact ⟨_, rfl, fun _ _ => rfl⟩

theorem exists_sem_iff_fo_in {d : Nat} {nodes : List Node} {T : DTree} {depth : QVar → Nat} {stack : List Scope} {q : Query}
    (hf : q.Fits d nodes T depth [] stack) (hq : q.PlainIn stack) :
    (∃ σ, q.sem d T depth σ stack) ↔ q.fo d T (fun _ => bot) (guardVals stack) := by
  have hr : ∀ σ, Rel d T depth [] stack (fun _ => bot) (guardVals stack) σ :=
    fun σ => ⟨guardVals_rel d stack, by simp, by simp⟩
  constructor
  · rintro ⟨σ, hs⟩
    exact sem_fo q [] stack _ _ σ hq.positive hq.distinct (by simp) hf hq.guards (hr σ) hs
  · intro h
    obtain ⟨σ, -, hs⟩ := fo_sem q [] stack _ _ (fun _ => bot) hq.positive
      ⟨hq.distinct, by simp, hq.names, by simp, hq.targets, hq.guards, by simp⟩ hf (hr _) h
    exact ⟨σ, hs⟩

end Goexpdt

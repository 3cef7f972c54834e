import Verif.Lemmas.OptimOrder
import Verif.Spec.Own
/- Queries with predicates of the user's own: their encodings capture what they say. -/
namespace Goexpdt
open Spec Props

variable {W : World} {T : DTree}

/-- The auxiliary variable means what it is meant to. -/
def Serves (W : World) (u : QVar × Purpose) : Prop :=
  ¬ W.isInst u.1 ∧ ∀ σ, W.dom σ → ∀ i v, u.2.range i v → W.mean u.1 σ i v = u.2.mean σ i v

theorem own_captures (q : OQuery) : ∀ (Γ : List QVar) (stack : List Scope),
    q.Fits W.dim W.nodes T W.depth Γ stack →
    (∀ n ∈ q.skel.names W.dim T stack, W.isInst n ∧ W.may n) →
    (∀ u ∈ q.aux W.dim T W.depth stack, Serves W u) →
    Captures W Γ stack q.encode (fun σ => q.sem W.dim T W.depth σ stack) ∧
      Declares W Γ stack q.encode (· ∈ q.skel.names W.dim T stack) := by
  induction q with
  | pred p =>
    intro Γ stack h _ hu
    exact ⟨h.1.captures W Γ stack rfl rfl h.2.1 h.2.2.1 h.2.2.2 hu, fun _ _ _ n hn => by simp [OQuery.skel, Query.names] at hn⟩
  | and q1 q2 ih1 ih2 =>
    intro Γ stack h hn hu
    simp only [OQuery.skel, Query.names, OQuery.aux, List.mem_append] at hn hu
    obtain ⟨c1, d1⟩ := ih1 Γ stack h.1 (fun n hn' => hn n (.inl hn')) (fun u hu' => hu u (.inl hu'))
    obtain ⟨c2, d2⟩ := ih2 Γ stack h.2 (fun n hn' => hn n (.inr hn')) (fun u hu' => hu u (.inr hu'))
    refine ⟨c1.encAnd c2, ?_⟩
    intro s hp hs n hn
    exact Declares.encAnd c1 c2 d1 d2 s hp hs n (by simpa [OQuery.skel, Query.names] using hn)
  | or q1 q2 ih1 ih2 =>
    intro Γ stack h hn hu
    simp only [OQuery.skel, Query.names, OQuery.aux, List.mem_append] at hn hu
    obtain ⟨c1, d1⟩ := ih1 Γ stack h.1 (fun n hn' => hn n (.inl hn')) (fun u hu' => hu u (.inl hu'))
    obtain ⟨c2, d2⟩ := ih2 Γ stack h.2 (fun n hn' => hn n (.inr hn')) (fun u hu' => hu u (.inr hu'))
    refine ⟨c1.encOr c2, ?_⟩
    intro s hp hs n hn
    exact Declares.encOr c1 c2 d1 d2 s hp hs n (by simpa [OQuery.skel, Query.names] using hn)
  | not q ih =>
    intro Γ stack h hn hu
    obtain ⟨c, dd⟩ := ih Γ stack h hn hu
    exact ⟨c.encNot, Declares.encNot c dd⟩
  | withVar x q ih =>
    intro Γ stack h hn hu
    simp only [OQuery.skel, Query.names, List.mem_cons] at hn
    obtain ⟨c, dd⟩ := ih (x :: Γ) stack h.2 (fun n hn' => hn n (.inr hn')) hu
    have hnm : W.nm stack x = x ++ suffix stack := by
      unfold World.nm
      rw [h.1, List.take_length]
    have hin : W.isInst (W.nm stack x) ∧ W.may (W.nm stack x) := by rw [hnm]; exact hn _ (.inl rfl)
    refine ⟨Captures.encWithVar h.1 hin.1 hin.2 c, ?_⟩
    intro s hp hs n hn
    refine Declares.encWithVar h.1 hin.1 hin.2 c dd s hp hs n ?_
    rw [hnm]
    simpa [OQuery.skel, Query.names] using hn
  | forallG k q ih =>
    intro Γ stack h hn hu
    obtain ⟨hT, hC, hf⟩ := h
    have hok := C18_accepted _ _ _ hT.raw hC
    obtain ⟨ws, hws, -⟩ := C17_terminates _ _ _ hok
    obtain ⟨hv, hg⟩ := C18_values _ _ _ hT ws hws
    simp only [OQuery.skel, Query.names, OQuery.aux, List.mem_flatMap] at hn hu
    have hscope : ∀ i w, ws[i]? = some w →
        (⟨k.id, w.t, (i : Nat)⟩ : Scope) ∈ scopesOf W.dim T k.id ∧ (T.nodeInsts bot)[i]? = some (w.cp, den w.t) ∧
        (⟨k.id, w.t, (i : Nat)⟩ : Scope) = scopeAt W.dim k.id i (w.cp, den w.t) := by
      intro i w hw
      have h1 : (T.nodeInsts bot)[i]? = some (w.cp, den w.t) := by rw [← hv, List.getElem?_map, hw]; rfl
      have h2 : (⟨k.id, w.t, (i : Nat)⟩ : Scope) = scopeAt W.dim k.id i (w.cp, den w.t) := by
        unfold scopeAt
        rw [valsOf_den (hg w (List.mem_of_getElem? hw))]
      exact ⟨mem_scopesOf.2 ⟨i, _, h1, h2⟩, h1, h2⟩
    have hch : ∀ i w, ws[i]? = some w →
        Captures W Γ (stack ++ [⟨k.id, w.t, (i : Nat)⟩]) q.encode
          (fun σ => ∀ w, ws[i]? = some w → q.sem W.dim T W.depth σ (stack ++ [⟨k.id, w.t, (i : Nat)⟩])) ∧
        Declares W Γ (stack ++ [⟨k.id, w.t, (i : Nat)⟩]) q.encode
          (fun n => ∃ w, ws[i]? = some w ∧ n ∈ q.skel.names W.dim T (stack ++ [⟨k.id, w.t, (i : Nat)⟩])) := by
      intro i w hw
      obtain ⟨hm, -, -⟩ := hscope i w hw
      obtain ⟨c, dd⟩ := ih Γ _ (hf _ hm) (fun n hn' => hn n ⟨_, hm, hn'⟩) (fun u hu' => hu u ⟨_, hm, hu'⟩)
      refine ⟨c.congr fun σ => ?_, ?_⟩
      · constructor
        · intro hs w' hw'
          rw [hw] at hw'
          simp only [Option.some.injEq] at hw'
          subst hw'
          exact hs
        · intro hs; exact hs w hw
      · rintro s hp hs n ⟨w', hw', hn'⟩
        rw [hw] at hw'
        simp only [Option.some.injEq] at hw'
        subst hw'
        exact dd s hp hs n hn'
    have hback : ∀ g ∈ scopesOf W.dim T k.id, ∃ i, ∃ hi : i < ws.length, g = ⟨k.id, ws[i].t, (i : Nat)⟩ := by
      intro g hg'
      obtain ⟨i, p, hp, rfl⟩ := mem_scopesOf.1 hg'
      have hi : i < ws.length := by
        have := (List.getElem?_eq_some_iff.1 hp).1
        rw [← hv] at this
        simpa using this
      obtain ⟨-, h1, h2⟩ := hscope i ws[i] (List.getElem?_eq_getElem hi)
      rw [hp] at h1
      simp only [Option.some.injEq] at h1
      subst h1
      exact ⟨i, hi, h2.symm⟩
    refine ⟨?_, ?_⟩
    · refine (Captures.encForall hok hws fun i w hw => (hch i w hw).1).congr fun σ => ?_
      constructor
      · intro hs g hg'
        obtain ⟨i, hi, rfl⟩ := hback g hg'
        exact hs i hi ws[i] (List.getElem?_eq_getElem hi)
      · intro hs i hi w hw
        exact hs _ (hscope i w hw).1
    · intro s hp hs n hn'
      refine Declares.encForall hok hws hch s hp hs n ?_
      simp only [OQuery.skel, Query.names, List.mem_flatMap] at hn'
      obtain ⟨g, hg', hn'⟩ := hn'
      obtain ⟨i, hi, rfl⟩ := hback g hg'
      exact ⟨i, hi, ws[i], List.getElem?_eq_getElem hi, hn'⟩

/-! ### the world of a closed query -/

/-- No auxiliary variable is meant to say two different things. -/
def Clean (names : List QVar) (aux : List (QVar × Purpose)) : Prop :=
  ∀ u ∈ aux, u.1 ∉ names ∧ ∀ u' ∈ aux, u'.1 = u.1 → ∀ σ i v, u.2.range i v → u'.2.range i v → u'.2.mean σ i v = u.2.mean σ i v

noncomputable def ownWorld (d : Nat) (nodes : List Node) (depth : QVar → Nat) (hd : 0 < d)
    (names others : List QVar) (aux : List (QVar × Purpose)) : World where
  dim := d
  nodes := nodes
  isInst n := n ∈ names ++ others
  may n := n ∈ names
  mean n σ i v := if n ∈ names ++ others then decide (valOf (σ n i.toNat) = v) else
    open Classical in
    match aux.find? (fun u => u.1 == n && decide (u.2.range i v)) with
    | some u => u.2.mean σ i v
    | none => false
  depth := depth
  dom _ := True
  dim_pos := hd
  inst_mean := by
    intro n hn σ i v _
    rw [if_pos hn]; simp

theorem ownWorld_serves {d : Nat} {nodes : List Node} {depth : QVar → Nat} {hd : 0 < d}
    {names others : List QVar} {aux : List (QVar × Purpose)} (h : Clean (names ++ others) aux) :
    ∀ u ∈ aux, Serves (ownWorld d nodes depth hd names others aux) u := by
  intro u hu
  have h1 := (h u hu).1
  refine ⟨h1, fun σ _ i v hr => ?_⟩
  simp only [ownWorld, if_neg h1]
  split
  · next u' hf =>
    have hm := List.mem_of_find?_eq_some hf
    have he := List.find?_some hf
    simp only [Bool.and_eq_true, beq_iff_eq, decide_eq_true_eq] at he
    exact (h u hu).2 u' hm he.1 σ i v hr he.2
  · next hf =>
    rw [List.find?_eq_none] at hf
    refine absurd ?_ (hf u hu)
    simp only [beq_self_eq_true, Bool.true_and, decide_eq_true_eq]
    exact hr

theorem good_own {d : Nat} {nodes : List Node} {depth : QVar → Nat} {q : OQuery}
    (hg : q.Good d nodes T depth) {s : Ctx} (hs : Ready d nodes (q.names d T) s) :
    ∃ c s', q.encode s = (.ok c, s') ∧ WF c ∧ c.tv ≤ s'.topv ∧ Ext s s' ∧
      (∀ n ∈ q.names d T, ∀ i < d, ∀ v ∈ featVals, Named s' ⟨n, (i : Nat), v⟩) ∧ Ready d nodes [] s' ∧
      Faithful d (q.names d T) (fun σ => q.sem d T depth σ []) s' c := by
  let W := ownWorld d nodes depth hg.dim (q.names d T) [] (q.aux d T depth [])
  obtain ⟨hc, hd⟩ := own_captures (W := W) (T := T) q [] [] hg.fits
    (fun n hn => ⟨List.mem_append_left _ hn, hn⟩) (ownWorld_serves (by rw [List.append_nil]; exact hg.clean))
  have hp : Pre W [] s := Ready.pre (W := W) hs fun n hn => by simpa [W, ownWorld] using hn
  obtain ⟨c, s', e', hx⟩ := hc.exact hp hs.scopes fun n hn => hs.fresh n (by simpa [W, ownWorld] using hn)
  have hdecl : ∀ n ∈ q.names d T, Declared s' n := by
    intro n hn
    have := hd s hp hs.scopes n hn
    rw [e'] at this
    exact this
  have hag : ∀ β σ, (∀ n ∈ q.names d T, Reads d s' β n (σ n)) ↔ Agree W s' β σ := by
    intro β σ
    exact ⟨fun h n hn hnd => h n (hx.decl n hn hnd), fun h n hn => h n (List.mem_append_left _ hn) (hdecl n hn)⟩
  refine ⟨c, s', e', hx.wf, hx.top, hx.ext,
    fun n hn => hx.named n (List.mem_append_left _ hn) (hdecl n hn),
    ⟨hx.vm, hx.dim.trans hs.dim, hx.nodes.trans hs.nodes, hx.scopes, hx.vars, by simp⟩,
    hx.satisfiable fun σ _ => trivial, ?_, ?_, ?_, ?_, ?_⟩
  · rintro β ⟨h1, h2⟩
    obtain ⟨σ, hσ⟩ := hx.reads β h2
    exact ⟨σ, (hx.sem β σ h2 hσ).1 h1, (hag β σ).2 hσ⟩
  · intro σ hσ
    obtain ⟨β, h1, h2⟩ := hx.con σ trivial
    exact ⟨β, ⟨(hx.sem β σ h1 h2).2 hσ, h1⟩, (hag β σ).2 h2⟩
  · intro β hβ
    obtain ⟨σ, hσ⟩ := hx.reads β hβ
    exact ⟨σ, (hag β σ).2 hσ⟩
  · intro σ
    obtain ⟨β, h1, h2⟩ := hx.con σ trivial
    exact ⟨β, h1, (hag β σ).2 h2⟩
  · intro β σ h1 h2
    exact hx.sem β σ h1 ((hag β σ).1 h2)

/-! ### first-order semantics -/

variable {d : Nat} {nodes : List Node} {depth : QVar → Nat}
variable {Γ : List QVar} {stack : List Scope} {env : QVar → PInst} {guards : List Char → Option PInst} {σ σ' : Asg}

theorem Rel.pred (h : Rel d T depth Γ stack env guards σ) {p : Pred} (hf : (OQuery.pred p).Fits d nodes T depth Γ stack) :
    (p.says fun t => (t.res depth stack).den σ) ↔ p.says (Term.val env guards) := by
  refine hf.1.reads _ _ fun t ht => res_val h.grel fun x hx => ?_
  subst hx
  exact h.vars x (hf.2.1 x ht)

/-- Without declarations the two semantics agree. -/
theorem own_sem_iff_fo (q : OQuery) : ∀ (Γ : List QVar) (stack : List Scope) (env : QVar → PInst)
    (guards : List Char → Option PInst) (σ : Asg), q.skel.binders = [] → q.Fits d nodes T depth Γ stack →
    q.skel.GuardsApart (stack.map (·.target)).reverse → Rel d T depth Γ stack env guards σ →
    (q.sem d T depth σ stack ↔ q.fo T env guards) := by
  induction q with
  | pred p => intro Γ stack env guards σ _ hf _ hr; exact hr.pred hf
  | and q1 q2 ih1 ih2 =>
    intro Γ stack env guards σ hb hf hg hr
    simp only [OQuery.skel, Query.binders, List.append_eq_nil_iff] at hb
    exact and_congr (ih1 _ _ _ _ _ hb.1 hf.1 hg.1 hr) (ih2 _ _ _ _ _ hb.2 hf.2 hg.2 hr)
  | or q1 q2 ih1 ih2 =>
    intro Γ stack env guards σ hb hf hg hr
    simp only [OQuery.skel, Query.binders, List.append_eq_nil_iff] at hb
    exact or_congr (ih1 _ _ _ _ _ hb.1 hf.1 hg.1 hr) (ih2 _ _ _ _ _ hb.2 hf.2 hg.2 hr)
  | not q ih =>
    intro Γ stack env guards σ hb hf hg hr
    exact not_congr (ih _ _ _ _ _ hb hf hg hr)
  | withVar x q ih => intro Γ stack env guards σ hb; simp [OQuery.skel, Query.binders] at hb
  | forallG c q ih =>
    intro Γ stack env guards σ hb hf hg hr
    obtain ⟨h1, h2, h3⟩ := hg
    have hn : c.id ∉ stack.map (·.target) := by simpa using h1
    have key : ∀ i p, (T.nodeInsts bot)[i]? = some p →
        (q.sem d T depth σ (stack ++ [scopeAt d c.id i p]) ↔ q.fo T env (upd guards c.id (some p.2))) := by
      intro i p hp
      refine ih _ _ _ _ _ hb (hf.2.2 _ (mem_scopesOf.2 ⟨i, p, hp, rfl⟩)) ?_ (hr.push hn i p)
      simpa [scopeAt] using h3
    show (∀ g ∈ scopesOf d T c.id, q.sem d T depth σ (stack ++ [g])) ↔ ∀ p ∈ T.nodeInsts bot, _
    constructor
    · intro h p hp
      obtain ⟨i, hi⟩ := List.mem_iff_getElem?.1 hp
      exact (key i p hi).1 (h _ (mem_scopesOf.2 ⟨i, p, hi, rfl⟩))
    · intro h g hg
      obtain ⟨i, p, hp, rfl⟩ := mem_scopesOf.1 hg
      exact (key i p hp).2 (h p (List.mem_of_getElem? hp))

/-- An assignment gives witnesses. -/
theorem own_sem_fo (q : OQuery) : ∀ (Γ : List QVar) (stack : List Scope) (env : QVar → PInst)
    (guards : List Char → Option PInst) (σ : Asg), q.skel.Positive → q.skel.binders.Nodup → (∀ x ∈ Γ, x ∉ q.skel.binders) →
    q.Fits d nodes T depth Γ stack → q.skel.GuardsApart (stack.map (·.target)).reverse →
    Rel d T depth Γ stack env guards σ → q.sem d T depth σ stack → q.fo T env guards := by
  induction q with
  | pred p => intro Γ stack env guards σ _ _ _ hf _ hr; exact (hr.pred hf).1
  | and q1 q2 ih1 ih2 =>
    intro Γ stack env guards σ hp hb hΓ hf hg hr hs
    simp only [OQuery.skel, Query.binders, List.nodup_append, List.mem_append, not_or] at hb hΓ
    exact ⟨ih1 _ _ _ _ _ hp.1 hb.1 (fun x hx => (hΓ x hx).1) hf.1 hg.1 hr hs.1,
      ih2 _ _ _ _ _ hp.2 hb.2.1 (fun x hx => (hΓ x hx).2) hf.2 hg.2 hr hs.2⟩
  | or q1 q2 ih1 ih2 =>
    intro Γ stack env guards σ hp hb hΓ hf hg hr hs
    simp only [OQuery.skel, Query.binders, List.nodup_append, List.mem_append, not_or] at hb hΓ
    exact hs.imp (ih1 _ _ _ _ _ hp.1 hb.1 (fun x hx => (hΓ x hx).1) hf.1 hg.1 hr)
      (ih2 _ _ _ _ _ hp.2 hb.2.1 (fun x hx => (hΓ x hx).2) hf.2 hg.2 hr)
  | not q ih =>
    intro Γ stack env guards σ hp hb hΓ hf hg hr hs
    exact fun h => hs ((own_sem_iff_fo q _ _ _ _ _ hp hf hg hr).2 h)
  | withVar x q ih =>
    intro Γ stack env guards σ hp hb hΓ hf hg hr hs
    simp only [OQuery.skel, Query.binders, List.nodup_cons, List.mem_cons, not_or] at hb hΓ
    refine ⟨σ (nmOf depth stack x), ih (x :: Γ) stack _ guards σ hp hb.2 ?_ hf.2 hg ⟨hr.grel, ?_, ?_⟩ hs⟩
    · intro y hy
      rcases List.mem_cons.1 hy with rfl | hy
      · exact hb.1
      · exact (hΓ y hy).2
    · intro y hy
      by_cases hyx : y = x
      · subst hyx; simp [upd]
      · simp only [upd, if_neg hyx]
        exact hr.vars y (by simpa [hyx] using hy)
    · intro y hy
      rcases List.mem_cons.1 hy with rfl | hy
      · exact Nat.le_of_eq hf.1
      · exact hr.depth y hy
  | forallG c q ih =>
    intro Γ stack env guards σ hp hb hΓ hf hg hr hs p hpm
    obtain ⟨h1, h2, h3⟩ := hg
    have hn : c.id ∉ stack.map (·.target) := by simpa using h1
    obtain ⟨i, hi⟩ := List.mem_iff_getElem?.1 hpm
    have hm := mem_scopesOf (d := d) (id := c.id).2 ⟨i, p, hi, rfl⟩
    exact ih _ _ _ _ σ hp hb hΓ (hf.2.2 _ hm) (by simpa [scopeAt] using h3) (hr.push hn i p) (hs _ hm)

/-- What a query says depends on the names of its variables only. -/
theorem own_sem_congr (q : OQuery) : ∀ (Γ : List QVar) (stack : List Scope), q.Fits d nodes T depth Γ stack →
    (∀ x ∈ Γ, depth x ≤ stack.length) → (∀ x ∈ Γ, σ (nmOf depth stack x) = σ' (nmOf depth stack x)) →
    (∀ n ∈ q.skel.names d T stack, σ n = σ' n) → (q.sem d T depth σ stack ↔ q.sem d T depth σ' stack) := by
  induction q with
  | pred p =>
    intro Γ stack hf _ hv _
    refine hf.1.reads _ _ fun t ht => ?_
    cases t with
    | const c => intro i _; rfl
    | var x =>
      intro i _
      show σ (nmOf depth stack x) i = σ' (nmOf depth stack x) i
      rw [hv x (hf.2.1 x ht)]
  | and q1 q2 ih1 ih2 =>
    intro Γ stack hf hd hv hn
    simp only [OQuery.skel, Query.names, List.mem_append] at hn
    exact and_congr (ih1 Γ stack hf.1 hd hv fun n h => hn n (.inl h)) (ih2 Γ stack hf.2 hd hv fun n h => hn n (.inr h))
  | or q1 q2 ih1 ih2 =>
    intro Γ stack hf hd hv hn
    simp only [OQuery.skel, Query.names, List.mem_append] at hn
    exact or_congr (ih1 Γ stack hf.1 hd hv fun n h => hn n (.inl h)) (ih2 Γ stack hf.2 hd hv fun n h => hn n (.inr h))
  | not q ih => intro Γ stack hf hd hv hn; exact not_congr (ih Γ stack hf hd hv hn)
  | withVar x q ih =>
    intro Γ stack hf hd hv hn
    simp only [OQuery.skel, Query.names, List.mem_cons] at hn
    refine ih (x :: Γ) stack hf.2 ?_ ?_ fun n h => hn n (.inr h)
    · intro y hy
      rcases List.mem_cons.1 hy with rfl | hy
      · exact Nat.le_of_eq hf.1
      · exact hd y hy
    · intro y hy
      rcases List.mem_cons.1 hy with rfl | hy
      · refine hn _ (.inl ?_)
        unfold nmOf; rw [hf.1, List.take_length]
      · exact hv y hy
  | forallG c q ih =>
    intro Γ stack hf hd hv hn
    simp only [OQuery.skel, Query.names, List.mem_flatMap] at hn
    refine forall_congr' fun g => forall_congr' fun hg => ?_
    refine ih Γ _ (hf.2.2 g hg) ?_ ?_ fun n h => hn n ⟨g, hg, h⟩
    · intro x hx; have := hd x hx; simp; omega
    · intro x hx; rw [nmOf_append (hd x hx)]; exact hv x hx

theorem own_fo_sem (q : OQuery) : ∀ (Γ : List QVar) (stack : List Scope) (env : QVar → PInst)
    (guards : List Char → Option PInst) (σ : Asg), q.skel.Positive → Inv q.skel Γ stack depth →
    q.Fits d nodes T depth Γ stack → Rel d T depth Γ stack env guards σ → q.fo T env guards →
    ∃ σ', (∀ n, n ∉ q.skel.names d T stack → σ' n = σ n) ∧ q.sem d T depth σ' stack := by
  induction q with
  | pred p => intro Γ stack env guards σ _ _ hf hr h; exact ⟨σ, fun _ _ => rfl, (hr.pred hf).2 h⟩
  | and q1 q2 ih1 ih2 =>
    intro Γ stack env guards σ hp hi hf hr h
    have hnd := hi.nodup
    simp only [OQuery.skel, Query.binders, List.nodup_append] at hnd
    have i1 : Inv q1.skel Γ stack depth := ⟨hnd.1, fun x hx hb => hi.apart x hx (by simp [OQuery.skel, Query.binders, hb]),
      fun x hx => hi.us x (by simp [OQuery.skel, Query.binders, hx]), hi.usΓ, hi.usS, hi.guards.1, hi.depth⟩
    have i2 : Inv q2.skel Γ stack depth := ⟨hnd.2.1, fun x hx hb => hi.apart x hx (by simp [OQuery.skel, Query.binders, hb]),
      fun x hx => hi.us x (by simp [OQuery.skel, Query.binders, hx]), hi.usΓ, hi.usS, hi.guards.2, hi.depth⟩
    obtain ⟨σ1, a1, b1⟩ := ih1 Γ stack env guards σ hp.1 i1 hf.1 hr h.1
    have hr1 : Rel d T depth Γ stack env guards σ1 :=
      ⟨hr.grel, fun x hx => by rw [a1 _ (i1.free_apart x hx)]; exact hr.vars x hx, hr.depth⟩
    obtain ⟨σ2, a2, b2⟩ := ih2 Γ stack env guards σ1 hp.2 i2 hf.2 hr1 h.2
    refine ⟨σ2, ?_, ?_, b2⟩
    · intro n hn
      simp only [OQuery.skel, Query.names, List.mem_append, not_or] at hn
      rw [a2 n hn.2, a1 n hn.1]
    · refine (own_sem_congr q1 Γ stack hf.1 hi.depth ?_ ?_).1 b1
      · intro x hx; exact (a2 _ (i2.free_apart x hx)).symm
      · intro n hn
        refine (a2 n ?_).symm
        exact names_apart (fun x hx hx' => hnd.2.2 x hx x hx' rfl) i1.guards i2.guards i1.us i2.us n hn
  | or q1 q2 ih1 ih2 =>
    intro Γ stack env guards σ hp hi hf hr h
    have hnd := hi.nodup
    simp only [OQuery.skel, Query.binders, List.nodup_append] at hnd
    have i1 : Inv q1.skel Γ stack depth := ⟨hnd.1, fun x hx hb => hi.apart x hx (by simp [OQuery.skel, Query.binders, hb]),
      fun x hx => hi.us x (by simp [OQuery.skel, Query.binders, hx]), hi.usΓ, hi.usS, hi.guards.1, hi.depth⟩
    have i2 : Inv q2.skel Γ stack depth := ⟨hnd.2.1, fun x hx hb => hi.apart x hx (by simp [OQuery.skel, Query.binders, hb]),
      fun x hx => hi.us x (by simp [OQuery.skel, Query.binders, hx]), hi.usΓ, hi.usS, hi.guards.2, hi.depth⟩
    rcases h with h | h
    · obtain ⟨σ1, a1, b1⟩ := ih1 Γ stack env guards σ hp.1 i1 hf.1 hr h
      refine ⟨σ1, fun n hn => a1 n fun h => hn ?_, .inl b1⟩
      simp [OQuery.skel, Query.names, h]
    · obtain ⟨σ1, a1, b1⟩ := ih2 Γ stack env guards σ hp.2 i2 hf.2 hr h
      refine ⟨σ1, fun n hn => a1 n fun h => hn ?_, .inr b1⟩
      simp [OQuery.skel, Query.names, h]
  | not q ih =>
    intro Γ stack env guards σ hp hi hf hr h
    exact ⟨σ, fun _ _ => rfl, fun hs => h ((own_sem_iff_fo q _ _ _ _ _ hp hf hi.guards hr).1 hs)⟩
  | withVar x q ih =>
    intro Γ stack env guards σ hp hi hf hr ⟨e, h⟩
    have hnd := hi.nodup
    simp only [OQuery.skel, Query.binders, List.nodup_cons] at hnd
    have hus : sep ∉ x := hi.us x (by simp [OQuery.skel, Query.binders])
    have hxΓ : x ∉ Γ := fun hx => hi.apart x hx (by simp [OQuery.skel, Query.binders])
    have hnx : nmOf depth stack x = x ++ suffix stack := by unfold nmOf; rw [hf.1, List.take_length]
    have i1 : Inv q.skel (x :: Γ) stack depth := by
      refine ⟨hnd.2, ?_, fun y hy => hi.us y (by simp [OQuery.skel, Query.binders, hy]), ?_, hi.usS, hi.guards, ?_⟩
      · intro y hy
        rcases List.mem_cons.1 hy with rfl | hy
        · exact hnd.1
        · exact fun hb => hi.apart y hy (by simp [OQuery.skel, Query.binders, hb])
      · intro y hy
        rcases List.mem_cons.1 hy with rfl | hy
        · exact hus
        · exact hi.usΓ y hy
      · intro y hy
        rcases List.mem_cons.1 hy with rfl | hy
        · exact Nat.le_of_eq hf.1
        · exact hi.depth y hy
    have hr1 : Rel d T depth (x :: Γ) stack (upd env x e) guards (upd σ (x ++ suffix stack) e) := by
      refine ⟨hr.grel, ?_, i1.depth⟩
      intro y hy
      by_cases hyx : y = x
      · subst hyx; rw [hnx]; simp [upd]
      · have hy' : y ∈ Γ := by simpa [hyx] using hy
        simp only [upd, if_neg hyx]
        rw [if_neg]
        · exact hr.vars y hy'
        · intro he
          exact hyx (name_inj (hi.usΓ y hy') hus he).1
    obtain ⟨σ1, a1, b1⟩ := ih (x :: Γ) stack _ guards _ hp i1 hf.2 hr1 h
    refine ⟨σ1, fun n hn => ?_, b1⟩
    simp only [OQuery.skel, Query.names, List.mem_cons, not_or] at hn
    rw [a1 n hn.2]
    simp [upd, hn.1]
  | forallG c q ih =>
    intro Γ stack env guards σ hp hi hf hr h
    obtain ⟨g1, g2, g3⟩ := hi.guards
    have hn : c.id ∉ stack.map (·.target) := by simpa using g1
    -- one iteration after the other
    have key : ∀ gs : List Scope, (∀ g ∈ gs, g ∈ scopesOf d T c.id) → (gs.map (·.vIdx)).Nodup →
        ∃ σ', (∀ n, (∀ g ∈ gs, n ∉ q.skel.names d T (stack ++ [g])) → σ' n = σ n) ∧
          ∀ g ∈ gs, q.sem d T depth σ' (stack ++ [g]) := by
      intro gs
      induction gs with
      | nil => intro _ _; exact ⟨σ, fun _ _ => rfl, by simp⟩
      | cons g gs ihg =>
        intro hm hd
        simp only [List.map_cons, List.nodup_cons] at hd
        obtain ⟨σ1, a1, b1⟩ := ihg (fun g' hg' => hm g' (by simp [hg'])) hd.2
        obtain ⟨i, p, hp', hge⟩ := mem_scopesOf.1 (hm g (by simp))
        have htg : ∀ g' ∈ scopesOf d T c.id, sep ∉ g'.target := by
          intro g' hg'
          obtain ⟨_, _, _, rfl⟩ := mem_scopesOf.1 hg'
          exact g2
        have hinv : ∀ g' ∈ scopesOf d T c.id, Inv q.skel Γ (stack ++ [g']) depth := by
          intro g' hg'
          refine ⟨hi.nodup, hi.apart, hi.us, hi.usΓ, ?_, ?_, ?_⟩
          · intro k hk
            simp only [List.mem_append, List.mem_singleton] at hk
            rcases hk with hk | rfl
            · exact hi.usS k hk
            · exact htg k hg'
          · obtain ⟨_, _, _, rfl⟩ := mem_scopesOf.1 hg'
            simpa [scopeAt] using g3
          · intro x hx; have := hi.depth x hx; simp; omega
        have hfree : ∀ g' ∈ scopesOf d T c.id, ∀ x ∈ Γ, nmOf depth stack x ∉ q.skel.names d T (stack ++ [g']) := by
          intro g' hg' x hx
          have := (hinv g' hg').free_apart (d := d) (T := T) x hx
          rwa [nmOf_append (hi.depth x hx)] at this
        have hr1 : Rel d T depth Γ (stack ++ [g]) env (upd guards c.id (some p.2)) σ1 := by
          rw [hge]
          refine Rel.push ⟨hr.grel, fun x hx => ?_, hr.depth⟩ hn i p
          rw [a1 _ fun g' hg' => hfree g' (hm g' (by simp [hg'])) x hx]
          exact hr.vars x hx
        obtain ⟨σ2, a2, b2⟩ := ih Γ (stack ++ [g]) env _ σ1 hp (hinv g (hm g (by simp)))
          (hf.2.2 g (hm g (by simp))) hr1 (h p (List.mem_of_getElem? hp'))
        refine ⟨σ2, ?_, ?_⟩
        · intro n hnn
          rw [a2 n (hnn g (by simp)), a1 n fun g' hg' => hnn g' (by simp [hg'])]
        · intro g' hg'
          rcases List.mem_cons.1 hg' with rfl | hg'
          · exact b2
          · have hm' := hm g' (by simp [hg'])
            refine (own_sem_congr q Γ _ (hf.2.2 g' hm') (hinv g' hm').depth ?_ ?_).1 (b1 g' hg')
            · intro x hx
              rw [nmOf_append (hi.depth x hx)]
              exact (a2 _ (hfree g (hm g (by simp)) x hx)).symm
            · intro n hn'
              refine (a2 n ?_).symm
              refine iter_apart (hinv g' hm').guards hi.us hi.usS (htg g' hm') (htg g (hm g (by simp))) ?_ n hn'
              intro he
              exact hd.1 (List.mem_map.2 ⟨g', hg', he⟩)
    obtain ⟨σ', a, b⟩ := key (scopesOf d T c.id) (fun _ h => h) (by
      have : (scopesOf d T c.id).map (·.vIdx) = (List.range (T.nodeInsts bot).length).map (fun (i : Nat) => (i : Int)) := by
        apply List.ext_getElem
        · simp [scopesOf]
        · intro i h1 h2
          simp [scopesOf, scopeAt]
      rw [this]
      exact List.Pairwise.map _ (fun a b h => by simpa [Int.ofNat_inj] using h) List.nodup_range)
    refine ⟨σ', fun n hn' => a n fun g hg hmem => hn' ?_, b⟩
    simp only [OQuery.skel, Query.names, List.mem_flatMap]
    exact ⟨g, hg, hmem⟩

/-- The two semantics agree on closed queries. -/
theorem own_exists_sem_iff_fo {q : OQuery} (hf : q.Fits d nodes T depth [] []) (hq : q.skel.Plain) :
    (∃ σ, q.sem d T depth σ []) ↔ q.fo T (fun _ => bot) (fun _ => none) := by
  have hr : ∀ σ, Rel d T depth [] [] (fun _ => bot) (fun _ => none) σ :=
    fun σ => ⟨.nil, by simp, by simp⟩
  constructor
  · rintro ⟨σ, hs⟩
    exact own_sem_fo q [] [] _ _ σ hq.positive hq.distinct (by simp) hf (by simpa using hq.guards) (hr σ) hs
  · intro h
    obtain ⟨σ, -, hs⟩ := own_fo_sem q [] [] _ _ (fun _ => bot) hq.positive
      ⟨hq.distinct, by simp, hq.names, by simp, by simp, by simpa using hq.guards, by simp⟩ hf (hr _) h
    exact ⟨σ, hs⟩

/-! ### queries as questions -/

/-- First-order semantics only looks at the features below the dimension. -/
theorem own_fo_congr (q : OQuery) : ∀ (Γ : List QVar) (stack : List Scope) (env env' : QVar → PInst)
    (guards : List Char → Option PInst), q.Fits d nodes T depth Γ stack → (∀ x, Same d (env x) (env' x)) →
    (q.fo T env guards ↔ q.fo T env' guards) := by
  induction q with
  | pred p =>
    intro Γ stack env env' guards hf h
    refine hf.1.reads _ _ fun t _ => ?_
    cases t with
    | var x => exact h x
    | const c => exact same_refl _
  | and q1 q2 ih1 ih2 =>
    intro Γ stack env env' guards hf h
    exact and_congr (ih1 _ _ _ _ _ hf.1 h) (ih2 _ _ _ _ _ hf.2 h)
  | or q1 q2 ih1 ih2 =>
    intro Γ stack env env' guards hf h
    exact or_congr (ih1 _ _ _ _ _ hf.1 h) (ih2 _ _ _ _ _ hf.2 h)
  | not q ih => intro Γ stack env env' guards hf h; exact not_congr (ih _ _ _ _ _ hf h)
  | withVar x q ih =>
    intro Γ stack env env' guards hf h
    refine exists_congr fun e => ih _ _ _ _ _ hf.2 fun y => ?_
    unfold upd
    split
    · exact same_refl _
    · exact h y
  | forallG c q ih =>
    intro Γ stack env env' guards hf h
    refine forall_congr' fun p => forall_congr' fun hp => ?_
    obtain ⟨i, hi⟩ := List.mem_iff_getElem?.1 hp
    exact ih _ _ _ _ _ (hf.2.2 _ (mem_scopesOf.2 ⟨i, p, hi, rfl⟩)) h

theorem OQuery.Good.decides {q : OQuery} (hg : q.Good d nodes T depth) :
    Decides d nodes (q.names d T) q.encode (fun σ => q.sem d T depth σ []) := by
  intro s hs
  obtain ⟨c, s', e, hw, -, -, hn, hr, hf⟩ := good_own hg hs
  exact ⟨c, s', e, hw, hf.says, hr, hn⟩

/-- `WithVar v f` asks for an instance with the property `f`. -/
theorem OQuery.Good.asks {v : QVar} {f : OQuery} (hg : (OQuery.withVar v f).Good d nodes T depth)
    (hp : (OQuery.withVar v f).skel.Plain) :
    Asks d nodes ((OQuery.withVar v f).names d T) v (encWithVar v (some f.encode))
      (fun e => f.fo T (upd (fun _ => bot) v e) (fun _ => none)) := by
  have hnm : nmOf depth [] v = v := by simp [nmOf, suffix]
  have hu : sep ∉ v := hp.names v (by simp [OQuery.skel, Query.binders])
  have hnd := hp.distinct
  simp only [OQuery.skel, Query.binders, List.nodup_cons] at hnd
  refine ⟨by simp [OQuery.names, OQuery.skel, Query.names, suffix], _, hg.decides, fun e => ⟨fun h => ?_, ?_⟩⟩
  · have hi : Inv f.skel [v] [] depth := by
      refine ⟨hnd.2, ?_, fun x hx => hp.names x (by simp [OQuery.skel, Query.binders, hx]), by simpa using hu, by simp, hp.guards, ?_⟩
      · simpa using hnd.1
      · simp [hg.fits.1]
    obtain ⟨σ, h1, h2⟩ := own_fo_sem (depth := depth) (nodes := nodes) f [v] [] (upd (fun _ => bot) v e) _ (fun _ => e) hp.positive hi hg.fits.2
      ⟨.nil, by simp [upd], hi.depth⟩ h
    refine ⟨σ, h2, ?_⟩
    rw [h1 v ?_]
    · exact same_refl _
    · have := hi.free_apart (d := d) (T := T) v (by simp)
      rwa [hnm] at this
  · rintro ⟨σ, hs, he⟩
    have := own_sem_fo (nodes := nodes) (depth := depth) f [v] [] (upd (fun _ => bot) v (σ v)) (fun _ => none) σ hp.positive hnd.2
      (by simpa using hnd.1) hg.fits.2 hp.guards ⟨.nil, by simp [upd, hnm], by simp [hg.fits.1]⟩ hs
    refine (own_fo_congr f [v] [] _ _ _ hg.fits.2 fun x => ?_).1 this
    unfold upd
    split
    · exact he
    · exact same_refl _


theorem OQuery.Optimises.poses {v : QVar} {f : OQuery} {o : QConst → OQuery} (h : OQuery.Optimises d nodes T depth v f o) :
    Poses d nodes v (fun _ => some f.encode) (fun _ k => some (o k).encode) (f.about T v)
      (fun e p => (o { val := valsOf d p }).about T v e) ((OQuery.withVar v f).names d T) := by
  refine ⟨h.good.asks h.plain, fun k hk hid => ⟨(OQuery.withVar v (.and f (o k))).names d T, ?_⟩⟩
  have hk' : k = { val := k.val } := by cases k; simp_all
  have := (h.goodNext k.val hk).asks (h.plainNext k.val hk)
  rw [valsOf_den hk]
  rw [← hk'] at this ⊢
  exact this

end Goexpdt

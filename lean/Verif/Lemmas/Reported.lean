import Verif.Lemmas.DiagramQuery
import Verif.Spec.Reported
/- Queries over any model: quantifiers range over what the walk reports. -/
namespace Goexpdt
open Spec Props

variable {W : World} {ps : List (Nat × PInst)} {Γ : List QVar} {stack : List Scope} {d : Nat} {nodes : List Node}

theorem valid_set {t : List FeatV} {i : Nat} {v : FeatV} (h : ValidVals t) (hv : v = ZERO ∨ v = ONE ∨ v = BOT) : ValidVals (t.set i v) := by
  intro a ha
  rcases List.mem_or_eq_of_mem_set ha with ha | rfl
  · exact h a ha
  · rcases hv with rfl | rfl | rfl <;> simp

theorem walkStep_valid {w : WalkSt} (h : ValidVals w.t) : ValidVals (walkStep nodes w).2.t := by
  unfold walkStep walkBackup walkDown
  simp only
  repeat' split
  all_goals first | exact h | exact valid_set h (by simp)

theorem walkNext_valid {fuel : Nat} : ∀ {w w' : WalkSt}, ValidVals w.t → walkNext nodes fuel w = .ok (some w') → ValidVals w'.t := by
  induction fuel with
  | zero => intro w w' _ h; cases h
  | succ n ih =>
    intro w w' hv h
    have hs := walkStep_valid (nodes := nodes) hv
    unfold walkNext at h
    split at h
    · cases h
    · rename_i e
      rw [e] at hs
      cases h
      exact hs
    · rename_i e
      rw [e] at hs
      exact ih hs h

theorem iterates_valid {w : WalkSt} {ws : List WalkSt} (h : Iterates nodes w ws) (hv : ValidVals w.t) : ∀ u ∈ ws, ValidVals u.t := by
  induction h with
  | done _ => simp
  | step e _ ih =>
    have := walkNext_valid hv e
    intro u hu
    rcases List.mem_cons.1 hu with rfl | hu
    · exact this
    · exact ih this u hu

theorem reported_good {w0 : WalkSt} {ws : List WalkSt} (hok : newNodeAsValuesIter d nodes = .ok w0) (h : Iterates nodes w0 ws) :
    ∀ w ∈ ws, GoodVals d w.t := by
  obtain ⟨ws2, h2, -, -, -, h3, -⟩ := C17_terminates _ _ _ hok
  obtain rfl := h.unique h2
  obtain ⟨-, -, rfl⟩ := newIter_ok hok
  have hv := iterates_valid h (by intro v hv; simp [WalkSt.init] at hv; simp [hv.2])
  exact fun w hw => ⟨h3 w hw, hv w hw⟩

theorem mem_scopesIn {id : List Char} {g : Scope} : g ∈ scopesIn d ps id ↔ ∃ i p, ps[i]? = some p ∧ g = scopeAt d id i p := by
  simp only [scopesIn, List.mem_map, List.mem_zipIdx_iff_getElem?, Prod.exists]
  constructor
  · rintro ⟨a, b, i, h, rfl⟩
    exact ⟨i, a, b, h, rfl⟩
  · rintro ⟨i, a, b, h, rfl⟩
    exact ⟨a, b, i, h, rfl⟩

theorem reach_lt {w0 : WalkSt} (hok : newNodeAsValuesIter d nodes = .ok w0) {i : Nat} (h : Reach nodes i) : i < nodes.length := by
  obtain ⟨hne, hv, -⟩ := newIter_ok hok
  induction h with
  | root => exact List.length_pos_iff.2 hne
  | zero _ hn hc hz _ => have := hv _ _ hn hc; omega
  | one _ hn hc hz _ => have := hv _ _ hn hc; omega

/-- The leafs `dfs` compares: those that are reported. -/
theorem leafs_reported (hR : Reported d nodes ps) (hlf : ∃ p ∈ ps, ∃ n, nodes[p.1]? = some n ∧ n.childless = true) :
    ∃ qs ns : List QConst, leafsAsConsts d nodes = .ok (qs, ns) ∧ ¬ (qs.length = 0 ∧ ns.length = 0) ∧
      (∀ c ∈ qs ++ ns, GoodVals d c.val) ∧
      ∀ e, (∀ p ∈ qs, ∀ n ∈ ns, ∃ i < d, e i ≠ none ∧ den p.val i ≠ none ∧ den n.val i ≠ none ∧ den p.val i ≠ den n.val i) ↔
        TellsApart d nodes ps e := by
  obtain ⟨w0, ws0, hok, hws, hv⟩ := hR
  rcases C17_dfs_walk d nodes (newIter_ok hok).1 with ⟨m, -, h⟩ | ⟨ws, h0, hit, hl⟩
  · rw [hok] at h; cases h
  · have e0 : w0 = WalkSt.init d nodes.length := (newIter_ok hok).2.2
    subst e0
    obtain rfl : ws0 = ws := hws.unique hit
    have hg := reported_good h0 hit
    replace hv := hv.symm
    have hlt : ∀ v ∈ ws0, nodes[v.cp]? = some (nodeAt nodes v.cp) := by
      intro v hv'
      obtain ⟨ws2, h2, -, -, h3, -⟩ := C17_terminates _ _ _ hok
      obtain rfl : ws0 = ws2 := hws.unique h2
      exact getElem?_nodeAt (reach_lt hok ((h3 v.cp).1 (List.mem_map.2 ⟨v, hv', rfl⟩)))
    refine ⟨_, _, hl, ?_, ?_, ?_⟩
    · obtain ⟨p, hp, n, hn, hc⟩ := hlf
      rw [← hv] at hp
      obtain ⟨w, hw, rfl⟩ := List.mem_map.1 hp
      rintro ⟨h1, h2⟩
      rw [List.length_map, List.length_eq_zero_iff, List.filter_eq_nil_iff] at h1 h2
      have h1 := h1 w hw
      have h2 := h2 w hw
      rw [nodeAt_eq hn, hc] at h1 h2
      simp at h1 h2
      rw [h1] at h2
      cases h2
    · intro c hc
      simp only [List.mem_append, List.mem_map, List.mem_filter] at hc
      rcases hc with ⟨w, ⟨hw, -⟩, rfl⟩ | ⟨w, ⟨hw, -⟩, rfl⟩ <;> exact hg w hw
    · intro e
      constructor
      · intro h p hp q hq n m hn hm hnc hmc hnv hmv
        rw [← hv] at hp hq
        obtain ⟨v, hv1, rfl⟩ := List.mem_map.1 hp
        obtain ⟨u, hu1, rfl⟩ := List.mem_map.1 hq
        simp only at hn hm
        refine h { val := v.t } (List.mem_map.2 ⟨v, List.mem_filter.2 ⟨hv1, ?_⟩, rfl⟩) { val := u.t }
          (List.mem_map.2 ⟨u, List.mem_filter.2 ⟨hu1, ?_⟩, rfl⟩)
        · rw [nodeAt_eq hn]; simp [hnc, hnv]
        · rw [nodeAt_eq hm]; simp [hmc, hmv]
      · intro h p hp n hn
        obtain ⟨v, hv1, rfl⟩ := List.mem_map.1 hp
        obtain ⟨u, hu1, rfl⟩ := List.mem_map.1 hn
        obtain ⟨hv1, hv2⟩ := List.mem_filter.1 hv1
        obtain ⟨hu1, hu2⟩ := List.mem_filter.1 hu1
        simp only [Bool.and_eq_true, Bool.not_eq_true'] at hv2 hu2
        exact h (v.cp, den v.t) (by rw [← hv]; exact List.mem_map.2 ⟨v, hv1, rfl⟩) (u.cp, den u.t)
          (by rw [← hv]; exact List.mem_map.2 ⟨u, hu1, rfl⟩) _ _ (hlt v hv1) (hlt u hu1) hv2.1 hu2.1 hv2.2 hu2.2

theorem dfs_in {t : Term} (hR : Reported W.dim W.nodes ps) (hlf : ∃ p ∈ ps, ∃ n, W.nodes[p.1]? = some n ∧ n.childless = true)
    (h : (Atom.dfs t).FitsOn W.dim Γ stack) :
    Captures W Γ stack (Atom.dfs t).encode
      (fun σ => TellsApart W.dim W.nodes ps ((t.res W.depth stack).den σ)) := by
  obtain ⟨ps, ns, e1, e2, e3, e4⟩ := leafs_reported hR hlf
  cases t with
  | const c =>
    have h1 := good_res (h.consts c (by simp [Spec.Atom.consts, Spec.Term.consts]))
    refine .scopeConst c (.validate (by simp [h1.1]) (.dim (.nodes (.lift e1 ?_))))
    simp only
    rw [if_neg e2]
    obtain ⟨b, f1, f2⟩ := dfsOuter_good h1 ns (fun n hn => e3 n (by simp [hn])) ps (fun p hp => e3 p (by simp [hp]))
    refine .lift f1 ?_
    exact (Captures.pureBool _).congr fun σ => f2.trans (e4 _)
  | var x =>
    have hx := h.vars x (by simp [Atom.vars, Term.vars])
    refine .scopeVar hx (.dim (.nodes (.lift e1 ?_)))
    simp only
    rw [if_neg e2]
    obtain ⟨cls, f1, f2, f3⟩ := dfsClauses_good (d := W.dim) (W.nm stack x)
      (ps.flatMap fun p => ns.map fun n => (p, n)) (by
        intro l hl
        simp only [List.mem_flatMap, List.mem_map] at hl
        obtain ⟨p, hp, n, hn, rfl⟩ := hl
        exact ⟨e3 p (by simp [hp]), e3 n (by simp [hn])⟩)
    refine .lift f1 (.emitS ?_ ?_)
    · intro vr hvr
      obtain ⟨i, hi, rfl⟩ := f2 vr hvr
      exact .inst (instNames_of hx) hi bot_mem
    · intro σ ν hr
      rw [f3 ν _ (hr x hx)]
      refine Iff.trans ?_ (e4 _)
      constructor
      · intro h p hp n hn
        exact h (p, n) (by simp only [List.mem_flatMap, List.mem_map]; exact ⟨p, hp, n, hn, rfl⟩)
      · intro h l hl
        simp only [List.mem_flatMap, List.mem_map] at hl
        obtain ⟨p, hp, n, hn, rfl⟩ := hl
        exact h p hp n hn

theorem atom_in {a : Atom} (hR : Reported W.dim W.nodes ps) (h : a.FitsOn W.dim Γ stack ∧ a.nodeless = true ∧
      (a.isDfs = true → ∃ p ∈ ps, ∃ n, W.nodes[p.1]? = some n ∧ n.childless = true))
    (hu : ∀ u ∈ a.uses W.depth stack, Plays W (.leaf 0 false) u.1 u.2) :
    Captures W Γ stack a.encode (fun σ => a.saysIn W.dim W.nodes ps fun t => (t.res W.depth stack).den σ) := by
  obtain ⟨h, hn, hd⟩ := h
  cases a with
  | subs t1 t2 => exact subs_captures (h.fits (T := .leaf 0 false) rfl)
  | lel t1 t2 g => exact lel_captures (h.fits rfl) hu
  | full t => exact full_captures (h.fits (T := .leaf 0 false) rfl)
  | cons t1 t2 => exact cons_captures (h.fits (T := .leaf 0 false) rfl)
  | dfs t => exact dfs_in hR (hd rfl) h
  | hepr t1 t2 p g => exact hepr_captures (h.fits rfl) hu
  | leh t1 t2 t3 g e => exact leh_captures (h.fits rfl) hu
  | isnode t g => exact absurd hn nofun
  | allcomp t b g => exact absurd hn nofun

theorem query_in (hR : Reported W.dim W.nodes ps) (q : Query) :
    ∀ (Γ : List QVar) (stack : List Scope), q.FitsIn W.dim W.nodes ps W.depth Γ stack →
    (∀ n ∈ q.namesIn W.dim ps stack, W.isInst n ∧ W.may n) →
    (∀ u ∈ q.usesIn W.dim ps W.depth stack, Plays W (.leaf 0 false) u.1 u.2) →
    ∃ act, q.comp = some act ∧ Captures W Γ stack act (fun σ => q.semIn W.dim W.nodes ps W.depth σ stack) ∧
      Declares W Γ stack act (· ∈ q.namesIn W.dim ps stack) := by
  induction q with
  | nil => intro Γ stack h; exact h.elim
  | atom a => intro Γ stack h _ hu; exact ⟨_, rfl, atom_in hR h hu, fun _ _ _ n hn => by simp [Query.namesIn] at hn⟩
  | and q1 q2 ih1 ih2 =>
    intro Γ stack h hn hu
    simp only [Query.namesIn, Query.usesIn, List.mem_append] at hn hu
    obtain ⟨a1, e1, c1, d1⟩ := ih1 Γ stack h.1 (fun n hn' => hn n (.inl hn')) (fun u hu' => hu u (.inl hu'))
    obtain ⟨a2, e2, c2, d2⟩ := ih2 Γ stack h.2 (fun n hn' => hn n (.inr hn')) (fun u hu' => hu u (.inr hu'))
    refine ⟨_, rfl, by rw [e1, e2]; exact c1.encAnd c2, ?_⟩
    rw [e1, e2]
    intro s hp hs n hn
    exact Declares.encAnd c1 c2 d1 d2 s hp hs n (by simpa [Query.namesIn] using hn)
  | or q1 q2 ih1 ih2 =>
    intro Γ stack h hn hu
    simp only [Query.namesIn, Query.usesIn, List.mem_append] at hn hu
    obtain ⟨a1, e1, c1, d1⟩ := ih1 Γ stack h.1 (fun n hn' => hn n (.inl hn')) (fun u hu' => hu u (.inl hu'))
    obtain ⟨a2, e2, c2, d2⟩ := ih2 Γ stack h.2 (fun n hn' => hn n (.inr hn')) (fun u hu' => hu u (.inr hu'))
    refine ⟨_, rfl, by rw [e1, e2]; exact c1.encOr c2, ?_⟩
    rw [e1, e2]
    intro s hp hs n hn
    exact Declares.encOr c1 c2 d1 d2 s hp hs n (by simpa [Query.namesIn] using hn)
  | not q ih =>
    intro Γ stack h hn hu
    obtain ⟨a, e, c, dd⟩ := ih Γ stack h hn hu
    exact ⟨_, rfl, by rw [e]; exact c.encNot, by rw [e]; exact Declares.encNot c dd⟩
  | withVar x q ih =>
    intro Γ stack h hn hu
    simp only [Query.namesIn, List.mem_cons] at hn
    obtain ⟨a, e, c, dd⟩ := ih (x :: Γ) stack h.2 (fun n hn' => hn n (.inr hn')) hu
    have hnm : W.nm stack x = x ++ suffix stack := by
      unfold World.nm
      rw [h.1, List.take_length]
    have hin : W.isInst (W.nm stack x) ∧ W.may (W.nm stack x) := by rw [hnm]; exact hn _ (.inl rfl)
    refine ⟨_, rfl, ?_, ?_⟩
    · rw [e]
      exact Captures.encWithVar h.1 hin.1 hin.2 c
    · rw [e]
      intro s hp hs n hn
      refine Declares.encWithVar h.1 hin.1 hin.2 c dd s hp hs n ?_
      rw [hnm]
      simpa [Query.namesIn] using hn
  | forallG k q ih =>
    intro Γ stack hf hn hu
    obtain ⟨w0, ws, hok', hws, hv⟩ := hR
    obtain rfl : w0 = WalkSt.init W.dim W.nodes.length := (newIter_ok hok').2.2
    replace hv := hv.symm
    have hg := reported_good hok' hws
    simp only [Query.namesIn, Query.usesIn, List.mem_flatMap] at hn hu
    have hscope : ∀ i w, ws[i]? = some w →
        (⟨k.id, w.t, (i : Nat)⟩ : Scope) ∈ scopesIn W.dim ps k.id ∧ ps[i]? = some (w.cp, den w.t) ∧
        (⟨k.id, w.t, (i : Nat)⟩ : Scope) = scopeAt W.dim k.id i (w.cp, den w.t) := by
      intro i w hw
      have h1 : ps[i]? = some (w.cp, den w.t) := by rw [← hv, List.getElem?_map, hw]; rfl
      have h2 : (⟨k.id, w.t, (i : Nat)⟩ : Scope) = scopeAt W.dim k.id i (w.cp, den w.t) := by
        unfold scopeAt
        rw [valsOf_den (hg w (List.mem_of_getElem? hw))]
      exact ⟨mem_scopesIn.2 ⟨i, _, h1, h2⟩, h1, h2⟩
    cases hc : q.comp with
    | none =>
      obtain ⟨w, hw⟩ : ∃ w, ws[0]? = some w := by
        obtain ⟨ws2, h2, -, -, h3, -⟩ := C17_terminates _ _ _ hok'
        rw [hws.unique h2]
        cases ws2 with
        | nil => exact absurd ((h3 0).2 .root) (by simp)
        | cons a l => exact ⟨a, rfl⟩
      obtain ⟨hm, -, -⟩ := hscope 0 w hw
      obtain ⟨a, e, -⟩ := ih Γ _ (hf _ hm) (fun n hn' => hn n ⟨_, hm, hn'⟩) (fun u hu' => hu u ⟨_, hm, hu'⟩)
      rw [hc] at e; simp at e
    | some act =>
    have hch : ∀ i w, ws[i]? = some w →
        Captures W Γ (stack ++ [⟨k.id, w.t, (i : Nat)⟩]) act
          (fun σ => ∀ w, ws[i]? = some w → q.semIn W.dim W.nodes ps W.depth σ (stack ++ [⟨k.id, w.t, (i : Nat)⟩])) ∧
        Declares W Γ (stack ++ [⟨k.id, w.t, (i : Nat)⟩]) act
          (fun n => ∃ w, ws[i]? = some w ∧ n ∈ q.namesIn W.dim ps (stack ++ [⟨k.id, w.t, (i : Nat)⟩])) := by
      intro i w hw
      obtain ⟨hm, -, -⟩ := hscope i w hw
      obtain ⟨a, e, c, dd⟩ := ih Γ _ (hf _ hm) (fun n hn' => hn n ⟨_, hm, hn'⟩) (fun u hu' => hu u ⟨_, hm, hu'⟩)
      rw [hc] at e
      simp only [Option.some.injEq] at e
      subst e
      refine ⟨c.congr fun σ => ?_, ?_⟩
      · constructor
        · intro hs w' hw'
          rw [hw] at hw'
          simp only [Option.some.injEq] at hw'
          subst hw'
          exact hs
        · intro hs; exact hs w hw
      · rintro s hp hs n ⟨w', hw', hn'⟩
        rw [hw] at hw'
        simp only [Option.some.injEq] at hw'
        subst hw'
        exact dd s hp hs n hn'
    have hback : ∀ g ∈ scopesIn W.dim ps k.id, ∃ i, ∃ hi : i < ws.length, g = ⟨k.id, ws[i].t, (i : Nat)⟩ := by
      intro g hg'
      obtain ⟨i, p, hp, rfl⟩ := mem_scopesIn.1 hg'
      have hi : i < ws.length := by
        have := (List.getElem?_eq_some_iff.1 hp).1
        rw [← hv] at this
        simpa using this
      obtain ⟨-, h1, h2⟩ := hscope i ws[i] (List.getElem?_eq_getElem hi)
      rw [hp] at h1
      simp only [Option.some.injEq] at h1
      subst h1
      exact ⟨i, hi, h2.symm⟩
    refine ⟨_, rfl, ?_, ?_⟩
    · rw [hc]
      refine (Captures.encForall hok' hws fun i w hw => (hch i w hw).1).congr fun σ => ?_
      constructor
      · intro hs g hg'
        obtain ⟨i, hi, rfl⟩ := hback g hg'
        exact hs i hi ws[i] (List.getElem?_eq_getElem hi)
      · intro hs i hi w hw
        exact hs _ (hscope i w hw).1
    · rw [hc]
      intro s hp hs n hn'
      refine Declares.encForall hok' hws hch s hp hs n ?_
      simp only [Query.namesIn, List.mem_flatMap] at hn'
      obtain ⟨g, hg', hn'⟩ := hn'
      obtain ⟨i, hi, rfl⟩ := hback g hg'
      exact ⟨i, hi, ws[i], List.getElem?_eq_getElem hi, hn'⟩

theorem good_in {depth : QVar → Nat} {q : Query} (hg : q.GoodReported d nodes ps depth) {s : Ctx} (hs : Ready d nodes (q.namesIn d ps []) s) :
    ∃ c s', q.encode s = (.ok c, s') ∧ WF c ∧ Ready d nodes [] s' ∧
      (∀ n ∈ q.namesIn d ps [], ∀ i < d, ∀ v ∈ featVals, Named s' ⟨n, (i : Nat), v⟩) ∧
      Faithful d (q.namesIn d ps []) (fun σ => q.semIn d nodes ps depth σ []) s' c := by
  let W := worldOf d nodes (.leaf 0 false) depth hg.dim (q.namesIn d ps []) [] (q.usesIn d ps depth [])
  obtain ⟨act, e, hc, hd⟩ := query_in (W := W) hg.reported q [] [] hg.fits
    (fun n hn => ⟨List.mem_append_left _ hn, hn⟩) (worldOf_plays fun u hu => by
      rw [List.append_nil]
      exact (hg.clean u hu).1)
  have hco : ∀ σ, W.dom σ := hg.clean.coherent nodes
  have hp : Pre W [] s := Ready.pre (W := W) hs fun n hn => by simpa [W, worldOf] using hn
  obtain ⟨c, s', e', hx⟩ := hc.exact hp hs.scopes fun n hn => hs.fresh n (by simpa [W, worldOf] using hn)
  have hdecl : ∀ n ∈ q.namesIn d ps [], Declared s' n := by
    intro n hn
    have := hd s hp hs.scopes n hn
    rw [e'] at this
    exact this
  have hag : ∀ β σ, (∀ n ∈ q.namesIn d ps [], Reads d s' β n (σ n)) ↔ Agree W s' β σ := by
    intro β σ
    exact ⟨fun h n hn hnd => h n (hx.decl n hn hnd), fun h n hn => h n (List.mem_append_left _ hn) (hdecl n hn)⟩
  refine ⟨c, s', by rw [Query.encode_eq e]; exact e', hx.wf,
    ⟨hx.vm, hx.dim.trans hs.dim, hx.nodes.trans hs.nodes, hx.scopes, hx.vars, by simp⟩,
    fun n hn => hx.named n (List.mem_append_left _ hn) (hdecl n hn), hx.satisfiable fun σ _ => hco σ, ?_, ?_, ?_, ?_, ?_⟩
  · rintro β ⟨h1, h2⟩
    obtain ⟨σ, hσ⟩ := hx.reads β h2
    exact ⟨σ, (hx.sem β σ h2 hσ).1 h1, (hag β σ).2 hσ⟩
  · intro σ hσ
    obtain ⟨β, h1, h2⟩ := hx.con σ (hco σ)
    exact ⟨β, ⟨(hx.sem β σ h1 h2).2 hσ, h1⟩, (hag β σ).2 h2⟩
  · intro β hβ
    obtain ⟨σ, hσ⟩ := hx.reads β hβ
    exact ⟨σ, (hag β σ).2 hσ⟩
  · intro σ
    obtain ⟨β, h1, h2⟩ := hx.con σ (hco σ)
    exact ⟨β, h1, (hag β σ).2 h2⟩
  · intro β σ h1 h2
    exact hx.sem β σ h1 ((hag β σ).1 h2)

end Goexpdt

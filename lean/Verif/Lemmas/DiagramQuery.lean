import Verif.Lemmas.Closed
import Verif.Lemmas.DiagramWalk
/- Queries over decision diagrams. -/
namespace Goexpdt
open Spec Props

variable {W : World} {T : DTree} {Γ : List QVar} {stack : List Scope} {d : Nat} {nodes : List Node}

theorem firstOf_covers {α : Type} (l : List (Nat × α)) : ∀ p ∈ l, ∃ q ∈ firstOf l, q.1 = p.1 := by
  induction l with
  | nil => simp
  | cons a l ih =>
    intro p hp
    by_cases h : p.1 = a.1
    · exact ⟨a, by simp [firstOf], h.symm⟩
    · rcases List.mem_cons.1 hp with rfl | hp
      · exact absurd rfl h
      · obtain ⟨q, h1, h2⟩ := ih p hp
        exact ⟨q, by simp only [firstOf, List.mem_cons, List.mem_filter]; exact .inr ⟨h1, by rw [h2]; simpa using h⟩, h2⟩

theorem mem_firstScopes {id : List Char} {g : Scope} : g ∈ firstScopes d T id ↔
    ∃ i p, (firstPaths T)[i]? = some p ∧ g = scopeAt d id i p := by
  simp only [firstScopes, List.mem_map, List.mem_zipIdx_iff_getElem?, Prod.exists]
  constructor
  · rintro ⟨a, b, i, h1, h2⟩; exact ⟨i, a, b, h1, h2.symm⟩
  · rintro ⟨i, a, b, h1, h2⟩; exact ⟨a, b, i, h1, h2.symm⟩

/-- Sets of features that are sufficient tell any two paths to leafs of different class apart. -/
theorem dfs_apart (hD : IsDiagram d nodes T) {e : PInst} (h : DFS d T e) : TellsApart d nodes (firstPaths T) e := by
  have leaf : ∀ p ∈ firstPaths T, ∀ n, nodes[p.1]? = some n → n.childless = true → (n.value, p.2) ∈ leafInsts bot T := by
    intro p hp n hn hc
    exact (leafInsts_iff hD.laid _ _).2 ⟨p, firstOf_sub _ p hp, by rw [nodeAt_eq hn]; exact hc, by rw [nodeAt_eq hn], rfl⟩
  intro p0 hp0 n0 hn0 a b ha hb hac hbc hav hbv
  have hp := leaf p0 hp0 a ha hac
  have hn := leaf n0 hn0 b hb hbc
  rw [hav] at hp
  rw [hbv] at hn
  obtain ⟨i0, p⟩ := p0
  obtain ⟨j0, n⟩ := n0
  simp only at hp hn ⊢
  refine Classical.byContradiction fun hc => ?_
  simp only [not_exists, not_and] at hc
  have hcc : ∀ i < d, e i ≠ none → p i ≠ none → n i ≠ none → p i = n i := fun i hi a b c => by
    refine Classical.byContradiction fun hne => ?_; exact hc i hi a b c hne
  obtain ⟨b, hb⟩ := h (fun i => if e i = none then none else (p i).or ((n i).or (some false))) (by
    intro i _
    by_cases he : e i = none
    · simp [he]
    · simp only [he, if_false, iff_false]
      cases p i <;> cases n i <;> simp)
  have key : ∀ q : Bool × PInst, q ∈ leafInsts bot T →
      (∀ i < d, e i ≠ none → ∀ b, (p i).or ((n i).or (some false)) = some b →
        ∀ c, q.2 i = some c → c = b) → q.1 = b := by
    intro q hq hqc
    have := hb (fun i => (q.2 i).getD (((p i).or ((n i).or (some false))).getD false)) (fun i hi b hb => by
      simp only at hb
      by_cases he : e i = none
      · simp [he] at hb
      · simp only [he, if_false] at hb
        cases hqi : q.2 i with
        | some c => simpa [hqi] using hqc i hi he b hb c hqi
        | none => simp only [hqi, hb, Option.getD_none, Option.getD_some])
    rw [← this]
    exact (classify_leaf hD.once hq fun i c hc => by simp [hc]).symm
  have h1 := key _ hp (fun i hi he b hb c hc => by simp only at hc; rw [hc] at hb; simpa using hb)
  have h2 := key _ hn (fun i hi he b hb c hc => by
    simp only at hc
    cases hpi : p i with
    | none => rw [hpi, hc] at hb; simpa using hb
    | some c' =>
      have := hcc i hi he (by simp [hpi]) (by simp [hc])
      rw [hpi, hc] at this
      rw [hpi] at hb
      simp only [Option.some.injEq, Option.some_or] at this hb
      rw [← hb, this])
  simp only at h1 h2
  rw [← h1] at h2
  cases h2

theorem mem_firstOf {α : Type} (l : List (Nat × α)) (p : Nat × α) :
    p ∈ firstOf l ↔ ∃ k : Nat, l[k]? = some p ∧ ∀ j < k, ∀ q : Nat × α, l[j]? = some q → q.1 ≠ p.1 := by
  induction l with
  | nil => simp [firstOf]
  | cons a l ih =>
    simp only [firstOf, List.mem_cons, List.mem_filter, ih, decide_eq_true_eq, ne_eq]
    constructor
    · rintro (rfl | ⟨⟨k, h1, h2⟩, h3⟩)
      · exact ⟨0, rfl, fun j hj => absurd hj (by omega)⟩
      · refine ⟨k + 1, by simpa using h1, fun j hj q hq => ?_⟩
        cases j with
        | zero => simp at hq; subst hq; exact fun e => h3 e.symm
        | succ j => exact h2 j (by omega) q (by simpa using hq)
    · rintro ⟨k, h1, h2⟩
      cases k with
      | zero => simp at h1; exact .inl h1.symm
      | succ k =>
        refine .inr ⟨⟨k, by simpa using h1, fun j hj q hq => h2 (j + 1) (by omega) q (by simpa using hq)⟩, fun e => ?_⟩
        exact h2 0 (by omega) a rfl e.symm

theorem firstOf_once {α : Type} (l : List (Nat × α)) : ((firstOf l).map (·.1)).Nodup := by
  induction l with
  | nil => simp [firstOf]
  | cons a l ih =>
    simp only [firstOf, List.map_cons, List.nodup_cons, List.mem_map, List.mem_filter, decide_eq_true_eq]
    refine ⟨fun ⟨q, ⟨_, h1⟩, h2⟩ => h1 h2, ?_⟩
    exact (List.filter_sublist.map _).nodup ih

theorem nodeInsts_fst (hr : ∀ f ∈ T.feats, f < d) : (T.nodeInsts bot).map (·.1) = T.indexes := by
  have h2 := preVals_den (T := T) (t := List.replicate d BOT) (by simpa using hr)
  rw [den_replicate] at h2
  rw [← h2, ← preVals_fst (List.replicate d BOT) T, List.map_map]
  rfl

theorem tree_first (hT : IsTree d nodes T) : firstPaths T = T.nodeInsts bot :=
  firstOf_nodup (by rw [nodeInsts_fst hT.range]; exact hT.nodup)

theorem tree_apart (hT : IsTree d nodes T) {e : PInst} : DFS d T e ↔ TellsApart d nodes (firstPaths T) e := by
  refine ⟨dfs_apart ⟨hT.laid, hT.root, hT.range, hT.once⟩, fun h => (dfs_iff hT).2 ?_⟩
  rintro ⟨b, p⟩ hp ⟨c, n⟩ hn hb hc
  obtain rfl : b = true := hb
  obtain rfl : c = false := hc
  obtain ⟨p', hp1, hp2, hp3, rfl⟩ := (leafInsts_iff hT.laid _ _).1 hp
  obtain ⟨n', hn1, hn2, hn3, rfl⟩ := (leafInsts_iff hT.laid _ _).1 hn
  have lt : ∀ q ∈ T.nodeInsts bot, nodes[q.1]? = some (nodeAt nodes q.1) := fun q hq =>
    getElem?_nodeAt (laysOut_lt hT.laid _ (by rw [← nodeInsts_fst hT.range]; exact List.mem_map.2 ⟨q, hq, rfl⟩))
  rw [tree_first hT] at h
  exact h p' hp1 n' hn1 _ _ (lt p' hp1) (lt n' hn1) hp2 hn2 hp3 hn3

/-! ### predicates -/

/-- The leafs `dfs` compares: one path to each. -/
theorem leafs_diagram (hD : IsDiagram d nodes T) {w : WalkSt} (hok : newNodeAsValuesIter d nodes = .ok w) :
    ∃ ps ns : List QConst, leafsAsConsts d nodes = .ok (ps, ns) ∧ ¬ (ps.length = 0 ∧ ns.length = 0) ∧
      (∀ c ∈ ps ++ ns, GoodVals d c.val) ∧
      ∀ e, (∀ p ∈ ps, ∀ n ∈ ns, ∃ i < d, e i ≠ none ∧ den p.val i ≠ none ∧ den n.val i ≠ none ∧ den p.val i ≠ den n.val i) ↔
        TellsApart d nodes (firstPaths T) e := by
  rcases C17_dfs_walk d nodes (newIter_ok hok).1 with ⟨m, -, h⟩ | ⟨ws, -, hit, hl⟩
  · rw [hok] at h; cases h
  · obtain ⟨hv, hg⟩ := diagram_values hD hit
    have hlt : ∀ v ∈ ws, nodes[v.cp]? = some (nodeAt nodes v.cp) := by
      intro v hv'
      have : (v.cp, den v.t) ∈ T.nodeInsts bot := firstOf_sub _ _ (show _ ∈ firstPaths T by rw [← hv]; exact List.mem_map.2 ⟨v, hv', rfl⟩)
      refine getElem?_nodeAt (laysOut_lt hD.laid _ ?_)
      rw [← preVals_fst (List.replicate d BOT) T]
      have h2 := preVals_den (T := T) (t := List.replicate d BOT) (by simpa using hD.range)
      rw [den_replicate] at h2
      rw [← h2] at this
      obtain ⟨q, hq, e⟩ := List.mem_map.1 this
      exact List.mem_map.2 ⟨q, hq, (Prod.mk.inj e).1⟩
    refine ⟨_, _, hl, ?_, ?_, ?_⟩
    · obtain ⟨⟨b, q⟩, hp, -⟩ := exists_leaf (e0 := bot) T (fun _ => false) (fun i b h => by simp [bot] at h)
      obtain ⟨p, hp, hlf, hval, -⟩ := (leafInsts_iff hD.laid _ _).1 hp
      obtain ⟨r, hr, hrp⟩ := firstOf_covers _ p hp
      rw [show firstOf (T.nodeInsts bot) = ws.map fun w => (w.cp, den w.t) from hv.symm] at hr
      obtain ⟨w, hw, rfl⟩ := List.mem_map.1 hr
      simp only at hrp
      rintro ⟨h1, h2⟩
      rw [List.length_map, List.length_eq_zero_iff, List.filter_eq_nil_iff] at h1 h2
      have h1 := h1 w hw
      have h2 := h2 w hw
      rw [hrp, show Node.childless = Node.isLeaf from rfl, hlf] at h1 h2
      simp at h1 h2
      rw [h1] at h2
      cases h2
    · intro c hc
      simp only [List.mem_append, List.mem_map, List.mem_filter] at hc
      rcases hc with ⟨w, ⟨hw, -⟩, rfl⟩ | ⟨w, ⟨hw, -⟩, rfl⟩ <;> exact hg w hw
    · intro e
      constructor
      · intro h p hp q hq n m hn hm hnc hmc hnv hmv
        rw [← hv] at hp hq
        obtain ⟨v, hv1, rfl⟩ := List.mem_map.1 hp
        obtain ⟨u, hu1, rfl⟩ := List.mem_map.1 hq
        simp only at hn hm
        refine h { val := v.t } (List.mem_map.2 ⟨v, List.mem_filter.2 ⟨hv1, ?_⟩, rfl⟩) { val := u.t }
          (List.mem_map.2 ⟨u, List.mem_filter.2 ⟨hu1, ?_⟩, rfl⟩)
        · rw [nodeAt_eq hn]; simp [hnc, hnv]
        · rw [nodeAt_eq hm]; simp [hmc, hmv]
      · intro h p hp n hn
        obtain ⟨v, hv1, rfl⟩ := List.mem_map.1 hp
        obtain ⟨u, hu1, rfl⟩ := List.mem_map.1 hn
        obtain ⟨hv1, hv2⟩ := List.mem_filter.1 hv1
        obtain ⟨hu1, hu2⟩ := List.mem_filter.1 hu1
        simp only [Bool.and_eq_true, Bool.not_eq_true'] at hv2 hu2
        exact h (v.cp, den v.t) (by rw [← hv]; exact List.mem_map.2 ⟨v, hv1, rfl⟩) (u.cp, den u.t)
          (by rw [← hv]; exact List.mem_map.2 ⟨u, hu1, rfl⟩) _ _ (hlt v hv1) (hlt u hu1) hv2.1 hu2.1 hv2.2 hu2.2

theorem dfs_on {t : Term} (hD : IsDiagram W.dim W.nodes T) {w : WalkSt} (hok : newNodeAsValuesIter W.dim W.nodes = .ok w)
    (h : (Atom.dfs t).FitsOn W.dim Γ stack) :
    Captures W Γ stack (Atom.dfs t).encode
      (fun σ => TellsApart W.dim W.nodes (firstPaths T) ((t.res W.depth stack).den σ)) := by
  obtain ⟨ps, ns, e1, e2, e3, e4⟩ := leafs_diagram hD hok
  cases t with
  | const c =>
    have h1 := good_res (h.consts c (by simp [Spec.Atom.consts, Spec.Term.consts]))
    refine .scopeConst c (.validate (by simp [h1.1]) (.dim (.nodes (.lift e1 ?_))))
    simp only
    rw [if_neg e2]
    obtain ⟨b, f1, f2⟩ := dfsOuter_good h1 ns (fun n hn => e3 n (by simp [hn])) ps (fun p hp => e3 p (by simp [hp]))
    refine .lift f1 ?_
    exact (Captures.pureBool _).congr fun σ => f2.trans (e4 _)
  | var x =>
    have hx := h.vars x (by simp [Atom.vars, Term.vars])
    refine .scopeVar hx (.dim (.nodes (.lift e1 ?_)))
    simp only
    rw [if_neg e2]
    obtain ⟨cls, f1, f2, f3⟩ := dfsClauses_good (d := W.dim) (W.nm stack x)
      (ps.flatMap fun p => ns.map fun n => (p, n)) (by
        intro l hl
        simp only [List.mem_flatMap, List.mem_map] at hl
        obtain ⟨p, hp, n, hn, rfl⟩ := hl
        exact ⟨e3 p (by simp [hp]), e3 n (by simp [hn])⟩)
    refine .lift f1 (.emitS ?_ ?_)
    · intro vr hvr
      obtain ⟨i, hi, rfl⟩ := f2 vr hvr
      exact .inst (instNames_of hx) hi bot_mem
    · intro σ ν hr
      rw [f3 ν _ (hr x hx)]
      refine Iff.trans ?_ (e4 _)
      constructor
      · intro h p hp n hn
        exact h (p, n) (by simp only [List.mem_flatMap, List.mem_map]; exact ⟨p, hp, n, hn, rfl⟩)
      · intro h l hl
        simp only [List.mem_flatMap, List.mem_map] at hl
        obtain ⟨p, hp, n, hn, rfl⟩ := hl
        exact h p hp n hn

theorem Atom.FitsOn.fits {a : Atom} (h : a.FitsOn d Γ stack) (hm : a.onModel = false) : a.Fits d nodes T Γ stack :=
  ⟨h.vars, h.consts, h.gens, h.pref, h.prefne, h.regular, fun k => absurd (hm.symm.trans k) nofun⟩

theorem atom_on {a : Atom} (hD : IsDiagram W.dim W.nodes T) {w : WalkSt} (hok : newNodeAsValuesIter W.dim W.nodes = .ok w)
    (h : a.FitsOn W.dim Γ stack) (hu : ∀ u ∈ a.uses W.depth stack, Plays W T u.1 u.2) :
    Captures W Γ stack a.encode (fun σ => a.saysOn W.dim W.nodes T fun t => (t.res W.depth stack).den σ) := by
  obtain ⟨hne, hva, -⟩ := newIter_ok hok
  have hlen : ¬ W.nodes.length = 0 := by simpa using hne
  cases a with
  | subs t1 t2 => exact subs_captures (h.fits (T := T) rfl)
  | lel t1 t2 g => exact lel_captures (h.fits rfl) hu
  | full t => exact full_captures (h.fits (T := T) rfl)
  | cons t1 t2 => exact cons_captures (h.fits (T := T) rfl)
  | dfs t => exact dfs_on hD hok h
  | hepr t1 t2 p g => exact hepr_captures (h.fits rfl) hu
  | leh t1 t2 t3 g e => exact leh_captures (h.fits rfl) hu
  | isnode t g =>
    cases t with
    | var x => exact absurd h.unmarked nofun
    | const c =>
      have h1 := good_res (h.consts c (by simp [Spec.Atom.consts, Spec.Term.consts]))
      refine .scopeConst c (.validate (by simp [h1.1]) (.dim (.nodes ?_)))
      rw [if_neg hlen]
      obtain ⟨vr, e1, e2⟩ := isnodeConst_diagram (sc := { id := c.id, val := resolve stack c }) hD.laid hD.range hD.root h1
      refine .lift e1 ?_
      exact (Captures.pureBool _).congr fun σ => e2.trans ⟨isNode_of_visits, visits_of_isNode hD.once hD.range⟩
  | allcomp t b g =>
    cases t with
    | var x => exact absurd h.unmarked nofun
    | const c =>
      have h1 := good_res (h.consts c (by simp [Spec.Atom.consts, Spec.Term.consts]))
      refine .scopeConst c (.validate (by simp [h1.1]) (.dim (.nodes ?_)))
      rw [if_neg hlen]
      obtain ⟨r, e1, e2⟩ := acLoop_const (sc := { id := c.id, val := resolve stack c }) h1 b (valid_sound hne hva)
      refine .lift e1 ?_
      refine (Captures.pureBool _).congr fun σ => e2.trans ?_
      exact (follows_leafs (e := den (resolve stack c)) hD.laid hD.range hD.root b).trans (leafsAre_iff hD.once hD.range b)

/-! ### queries -/

theorem query_on (hD : IsDiagram W.dim W.nodes T) {w0 : WalkSt} (hok : newNodeAsValuesIter W.dim W.nodes = .ok w0) (q : Query) :
    ∀ (Γ : List QVar) (stack : List Scope), q.FitsOn W.dim T W.depth Γ stack →
    (∀ n ∈ q.namesOn W.dim T stack, W.isInst n ∧ W.may n) →
    (∀ u ∈ q.usesOn W.dim T W.depth stack, Plays W T u.1 u.2) →
    ∃ act, q.comp = some act ∧ Captures W Γ stack act (fun σ => q.semOn W.dim W.nodes T W.depth σ stack) ∧
      Declares W Γ stack act (· ∈ q.namesOn W.dim T stack) := by
  induction q with
  | nil => intro Γ stack h; exact h.elim
  | atom a => intro Γ stack h _ hu; exact ⟨_, rfl, atom_on hD hok h hu, fun _ _ _ n hn => by simp [Query.namesOn] at hn⟩
  | and q1 q2 ih1 ih2 =>
    intro Γ stack h hn hu
    simp only [Query.namesOn, Query.usesOn, List.mem_append] at hn hu
    obtain ⟨a1, e1, c1, d1⟩ := ih1 Γ stack h.1 (fun n hn' => hn n (.inl hn')) (fun u hu' => hu u (.inl hu'))
    obtain ⟨a2, e2, c2, d2⟩ := ih2 Γ stack h.2 (fun n hn' => hn n (.inr hn')) (fun u hu' => hu u (.inr hu'))
    refine ⟨_, rfl, by rw [e1, e2]; exact c1.encAnd c2, ?_⟩
    rw [e1, e2]
    intro s hp hs n hn
    exact Declares.encAnd c1 c2 d1 d2 s hp hs n (by simpa [Query.namesOn] using hn)
  | or q1 q2 ih1 ih2 =>
    intro Γ stack h hn hu
    simp only [Query.namesOn, Query.usesOn, List.mem_append] at hn hu
    obtain ⟨a1, e1, c1, d1⟩ := ih1 Γ stack h.1 (fun n hn' => hn n (.inl hn')) (fun u hu' => hu u (.inl hu'))
    obtain ⟨a2, e2, c2, d2⟩ := ih2 Γ stack h.2 (fun n hn' => hn n (.inr hn')) (fun u hu' => hu u (.inr hu'))
    refine ⟨_, rfl, by rw [e1, e2]; exact c1.encOr c2, ?_⟩
    rw [e1, e2]
    intro s hp hs n hn
    exact Declares.encOr c1 c2 d1 d2 s hp hs n (by simpa [Query.namesOn] using hn)
  | not q ih =>
    intro Γ stack h hn hu
    obtain ⟨a, e, c, dd⟩ := ih Γ stack h hn hu
    exact ⟨_, rfl, by rw [e]; exact c.encNot, by rw [e]; exact Declares.encNot c dd⟩
  | withVar x q ih =>
    intro Γ stack h hn hu
    simp only [Query.namesOn, List.mem_cons] at hn
    obtain ⟨a, e, c, dd⟩ := ih (x :: Γ) stack h.2 (fun n hn' => hn n (.inr hn')) hu
    have hnm : W.nm stack x = x ++ suffix stack := by
      unfold World.nm
      rw [h.1, List.take_length]
    have hin : W.isInst (W.nm stack x) ∧ W.may (W.nm stack x) := by rw [hnm]; exact hn _ (.inl rfl)
    refine ⟨_, rfl, ?_, ?_⟩
    · rw [e]
      exact Captures.encWithVar h.1 hin.1 hin.2 c
    · rw [e]
      intro s hp hs n hn
      refine Declares.encWithVar h.1 hin.1 hin.2 c dd s hp hs n ?_
      rw [hnm]
      simpa [Query.namesOn] using hn
  | forallG k q ih =>
    intro Γ stack hf hn hu
    have hok' := hok
    rw [(newIter_ok hok).2.2] at hok'
    obtain ⟨ws, hws, -⟩ := C17_terminates _ _ _ hok'
    obtain ⟨hv, hg⟩ := diagram_values hD hws
    simp only [Query.namesOn, Query.usesOn, List.mem_flatMap] at hn hu
    have hscope : ∀ i w, ws[i]? = some w →
        (⟨k.id, w.t, (i : Nat)⟩ : Scope) ∈ firstScopes W.dim T k.id ∧ (firstPaths T)[i]? = some (w.cp, den w.t) ∧
        (⟨k.id, w.t, (i : Nat)⟩ : Scope) = scopeAt W.dim k.id i (w.cp, den w.t) := by
      intro i w hw
      have h1 : (firstPaths T)[i]? = some (w.cp, den w.t) := by rw [← hv, List.getElem?_map, hw]; rfl
      have h2 : (⟨k.id, w.t, (i : Nat)⟩ : Scope) = scopeAt W.dim k.id i (w.cp, den w.t) := by
        unfold scopeAt
        rw [valsOf_den (hg w (List.mem_of_getElem? hw))]
      exact ⟨mem_firstScopes.2 ⟨i, _, h1, h2⟩, h1, h2⟩
    cases hc : q.comp with
    | none =>
      obtain ⟨w, hw⟩ : ∃ w, ws[0]? = some w := by
        cases T <;> (cases ws <;> simp_all [firstPaths, firstOf, DTree.nodeInsts])
      obtain ⟨hm, -, -⟩ := hscope 0 w hw
      obtain ⟨a, e, -⟩ := ih Γ _ (hf _ hm) (fun n hn' => hn n ⟨_, hm, hn'⟩) (fun u hu' => hu u ⟨_, hm, hu'⟩)
      rw [hc] at e; simp at e
    | some act =>
    have hch : ∀ i w, ws[i]? = some w →
        Captures W Γ (stack ++ [⟨k.id, w.t, (i : Nat)⟩]) act
          (fun σ => ∀ w, ws[i]? = some w → q.semOn W.dim W.nodes T W.depth σ (stack ++ [⟨k.id, w.t, (i : Nat)⟩])) ∧
        Declares W Γ (stack ++ [⟨k.id, w.t, (i : Nat)⟩]) act
          (fun n => ∃ w, ws[i]? = some w ∧ n ∈ q.namesOn W.dim T (stack ++ [⟨k.id, w.t, (i : Nat)⟩])) := by
      intro i w hw
      obtain ⟨hm, -, -⟩ := hscope i w hw
      obtain ⟨a, e, c, dd⟩ := ih Γ _ (hf _ hm) (fun n hn' => hn n ⟨_, hm, hn'⟩) (fun u hu' => hu u ⟨_, hm, hu'⟩)
      rw [hc] at e
      simp only [Option.some.injEq] at e
      subst e
      refine ⟨c.congr fun σ => ?_, ?_⟩
      · constructor
        · intro hs w' hw'
          rw [hw] at hw'
          simp only [Option.some.injEq] at hw'
          subst hw'
          exact hs
        · intro hs; exact hs w hw
      · rintro s hp hs n ⟨w', hw', hn'⟩
        rw [hw] at hw'
        simp only [Option.some.injEq] at hw'
        subst hw'
        exact dd s hp hs n hn'
    have hback : ∀ g ∈ firstScopes W.dim T k.id, ∃ i, ∃ hi : i < ws.length, g = ⟨k.id, ws[i].t, (i : Nat)⟩ := by
      intro g hg'
      obtain ⟨i, p, hp, rfl⟩ := mem_firstScopes.1 hg'
      have hi : i < ws.length := by
        have := (List.getElem?_eq_some_iff.1 hp).1
        rw [← hv] at this
        simpa using this
      obtain ⟨-, h1, h2⟩ := hscope i ws[i] (List.getElem?_eq_getElem hi)
      rw [hp] at h1
      simp only [Option.some.injEq] at h1
      subst h1
      exact ⟨i, hi, h2.symm⟩
    refine ⟨_, rfl, ?_, ?_⟩
    · rw [hc]
      refine (Captures.encForall hok' hws fun i w hw => (hch i w hw).1).congr fun σ => ?_
      constructor
      · intro hs g hg'
        obtain ⟨i, hi, rfl⟩ := hback g hg'
        exact hs i hi ws[i] (List.getElem?_eq_getElem hi)
      · intro hs i hi w hw
        exact hs _ (hscope i w hw).1
    · rw [hc]
      intro s hp hs n hn'
      refine Declares.encForall hok' hws hch s hp hs n ?_
      simp only [Query.namesOn, List.mem_flatMap] at hn'
      obtain ⟨g, hg', hn'⟩ := hn'
      obtain ⟨i, hi, rfl⟩ := hback g hg'
      exact ⟨i, hi, ws[i], List.getElem?_eq_getElem hi, hn'⟩

theorem good_on {depth : QVar → Nat} {q : Query} (hg : q.GoodOn d nodes T depth) {s : Ctx} (hs : Ready d nodes (q.namesOn d T []) s) :
    ∃ c s', q.encode s = (.ok c, s') ∧ WF c ∧ Ready d nodes [] s' ∧
      (∀ n ∈ q.namesOn d T [], ∀ i < d, ∀ v ∈ featVals, Named s' ⟨n, (i : Nat), v⟩) ∧
      Faithful d (q.namesOn d T []) (fun σ => q.semOn d nodes T depth σ []) s' c := by
  let W := worldOf d nodes T depth hg.dim (q.namesOn d T []) [] (q.usesOn d T depth [])
  obtain ⟨w0, hok⟩ := hg.accepted
  obtain ⟨act, e, hc, hd⟩ := query_on (W := W) (T := T) hg.diagram hok q [] [] hg.fits
    (fun n hn => ⟨List.mem_append_left _ hn, hn⟩) (worldOf_plays fun u hu => by
      rw [List.append_nil]
      exact (hg.clean u hu).1)
  have hco : ∀ σ, W.dom σ := hg.clean.coherent nodes
  have hp : Pre W [] s := Ready.pre (W := W) hs fun n hn => by simpa [W, worldOf] using hn
  obtain ⟨c, s', e', hx⟩ := hc.exact hp hs.scopes fun n hn => hs.fresh n (by simpa [W, worldOf] using hn)
  have hdecl : ∀ n ∈ q.namesOn d T [], Declared s' n := by
    intro n hn
    have := hd s hp hs.scopes n hn
    rw [e'] at this
    exact this
  have hag : ∀ β σ, (∀ n ∈ q.namesOn d T [], Reads d s' β n (σ n)) ↔ Agree W s' β σ := by
    intro β σ
    exact ⟨fun h n hn hnd => h n (hx.decl n hn hnd), fun h n hn => h n (List.mem_append_left _ hn) (hdecl n hn)⟩
  refine ⟨c, s', by rw [Query.encode_eq e]; exact e', hx.wf,
    ⟨hx.vm, hx.dim.trans hs.dim, hx.nodes.trans hs.nodes, hx.scopes, hx.vars, by simp⟩,
    fun n hn => hx.named n (List.mem_append_left _ hn) (hdecl n hn), hx.satisfiable fun σ _ => hco σ, ?_, ?_, ?_, ?_, ?_⟩
  · rintro β ⟨h1, h2⟩
    obtain ⟨σ, hσ⟩ := hx.reads β h2
    exact ⟨σ, (hx.sem β σ h2 hσ).1 h1, (hag β σ).2 hσ⟩
  · intro σ hσ
    obtain ⟨β, h1, h2⟩ := hx.con σ (hco σ)
    exact ⟨β, ⟨(hx.sem β σ h1 h2).2 hσ, h1⟩, (hag β σ).2 h2⟩
  · intro β hβ
    obtain ⟨σ, hσ⟩ := hx.reads β hβ
    exact ⟨σ, (hag β σ).2 hσ⟩
  · intro σ
    obtain ⟨β, h1, h2⟩ := hx.con σ (hco σ)
    exact ⟨β, h1, (hag β σ).2 h2⟩
  · intro β σ h1 h2
    exact hx.sem β σ h1 ((hag β σ).1 h2)

end Goexpdt

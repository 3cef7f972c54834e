import Verif.Lemmas.Repeats
import Verif.Props.Own
/-
Property C85: models in which a path decides on a feature several times.
-/
namespace Goexpdt.Props
open Goexpdt Spec

variable {d : Nat} {nodes : List Node} {T : DTree} {e : PInst} {q : Query} {s : Ctx}

/-- C85: on such trees the predicates other than deterministic.DFS meet the contract of C84: isnode says that the instance makes exactly the
decisions on the way to some node, and allcomp that it allows only ways to leafs of the class, where undefined features allow both decisions
every time. The others say the same as always. -/
theorem C85_meets {a : Atom} (hl : a.leafless = true) (hg : Spec.Atom.nilGen a = false) (hp : a.PrefOk d) (hn : Spec.Atom.PrefsNonempty a)
    (hT : a.onModel = true → IsRawTree d nodes T ∧ Covers nodes T) : (a.rawPred d nodes T).Meets d nodes := by
  have hlib : a.onModel = false → (a.pred d nodes T).Meets d nodes := fun h =>
    C84_library hg hp hn fun h' => by rw [h] at h'; simp at h'
  cases a with
  | dfs t => simp [Atom.leafless] at hl
  | isnode t g =>
    obtain ⟨h1, h2⟩ := hT rfl
    have ht : t ∈ ((Atom.isnode t g).rawPred d nodes T).terms := by
      cases t <;> simp [Atom.rawPred, Atom.vars, Term.vars, Spec.Atom.consts, Spec.Term.consts]
    refine ⟨fun ρ ρ' h => endsWay_same (h t ht), ?_⟩
    rintro W Γ stack rfl rfl hv hc - hu
    refine isnode_captures_raw h1 h2 (fun x hx => hv x ?_) (fun c hc' => hc c ?_) hg hu
    · exact List.mem_append_left _ (List.mem_map.2 ⟨x, hx, rfl⟩)
    · exact List.mem_append_right _ (List.mem_map.2 ⟨c, hc', rfl⟩)
  | allcomp t b g =>
    obtain ⟨h1, h2⟩ := hT rfl
    have ht : t ∈ ((Atom.allcomp t b g).rawPred d nodes T).terms := by
      cases t <;> simp [Atom.rawPred, Atom.vars, Term.vars, Spec.Atom.consts, Spec.Term.consts]
    refine ⟨fun ρ ρ' h => onlyTo_same h1.range b (h t ht), ?_⟩
    rintro W Γ stack rfl rfl hv hc - hu
    refine allcomp_captures_raw h1 h2 (fun x hx => hv x ?_) (fun c hc' => hc c ?_) hg hu
    · exact List.mem_append_left _ (List.mem_map.2 ⟨x, hx, rfl⟩)
    · exact List.mem_append_right _ (List.mem_map.2 ⟨c, hc', rfl⟩)
  | _ => exact hlib rfl

/-- C85: a closed query without deterministic.DFS and guarded quantifiers is encoded without error on such trees, and the encoding is satisfiable
iff the query is true, with isnode and allcomp as in `C85_meets`. -/
theorem C85_first_order (hd : 0 < d) (hf : q.RawFits d nodes T []) (hc : q.RawClean d nodes T) (hp : q.Plain)
    (hs : Ready d nodes (q.names d T []) s) :
    ∃ c s', q.encode s = (.ok c, s') ∧ (Satisfiable c ↔ q.rawFo d T (fun _ => bot) (fun _ => none)) := by
  have hfits : ∀ (q : Query) Γ, q.RawFits d nodes T Γ → (q.raw d nodes T).Fits d nodes T (fun _ => 0) Γ [] := by
    intro q
    induction q with
    | nil => intro Γ h; exact h.elim
    | atom a =>
      rintro Γ ⟨h1, h2, h3, h4, h5, h6, h7, h8⟩
      refine ⟨C85_meets h1 h4 h5 h6 h8, fun x hx => h2 x ?_, fun c hc => h3 c ?_, h7⟩
      · simpa [Atom.rawPred] using hx
      · simpa [Atom.rawPred] using hc
    | and q1 q2 ih1 ih2 => intro Γ h; exact ⟨ih1 Γ h.1, ih2 Γ h.2⟩
    | or q1 q2 ih1 ih2 => intro Γ h; exact ⟨ih1 Γ h.1, ih2 Γ h.2⟩
    | not q ih => intro Γ h; exact ih Γ h
    | withVar x q ih => intro Γ h; exact ⟨rfl, ih (x :: Γ) h⟩
    | forallG c q ih => intro Γ h; exact h.elim
  have hn : (q.raw d nodes T).names d T = q.names d T [] := raw_names q []
  have hg : (q.raw d nodes T).Good d nodes T fun _ => 0 := ⟨hd, hfits q [] hf, by rw [hn]; exact hc⟩
  obtain ⟨c, s', h1, h2⟩ := C84_first_order hg (raw_plain hp) (hn ▸ hs)
  refine ⟨c, s', ?_, h2.trans (raw_fo q [] _ _ hf)⟩
  rw [← h1, Query.encode, raw_comp q [] hf]

/-! ### C85: what this is worth -/

/-- C85: where allcomp says yes, all completions have the class; and about total instances it is right. -/
theorem C85_allcomp (hr : ∀ f ∈ T.feats, f < d) (b : Bool) :
    (OnlyTo T b e → AllComp d T b e) ∧ (Full d e → (OnlyTo T b e ↔ AllComp d T b e)) := by
  have h1 : OnlyTo T b e → AllComp d T b e := fun h => leafsAre_allComp hr b (leafsAre_ways.2 h)
  refine ⟨h1, fun hf => ⟨h1, fun h => ?_⟩⟩
  have hx := h (fun i => (e i).getD false) (fun i _ b hb => by simp [hb])
  have key : ∀ T : DTree, (∀ f ∈ T.feats, f < d) → ∀ p ∈ T.leafWays, Allows e p.2 → p.1 = T.classify fun i => (e i).getD false := by
    intro T hr
    induction T with
    | leaf i v => simp [DTree.leafWays, DTree.classify]
    | node i f z o ihz iho =>
      have hfd := hf f (hr f (by simp [DTree.feats]))
      simp only [DTree.leafWays, List.mem_append, List.mem_map]
      rintro p (⟨p, hp, rfl⟩ | ⟨p, hp, rfl⟩) ha
      · simp only [Allows, List.mem_cons, forall_eq_or_imp] at ha
        have hv : e f = some false := by
          rcases opt3 (e f) with h | h | h
          · exact absurd h hfd
          · exact h
          · exact absurd h ha.1
        simp only [DTree.classify, hv, Option.getD_some, Bool.false_eq_true, if_false]
        exact ihz (fun g hg => hr g (by simp [DTree.feats, hg])) p hp ha.2
      · simp only [Allows, List.mem_cons, forall_eq_or_imp] at ha
        have hv : e f = some true := by
          rcases opt3 (e f) with h | h | h
          · exact absurd h hfd
          · exact absurd h ha.1
          · exact h
        simp only [DTree.classify, hv, Option.getD_some, if_true]
        exact iho (fun g hg => hr g (by simp [DTree.feats, hg])) p hp ha.2
  intro p hp ha
  rw [key T hr p hp ha]
  exact hx

/-- C85: if no path decides twice on a feature, this is the usual meaning. -/
theorem C85_once (hr : ∀ f ∈ T.feats, f < d) (ho : T.ReadOnce) (b : Bool) :
    (OnlyTo T b e ↔ AllComp d T b e) ∧ (EndsWay d T e ↔ IsNode d T e) :=
  ⟨leafsAre_ways.symm.trans (leafsAre_iff ho hr b),
    (visits_iff_endsWay hr).symm.trans ⟨isNode_of_visits, visits_of_isNode ho hr⟩⟩

/-- C85: on all trees, where isnode says yes the instance is that of a node. -/
theorem C85_isnode (hr : ∀ f ∈ T.feats, f < d) (h : EndsWay d T e) : IsNode d T e := isNode_of_visits ((visits_iff_endsWay hr).2 h)

/-- C85: so if isnode and allcomp are used positively only, satisfiable encodings mean that the query is true; if they are used negatively only,
unsatisfiable ones mean that it is false. -/
theorem C85_sound (hr : ∀ f ∈ T.feats, f < d) (env : QVar → PInst) (guards : List Char → Option PInst) :
    (q.Polar true → q.rawFo d T env guards → q.fo d T env guards) ∧
    (q.Polar false → q.fo d T env guards → q.rawFo d T env guards) := by
  induction q generalizing env guards with
  | nil => exact ⟨fun _ h => h, fun _ h => h⟩
  | atom a =>
    cases a with
    | isnode t g => exact ⟨fun _ h => C85_isnode hr h, fun h => by simp [Query.Polar] at h⟩
    | allcomp t b g => exact ⟨fun _ h => (C85_allcomp hr b).1 h, fun h => by simp [Query.Polar] at h⟩
    | _ => exact ⟨fun _ h => h, fun _ h => h⟩
  | and q1 q2 ih1 ih2 =>
    exact ⟨fun h h' => ⟨(ih1 env guards).1 h.1 h'.1, (ih2 env guards).1 h.2 h'.2⟩,
      fun h h' => ⟨(ih1 env guards).2 h.1 h'.1, (ih2 env guards).2 h.2 h'.2⟩⟩
  | or q1 q2 ih1 ih2 =>
    exact ⟨fun h h' => h'.imp ((ih1 env guards).1 h.1) ((ih2 env guards).1 h.2),
      fun h h' => h'.imp ((ih1 env guards).2 h.1) ((ih2 env guards).2 h.2)⟩
  | not q ih => exact ⟨fun h h' h'' => h' ((ih env guards).2 h h''), fun h h' h'' => h' ((ih env guards).1 h h'')⟩
  | withVar x q ih =>
    exact ⟨fun h ⟨e, h'⟩ => ⟨e, (ih _ guards).1 h h'⟩, fun h ⟨e, h'⟩ => ⟨e, (ih _ guards).2 h h'⟩⟩
  | forallG c q ih =>
    exact ⟨fun h h' p hp => (ih env _).1 h (h' p hp), fun h h' p hp => (ih env _).2 h (h' p hp)⟩

/-- The same for encodings: which of the two answers is right. -/
theorem C85_answers (hd : 0 < d) (hr : ∀ f ∈ T.feats, f < d) (hf : q.RawFits d nodes T []) (hc : q.RawClean d nodes T) (hp : q.Plain)
    (hs : Ready d nodes (q.names d T []) s) :
    ∃ c s', q.encode s = (.ok c, s') ∧
      (q.Polar true → Satisfiable c → q.fo d T (fun _ => bot) (fun _ => none)) ∧
      (q.Polar false → ¬ Satisfiable c → ¬ q.fo d T (fun _ => bot) (fun _ => none)) := by
  obtain ⟨c, s', h1, h2⟩ := C85_first_order hd hf hc hp hs
  obtain ⟨h3, h4⟩ := C85_sound (q := q) hr (fun _ => bot) fun _ => none
  exact ⟨c, s', h1, fun hq hsat => h3 hq (h2.1 hsat), fun hq hsat hfo => hsat (h2.2 (h4 hq hfo))⟩

/-! ### C85: where it fails -/

/-- A tree that decides twice on its only feature: 0, then 0 again. Its negative leaf cannot be reached. -/
def exTwice : List Node := [⟨false, 0, 1, 2⟩, ⟨false, 0, 3, 4⟩, ⟨true, 0, -1, -1⟩, ⟨true, 0, -1, -1⟩, ⟨false, 0, -1, -1⟩]
def exTwiceTree : DTree := .node 0 0 (.node 1 0 (.leaf 3 true) (.leaf 4 false)) (.leaf 2 true)

theorem exTwice_raw : IsRawTree 1 exTwice exTwiceTree :=
  ⟨by simp [LaysOut, exTwice, exTwiceTree, DTree.root, Node.childless], rfl, by decide, by decide⟩

theorem exTwice_covers : Covers exTwice exTwiceTree := by unfold Covers; decide

/-- C85 does not extend to deterministic.DFS: the walk that collects the leafs gives the one that cannot be reached the instance (1). The class
is constant, but dfs.Const says that (_) does not determine it. -/
theorem C85_dfs_wrong : IsRawTree 1 exTwice exTwiceTree ∧ Covers exTwice exTwiceTree ∧ DFS 1 exTwiceTree (den [BOT]) ∧
    ∃ k s', (Atom.dfs (.const { val := [BOT] })).encode (BasicQContext 1 exTwice) = (.ok k, s') ∧ ¬ Satisfiable k := by
  refine ⟨exTwice_raw, exTwice_covers, fun y _ => ⟨true, fun x _ => ?_⟩, unsat_of_refutedResult (n := 5) (by decide +kernel)⟩
  cases h : x 0 <;> simp [exTwiceTree, DTree.classify, h]

/-- A tree in which the third node on the way to node 5 decides on the feature of the root. -/
def exThrice : List Node := [⟨false, 0, 1, 2⟩, ⟨false, -1, -1, -1⟩, ⟨false, 1, 3, 4⟩, ⟨false, 0, 5, 6⟩, ⟨true, -1, -1, -1⟩, ⟨true, -1, -1, -1⟩,
  ⟨true, -1, -1, -1⟩]
def exThriceTree : DTree := .node 0 0 (.leaf 1 false) (.node 2 1 (.node 3 0 (.leaf 5 true) (.leaf 6 true)) (.leaf 4 true))

/-- C85 does not extend to guarded quantifiers: the walk forgets decisions of nodes above (`C18_read_once_needed`), so that "all nodes are nodes"
has an unsatisfiable CNF. -/
theorem C85_quantifier_wrong : IsRawTree 2 exThrice exThriceTree ∧ Covers exThrice exThriceTree ∧
    (∃ k s', (Query.forallG { id := ['c'] } (.atom (.isnode (.const { id := ['c'] }) none))).encode (BasicQContext 2 exThrice) = (.ok k, s') ∧
      ¬ Satisfiable k) :=
  ⟨⟨by simp [LaysOut, exThrice, exThriceTree, DTree.root, Node.childless], rfl, by decide, by decide⟩, by unfold Covers; decide,
    unsat_of_refutedResult (n := 5) (by decide +kernel)⟩

/-! ### concrete cases -/

/-- "There is a total instance such that all completions are positive, but not all completions of (_) are." -/
def rawQuery : Query := .withVar ['x'] (.and (.atom (.full (.var ['x']))) (.and (.atom (.allcomp (.var ['x']) true (some VarGenNodeReach)))
  (.not (.atom (.allcomp (.const { val := [BOT] }) true none)))))

theorem rawQuery_fits : rawQuery.RawFits 1 exTwice exTwiceTree [] := by
  have h : ∀ a : Atom, a.onModel = true → IsRawTree 1 exTwice exTwiceTree ∧ Covers exTwice exTwiceTree := fun _ _ => ⟨exTwice_raw, exTwice_covers⟩
  have hb : GoodVals 1 [BOT] := ⟨rfl, by simp [ValidVals]⟩
  refine ⟨⟨rfl, ?_, ?_, rfl, trivial, trivial, trivial, h _⟩, ⟨rfl, ?_, ?_, rfl, trivial, trivial, trivial, h _⟩,
    ⟨rfl, ?_, ?_, rfl, trivial, trivial, trivial, h _⟩⟩ <;> simp [Atom.vars, Term.vars, Spec.Atom.consts, Spec.Term.consts, hb]

theorem rawQuery_clean : rawQuery.RawClean 1 exTwice exTwiceTree := by
  intro u hu
  have hm : ∀ u ∈ (rawQuery.raw 1 exTwice exTwiceTree).aux 1 exTwiceTree (fun _ => 0) [],
      u ∈ (Atom.allcomp (.var ['x']) true (some VarGenNodeReach)).rawAux 1 exTwice exTwiceTree (fun _ => 0) [] := by
    intro u hu
    simpa [rawQuery, Query.raw, OQuery.aux, Atom.rawPred, Atom.rawAux, Atom.uses] using hu
  have h1 := List.mem_singleton.1 (hm u hu)
  refine ⟨?_, fun u' hu' _ σ i v _ _ => ?_⟩
  · rw [h1]; decide
  · rw [h1, List.mem_singleton.1 (hm u' hu')]

theorem rawQuery_plain : rawQuery.Plain :=
  ⟨⟨trivial, trivial, rfl⟩, by simp [rawQuery, Query.binders], by simp [rawQuery, Query.binders]; decide, trivial, trivial, trivial⟩

/-- Concrete case of C85: on this tree the query has a satisfiable CNF, and is true as isnode and allcomp are on such trees: the negative leaf
can be reached with both decisions on feature 0. (In the usual meaning it is false.) -/
example : ∃ c s', rawQuery.encode (BasicQContext 1 exTwice) = (.ok c, s') ∧ Satisfiable c ∧
    ¬ rawQuery.fo 1 exTwiceTree (fun _ => bot) (fun _ => none) := by
  obtain ⟨c, s', h1, h2⟩ := C85_first_order (s := BasicQContext 1 exTwice) (by omega) rawQuery_fits rawQuery_clean rawQuery_plain (Ready.fresh_ctx _ _ _)
  refine ⟨c, s', h1, h2.2 ⟨fun _ => some true, fun i _ => by simp [Term.val, upd], ?_, fun h => ?_⟩, ?_⟩
  · intro p hp ha
    have hp : p ∈ [(true, [(0, false), (0, false)]), (false, [(0, false), (0, true)]), (true, [(0, true)])] := hp
    simp only [List.mem_cons, List.not_mem_nil, or_false] at hp
    rcases hp with rfl | rfl | rfl
    · rfl
    · exact absurd rfl (ha (0, false) (by simp))
    · rfl
  · have := h (false, [(0, false), (0, true)]) (by simp [exTwiceTree, DTree.leafWays]) (by
      intro t ht
      simp [Term.val, den, featDen, BOT] at ht ⊢
      rcases ht with rfl | rfl <;> simp)
    simp at this
  · rintro ⟨e, -, -, h⟩
    refine h fun x _ => ?_
    cases hx : x 0 <;> simp [exTwiceTree, DTree.classify, hx]

/-- Concrete case of C85_answers: "there is an instance such that all completions are positive". -/
example : ∃ c s', (Query.withVar ['x'] (.atom (.allcomp (.var ['x']) true (some VarGenNodeReach)))).encode (BasicQContext 1 exTwice) = (.ok c, s') ∧
    (Satisfiable c → ∃ e, AllComp 1 exTwiceTree true e) := by
  obtain ⟨c, s', h1, h2, -⟩ := C85_answers (d := 1) (nodes := exTwice) (T := exTwiceTree) (s := BasicQContext 1 exTwice)
    (q := .withVar ['x'] (.atom (.allcomp (.var ['x']) true (some VarGenNodeReach)))) (by omega) exTwice_raw.range
    rawQuery_fits.2.1 (fun u hu => ⟨by rw [List.mem_singleton.1 hu]; decide, fun u' hu' _ σ i v _ _ => by
      rw [List.mem_singleton.1 hu, List.mem_singleton.1 hu']⟩)
    ⟨trivial, by simp [Query.binders], by simp [Query.binders]; decide, trivial⟩ (Ready.fresh_ctx _ _ _)
  exact ⟨c, s', h1, fun hc => (h2 rfl hc).imp fun e he => by simpa [Query.fo, Atom.says, Term.val, upd] using he⟩

end Goexpdt.Props

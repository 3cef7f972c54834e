import Verif.Props.Reported
import Verif.Props.Repeats
import Verif.Lemmas.OwnReported
/-
Property C101: predicates of any kind below quantifiers on any model, and all queries of the library on trees that decide on a feature several
times.
-/
namespace Goexpdt.Props
open Goexpdt Spec Examples

variable {S : Type} {sv : Solver S} {d : Nat} {nodes : List Node} {T : DTree} {ps : List (Nat × PInst)} {dep : QVar → Nat} {v : QVar} {st : S}
  {s : Ctx}

/-! ### any model -/

/-- C101: whatever the model, a closed query over predicates that meet their contract is encoded without error, and its encoding is faithful to
what the query says if quantifiers are read to range over what the walk reports. -/
theorem C101_own {q : OQuery} (hg : q.GoodOver d nodes ps dep) (hs : Ready d nodes (q.skel.namesIn d ps []) s) :
    ∃ c s', q.encode s = (.ok c, s') ∧ WF c ∧ c.tv ≤ s'.topv ∧ Ready d nodes [] s' ∧
      Faithful d (q.skel.namesIn d ps []) (fun σ => q.semOver d ps dep σ []) s' c := by
  obtain ⟨c, s', h1, h2, h3, -, -, h4, h5⟩ := good_over hg hs
  exact ⟨c, s', h1, h2, h3, h4, h5⟩

theorem over_decides {q : OQuery} (hg : q.GoodOver d nodes ps dep) :
    Decides d nodes (q.skel.namesIn d ps []) q.encode (fun σ => q.semOver d ps dep σ []) := by
  intro s hs
  obtain ⟨c, s', h1, h2, -, -, h4, h5, h6⟩ := good_over hg hs
  exact ⟨c, s', h1, h2, h6.says, h5, h4⟩

theorem follows_same (hv : Valid d nodes) {e e' : PInst} (h : Same d e e') {i : Nat} (hf : Follows nodes e i) : Follows nodes e' i := by
  induction hf with
  | root => exact .root
  | zero _ hn hl he hj ih =>
    obtain ⟨a, b, -⟩ := hv _ _ hn hl
    exact .zero ih hn hl (by rw [← h _ (by omega)]; exact he) hj
  | one _ hn hl he hj ih =>
    obtain ⟨a, b, -⟩ := hv _ _ hn hl
    exact .one ih hn hl (by rw [← h _ (by omega)]; exact he) hj

/-- C101: on every model that passes validation allcomp.Const is such a predicate: it is about the leafs to which its constant may lead. So it can
be used below quantifiers, for the constant of the quantifier too. -/
theorem C101_const {w0 : WalkSt} (hok : newNodeAsValuesIter d nodes = .ok w0) (c : QConst) (b : Bool) (g : Option (QVar → QVar)) :
    (followPred nodes c b g).Meets d nodes := by
  obtain ⟨hne, hva, -⟩ := newIter_ok hok
  refine ⟨fun ρ ρ' h => ?_, ?_⟩
  · have h1 := h (.const c) (by simp [followPred])
    exact forall_congr' fun i => forall_congr' fun n => ⟨fun k hf => k (follows_same hva (fun i hi => (h1 i hi).symm) hf),
      fun k hf => k (follows_same hva h1 hf)⟩
  · rintro W Γ stack rfl rfl - hc - -
    have h1 := hc c (by simp [followPred])
    refine .scopeConst c (.validate (by simp [h1.1]) (.dim (.nodes ?_)))
    rw [if_neg (by simpa using hne)]
    obtain ⟨r, e1, e2⟩ := acLoop_const (sc := { id := c.id, val := resolve stack c }) h1 b (valid_sound hne hva)
    refine .lift e1 ?_
    exact (Captures.pureBool _).congr fun σ => e2

/-! ### the library on trees that decide on a feature several times -/

/-- The predicates of the library as they are there. -/
noncomputable def keptPred (d : Nat) (nodes : List Node) (T : DTree) (a : Atom) : Pred :=
  { a.rawPred d nodes T with says := fun ρ => a.keptSays d nodes T ρ }

theorem raw_reported (hT : IsRawTree d nodes T) (hC : Covers nodes T) : Reported d nodes (T.kept bot).1 := by
  have hok := C18_accepted _ _ _ hT hC
  obtain ⟨ws, hws, -⟩ := C17_terminates _ _ _ hok
  exact ⟨_, ws, hok, hws, (raw_values hT hws).symm⟩

theorem raw_leaf (hT : IsRawTree d nodes T) : ∃ p ∈ (T.kept bot).1, ∃ n, nodes[p.1]? = some n ∧ n.childless = true := by
  obtain ⟨p, hp, ⟨n, h1, h2, -⟩, -⟩ := kept_leaf hT.laid (fun _ => false) bot (by simp [bot])
  exact ⟨p, hp, n, h1, h2⟩

/-- C101: all predicates of the library meet their contract there, where isnode and allcomp are about ways, and dfs compares the leafs as they
are reported. -/
theorem C101_meets {a : Atom} (hg : Spec.Atom.nilGen a = false) (hp : a.PrefOk d) (hn : Spec.Atom.PrefsNonempty a)
    (hT : IsRawTree d nodes T) (hC : Covers nodes T) : (keptPred d nodes T a).Meets d nodes := by
  cases a with
  | dfs t =>
    have ht : t ∈ (keptPred d nodes T (.dfs t)).terms := by
      cases t <;> simp [keptPred, Atom.rawPred, Atom.vars, Term.vars, Spec.Atom.consts, Spec.Term.consts]
    refine ⟨fun ρ ρ' h => apart_same (h t ht), ?_⟩
    rintro W Γ stack rfl rfl hv hc - -
    refine dfs_in (raw_reported hT hC) (raw_leaf hT) ⟨fun x hx => hv x ?_, fun c hc' => hc c ?_, rfl, hp, hn, trivial, rfl⟩
    · exact List.mem_append_left _ (List.mem_map.2 ⟨x, hx, rfl⟩)
    · exact List.mem_append_right _ (List.mem_map.2 ⟨c, hc', rfl⟩)
  | _ => exact C85_meets rfl hg hp hn fun _ => ⟨hT, hC⟩

/-- A query of the library as one over such predicates. -/
noncomputable def keptQuery (d : Nat) (nodes : List Node) (T : DTree) : Query → OQuery
  | .nil => .pred (keptPred d nodes T (.full (.const {})))
  | .atom a => .pred (keptPred d nodes T a)
  | .and q1 q2 => .and (keptQuery d nodes T q1) (keptQuery d nodes T q2)
  | .or q1 q2 => .or (keptQuery d nodes T q1) (keptQuery d nodes T q2)
  | .not q => .not (keptQuery d nodes T q)
  | .withVar x q => .withVar x (keptQuery d nodes T q)
  | .forallG c q => .forallG c (keptQuery d nodes T q)

theorem kept_ne (hT : IsRawTree d nodes T) (id : List Char) : ∃ g, g ∈ scopesIn d (T.kept bot).1 id := by
  obtain ⟨p, hp, -⟩ := raw_leaf hT
  obtain ⟨i, hi⟩ := List.getElem?_of_mem hp
  exact ⟨_, mem_scopesIn.2 ⟨i, p, hi, rfl⟩⟩

theorem kept_comp (hT : IsRawTree d nodes T) (q : Query) : ∀ Γ stack, q.KeptFits d T dep Γ stack →
    q.comp = some (keptQuery d nodes T q).encode := by
  induction q with
  | nil => intro Γ _ h; exact h.elim
  | atom a => intro Γ _ _; rfl
  | and q1 q2 ih1 ih2 => intro Γ st h; simp only [Query.comp, keptQuery, OQuery.encode, ih1 Γ st h.1, ih2 Γ st h.2]
  | or q1 q2 ih1 ih2 => intro Γ st h; simp only [Query.comp, keptQuery, OQuery.encode, ih1 Γ st h.1, ih2 Γ st h.2]
  | not q ih => intro Γ st h; simp only [Query.comp, keptQuery, OQuery.encode, ih Γ st h]
  | withVar x q ih => intro Γ st h; simp only [Query.comp, keptQuery, OQuery.encode, ih (x :: Γ) st h.2]
  | forallG c q ih =>
    intro Γ st h
    obtain ⟨g, hg⟩ := kept_ne hT c.id
    simp only [Query.comp, keptQuery, OQuery.encode, ih Γ _ (h g hg)]

theorem kept_names (q : Query) : ∀ stack, (keptQuery d nodes T q).skel.namesIn d ps stack = q.namesIn d ps stack := by
  induction q with
  | nil => intro _; rfl
  | atom a => intro _; rfl
  | and q1 q2 ih1 ih2 => intro stack; simp only [keptQuery, OQuery.skel, Query.namesIn, ih1, ih2]
  | or q1 q2 ih1 ih2 => intro stack; simp only [keptQuery, OQuery.skel, Query.namesIn, ih1, ih2]
  | not q ih => intro stack; simp only [keptQuery, OQuery.skel, Query.namesIn, ih]
  | withVar x q ih => intro stack; simp only [keptQuery, OQuery.skel, Query.namesIn, ih]
  | forallG c q ih => intro stack; simp only [keptQuery, OQuery.skel, Query.namesIn, ih]

theorem kept_aux (q : Query) : ∀ Γ stack, q.KeptFits d T dep Γ stack →
    (keptQuery d nodes T q).auxOver d (T.kept bot).1 dep stack = q.keptAux d nodes T dep stack := by
  induction q with
  | nil => intro _ _ h; exact h.elim
  | atom a => intro _ _ _; rfl
  | and q1 q2 ih1 ih2 => intro Γ stack h; simp only [keptQuery, OQuery.auxOver, Query.keptAux, ih1 Γ stack h.1, ih2 Γ stack h.2]
  | or q1 q2 ih1 ih2 => intro Γ stack h; simp only [keptQuery, OQuery.auxOver, Query.keptAux, ih1 Γ stack h.1, ih2 Γ stack h.2]
  | not q ih => intro Γ stack h; simp only [keptQuery, OQuery.auxOver, Query.keptAux, ih Γ stack h]
  | withVar x q ih => intro Γ stack h; simp only [keptQuery, OQuery.auxOver, Query.keptAux, ih (x :: Γ) stack h.2]
  | forallG c q ih =>
    intro Γ stack h
    simp only [keptQuery, OQuery.auxOver, Query.keptAux]
    rw [List.flatMap_def, List.flatMap_def]
    exact congrArg _ (List.map_congr_left fun g hg => ih Γ _ (h g hg))

theorem kept_sem (σ : Asg) (q : Query) : ∀ Γ stack, q.KeptFits d T dep Γ stack →
    ((keptQuery d nodes T q).semOver d (T.kept bot).1 dep σ stack ↔ q.keptSem d nodes T dep σ stack) := by
  induction q with
  | nil => intro _ _ h; exact h.elim
  | atom a => intro _ _ _; rfl
  | and q1 q2 ih1 ih2 => intro Γ stack h; exact and_congr (ih1 Γ stack h.1) (ih2 Γ stack h.2)
  | or q1 q2 ih1 ih2 => intro Γ stack h; exact or_congr (ih1 Γ stack h.1) (ih2 Γ stack h.2)
  | not q ih => intro Γ stack h; exact not_congr (ih Γ stack h)
  | withVar x q ih => intro Γ stack h; exact ih (x :: Γ) stack h.2
  | forallG c q ih => intro Γ stack h; exact forall_congr' fun g => forall_congr' fun hg => ih Γ _ (h g hg)

theorem kept_fits (hT : IsRawTree d nodes T) (hC : Covers nodes T) (q : Query) : ∀ Γ stack, q.KeptFits d T dep Γ stack →
    (keptQuery d nodes T q).FitsOver d nodes (T.kept bot).1 dep Γ stack := by
  induction q with
  | nil => intro _ _ h; exact h.elim
  | atom a =>
    rintro Γ stack ⟨h2, h3, h4, h5, h6, h7⟩
    refine ⟨C101_meets h4 h5 h6 hT hC, fun x hx => h2 x ?_, fun c hc => h3 c ?_, h7⟩
    · simpa [keptPred, Atom.rawPred] using hx
    · simpa [keptPred, Atom.rawPred] using hc
  | and q1 q2 ih1 ih2 => intro Γ stack h; exact ⟨ih1 Γ stack h.1, ih2 Γ stack h.2⟩
  | or q1 q2 ih1 ih2 => intro Γ stack h; exact ⟨ih1 Γ stack h.1, ih2 Γ stack h.2⟩
  | not q ih => intro Γ stack h; exact ih Γ stack h
  | withVar x q ih => intro Γ stack h; exact ⟨h.1, ih (x :: Γ) stack h.2⟩
  | forallG c q ih => intro Γ stack h g hg; exact ih Γ _ (h g hg)

theorem kept_over {q : Query} (hg : q.GoodKept d nodes T dep) : (keptQuery d nodes T q).GoodOver d nodes (T.kept bot).1 dep :=
  ⟨hg.dim, raw_reported hg.tree hg.covers, kept_fits hg.tree hg.covers q [] [] hg.fits, by
    rw [kept_aux q [] [] hg.fits, kept_names]
    exact hg.clean⟩

theorem kept_decides {q : Query} (hg : q.GoodKept d nodes T dep) :
    q.comp = some q.encode ∧ Decides d nodes (q.namesIn d (T.kept bot).1 []) q.encode (fun σ => q.keptSem d nodes T dep σ []) := by
  have e := kept_comp hg.tree q [] [] hg.fits
  have e' : q.encode = (keptQuery d nodes T q).encode := by rw [Query.encode, e]
  refine ⟨e'.symm ▸ e, ?_⟩
  have h := over_decides (kept_over hg)
  rw [kept_names, ← e'] at h
  rw [show (fun σ => q.keptSem d nodes T dep σ []) = fun σ => (keptQuery d nodes T q).semOver d (T.kept bot).1 dep σ [] from
    funext fun σ => propext (kept_sem σ q [] [] hg.fits).symm]
  exact h

/-- C101: on such trees every closed query of the library, with all predicates and quantifiers, is encoded without error, and its encoding is
faithful to what it says there. -/
theorem C101_query {q : Query} (hg : q.GoodKept d nodes T dep) :
    Exactly d nodes (q.namesIn d (T.kept bot).1 []) q (fun σ => q.keptSem d nodes T dep σ []) := by
  intro s hs
  have e : q.encode = (keptQuery d nodes T q).encode := by rw [Query.encode, kept_comp hg.tree q [] [] hg.fits]
  obtain ⟨c, s', h1, h2, -, -, h5⟩ := C101_own (kept_over hg) (s := s) (by rw [kept_names]; exact hs)
  rw [kept_names] at h5
  rw [show (fun σ => q.keptSem d nodes T dep σ []) = fun σ => (keptQuery d nodes T q).semOver d (T.kept bot).1 dep σ [] from
    funext fun σ => propext (kept_sem σ q [] [] hg.fits).symm]
  exact ⟨c, s', by rw [e]; exact h1, h2, h5⟩

/-- C101: and `Sat` answers whether there are instances as the query says there. -/
theorem C101_sat (hc : Correct sv) (hr : Reliable sv) {q : Query} (hg : q.GoodKept d nodes T dep)
    (hs : Ready d nodes (q.namesIn d (T.kept bot).1 []) s) (negated : Bool) :
    ∃ b st' s', atomSat sv q.comp negated st s = (.ok b, st', s') ∧
      (b = true ↔ ((∃ σ, q.keptSem d nodes T dep σ []) ↔ negated = false)) := by
  obtain ⟨e0, hdec⟩ := kept_decides hg
  rw [e0]
  unfold atomSat
  rcases decides_step (st := st) hc hdec hs with ⟨st1, s1, e, hr, β, σ, hP, -⟩ | ⟨st1, s1, e, hr, hn⟩ | ⟨_, _, _, _, hn⟩
  · rw [e]
    refine ⟨!negated, st1, s1, by cases negated <;> rfl, ?_⟩
    have : ∃ σ, q.keptSem d nodes T dep σ [] := ⟨σ, hP⟩
    simp [this]
  · rw [e]
    refine ⟨negated, st1, s1, by cases negated <;> rfl, ?_⟩
    simp [hn]
  · exact absurd hr hn

/-- What a query says there about the instance of one of its variables, for some instances of the others. -/
def OnKept (d : Nat) (nodes : List Node) (T : DTree) (dep : QVar → Nat) (v : QVar) (q : Query) (e : PInst) : Prop :=
  ∃ σ : Asg, q.keptSem d nodes T dep σ [] ∧ Same d (σ v) e

theorem kept_asks {f : Query} (hg : (Query.withVar v f).GoodKept d nodes T dep) :
    Asks d nodes ((Query.withVar v f).namesIn d (T.kept bot).1 []) v (encWithVar v f.comp) (OnKept d nodes T dep v f) :=
  ⟨by simp [Query.namesIn, suffix], _, (kept_decides hg).2, fun _ => Iff.rfl⟩

theorem kept_poses {f : Query} {o : QConst → Query} (hf : (Query.withVar v f).GoodKept d nodes T dep)
    (ho : ∀ b, GoodVals d b → (Query.withVar v (.and f (o { val := b }))).GoodKept d nodes T dep) :
    Poses d nodes v (fun _ => f.comp) (fun _ k => (o k).comp) (OnKept d nodes T dep v f)
      (fun e p => OnKept d nodes T dep v (.and f (o { val := valsOf d p })) e) ((Query.withVar v f).namesIn d (T.kept bot).1 []) := by
  refine ⟨kept_asks hf, fun k hk hid => ⟨(Query.withVar v (.and f (o k))).namesIn d (T.kept bot).1 [], ?_⟩⟩
  have hk' : k = { val := k.val } := by cases k; simp_all
  rw [valsOf_den hk, ← hk']
  obtain ⟨h1, P, h2, h3⟩ := kept_asks (ho k.val hk)
  rw [← hk'] at h1 h2 h3
  refine ⟨h1, P, h2, fun e => Iff.trans ⟨fun h => h.2, fun h => ⟨?_, h⟩⟩ (h3 e)⟩
  obtain ⟨σ, ⟨a, -⟩, b⟩ := h
  exact ⟨σ, a, b⟩

/-- C101: and a value that `ComputeOptim` returns is as the formula says there and no instance is better; if it returns no value, no instance is
as the formula says. -/
theorem C101_optimum (hc : Correct sv) {f : Query} {o : QConst → Query} (hf : (Query.withVar v f).GoodKept d nodes T dep)
    (ho : ∀ b, GoodVals d b → (Query.withVar v (.and f (o { val := b }))).GoodKept d nodes T dep)
    (hs : Ready d nodes ((Query.withVar v f).namesIn d (T.kept bot).1 []) s) {fuel : Nat} :
    (∀ out st' s' tmp, computeOptim sv (fun _ => f.comp) (fun _ k => (o k).comp) v tmp fuel st s = (.ok out, st', s') → out.found = true →
      GoodVals d out.value.val ∧ OnKept d nodes T dep v f (den out.value.val) ∧
      ∀ e, ¬ OnKept d nodes T dep v (.and f (o { val := out.value.val })) e) ∧
    (Reliable sv → ((∃ out st' s', computeOptim sv (fun _ => f.comp) (fun _ k => (o k).comp) v true fuel st s = (.ok out, st', s') ∧
      out.found = false) ↔ ∀ e, ¬ OnKept d nodes T dep v f e)) := by
  have hp := kept_poses hf ho
  refine ⟨fun out st' s' tmp he hfd => ?_, fun hr => C47_absent_partial hc hr hp hs fuel⟩
  obtain ⟨h1, h2, h3, h4⟩ := C46_optimum hc hp hs he hfd
  refine ⟨⟨h1, h2⟩, h3, fun e h => ?_⟩
  have := h4 e (by obtain ⟨σ, ⟨a, -⟩, b⟩ := h; exact ⟨σ, a, b⟩)
  rw [valsOf_den ⟨h1, h2⟩] at this
  exact this h

/-! ### how this relates to the intended meaning -/

/-- C101: on trees that decide on each feature at most once on a path this is the usual meaning. -/
theorem C101_once (hT : IsTree d nodes T) (hC : Covers nodes T) (dep : QVar → Nat) (σ : Asg) (q : Query) :
    (T.kept bot).1 = T.nodeInsts bot ∧ ∀ stack, q.keptSem d nodes T dep σ stack ↔ q.sem d T dep σ stack := by
  have hp : (T.kept bot).1 = T.nodeInsts bot := by
    obtain ⟨ws, hws, -⟩ := C17_terminates _ _ _ (C18_accepted _ _ _ hT.raw hC)
    rw [← raw_values hT.raw hws, (C18_values _ _ _ hT ws hws).1]
  refine ⟨hp, ?_⟩
  have hsc : ∀ id, scopesIn d (T.kept bot).1 id = scopesOf d T id := fun id => by unfold scopesIn scopesOf; rw [hp]
  induction q with
  | nil => exact fun _ => Iff.rfl
  | atom a =>
    intro stack
    cases a with
    | dfs t =>
      show TellsApart d nodes (T.kept bot).1 _ ↔ _
      rw [hp, ← tree_first hT]
      exact (tree_apart hT).symm
    | isnode t g => exact (C85_once hT.range hT.once true).2
    | allcomp t b g => exact (C85_once hT.range hT.once b).1
    | _ => exact Iff.rfl
  | and q1 q2 ih1 ih2 => exact fun stack => and_congr (ih1 stack) (ih2 stack)
  | or q1 q2 ih1 ih2 => exact fun stack => or_congr (ih1 stack) (ih2 stack)
  | not q ih => exact fun stack => not_congr (ih stack)
  | withVar x q ih => exact fun stack => ih stack
  | forallG c q ih =>
    intro stack
    show (∀ g ∈ scopesIn d (T.kept bot).1 c.id, _) ↔ ∀ g ∈ scopesOf d T c.id, _
    rw [hsc]
    exact forall_congr' fun g => forall_congr' fun _ => ih _

/-- C101: on all these trees isnode, allcomp and dfs never say yes where they should say no. So queries that use them only positively never
hold where they should not, and queries that use them only negatively never fail where they should hold. -/
theorem C101_sound (hT : IsRawTree d nodes T) (dep : QVar → Nat) (σ : Asg) (q : Query) : ∀ stack,
    (q.Sides true → q.keptSem d nodes T dep σ stack → q.sem d T dep σ stack) ∧
    (q.Sides false → q.sem d T dep σ stack → q.keptSem d nodes T dep σ stack) := by
  induction q with
  | nil => exact fun _ => ⟨fun _ h => h, fun _ h => h⟩
  | atom a =>
    intro stack
    cases a with
    | dfs t => exact ⟨fun _ h => kept_dfs hT.laid h, fun h => by simp [Query.Sides, Atom.onModel] at h⟩
    | isnode t g => exact ⟨fun _ h => C85_isnode hT.range h, fun h => by simp [Query.Sides, Atom.onModel] at h⟩
    | allcomp t b g => exact ⟨fun _ h => (C85_allcomp hT.range b).1 h, fun h => by simp [Query.Sides, Atom.onModel] at h⟩
    | _ => exact ⟨fun _ h => h, fun _ h => h⟩
  | and q1 q2 ih1 ih2 =>
    exact fun st => ⟨fun h h' => ⟨(ih1 st).1 h.1 h'.1, (ih2 st).1 h.2 h'.2⟩, fun h h' => ⟨(ih1 st).2 h.1 h'.1, (ih2 st).2 h.2 h'.2⟩⟩
  | or q1 q2 ih1 ih2 =>
    exact fun st => ⟨fun h h' => h'.imp ((ih1 st).1 h.1) ((ih2 st).1 h.2), fun h h' => h'.imp ((ih1 st).2 h.1) ((ih2 st).2 h.2)⟩
  | not q ih => exact fun st => ⟨fun h h' h'' => h' ((ih st).2 h h''), fun h h' h'' => h' ((ih st).1 h h'')⟩
  | withVar x q ih => exact fun st => ih st
  | forallG c q _ => exact fun _ => ⟨fun h => h.elim, fun h => h.elim⟩

/-- C101: so where `Sat` says yes to the first kind of query there are instances as it should say, and where it says no to the second kind there
are none. -/
theorem C101_answers (hc : Correct sv) (hr : Reliable sv) {q : Query} (hg : q.GoodKept d nodes T dep)
    (hs : Ready d nodes (q.namesIn d (T.kept bot).1 []) s) :
    ∃ b st' s', atomSat sv q.comp false st s = (.ok b, st', s') ∧
      (q.Sides true → b = true → ∃ σ, q.sem d T dep σ []) ∧ (q.Sides false → b = false → ∀ σ, ¬ q.sem d T dep σ []) := by
  obtain ⟨b, st', s', e, h⟩ := C101_sat (st := st) hc hr hg hs false
  refine ⟨b, st', s', e, fun h1 hb => ?_, fun h1 hb σ hσ => ?_⟩
  · obtain ⟨σ, hσ⟩ := (h.1 hb).2 rfl
    exact ⟨σ, (C101_sound hg.tree dep σ q []).1 h1 hσ⟩
  · have := h.2 (iff_of_true ⟨σ, (C101_sound hg.tree dep σ q []).2 h1 hσ⟩ rfl)
    simp [hb] at this

/-! ### concrete cases -/

/-- A predicate of the user's own below a quantifier: "the features of x are equal, and x is not subsumed by any node". -/
noncomputable def overQuery : OQuery := .withVar ['x'] (.and (.pred equalEnds)
  (.forallG { id := ['c'] } (.not (.pred ((Atom.subs (.var ['x']) (.const { id := ['c'] })).pred 2 exCyclic (.leaf 0 false))))))

theorem overQuery_good : overQuery.GoodOver 2 exCyclic [(0, bot), (1, bot.set 0 true)] (fun _ => 0) := by
  refine ⟨by decide, exCyclic_reported, ⟨rfl, ⟨equalEnds_meets, ?_, ?_, trivial⟩, fun g hg => ?_⟩, ?_⟩
  · simp [equalEnds, clausePred]
  · simp [equalEnds, clausePred]
  · obtain ⟨i, p, -, rfl⟩ := mem_scopesIn.1 hg
    refine ⟨C84_library rfl trivial trivial (by simp [Atom.onModel]), ?_, ?_, trivial⟩
    · simp [Atom.pred, Atom.vars, Term.vars, Spec.Atom.consts, Spec.Term.consts]
    · intro c hc
      simp [Atom.pred, Atom.vars, Term.vars, Spec.Atom.consts, Spec.Term.consts] at hc
      subst hc
      exact valsOf_good 2 p.2
  · intro u hu
    simp [overQuery, OQuery.auxOver, equalEnds, clausePred, Atom.pred, Atom.uses] at hu

/-- Concrete case of C101_own: on the model with a cycle the query has an encoding, and each of its models gives an instance with two equal
features. -/
example : ∃ c s', overQuery.encode (BasicQContext 2 exCyclic) = (.ok c, s') ∧
    ∀ β, Models β c → ∃ σ : Asg, equalEnds.says (fun _ => σ ['x']) ∧ Reads 2 s' β ['x'] (σ ['x']) := by
  obtain ⟨c, s', e, -, -, -, hf⟩ := C101_own overQuery_good (Ready.fresh_ctx 2 exCyclic _)
  refine ⟨c, s', e, fun β hβ => ?_⟩
  obtain ⟨σ, h1, h2⟩ := hf.decode β hβ
  refine ⟨σ, ?_, h2 ['x'] (by simp [overQuery, OQuery.skel, Query.namesIn, suffix])⟩
  refine (equalEnds_meets (nodes := exCyclic)).reads _ _ (fun t ht => ?_) |>.1 h1.1
  have ht : t = .var ['x'] := by simpa [equalEnds, clausePred] using ht
  subst ht
  exact same_refl _

/-- Below a quantifier on the model with a cycle: "all nodes lead to positive leafs only". -/
noncomputable def followQuery : OQuery := .forallG { id := ['c'] } (.pred (followPred exCyclic { id := ['c'] } true none))

/-- Concrete case of C101_const: the query has a satisfiable encoding. -/
example : ∃ c s', followQuery.encode (BasicQContext 2 exCyclic) = (.ok c, s') ∧ Satisfiable c := by
  have hg : followQuery.GoodOver 2 exCyclic [(0, bot), (1, bot.set 0 true)] (fun _ => 0) := by
    refine ⟨by decide, exCyclic_reported, fun g hg => ?_, ?_⟩
    · obtain ⟨i, p, -, rfl⟩ := mem_scopesIn.1 hg
      refine ⟨C101_const (w0 := WalkSt.init 2 2) rfl _ _ _, by simp [followPred], fun c hc => ?_, trivial⟩
      simp [followPred] at hc
      subst hc
      exact valsOf_good 2 p.2
    · intro u hu
      simp [followQuery, OQuery.auxOver, followPred] at hu
  obtain ⟨c, s', e, -, -, -, hf⟩ := C101_own hg (Ready.fresh_ctx 2 exCyclic _)
  refine ⟨c, s', e, hf.sat.2 ⟨fun _ => bot, fun g _ i n _ hn hl => ?_⟩⟩
  rcases i with - | - | i
  · simp [exCyclic] at hn
    subst hn
    simp [Node.childless] at hl
  · simp [exCyclic] at hn
    subst hn
    rfl
  · simp [exCyclic] at hn

/-- "x is positive whatever its other features, does not tell leafs of different class apart, and is not subsumed by any node": with all three
kinds of predicate on the model. -/
def exForgets : Query := .withVar ['x'] (.and (.and (.not (.atom (.dfs (.var ['x'])))) (.atom (.allcomp (.var ['x']) true (some VarGenNodeReach))))
  (.forallG { id := ['c'] } (.not (.atom (.subs (.var ['x']) (.const { id := ['c'] }))))))

theorem exThrice_raw : IsRawTree 2 exThrice exThriceTree :=
  ⟨by simp [LaysOut, exThrice, exThriceTree, DTree.root, Node.childless], rfl, by decide, by decide⟩

theorem exForgets_good : exForgets.GoodKept 2 exThrice exThriceTree (fun _ => 0) := by
  refine ⟨by decide, exThrice_raw, by unfold Covers; decide, ⟨rfl, ⟨?_, ?_⟩, fun g hg => ?_⟩, ?_⟩
  · exact ⟨by simp [Atom.vars, Term.vars], by simp [Spec.Atom.consts, Spec.Term.consts], rfl, trivial, trivial, trivial⟩
  · exact ⟨by simp [Atom.vars, Term.vars], by simp [Spec.Atom.consts, Spec.Term.consts], rfl, trivial, trivial, trivial⟩
  · obtain ⟨i, p, -, rfl⟩ := mem_scopesIn.1 hg
    refine ⟨by simp [Atom.vars, Term.vars], fun c hc => ?_, rfl, trivial, trivial, trivial⟩
    simp [Spec.Atom.consts, Spec.Term.consts] at hc
    subst hc
    exact valsOf_good 2 p.2
  · have hm : ∀ u ∈ exForgets.keptAux 2 exThrice exThriceTree (fun _ => 0) [],
        u ∈ (Atom.allcomp (.var ['x']) true (some VarGenNodeReach)).rawAux 2 exThrice exThriceTree (fun _ => 0) [] := by
      intro u hu
      simpa [exForgets, Query.keptAux, Atom.rawAux, Atom.uses] using hu
    intro u hu
    have h1 := List.mem_singleton.1 (hm u hu)
    refine ⟨?_, fun u' hu' _ σ i v _ _ => ?_⟩
    · rw [h1]
      simp [exForgets, Query.namesIn, suffix, VarGenNodeReach]
    · rw [h1, List.mem_singleton.1 (hm u' hu')]

theorem exForgets_sem : exForgets.keptSem 2 exThrice exThriceTree (fun _ => 0) (fun _ => (bot.set 0 true).set 1 true) [] := by
  refine ⟨⟨fun h => ?_, ?_⟩, fun g hg h' => ?_⟩
  · obtain ⟨i, hi, -, h1, h2, h3⟩ := h (5, (((bot.set 0 false).set 0 true).set 1 false).set 0 false) (by simp [exThriceTree, DTree.kept])
      (1, bot.set 0 false) (by simp [exThriceTree, DTree.kept]) _ _ rfl rfl rfl rfl rfl rfl
    rcases i with - | - | i
    · simp [PInst.set] at h3
    · simp [PInst.set, bot] at h2
    · omega
  · intro p hp ha
    have hp : p ∈ [(false, [(0, false)]), (true, [(0, true), (1, false), (0, false)]), (true, [(0, true), (1, false), (0, true)]),
      (true, [(0, true), (1, true)])] := hp
    simp only [List.mem_cons, List.not_mem_nil, or_false] at hp
    rcases hp with rfl | rfl | rfl | rfl
    · exact absurd rfl (ha (0, false) (by simp))
    all_goals rfl
  · obtain ⟨i, p, hp, rfl⟩ := mem_scopesIn.1 hg
    have h0 : Subsumes 2 ((bot.set 0 true).set 1 true) (den (valsOf 2 p.2)) := h'
    have a0 := ((h0 0 (by decide) nofun).trans (den_valsOf 2 p.2 0 (by decide))).symm
    have a1 := ((h0 1 (by decide) nofun).trans (den_valsOf 2 p.2 1 (by decide))).symm
    have hm := List.mem_of_getElem? hp
    simp only [exThriceTree, DTree.kept, List.mem_cons, List.mem_append, List.not_mem_nil, or_false] at hm
    rcases hm with rfl | rfl | rfl | (rfl | rfl | rfl) | rfl <;> simp [PInst.set, PInst.unset, bot] at a0 a1

/-- Concrete case of C101_query and C101_sat: the query has an encoding with a model, and `Sat` says yes. (In the usual meaning it is false: all
features of a total instance together are sufficient.) -/
example (hc : Correct sv) (hr : Reliable sv) :
    (∃ c s' β, exForgets.encode (BasicQContext 2 exThrice) = (.ok c, s') ∧ Models β c ∧ Reads 2 s' β ['x'] ((bot.set 0 true).set 1 true)) ∧
    ∃ st' s', atomSat sv exForgets.comp false st (BasicQContext 2 exThrice) = (.ok true, st', s') := by
  constructor
  · obtain ⟨c, s', e, -, hf⟩ := C101_query exForgets_good _ (Ready.fresh_ctx 2 exThrice _)
    obtain ⟨β, h1, h2⟩ := hf.encode _ exForgets_sem
    exact ⟨c, s', β, e, h1, h2 ['x'] (by simp [exForgets, Query.namesIn, suffix])⟩
  · obtain ⟨b, st1, s1, e1, h1⟩ := C101_sat (st := st) hc hr exForgets_good (Ready.fresh_ctx 2 exThrice _) false
    have hx : ∃ σ, exForgets.keptSem 2 exThrice exThriceTree (fun _ => 0) σ [] := ⟨_, exForgets_sem⟩
    obtain rfl : b = true := by simpa [hx] using h1
    exact ⟨st1, s1, e1⟩

/-- Concrete case of C101_once: the example tree. -/
example (σ : Asg) : exForgets.keptSem 2 exNodes exTree (fun _ => 0) σ [] ↔ exForgets.sem 2 exTree (fun _ => 0) σ [] :=
  (C101_once exNodes_isTree exNodes_covers (fun _ => 0) σ exForgets).2 []

/-- "All completions of x are positive, and x is not subsumed by any node." -/
def exMissed : Query := .and (.atom (.allcomp (.var ['x']) true (some VarGenNodeReach)))
  (.forallG { id := ['c'] } (.not (.atom (.subs (.var ['x']) (.const { id := ['c'] })))))

theorem exMissed_clean {q : Query} (h : ∀ u ∈ q.keptAux 2 exThrice exThriceTree (fun _ => 0) [],
      u ∈ (Atom.allcomp (.var ['x']) true (some VarGenNodeReach)).rawAux 2 exThrice exThriceTree (fun _ => 0) [])
    (hn : VarGenNodeReach ['x'] ∉ q.namesIn 2 (exThriceTree.kept bot).1 []) :
    ∀ u ∈ q.keptAux 2 exThrice exThriceTree (fun _ => 0) [], u.1 ∉ q.namesIn 2 (exThriceTree.kept bot).1 [] ∧
      ∀ u' ∈ q.keptAux 2 exThrice exThriceTree (fun _ => 0) [], u'.1 = u.1 →
        ∀ σ i v, u.2.range i v → u'.2.range i v → u'.2.mean σ i v = u.2.mean σ i v := by
  intro u hu
  have h1 := List.mem_singleton.1 (h u hu)
  refine ⟨?_, fun u' hu' _ σ i v _ _ => ?_⟩
  · rw [h1]
    simpa [suffix] using hn
  · rw [h1, List.mem_singleton.1 (h u' hu')]

theorem exMissed_fits {Γ : List QVar} (h : ['x'] ∈ Γ) : exMissed.KeptFits 2 exThriceTree (fun _ => 0) Γ [] := by
  refine ⟨⟨by simpa [Atom.vars, Term.vars] using h, by simp [Spec.Atom.consts, Spec.Term.consts], rfl, trivial, trivial, trivial⟩, fun g hg => ?_⟩
  obtain ⟨i, p, -, rfl⟩ := mem_scopesIn.1 hg
  refine ⟨by simpa [Atom.vars, Term.vars] using h, fun c hc => ?_, rfl, trivial, trivial, trivial⟩
  simp [Spec.Atom.consts, Spec.Term.consts] at hc
  subst hc
  exact valsOf_good 2 p.2

theorem exMissed_good : (Query.withVar ['x'] exMissed).GoodKept 2 exThrice exThriceTree (fun _ => 0) :=
  ⟨by decide, exThrice_raw, by unfold Covers; decide, ⟨rfl, exMissed_fits (by simp)⟩,
    exMissed_clean (fun u hu => by simpa [exMissed, Query.keptAux, Atom.rawAux, Atom.uses] using hu)
      (by simp [exMissed, Query.namesIn, suffix, VarGenNodeReach])⟩

theorem exMissed_order {b : List FeatV} (hb : GoodVals 2 b) :
    (Query.withVar ['x'] (.and exMissed (strictSubs ['x'] { val := b }))).GoodKept 2 exThrice exThriceTree (fun _ => 0) := by
  refine ⟨by decide, exThrice_raw, by unfold Covers; decide, ⟨rfl, exMissed_fits (by simp), ?_, ?_⟩,
    exMissed_clean (fun u hu => by simpa [exMissed, strictSubs, Query.keptAux, Atom.rawAux, Atom.uses] using hu)
      (by simp [exMissed, strictSubs, Query.namesIn, suffix, VarGenNodeReach])⟩
  · exact ⟨by simp [Atom.vars, Term.vars], by simpa [Spec.Atom.consts, Spec.Term.consts, resolve] using hb, rfl, trivial, trivial, trivial⟩
  · exact ⟨by simp [Atom.vars, Term.vars], by simpa [Spec.Atom.consts, Spec.Term.consts, resolve] using hb, rfl, trivial, trivial, trivial⟩

/-- Concrete case of C101_optimum: a value that is returned is as the formula says, and it is found that there is one. -/
example (hc : Correct sv) (hr : Reliable sv) {fuel : Nat} :
    (∀ out st' s' tmp, computeOptim sv (fun _ => exMissed.comp) (fun _ k => (strictSubs ['x'] k).comp) ['x'] tmp fuel st (BasicQContext 2 exThrice) =
      (.ok out, st', s') → out.found = true → OnKept 2 exThrice exThriceTree (fun _ => 0) ['x'] exMissed (den out.value.val)) ∧
    ¬ ∃ out st' s', computeOptim sv (fun _ => exMissed.comp) (fun _ k => (strictSubs ['x'] k).comp) ['x'] true fuel st (BasicQContext 2 exThrice) =
      (.ok out, st', s') ∧ out.found = false := by
  obtain ⟨h1, h2⟩ := C101_optimum (st := st) (fuel := fuel) hc exMissed_good (fun _ hb => exMissed_order hb) (Ready.fresh_ctx 2 exThrice _)
  refine ⟨fun out st' s' tmp he hf => (h1 out st' s' tmp he hf).2.1, fun h => (h2 hr).1 h _ ⟨_, ⟨exForgets_sem.1.2, exForgets_sem.2⟩, same_refl _⟩⟩

/-- "All completions of x are positive." -/
theorem exSure_good : (Query.withVar ['x'] (.atom (.allcomp (.var ['x']) true (some VarGenNodeReach)))).GoodKept 2 exThrice exThriceTree (fun _ => 0) :=
  ⟨by decide, exThrice_raw, by unfold Covers; decide, ⟨rfl, (exMissed_fits (by simp)).1⟩,
    exMissed_clean (fun u hu => by simpa [Query.keptAux] using hu) (by simp [Query.namesIn, suffix, VarGenNodeReach])⟩

/-- Concrete case of C101_answers (and of C101_sound): `Sat` says yes, and there is an instance all completions of which are positive. -/
example (hc : Correct sv) (hr : Reliable sv) :
    ∃ b st' s', atomSat sv (Query.withVar ['x'] (.atom (.allcomp (.var ['x']) true (some VarGenNodeReach)))).comp false st (BasicQContext 2 exThrice) =
      (.ok b, st', s') ∧ (b = true → ∃ e, AllComp 2 exThriceTree true e) := by
  obtain ⟨b, st', s', e, h, -⟩ := C101_answers (st := st) hc hr exSure_good (Ready.fresh_ctx 2 exThrice _)
  exact ⟨b, st', s', e, fun hb => (h (fun _ => rfl) hb).elim fun σ hσ => ⟨_, hσ⟩⟩

end Goexpdt.Props

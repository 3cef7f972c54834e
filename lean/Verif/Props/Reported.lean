import Verif.Props.DiagramOptim
import Verif.Lemmas.RawWalk
/-
Property C100: quantifiers and sufficient sets of features on any model, and on trees that decide on a feature several times.
-/
namespace Goexpdt.Props
open Goexpdt Spec Examples

variable {S : Type} {sv : Solver S} {d : Nat} {nodes : List Node} {T : DTree} {ps : List (Nat × PInst)} {dep : QVar → Nat} {v : QVar}
  {g : QVar → QVar} {st : S} {s : Ctx}

/-! ### lemmas -/

theorem good_in_decides {q : Query} (hg : q.GoodReported d nodes ps dep) :
    Decides d nodes (q.namesIn d ps []) q.encode (fun σ => q.semIn d nodes ps dep σ []) := by
  intro s hs
  obtain ⟨c, s', e, hw, hr, hn, hf⟩ := good_in hg hs
  exact ⟨c, s', e, hw, hf.says, hr, hn⟩

theorem good_in_ne {q : Query} (hg : q.GoodReported d nodes ps dep) : q ≠ .nil := by
  rintro rfl
  exact hg.fits

/-- What a query says about the instance of one of its variables, for some instances of the others. -/
def OnReports (d : Nat) (nodes : List Node) (ps : List (Nat × PInst)) (dep : QVar → Nat) (v : QVar) (q : Query) (e : PInst) : Prop :=
  ∃ σ : Asg, q.semIn d nodes ps dep σ [] ∧ Same d (σ v) e

theorem good_in_asks {f : Query} (hg : (Query.withVar v f).GoodReported d nodes ps dep) :
    Asks d nodes ((Query.withVar v f).namesIn d ps []) v (encWithVar v f.comp) (OnReports d nodes ps dep v f) :=
  ⟨by simp [Query.namesIn, suffix], _, good_in_decides hg, fun _ => Iff.rfl⟩

theorem good_in_poses {f : Query} {o : QConst → Query} (hf : (Query.withVar v f).GoodReported d nodes ps dep)
    (ho : ∀ b, GoodVals d b → (Query.withVar v (.and f (o { val := b }))).GoodReported d nodes ps dep) :
    Poses d nodes v (fun _ => f.comp) (fun _ k => (o k).comp) (OnReports d nodes ps dep v f)
      (fun e p => OnReports d nodes ps dep v (.and f (o { val := valsOf d p })) e) ((Query.withVar v f).namesIn d ps []) := by
  refine ⟨good_in_asks hf, fun k hk hid => ⟨(Query.withVar v (.and f (o k))).namesIn d ps [], ?_⟩⟩
  have hk' : k = { val := k.val } := by cases k; simp_all
  rw [valsOf_den hk, ← hk']
  obtain ⟨h1, P, h2, h3⟩ := good_in_asks (ho k.val hk)
  rw [← hk'] at h1 h2 h3
  refine ⟨h1, P, h2, fun e => Iff.trans ⟨fun h => h.2, fun h => ⟨?_, h⟩⟩ (h3 e)⟩
  obtain ⟨σ, ⟨a, -⟩, b⟩ := h
  exact ⟨σ, a, b⟩

/-! ### any model -/

/-- C100: whatever the model, what the walk reports is determined, and a closed query says what it should if its quantifiers are read to range
over what is reported, and dfs to compare the leafs as they are reported. Models may have cycles, shared nodes, and paths that decide on a
feature several times. -/
theorem C100_query (d : Nat) (nodes : List Node) (depth : QVar → Nat) (q : Query) :
    (∀ w0, newNodeAsValuesIter d nodes = .ok w0 → ∃ ps, ∀ qs, Reported d nodes qs ↔ qs = ps) ∧
    ∀ ps, q.GoodReported d nodes ps depth → Exactly d nodes (q.namesIn d ps []) q (fun σ => q.semIn d nodes ps depth σ []) := by
  refine ⟨fun w0 h => ?_, fun ps hg s hs => ?_⟩
  · obtain ⟨ws, hws, -⟩ := C17_terminates _ _ _ h
    refine ⟨ws.map fun w => (w.cp, den w.t), fun qs => ⟨?_, fun e => ⟨w0, ws, h, hws, e⟩⟩⟩
    rintro ⟨w1, ws1, h1, hw1, rfl⟩
    obtain rfl : w0 = w1 := Except.ok.inj (h.symm.trans h1)
    rw [hws.unique hw1]
  · obtain ⟨c, s', e, hw, -, -, hf⟩ := good_in hg hs
    exact ⟨c, s', e, hw, hf⟩

theorem exUnseen_good_in (hR : Reported 2 nodes ps) : exUnseen.GoodReported 2 nodes ps (fun _ => 0) := by
  refine ⟨by decide, hR, ⟨rfl, ?_, ?_⟩, .of_eq (by simp [exUnseen, Query.usesIn, Atom.uses])⟩
  · exact ⟨⟨by simp [Atom.vars, Term.vars], by simp [Spec.Atom.consts, Spec.Term.consts, resolve, ValidVals], rfl, trivial, trivial, trivial, rfl⟩, rfl,
      nofun⟩
  · intro g hg
    obtain ⟨i, p, -, rfl⟩ := mem_scopesIn.1 hg
    refine ⟨⟨by simp [Atom.vars, Term.vars], ?_, rfl, trivial, trivial, trivial, rfl⟩, rfl, nofun⟩
    intro c hc
    simp [Spec.Atom.consts, Spec.Term.consts] at hc
    subst hc
    exact valsOf_good 2 p.2

theorem exUnseen_sem_in (h : ∀ p ∈ ps, ¬ (p.2 0 = some true ∧ p.2 1 = some true)) :
    exUnseen.semIn 2 nodes ps (fun _ => 0) (fun _ => (bot.set 0 true).set 1 true) [] := by
  refine ⟨?_, fun g hg h' => ?_⟩
  · show Subsumes 2 (den [ONE, ONE]) _
    intro i hi _
    rcases i with - | - | i
    · rfl
    · rfl
    · omega
  · obtain ⟨i, p, hp, rfl⟩ := mem_scopesIn.1 hg
    have h0 : Subsumes 2 ((bot.set 0 true).set 1 true) (den (valsOf 2 p.2)) := h'
    exact h p (List.mem_of_getElem? hp) ⟨((h0 0 (by decide) nofun).trans (den_valsOf 2 p.2 0 (by decide))).symm,
      ((h0 1 (by decide) nofun).trans (den_valsOf 2 p.2 1 (by decide))).symm⟩

/-- A model that is no tree and no diagram: a child of node 0 is node 0. -/
def exCyclic : List Node := [⟨false, 0, 0, 1⟩, ⟨true, -1, -1, -1⟩]

theorem exCyclic_reported : Reported 2 exCyclic [(0, bot), (1, bot.set 0 true)] := by
  refine ⟨WalkSt.init 2 2, _, rfl, .step (by rfl) (.step (by rfl) (.done (by rfl))), ?_⟩
  have h0 : den [BOT, BOT] = bot := by
    funext i
    rcases i with - | - | i <;> rfl
  have h1 : den [ONE, BOT] = bot.set 0 true := by
    funext i
    rcases i with - | - | i <;> rfl
  show [(0, bot), (1, bot.set 0 true)] = [(0, den [BOT, BOT]), (1, den [ONE, BOT])]
  rw [h0, h1]

/-- Concrete case of C100_query: over a model with a cycle a query with a quantifier has an encoding with a model. -/
example : ∃ c s' β, exUnseen.encode (BasicQContext 2 exCyclic) = (.ok c, s') ∧ Models β c ∧ Reads 2 s' β ['x'] ((bot.set 0 true).set 1 true) := by
  obtain ⟨c, s', e, -, hf⟩ := (C100_query 2 exCyclic _ exUnseen).2 _ (exUnseen_good_in exCyclic_reported) _ (Ready.fresh_ctx 2 exCyclic _)
  obtain ⟨β, h1, h2⟩ := hf.encode _ (exUnseen_sem_in (by simp [bot, PInst.set]))
  exact ⟨c, s', β, e, h1, h2 ['x'] (by simp [exUnseen, Query.namesIn, suffix])⟩

/-- C100: on any model `Sat` answers whether there are instances as the query says, its quantifiers ranging over what is reported. -/
theorem C100_sat (hc : Correct sv) (hr : Reliable sv) {q : Query} (hg : q.GoodReported d nodes ps dep) (hs : Ready d nodes (q.namesIn d ps []) s)
    (negated : Bool) :
    ∃ b st' s', atomSat sv q.comp negated st s = (.ok b, st', s') ∧
      (b = true ↔ ((∃ σ, q.semIn d nodes ps dep σ []) ↔ negated = false)) := by
  rw [Query.comp_eq (good_in_ne hg)]
  unfold atomSat
  rcases decides_step (st := st) hc (good_in_decides hg) hs with ⟨st1, s1, e, hr, β, σ, hP, -⟩ | ⟨st1, s1, e, hr, hn⟩ | ⟨_, _, _, _, hn⟩
  · rw [e]
    refine ⟨!negated, st1, s1, by cases negated <;> rfl, ?_⟩
    have : ∃ σ, q.semIn d nodes ps dep σ [] := ⟨σ, hP⟩
    simp [this]
  · rw [e]
    refine ⟨negated, st1, s1, by cases negated <;> rfl, ?_⟩
    simp [hn]
  · exact absurd hr hn

/-- Concrete case of C100_sat: the query of C100_query on the model with a cycle. -/
example (hc : Correct sv) (hr : Reliable sv) : ∃ st' s', atomSat sv exUnseen.comp false st (BasicQContext 2 exCyclic) = (.ok true, st', s') := by
  obtain ⟨b, st1, s1, e1, h1⟩ := C100_sat (st := st) hc hr (exUnseen_good_in exCyclic_reported) (Ready.fresh_ctx 2 exCyclic _) false
  have hx : ∃ σ, exUnseen.semIn 2 exCyclic [(0, bot), (1, bot.set 0 true)] (fun _ => 0) σ [] := ⟨_, exUnseen_sem_in (by simp [bot, PInst.set])⟩
  obtain rfl : b = true := by simpa [hx] using h1
  exact ⟨st1, s1, e1⟩

/-- C100: on any model a value that `ComputeOptim` returns is as the formula says and no instance is better, quantifiers ranging over what is
reported; if it returns no value, no instance is as the formula says. -/
theorem C100_optimum (hc : Correct sv) {f : Query} {o : QConst → Query} (hf : (Query.withVar v f).GoodReported d nodes ps dep)
    (ho : ∀ b, GoodVals d b → (Query.withVar v (.and f (o { val := b }))).GoodReported d nodes ps dep)
    (hs : Ready d nodes ((Query.withVar v f).namesIn d ps []) s) {fuel : Nat} :
    (∀ out st' s' tmp, computeOptim sv (fun _ => f.comp) (fun _ k => (o k).comp) v tmp fuel st s = (.ok out, st', s') → out.found = true →
      GoodVals d out.value.val ∧ OnReports d nodes ps dep v f (den out.value.val) ∧
      ∀ e, ¬ OnReports d nodes ps dep v (.and f (o { val := out.value.val })) e) ∧
    (Reliable sv → ((∃ out st' s', computeOptim sv (fun _ => f.comp) (fun _ k => (o k).comp) v true fuel st s = (.ok out, st', s') ∧
      out.found = false) ↔ ∀ e, ¬ OnReports d nodes ps dep v f e)) := by
  have hp := good_in_poses hf ho
  refine ⟨fun out st' s' tmp he hfd => ?_, fun hr => C47_absent_partial hc hr hp hs fuel⟩
  obtain ⟨h1, h2, h3, h4⟩ := C46_optimum hc hp hs he hfd
  refine ⟨⟨h1, h2⟩, h3, fun e h => ?_⟩
  have := h4 e (by obtain ⟨σ, ⟨a, -⟩, b⟩ := h; exact ⟨σ, a, b⟩)
  rw [valsOf_den ⟨h1, h2⟩] at this
  exact this h

theorem onReports_dfs {e : PInst} : OnReports d nodes ps (fun _ => 0) v (dfsQuery v) e ↔ TellsApart d nodes ps e := by
  constructor
  · rintro ⟨σ, h, hσ⟩
    refine (apart_same hσ).1 ?_
    simpa [dfsQuery, Query.semIn, Atom.saysIn, Term.res, RTerm.den, suffix] using h
  · intro h
    refine ⟨fun _ => e, ?_, same_refl e⟩
    simpa [dfsQuery, Query.semIn, Atom.saysIn, Term.res, RTerm.den, suffix] using h

theorem dfs_in_good (hd : 0 < d) (hR : Reported d nodes ps)
    (hl : ∃ p ∈ ps, ∃ n, nodes[p.1]? = some n ∧ n.childless = true) :
    (Query.withVar v (dfsQuery v)).GoodReported d nodes ps (fun _ => 0) :=
  ⟨hd, hR, ⟨rfl, ⟨by simp [Atom.vars, Term.vars], by simp [Spec.Atom.consts, Spec.Term.consts], rfl, trivial, trivial, trivial, rfl⟩, rfl, fun _ => hl⟩,
    .of_eq (by simp [dfsQuery, Query.usesIn, Atom.uses])⟩

theorem dfs_subs_in (hd : 0 < d) (hR : Reported d nodes ps)
    (hl : ∃ p ∈ ps, ∃ n, nodes[p.1]? = some n ∧ n.childless = true) {b : List FeatV}
    (hb : GoodVals d b) : (Query.withVar v (.and (dfsQuery v) (strictSubs v { val := b }))).GoodReported d nodes ps (fun _ => 0) :=
  ⟨hd, hR, ⟨rfl, (dfs_in_good hd hR hl).fits.2, ⟨subs_on_fits (by simp) hb (.inl ⟨rfl, rfl⟩), rfl, nofun⟩, ⟨subs_on_fits (by simp) hb (.inr ⟨rfl, rfl⟩), rfl, nofun⟩⟩,
    .of_eq (by simp [dfsQuery, strictSubs, Query.usesIn, Atom.uses])⟩

theorem dfs_lel_in (hd : 0 < d) (hR : Reported d nodes ps)
    (hl : ∃ p ∈ ps, ∃ n, nodes[p.1]? = some n ∧ n.childless = true) (hg : g v ≠ v) {b : List FeatV}
    (hb : GoodVals d b) : (Query.withVar v (.and (dfsQuery v) (strictLel g v { val := b }))).GoodReported d nodes ps (fun _ => 0) :=
  ⟨hd, hR, ⟨rfl, (dfs_in_good hd hR hl).fits.2, ⟨lel_on_fits (by simp) hb (.inl ⟨rfl, rfl⟩), rfl, nofun⟩, ⟨lel_on_fits (by simp) hb (.inr ⟨rfl, rfl⟩), rfl, nofun⟩⟩,
    .of_eq (by simp [dfsQuery, strictLel, Query.usesIn, Query.namesIn, Atom.uses, Term.res, suffix, hg])⟩

theorem onReports_lel {b : List FeatV} {e : PInst} : OnReports d nodes ps (fun _ => 0) v (.and (dfsQuery v) (strictLel g v { val := b })) e ↔
    TellsApart d nodes ps e ∧ numBot d (den b) < numBot d e := by
  rw [← onReports_dfs (v := v)]
  have hh : ∀ σ : Asg, (strictLel g v { val := b }).semIn d nodes ps (fun _ => 0) σ [] ↔ numBot d (den b) < numBot d (σ v) := by
    intro σ
    simp only [strictLel, Query.semIn, Atom.saysIn, Atom.says, Term.res, RTerm.den, LEL, resolve, List.take_nil, suffix]
    simp
    omega
  constructor
  · rintro ⟨σ, ⟨h1, h2⟩, h3⟩
    exact ⟨⟨σ, h1, h3⟩, by rw [← numBot_same h3]; exact (hh σ).1 h2⟩
  · rintro ⟨⟨σ, h1, h3⟩, h2⟩
    exact ⟨σ, ⟨h1, (hh σ).2 (by rw [numBot_same h3]; exact h2)⟩, h3⟩

theorem onReports_subs {b : List FeatV} {e : PInst} : OnReports d nodes ps (fun _ => 0) v (.and (dfsQuery v) (strictSubs v { val := b })) e ↔
    TellsApart d nodes ps e ∧ Subsumes d e (den b) ∧ ¬ Subsumes d (den b) e := by
  rw [← onReports_dfs (v := v)]
  have hh : ∀ σ : Asg, (strictSubs v { val := b }).semIn d nodes ps (fun _ => 0) σ [] ↔ Subsumes d (σ v) (den b) ∧ ¬ Subsumes d (den b) (σ v) := by
    intro σ
    simp [strictSubs, Query.semIn, Atom.saysIn, Atom.says, Term.res, RTerm.den, resolve, suffix]
  have hs : ∀ {e e' : PInst}, Same d e e' → (Subsumes d e (den b) ∧ ¬ Subsumes d (den b) e ↔ Subsumes d e' (den b) ∧ ¬ Subsumes d (den b) e') :=
    fun h => and_congr (subsumes_congr h (same_refl _)) (not_congr (subsumes_congr (same_refl _) h))
  constructor
  · rintro ⟨σ, ⟨h1, h2⟩, h3⟩
    exact ⟨⟨σ, h1, h3⟩, (hs h3).1 ((hh σ).1 h2)⟩
  · rintro ⟨⟨σ, h1, h3⟩, h2⟩
    exact ⟨σ, ⟨h1, (hh σ).2 ((hs h3).2 h2)⟩, h3⟩

/-- C100: on any model the computation of C86_least_dfs ends. It finds a set of features if there is one that tells the reported leafs of
different class apart, and then one with the fewest features of all that do. -/
theorem C100_least_dfs (hc : Correct sv) (hr : Reliable sv) (hd : 0 < d) (hR : Reported d nodes ps)
    (hl : ∃ p ∈ ps, ∃ n, nodes[p.1]? = some n ∧ n.childless = true) (hg : g v ≠ v) (hs : Ready d nodes [v] s) {fuel : Nat} (hfuel : d < fuel) :
    ∃ o st' s', computeOptim sv (fun _ => (dfsQuery v).comp) (fun _ k => (strictLel g v k).comp) v true fuel st s = (.ok o, st', s') ∧
      o.calls ≤ d + 2 ∧ (o.found = true ↔ ∃ y, TellsApart d nodes ps y) ∧
      (o.found = true → GoodVals d o.value.val ∧ TellsApart d nodes ps (den o.value.val) ∧
        ∀ y, TellsApart d nodes ps y → numDef d (den o.value.val) ≤ numDef d y) := by
  have hf := dfs_in_good (v := v) hd hR hl
  have ho := fun b hb => dfs_lel_in (v := v) (b := b) hd hR hl hg hb
  have hs' : Ready d nodes ((Query.withVar v (dfsQuery v)).namesIn d ps []) s := by simpa [dfsQuery, Query.namesIn, suffix] using hs
  have hp := good_in_poses hf ho
  obtain ⟨o, st', s', e, hcalls⟩ := C48_rank (st := st) hc hr hp hs' (fun b => d - numBot d (den b)) d (fun _ _ _ => by omega)
    (by
      intro b b' hb hb' _ _ hR
      rw [valsOf_den hb] at hR
      have hR : numBot d (den b) < numBot d (den b') := (onReports_lel.1 hR).2
      have := countFeats_le' d fun i => (den b' i).isNone
      unfold numBot at *
      omega) hfuel
  obtain ⟨h1, h2⟩ := C100_optimum (st := st) (fuel := fuel) hc hf ho hs'
  refine ⟨o, st', s', e, hcalls, ⟨fun hfound => ⟨_, onReports_dfs.1 (h1 o st' s' true e hfound).2.1⟩, fun ⟨y, hy⟩ => ?_⟩, fun hfound => ?_⟩
  · cases hf' : o.found with
    | true => rfl
    | false => exact absurd (onReports_dfs.2 hy) ((h2 hr).1 ⟨o, st', s', e, hf'⟩ _)
  obtain ⟨k1, k2, k3⟩ := h1 o st' s' true e hfound
  have hle : ∀ y, TellsApart d nodes ps y → numDef d (den o.value.val) ≤ numDef d y := by
    intro y hy
    have h3 : ¬ numBot d (den o.value.val) < numBot d y := fun h => k3 y (onReports_lel.2 ⟨hy, h⟩)
    have e1 := numDef_add_numBot d y
    have e2 := numDef_add_numBot d (den o.value.val)
    unfold numDef
    omega
  exact ⟨k1, onReports_dfs.1 k2, hle⟩

/-- C100: on any model the computation of C86_minimal_dfs ends. It finds a set of features if there is one that tells the reported leafs of
different class apart, and then one of which no proper part does. -/
theorem C100_minimal_dfs (hc : Correct sv) (hr : Reliable sv) (hd : 0 < d) (hR : Reported d nodes ps)
    (hl : ∃ p ∈ ps, ∃ n, nodes[p.1]? = some n ∧ n.childless = true) (hs : Ready d nodes [v] s) {fuel : Nat} (hfuel : d < fuel) :
    ∃ o st' s', computeOptim sv (fun _ => (dfsQuery v).comp) (fun _ k => (strictSubs v k).comp) v true fuel st s = (.ok o, st', s') ∧
      o.calls ≤ d + 2 ∧ (o.found = true ↔ ∃ y, TellsApart d nodes ps y) ∧
      (o.found = true → GoodVals d o.value.val ∧ TellsApart d nodes ps (den o.value.val) ∧
        ∀ y, TellsApart d nodes ps y → Subsumes d y (den o.value.val) → Same d y (den o.value.val)) := by
  have hf := dfs_in_good (v := v) hd hR hl
  have ho := fun b hb => dfs_subs_in (v := v) (b := b) hd hR hl hb
  have hs' : Ready d nodes ((Query.withVar v (dfsQuery v)).namesIn d ps []) s := by simpa [dfsQuery, Query.namesIn, suffix] using hs
  have hp := good_in_poses hf ho
  obtain ⟨o, st', s', e, hcalls⟩ := C48_rank (st := st) hc hr hp hs' (fun b => d - numBot d (den b)) d (fun _ _ _ => by omega)
    (by
      intro b b' hb hb' _ _ hR
      rw [valsOf_den hb] at hR
      obtain ⟨a, n⟩ := (onReports_subs.1 hR).2
      have := numBot_lt a n
      have := countFeats_le' d fun i => (den b' i).isNone
      unfold numBot at *
      omega) hfuel
  obtain ⟨h1, h2⟩ := C100_optimum (st := st) (fuel := fuel) hc hf ho hs'
  refine ⟨o, st', s', e, hcalls, ⟨fun hfound => ⟨_, onReports_dfs.1 (h1 o st' s' true e hfound).2.1⟩, fun ⟨y, hy⟩ => ?_⟩, fun hfound => ?_⟩
  · cases hf' : o.found with
    | true => rfl
    | false => exact absurd (onReports_dfs.2 hy) ((h2 hr).1 ⟨o, st', s', e, hf'⟩ _)
  obtain ⟨k1, k2, k3⟩ := h1 o st' s' true e hfound
  have hle : ∀ y, TellsApart d nodes ps y → Subsumes d y (den o.value.val) → Same d y (den o.value.val) :=
    fun y hy hsub => subsumes_antisymm hsub (Classical.not_not.1 fun hn => k3 y (onReports_subs.2 ⟨hy, hsub, hn⟩))
  exact ⟨k1, onReports_dfs.1 k2, hle⟩

theorem eval_in_good {c : QConst} {y : QVar} (hd : 0 < d) (hR : Reported d nodes ps)
    (hl : ∃ p ∈ ps, ∃ n, nodes[p.1]? = some n ∧ n.childless = true)
    (hc : GoodVals d c.val) : (evalQuery c y).GoodReported d nodes ps (fun _ => 0) := by
  have hc' : (resolve [] c).length = d ∧ ValidVals (resolve [] c) := hc
  refine ⟨hd, hR, ⟨?_, rfl, ?_, ?_, ?_⟩, .of_eq ?_⟩
  iterate 4
    exact ⟨⟨by simp [Atom.vars, Term.vars], by simp [Spec.Atom.consts, Spec.Term.consts, hc'], rfl, trivial, trivial, trivial, rfl⟩, rfl, fun _ => hl⟩
  · have : botCountVarGen y ≠ y := fun h => by
      have := congrArg List.length h
      simp only [botCountVarGen, List.length_cons] at this
      omega
    simp [evalQuery, Query.usesIn, Query.namesIn, Atom.uses, Term.res, suffix, this]

/-- C100: the program of examples/evaluation.go returns on any model whether the constant tells the reported leafs of different class apart, with the fewest
features of all that do. -/
theorem C100_evaluation {c : QConst} {y : QVar} (hcr : Correct sv) (hr : Reliable sv) (hd : 0 < d) (hR : Reported d nodes ps)
    (hl : ∃ p ∈ ps, ∃ n, nodes[p.1]? = some n ∧ n.childless = true) (hc : GoodVals d c.val) (hs : Ready d nodes [y] s) :
    ∃ b st' s', evaluation sv c y st s = (.ok b, st', s') ∧
      (b = true ↔ TellsApart d nodes ps (den c.val) ∧
        ∀ e, TellsApart d nodes ps e → numDef d (den c.val) ≤ numDef d e) := by
  have hg := eval_in_good (y := y) hd hR hl hc
  have hn : (evalQuery c y).namesIn d ps [] = [y] := by simp [Query.namesIn, evalQuery, suffix]
  obtain ⟨b, st', s', e, h⟩ := C100_sat (st := st) hcr hr hg (hn ▸ hs) true
  refine ⟨b, st', s', e, h.trans ?_⟩
  simp only [Bool.true_eq_false, iff_false, not_exists]
  have hsem : ∀ σ, (evalQuery c y).semIn d nodes ps (fun _ => 0) σ [] ↔ ¬ TellsApart d nodes ps (den c.val) ∨
      (TellsApart d nodes ps (σ y) ∧ LEL d (σ y) (den c.val) ∧ ¬ LEL d (den c.val) (σ y)) := by
    intro σ
    simp [evalQuery, Query.semIn, Atom.saysIn, Atom.says, Term.res, suffix, resolve, RTerm.den]
  simp only [hsem, not_or, Classical.not_not]
  have h1 := numDef_add_numBot d (den c.val)
  unfold numDef
  constructor
  · refine fun h => ⟨(h fun _ => bot).1, fun f hf => Nat.not_lt.1 fun hlt => (h fun _ => f).2 ⟨hf, ?_⟩⟩
    have h2 := numDef_add_numBot d f
    unfold LEL
    omega
  · refine fun ⟨h, hl⟩ σ => ⟨h, fun ⟨hD, hL, hN⟩ => ?_⟩
    have h2 := numDef_add_numBot d (σ y)
    have := hl (σ y) hD
    unfold LEL at hL hN
    omega

/-- C100: where no leaf is reported, dfs fails: the model is taken for empty. -/
theorem C100_leafless (hR : Reported d nodes ps) (hl : ∀ p ∈ ps, ∀ n, nodes[p.1]? = some n → n.childless = false) (hm : s.dim = d) (hn : s.nodes = nodes) :
    (∀ x y, s.scopeVar x = .ok y → ((Query.atom (.dfs (.var x))).encode s).1 = .error (.msg "Invalid encoding on empty model")) ∧
    ∀ c, (resolve s.scopes c).length = d → ((Query.atom (.dfs (.const c))).encode s).1 = .error (.msg "Invalid encoding on empty model") := by
  subst hm hn
  obtain ⟨w0, ws0, hok, hws, rfl⟩ := hR
  obtain ⟨hne, -, rfl⟩ := newIter_ok hok
  rcases C17_dfs_walk s.dim s.nodes hne with ⟨m, -, h⟩ | ⟨ws, -, hit, hlf⟩
  · rw [hok] at h; cases h
  obtain rfl : ws0 = ws := hws.unique hit
  have hc : ∀ w ∈ ws0, (nodeAt s.nodes w.cp).childless = false := by
    intro w hw
    obtain ⟨ws2, h2, -, -, h3, -⟩ := C17_terminates _ _ _ hok
    obtain rfl : ws0 = ws2 := hws.unique h2
    exact hl _ (List.mem_map.2 ⟨w, hw, rfl⟩) _ (getElem?_nodeAt (reach_lt hok ((h3 w.cp).1 (List.mem_map.2 ⟨w, hw, rfl⟩))))
  have he : ∀ b : WalkSt → Bool, (ws0.filter fun v => (nodeAt s.nodes v.cp).childless && b v) = [] := by
    intro b
    rw [List.filter_eq_nil_iff]
    intro w hw
    simp [hc w hw]
  rw [he, he] at hlf
  constructor
  · intro x y hx
    show (dfsVar x s).1 = _
    unfold dfsVar
    rw [M_bind_ok (show M.scopeVar x s = (.ok y, s) from Prod.ext hx rfl), M_bind_ok (show M.dim s = (.ok s.dim, s) from rfl),
      M_bind_ok (show M.nodes s = (.ok s.nodes, s) from rfl), hlf, M_bind_ok (show M.lift (.ok _) s = (.ok _, s) from rfl)]
    rfl
  · intro c hcl
    have hv : validateM [{ id := c.id, val := resolve s.scopes c }] s = (.ok (), s) := by
      show (M.dim >>= fun d => M.lift (ValidateConstsDim d [{ id := c.id, val := resolve s.scopes c }])) s = _
      rw [M_bind_ok (show M.dim s = (.ok s.dim, s) from rfl), validate_ok _ (by simpa using hcl)]
      rfl
    show (dfsConst c s).1 = _
    unfold dfsConst
    rw [M_bind_ok (show M.scopeConst c s = (.ok { id := c.id, val := resolve s.scopes c }, s) from by
        show (Except.ok (s.scopeConst c).1, s) = _; rw [scopeConst_eq]), M_bind_ok hv, M_bind_ok (show M.dim s = (.ok s.dim, s) from rfl),
      M_bind_ok (show M.nodes s = (.ok s.nodes, s) from rfl), hlf, M_bind_ok (show M.lift (.ok _) s = (.ok _, s) from rfl)]
    rfl

/-- Concrete case of C100_leafless: both children of node 0 are node 0. The model is not empty. -/
example : ((Query.atom (.dfs (.var ['x']))).encode (BasicQContext 2 [⟨false, 0, 0, 0⟩])).1 = .error (.msg "Invalid encoding on empty model") := by
  refine (C100_leafless (ps := [(0, den [BOT, BOT])]) (nodes := [⟨false, 0, 0, 0⟩]) ⟨WalkSt.init 2 1, _, rfl, .step (by rfl) (.done (by rfl)), rfl⟩ ?_
    rfl rfl).1 _ ['x'] rfl
  intro p hp n hn
  obtain rfl := List.mem_singleton.1 hp
  cases hn
  rfl

/-! ### trees that decide on a feature several times -/

/-- C100: over such a tree the walk reports the nodes in pre-order, with what `kept` says: the decisions on the way, but coming back to a node
makes its feature unknown. -/
theorem C100_walk (d : Nat) (nodes : List Node) (T : DTree) (hT : IsRawTree d nodes T) (ps : List (Nat × PInst)) (h : Reported d nodes ps) :
    ps = (T.kept bot).1 := by
  obtain ⟨w0, ws, hok, hws, rfl⟩ := h
  obtain ⟨-, -, rfl⟩ := newIter_ok hok
  exact raw_values hT hws

/-- C100: what is reported with a node is part of the last decisions on the way to it. -/
theorem C100_kept (T : DTree) : (T.kept bot).1.map (·.1) = T.ways.map (·.1) ∧
    ∀ (k : Nat) p w, (T.kept bot).1[k]? = some p → T.ways[k]? = some w → ∀ f b, p.2 f = some b → lastOn f w.2 = some b := by
  refine ⟨(kept_ways T bot).1, fun k p w hp hw f b h => ?_⟩
  rcases (kept_ways T bot).2 k p w hp hw f b h with h | ⟨-, h⟩
  · exact h
  · cases h

/-- The tree of C18_read_once_needed: the way to node 3 decides on feature 0, and so does node 3. -/
def exLost : List Node := [⟨false, 0, 1, 2⟩, ⟨false, -1, -1, -1⟩, ⟨false, 1, 3, 4⟩, ⟨false, 0, 5, 6⟩, ⟨true, -1, -1, -1⟩, ⟨true, -1, -1, -1⟩,
  ⟨true, -1, -1, -1⟩]

def exLostTree : DTree := .node 0 0 (.leaf 1 false) (.node 2 1 (.node 3 0 (.leaf 5 true) (.leaf 6 true)) (.leaf 4 true))

theorem exLost_tree : IsRawTree 2 exLost exLostTree :=
  ⟨by simp [LaysOut, DTree.root, Node.childless, exLost, exLostTree], rfl, by decide, by decide⟩

theorem exLost_reported : Reported 2 exLost (exLostTree.kept bot).1 := by
  have h : newNodeAsValuesIter 2 exLost = .ok (WalkSt.init 2 7) := rfl
  obtain ⟨ws, hw, -⟩ := C17_terminates _ _ _ h
  exact ⟨_, ws, h, hw, (raw_values exLost_tree hw).symm⟩

theorem exLost_kept : (exLostTree.kept bot).1.map (fun p => (p.1, p.2 0, p.2 1)) =
    [(0, none, none), (1, some false, none), (2, some true, none), (3, some true, some false), (5, some false, some false),
      (6, some true, some false), (4, none, some true)] := rfl

/-- Concrete case of C100_walk and C100_kept: the way to leaf 4 decides on both features, but the leaf is reported without feature 0. -/
example : ∃ ps, Reported 2 exLost ps ∧ ps.map (fun p => (p.1, p.2 0, p.2 1)) =
    [(0, none, none), (1, some false, none), (2, some true, none), (3, some true, some false), (5, some false, some false),
      (6, some true, some false), (4, none, some true)] ∧ (4, [(0, true), (1, true)]) ∈ exLostTree.ways :=
  ⟨_, exLost_reported, by rw [C100_walk 2 _ _ exLost_tree _ exLost_reported]; exact exLost_kept, by decide⟩

/-- Concrete case of C100_kept: leaf 5 is reported with its last decision on feature 0, which is not the first. -/
example : lastOn 0 [(0, true), (1, false), (0, false)] = some false ∧ ((exLostTree.kept bot).1[4]?.map fun p => (p.1, p.2 0)) = some (5, some false) :=
  ⟨(C100_kept exLostTree).2 4 _ (5, [(0, true), (1, false), (0, false)]) rfl rfl 0 false rfl, rfl⟩

/-- C100: on such trees a set of features that dfs accepts is sufficient. -/
theorem C100_dfs (d : Nat) (nodes : List Node) (T : DTree) (hT : IsRawTree d nodes T) (ps : List (Nat × PInst)) (h : Reported d nodes ps) (e : PInst)
    (ha : TellsApart d nodes ps e) : DFS d T e := by
  rw [C100_walk d nodes T hT ps h] at ha
  exact kept_dfs hT.laid ha

/-- C100: what a computation finds on such trees is sufficient, whatever the order. If the program of examples/evaluation.go says yes, the set is
sufficient. -/
theorem C100_found (hc : Correct sv) (hd : 0 < d) (hT : IsRawTree d nodes T) {w0 : WalkSt} (hok : newNodeAsValuesIter d nodes = .ok w0) :
    (∀ (o : QConst → Query) out st' s' tmp fuel,
      (∀ ps, Reported d nodes ps → ∀ b, GoodVals d b → (Query.withVar v (.and (dfsQuery v) (o { val := b }))).GoodReported d nodes ps (fun _ => 0)) →
      Ready d nodes [v] s → computeOptim sv (fun _ => (dfsQuery v).comp) (fun _ k => (o k).comp) v tmp fuel st s = (.ok out, st', s') →
      out.found = true → DFS d T (den out.value.val)) ∧
    ∀ c st' s', Reliable sv → GoodVals d c.val → Ready d nodes [v] s → evaluation sv c v st s = (.ok true, st', s') → DFS d T (den c.val) := by
  obtain ⟨ws, hws, -⟩ := C17_terminates _ _ _ hok
  have hR : Reported d nodes (ws.map fun w => (w.cp, den w.t)) := ⟨w0, ws, hok, hws, rfl⟩
  generalize ws.map (fun w => (w.cp, den w.t)) = ps at hR
  have hl : ∃ p ∈ ps, ∃ n, nodes[p.1]? = some n ∧ n.childless = true := by
    rw [C100_walk d nodes T hT ps hR]
    obtain ⟨p, hp, ⟨n, hn, hc, -⟩, -⟩ := kept_leaf hT.laid (fun _ => false) bot (by simp [bot])
    exact ⟨p, hp, n, hn, hc⟩
  constructor
  · intro o out st' s' tmp fuel ho hs he hf
    have hs' : Ready d nodes ((Query.withVar v (dfsQuery v)).namesIn d ps []) s := by simpa [dfsQuery, Query.namesIn, suffix] using hs
    have := (C100_optimum (st := st) (fuel := fuel) hc (dfs_in_good hd hR hl) (ho ps hR) hs').1 out st' s' tmp he hf
    exact C100_dfs d nodes T hT ps hR _ (onReports_dfs.1 this.2.1)
  · intro c st' s' hr hg hs he
    obtain ⟨b, st1, s1, e, h⟩ := C100_evaluation (st := st) hc hr hd hR hl hg hs
    rw [e] at he
    obtain ⟨rfl, -⟩ : b = true ∧ _ := by simpa using he
    exact C100_dfs d nodes T hT ps hR _ (h.1 rfl).1

/-- A tree that asks for feature 0 again where it is 1. -/
def exReask : List Node := [⟨false, 0, 1, 2⟩, ⟨false, -1, -1, -1⟩, ⟨false, 0, 3, 4⟩, ⟨false, -1, -1, -1⟩, ⟨true, -1, -1, -1⟩]

def exReaskTree : DTree := .node 0 0 (.leaf 1 false) (.node 2 0 (.leaf 3 false) (.leaf 4 true))

theorem exReask_tree : IsRawTree 2 exReask exReaskTree :=
  ⟨by simp [LaysOut, DTree.root, Node.childless, exReask, exReaskTree], rfl, by decide, by decide⟩

theorem exReask_reported : Reported 2 exReask (exReaskTree.kept bot).1 := by
  have h : newNodeAsValuesIter 2 exReask = .ok (WalkSt.init 2 5) := rfl
  obtain ⟨ws, hw, -⟩ := C17_terminates _ _ _ h
  exact ⟨_, ws, h, hw, (raw_values exReask_tree hw).symm⟩

theorem exReask_leaf : ∃ p ∈ (exReaskTree.kept bot).1, ∃ n, exReask[p.1]? = some n ∧ n.childless = true :=
  ⟨_, List.mem_of_getElem? (i := 1) rfl, _, rfl, rfl⟩

theorem exReask_apart {e : PInst} (h : e 0 ≠ none) : TellsApart 2 exReask (exReaskTree.kept bot).1 e := by
  intro p hp q hq n m hn hm h1 h2 h3 h4
  refine ⟨0, by decide, h, ?_⟩
  simp only [exReaskTree, DTree.kept, List.mem_cons, List.cons_append, List.nil_append, List.not_mem_nil, or_false] at hp hq
  rcases hp with rfl | rfl | rfl | rfl | rfl <;> cases Option.some.inj hn <;>
    first
    | exact absurd h1 (by decide)
    | exact absurd h3 (by decide)
    | (rcases hq with rfl | rfl | rfl | rfl | rfl <;> cases Option.some.inj hm <;>
        first
        | exact absurd h2 (by decide)
        | exact absurd h4 (by decide)
        | simp [PInst.set])

/-- Concrete case of C100_dfs: feature 0 of the tree that asks for it again. -/
example : DFS 2 exReaskTree (den [ONE, BOT]) :=
  C100_dfs 2 exReask _ exReask_tree _ exReask_reported _ (exReask_apart (by decide))

/-- Concrete case of C100_least_dfs, C100_optimum and C100_found: the computation finds a set of one feature, and it is sufficient. -/
example (hc : Correct sv) (hr : Reliable sv) (hg : g v ≠ v) : ∃ o st' s',
    computeOptim sv (fun _ => (dfsQuery v).comp) (fun _ k => (strictLel g v k).comp) v true 3 st (BasicQContext 2 exReask) = (.ok o, st', s') ∧
    o.found = true ∧ numDef 2 (den o.value.val) ≤ 1 ∧ DFS 2 exReaskTree (den o.value.val) := by
  obtain ⟨o, st', s', e, -, h1, h2⟩ := C100_least_dfs (st := st) (v := v) (fuel := 3) hc hr (by decide) exReask_reported exReask_leaf hg
    (Ready.fresh_ctx 2 exReask _) (by decide)
  have hf := h1.2 ⟨_, exReask_apart (e := den [ONE, BOT]) (by decide)⟩
  refine ⟨o, st', s', e, hf, (h2 hf).2.2 _ (exReask_apart (e := den [ONE, BOT]) (by decide)), ?_⟩
  refine (C100_found (v := v) (st := st) hc (by decide) exReask_tree (w0 := WalkSt.init 2 5) rfl).1 (fun k => strictLel g v k) o st' s' true 3
    (fun ps hR b hb => ?_) (Ready.fresh_ctx 2 exReask _) e hf
  rw [C100_walk 2 _ _ exReask_tree ps hR]
  exact dfs_lel_in (by decide) exReask_reported exReask_leaf hg hb

/-- Concrete case of C100_minimal_dfs: the computation finds a set. -/
example (hc : Correct sv) (hr : Reliable sv) : ∃ o st' s',
    computeOptim sv (fun _ => (dfsQuery v).comp) (fun _ k => (strictSubs v k).comp) v true 3 st (BasicQContext 2 exReask) = (.ok o, st', s') ∧
    o.found = true := by
  obtain ⟨o, st', s', e, -, h1, -⟩ := C100_minimal_dfs (st := st) (v := v) (fuel := 3) hc hr (by decide) exReask_reported exReask_leaf
    (Ready.fresh_ctx 2 exReask _) (by decide)
  exact ⟨o, st', s', e, h1.2 ⟨_, exReask_apart (e := den [ONE, BOT]) (by decide)⟩⟩

/-- Concrete case of C100_evaluation and C100_found: yes for feature 0, and it is sufficient; no for both features together, since one is enough. -/
example (hc : Correct sv) (hr : Reliable sv) :
    (∃ st' s', evaluation sv { val := [ONE, BOT] } v st (BasicQContext 2 exReask) = (.ok true, st', s') ∧ DFS 2 exReaskTree (den [ONE, BOT])) ∧
    ∃ st' s', evaluation sv { val := [ONE, ONE] } v st (BasicQContext 2 exReask) = (.ok false, st', s') := by
  constructor
  · obtain ⟨b, st', s', e, h⟩ := C100_evaluation (st := st) (y := v) (c := { val := [ONE, BOT] }) hc hr (by decide) exReask_reported exReask_leaf
      (by decide) (Ready.fresh_ctx 2 exReask _)
    obtain rfl : b = true := h.2 ⟨exReask_apart (by decide), fun y hy => by
      obtain ⟨i, hi, h1, -⟩ := hy _ (List.mem_of_getElem? (i := 4) rfl) _ (List.mem_of_getElem? (i := 1) rfl) _ _ rfl rfl rfl rfl rfl rfl
      have : numDef 2 (den [ONE, BOT]) = 1 := by decide
      rw [this]
      exact List.countP_pos_iff.2 ⟨i, by simpa using hi, by simpa [Option.isSome_iff_ne_none] using h1⟩⟩
    exact ⟨st', s', e, (C100_found (v := v) (st := st) hc (by decide) exReask_tree (w0 := WalkSt.init 2 5) rfl).2 _ st' s' hr (by decide)
      (Ready.fresh_ctx 2 exReask _) e⟩
  · obtain ⟨b, st', s', e, h⟩ := C100_evaluation (st := st) (y := v) (c := { val := [ONE, ONE] }) hc hr (by decide) exReask_reported exReask_leaf
      (by decide) (Ready.fresh_ctx 2 exReask _)
    cases b with
    | false => exact ⟨st', s', e⟩
    | true => exact absurd ((h.1 rfl).2 (den [ONE, BOT]) (exReask_apart (by decide))) (by decide)

theorem exLost_dfs : DFS 2 exLostTree (den [ZERO, BOT]) := by
  intro e he
  have h0 : e 0 ≠ none := mt (he 0 (by decide)).1 (by decide)
  obtain ⟨b, hb⟩ := Option.ne_none_iff_exists'.1 h0
  refine ⟨b, fun x hx => ?_⟩
  have := hx 0 (by decide) b hb
  cases b <;> simp [exLostTree, DTree.classify, this]

theorem exLost_apart (e : PInst) : ¬ TellsApart 2 exLost (exLostTree.kept bot).1 e := by
  intro h
  obtain ⟨i, hi, -, h1, h2, -⟩ := h _ (List.mem_of_getElem? (i := 6) rfl) _ (List.mem_of_getElem? (i := 1) rfl) _ _ rfl rfl rfl rfl rfl rfl
  rcases i with - | - | i
  · exact h1 rfl
  · exact h2 rfl
  · omega

/-- C100: on such trees a sufficient set may be rejected. On this one feature 0 alone is sufficient, and so are both together, but both computations
end without any set, and the program of examples/evaluation.go says no for the smallest sufficient set. -/
theorem C100_dfs_wrong (hcr : Correct sv) (hr : Reliable sv) (hg : g v ≠ v) (hs : Ready 2 exLost [v] s) :
    LeastDFS 2 exLostTree (den [ZERO, BOT]) ∧ DFS 2 exLostTree (den [ZERO, ZERO]) ∧
    (∃ o st' s', computeOptim sv (fun _ => (dfsQuery v).comp) (fun _ k => (strictLel g v k).comp) v true 3 st s = (.ok o, st', s') ∧ o.found = false) ∧
    (∃ o st' s', computeOptim sv (fun _ => (dfsQuery v).comp) (fun _ k => (strictSubs v k).comp) v true 3 st s = (.ok o, st', s') ∧ o.found = false) ∧
    ∃ st' s', evaluation sv { val := [ZERO, BOT] } v st s = (.ok false, st', s') := by
  have hR := exLost_reported
  have hl : ∃ p ∈ (exLostTree.kept bot).1, ∃ n, exLost[p.1]? = some n ∧ n.childless = true :=
    ⟨_, List.mem_of_getElem? (i := 1) rfl, _, rfl, rfl⟩
  refine ⟨⟨exLost_dfs, fun y hy hD => ?_⟩, full_dfs exLost_tree.range (by unfold Full; decide), ?_, ?_, ?_⟩
  · have hn : ∀ i < 2, y i = none := by
      intro i hi
      cases h : y i with
      | none => rfl
      | some b =>
        have h1 : 0 < countFeats 2 (fun i => (y i).isSome) := List.countP_pos_iff.2 ⟨i, by simpa using hi, by simp [h]⟩
        have h2 : countFeats 2 (fun i => (den [ZERO, BOT] i).isSome) = 1 := by decide
        omega
    obtain ⟨b, hb⟩ := hD y fun _ _ => Iff.rfl
    have h1 := hb (fun _ => true) fun i hi v hv => by rw [hn i hi] at hv; cases hv
    have h2 := hb (fun _ => false) fun i hi v hv => by rw [hn i hi] at hv; cases hv
    rw [← h2] at h1
    exact absurd h1 (by decide)
  · obtain ⟨o, st', s', e, -, h, -⟩ := C100_least_dfs (st := st) (fuel := 3) hcr hr (by decide) hR hl hg hs (by decide)
    refine ⟨o, st', s', e, ?_⟩
    cases hf : o.found with
    | false => rfl
    | true => obtain ⟨y, hy⟩ := h.1 hf; exact absurd hy (exLost_apart y)
  · obtain ⟨o, st', s', e, -, h, -⟩ := C100_minimal_dfs (st := st) (fuel := 3) hcr hr (by decide) hR hl hs (by decide)
    refine ⟨o, st', s', e, ?_⟩
    cases hf : o.found with
    | false => rfl
    | true => obtain ⟨y, hy⟩ := h.1 hf; exact absurd hy (exLost_apart y)
  · obtain ⟨b, st', s', e, h⟩ := C100_evaluation (st := st) (c := { val := [ZERO, BOT] }) hcr hr (by decide) hR hl (by decide) hs
    cases b with
    | false => exact ⟨st', s', e⟩
    | true => exact absurd (h.1 rfl).1 (exLost_apart _)

end Goexpdt.Props

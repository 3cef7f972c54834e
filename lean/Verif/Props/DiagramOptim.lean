import Verif.Props.DiagramWalk
import Verif.Props.MarkedOptim
import Verif.Props.Notions
/-
Property C99, continued: computations with quantifiers and dfs on decision diagrams.
-/
namespace Goexpdt.Props
open Goexpdt Spec Examples

variable {S : Type} {sv : Solver S} {d : Nat} {nodes : List Node} {T : DTree} {dep : QVar → Nat} {v : QVar} {g : QVar → QVar} {st : S} {s : Ctx}

/-! ### lemmas -/

theorem good_on_decides {q : Query} (hg : q.GoodOn d nodes T dep) :
    Decides d nodes (q.namesOn d T []) q.encode (fun σ => q.semOn d nodes T dep σ []) := by
  intro s hs
  obtain ⟨c, s', e, hw, hr, hn, hf⟩ := good_on hg hs
  exact ⟨c, s', e, hw, hf.says, hr, hn⟩

theorem good_on_ne {q : Query} (hg : q.GoodOn d nodes T dep) : q ≠ .nil := by
  rintro rfl
  exact hg.fits

/-- What a query says about the instance of one of its variables, for some instances of the others. -/
def OnPaths (d : Nat) (nodes : List Node) (T : DTree) (dep : QVar → Nat) (v : QVar) (q : Query) (e : PInst) : Prop :=
  ∃ σ : Asg, q.semOn d nodes T dep σ [] ∧ Same d (σ v) e

theorem good_on_asks {f : Query} (hg : (Query.withVar v f).GoodOn d nodes T dep) :
    Asks d nodes ((Query.withVar v f).namesOn d T []) v (encWithVar v f.comp) (OnPaths d nodes T dep v f) :=
  ⟨by simp [Query.namesOn, suffix], _, good_on_decides hg, fun _ => Iff.rfl⟩

theorem good_on_poses {f : Query} {o : QConst → Query} (hf : (Query.withVar v f).GoodOn d nodes T dep)
    (ho : ∀ b, GoodVals d b → (Query.withVar v (.and f (o { val := b }))).GoodOn d nodes T dep) :
    Poses d nodes v (fun _ => f.comp) (fun _ k => (o k).comp) (OnPaths d nodes T dep v f)
      (fun e p => OnPaths d nodes T dep v (.and f (o { val := valsOf d p })) e) ((Query.withVar v f).namesOn d T []) := by
  refine ⟨good_on_asks hf, fun k hk hid => ⟨(Query.withVar v (.and f (o k))).namesOn d T [], ?_⟩⟩
  have hk' : k = { val := k.val } := by cases k; simp_all
  rw [valsOf_den hk, ← hk']
  obtain ⟨h1, P, h2, h3⟩ := good_on_asks (ho k.val hk)
  rw [← hk'] at h1 h2 h3
  refine ⟨h1, P, h2, fun e => Iff.trans ⟨fun h => h.2, fun h => ⟨?_, h⟩⟩ (h3 e)⟩
  obtain ⟨σ, ⟨a, -⟩, b⟩ := h
  exact ⟨σ, a, b⟩

/-! ### any query -/

/-- C99: on decision diagrams `Sat` answers whether there are instances as the query says, its quantifiers ranging over the first paths. -/
theorem C99_sat (hc : Correct sv) (hr : Reliable sv) {q : Query} (hg : q.GoodOn d nodes T dep) (hs : Ready d nodes (q.namesOn d T []) s)
    (negated : Bool) :
    ∃ b st' s', atomSat sv q.comp negated st s = (.ok b, st', s') ∧
      (b = true ↔ ((∃ σ, q.semOn d nodes T dep σ []) ↔ negated = false)) := by
  rw [Query.comp_eq (good_on_ne hg)]
  unfold atomSat
  rcases decides_step (st := st) hc (good_on_decides hg) hs with ⟨st1, s1, e, hr, β, σ, hP, -⟩ | ⟨st1, s1, e, hr, hn⟩ | ⟨_, _, _, _, hn⟩
  · rw [e]
    refine ⟨!negated, st1, s1, by cases negated <;> rfl, ?_⟩
    have : ∃ σ, q.semOn d nodes T dep σ [] := ⟨σ, hP⟩
    simp [this]
  · rw [e]
    refine ⟨negated, st1, s1, by cases negated <;> rfl, ?_⟩
    simp [hn]
  · exact absurd hr hn

/-- Concrete case of C99_sat: the query of C99_query is answered with yes, its negation with no. -/
example (hc : Correct sv) (hr : Reliable sv) :
    (∃ st' s', atomSat sv exUnseen.comp false st (BasicQContext 2 exEqual) = (.ok true, st', s')) ∧
    ∃ st' s', atomSat sv exUnseen.comp true st (BasicQContext 2 exEqual) = (.ok false, st', s') := by
  obtain ⟨b, st1, s1, e1, h1⟩ := C99_sat (st := st) hc hr exUnseen_good (Ready.fresh_ctx 2 exEqual _) false
  obtain ⟨b', st2, s2, e2, h2⟩ := C99_sat (st := st) hc hr exUnseen_good (Ready.fresh_ctx 2 exEqual _) true
  have hx : ∃ σ, exUnseen.semOn 2 exEqual exEqualPaths (fun _ => 0) σ [] := ⟨_, exUnseen_sem⟩
  have hb : b = true := by simpa [hx] using h1
  have hb' : b' = false := by simpa [hx] using h2
  subst hb hb'
  exact ⟨⟨st1, s1, e1⟩, st2, s2, e2⟩

/-- C99: on decision diagrams a value that `ComputeOptim` returns is as the formula says and no instance is better, quantifiers ranging over the
first paths; if it returns no value, no instance is as the formula says. -/
theorem C99_optimum (hc : Correct sv) {f : Query} {o : QConst → Query} (hf : (Query.withVar v f).GoodOn d nodes T dep)
    (ho : ∀ b, GoodVals d b → (Query.withVar v (.and f (o { val := b }))).GoodOn d nodes T dep)
    (hs : Ready d nodes ((Query.withVar v f).namesOn d T []) s) {fuel : Nat} :
    (∀ out st' s' tmp, computeOptim sv (fun _ => f.comp) (fun _ k => (o k).comp) v tmp fuel st s = (.ok out, st', s') → out.found = true →
      GoodVals d out.value.val ∧ OnPaths d nodes T dep v f (den out.value.val) ∧
      ∀ e, ¬ OnPaths d nodes T dep v (.and f (o { val := out.value.val })) e) ∧
    (Reliable sv → ((∃ out st' s', computeOptim sv (fun _ => f.comp) (fun _ k => (o k).comp) v true fuel st s = (.ok out, st', s') ∧
      out.found = false) ↔ ∀ e, ¬ OnPaths d nodes T dep v f e)) := by
  have hp := good_on_poses hf ho
  refine ⟨fun out st' s' tmp he hfd => ?_, fun hr => C47_absent_partial hc hr hp hs fuel⟩
  obtain ⟨h1, h2, h3, h4⟩ := C46_optimum hc hp hs he hfd
  refine ⟨⟨h1, h2⟩, h3, fun e h => ?_⟩
  have := h4 e (by obtain ⟨σ, ⟨a, -⟩, b⟩ := h; exact ⟨σ, a, b⟩)
  rw [valsOf_den ⟨h1, h2⟩] at this
  exact this h

/-! ### sufficient sets of features -/

theorem apart_same {ps : List (Nat × PInst)} {e e' : PInst} (h : Same d e e') : TellsApart d nodes ps e ↔ TellsApart d nodes ps e' := by
  unfold TellsApart
  refine forall_congr' fun p => forall_congr' fun _ => forall_congr' fun q => forall_congr' fun _ => forall_congr' fun n => forall_congr' fun m =>
    forall_congr' fun _ => forall_congr' fun _ => forall_congr' fun _ => forall_congr' fun _ => forall_congr' fun _ => forall_congr' fun _ =>
    exists_congr fun i => and_congr_right fun hi => ?_
  rw [h i hi]

theorem onPaths_dfs {e : PInst} : OnPaths d nodes T (fun _ => 0) v (dfsQuery v) e ↔ TellsApart d nodes (firstPaths T) e := by
  constructor
  · rintro ⟨σ, h, hσ⟩
    refine (apart_same hσ).1 ?_
    simpa [dfsQuery, Query.semOn, Atom.saysOn, Term.res, RTerm.den, suffix] using h
  · intro h
    refine ⟨fun _ => e, ?_, same_refl e⟩
    simpa [dfsQuery, Query.semOn, Atom.saysOn, Term.res, RTerm.den, suffix] using h

theorem dfs_on_good (hd : 0 < d) (hD : IsDiagram d nodes T) {w0 : WalkSt} (hv : newNodeAsValuesIter d nodes = .ok w0) :
    (Query.withVar v (dfsQuery v)).GoodOn d nodes T (fun _ => 0) :=
  ⟨hd, hD, ⟨w0, hv⟩, ⟨rfl, by simp [Atom.vars, Term.vars], by simp [Spec.Atom.consts, Spec.Term.consts], rfl, trivial, trivial, trivial, rfl⟩,
    .of_eq (by simp [dfsQuery, Query.usesOn, Atom.uses])⟩

theorem subs_on_fits {k : QConst} {Γ : List QVar} {a b : Term} (hv : v ∈ Γ) (hk : GoodVals d k.val)
    (h : (a = .var v ∧ b = .const k) ∨ (a = .const k ∧ b = .var v)) : (Atom.subs a b).FitsOn d Γ [] := by
  rcases h with ⟨rfl, rfl⟩ | ⟨rfl, rfl⟩ <;>
  exact ⟨by simpa [Atom.vars, Term.vars] using hv, by simpa [Spec.Atom.consts, Spec.Term.consts, resolve, GoodVals] using hk, rfl, trivial, trivial,
    trivial, rfl⟩

theorem lel_on_fits {k : QConst} {Γ : List QVar} {a b : Term} (hv : v ∈ Γ) (hk : GoodVals d k.val)
    (h : (a = .var v ∧ b = .const k) ∨ (a = .const k ∧ b = .var v)) : (Atom.lel a b (some g)).FitsOn d Γ [] := by
  rcases h with ⟨rfl, rfl⟩ | ⟨rfl, rfl⟩ <;>
  exact ⟨by simpa [Atom.vars, Term.vars] using hv, by simpa [Spec.Atom.consts, Spec.Term.consts, resolve, GoodVals] using hk, rfl, trivial, trivial,
    trivial, rfl⟩

/-- The body of the query of C99_query. -/
def exUnseenBody : Query := .and (.atom (.subs (.const { val := [ONE, ONE] }) (.var ['x'])))
  (.forallG { id := ['c'] } (.not (.atom (.subs (.var ['x']) (.const { id := ['c'] })))))

/-- Concrete case of C99_optimum: the body of the query of C99_query and the order by subsumption. What is returned is as the formula says, and it
is not the case that nothing is returned. -/
example (hc : Correct sv) (hr : Reliable sv) {out : OptOutput} {st' : S} {s' : Ctx}
    (h : computeOptim sv (fun _ => exUnseenBody.comp) (fun _ k => (strictSubs ['x'] k).comp) ['x'] true 9 st (BasicQContext 2 exEqual) = (.ok out, st', s')) :
    out.found = true ∧ OnPaths 2 exEqual exEqualPaths (fun _ => 0) ['x'] exUnseenBody (den out.value.val) := by
  have hf : (Query.withVar ['x'] exUnseenBody).GoodOn 2 exEqual exEqualPaths (fun _ => 0) := exUnseen_good
  obtain ⟨h1, h2⟩ := C99_optimum (st := st) (fuel := 9) (o := fun k => strictSubs ['x'] k) hc hf (fun b hb => ⟨hf.dim, hf.diagram, hf.accepted,
    ⟨rfl, hf.fits.2, subs_on_fits (by simp) hb (.inl ⟨rfl, rfl⟩), subs_on_fits (by simp) hb (.inr ⟨rfl, rfl⟩)⟩,
    .of_eq (by simp [exUnseenBody, strictSubs, Query.usesOn, Atom.uses])⟩) (Ready.fresh_ctx 2 exEqual _)
  have hfd : out.found = true := by
    cases hf' : out.found with
    | true => rfl
    | false => exact absurd ⟨_, exUnseen_sem, same_refl _⟩ ((h2 hr).1 ⟨out, st', s', h, hf'⟩ ((bot.set 0 true).set 1 true))
  exact ⟨hfd, (h1 out st' s' true h hfd).2.1⟩

theorem dfs_subs_good (hd : 0 < d) (hD : IsDiagram d nodes T) {w0 : WalkSt} (hv : newNodeAsValuesIter d nodes = .ok w0) {b : List FeatV}
    (hb : GoodVals d b) : (Query.withVar v (.and (dfsQuery v) (strictSubs v { val := b }))).GoodOn d nodes T (fun _ => 0) :=
  ⟨hd, hD, ⟨w0, hv⟩, ⟨rfl, (dfs_on_good hd hD hv).fits.2, subs_on_fits (by simp) hb (.inl ⟨rfl, rfl⟩), subs_on_fits (by simp) hb (.inr ⟨rfl, rfl⟩)⟩,
    .of_eq (by simp [dfsQuery, strictSubs, Query.usesOn, Atom.uses])⟩

theorem dfs_lel_good (hd : 0 < d) (hD : IsDiagram d nodes T) {w0 : WalkSt} (hv : newNodeAsValuesIter d nodes = .ok w0) (hg : g v ≠ v) {b : List FeatV}
    (hb : GoodVals d b) : (Query.withVar v (.and (dfsQuery v) (strictLel g v { val := b }))).GoodOn d nodes T (fun _ => 0) :=
  ⟨hd, hD, ⟨w0, hv⟩, ⟨rfl, (dfs_on_good hd hD hv).fits.2, lel_on_fits (by simp) hb (.inl ⟨rfl, rfl⟩), lel_on_fits (by simp) hb (.inr ⟨rfl, rfl⟩)⟩,
    .of_eq (by simp [dfsQuery, strictLel, Query.usesOn, Query.namesOn, Atom.uses, Term.res, suffix, hg])⟩

theorem onPaths_lel {b : List FeatV} {e : PInst} : OnPaths d nodes T (fun _ => 0) v (.and (dfsQuery v) (strictLel g v { val := b })) e ↔
    TellsApart d nodes (firstPaths T) e ∧ numBot d (den b) < numBot d e := by
  rw [← onPaths_dfs (v := v)]
  have hh : ∀ σ : Asg, (strictLel g v { val := b }).semOn d nodes T (fun _ => 0) σ [] ↔ numBot d (den b) < numBot d (σ v) := by
    intro σ
    simp only [strictLel, Query.semOn, Atom.saysOn, Atom.says, Term.res, RTerm.den, LEL, resolve, List.take_nil, suffix]
    simp
    omega
  constructor
  · rintro ⟨σ, ⟨h1, h2⟩, h3⟩
    exact ⟨⟨σ, h1, h3⟩, by rw [← numBot_same h3]; exact (hh σ).1 h2⟩
  · rintro ⟨⟨σ, h1, h3⟩, h2⟩
    exact ⟨σ, ⟨h1, (hh σ).2 (by rw [numBot_same h3]; exact h2)⟩, h3⟩

theorem onPaths_subs {b : List FeatV} {e : PInst} : OnPaths d nodes T (fun _ => 0) v (.and (dfsQuery v) (strictSubs v { val := b })) e ↔
    TellsApart d nodes (firstPaths T) e ∧ Subsumes d e (den b) ∧ ¬ Subsumes d (den b) e := by
  rw [← onPaths_dfs (v := v)]
  have hh : ∀ σ : Asg, (strictSubs v { val := b }).semOn d nodes T (fun _ => 0) σ [] ↔ Subsumes d (σ v) (den b) ∧ ¬ Subsumes d (den b) (σ v) := by
    intro σ
    simp [strictSubs, Query.semOn, Atom.saysOn, Atom.says, Term.res, RTerm.den, resolve, suffix]
  have hs : ∀ {e e' : PInst}, Same d e e' → (Subsumes d e (den b) ∧ ¬ Subsumes d (den b) e ↔ Subsumes d e' (den b) ∧ ¬ Subsumes d (den b) e') :=
    fun h => and_congr (subsumes_congr h (same_refl _)) (not_congr (subsumes_congr (same_refl _) h))
  constructor
  · rintro ⟨σ, ⟨h1, h2⟩, h3⟩
    exact ⟨⟨σ, h1, h3⟩, (hs h3).1 ((hh σ).1 h2)⟩
  · rintro ⟨⟨σ, h1, h3⟩, h2⟩
    exact ⟨σ, ⟨h1, (hh σ).2 ((hs h3).2 h2)⟩, h3⟩

/-- C99: on decision diagrams the computation of C86_least_dfs ends with a set of features that tells the first paths apart and has the fewest
features of all that do. So it has not more features than any sufficient set. -/
theorem C99_least_dfs (hc : Correct sv) (hr : Reliable sv) (hd : 0 < d) (hD : IsDiagram d nodes T) {w0 : WalkSt}
    (hw : newNodeAsValuesIter d nodes = .ok w0) (hg : g v ≠ v) (hs : Ready d nodes [v] s) {fuel : Nat} (hfuel : d < fuel) :
    ∃ o st' s', computeOptim sv (fun _ => (dfsQuery v).comp) (fun _ k => (strictLel g v k).comp) v true fuel st s = (.ok o, st', s') ∧
      o.found = true ∧ o.calls ≤ d + 2 ∧ GoodVals d o.value.val ∧ TellsApart d nodes (firstPaths T) (den o.value.val) ∧
      (∀ y, TellsApart d nodes (firstPaths T) y → numDef d (den o.value.val) ≤ numDef d y) ∧
      ∀ y, DFS d T y → numDef d (den o.value.val) ≤ numDef d y := by
  have hf := dfs_on_good (v := v) hd hD hw
  have ho := fun b hb => dfs_lel_good (v := v) (b := b) hd hD hw hg hb
  have hs' : Ready d nodes ((Query.withVar v (dfsQuery v)).namesOn d T []) s := by simpa [dfsQuery, Query.namesOn, suffix] using hs
  have hp := good_on_poses hf ho
  obtain ⟨o, st', s', e, hcalls⟩ := C48_rank (st := st) hc hr hp hs' (fun b => d - numBot d (den b)) d (fun _ _ _ => by omega)
    (by
      intro b b' hb hb' _ _ hR
      rw [valsOf_den hb] at hR
      have hR : numBot d (den b) < numBot d (den b') := (onPaths_lel.1 hR).2
      have := countFeats_le' d fun i => (den b' i).isNone
      unfold numBot at *
      omega) hfuel
  obtain ⟨h1, h2⟩ := C99_optimum (st := st) (fuel := fuel) hc hf ho hs'
  have hfull : DFS d T (fun _ => some true) := full_dfs hD.range fun _ _ h => by simp at h
  have hfound : o.found = true := by
    cases hf' : o.found with
    | true => rfl
    | false => exact absurd (onPaths_dfs.2 (C99_dfs d nodes T hD _ hfull)) ((h2 hr).1 ⟨o, st', s', e, hf'⟩ _)
  obtain ⟨k1, k2, k3⟩ := h1 o st' s' true e hfound
  have hle : ∀ y, TellsApart d nodes (firstPaths T) y → numDef d (den o.value.val) ≤ numDef d y := by
    intro y hy
    have h3 : ¬ numBot d (den o.value.val) < numBot d y := fun h => k3 y (onPaths_lel.2 ⟨hy, h⟩)
    have e1 := numDef_add_numBot d y
    have e2 := numDef_add_numBot d (den o.value.val)
    unfold numDef
    omega
  exact ⟨o, st', s', e, hfound, hcalls, k1, onPaths_dfs.1 k2, hle, fun y hy => hle y (C99_dfs d nodes T hD y hy)⟩

/-- C99: the computation of C86_minimal_dfs ends on decision diagrams with a set of features that tells the first paths apart, and of which no
proper part does. So no proper part of it is sufficient. -/
theorem C99_minimal_dfs (hc : Correct sv) (hr : Reliable sv) (hd : 0 < d) (hD : IsDiagram d nodes T) {w0 : WalkSt}
    (hw : newNodeAsValuesIter d nodes = .ok w0) (hs : Ready d nodes [v] s) {fuel : Nat} (hfuel : d < fuel) :
    ∃ o st' s', computeOptim sv (fun _ => (dfsQuery v).comp) (fun _ k => (strictSubs v k).comp) v true fuel st s = (.ok o, st', s') ∧
      o.found = true ∧ o.calls ≤ d + 2 ∧ GoodVals d o.value.val ∧ TellsApart d nodes (firstPaths T) (den o.value.val) ∧
      (∀ y, TellsApart d nodes (firstPaths T) y → Subsumes d y (den o.value.val) → Same d y (den o.value.val)) ∧
      ∀ y, DFS d T y → Subsumes d y (den o.value.val) → Same d y (den o.value.val) := by
  have hf := dfs_on_good (v := v) hd hD hw
  have ho := fun b hb => dfs_subs_good (v := v) (b := b) hd hD hw hb
  have hs' : Ready d nodes ((Query.withVar v (dfsQuery v)).namesOn d T []) s := by simpa [dfsQuery, Query.namesOn, suffix] using hs
  have hp := good_on_poses hf ho
  obtain ⟨o, st', s', e, hcalls⟩ := C48_rank (st := st) hc hr hp hs' (fun b => d - numBot d (den b)) d (fun _ _ _ => by omega)
    (by
      intro b b' hb hb' _ _ hR
      rw [valsOf_den hb] at hR
      obtain ⟨a, n⟩ := (onPaths_subs.1 hR).2
      have := numBot_lt a n
      have := countFeats_le' d fun i => (den b' i).isNone
      unfold numBot at *
      omega) hfuel
  obtain ⟨h1, h2⟩ := C99_optimum (st := st) (fuel := fuel) hc hf ho hs'
  have hfull : DFS d T (fun _ => some true) := full_dfs hD.range fun _ _ h => by simp at h
  have hfound : o.found = true := by
    cases hf' : o.found with
    | true => rfl
    | false => exact absurd (onPaths_dfs.2 (C99_dfs d nodes T hD _ hfull)) ((h2 hr).1 ⟨o, st', s', e, hf'⟩ _)
  obtain ⟨k1, k2, k3⟩ := h1 o st' s' true e hfound
  have hle : ∀ y, TellsApart d nodes (firstPaths T) y → Subsumes d y (den o.value.val) → Same d y (den o.value.val) :=
    fun y hy hsub => subsumes_antisymm hsub (Classical.not_not.1 fun hn => k3 y (onPaths_subs.2 ⟨hy, hsub, hn⟩))
  exact ⟨o, st', s', e, hfound, hcalls, k1, onPaths_dfs.1 k2, hle, fun y hy => hle y (C99_dfs d nodes T hD y hy)⟩

theorem eval_on_good {c : QConst} {y : QVar} (hd : 0 < d) (hD : IsDiagram d nodes T) {w0 : WalkSt} (hv : newNodeAsValuesIter d nodes = .ok w0)
    (hc : GoodVals d c.val) : (evalQuery c y).GoodOn d nodes T (fun _ => 0) := by
  have hc' : (resolve [] c).length = d ∧ ValidVals (resolve [] c) := hc
  refine ⟨hd, hD, ⟨w0, hv⟩, ⟨?_, rfl, ?_, ?_, ?_⟩, .of_eq ?_⟩
  iterate 4
    exact ⟨by simp [Atom.vars, Term.vars], by simp [Spec.Atom.consts, Spec.Term.consts, hc'], rfl, trivial, trivial, trivial, rfl⟩
  · have : botCountVarGen y ≠ y := fun h => by
      have := congrArg List.length h
      simp only [botCountVarGen, List.length_cons] at this
      omega
    simp [evalQuery, Query.usesOn, Query.namesOn, Atom.uses, Term.res, suffix, this]

/-- C99: on decision diagrams the program of examples/evaluation.go returns whether the constant tells the first paths apart, with the fewest
features of all that do. -/
theorem C99_evaluation {c : QConst} {y : QVar} (hcr : Correct sv) (hr : Reliable sv) (hd : 0 < d) (hD : IsDiagram d nodes T) {w0 : WalkSt}
    (hw : newNodeAsValuesIter d nodes = .ok w0) (hc : GoodVals d c.val) (hs : Ready d nodes [y] s) :
    ∃ b st' s', evaluation sv c y st s = (.ok b, st', s') ∧
      (b = true ↔ TellsApart d nodes (firstPaths T) (den c.val) ∧
        ∀ e, TellsApart d nodes (firstPaths T) e → numDef d (den c.val) ≤ numDef d e) := by
  have hg := eval_on_good (y := y) hd hD hw hc
  have hn : (evalQuery c y).namesOn d T [] = [y] := by simp [Query.namesOn, evalQuery, suffix]
  obtain ⟨b, st', s', e, h⟩ := C99_sat (st := st) hcr hr hg (hn ▸ hs) true
  refine ⟨b, st', s', e, h.trans ?_⟩
  simp only [Bool.true_eq_false, iff_false, not_exists]
  have hsem : ∀ σ, (evalQuery c y).semOn d nodes T (fun _ => 0) σ [] ↔ ¬ TellsApart d nodes (firstPaths T) (den c.val) ∨
      (TellsApart d nodes (firstPaths T) (σ y) ∧ LEL d (σ y) (den c.val) ∧ ¬ LEL d (den c.val) (σ y)) := by
    intro σ
    simp [evalQuery, Query.semOn, Atom.saysOn, Atom.says, Term.res, suffix, resolve, RTerm.den]
  simp only [hsem, not_or, Classical.not_not]
  have h1 := numDef_add_numBot d (den c.val)
  unfold numDef
  constructor
  · refine fun h => ⟨(h fun _ => bot).1, fun f hf => Nat.not_lt.1 fun hlt => (h fun _ => f).2 ⟨hf, ?_⟩⟩
    have h2 := numDef_add_numBot d f
    unfold LEL
    omega
  · refine fun ⟨h, hl⟩ σ => ⟨h, fun ⟨hD, hL, hN⟩ => ?_⟩
    have h2 := numDef_add_numBot d (σ y)
    have := hl (σ y) hD
    unfold LEL at hL hN
    omega

/-! ### what goes wrong (and concrete cases of the theorems above) -/

theorem exEqual_first : firstPaths exEqualPaths =
    [(0, bot), (1, bot.set 0 false), (3, (bot.set 0 false).set 1 false), (4, (bot.set 0 false).set 1 true), (2, bot.set 0 true)] := rfl

theorem exEqual_apart {e : PInst} : TellsApart 2 exEqual (firstPaths exEqualPaths) e ↔ e 1 ≠ none := by
  rw [exEqual_first]
  constructor
  · intro h
    obtain ⟨i, hi, h1, -, -, h2⟩ := h (3, (bot.set 0 false).set 1 false) (by simp) (4, (bot.set 0 false).set 1 true) (by simp) _ _ rfl rfl rfl rfl rfl rfl
    rcases i with - | - | i
    · exact absurd rfl h2
    · exact h1
    · omega
  · intro h p hp q hq n m hn hm h1 h2 h3 h4
    refine ⟨1, by decide, h, ?_⟩
    simp only [List.mem_cons, List.not_mem_nil, or_false] at hp hq
    rcases hp with rfl | rfl | rfl | rfl | rfl <;> cases Option.some.inj hn <;>
      first
      | exact absurd h1 (by decide)
      | exact absurd h3 (by decide)
      | (rcases hq with rfl | rfl | rfl | rfl | rfl <;> cases Option.some.inj hm <;>
          first
          | exact absurd h2 (by decide)
          | exact absurd h4 (by decide)
          | simp [PInst.set])

theorem exEqual_not_dfs {e : PInst} (h0 : e 0 = none) (h1 : e 1 ≠ none) : ¬ DFS 2 exEqualPaths e := by
  refine fun h => C77_dfs_wrong.2.1 fun e' he' => h e' fun i hi => (he' i hi).trans ?_
  rcases i with - | - | i
  · exact ⟨fun _ => h0, fun _ => rfl⟩
  · exact ⟨fun h => absurd h (by decide), fun h => absurd h h1⟩
  · omega

theorem exEqual_few {e : PInst} (h1 : e 1 ≠ none) (h : numDef 2 e ≤ 1) : e 0 = none := by
  have hc : numDef 2 e = (if (e 0).isSome then 1 else 0) + (if (e 1).isSome then 1 else 0) := by
    unfold numDef countFeats
    cases h0 : e 0 <;> cases h1 : e 1 <;> simp [List.range, List.range.loop, h0, h1]
  cases h0 : e 0 with
  | none => rfl
  | some b =>
    obtain ⟨b', hb⟩ := Option.ne_none_iff_exists'.1 h1
    simp [h0, hb] at hc
    omega

/-- C99: what these computations return need not be sufficient. On the diagram of two equal features both find the second feature alone, whatever
the solver, and the program of examples/evaluation.go says of it that it is a smallest sufficient set. It says that the smallest sufficient
set, that of both features, is none. -/
theorem C99_dfs_wrong (hcr : Correct sv) (hr : Reliable sv) (hg : g v ≠ v) (hs : Ready 2 exEqual [v] s) :
    (∃ o st' s', computeOptim sv (fun _ => (dfsQuery v).comp) (fun _ k => (strictLel g v k).comp) v true 3 st s = (.ok o, st', s') ∧
      o.found = true ∧ den o.value.val 0 = none ∧ den o.value.val 1 ≠ none ∧ ¬ DFS 2 exEqualPaths (den o.value.val)) ∧
    (∃ o st' s', computeOptim sv (fun _ => (dfsQuery v).comp) (fun _ k => (strictSubs v k).comp) v true 3 st s = (.ok o, st', s') ∧
      o.found = true ∧ den o.value.val 0 = none ∧ den o.value.val 1 ≠ none ∧ ¬ DFS 2 exEqualPaths (den o.value.val)) ∧
    (∃ st' s', evaluation sv { val := [BOT, ZERO] } v st s = (.ok true, st', s') ∧ ¬ DFS 2 exEqualPaths (den [BOT, ZERO])) ∧
    ∃ st' s', evaluation sv { val := [ZERO, ZERO] } v st s = (.ok false, st', s') ∧ LeastDFS 2 exEqualPaths (den [ZERO, ZERO]) := by
  have hw : newNodeAsValuesIter 2 exEqual = .ok (WalkSt.init 2 5) := rfl
  have h1 : den [BOT, ZERO] 1 ≠ none := by decide
  refine ⟨?_, ?_, ?_, ?_⟩
  · obtain ⟨o, st', s', e, h2, -, -, h3, h4, -⟩ := C99_least_dfs (st := st) (fuel := 3) hcr hr (by decide) exEqual_diagram hw hg hs (by decide)
    rw [exEqual_apart] at h3
    have h5 := exEqual_few h3 (h4 (den [BOT, ZERO]) (exEqual_apart.2 h1))
    exact ⟨o, st', s', e, h2, h5, h3, exEqual_not_dfs h5 h3⟩
  · obtain ⟨o, st', s', e, h2, -, -, h3, h4, -⟩ := C99_minimal_dfs (st := st) (fuel := 3) hcr hr (by decide) exEqual_diagram hw hs (by decide)
    rw [exEqual_apart] at h3
    have h5 : den o.value.val 0 = none := by
      refine (h4 (fun i => if i = 1 then den o.value.val 1 else none) (exEqual_apart.2 (by simpa using h3)) ?_ 0 (by decide)).symm
      intro i hi hd
      by_cases h : i = 1
      · simp [h]
      · simp [h] at hd
    exact ⟨o, st', s', e, h2, h5, h3, exEqual_not_dfs h5 h3⟩
  · obtain ⟨b, st', s', e, h2⟩ := C99_evaluation (st := st) (c := { val := [BOT, ZERO] }) hcr hr (by decide) exEqual_diagram hw (by decide) hs
    have : b = true := h2.2 ⟨exEqual_apart.2 h1, fun e he => ?_⟩
    · subst this
      exact ⟨st', s', e, exEqual_not_dfs rfl h1⟩
    · have : numDef 2 (den [BOT, ZERO]) = 1 := by decide
      rw [this]
      exact List.countP_pos_iff.2 ⟨1, by simp, by simpa [Option.isSome_iff_ne_none] using exEqual_apart.1 he⟩
  · obtain ⟨b, st', s', e, h2⟩ := C99_evaluation (st := st) (c := { val := [ZERO, ZERO] }) hcr hr (by decide) exEqual_diagram hw (by decide) hs
    have : b = false := by
      cases b with
      | false => rfl
      | true => exact absurd ((h2.1 rfl).2 (den [BOT, ZERO]) (exEqual_apart.2 h1)) (by decide)
    subst this
    refine ⟨st', s', e, full_dfs exEqual_diagram.range (by unfold Full; decide), fun y hy hD => ?_⟩
    have h3 := exEqual_apart.1 (C99_dfs 2 exEqual exEqualPaths exEqual_diagram y hD)
    have h4 : countFeats 2 (fun i => (den [ZERO, ZERO] i).isSome) = 2 := by decide
    exact exEqual_not_dfs (exEqual_few h3 (by unfold numDef; omega)) h3 hD

end Goexpdt.Props

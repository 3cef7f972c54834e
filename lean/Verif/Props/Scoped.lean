import Verif.Props.Ground
import Verif.Props.Ends
import Verif.Lemmas.GroundOptim
/-
Properties C46, C47, C48 and C67 for formulas in which variables are declared several times.
-/
namespace Goexpdt.Props
open Goexpdt Spec

variable {S : Type} {sv : Solver S} {d : Nat} {nodes : List Node} {T : DTree} {v : QVar} {f : Query} {ord : QConst → Query}
  {st st' : S} {s s' : Ctx} {o : OptOutput}

/-- C46 for formulas and orders that meet the conditions of C66. -/
theorem C46_scoped (hc : Correct sv) (h : Explores d nodes T v f ord) (hs : Ready d nodes ((Query.withVar v f).flat d T).names s)
    {tmp : Bool} {fuel : Nat}
    (he : computeOptim sv (fun _ => f.comp) (fun _ k => (ord k).comp) v tmp fuel st s = (.ok o, st', s')) (hf : o.found = true) :
    o.value.val.length = d ∧ ValidVals o.value.val ∧ f.about d T v (den o.value.val) ∧
      ∀ e, f.about d T v e → ¬ (ord { val := o.value.val }).about d T v e := by
  obtain ⟨h1, h2, h3, h4⟩ := C46_optimum hc h.poses hs he hf
  rw [valsOf_den ⟨h1, h2⟩] at h4
  exact ⟨h1, h2, h3, h4⟩

/-- C47 for such formulas and orders, where the temporary file can be created. -/
theorem C47_scoped_partial (hc : Correct sv) (hr : Reliable sv) (h : Explores d nodes T v f ord)
    (hs : Ready d nodes ((Query.withVar v f).flat d T).names s) (fuel : Nat) :
    (∃ o st' s', computeOptim sv (fun _ => f.comp) (fun _ k => (ord k).comp) v true fuel st s = (.ok o, st', s') ∧ o.found = false) ↔
      ¬ (Query.withVar v f).fo d T (fun _ => bot) (fun _ => none) :=
  (C47_absent_partial hc hr h.poses hs fuel).trans not_exists.symm

theorem subs_fits_ground {t1 t2 : Term} {b : List FeatV} {Γ : List QVar} {lv : Levels} (hb : GoodVals d b)
    (h : (t1 = .var v ∧ t2 = .const { val := b }) ∨ (t1 = .const { val := b } ∧ t2 = .var v)) (hv : v ∈ Γ) :
    (Ground.atom (.subs t1 t2) lv []).Fits d nodes T Γ := by
  refine ⟨?_, by rcases h with ⟨rfl, rfl⟩ | ⟨rfl, rfl⟩ <;> simpa [Atom.vars, Term.vars, suffix] using hv⟩
  rcases h with ⟨rfl, rfl⟩ | ⟨rfl, rfl⟩ <;>
  exact ⟨by simp [Atom.vars, Term.vars], by simpa [Spec.Atom.consts, Spec.Term.consts, resolve, GoodVals] using hb, rfl, trivial, trivial,
    trivial, by simp [Atom.onModel]⟩

theorem explores_subs (hg : (Query.withVar v f).Sound d nodes T) (hp : (Query.withVar v f).WellScoped) :
    Explores d nodes T v f (strictSubs v) := by
  have h0 : Levels.declare (fun _ => 0) 0 v = fun _ => 0 := by funext x; simp [Levels.declare]
  have h1 : upd (fun _ : QVar => 0) v 0 = fun _ => 0 := by funext x; simp [upd]
  have hfit : (f.ground d T [] fun _ => 0).Fits d nodes T [v] := by
    have := hg.fits; simpa [Query.flat, Query.ground, h0, suffix, Ground.Fits] using this
  have hflat : ∀ b, (Query.withVar v (.and f (strictSubs v { val := b }))).flat d T = .decl v (.and (f.ground d T [] fun _ => 0)
      (.and (.atom (.subs (.var v) (.const { val := b })) (fun _ => 0) []) (.not (.atom (.subs (.const { val := b }) (.var v)) (fun _ => 0) [])))) := by
    intro b
    simp [Query.flat, Query.ground, h0, suffix, strictSubs, levels_zero, Query.levels]
  refine ⟨hg, hp, fun b hb => ⟨hg.dim, ?_, ?_, ?_⟩, fun b _ => ⟨⟨hp.positive, trivial, rfl⟩, ?_, ?_, ?_, ?_, ?_⟩⟩
  · intro h; exact hg.tree (by simpa [Query.loops, strictSubs] using h)
  · rw [hflat]
    exact ⟨hfit, subs_fits_ground hb (.inl ⟨rfl, rfl⟩) (by simp), subs_fits_ground hb (.inr ⟨rfl, rfl⟩) (by simp)⟩
  · rw [hflat]
    have := hg.clean
    simpa [Query.flat, Query.ground, h0, suffix, Ground.names, Ground.uses, Atom.uses] using this
  · simpa [Query.Closed, strictSubs, Atom.vars, Term.vars] using hp.closed
  · have := hp.lexical
    simp only [Query.Lexical, h0, h1] at this
    simp [Query.Lexical, strictSubs, h0, h1, this, levels_zero]
  · simpa [Query.places, strictSubs] using hp.distinct
  · simpa [Query.binders, strictSubs] using hp.names
  · exact ⟨hp.guards, trivial, trivial⟩

/-- C48, with C46 and C47, for strict subsumption on such formulas: at most `dim + 2` calls, and the result is a minimal instance that
satisfies the formula if there is an instance that does. -/
theorem C48_scoped (hc : Correct sv) (hr : Reliable sv) (hg : (Query.withVar v f).Sound d nodes T) (hq : (Query.withVar v f).WellScoped)
    (hs : Ready d nodes ((Query.withVar v f).flat d T).names s) {fuel : Nat} (hfuel : d < fuel) :
    ∃ o st' s', computeOptim sv (fun _ => f.comp) (fun _ k => (strictSubs v k).comp) v true fuel st s = (.ok o, st', s') ∧
      o.calls ≤ d + 2 ∧ (o.found = true ↔ ∃ e, f.about d T v e) ∧
      (o.found = true → f.about d T v (den o.value.val) ∧
        ∀ e, f.about d T v e → Subsumes d e (den o.value.val) → Subsumes d (den o.value.val) e) := by
  have hE := explores_subs hg hq
  obtain ⟨o, st', s', e, hcl⟩ := C48_rank (st := st) hc hr hE.poses hs (fun b => d - numBot d (den b)) d (fun _ _ _ => by omega) (by
    intro b b' hb hb' _ _ hR
    rw [about_strictSubs] at hR
    rw [valsOf_den hb] at hR
    have := numBot_lt hR.1 hR.2
    have := countFeats_le' d (fun i => (den b' i).isNone)
    simp only [numBot] at *
    omega) hfuel
  refine ⟨o, st', s', e, hcl, ?_, fun hf => ?_⟩
  · have := C47_scoped_partial (st := st) hc hr hE hs fuel
    cases hf : o.found with
    | true => exact ⟨fun _ => ⟨_, (C46_scoped hc hE hs e hf).2.2.1⟩, fun _ => rfl⟩
    | false => simpa [Query.fo, Query.about] using this.1 ⟨o, st', s', e, hf⟩
  · obtain ⟨-, -, h3, h4⟩ := C46_scoped hc hE hs e hf
    refine ⟨h3, fun x hx hsub => ?_⟩
    have := h4 x hx
    rw [about_strictSubs] at this
    exact Classical.byContradiction fun hn => this ⟨hsub, hn⟩

/-- Concrete case: the formula below the first declaration of `shadowQuery`, which declares `x` twice again. The result is a full instance. -/
example (hc : Correct sv) (hr : Reliable sv) : ∃ o st' s', computeOptim sv
    (fun _ => (Query.and (.and (.forallG { id := ['c'] } (.withVar ['x'] (.not (.atom (.full (.var ['x']))))))
      (.forallG { id := ['e'] } (.withVar ['x'] (.atom (.full (.var ['x'])))))) (.atom (.full (.var ['x'])))).comp)
    (fun _ k => (strictSubs ['x'] k).comp) ['x'] true 3 st (BasicQContext 2 exNodes) = (.ok o, st', s') ∧
    o.calls ≤ 4 ∧ o.found = true ∧ Full 2 (den o.value.val) := by
  obtain ⟨o, st', s', e, h1, h2, h3⟩ := C48_scoped (st := st) hc hr shadowQuery_sound shadowQuery_scoped (Ready.fresh_ctx _ _ _)
    (fuel := 3) (by omega)
  have hf : Full 2 (fun _ => some true) := fun i _ => by simp
  have hfound := h2.2 ⟨fun _ => some true, ⟨fun _ _ => ⟨bot, fun h => h 0 (by omega) rfl⟩, fun _ _ => ⟨fun _ => some true, hf⟩⟩, hf⟩
  exact ⟨o, st', s', e, h1, hfound, (h3 hfound).1.2⟩

end Goexpdt.Props

import Verif.Props.Again
import Verif.Props.Scoped
import Verif.Lemmas.OptimUsed
/-
Property C74: `ComputeOptim` on a context that has been used before.
-/
namespace Goexpdt.Props
open Goexpdt Spec

variable {S : Type} {sv : Solver S} {d : Nat} {nodes : List Node} {T : DTree} {v : QVar} {f : Query} {ord : QConst → Query}
  {st st' : S} {s s' : Ctx} {o : OptOutput} {fuel : Nat}

/-- The query `contra` without the quantifier: `x` is above `[0]` and above `[1]`. -/
def contraBody : Query :=
  .and (.atom (.subs (.const ⟨[], [ZERO]⟩) (.var ['x']))) (.atom (.subs (.const ⟨[], [ONE]⟩) (.var ['x'])))

/-- C74: on a context that has been used before, a returned value is a constant of the model's dimension and no instance that satisfies the
formula is better; and if more than two calls of `Step` were made the value satisfies the formula, so that it is an optimum. -/
theorem C74_found (hc : Correct sv) (hk : Careful sv) (ht : Tidy sv) (h : Explores d nodes T v f ord) (hr : Refuses d ord)
    (hs : Reused d nodes ((Query.withVar v f).flat d T).names s)
    (he : computeOptim sv (fun _ => f.comp) (fun _ k => (ord k).comp) v true fuel st s = (.ok o, st', s')) (hf : o.found = true) :
    o.value.val.length = d ∧ ValidVals o.value.val ∧ (∀ e, f.about d T v e → ¬ (ord { val := o.value.val }).about d T v e) ∧
      (2 < o.calls → f.about d T v (den o.value.val)) := by
  obtain ⟨c, s1, e, w, r, p⟩ := C68_permits h.sound ⟨fun _ => id, fun u hu => (h.sound.clean u hu).1⟩ hs
  have h1 := hc (Query.withVar v f).encode st s s1 c e w r.vm
  unfold computeOptim at he
  simp only [Bool.not_true, Bool.false_eq_true, if_false] at he
  rw [show encWithVar v f.comp = (Query.withVar v f).encode from rfl] at he
  rcases hst : sv.step (some (Query.withVar v f).encode) st s with ⟨(_ | _) | ⟨⟩, st1, s2⟩ <;> rw [hst] at h1 he
  · simp only [Prod.mk.injEq, Except.ok.injEq] at he
    rw [← he.1] at hf; simp at hf
  · simp at he
  · rw [← h1.1] at r
    obtain ⟨b, -, hb, hg, hu, hF⟩ := optimLoop_used hc hk ht h hr r he
    rw [hb]
    exact ⟨hg.1, hg.2, hu, fun hcalls => hF (by omega)⟩

/-- C74: so a returned value is an optimum exactly if it satisfies the formula. -/
theorem C74_optimum_iff (hc : Correct sv) (hk : Careful sv) (ht : Tidy sv) (h : Explores d nodes T v f ord) (hr : Refuses d ord)
    (hs : Reused d nodes ((Query.withVar v f).flat d T).names s)
    (he : computeOptim sv (fun _ => f.comp) (fun _ k => (ord k).comp) v true fuel st s = (.ok o, st', s')) (hf : o.found = true) :
    (f.about d T v (den o.value.val) ∧ ∀ e, f.about d T v e → ¬ (ord { val := o.value.val }).about d T v e) ↔
      f.about d T v (den o.value.val) :=
  and_iff_left (C74_found hc hk ht h hr hs he hf).2.2.1

/-- The conditions on the solver hold for the solver that runs an executable, whatever the executable does, … -/
theorem C74_binSolver (env : Nat → Env) : Careful (binSolver env) ∧ Tidy (binSolver env) :=
  ⟨binSolver_careful env, binSolver_tidy env⟩

/-- … and the condition on the order for the strict orders of subsumption and its converse, and the order by the number of defined features. -/
theorem C74_orders (d : Nat) (v : QVar) (g : QVar → QVar) :
    Refuses d (strictSubs v) ∧ Refuses d (strictSups v) ∧ Refuses d (strictLel g v) := by
  refine ⟨?_, ?_, ?_⟩
  · exact fun b hb s hs => and_refuses (q1 := .atom (.subs (.var v) (.const { val := b }))) (q2 := .not _)
      (.inl fun s hs => atom_refuses (by simp [Spec.Atom.consts, Spec.Term.consts]) hb s hs) hs
  · exact fun b hb s hs => and_refuses (q1 := .atom (.subs (.const { val := b }) (.var v))) (q2 := .not _)
      (.inl fun s hs => atom_refuses (by simp [Spec.Atom.consts, Spec.Term.consts]) hb s hs) hs
  · exact fun b hb s hs => and_refuses (q1 := .atom (.lel (.var v) (.const { val := b }) (some g))) (q2 := .not _)
      (.inl fun s hs => atom_refuses (by simp [Spec.Atom.consts, Spec.Term.consts]) hb s hs) hs

/-- Concrete case: the query "there is a full instance" has been evaluated, then a smallest full instance is looked for with the same variable. If
the answer comes after more than two calls then it is a full instance. -/
example {o : OptOutput} {st st' : BinSt} {s' : Ctx} {fuel : Nat}
    (he : computeOptim bruteSolver (fun _ => (Query.atom (.full (.var ['z']))).comp) (fun _ k => (strictSubs ['z'] k).comp) ['z'] true fuel st
      (fullQuery.encode (BasicQContext 2 exNodes)).2 = (.ok o, st', s')) :
    o.found = true ∧ o.value.val.length = 2 ∧ (2 < o.calls → Full 2 (den o.value.val)) := by
  obtain ⟨g1, g2⟩ := C66_generalises fullQuery_good fullQuery_plain
  have hw : fullQuery.Within 2 exTree (fullQuery.flat 2 exTree).names := ⟨fun _ => id, fun u hu => (g1.clean u hu).1⟩
  obtain ⟨c, s1, e, -, r, -⟩ := C68_permits g1 hw (Ready.fresh_ctx 2 exNodes _).reused
  rw [e] at he
  have hf : o.found = true := by
    cases hf : o.found with
    | true => rfl
    | false => exact absurd (fun i _ => by simp [Term.val, upd]) (C68_optim bruteSolver_correct g1 g2 r he hf fun _ => some true)
  obtain ⟨h1, -, -, h4⟩ := C74_found bruteSolver_correct (C74_binSolver _).1 (C74_binSolver _).2 (explores_subs g1 g2) (C74_orders 2 ['z'] id).1 r he hf
  refine ⟨hf, h1, fun h => ?_⟩
  have := h4 h
  simpa [Query.about, Query.fo, Atom.says, Term.val, upd] using this

/-- C74: the number of calls matters. On a context on which a contradictory query has been evaluated, `ComputeOptim` with this query returns, after two
calls, a value which (like every other instance) does not satisfy it. -/
theorem C74_two_calls : ∃ o st' s',
    computeOptim bruteSolver (fun _ => contraBody.comp) (fun _ k => (strictSubs ['x'] k).comp) ['x'] true 3 {} contraCtx = (.ok o, st', s') ∧
      o = ⟨true, { val := [ONE] }, 2⟩ ∧ ∀ e, ¬ contraBody.about 1 T ['x'] e := by
  have h : (computeOptim bruteSolver (fun _ => contraBody.comp) (fun _ k => (strictSubs ['x'] k).comp) ['x'] true 3 {} contraCtx).1.toOption =
      some ⟨true, { val := [ONE] }, 2⟩ := by decide +kernel
  rcases hq : computeOptim bruteSolver (fun _ => contraBody.comp) (fun _ k => (strictSubs ['x'] k).comp) ['x'] true 3 {} contraCtx with ⟨e | o, st', s'⟩ <;>
    rw [hq] at h <;> simp only [Except.toOption, Option.some.injEq, reduceCtorEq] at h
  exact ⟨o, st', s', rfl, h, fun e he => contra_false (T := T) ⟨e, he⟩⟩

end Goexpdt.Props

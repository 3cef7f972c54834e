import Verif.Props.Chain
import Verif.Props.Closest
import Verif.Props.Laws
import Verif.Props.Own
import Verif.Props.Repeats
import Verif.Props.Sole
import Verif.Props.Word
import Verif.Props.Wrapped
/-
Theorems of Props/Word.lean, Wrapped.lean, Chain.lean, Closest.lean, Laws.lean, Own.lean, Repeats.lean and Sole.lean, each applied to a
concrete case that meets its hypotheses.
-/
namespace Goexpdt.Cases
open Goexpdt Spec Props

/-! ### C59–C61 -/

/-- C59_subsumption, which is C59_at_most, C59_at_least and C59_worst_case for one order. -/
example : ∃ (sv : Solver (Nat × Val)) (st : Nat × Val), Correct sv ∧ ∃ o st' s', computeOptim sv (fun _ => (anything 2 ['x']).comp)
    (fun _ k => (strictSubs ['x'] k).comp) ['x'] true 3 st (BasicQContext 2 exNodes) = (.ok o, st', s') ∧ o.calls = 4 := by
  obtain ⟨sv, st, h1, -, h2⟩ := C59_subsumption (d := 2) (nodes := exNodes) (by omega)
  exact ⟨sv, st, h1, h2 3 (by omega)⟩

/-- C60_exponential. -/
example : ∃ (sv : Solver (Nat × Val)) (st : Nat × Val), Correct sv ∧ ∃ o st' s', computeOptim sv (fun _ => (anything 2 ['x']).comp)
    (fun _ k => (strictHepr (allFeatures 2) ['x'] k).comp) ['x'] true 4 st (BasicQContext 2 exNodes) = (.ok o, st', s') ∧ o.calls = 5 := by
  obtain ⟨-, -, -, sv, st, h1, -, -, h2⟩ := C60_exponential (by omega) exNodes_isTree exNodes_covers
  obtain ⟨o, st', s', h3, h4, -⟩ := h2 4 (by decide)
  exact ⟨sv, st, h1, o, st', s', h3, h4⟩

/-- C61_counterfactual, C61_ends_partial, C61_closest_partial and C61_minimal_distance_partial. -/
example : ∃ o st' s', computeOptim bruteSolver (fun _ => (positive ['x']).comp)
      (fun _ k => (strictLeh { val := [ZERO, ZERO] } VarGenHammingDistance ['x'] k).comp) ['x'] true 4 {} (BasicQContext 2 exNodes) = (.ok o, st', s') ∧
    o.found = true ∧ (o.value.val = [ZERO, ONE] ∨ o.value.val = [ONE, ZERO]) ∧ GoodVals 2 o.value.val ∧
    ∀ e, (positive ['x']).about 2 exTree ['x'] e → hamming 2 (den [ZERO, ZERO]) (den o.value.val) ≤ hamming 2 (den [ZERO, ZERO]) e := by
  obtain ⟨o, st', s', h1, h2, -, h3⟩ := C61_counterfactual (st := {}) bruteSolver_correct bruteSolver_reliable
  have hc := C61_closest_partial bruteSolver_correct positive_closest (Ready.fresh_ctx _ _ _) h1 h2
  refine ⟨o, st', s', h1, h2, h3, hc.1, ?_⟩
  exact (C61_minimal_distance_partial bruteSolver_correct positive_closest (by unfold Full; decide)
    (fun e he => by simpa [positive, Query.about, Query.fo, Atom.says, Term.val, upd] using he.1) (Ready.fresh_ctx _ _ _) h1 h2).2
example : ∃ o st' s', computeOptim bruteSolver (fun _ => (positive ['x']).comp)
      (fun _ k => (strictLeh { val := [ZERO, ZERO] } VarGenHammingDistance ['x'] k).comp) ['x'] true 4 {} (BasicQContext 2 exNodes) = (.ok o, st', s') ∧
    o.calls ≤ 5 := by
  obtain ⟨o, st', s', h1, h2, -⟩ := C61_ends_partial (st := {}) bruteSolver_correct bruteSolver_reliable positive_closest
    (Ready.fresh_ctx _ _ _) (fuel := 4) (by omega)
  exact ⟨o, st', s', h1, h2⟩

/-! ### C84, C85 -/

/-- C84_faithful, C84_optimum, C84_library, C84_clauses and C84_every. -/
example : ∃ c s', ownQuery.encode (BasicQContext 2 exNodes) = (.ok c, s') ∧ WF c := by
  obtain ⟨c, s', h1, h2, -⟩ := C84_faithful ownQuery_good (Ready.fresh_ctx _ _ _)
  exact ⟨c, s', h1, h2⟩
example {r : OptOutput} {st' : BinSt} {s' : Ctx} (h : computeOptim bruteSolver (fun _ => some (OQuery.pred equalEnds).encode) (fun _ k => some (ownOrder k).encode)
      ['x'] true 9 {} (BasicQContext 2 exNodes) = (.ok r, st', s')) (hf : r.found = true) : (OQuery.pred equalEnds).about exTree ['x'] (den r.value.val) :=
  (C84_optimum bruteSolver_correct ownOptimises (Ready.fresh_ctx _ _ _) h hf).2.1
example : ((Atom.allcomp (.var ['x']) true (some VarGenNodeReach)).pred 2 exNodes exTree).Meets 2 exNodes :=
  C84_library rfl trivial trivial fun _ => ⟨exNodes_isTree, exNodes_covers⟩
example : ∃ cls, (clausePred [['x'], ['y']] cls).Meets 2 exNodes ∧
    ∀ ρ, (clausePred [['x'], ['y']] cls).says ρ ↔ ¬ Same 2 (ρ (.var ['x'])) (ρ (.var ['y'])) :=
  C84_every [['x'], ['y']] (fun ρ => ¬ Same 2 (ρ ['x']) (ρ ['y'])) fun ρ ρ' h => by
    have h1 := h ['x'] (by simp)
    have h2 := h ['y'] (by simp)
    refine not_congr ⟨fun h i hi => ?_, fun h i hi => ?_⟩
    · rw [← h1 i hi, ← h2 i hi]; exact h i hi
    · rw [h1 i hi, h2 i hi]; exact h i hi

/-- C85_meets, C85_allcomp, C85_once, C85_isnode and C85_sound: the model that decides on a feature twice, and the one that does not. -/
example : ((Atom.isnode (.var ['x']) (some VarGenNodeReach)).rawPred 1 exTwice exTwiceTree).Meets 1 exTwice :=
  C85_meets rfl rfl trivial trivial fun _ => ⟨exTwice_raw, exTwice_covers⟩
example (e : PInst) : (OnlyTo exTwiceTree true e → AllComp 1 exTwiceTree true e) ∧ (EndsWay 1 exTwiceTree e → IsNode 1 exTwiceTree e) :=
  ⟨(C85_allcomp exTwice_raw.range true).1, C85_isnode exTwice_raw.range⟩
example (e : PInst) : OnlyTo exTree true e ↔ AllComp 2 exTree true e := (C85_once exNodes_isTree.range exNodes_isTree.once true).1
example (e : PInst) : (Query.atom (.allcomp (.var ['x']) true (some VarGenNodeReach))).rawFo 1 exTwiceTree (fun _ => e) (fun _ => none) →
    (Query.atom (.allcomp (.var ['x']) true (some VarGenNodeReach))).fo 1 exTwiceTree (fun _ => e) (fun _ => none) :=
  (C85_sound exTwice_raw.range _ _).1 rfl

/-! ### C91 -/

/-- C91_cnfVar, C91_encode, C91_size, C91_step and C91_sat. -/
example : Word.cnfVar (BasicQContext 2 exNodes) ⟨['x'], 0, ONE⟩ = (BasicQContext 2 exNodes).cnfVar ⟨['x'], 0, ONE⟩ :=
  C91_cnfVar _ (by decide) (by decide)
theorem exQuery_topV : (exQuery.encode (BasicQContext 2 exNodes)).2.topV < 2 ^ 63 := by decide +kernel
example : Word.encode exQuery (BasicQContext 2 exNodes) = exQuery.encode (BasicQContext 2 exNodes) := C91_encode _ _ (by decide) exQuery_topV
example : ∃ c s', Word.encode nodeQuery (BasicQContext 2 exNodes) = (.ok c, s') ∧ WF c := by
  obtain ⟨c, s', h1, h2, -⟩ := (C39_faithful nodeQuery_good).2 _ (Ready.fresh_ctx _ _ _)
  exact ⟨c, s', C91_size .new h1 (by decide), h2⟩
example (env : Nat → Env) : (Word.binSolver env).step (Word.comp exQuery) {} (BasicQContext 2 exNodes) =
    (binSolver env).step exQuery.comp {} (BasicQContext 2 exNodes) := C91_step _ _ (by decide) exQuery_topV
example (env : Nat → Env) : Word.atomSat env exQuery true {} (BasicQContext 2 exNodes) = atomSat (binSolver env) exQuery.comp true {} (BasicQContext 2 exNodes) :=
  C91_sat _ _ _ (by decide) exQuery_topV

/-! ### C92, C94 -/

/-- C92_meaning, C92_good, C92_faithful, C92_not and C92_about. -/
example (σ : Asg) : nodeQueryDual.Good 2 exNodes exTree nodeDepth ∧ (nodeQuery.sem 2 exTree nodeDepth σ [] ↔ nodeQueryDual.sem 2 exTree nodeDepth σ []) :=
  ⟨(C92_good nodeQuery_dual).1 nodeQuery_good, C92_meaning nodeQuery_dual σ []⟩
example : ∃ c s' c' t', nodeQuery.encode (BasicQContext 2 exNodes) = (.ok c, s') ∧ nodeQueryDual.encode (BasicQContext 2 exNodes) = (.ok c', t') ∧
    (Satisfiable c ↔ Satisfiable c') := by
  obtain ⟨c, s', c', t', h1, h2, -, -, -, -, h3⟩ := C92_faithful nodeQuery_dual nodeQuery_good (Ready.fresh_ctx _ _ _) (Ready.fresh_ctx _ _ _)
  exact ⟨c, s', c', t', h1, h2, h3⟩
example : ∃ b st1 s1, atomSat bruteSolver (Query.not nodeQuery).comp false {} (BasicQContext 2 exNodes) = (.ok b, st1, s1) ∧
    (b = false ↔ ∀ σ, nodeQuery.sem 2 exTree nodeDepth σ []) :=
  C92_not nodeQuery_good bruteSolver_correct bruteSolver_reliable (Ready.fresh_ctx _ _ _) {}
example (e : PInst) : (testFormula ['x']).about 3 exTree ['x'] e ↔ (Query.and (.not (.atom (.subs (.var ['x']) (.const { val := [BOT, BOT, BOT] }))))
    (.atom (.subs (.var ['x']) (.const { val := [ONE, ONE, ONE] })))).about 3 exTree ['x'] e :=
  C92_about (.andComm _ _) testFormula_good testFormula_plain ⟨⟨rfl, trivial⟩, by decide, by decide, trivial, trivial⟩ e

/-! ### C96 -/

section
open Goexpdt.Errs Goexpdt.Errs.Spec

/-- A predicate of the user's own that never fails. -/
theorem noCondition_quiet : ∀ x ∈ owns (.withVar "x".toList noCondition), Quiet (some x) := by
  intro x hx act e
  cases e
  simp only [owns, noCondition, List.mem_cons, List.not_mem_nil, or_false] at hx
  subst hx
  intro s f s' h
  cases h

/-- C96_quiet, C96_sat_partial, C96_same: the executable was run, and said "satisfiable". -/
example : Quiet (UQuery.withVar "x".toList noCondition).comp := C96_quiet _ noCondition_quiet
example : Said (alwaysYes 0) (UQuery.withVar "x".toList noCondition).comp { dim := 1, nodes := [] } 10 :=
  C96_sat_partial alwaysYes _ noCondition_quiet false true {} _ _ _ rfl
example : Goexpdt.atomSat (Goexpdt.binSolver alwaysYes) (plainComp (UQuery.withVar "x".toList noCondition).comp) true {} { dim := 1, nodes := [] } =
    (plain (Errs.atomSat (Errs.binSolver alwaysYes) (UQuery.withVar "x".toList noCondition).comp true {} { dim := 1, nodes := [] }).1,
      (Errs.atomSat (Errs.binSolver alwaysYes) (UQuery.withVar "x".toList noCondition).comp true {} { dim := 1, nodes := [] }).2) :=
  C96_same alwaysYes _ noCondition_quiet true {} _

/-- C96_sat_library: a query of the library. -/
example : Said (alwaysYes 0) (UQuery.ofQuery (.withVar "x".toList (.atom (.full (.var "x".toList))))).comp { dim := 1, nodes := [] } 10 :=
  C96_sat_library alwaysYes _ false true {} _ _ _ rfl

/-- C96_optim_partial and C96_same_optim: the order is one that nothing satisfies, so that the executable which always says yes leads nowhere. -/
example (env : Nat → Env) (fuel : Nat) (st' : BinSt) (s' : Ctx) (out : OptOutput)
    (h : Errs.computeOptim (Errs.binSolver env) (fun _ => noCondition.comp) (fun _ _ => (UQuery.not noCondition).comp) "x".toList true fuel {}
      { dim := 1, nodes := [] } = (.ok out, st', s')) (hf : out.found = false) :
    Said (env 0) (UQuery.withVar "x".toList noCondition).comp { dim := 1, nodes := [] } 20 :=
  (C96_optim_partial env (fun _ => noCondition) (fun _ _ => .not noCondition) _ noCondition_quiet (fun _ => noCondition_quiet) fuel {} st' _ s' out h).1 hf
example (env : Nat → Env) (fuel : Nat) :
    (Goexpdt.computeOptim (Goexpdt.binSolver env) (fun _ => plainComp noCondition.comp) (fun _ _ => plainComp (UQuery.not noCondition).comp) "x".toList
      true fuel {} { dim := 1, nodes := [] }).1 =
    plain (Errs.computeOptim (Errs.binSolver env) (fun _ => noCondition.comp) (fun _ _ => (UQuery.not noCondition).comp) "x".toList true fuel {}
      { dim := 1, nodes := [] }).1 := by
  rw [C96_same_optim env (fun _ => noCondition) (fun _ _ => .not noCondition) _ noCondition_quiet (fun _ => noCondition_quiet)]

/-- C96_carry and C96_sat_not: a component that passes on the error of a solver. -/
example : ∃ o g, (UQuery.and asking noCondition).comp = some o ∧ o { dim := 1, nodes := [] } = (.error (.err g), { dim := 1, nodes := [] }) ∧ Wraps g :=
  (C96_carry asking noCondition _ _ rfl rfl _ _ _ rfl (.inside _ .self)).2.1
example : ∀ code, ¬ Said (alwaysYes 0) asking.comp { dim := 1, nodes := [] } code :=
  (C96_sat_not alwaysYes asking _ rfl true {} { dim := 1, nodes := [] } _ _ rfl rfl (.inside _ .self)).2

end

end Goexpdt.Cases

import Verif.Props.Again
import Verif.Props.Alias
import Verif.Props.Chain
import Verif.Props.Clash
import Verif.Props.Dimacs
import Verif.Props.Ends
import Verif.Props.Output
import Verif.Props.Shift
import Verif.Props.Succeeds
import Verif.Props.Symmetry
import Verif.Props.TestRun
import Verif.Props.Tidy
import Verif.Props.Values
import Verif.Props.Word
import Verif.Props.IfaceCompute
import Verif.Props.Concurrent
/-
Further theorems whose cases in Props are about consequences of them, each applied to a concrete case that meets its hypotheses.
-/
namespace Goexpdt.Cases
open Goexpdt Spec Props Helpers

/-! ### C06, C08 -/

/-- C06_dimacs_roundtrip. -/
example : ∃ nv : Int, readDimacs exCNF.toBytes = some (nv, 4, [[1, 2], [-1, 3], [2], [-3, 4]]) ∧ nv = exCNF.topV := by
  obtain ⟨nv, h1, h2, -⟩ := C06_dimacs_roundtrip exCNF exCNF_built
  exact ⟨nv, h1, h2⟩

/-- C08_linear_partial and C08_unchanged_partial, for every way of growing slices. -/
example (g : Alias.Grow) : (Alias.run g exLinear).vals.map (Alias.run g exLinear).h.cnf = pureRun exLinear := C08_linear_partial g _ (by decide +kernel)
example (g : Alias.Grow) (v : Alias.HCNF) (hv : (Alias.run g (exLinear.take 7)).vals[6]? = some v) :
    (Alias.run g exLinear).h.cnf v = (Alias.run g (exLinear.take 7)).h.cnf v := by
  have := (C08_unchanged_partial g (exLinear.take 7) (exLinear.drop 7) (by decide +kernel) 6 v hv).2
  rwa [List.take_append_drop] at this

/-! ### C38, C54 -/

/-- C38_names_partial: `[1, 0]` and `[0, 1]` have different names, and so have `[1, 2]` and `[2]`. -/
example : prefVar [1, 0] ≠ prefVar [0, 1] ∧ prefVar [1, 2] ≠ prefVar [2] :=
  ⟨fun h => absurd (C38_names_partial (p := [1, 0]) (p' := [0, 1]) (by decide) (by decide) h) (by decide),
    fun h => absurd (C38_names_partial (p := [1, 2]) (p' := [2]) (by decide) (by decide) h) (by decide)⟩

/-- C54_first_order. -/
example : ∃ c s', bigQuery.encode (BasicQContext 2 exNodes) = (.ok c, s') ∧ (Satisfiable c ↔ bigQuery.fo 2 exTree (fun _ => bot) fun _ => none) :=
  C54_first_order (by omega) exNodes_isTree exNodes_covers C54_test_generators.1 bigQuery_tidy.1 bigQuery_tidy.2.1 bigQuery_tidy.2.2 bigQuery_plain

/-! ### C59, C67 -/

/-- C67_ends: improving sequences have no repetitions, since the search ends for every solver. -/
example : ∃ o st' s', computeOptim bruteSolver (fun _ => (testFormula ['x']).comp) (fun _ k => (strictSubs ['x'] k).comp) ['x'] true 27 {}
    (BasicQContext 3 []) = (.ok o, st', s') ∧ o.calls ≤ 28 :=
  C67_ends bruteSolver_correct bruteSolver_reliable (optimises_subs (T := exTree) testFormula_good testFormula_plain).poses (Ready.fresh_ctx _ _ _)
    (C67_ends_iff (optimises_subs (T := exTree) testFormula_good testFormula_plain).poses (Ready.fresh_ctx _ _ _) |>.1 fun S sv st hc hr => by
      obtain ⟨o, st', s', h, -⟩ := C48_subsumption (T := exTree) (st := st) hc hr testFormula_good testFormula_plain (Ready.fresh_ctx 3 [] _) (fuel := 4) (by omega)
      exact ⟨4, by rw [h]; nofun⟩) (by omega)

/-! ### C62 -/

/-- C62_tree: the query about nodes is valid, so it is encoded. -/
example : Query.Valid 2 [] nodeQuery := by
  obtain ⟨c, s', h, -⟩ := (C39_faithful nodeQuery_good).1
  exact (C62_tree 2 exNodes exTree (by omega) exNodes_isTree exNodes_covers nodeQuery).1 ⟨c, by rw [h]⟩

/-! ### C70, C83 -/

/-- C70_declared_partial and C70_numbers. -/
example (st : BinSt) : (binValues [['y']] st fullYCtx).2 = (st, fullYCtx) := C70_declared_partial _ st fun v hv i hi k hk => by
  have : ∀ v ∈ [['y']], ∀ i < fullYCtx.dim, ∀ k ∈ featVals, (mapGet fullYCtx.vmap ⟨v, (i : Nat), k⟩).isSome = true := by decide +kernel
  exact Option.isSome_iff_exists.1 (this v hv i hi k hk)
example (st : BinSt) : ∃ r s', binValues [['x'], ['y']] st (BasicQContext 2 exNodes) = (r, st, s') ∧ VMok s' := by
  obtain ⟨r, s', h1, h2, -⟩ := C70_numbers [['x'], ['y']] st (VMok.basic 2 exNodes)
  exact ⟨r, s', h1, h2⟩

/-- C83_solves. -/
example : Answers bruteRun := C83_solves bruteRun_solves

/-! ### C79 -/

/-- C79_verdict: the test passes with the code of the solver's answer, and fails with any other. -/
example : encodeAndRun (some none) bruteRun (some fun s => (.ok (FromClauses [[1], [-1]]), s)) 20 (BasicQContext 1 []) = .passed ∧
    ∃ text, encodeAndRun (some none) bruteRun (some fun s => (.ok (FromClauses [[1], [-1]]), s)) 10 (BasicQContext 1 []) = .errorf text := by
  have hw : WF (FromClauses [[1], [-1]]) := .fromClauses (by unfold NonZero; decide)
  have hu : ¬ Satisfiable (FromClauses [[1], [-1]]) := by
    rintro ⟨β, h⟩
    have h1 := h.1 [1] (by decide)
    have h2 := h.1 [-1] (by decide)
    simp [clauseTrue, litTrue] at h1 h2
    simp [h1] at h2
  have h := fun code => C79_verdict (act := fun s => (.ok (FromClauses [[1], [-1]]), s)) (s := BasicQContext 1 []) bruteRun_solves rfl hw code
  exact ⟨((h 20).1).2 (.inr ⟨rfl, hu⟩), (h 10).2 fun hp => by
    rcases ((h 10).1).1 hp with h | h
    · exact hu h.2
    · exact absurd h.1 (by decide)⟩

/-! ### C81 -/

/-- C81_shift and C81_models. -/
example : ∃ c c', (shiftQuery.encode (BasicQContext 2 exNodes)).1 = .ok c ∧ (shiftQuery.encode usedCtx).1 = .ok c' ∧
    (Satisfiable c' ↔ Satisfiable c) := by
  obtain ⟨h1, h2, h3, h4⟩ := usedCtx_apart
  have hu : unnumbered usedCtx = BasicQContext 2 exNodes := by decide +kernel
  have hok : ∃ c, (shiftQuery.encode (BasicQContext 2 exNodes)).1 = .ok c := by
    cases h : (shiftQuery.encode (BasicQContext 2 exNodes)).1 with
    | ok c => exact ⟨c, rfl⟩
    | error e =>
      have : (shiftQuery.encode (BasicQContext 2 exNodes)).1.isOk = true := by decide +kernel
      rw [h] at this
      cases this
  obtain ⟨c, hc⟩ := hok
  obtain ⟨c', e, -, h⟩ := C81_models shiftQuery (t := usedCtx) (by rw [h3]; decide) (c := c) (s' := (shiftQuery.encode (BasicQContext 2 exNodes)).2)
    (by rw [hu, ← hc]) (apartFrom_of h4)
  exact ⟨c, c', hc, e, h⟩

/-! ### C89, C91 -/

/-- C89_binSolver and C89_reliable. -/
example : CorrectIn (Over.binSolver (spacedI ['q', '.'] 3) bruteEnv) (CtxInv 2 exNodes) ctxView 2 :=
  C89_binSolver (C87_other 2 exNodes).1 (fun _ => bruteRun_solves)

/-- C91_out_of_range. -/
example (s : Ctx) : (Word.binValues [['x']] ⟨"v 9223372036854775808 0".toList, 0⟩ s).1 = .error (.msg "strconv.Atoi: value out of range") := by
  refine C91_out_of_range (lits := [9223372036854775808, 0]) ⟨[.vals ' ' [("9223372036854775808".toList, 9223372036854775808), ("0".toList, 0)]],
    by decide +kernel, ?_, rfl⟩ ⟨9223372036854775808, by simp, by decide⟩ _ _
  intro l hl
  rw [List.mem_singleton.1 hl]
  refine ⟨by decide, by simp, fun w hw => (atoi_iff _ _).1 ?_⟩
  simp only [List.mem_cons, List.not_mem_nil, or_false] at hw
  rcases hw with rfl | rfl <;> decide +kernel

/-- C91_test. -/
example : ∃ r st' s', Word.computeOptim (fun _ => ⟨none, some none, bruteRun⟩) (testFormula ['x']) (strictLel VarGenBotCount ['x']) ['x'] true 4 {}
    (BasicQContext 3 []) = (.ok r, st', s') ∧ r.found = true := by
  obtain ⟨r, st', s', h1, h2, -⟩ := C91_test (e := ⟨fun _ => ⟨none, some none, bruteRun⟩, fun _ => true⟩) fun _ => ⟨bruteRun_solves, rfl, rfl, rfl⟩
  exact ⟨r, st', s', h1, h2⟩

/-! ### C93 -/

/-- C93_satisfiable. -/
example : ∃ c s c' s', agreeQuery.encode (BasicQContext 2 exNodes) = (.ok c, s) ∧
    (exSymmetry.query agreeQuery).encode (BasicQContext 2 exNodesOther) = (.ok c', s') ∧ (Satisfiable c ↔ Satisfiable c') := by
  obtain ⟨h1, h2, h3⟩ := agreeQuery_tidy
  exact C93_satisfiable exSymmetry (query_good (by omega) exNodes_isTree exNodes_covers testTags_fine h1 ⟨by decide, .inr (.inl rfl)⟩ h2)
    (C93_good exSymmetry (by omega) exNodesOther_isTree.1 exNodesOther_isTree.2 testTags_fine h1 h2 ⟨by decide, .inr (.inl rfl)⟩) h3

/-- C93_meaning. -/
example (env : QVar → PInst) : (exSymmetry.query agreeQuery).fo 2 (exSymmetry.tree exTree) (fun x => exSymmetry.inst (env x)) (fun _ => none) ↔
    agreeQuery.fo 2 exTree env (fun _ => none) :=
  C93_meaning exSymmetry agreeQuery (by
    intro a ha
    simp only [agreeQuery, Query.atoms, List.mem_append, List.mem_singleton] at ha
    rcases ha with rfl | rfl | rfl
    · trivial
    · trivial
    · exact ⟨by decide, by decide⟩) env (fun _ => none)

/-! ### C90 -/

/-- C90_test: three goroutines that search at the same time. -/
example : ∀ d ps, Execution (fun _ => False) (fun p => if p = ['m', 'y'] then some ['a'] else none)
      ((List.replicate 3 (testGoroutine ⟨fun _ => ⟨none, some none, bruteRun⟩, fun _ => true⟩)).map (·.prog)) d ps → AllDone ps → ps.length = 3 :=
  fun d ps h hd => ((C90_test (fun _ => ⟨bruteRun_solves, rfl, rfl, rfl⟩) 3).2 d ps h hd).2.1

/-! ### C68 -/

/-- C68_or: a disjunction of two conditions on `x` and `z`, on a context that may have been used before; "false" would mean that both are false. -/
example (st : BinSt) {s : Ctx} (hs : Reused 2 exNodes ((shadowQuery.flat 2 exTree).names ++ [['z']]) s) : ∃ st' s',
    orSat [some (atomSat bruteSolver shadowQuery.comp false), some (atomSat bruteSolver fullQuery.comp false)] st s = (.ok true, st', s') := by
  have h1 := C68_atom (names := (shadowQuery.flat 2 exTree).names ++ [['z']]) bruteSolver_correct bruteSolver_reliable shadowQuery_sound
    shadowQuery_scoped ⟨fun n hn => List.mem_append_left _ hn, by decide +kernel⟩ false
  obtain ⟨g1, g2⟩ := C66_generalises fullQuery_good fullQuery_plain
  have h2 := C68_atom (names := (shadowQuery.flat 2 exTree).names ++ [['z']]) bruteSolver_correct bruteSolver_reliable g1 g2
    ⟨by decide +kernel, by decide +kernel⟩ false
  have h := C68_or false [⟨atomSat bruteSolver shadowQuery.comp false, [], [], _⟩, ⟨atomSat bruteSolver fullQuery.comp false, [], [], _⟩] (by
    simp only [List.mem_cons, List.not_mem_nil, or_false, forall_eq_or_imp, forall_eq]
    exact ⟨h1, h2⟩)
  obtain ⟨a, st', s', e, ha, -⟩ := h st s hs
  refine ⟨st', s', ?_⟩
  cases a with
  | true => exact e
  | false =>
    have t2 : fullQuery.fo 2 exTree (fun _ => bot) (fun _ => none) := ⟨fun _ => some true, fun i _ => by simp [Term.val, upd]⟩
    simp [Elem.or, t2] at ha

end Goexpdt.Cases

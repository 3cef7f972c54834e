import Verif.Props.Compute
import Verif.Props.Examples
/-
The theorems of Props/Compute.lean and Props/Examples.lean, each applied to a concrete case that meets its hypotheses. The solver is the
one that runs `bruteRun`, an executable which tries all valuations (Lemmas/Brute.lean).
-/
namespace Goexpdt.Cases
open Goexpdt Spec Props Examples

/-! ### C42–C45 -/

/-- C44_binSolver and C44_reliable. -/
example : Correct (binSolver fun _ => ⟨none, some none, bruteRun⟩) ∧ Reliable (binSolver fun _ => ⟨none, some none, bruteRun⟩) :=
  ⟨C44_binSolver fun _ => bruteRun_solves, C44_reliable (fun _ => bruteRun_solves) (fun _ => rfl) fun _ => rfl⟩

/-- C45_context: an executable that cannot be started. -/
example : (binStep ⟨none, some none, fun _ => .failed "not found"⟩ (some exQuery.encode) {} (BasicQContext 2 exNodes)).2.2 =
    (exQuery.encode (BasicQContext 2 exNodes)).2 :=
  C45_context _ _ _ _ rfl

/-- C42_atom. -/
example (negated : Bool) : ∃ b st' s', atomSat bruteSolver nodeQuery.comp negated {} (BasicQContext 2 exNodes) = (.ok b, st', s') ∧
    (b = true ↔ ((∃ σ, nodeQuery.sem 2 exTree nodeDepth σ []) ↔ negated = false)) := by
  obtain ⟨b, st', s', h1, -, h2⟩ := C42_atom bruteSolver_correct bruteSolver_reliable nodeQuery_good (Ready.fresh_ctx _ _ _) negated {}
  exact ⟨b, st', s', h1, h2⟩

/-- C42_error: a query with a nil child. -/
example : ∃ e st' s', atomSat bruteSolver (Query.not .nil).comp true {} (BasicQContext 2 exNodes) = (.error e, st', s') :=
  ⟨_, _, _, C42_error (sv := bruteSolver) (Query.not .nil).comp true {} _ _ _ _ rfl⟩

/-- C43_values: a disjunction and a conjunction of the atom of a query with its negation. -/
example : ∃ st' s', andSat [some fun st s => (.ok true, st + 1, s), some fun st s => (.ok false, st + 1, s)] 0 (BasicQContext 2 exNodes) =
    (.ok false, st', s') := by
  let t : SatM Nat := fun st s => (.ok true, st + 1, s)
  let f : SatM Nat := fun st s => (.ok false, st + 1, s)
  classical
  have hne : f ≠ t := fun h => by
    have := congrFun (congrFun h 0) (BasicQContext 1 [])
    simp [t, f] at this
  obtain ⟨⟨st', s', h, -⟩, -⟩ := C43_values (fun _ _ => True) (fun g => decide (g = t)) [t, f] (by
    intro g hg st s _
    simp only [List.mem_cons, List.not_mem_nil, or_false] at hg
    rcases hg with rfl | rfl
    · exact ⟨_, _, by rw [decide_eq_true rfl], trivial⟩
    · exact ⟨_, _, by rw [decide_eq_false hne], trivial⟩) 0 (BasicQContext 2 exNodes) trivial
  refine ⟨st', s', ?_⟩
  rw [show [t, f].all (fun g => decide (g = t)) = false by simp [hne]] at h
  exact h

/-- C44_values: after a step that found a model. There is one, for the query is true. -/
example : ∃ st' s', bruteSolver.step (Query.withVar ['x'] (testFormula ['x'])).comp {} (BasicQContext 3 []) = (.ok (), st', s') ∧
    ∃ e ks st'', bruteSolver.values [['x']] st' s' = (.ok ks, st'', s') ∧ ks.map (·.val) = [valsOf 3 e] ∧ Subsumes 3 e (den [ONE, ONE, ONE]) := by
  obtain ⟨b, st1, s1, h1, -, h2⟩ := C42_atom bruteSolver_correct bruteSolver_reliable testFormula_good (Ready.fresh_ctx 3 [] _) false {}
  have ht : ∃ σ, (Query.withVar ['x'] (testFormula ['x'])).sem 3 exTree (fun _ => 0) σ [] :=
    ⟨fun _ => den [ONE, BOT, BOT], by show Subsumes 3 _ _ ∧ ¬ Subsumes 3 _ _; unfold Subsumes; decide⟩
  have hb : b = true := h2.2 ⟨fun _ => rfl, fun _ => ht⟩
  subst hb
  unfold atomSat at h1
  generalize hstep : bruteSolver.step (Query.withVar ['x'] (testFormula ['x'])).comp {} (BasicQContext 3 []) = r at h1
  rcases r with ⟨r, st', s'⟩
  cases r with
  | ok u =>
    obtain ⟨σ, h3, h4⟩ := C44_values bruteSolver_correct testFormula_good (Ready.fresh_ctx 3 [] _) hstep
    obtain ⟨ks, st'', h5, h6, -⟩ := h4 [['x']] (by decide)
    exact ⟨st', s', rfl, σ ['x'], ks, st'', h5, h6, h3.1⟩
  | error x => cases x <;> simp at h1

/-! ### C46–C50 -/

/-- C46_test, C46_optimum, C46_queries, C48_lel and C50_calls: the test of the package. -/
example : ∃ o st' s', computeOptim bruteSolver (fun _ => (testFormula ['x']).comp) (fun _ k => (strictLel VarGenBotCount ['x'] k).comp) ['x'] true 4 {}
      (BasicQContext 3 []) = (.ok o, st', s') ∧ o.found = true ∧ o.calls ≤ 5 ∧ st'.calls = o.calls ∧
    Subsumes 3 (den o.value.val) (den [ONE, ONE, ONE]) ∧
    ∀ e, (testFormula ['x']).about 3 exTree ['x'] e → ¬ (strictLel VarGenBotCount ['x'] { val := o.value.val }).about 3 exTree ['x'] e := by
  obtain ⟨o, st', s', h1, h2, h3, -⟩ := C46_test (st := {}) bruteSolver_correct bruteSolver_reliable
  have hh : Hygienic 3 exTree ((Query.withVar ['x'] (testFormula ['x'])).names 3 exTree [])
      ((VarGenBotCount ['x'], .bots ['x']) :: (Query.withVar ['x'] (testFormula ['x'])).uses 3 exTree (fun _ => 0) []) :=
    .of_eq (by decide)
  have hO := optimises_lel testFormula_good testFormula_plain hh
  have h4 := C46_optimum bruteSolver_correct hO.poses (Ready.fresh_ctx 3 [] _) h1 h2
  have h5 := C46_queries bruteSolver_correct hO (Ready.fresh_ctx 3 [] _) h1 h2
  have h6 := C50_calls (binSolver_counts fun _ => (⟨none, some none, bruteRun⟩ : Env)) h1
  refine ⟨o, st', s', h1, h2, h3, by simpa using h6, ?_, h5.2.2.2⟩
  have := h4.2.2.1
  simp only [testFormula, Query.about, Query.fo, Atom.says, Term.val, upd] at this
  simpa using this.1
example : ∃ o st' s', computeOptim bruteSolver (fun _ => (testFormula ['x']).comp) (fun _ k => (strictLel VarGenBotCount ['x'] k).comp) ['x'] true 4 {}
      (BasicQContext 3 []) = (.ok o, st', s') ∧ o.calls ≤ 5 :=
  C48_lel (g := VarGenBotCount) bruteSolver_correct bruteSolver_reliable testFormula_good testFormula_plain (.of_eq (by decide))
    (Ready.fresh_ctx 3 [] _) (by omega)

/-- C46_errors: a formula whose encoding fails. -/
example : ∃ act st1 s1 st' s', bruteSolver.step (some act) st1 s1 = (.error (.other (.msg "WithVar: Invalid encoding of nil child")), st', s') := by
  have h : (computeOptim bruteSolver (fun _ => none) (fun _ _ => none) ['x'] true 3 {} (BasicQContext 2 [])) =
      (.error (.msg "WithVar: Invalid encoding of nil child"), _, _) := rfl
  rcases C46_errors h nofun with ⟨act, st1, s1, h⟩ | ⟨st1, s1, h⟩ | ⟨st1, s1, s2, -, -, h⟩
  · exact ⟨act, st1, s1, _, _, h⟩
  · exact ⟨_, _, _, _, _, (rfl : bruteSolver.step (some (encWithVar ['x'] none)) {} (BasicQContext 2 []) = _)⟩
  · exact nomatch h

/-- C48_rank: by the number of defined features. C48_strict: the strict order of subsumption. -/
example : ∃ o st' s', computeOptim bruteSolver (fun _ => (testFormula ['x']).comp) (fun _ k => (strictSups ['x'] k).comp) ['x'] true 4 {}
      (BasicQContext 3 []) = (.ok o, st', s') ∧ o.calls ≤ 5 := by
  refine C48_rank bruteSolver_correct bruteSolver_reliable (optimises_sups testFormula_good testFormula_plain).poses (Ready.fresh_ctx 3 [] _)
    (fun b => numBot 3 (den b)) 3 (fun _ _ _ => countFeats_le' _ _) ?_ (by omega)
  intro b b' hb hb' _ _ hR
  rw [about_strictSups, valsOf_den hb] at hR
  exact numBot_lt hR.1 hR.2
example : ∃ o st' s', computeOptim bruteSolver (fun _ => (testFormula ['x']).comp) (fun _ k => (strictSubs ['x'] k).comp) ['x'] true 27 {}
      (BasicQContext 3 []) = (.ok o, st', s') ∧ o.calls ≤ 28 := by
  refine C48_strict bruteSolver_correct bruteSolver_reliable (optimises_subs testFormula_good testFormula_plain).poses (Ready.fresh_ctx 3 [] _) ?_
    (by omega)
  constructor
  · intro b hb _ h
    rw [about_strictSubs, valsOf_den hb] at h
    exact h.2 h.1
  · intro a b c _ hb hc _ _ _ h1 h2
    rw [about_strictSubs, valsOf_den hb] at h1
    rw [about_strictSubs, valsOf_den hc] at h2 ⊢
    have tr : ∀ {e f g : PInst}, Subsumes 3 e f → Subsumes 3 f g → Subsumes 3 e g := by
      intro e f g h h' i hi hv
      have h1 := h i hi hv
      exact h1.trans (h' i hi (h1 ▸ hv))
    exact ⟨tr h1.1 h2.1, fun h => h2.2 (tr h h1.1)⟩

/-- C49_no_minimum: an order that is always true. -/
example (fuel : Nat) : (computeOptim bruteSolver (fun _ => (testFormula ['x']).comp)
    (fun _ k => (Query.atom (.subs (.var ['x']) (.const k))).comp) ['x'] true fuel {} (BasicQContext 3 [])).1 = .error .diverge := by
  have hO : Optimises 3 [] exTree (fun _ => 0) ['x'] (testFormula ['x']) (fun k => .atom (.subs (.var ['x']) (.const k))) := by
    refine ⟨testFormula_good, testFormula_plain, fun b hb => ⟨by omega, ⟨rfl, testFormula_good.fits.2, subs_fits hb (.inl ⟨rfl, rfl⟩)⟩, ?_⟩,
      fun b hb => ⟨⟨testFormula_plain.positive, trivial⟩, by simpa [Query.binders] using testFormula_plain.distinct,
        by simpa [Query.binders] using testFormula_plain.names, testFormula_plain.guards, trivial⟩⟩
    intro u hu
    simp [Query.uses, testFormula, Atom.uses] at hu
  refine C49_no_minimum bruteSolver_correct bruteSolver_reliable hO.poses (Ready.fresh_ctx _ _ _) ?_ ⟨den [ONE, BOT, BOT], ?_⟩ fuel
  · intro b hb hF
    refine ⟨den b, hF, ?_⟩
    rw [valsOf_den hb]
    simp [Query.about, Query.fo, Atom.says, Term.val, upd, Subsumes]
  · simp only [testFormula, Query.about, Query.fo, Atom.says, Term.val, upd]
    unfold Subsumes
    decide

/-! ### C55, C56 -/

/-- C55_example and C55_computation: the program of examples/computation, and the same on another model. -/
example : ∃ o st' s', computationExample bruteSolver true 4 {} = (.ok o, st', s') ∧ o.found = true ∧ o.value.val = [ZERO, BOT, BOT] :=
  C55_example bruteSolver_correct bruteSolver_reliable
example : ∃ o st' s', computation bruteSolver { val := [ONE, ZERO] } ['x'] true 3 {} (BasicQContext 2 exNodes) = (.ok o, st', s') ∧
    o.found = true ∧ MinimalSufficientReason 2 exTree (den [ONE, ZERO]) (den o.value.val) := by
  obtain ⟨o, st', s', h1, h2, -, -, h3⟩ := C55_computation (sv := bruteSolver) (st := {}) (v := ['x']) (c := { val := [ONE, ZERO] }) bruteSolver_correct
    bruteSolver_reliable (by omega) exNodes_isTree exNodes_covers (by decide) (by unfold Full; decide) (Ready.fresh_ctx 2 exNodes _) (fuel := 3)
    (by omega)
  exact ⟨o, st', s', h1, h2, h3⟩

/-- C55_undetermined: the constant is the empty instance, which fixes nothing in this model. -/
example : ∃ o st' s', computation bruteSolver { val := [BOT, ZERO] } ['x'] true 3 {} (BasicQContext 2 exNodes) = (.ok o, st', s') ∧
    o.found = true ∧ Same 2 (den o.value.val) bot :=
  C55_undetermined (sv := bruteSolver) (st := {}) (v := ['x']) (c := { val := [BOT, ZERO] }) bruteSolver_correct
    bruteSolver_reliable (by omega) exNodes_isTree exNodes_covers (by decide) (by
      intro b hb
      have h1 := hb (fun i => i == 0) (by unfold Completes; decide)
      have h2 := hb (fun _ => false) (by unfold Completes; decide)
      rw [← h2] at h1
      exact absurd h1 (by decide)) (Ready.fresh_ctx 2 exNodes _) (fuel := 3)
    (by omega)

/-- C56_example, C56_evaluation, C56_prints, C56_comment_differs and C56_readme. -/
example : ∃ st' s', evaluationExample bruteSolver {} = (.ok true, st', s') := C56_example bruteSolver_correct bruteSolver_reliable
example : ∃ b st' s', evaluation bruteSolver { val := [BOT, ONE] } ['y'] {} (BasicQContext 2 exNodes) = (.ok b, st', s') ∧
    (b = true ↔ LeastDFS 2 exTree (den [BOT, ONE])) :=
  C56_evaluation bruteSolver_correct bruteSolver_reliable (by omega) exNodes_isTree exNodes_covers (by decide) (Ready.fresh_ctx 2 exNodes _)
example : LeastDFS 2 exTree (den [BOT, ONE]) →
    evaluationMain none (fun _ => ⟨none, some none, bruteRun⟩) { val := [BOT, ONE] } ['y'] (BasicQContext 2 exNodes) = .ok "true\n".toList :=
  (C56_prints (c := { val := [BOT, ONE] }) (fun _ => bruteRun_solves) (fun _ => rfl) (fun _ => rfl) (by omega) exNodes_isTree exNodes_covers (by decide)).1
example : ∃ T : DTree, ∃ nodes : List Node, IsTree 2 nodes T ∧ (∃ b, AllComp 2 T b (den [ZERO, BOT])) ∧
    ∃ st' s', evaluation bruteSolver { val := [ZERO, BOT] } ['y'] {} (BasicQContext 2 nodes) = (.ok false, st', s') := by
  obtain ⟨T, nodes, h1, -, h2, -, h3⟩ := C56_comment_differs (st := {}) bruteSolver_correct bruteSolver_reliable
  exact ⟨T, nodes, h1, h2, h3⟩
example : ∃ b st' s', readme bruteSolver {} (BasicQContext 2 exNodes) = (.ok b, st', s') ∧ (b = true ↔ ∃ e, ¬ Full 2 e ∧ AllComp 2 exTree false e) :=
  C56_readme bruteSolver_correct bruteSolver_reliable (by omega) exNodes_isTree exNodes_covers (Ready.fresh_ctx 2 exNodes _)

end Goexpdt.Cases

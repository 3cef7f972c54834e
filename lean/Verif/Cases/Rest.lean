import Verif.Props.Blind
import Verif.Props.Ends
import Verif.Props.Helpers
import Verif.Props.Open
import Verif.Props.OptimUsed
import Verif.Props.Propagate
import Verif.Props.Scoped
import Verif.Props.TestRun
import Verif.Props.Values
import Verif.Props.Shift
/-
Theorems whose cases in Props are about consequences of them, each applied to a concrete case that meets its hypotheses.
-/
namespace Goexpdt.Cases
open Goexpdt Spec Props Helpers

/-! ### C65, C75, C94, C95: `shadowQuery` and `lateQuery` -/

theorem shadow_encodable : shadowQuery.Encodable 2 exNodes exTree := (C75_generalises.1.1 shadowQuery_sound).1

/-- C75_shared: a query in which a variable is declared again inside of a quantifier. -/
example : ∃ c s', shadowQuery.encode (BasicQContext 2 exNodes) = (.ok c, s') ∧ WF c ∧ Ready 2 exNodes [] s' := by
  obtain ⟨c, s', h1, h2, h3, -⟩ := (C75_shared shadow_encodable).1
  exact ⟨c, s', h1, h2, h3⟩

/-- C75_exact, C94_sound. -/
example : ∃ c s', shadowQuery.encode (BasicQContext 2 exNodes) = (.ok c, s') ∧
    Says 2 (shadowQuery.flat 2 exTree).names (fun σ => (shadowQuery.flat 2 exTree).sem 2 exTree σ) s' c := by
  have h2 := C75_generalises.2 shadowQuery_sound
  obtain ⟨c, s', h1, -, h3⟩ := C75_exact shadow_encodable (fun σ _ _ => (h2 σ).2) (Ready.fresh_ctx 2 exNodes _)
  exact ⟨c, s', h1, h3.congr fun σ => ⟨fun h => (h2 σ).1.1 h.1, fun h => ⟨(h2 σ).1.2 h, (h2 σ).2⟩⟩⟩

theorem shadow_measures : shadowQuery.measures = false := by decide

/-- C94_models, C94_unique and C94_reads: two models that give the same instances agree on all variables, and conversely. -/
example : ∃ c s', shadowQuery.encode (BasicQContext 2 exNodes) = (.ok c, s') ∧
    ∀ (β β' : Val) (σ : Asg), Models β c → Models β' c → (∀ n ∈ (shadowQuery.flat 2 exTree).names, Reads 2 s' β n (σ n)) →
      ((∀ n ∈ (shadowQuery.flat 2 exTree).names, Reads 2 s' β' n (σ n)) ↔ SameOn β β' c) := by
  obtain ⟨c, s', e, -⟩ := C94_models shadow_encodable (C94_measures shadow_measures) (Ready.fresh_ctx 2 exNodes _)
  refine ⟨c, s', e, fun β β' σ h h' hσ => ⟨fun hσ' => ?_, fun hs n hn => ?_⟩⟩
  · exact C94_unique shadow_encodable (Ready.fresh_ctx 2 exNodes _) e
      (fun u hu => Role.settled.clear (query_measures shadowQuery [] (fun _ => 0) shadow_measures u hu)) h.2 h'.2 hσ hσ'
  · exact (C94_reads shadow_encodable (Ready.fresh_ctx 2 exNodes _) e h.2 hs).2 n hn _ (hσ n hn)

/-- C95_finds and C95_decides. -/
example : ∃ c s', shadowQuery.encode (BasicQContext 2 exNodes) = (.ok c, s') ∧ ∀ σ,
    (∀ cl ∈ c.sClauses ++ c.cClauses, ∀ l ∈ cl, Forced (c.cClauses ++ given 2 (shadowQuery.flat 2 exTree).names s' σ) l ∨
      Forced (c.cClauses ++ given 2 (shadowQuery.flat 2 exTree).names s' σ) (-l)) ∧
    (Refuted (fixedTo c 2 (shadowQuery.flat 2 exTree).names s' σ) ↔ ¬ (shadowQuery.flat 2 exTree).sem 2 exTree σ) := by
  obtain ⟨c, s', e, -⟩ := (C75_shared shadow_encodable).1
  have hk : ∀ σ, ∀ u ∈ (shadowQuery.flat 2 exTree).emits 2, u.2.clear 2 σ := fun σ u hu =>
    Role.settled.clear (query_measures shadowQuery [] (fun _ => 0) shadow_measures u hu)
  exact ⟨c, s', e, fun σ => ⟨C95_finds shadow_encodable (Ready.fresh_ctx 2 exNodes _) e (hk σ), by
    rw [(C95_decides shadow_encodable (Ready.fresh_ctx 2 exNodes _) e (hk σ)).1, C94_sound shadowQuery_sound]⟩⟩

/-- C65_generalises. -/
example : nodeQuery.Sound 2 exNodes exTree ∧ (nodeQuery.flat 2 exTree).names = nodeQuery.names 2 exTree [] :=
  ⟨(C65_generalises nodeQuery_good).1, (C65_generalises nodeQuery_good).2.1⟩

/-! ### C46, C47, C74, C67 -/

/-- C46_scoped and C47_scoped_partial: a smallest full instance. -/
example : ∃ o st' s', computeOptim bruteSolver (fun _ => (Query.atom (.full (.var ['z']))).comp) (fun _ k => (strictSubs ['z'] k).comp) ['z'] true 3 {}
      (BasicQContext 2 exNodes) = (.ok o, st', s') ∧ o.found = true ∧ GoodVals 2 o.value.val := by
  obtain ⟨g1, g2⟩ := C66_generalises fullQuery_good fullQuery_plain
  obtain ⟨o, st', s', h, -, -⟩ := C48_scoped (st := {}) bruteSolver_correct bruteSolver_reliable g1 g2 (Ready.fresh_ctx 2 exNodes _) (fuel := 3) (by omega)
  have hf : o.found = true := by
    cases hf : o.found with
    | true => rfl
    | false =>
      refine absurd ?_ ((C47_scoped_partial bruteSolver_correct bruteSolver_reliable (explores_subs g1 g2) (Ready.fresh_ctx 2 exNodes _) 3).1
        ⟨o, st', s', h, hf⟩)
      exact ⟨fun _ => some true, fun i _ => by simp [Term.val, upd]⟩
  obtain ⟨h1, h2, -⟩ := C46_scoped bruteSolver_correct (explores_subs g1 g2) (Ready.fresh_ctx 2 exNodes _) h hf
  exact ⟨o, st', s', h, hf, h1, h2⟩

/-- C74_optimum_iff: the same on a context in which the query was encoded before. -/
example {o : OptOutput} {st st' : BinSt} {s' : Ctx} {fuel : Nat}
    (he : computeOptim bruteSolver (fun _ => (Query.atom (.full (.var ['z']))).comp) (fun _ k => (strictSubs ['z'] k).comp) ['z'] true fuel st
      (fullQuery.encode (BasicQContext 2 exNodes)).2 = (.ok o, st', s')) (hf : o.found = true) (hv : Full 2 (den o.value.val)) :
    ∀ e, (Query.atom (.full (.var ['z']))).about 2 exTree ['z'] e → ¬ (strictSubs ['z'] { val := o.value.val }).about 2 exTree ['z'] e := by
  obtain ⟨g1, g2⟩ := C66_generalises fullQuery_good fullQuery_plain
  have hw : fullQuery.Within 2 exTree (fullQuery.flat 2 exTree).names := ⟨fun _ => id, fun u hu => (g1.clean u hu).1⟩
  obtain ⟨c, s1, e, -, r, -⟩ := C68_permits g1 hw (Ready.fresh_ctx 2 exNodes _).reused
  rw [e] at he
  refine ((C74_optimum_iff bruteSolver_correct (C74_binSolver _).1 (C74_binSolver _).2 (explores_subs g1 g2) (C74_orders 2 ['z'] id).1 r he hf).2 ?_).2
  simpa [Query.about, Query.fo, Atom.says, Term.val, upd] using hv

/-- C67_ends_iff: the order "k does not subsume v" has an improving sequence with repetitions. -/
example : ¬ ∀ (S : Type) (sv : Solver S) (st : S), Correct sv → Reliable sv → ∃ fuel,
    (computeOptim sv (fun _ => (anything 1 ['x']).comp) (fun _ k => (Query.not (.atom (.subs (.const k) (.var ['x'])))).comp) ['x'] true fuel st
      (BasicQContext 1 [])).1 ≠ .error .diverge := by
  rw [C67_ends_iff notSubs_optimises.poses (Ready.fresh_ctx _ _ _)]
  intro h
  refine absurd (h [[ONE], [ZERO], [ONE]] ⟨?_, ?_⟩) (by decide)
  · intro b hb
    refine ⟨?_, about_anything⟩
    simp only [List.mem_cons, List.not_mem_nil, or_false] at hb
    rcases hb with rfl | rfl | rfl <;> decide
  · have hR : ∀ e p, (Query.not (.atom (.subs (.const { val := valsOf 1 p }) (.var ['x'])))).about 1 exTree ['x'] e ↔ ¬ Subsumes 1 p e := by
      intro e p
      have h0 := den_valsOf 1 p 0 (by omega)
      simp only [Query.about, Query.fo, Atom.says, Term.val, upd, Option.getD_none, if_true, Subsumes]
      have hi : ∀ i, i < 1 ↔ i = 0 := by omega
      simp only [hi, forall_eq, h0]
    intro i a b ha hb
    rw [hR]
    match i with
    | 0 => cases ha; cases hb; decide
    | 1 => cases ha; cases hb; decide
    | 2 => cases hb
    | i + 3 => cases ha

/-! ### C72, C78, C79, C80 -/

/-- C72_valid and C72_exactly: signs are not distinguished among negative literals. -/
example : Alike [[1, -2]] [[1, -3]] :=
  ((C72_valid [[1, -2]] [] [[1, -3]] [] (by unfold SmallLits; decide)).1 (by decide)).1

/-- C72_accepts and C72_partial. -/
example : equalClauseSlice [[1, -2], [3]] [[3], [1, -2]] = true := C72_accepts _ _ (.swap _ _ _)
example : ¬ ([[1, 2], [3]] : List Clause).Perm [[3], [2, 1]] := fun h =>
  absurd ((C72_partial [[1, 2], [3]] [[3], [2, 1]] (by unfold SmallLits; decide) (by unfold SmallLits; decide) (by decide) (by decide)).2 h) (by decide)

/-- C78_model_free. -/
example (s : Ctx) : (freeQuery.encode { s with nodes := [⟨true, 0, 0, 0⟩] }).1 = (freeQuery.encode s).1 := by
  rw [C78_model_free (q := freeQuery) rfl]

/-- C79_passed: a program that always exits with code 20 makes a test pass. -/
example : ∃ act c, (pinned [] (underTest false (.full (.const { val := [ONE] })))).comp = some act ∧ (act (BasicQContext 1 [])).1 = .ok c := by
  obtain ⟨-, act, c, -, -, h1, h2, -⟩ := C79_passed (create := some none) (run := fun _ => .exited 20 [] [])
    (f := (pinned [] (underTest false (.full (.const { val := [ONE] })))).comp) (code := 20) (s := BasicQContext 1 []) (by decide +kernel)
  exact ⟨act, c, h1, h2⟩

/-- C80_scopes. -/
example : ∃ c s', scopedQuery.encode (openScopes (BasicQContext 2 exNodes) twoScopes) = (.ok c, s') ∧ WF c ∧
    Ready 2 exNodes [['q']] (closeScopes s' 2) := by
  obtain ⟨c, s', h1, h2, -, h3, -⟩ := C80_scopes scopedQuery_good (others := [['q']]) (by decide +kernel) (Ready.fresh_ctx 2 exNodes _)
  have : [['q']].filter (· ∉ scopedQuery.names 2 exTree twoScopes) = [['q']] := by decide
  rw [this] at h3
  exact ⟨c, s', h1, h2, h3⟩

end Goexpdt.Cases

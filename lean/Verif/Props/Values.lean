import Verif.Lemmas.Values
import Verif.Props.Reuse
import Verif.Lemmas.Brute
/-
C70: `Values` and the context.
-/
namespace Goexpdt.Props
open Goexpdt Spec

variable {q : Query}

/-! ### the claim is false -/

/-- C70 fails: after a `Step` with an executable that solves every formula, `Values` on a variable that the context does not
know returns a constant without values and no error, and gives numbers to all triples of the variable. -/
theorem C70_unknown {env : Env} (h : Solves env.run) {s s' : Ctx} (hs : VMok s) {st st' : BinSt}
    (hq : binStep env (some q.encode) st s = (.ok (), st', s')) {v : QVar}
    (hno : ∀ i < s'.dim, ∀ k ∈ featVals, ¬ Named s' ⟨v, (i : Nat), k⟩) :
    ∃ s'', binValues [v] st' s' = (.ok [{ val := [] }], st', s'') ∧ Ext s' s'' ∧
      ∀ i < s'.dim, ∀ k ∈ featVals, Named s'' ⟨v, (i : Nat), k⟩ := by
  rcases he : q.encode s with ⟨e | c, s1⟩
  · have := (C45_step env (some q.encode) st s).1.1 (by rw [hq])
    obtain ⟨act, c, s2, _, _, _, e1, e2, _⟩ := this
    cases e1; rw [he] at e2; cases e2
  · have h1 := q.tame.res s c hs (by rw [he])
    have h2 := q.tame.vm s hs
    rw [he] at h1 h2
    obtain ⟨rfl, β, hp⟩ := binStep_prints h he h1.1 hq
    have h3 := varValue_undeclared h2.1 hp h1.2 hno
    have h4 := varValue_alloc h2.1 st'.output v
    rcases hr : varValueFromBytes st'.output v s' with ⟨r, s2⟩
    rw [hr] at h3 h4
    cases h3
    refine ⟨s2, ?_, h4.ext, fun i hi k hk => (h4.named _).2 (.inr ⟨i, hi, k, hk, rfl⟩)⟩
    unfold binValues binValuesLoop
    rw [M_bind_ok hr]
    rfl

/-- "The only feature of `y` has a value." -/
def fullY : Query := .withVar ['y'] (.atom (.full (.var ['y'])))

/-- The context after the evaluation of `fullY`. -/
def fullYCtx : Ctx := (fullY.encode (BasicQContext 1 [])).2

/-- The context after `Values` for `x`. -/
def valuesCtx : Ctx := (varValueFromBytes [] ['x'] fullYCtx).2

theorem fullY_encode : fullY.encode (BasicQContext 1 []) =
    (.ok ⟨3, [[-3]], [[1, 2, 3], [-1, -2], [-1, -3], [-2, -3]]⟩, fullYCtx) := by decide +kernel

theorem contra_fullY : contra.encode fullYCtx =
    (.ok ⟨6, [[4], [5]], [[4, 5, 6], [-4, -5], [-4, -6], [-5, -6]]⟩, (contra.encode fullYCtx).2) := by decide +kernel

theorem contra_values : contra.encode valuesCtx = (.ok ⟨6, [[5], [6]], []⟩, (contra.encode valuesCtx).2) := by decide +kernel

theorem query_wf {s s' : Ctx} {c : CNF} (hs : VMok s) (e : q.encode s = (.ok c, s')) : WF c ∧ VMok s' := by
  have h1 := q.tame.res s c hs (by rw [e])
  have h2 := q.tame.vm s hs
  rw [e] at h2
  exact ⟨h1.1, h2.1⟩

variable {S : Type} {sv : Solver S}

/-- The step of a solver that never errs nor fails, on a satisfiable CNF. -/
theorem step_sat (hc : Correct sv) (hr : Reliable sv) (st : S) {s s' : Ctx} {c : CNF} (e : q.encode s = (.ok c, s'))
    (hs : VMok s) (h : Satisfiable c) : ∃ st', sv.step (some q.encode) st s = (.ok (), st', s') := by
  obtain ⟨hw, hv⟩ := query_wf hs e
  have h1 := hc q.encode st _ _ _ e hw hv
  have h2 := hr q.encode st _ _ _ e hw hv
  rcases hq : sv.step (some q.encode) st s with ⟨(_ | _) | ⟨⟩, st1, s1⟩ <;> rw [hq] at h1 h2
  · exact absurd h h1.2
  · exact absurd rfl (h2 _)
  · exact ⟨st1, by rw [h1.1]⟩

theorem step_unsat (hc : Correct sv) (hr : Reliable sv) (st : S) {s s' : Ctx} {c : CNF} (e : q.encode s = (.ok c, s'))
    (hs : VMok s) (h : ¬ Satisfiable c) : ∃ st', sv.step (some q.encode) st s = (.error .unsat, st', s') := by
  obtain ⟨hw, hv⟩ := query_wf hs e
  have h1 := hc q.encode st _ _ _ e hw hv
  have h2 := hr q.encode st _ _ _ e hw hv
  rcases hq : sv.step (some q.encode) st s with ⟨(_ | _) | ⟨⟩, st1, s1⟩ <;> rw [hq] at h1 h2
  · exact ⟨st1, by rw [h1.1]⟩
  · exact absurd rfl (h2 _)
  · exact absurd ⟨_, h1.2.choose_spec.1⟩ h

/-- C70 fails: with every executable that solves every formula, `fullY` is found true; evaluating the false query `contra`
next gives false, as it should, but if `Values` for `x` is called in between, this returns no error, and `contra` is found
true. -/
theorem C70_refuted {env : Nat → Env} (h : ∀ k, Solves (env k).run) (ht : ∀ k, (env k).temp = none)
    (hc : ∀ k, (env k).create = some none) (T : DTree) :
    ¬ contra.fo 1 T (fun _ => bot) (fun _ => none) ∧
    ∃ st1 s1 st2 s2 s3 st4 s4, atomSat (binSolver env) fullY.comp false {} (BasicQContext 1 []) = (.ok true, st1, s1) ∧
      atomSat (binSolver env) contra.comp false st1 s1 = (.ok false, st2, s2) ∧
      (binSolver env).values [['x']] st1 s1 = (.ok [{ val := [] }], st1, s3) ∧
      atomSat (binSolver env) contra.comp false st1 s3 = (.ok true, st4, s4) := by
  refine ⟨contra_false, ?_⟩
  have hcor := binSolver_correct h
  have hrel := binSolver_reliable h ht hc
  have hvm := (Ready.fresh_ctx 1 [] []).vm
  have hv1 : VMok fullYCtx := (query_wf hvm fullY_encode).2
  obtain ⟨st1, e1⟩ := step_sat hcor hrel {} fullY_encode hvm
    ⟨fun n => decide (n = 1), by constructor <;> simp [SemTrue, ConTrue, clausesTrue, clauseTrue, litTrue]⟩
  obtain ⟨st2, e2⟩ := step_unsat hcor hrel st1 contra_fullY hv1 (by
    rintro ⟨β, h1, h2⟩
    simp [SemTrue, ConTrue, clausesTrue, clauseTrue, litTrue] at h1 h2
    simp [h1] at h2)
  obtain ⟨s3, e3, -, -⟩ := C70_unknown (q := fullY) (h 0) hvm e1 (v := ['x']) (by
    intro i hi k hk
    have hi : i < 1 := hi
    obtain rfl : i = 0 := by omega
    rintro ⟨n, hn⟩
    revert hn
    simp only [featVals, List.mem_cons, List.not_mem_nil, or_false] at hk
    rcases hk with rfl | rfl | rfl
    · rw [show mapGet fullYCtx.vmap ⟨['x'], ((0 : Nat) : Int), BOT⟩ = none from by decide +kernel]; simp
    · rw [show mapGet fullYCtx.vmap ⟨['x'], ((0 : Nat) : Int), ZERO⟩ = none from by decide +kernel]; simp
    · rw [show mapGet fullYCtx.vmap ⟨['x'], ((0 : Nat) : Int), ONE⟩ = none from by decide +kernel]; simp)
  have h3 : s3 = valuesCtx := by
    have ha : (binValues [['x']] st1 fullYCtx).2.2 = s3 := by rw [e3]
    have hb := varValue_ctx hv1 st1.output ['x']
    have hc := varValue_ctx hv1 [] ['x']
    rw [← ha]
    show (binValuesLoop st1.output [['x']] fullYCtx).2 = (varValueFromBytes [] ['x'] fullYCtx).2
    rw [hc, ← hb]
    unfold binValuesLoop
    rcases hr : varValueFromBytes st1.output ['x'] fullYCtx with ⟨e | c, s⟩
    · rw [M_bind_error hr]
    · rw [M_bind_ok hr]; rfl
  subst h3
  have hv3 : VMok valuesCtx := (varValue_alloc hv1 [] ['x']).ok
  obtain ⟨st4, e4⟩ := step_sat hcor hrel st1 contra_values hv3
    ⟨fun _ => true, by constructor <;> simp [SemTrue, ConTrue, clausesTrue, clauseTrue, litTrue]⟩
  refine ⟨st1, fullYCtx, st2, (contra.encode fullYCtx).2, valuesCtx, st4, (contra.encode valuesCtx).2, ?_, ?_, e3, ?_⟩
  · unfold atomSat; rw [show fullY.comp = some fullY.encode from rfl, e1]; rfl
  · unfold atomSat; rw [contra_comp, e2]
  · unfold atomSat; rw [contra_comp, e4]; rfl

/-- Concrete case: the executable that tries all valuations. -/
example : ∃ st1 s1 s3, atomSat bruteSolver fullY.comp false {} (BasicQContext 1 []) = (.ok true, st1, s1) ∧
    bruteSolver.values [['x']] st1 s1 = (.ok [{ val := [] }], st1, s3) := by
  obtain ⟨-, st1, s1, -, -, s3, -, -, h1, -, h2, -⟩ := C70_refuted (env := fun _ => ⟨none, some none, bruteRun⟩)
    (fun _ => bruteRun_solves) (fun _ => rfl) (fun _ => rfl) (.leaf 0 true)
  exact ⟨st1, s1, s3, h1, h2⟩

/-! ### what does hold -/

/-- C70 for declared variables: whatever the recorded output (also one that is not in the format, or none), `Values` changes
neither the context nor the solver, if the context has numbers for all triples of the variables. Missing from the claim:
variables without numbers, for which it is false (see above). -/
theorem C70_declared_partial (vs : List QVar) (st : BinSt) {s : Ctx}
    (h : ∀ v ∈ vs, ∀ i < s.dim, ∀ k ∈ featVals, Named s ⟨v, (i : Nat), k⟩) : (binValues vs st s).2 = (st, s) := by
  have := binValuesLoop_state st.output vs h
  unfold binValues
  rcases hr : binValuesLoop st.output vs s with ⟨r, s'⟩
  rw [hr] at this
  rw [show s' = s from this]

/-- C70 for all variables: whatever the recorded output, `Values` does not change the solver, keeps all numbers of the
context, its scopes, variables, dimension and nodes, and gives new numbers to triples of the given variables only. If it
returns no error, afterwards all triples of the given variables have numbers. -/
theorem C70_numbers (vs : List QVar) (st : BinSt) {s : Ctx} (hs : VMok s) :
    ∃ r s', binValues vs st s = (r, st, s') ∧ VMok s' ∧ Ext s s' ∧
      s'.scopes = s.scopes ∧ s'.vars = s.vars ∧ s'.dim = s.dim ∧ s'.nodes = s.nodes ∧
      (∀ vr, Named s' vr → ¬ Named s vr → ∃ v ∈ vs, ∃ i < s.dim, ∃ k ∈ featVals, vr = ⟨v, (i : Nat), k⟩) ∧
      ∀ cs, r = .ok cs → ∀ v ∈ vs, ∀ i < s.dim, ∀ k ∈ featVals, Named s' ⟨v, (i : Nat), k⟩ := by
  obtain ⟨p, h1, h2, h3⟩ := binValuesLoop_alloc st.output vs hs
  rcases hr : binValuesLoop st.output vs s with ⟨r, s'⟩
  rw [hr] at h1 h3
  refine ⟨r, s', by unfold binValues; rw [hr], h1.ok, h1.ext, h1.keeps.scopes, h1.keeps.vars, h1.keeps.dim, h1.keeps.nodes,
    fun vr hn hno => h2 vr (((h1.named vr).1 hn).resolve_left hno), fun cs hcs v hv i hi k hk =>
    (h1.named _).2 (.inr (h3 cs hcs v hv i hi k hk))⟩

/-- Concrete cases: a declared and an undeclared variable. -/
example : (binValues [['y']] ⟨"v 1 -2 -3".toList, 1⟩ fullYCtx).1 = .ok [{ val := [ZERO] }] ∧
    (binValues [['y']] ⟨"v 1 -2 -3".toList, 1⟩ fullYCtx).2.2 = fullYCtx ∧
    (binValues [['y'], ['x']] ⟨"v 1 -2 -3".toList, 1⟩ fullYCtx).1 = .ok [{ val := [ZERO] }, { val := [] }] ∧
    (binValues [['y'], ['x']] ⟨"v 1 -2 -3".toList, 1⟩ fullYCtx).2.2.topv = 6 := by
  refine ⟨?_, ?_, ?_, ?_⟩ <;> decide +kernel

end Goexpdt.Props

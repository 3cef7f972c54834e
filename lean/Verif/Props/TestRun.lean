import Verif.Lemmas.TestRun
import Verif.Lemmas.SolverBin
import Verif.Lemmas.Brute
import Verif.Props.Meaning
import Verif.Model.Gen
/-
Property C79: what the table tests of the repository check.
-/
namespace Goexpdt.Props
open Goexpdt Spec Helpers

variable {d : Nat} {nodes : List Node} {T : DTree} {depth : QVar → Nat} {q : Query}

/-- C79: in every environment, a test that passes has encoded its formula, has written all of its CNF, has run the solver on it, and
the solver has ended with the expected code, which is 10 or 20. -/
theorem C79_passed {create : Option (Option (Nat × Nat))} {run : List Char → Run} {f : Comp} {code : Int} {s : Ctx}
    (h : encodeAndRun create run f code s = .passed) :
    (code = 10 ∨ code = 20) ∧ ∃ act c out err, f = some act ∧ (act s).1 = .ok c ∧ run c.toBytes = .exited code out err := by
  unfold encodeAndRun at h
  cases f with
  | none => cases h
  | some act =>
    simp only at h
    cases ha : (act s).1 with
    | error e => rw [ha] at h; cases e <;> cases h
    | ok c =>
      rw [ha] at h
      simp only at h
      rcases ht : c.toFile create with ⟨ok, file⟩
      rw [ht] at h
      match ok, file with
      | false, _ => cases h
      | true, none => cases h
      | true, some file =>
        simp only [toFile_content ht] at h
        unfold runFormulaTest testRunSolver at h
        cases hr : run c.toBytes with
        | failed msg => rw [hr] at h; cases h
        | exited ec out err =>
          rw [hr] at h
          simp only at h
          by_cases h0 : ec = 0
          · simp [h0] at h
          · by_cases h1 : ec ≠ 10 ∧ ec ≠ 20
            · simp [h0, h1] at h
            · simp only [h0, h1, if_false] at h
              by_cases h2 : ec = code
              · subst h2
                exact ⟨by omega, act, c, out, err, rfl, ha, hr⟩
              · simp [h2] at h

/-- C79, complaints: a formula that cannot be encoded, a solver that cannot be run or ends with another code than 10 and 20 end the test with a
message that contains the error, or what the solver has printed to its error stream; an unexpected answer is reported with both codes. -/
theorem C79_complaints {run : List Char → Run} {act : M CNF} {s : Ctx} {code : Int} :
    (∀ m, (act s).1 = .error (.msg m) → ∀ create, encodeAndRun create run (some act) code s = .fatal ("Formula encoding error: " ++ m)) ∧
    ∀ c, (act s).1 = .ok c →
      (∀ m, run c.toBytes = .failed m → encodeAndRun (some none) run (some act) code s = .fatal ("Solver exec error: " ++ m)) ∧
      (∀ ec out err, run c.toBytes = .exited ec out err → ec ≠ 0 → ec ≠ 10 → ec ≠ 20 →
        encodeAndRun (some none) run (some act) code s = .fatal ("Solver exec error: " ++ String.ofList err)) ∧
      (∀ out err, run c.toBytes = .exited 0 out err →
        encodeAndRun (some none) run (some act) code s = .fatal "Solver exec error: Solver exit code could not be recovered") ∧
      (∀ ec out err, run c.toBytes = .exited ec out err → ec = 10 ∨ ec = 20 → ec ≠ code →
        encodeAndRun (some none) run (some act) code s = .errorf s!"Wrong answer. Expected exit code {code} but got {ec}") := by
  refine ⟨fun m h create => by simp [encodeAndRun, h], fun c hc => ?_⟩
  obtain ⟨_, -, -, -, -, ⟨f, hf, hf'⟩, -⟩ := C07_toFile c
  unfold encodeAndRun
  simp only [hc, hf, hf']
  refine ⟨fun m h => by simp [h, runFormulaTest, testRunSolver], fun ec out err h h0 h1 h2 => by simp [h, runFormulaTest, testRunSolver, h0, h1, h2],
    fun out err h => by simp [h, runFormulaTest, testRunSolver], fun ec out err h h1 h2 => ?_⟩
  rcases h1 with rfl | rfl <;> simp [h, runFormulaTest, testRunSolver, h2]

/-- Concrete case: a program that is not a solver and complains. -/
example : encodeAndRun (some none) (fun _ => .exited 1 [] ['?']) (some (pure TrueCNF)) 10 (BasicQContext 2 []) =
    .fatal "Solver exec error: ?" := ((C79_complaints.2 _ rfl).2.1 1 [] ['?'] rfl (by decide) (by decide) (by decide))

/-- C79: with a right solver, and if the file can be written, a test of a well-formed CNF passes exactly if it expects 10 and the CNF
is satisfiable or expects 20 and it is not; otherwise it reports a wrong answer. -/
theorem C79_verdict {run : List Char → Run} (hr : Solves run) {act : M CNF} {s : Ctx} {c : CNF} (ha : (act s).1 = .ok c) (hw : WF c)
    (code : Int) :
    (encodeAndRun (some none) run (some act) code s = .passed ↔ (code = 10 ∧ Satisfiable c) ∨ (code = 20 ∧ ¬ Satisfiable c)) ∧
    (encodeAndRun (some none) run (some act) code s ≠ .passed → ∃ text, encodeAndRun (some none) run (some act) code s = .errorf text) := by
  obtain ⟨_, -, -, -, -, ⟨f, hf, hf'⟩, -⟩ := C07_toFile c
  unfold encodeAndRun
  simp only [ha, hf, hf']
  rcases solves_bytes hr hw with ⟨out, err, β, h1, h2, -⟩ | ⟨out, err, h1, h2⟩
  · have hs : Satisfiable c := ⟨β, h2⟩
    rw [h1]
    by_cases hc : code = 10
    · subst hc
      simp [runFormulaTest, testRunSolver, hs]
    · simp [runFormulaTest, testRunSolver, hs, hc, Ne.symm hc]
  · rw [h1]
    by_cases hc : code = 20
    · subst hc
      simp [runFormulaTest, testRunSolver, h2]
    · simp [runFormulaTest, testRunSolver, h2, hc, Ne.symm hc]

/-- C79: a table test with variables pinned to constants, in a context with any scopes open, passes exactly if it expects what the
predicate, or its negation, says about the constants: 10 if that is true and 20 if it is not. -/
theorem C79_pinned {run : List Char → Run} (hr : Solves run) {stack : List Scope} {ps : List (QVar × QConst)} {a : Atom} (hd : 0 < d)
    (hn : (ps.map (·.1)).Nodup) (hc : ∀ p ∈ ps, (resolve stack p.2).length = d ∧ ValidVals (resolve stack p.2))
    (ha : a.Fits d nodes T (ps.map (·.1)) stack)
    (hh : Hygienic d T (ps.map (·.1 ++ suffix stack)) (a.uses (fun _ => stack.length) stack))
    {s : Ctx} (hs : ReadyIn d nodes stack (ps.map (·.1 ++ suffix stack)) s) (neg : Bool) (code : Int) :
    encodeAndRun (some none) run (pinned ps (underTest neg a)).comp code s = .passed ↔
      (code = 10 ∧ (a.says d T (Term.pinned stack ps) ↔ neg = false)) ∨
      (code = 20 ∧ (a.says d T (Term.pinned stack ps) ↔ neg = true)) := by
  have hf : (underTest neg a).Fits d nodes T (atLen stack) ((ps.map (·.1)).reverse ++ []) stack := by
    have := Fits.perm ha (Γ' := (ps.map (·.1)).reverse ++ []) fun x hx => by simpa using hx
    cases neg <;> exact this
  have hu : (underTest neg a).uses d T (atLen stack) stack = a.uses (atLen stack) stack := by cases neg <;> rfl
  have hm : (underTest neg a).names d T stack = [] := by cases neg <;> rfl
  have hnames : (pinned ps (underTest neg a)).names d T stack = ps.map (·.1 ++ suffix stack) := by
    unfold pinned
    rw [decl_names _ (by rw [pinBody_names, hm]), List.map_map]
    rfl
  have hg : (pinned ps (underTest neg a)).GoodIn d nodes T (atLen stack) stack := by
    refine ⟨hd, decl_fits _ _ _ (pinBody_fits hf ps fun p hp => ⟨by simpa using ⟨p.2, hp⟩, hc p hp⟩), ?_⟩
    rw [hnames]
    unfold pinned
    rw [decl_uses, pinBody_uses, hu]
    exact hh
  obtain ⟨c, s', e, hw, -, -, -, hF⟩ := open_query hg (others := []) (by simp) (s := s) (by rw [hnames, List.append_nil]; exact hs)
  obtain ⟨act, hact⟩ : ∃ act, (pinned ps (underTest neg a)).comp = some act := by
    cases hq : (pinned ps (underTest neg a)).comp with
    | none => simp [Query.encode, hq, M.throw] at e
    | some act => exact ⟨act, rfl⟩
  have e' : act s = (.ok c, s') := by simpa [Query.encode, hact] using e
  rw [hact, (C79_verdict hr (s := s) (by rw [e']) hw code).1]
  have ht : (fun t : Term => (t.res (atLen stack) stack).den (pinAsg stack ps)) = Term.pinned stack ps := by
    funext t
    cases t with
    | const k => rfl
    | var x => simp [Term.res, RTerm.den, Term.pinned, pinAsg_name]
  have key : Satisfiable c ↔ (underTest neg a).sem d T (atLen stack) (pinAsg stack ps) stack := by
    rw [hF.sat]
    simp only [pinned, decl_sem, pinBody_sem]
    constructor
    · rintro ⟨σ, h1, h2⟩
      have hσ : a.says d T (fun t => (t.res (atLen stack) stack).den σ) ↔
          a.says d T fun t => (t.res (atLen stack) stack).den (pinAsg stack ps) := by
        refine says_congr ha.pref fun t ht => ?_
        cases t with
        | const k => exact fun _ _ => rfl
        | var x =>
          obtain ⟨p, hp, rfl⟩ := List.mem_map.1 (ha.vars x (mem_terms_var ht))
          simp only [Term.res, RTerm.den, List.take_length, pinAsg_name]
          rw [pinVal_of_mem hn hp]
          exact h1 p hp
      cases neg with
      | false => exact hσ.1 h2
      | true => exact fun h => h2 (hσ.2 h)
    · intro h
      exact ⟨_, fun p hp => by rw [pinAsg_name, pinVal_of_mem hn hp]; exact fun _ _ => rfl, h⟩
  rw [key]
  cases neg with
  | false => simp [underTest, Query.sem, ht]
  | true => simp [underTest, Query.sem, ht]

/-- The context of query/predicates/lel/var_const_test.go:47-55: the constant `y` is that of a scope. -/
def guardedCtx (d : Nat) (y : List Char) (v : List FeatV) : Ctx := (((BasicQContext d []).addScope y).setScope 1 v).2

theorem guardedCtx_ready (d : Nat) (y : List Char) (v : List FeatV) (names : List QVar) :
    ReadyIn d [] [{ target := y, vIdx := 1, value := v }] names (guardedCtx d y v) := ReadyIn.fresh_ctx d [] [{ target := y, vIdx := 1, value := v }] names

/-- C79: every row that query/predicates/lel/var_const_test.go:43-74 can be given: the test passes exactly if the row is right. -/
theorem C79_lel_rows {run : List Char → Run} (hr : Solves run) (hd : 0 < d) {v1 v2 : List FeatV}
    (h1 : v1.length = d ∧ ValidVals v1) (h2 : v2.length = d ∧ ValidVals v2) (neg : Bool) (code : Int) :
    encodeAndRun (some none) run (pinned [(['x'], { val := v1 })]
        (underTest neg (.lel (.var ['x']) (.const { id := ['y'] }) (some VarGenBotCount)))).comp code (guardedCtx d ['y'] v2) = .passed ↔
      (code = 10 ∧ (LEL d (den v1) (den v2) ↔ neg = false)) ∨ (code = 20 ∧ (LEL d (den v1) (den v2) ↔ neg = true)) := by
  have e1 : resolve [{ target := ['y'], vIdx := 1, value := v2 }] { val := v1 } = v1 := rfl
  have e2 : resolve [{ target := ['y'], vIdx := 1, value := v2 }] { id := ['y'] } = v2 := rfl
  refine C79_pinned hr (T := .leaf 0 true) (stack := [{ target := ['y'], vIdx := 1, value := v2 }]) hd (by simp) (by simpa [e1] using h1) ?_ ?_
    (guardedCtx_ready ..) neg code
  · refine ⟨by simp [Atom.vars, Term.vars], ?_, rfl, trivial, trivial, trivial, by simp [Atom.onModel]⟩
    simpa [Spec.Atom.consts, Spec.Term.consts, e2] using h2
  · refine Hygienic.of_eq ?_
    simp [Atom.uses, Term.res, VarGenBotCount, suffix]

/-- There is a right solver, and rows of both kinds. -/
example : encodeAndRun (some none) bruteRun (pinned [(['x'], { val := [BOT, ONE] })]
      (underTest false (.lel (.var ['x']) (.const { id := ['y'] }) (some VarGenBotCount)))).comp 10 (guardedCtx 2 ['y'] [ZERO, ONE]) =
      .passed ∧
    encodeAndRun (some none) bruteRun (pinned [(['x'], { val := [ZERO, ONE] })]
      (underTest true (.lel (.var ['x']) (.const { id := ['y'] }) (some VarGenBotCount)))).comp 10 (guardedCtx 2 ['y'] [BOT, ONE]) =
      .passed ∧
    encodeAndRun (some none) bruteRun (pinned [(['x'], { val := [ZERO, ONE] })]
      (underTest false (.lel (.var ['x']) (.const { id := ['y'] }) (some VarGenBotCount)))).comp 10 (guardedCtx 2 ['y'] [BOT, ONE]) ≠
      .passed := by
  have g : ∀ v ∈ [[BOT, ONE], [ZERO, ONE]], v.length = 2 ∧ ValidVals v := by simp [ValidVals, ZERO, ONE, BOT]
  have h1 : LEL 2 (den [BOT, ONE]) (den [ZERO, ONE]) := by unfold LEL; decide
  have h2 : ¬ LEL 2 (den [ZERO, ONE]) (den [BOT, ONE]) := by unfold LEL; decide
  refine ⟨?_, ?_, ?_⟩
  · rw [C79_lel_rows bruteRun_solves (by omega) (g _ (by simp)) (g _ (by simp))]
    simp [h1]
  · rw [C79_lel_rows bruteRun_solves (by omega) (g _ (by simp)) (g _ (by simp))]
    simp [h2]
  · rw [Ne, C79_lel_rows bruteRun_solves (by omega) (g _ (by simp)) (g _ (by simp))]
    simp [h2]

/-- A test with two variables and no scopes: query/predicates/subsumption/var_var_test.go:12-46. -/
example (run : List Char → Run) (hr : Solves run) (v1 v2 : List FeatV) (h1 : v1.length = 3 ∧ ValidVals v1)
    (h2 : v2.length = 3 ∧ ValidVals v2) :
    encodeAndRun (some none) run (pinned [(['x'], { val := v1 }), (['y'], { val := v2 })]
      (underTest false (.subs (.var ['x']) (.var ['y'])))).comp 20 (BasicQContext 3 []) = .passed ↔ ¬ Subsumes 3 (den v1) (den v2) := by
  have hf : (Atom.subs (.var ['x']) (.var ['y'])).Fits 3 [] (.leaf 0 true) [['x'], ['y']] [] :=
    ⟨by simp [Atom.vars, Term.vars], by simp [Spec.Atom.consts, Spec.Term.consts], rfl, trivial, trivial, trivial, by simp [Atom.onModel]⟩
  rw [C79_pinned (s := BasicQContext 3 []) (ps := [(['x'], { val := v1 }), (['y'], { val := v2 })]) hr (by omega) (by simp)
    (by simpa [resolve] using ⟨h1, h2⟩) hf (by intro u hu; simp [Atom.uses] at hu) (ReadyIn.fresh_ctx 3 [] [] _)]
  simp [Atom.says, Term.pinned, pinVal, resolve]

/-- What the solver prints is not looked at: a solver that fails ends the test, one that answers wrongly makes a wrong test pass. -/
example : encodeAndRun (some none) (fun _ => .failed "no such file") (pinned [] (underTest false (.full (.const { val := [ONE] })))).comp 10
      (BasicQContext 1 []) = .fatal "Solver exec error: no such file" ∧
    encodeAndRun (some none) (fun _ => .exited 20 [] []) (pinned [] (underTest false (.full (.const { val := [ONE] })))).comp 20
      (BasicQContext 1 []) = .passed := by decide +kernel

end Goexpdt.Props

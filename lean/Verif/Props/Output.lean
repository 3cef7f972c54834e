import Verif.Lemmas.Output
import Verif.Props.Reuse
/- C83: which outputs of SAT solvers are understood, and what has to be printed. -/
namespace Goexpdt.Props
open Spec

/-! ### the format -/

/-- C83: `Values` on an output: it succeeds exactly if every line that begins with `v` goes on with a character and numerals that are separated
by single spaces; … -/
theorem C83_format {vs : List QVar} (hne : vs ≠ []) {st : BinSt} {s : Ctx} (hv : VMok s) :
    (∃ ks, (binValues vs st s).1 = .ok ks) ↔ ∃ lits, Reports lits st.output := by
  have e : (binValues vs st s).1 = (binValuesLoop st.output vs s).1 := by unfold binValues; rfl
  rw [e]
  constructor
  · rintro ⟨ks, h⟩
    rcases scan_cases st.output with h1 | h1 | h1
    · exact h1
    · rw [loop_error (fun vf => scan_bare vf h1) hne hv] at h; cases h
    · rw [loop_error h1 hne hv] at h; cases h
  · rintro ⟨lits, h⟩
    exact loop_ok h vs hv

/-- … it panics exactly if the first line that is wrong is `v` alone, and the error of `strconv.Atoi` is returned in all other cases. -/
theorem C83_errors {vs : List QVar} (hne : vs ≠ []) {st : BinSt} {s : Ctx} (hv : VMok s) :
    ((binValues vs st s).1 = .error (.panic "slice bounds out of range") ↔ BareV st.output) ∧
    ((∃ ks, (binValues vs st s).1 = .ok ks) ∨ (binValues vs st s).1 = .error (.panic "slice bounds out of range") ∨
      (binValues vs st s).1 = .error (.msg "strconv.Atoi: invalid syntax")) := by
  have e : (binValues vs st s).1 = (binValuesLoop st.output vs s).1 := by unfold binValues; rfl
  rw [e]
  have hb : BareV st.output → (binValuesLoop st.output vs s).1 = .error (.panic "slice bounds out of range") :=
    fun h => loop_error (fun vf => scan_bare vf h) hne hv
  rcases scan_cases st.output with ⟨lits, h⟩ | h | h
  · obtain ⟨ks, hk⟩ := loop_ok h vs hv
    exact ⟨⟨fun h => (by rw [hk] at h; cases h), fun h => (by rw [hb h] at hk; cases hk)⟩, .inl ⟨ks, hk⟩⟩
  · exact ⟨⟨fun _ => h, hb⟩, .inr (.inl (hb h))⟩
  · have hk := loop_error h hne hv
    exact ⟨⟨fun h => (by rw [hk] at h; simp at h), fun h => (by rw [hb h] at hk; simp at hk)⟩, .inr (.inr hk)⟩

/-- With no variables to read, the output is not looked at. -/
theorem C83_nothing (st : BinSt) (s : Ctx) : binValues [] st s = (.ok [], st, s) := rfl

/-- Concrete cases: an output with status, comments, signs, leading zeros, a tab and a final newline is understood; one with a space at the end
of a value line is not; `v` alone panics, but not after a line that is wrong. -/
example : Reports [7, -2, 0] "s SATISFIABLE\nc ok\nv +7\nv\t-02 0\n".toList ∧
    ¬ (∃ lits, Reports lits "v 1 \n".toList) ∧ BareV "s SATISFIABLE\nv\nv 1 ".toList ∧ ¬ BareV "v 1 \nv".toList := by
  have hv : VMok (BasicQContext 1 []) := VMok.basic 1 []
  refine ⟨⟨[.other "s SATISFIABLE".toList, .other "c ok".toList, .vals ' ' [("+7".toList, 7)],
      .vals '\t' [("-02".toList, -2), ("0".toList, 0)], .other []], by decide +kernel, ?_, rfl⟩, fun h => ?_,
    ⟨[.other "s SATISFIABLE".toList], ["v 1 ".toList], by decide +kernel, ?_, by decide +kernel⟩, fun h => ?_⟩
  · intro l hl
    simp only [List.mem_cons, List.not_mem_nil, or_false] at hl
    rcases hl with rfl | rfl | rfl | rfl | rfl
    · exact ⟨by decide +kernel, by decide +kernel⟩
    · exact ⟨by decide +kernel, by decide +kernel⟩
    · refine ⟨by decide, by simp, fun w hw => (atoi_iff _ _).1 ?_⟩
      obtain rfl := List.mem_singleton.1 hw
      decide +kernel
    · refine ⟨by decide, by simp, fun w hw => (atoi_iff _ _).1 ?_⟩
      simp only [List.mem_cons, List.not_mem_nil, or_false] at hw
      rcases hw with rfl | rfl <;> decide +kernel
    · exact ⟨by decide, by decide⟩
  · obtain ⟨ks, hk⟩ := (C83_format (vs := [['x']]) (by simp) (st := ⟨"v 1 \n".toList, 1⟩) hv).2 h
    rw [show (binValues [['x']] ⟨"v 1 \n".toList, 1⟩ (BasicQContext 1 [])).1 = .error (.msg "strconv.Atoi: invalid syntax") by decide +kernel] at hk
    cases hk
  · intro l hl
    obtain rfl := List.mem_singleton.1 hl
    exact ⟨by decide +kernel, by decide +kernel⟩
  · have hk := (C83_errors (vs := [['x']]) (by simp) (st := ⟨"v 1 \nv".toList, 1⟩) hv).1.2 h
    rw [show (binValues [['x']] ⟨"v 1 \nv".toList, 1⟩ (BasicQContext 1 [])).1 = .error (.msg "strconv.Atoi: invalid syntax") by decide +kernel] at hk
    simp at hk

/-! ### what has to be printed -/

/-- C83: an executable that prints literals which make every clause true, and not necessarily a value for every variable, is good enough for
everything: evaluations and searches never give a wrong answer. -/
theorem C83_correct {env : Nat → Env} (h : ∀ k, Answers (env k).run) : Correct (binSolver env) := answers_correct h

/-- … and does not fail. -/
theorem C83_reliable {env : Nat → Env} (h : ∀ k, Answers (env k).run) (ht : ∀ k, (env k).temp = none)
    (hc : ∀ k, (env k).create = some none) : Reliable (binSolver env) := judges_reliable (fun k => answers_judges (h k)) ht hc

/-- Executables that print whole solutions (C44) are a special case; … -/
theorem C83_solves {run : List Char → Run} (h : Solves run) : Answers run := solves_answers h

/-- … a proper one. -/
theorem C83_more : Answers sparseRun ∧ ¬ Solves sparseRun := by
  refine ⟨sparseRun_answers, fun h => ?_⟩
  rcases h "p cnf 1 0\n".toList 1 0 [] (by decide +kernel) (by simp [BoundedBy]) (by simp [NonZero]) with ⟨out, err, β, h, -, hp⟩ | ⟨_, _, h, -⟩
  · rw [show sparseRun "p cnf 1 0\n".toList = .exited 10 [] [] by decide +kernel] at h
    obtain ⟨rfl, rfl⟩ : out = [] ∧ err = [] := by cases h; exact ⟨rfl, rfl⟩
    obtain ⟨ls, e, hok, hall, -⟩ := hp
    have : ls.flatMap OutLine.lits = [] := by
      match ls, e, hok with
      | [], _, _ => rfl
      | [.other t], _, _ => rfl
      | [.vals ks], e, _ => simp [joinLines, OutLine.text] at e
      | a :: b :: ls, e, _ => simp [joinLines] at e
    rw [this] at hall
    simpa using hall 1 (by omega) (by omega)
  · rw [show sparseRun "p cnf 1 0\n".toList = .exited 10 [] [] by decide +kernel] at h
    cases h

/-- Concrete case: the query of C40, evaluated with the executable that prints one literal of every clause, on lines of their own and after
colons. -/
example (negated : Bool) : ∃ b st' s',
    atomSat (binSolver fun _ => ⟨none, some none, sparseRun⟩) nodeQuery.comp negated {} (BasicQContext 2 exNodes) = (.ok b, st', s') ∧
    (b = true ↔ (nodeQuery.fo 2 exTree (fun _ => bot) (fun _ => none) ↔ negated = false)) :=
  C42_first_order (C83_correct fun _ => sparseRun_answers) (C83_reliable (fun _ => sparseRun_answers) (fun _ => rfl) fun _ => rfl)
    nodeQuery_good nodeQuery_plain (Ready.fresh_ctx _ _ _) negated {}

/-- C83: to evaluate queries, and combinations of them, nothing has to be printed at all, and anything may be: the exit code suffices. -/
theorem C83_decision {d : Nat} {nodes : List Node} {T : DTree} {depth : QVar → Nat} {q : Query} {env : Nat → Env}
    (hj : ∀ k, Judges (env k).run) (ht : ∀ k, (env k).temp = none) (hc : ∀ k, (env k).create = some none)
    (hg : q.Good d nodes T depth) (hp : q.Plain) (negated : Bool) : (Elem.query (binSolver env) d T depth q negated).Right d nodes := by
  intro others ho st s hs
  obtain ⟨c, s', e, hw, -, -, -, hrd, hnd, hf⟩ := good_query_apart hg (others := others) (by
    intro u hu hn
    exact ho _ hn (List.mem_append_right _ (List.mem_map.2 ⟨u, hu, rfl⟩))) hs
  have hr' : Ready d nodes others s' := { hrd with
    fresh := fun n hn => hnd n hn fun h => ho n hn (List.mem_append_left _ h) }
  simp only [Elem.query]
  rw [Query.comp_eq hg.ne_nil]
  have hfo := exists_sem_iff_fo hg.fits hp
  unfold atomSat
  rcases judges_step (st := st) (hj st.calls) (ht _) (hc _) e hw with ⟨st', h1, h2⟩ | ⟨st', h1, h2⟩
  · have h1 : (binSolver env).step (some q.encode) st s = _ := h1
    rw [h1]
    refine ⟨!negated, st', s', rfl, ?_, hr'⟩
    have hn := hfo.1 (hf.sat.1 h2)
    cases negated <;> simp [hn]
  · have h1 : (binSolver env).step (some q.encode) st s = _ := h1
    rw [h1]
    refine ⟨negated, st', s', rfl, ?_, hr'⟩
    have hn : ¬ q.fo d T (fun _ => bot) (fun _ => none) := fun x => h2 (hf.sat.2 (hfo.2 x))
    cases negated <;> simp [hn]

/-- An environment with the executable that prints nothing. -/
def exSilent : Env := ⟨none, some none, silentRun⟩

/-- Concrete case: a combination of two queries, with the executable that prints nothing. -/
example (negated : Bool) : (Elem.or [Elem.query (binSolver fun _ => exSilent) 2 exTree nodeDepth nodeQuery negated,
    Elem.query (binSolver fun _ => exSilent) 2 exTree (fun _ => 0) fullQuery negated]).Right 2 exNodes :=
  C51_or_partial _ (fun e he => by
    simp only [List.mem_cons, List.not_mem_nil, or_false] at he
    rcases he with rfl | rfl
    · exact C83_decision (fun _ => silentRun_judges) (fun _ => rfl) (fun _ => rfl) nodeQuery_good nodeQuery_plain negated
    · exact C83_decision (fun _ => silentRun_judges) (fun _ => rfl) (fun _ => rfl) fullQuery_good fullQuery_plain negated) (by
    have : ∀ n ∈ fullQuery.names 2 exTree [], n ∉ nodeQuery.touches 2 exTree nodeDepth := by decide +kernel
    simpa [Apart, Elem.query] using this)

/-- C83: for values it does not suffice: with the executable that prints nothing, "there is a full instance" is evaluated as true and `Values`
then returns, without error, a constant without features, which is not an instance of the model. -/
theorem C83_silent : Judges exSilent.run ∧
    (let sv := binSolver fun _ => exSilent
     let r := sv.step fullQuery.comp {} (BasicQContext 2 exNodes)
     r.1 = .ok () ∧ (sv.values [['z']] r.2.1 r.2.2).1 = .ok [{ val := [] }]) ∧
    ¬ Correct (binSolver fun _ => exSilent) := by
  have h1 : ((binSolver fun _ => exSilent).step fullQuery.comp {} (BasicQContext 2 exNodes)).1 = .ok () := by decide +kernel
  have h2 : ((binSolver fun _ => exSilent).values [['z']] ((binSolver fun _ => exSilent).step fullQuery.comp {} (BasicQContext 2 exNodes)).2.1
      ((binSolver fun _ => exSilent).step fullQuery.comp {} (BasicQContext 2 exNodes)).2.2).1 = .ok [{ val := [] }] := by decide +kernel
  refine ⟨silentRun_judges, ⟨h1, h2⟩, fun hc => ?_⟩
  rcases hq : (binSolver fun _ => exSilent).step fullQuery.comp {} (BasicQContext 2 exNodes) with ⟨r, st, s⟩
  rw [hq] at h1 h2
  dsimp only at h1 h2
  subst h1
  obtain ⟨σ, -, h⟩ := C44_values hc fullQuery_good (Ready.fresh_ctx _ _ _) hq
  obtain ⟨ks, st', e, -, hk⟩ := h [['z']] (by decide +kernel)
  rw [e] at h2
  cases h2
  simpa using (hk _ (List.mem_singleton.2 rfl)).1

end Goexpdt.Props

import Verif.Lemmas.Numeral
import Verif.Props.Meaning
import Verif.Lemmas.Brute
import Verif.Lemmas.OptimOrder
/-
Properties C42–C51: solvers, Boolean combinations of queries and `ComputeOptim`.
-/
namespace Goexpdt.Props
open Goexpdt Spec

variable {S : Type} {sv : Solver S} {d : Nat} {nodes : List Node} {T : DTree} {depth : QVar → Nat} {q : Query}

/-! ### C45 -/

/-- C45: `Step` returns nil exactly if the temporary file was created, the encoding succeeded, the CNF was
written and the solver, run on the DIMACS text, exited with 10; then `Values` reads that run's output. It
returns `UnsatError` exactly if the solver exited with 20 instead. In all other cases it returns another
error. Unless it returns nil the recorded output is unchanged. -/
theorem C45_step (env : Env) (q : Comp) (st : BinSt) (s : Ctx) :
    ((binStep env q st s).1 = .ok () ↔ ∃ act c s' out err, env.temp = none ∧ q = some act ∧ act s = (.ok c, s') ∧
      (c.toFile env.create).1 = true ∧ env.run c.toBytes = .exited 10 out err) ∧
    ((binStep env q st s).1 = .error .unsat ↔ ∃ act c s' out err, env.temp = none ∧ q = some act ∧ act s = (.ok c, s') ∧
      (c.toFile env.create).1 = true ∧ env.run c.toBytes = .exited 20 out err) ∧
    (∀ act c s' out err, q = some act → act s = (.ok c, s') → env.run c.toBytes = .exited 10 out err →
      (binStep env q st s).1 = .ok () → (binStep env q st s).2.1.output = out) ∧
    ((binStep env q st s).1 ≠ .ok () → (binStep env q st s).2.1.output = st.output) := by
  unfold binStep
  cases env.temp with
  | some msg => simp
  | none =>
    cases q with
    | none => simp
    | some act =>
      rcases h : act s with ⟨r | c, s1⟩
      · simp [h]
      · rcases ht : c.toFile env.create with ⟨ok, f⟩
        match ok, f with
        | false, _ => simp [h, ht]
        | true, none =>
          obtain ⟨ls, -, -, -, h0, ⟨f1, h1, -⟩, h2, h3⟩ := C07_toFile c
          match hcr : env.create with
          | none => rw [hcr, h0] at ht; simp at ht
          | some none => rw [hcr, h1] at ht; simp at ht
          | some (some (k, p)) =>
            by_cases hk : ls.length ≤ k
            · obtain ⟨f2, h2, -⟩ := h2 k p hk; rw [hcr, h2] at ht; simp at ht
            · obtain ⟨f2, h2, -⟩ := h3 k p (by omega); rw [hcr, h2] at ht; simp at ht
        | true, some f =>
          have hc := toFile_content ht
          cases hr : env.run c.toBytes with
          | failed msg => simp [h, ht, hc, hr, runSolver]
          | exited code out err =>
            by_cases h0 : code = 0
            · simp [h, ht, hc, hr, runSolver, h0]
            · by_cases h1 : code = 10
              · subst h1
                simp only [h, ht, hc, hr, runSolver]
                refine ⟨by simp [h, hr, ht], by simp [h, hr], ?_, by simp⟩
                rintro _ c' s' o e ⟨⟩ h' hr' -
                rw [h] at h'
                cases h'
                rw [hr] at hr'
                cases hr'
                rfl
              · by_cases h2 : code = 20
                · simp [h, ht, hc, hr, runSolver, h2]
                · simp [h, ht, hc, hr, runSolver, h0, h1, h2]

/-- C45 for the context: unless the temporary file could not be created or the query is nil, it is left
as the encoding leaves it. -/
theorem C45_context (env : Env) (act : M CNF) (st : BinSt) (s : Ctx) (h : env.temp = none) :
    (binStep env (some act) st s).2.2 = (act s).2 := by
  unfold binStep
  rw [h]
  rcases h : act s with ⟨r | c, s1⟩
  · simp [h]
  · simp only [h]
    rcases c.toFile env.create with ⟨ok, f⟩
    match ok, f with
    | false, _ => rfl
    | true, none => rfl
    | true, some f =>
      simp only
      cases runSolver (env.run f.content) with
      | error e => rfl
      | ok p => simp only; split <;> rfl

/-- Concrete case of C45: a satisfiable run, and a run that crashed. -/
example : (binStep ⟨none, some none, fun _ => .exited 10 ['v', ' ', '0'] []⟩ (some (M.lift (.ok TrueCNF))) {} (BasicQContext 1 [])).1 =
      .ok () ∧
    (binStep ⟨none, some none, fun _ => .exited (-1) ['v', ' ', '0'] []⟩ (some (M.lift (.ok TrueCNF))) {} (BasicQContext 1 [])).2.1.output =
      [] := by
  constructor <;> decide +kernel

/-! ### C44 -/

/-- C44: the solver that runs an executable which solves DIMACS texts is a correct implementation of the
interface: after a satisfiable `Step`, `Values` reads the features that the solution found gives to
variables. -/
theorem C44_binSolver {env : Nat → Env} (h : ∀ k, Solves (env k).run) : Correct (binSolver env) :=
  binSolver_correct h

/-- … and it does not fail if temporary files can be created and written. -/
theorem C44_reliable {env : Nat → Env} (h : ∀ k, Solves (env k).run) (ht : ∀ k, (env k).temp = none)
    (hc : ∀ k, (env k).create = some none) : Reliable (binSolver env) := binSolver_reliable h ht hc

/-- C44 for queries: if `Step` returns nil on a query then there is an assignment that makes the query
true, and `Values` returns, for all lists of declared variables, constants of the model's dimension
with the features of the variables' instances. -/
theorem C44_values (hc : Correct sv) (hg : q.Good d nodes T depth) {s s' : Ctx} (hs : Ready d nodes (q.names d T []) s)
    {st st' : S} (h : sv.step q.comp st s = (.ok (), st', s')) :
    ∃ σ, q.sem d T depth σ [] ∧ ∀ vs : List QVar, (∀ v ∈ vs, v ∈ q.names d T []) →
      ∃ ks st'', sv.values vs st' s' = (.ok ks, st'', s') ∧ ks.map (·.val) = vs.map (fun v => valsOf d (σ v)) ∧
        ∀ k ∈ ks, k.val.length = d ∧ ValidVals k.val := by
  rw [Query.comp_eq hg.ne_nil] at h
  rcases decides_step (st := st) hc hg.decides hs with ⟨st1, s1, e, hr, β, σ, hP, hR, hn⟩ | ⟨_, _, e, _⟩ | ⟨_, _, _, e, _⟩
  · rw [e] at h
    simp only [Prod.mk.injEq, true_and] at h
    obtain ⟨rfl, rfl⟩ := h
    refine ⟨σ, hP, fun vs hvs => ?_⟩
    obtain ⟨st2, h2⟩ := hR vs σ fun v hv => by rw [hr.dim]; exact hn v (hvs v hv)
    refine ⟨_, st2, h2, ?_, ?_⟩
    · simp [hr.dim]
    · intro k hk
      obtain ⟨v, -, rfl⟩ := List.mem_map.1 hk
      rw [hr.dim]
      exact valsOf_good d (σ v)
  · rw [e] at h; simp at h
  · rw [e] at h; simp at h

/-- A solver meeting the assumptions: it tries all valuations. -/
theorem C44_solver_exists : ∃ sv : Solver BinSt, Correct sv ∧ Reliable sv ∧ Counts sv BinSt.calls :=
  ⟨bruteSolver, bruteSolver_correct, bruteSolver_reliable, binSolver_counts _⟩

/-- Concrete case of C44: reading the printed solution of the CNF of "x is full". -/
example :
    let act := (Query.withVar ['x'] (.atom (.full (.var ['x'])))).encode
    let out := "c done\ns SATISFIABLE\nv 1 -2 -3\nv -4 5 -6\nv 0\n".toList
    (binValues [['x']] ⟨out, 1⟩ (act (BasicQContext 2 [])).2).1 = .ok [{ val := [ZERO, ONE] }] := by decide +kernel

/-- Outputs outside of the format: a value line without literals panics, two spaces in a row are an
error, and a feature whose literals are missing is skipped. -/
theorem C44_malformed :
    let s := ((Query.withVar ['x'] (.atom (.full (.var ['x'])))).encode (BasicQContext 2 [])).2
    (binValues [['x']] ⟨['v'], 1⟩ s).1 = .error (.panic "slice bounds out of range") ∧
    (binValues [['x']] ⟨"v -1  2".toList, 1⟩ s).1 = .error (.msg "strconv.Atoi: invalid syntax") ∧
    (binValues [['x']] ⟨"v -4 5 -6".toList, 1⟩ s).1 = .ok [{ val := [ONE] }] := by
  refine ⟨?_, ?_, ?_⟩ <;> decide +kernel

/-- C44: the words of a value line are read as numbers exactly if they are decimal numerals with an optional sign, and as the numbers they
stand for. -/
theorem C44_numbers (w : List Char) (v : Int) : atoi w = .ok v ↔ Spec.Numeral w v := atoi_iff w v

example : atoi "+070".toList = .ok 70 ∧ atoi "-12".toList = .ok (-12) ∧ ∀ v, atoi "1a".toList ≠ .ok v :=
  ⟨by decide +kernel, by decide +kernel, fun v => by
    rw [show atoi "1a".toList = .error (.msg "strconv.Atoi: invalid syntax") by decide +kernel]; simp⟩

/-! ### C42 -/

/-- C42: with a correct and reliable solver and a context in which the query's variables have not been
declared, `QDTFAtom.Sat` returns true iff the truth value of the query differs from `Negated`, and no
error. -/
theorem C42_atom (hc : Correct sv) (hr : Reliable sv) (hg : q.Good d nodes T depth) {s : Ctx}
    (hs : Ready d nodes (q.names d T []) s) (negated : Bool) (st : S) :
    ∃ b st' s', atomSat sv q.comp negated st s = (.ok b, st', s') ∧ Ready d nodes [] s' ∧
      (b = true ↔ ((∃ σ, q.sem d T depth σ []) ↔ negated = false)) := by
  rw [Query.comp_eq hg.ne_nil]
  unfold atomSat
  rcases decides_step (st := st) hc hg.decides hs with ⟨st1, s1, e, hr, β, σ, hP, -⟩ | ⟨st1, s1, e, hr, hn⟩ | ⟨_, _, _, _, hn⟩
  · refine ⟨!negated, st1, s1, by rw [e], hr, ?_⟩
    have : ∃ σ, q.sem d T depth σ [] := ⟨σ, hP⟩
    cases negated <;> simp [this]
  · refine ⟨negated, st1, s1, by rw [e], hr, ?_⟩
    cases negated <;> simp [hn]
  · exact absurd hr hn

/-- C42 in first-order semantics. -/
theorem C42_first_order (hc : Correct sv) (hr : Reliable sv) (hg : q.Good d nodes T depth) (hp : q.Plain) {s : Ctx}
    (hs : Ready d nodes (q.names d T []) s) (negated : Bool) (st : S) :
    ∃ b st' s', atomSat sv q.comp negated st s = (.ok b, st', s') ∧
      (b = true ↔ (q.fo d T (fun _ => bot) (fun _ => none) ↔ negated = false)) := by
  obtain ⟨b, st', s', e, -, h⟩ := C42_atom hc hr hg hs negated st
  rw [exists_sem_iff_fo hg.fits hp] at h
  exact ⟨b, st', s', e, h⟩

/-- The failure branch of C42: an error of `Step` other than `UnsatError` is returned as it is. -/
theorem C42_error (q : Comp) (negated : Bool) (st st' : S) (s s' : Ctx) (e : Err)
    (h : sv.step q st s = (.error (.other e), st', s')) : atomSat sv q negated st s = (.error e, st', s') := by
  unfold atomSat; rw [h]

/-- Concrete case of C42: the query of C40, on the solver that tries all valuations, in a fresh
context. -/
example (negated : Bool) : ∃ b st' s', atomSat bruteSolver nodeQuery.comp negated {} (BasicQContext 2 exNodes) = (.ok b, st', s') ∧
    (b = true ↔ (nodeQuery.fo 2 exTree (fun _ => bot) (fun _ => none) ↔ negated = false)) :=
  C42_first_order bruteSolver_correct bruteSolver_reliable nodeQuery_good nodeQuery_plain (Ready.fresh_ctx _ _ _) negated {}

/-! ### C43 -/

section
variable {es : List (Option (SatM S))} {st st' : S} {s s' : Ctx}

/-- C43: `AndCombinator.Sat` returns true exactly if all elements, evaluated in order, return true; … -/
theorem C43_and_true : andSat es st s = (.ok true, st', s') ↔ AllGive true es st s st' s' := by
  induction es generalizing st s with
  | nil =>
    simp only [andSat, Prod.mk.injEq, true_and]
    exact ⟨fun ⟨h1, h2⟩ => h1 ▸ h2 ▸ .nil _ _, fun h => by cases h; exact ⟨rfl, rfl⟩⟩
  | cons e es ih =>
    match e with
    | none =>
      simp only [andSat, Prod.mk.injEq, reduceCtorEq, false_and, false_iff]
      intro h; cases h
    | some f =>
      unfold andSat
      rcases h : f st s with ⟨e | b, st1, s1⟩
      · simp only [Prod.mk.injEq, reduceCtorEq, false_and, false_iff]
        intro hh; cases hh with | cons h1 _ => rw [h] at h1; simp at h1
      · cases b
        · simp only [Bool.not_false, if_true, Prod.mk.injEq, Except.ok.injEq, Bool.false_eq_true, false_and, false_iff]
          intro hh; cases hh with | cons h1 _ => rw [h] at h1; simp at h1
        · simp only [Bool.not_true, Bool.false_eq_true, if_false, ih]
          constructor
          · exact fun hh => .cons h hh
          · intro hh
            cases hh with
            | cons h1 h2 =>
              rw [h] at h1
              simp only [Prod.mk.injEq, true_and] at h1
              obtain ⟨rfl, rfl⟩ := h1
              exact h2

/-- … it returns false exactly if some element returns false and all before it return true (the elements
after it are not evaluated); … -/
theorem C43_and_false : andSat es st s = (.ok false, st', s') ↔
    ∃ pre f post st1 s1, es = pre ++ some f :: post ∧ AllGive true pre st s st1 s1 ∧ f st1 s1 = (.ok false, st', s') := by
  induction es generalizing st s with
  | nil => simp [andSat]
  | cons e es ih =>
    constructor
    · intro h
      match e with
      | none => simp [andSat] at h
      | some f =>
        unfold andSat at h
        rcases h1 : f st s with ⟨e | b, st1, s1⟩
        · rw [h1] at h; simp at h
        · rw [h1] at h
          cases b
          · simp only [Bool.not_false, if_true, Prod.mk.injEq, true_and] at h
            obtain ⟨rfl, rfl⟩ := h
            exact ⟨[], f, es, st, s, rfl, .nil _ _, h1⟩
          · simp only [Bool.not_true, Bool.false_eq_true, if_false] at h
            obtain ⟨pre, g, post, st2, s2, rfl, h2, h3⟩ := ih.1 h
            exact ⟨some f :: pre, g, post, st2, s2, rfl, .cons h1 h2, h3⟩
    · rintro ⟨pre, f, post, st1, s1, he, hp, hf⟩
      cases hp with
      | nil =>
        simp only [List.nil_append, List.cons.injEq] at he
        obtain ⟨rfl, rfl⟩ := he
        unfold andSat; rw [hf]; rfl
      | cons h1 h2 =>
        simp only [List.cons_append, List.cons.injEq] at he
        obtain ⟨rfl, rfl⟩ := he
        unfold andSat; rw [h1]
        simp only [Bool.not_true, Bool.false_eq_true, if_false]
        exact ih.2 ⟨_, f, post, _, _, rfl, h2, hf⟩

/-- … and it fails exactly if some element fails (with that error) or is nil and all before it return
true. -/
theorem C43_and_error {err : Err} : andSat es st s = (.error err, st', s') ↔
    (∃ pre f post st1 s1, es = pre ++ some f :: post ∧ AllGive true pre st s st1 s1 ∧ f st1 s1 = (.error err, st', s')) ∨
    (∃ pre post, es = pre ++ none :: post ∧ AllGive true pre st s st' s' ∧ err = .panic "nil pointer dereference") := by
  induction es generalizing st s with
  | nil => simp [andSat]
  | cons e es ih =>
    constructor
    · intro h
      match e with
      | none =>
        simp only [andSat, Prod.mk.injEq, Except.error.injEq] at h
        obtain ⟨rfl, rfl, rfl⟩ := h
        exact .inr ⟨[], es, rfl, .nil _ _, rfl⟩
      | some f =>
        unfold andSat at h
        rcases h1 : f st s with ⟨e | b, st1, s1⟩
        · rw [h1] at h
          simp only [Prod.mk.injEq, Except.error.injEq] at h
          obtain ⟨rfl, rfl, rfl⟩ := h
          exact .inl ⟨[], f, es, st, s, rfl, .nil _ _, h1⟩
        · rw [h1] at h
          cases b
          · simp at h
          · simp only [Bool.not_true, Bool.false_eq_true, if_false] at h
            rcases ih.1 h with ⟨pre, g, post, st2, s2, rfl, h2, h3⟩ | ⟨pre, post, rfl, h2, h3⟩
            · exact .inl ⟨some f :: pre, g, post, st2, s2, rfl, .cons h1 h2, h3⟩
            · exact .inr ⟨some f :: pre, post, rfl, .cons h1 h2, h3⟩
    · rintro (⟨pre, f, post, st1, s1, he, hp, hf⟩ | ⟨pre, post, he, hp, hf⟩)
      · cases hp with
        | nil =>
          simp only [List.nil_append, List.cons.injEq] at he
          obtain ⟨rfl, rfl⟩ := he
          unfold andSat; rw [hf]
        | cons h1 h2 =>
          simp only [List.cons_append, List.cons.injEq] at he
          obtain ⟨rfl, rfl⟩ := he
          unfold andSat; rw [h1]
          simp only [Bool.not_true, Bool.false_eq_true, if_false]
          exact ih.2 (.inl ⟨_, f, post, _, _, rfl, h2, hf⟩)
      · cases hp with
        | nil =>
          simp only [List.nil_append, List.cons.injEq] at he
          obtain ⟨rfl, rfl⟩ := he
          rw [hf]; rfl
        | cons h1 h2 =>
          simp only [List.cons_append, List.cons.injEq] at he
          obtain ⟨rfl, rfl⟩ := he
          unfold andSat; rw [h1]
          simp only [Bool.not_true, Bool.false_eq_true, if_false]
          exact ih.2 (.inr ⟨_, post, rfl, h2, hf⟩)

/-- C43: `OrCombinator.Sat` returns false exactly if all elements, evaluated in order, return false; … -/
theorem C43_or_false : orSat es st s = (.ok false, st', s') ↔ AllGive false es st s st' s' := by
  induction es generalizing st s with
  | nil =>
    simp only [orSat, Prod.mk.injEq, true_and]
    exact ⟨fun ⟨h1, h2⟩ => h1 ▸ h2 ▸ .nil _ _, fun h => by cases h; exact ⟨rfl, rfl⟩⟩
  | cons e es ih =>
    match e with
    | none =>
      simp only [orSat, Prod.mk.injEq, reduceCtorEq, false_and, false_iff]
      intro h; cases h
    | some f =>
      unfold orSat
      rcases h : f st s with ⟨e | b, st1, s1⟩
      · simp only [Prod.mk.injEq, reduceCtorEq, false_and, false_iff]
        intro hh; cases hh with | cons h1 _ => rw [h] at h1; simp at h1
      · cases b
        rotate_left
        · simp only [if_true, Prod.mk.injEq, Except.ok.injEq, Bool.true_eq_false, false_and, false_iff]
          intro hh; cases hh with | cons h1 _ => rw [h] at h1; simp at h1
        · simp only [Bool.false_eq_true, if_false, ih]
          constructor
          · exact fun hh => .cons h hh
          · intro hh
            cases hh with
            | cons h1 h2 =>
              rw [h] at h1
              simp only [Prod.mk.injEq, true_and] at h1
              obtain ⟨rfl, rfl⟩ := h1
              exact h2

/-- … it returns true exactly if some element returns true and all before it return false (the elements
after it are not evaluated); … -/
theorem C43_or_true : orSat es st s = (.ok true, st', s') ↔
    ∃ pre f post st1 s1, es = pre ++ some f :: post ∧ AllGive false pre st s st1 s1 ∧ f st1 s1 = (.ok true, st', s') := by
  induction es generalizing st s with
  | nil => simp [orSat]
  | cons e es ih =>
    constructor
    · intro h
      match e with
      | none => simp [orSat] at h
      | some f =>
        unfold orSat at h
        rcases h1 : f st s with ⟨e | b, st1, s1⟩
        · rw [h1] at h; simp at h
        · rw [h1] at h
          cases b
          rotate_left
          · simp only [if_true, Prod.mk.injEq, true_and] at h
            obtain ⟨rfl, rfl⟩ := h
            exact ⟨[], f, es, st, s, rfl, .nil _ _, h1⟩
          · simp only [Bool.false_eq_true, if_false] at h
            obtain ⟨pre, g, post, st2, s2, rfl, h2, h3⟩ := ih.1 h
            exact ⟨some f :: pre, g, post, st2, s2, rfl, .cons h1 h2, h3⟩
    · rintro ⟨pre, f, post, st1, s1, he, hp, hf⟩
      cases hp with
      | nil =>
        simp only [List.nil_append, List.cons.injEq] at he
        obtain ⟨rfl, rfl⟩ := he
        unfold orSat; rw [hf]; rfl
      | cons h1 h2 =>
        simp only [List.cons_append, List.cons.injEq] at he
        obtain ⟨rfl, rfl⟩ := he
        unfold orSat; rw [h1]
        simp only [Bool.false_eq_true, if_false]
        exact ih.2 ⟨_, f, post, _, _, rfl, h2, hf⟩

/-- … and it fails exactly if some element fails (with that error) or is nil and all before it return
false. -/
theorem C43_or_error {err : Err} : orSat es st s = (.error err, st', s') ↔
    (∃ pre f post st1 s1, es = pre ++ some f :: post ∧ AllGive false pre st s st1 s1 ∧ f st1 s1 = (.error err, st', s')) ∨
    (∃ pre post, es = pre ++ none :: post ∧ AllGive false pre st s st' s' ∧ err = .panic "nil pointer dereference") := by
  induction es generalizing st s with
  | nil => simp [orSat]
  | cons e es ih =>
    constructor
    · intro h
      match e with
      | none =>
        simp only [orSat, Prod.mk.injEq, Except.error.injEq] at h
        obtain ⟨rfl, rfl, rfl⟩ := h
        exact .inr ⟨[], es, rfl, .nil _ _, rfl⟩
      | some f =>
        unfold orSat at h
        rcases h1 : f st s with ⟨e | b, st1, s1⟩
        · rw [h1] at h
          simp only [Prod.mk.injEq, Except.error.injEq] at h
          obtain ⟨rfl, rfl, rfl⟩ := h
          exact .inl ⟨[], f, es, st, s, rfl, .nil _ _, h1⟩
        · rw [h1] at h
          cases b
          rotate_left
          · simp at h
          · simp only [Bool.false_eq_true, if_false] at h
            rcases ih.1 h with ⟨pre, g, post, st2, s2, rfl, h2, h3⟩ | ⟨pre, post, rfl, h2, h3⟩
            · exact .inl ⟨some f :: pre, g, post, st2, s2, rfl, .cons h1 h2, h3⟩
            · exact .inr ⟨some f :: pre, post, rfl, .cons h1 h2, h3⟩
    · rintro (⟨pre, f, post, st1, s1, he, hp, hf⟩ | ⟨pre, post, he, hp, hf⟩)
      · cases hp with
        | nil =>
          simp only [List.nil_append, List.cons.injEq] at he
          obtain ⟨rfl, rfl⟩ := he
          unfold orSat; rw [hf]
        | cons h1 h2 =>
          simp only [List.cons_append, List.cons.injEq] at he
          obtain ⟨rfl, rfl⟩ := he
          unfold orSat; rw [h1]
          simp only [Bool.false_eq_true, if_false]
          exact ih.2 (.inl ⟨_, f, post, _, _, rfl, h2, hf⟩)
      · cases hp with
        | nil =>
          simp only [List.nil_append, List.cons.injEq] at he
          obtain ⟨rfl, rfl⟩ := he
          rw [hf]; rfl
        | cons h1 h2 =>
          simp only [List.cons_append, List.cons.injEq] at he
          obtain ⟨rfl, rfl⟩ := he
          unfold orSat; rw [h1]
          simp only [Bool.false_eq_true, if_false]
          exact ih.2 (.inr ⟨_, post, rfl, h2, hf⟩)

/-- C43: if every element returns its value `v e` in all states that satisfy an invariant, and keeps the
invariant, then the combinators return the conjunction and the disjunction of the values. -/
theorem C43_values (I : S → Ctx → Prop) (v : SatM S → Bool) (fs : List (SatM S))
    (h : ∀ f ∈ fs, ∀ st s, I st s → ∃ st' s', f st s = (.ok (v f), st', s') ∧ I st' s') (st : S) (s : Ctx) (hI : I st s) :
    (∃ st' s', andSat (fs.map some) st s = (.ok (fs.all v), st', s') ∧ I st' s') ∧
    (∃ st' s', orSat (fs.map some) st s = (.ok (fs.any v), st', s') ∧ I st' s') := by
  induction fs generalizing st s with
  | nil => exact ⟨⟨st, s, rfl, hI⟩, ⟨st, s, rfl, hI⟩⟩
  | cons f fs ih =>
    have ih := ih fun g hg => h g (by simp [hg])
    obtain ⟨st1, s1, e, hI1⟩ := h f (by simp) st s hI
    simp only [List.map_cons, andSat, orSat, e, List.all_cons, List.any_cons]
    cases v f with
    | true => exact ⟨(ih st1 s1 hI1).1, st1, s1, rfl, hI1⟩
    | false => exact ⟨⟨st1, s1, rfl, hI1⟩, (ih st1 s1 hI1).2⟩

/-- Concrete case of C43: the second element decides, the third (which would fail) is not reached; the
state shows that two elements were evaluated. -/
example :
    let t : SatM Nat := fun st s => (.ok true, st + 1, s)
    let f : SatM Nat := fun st s => (.ok false, st + 1, s)
    andSat [some t, some f, none] 0 (BasicQContext 1 []) = (.ok false, 2, BasicQContext 1 []) ∧
    orSat [some f, some (orSat [some t]), none] 0 (BasicQContext 1 []) = (.ok true, 2, BasicQContext 1 []) := ⟨rfl, rfl⟩

end

/-! ### C46 -/

section
variable {names : List QVar} {v : QVar} {fg : QVar → Comp} {og : QVar → QConst → Comp} {F : PInst → Prop}
  {R : PInst → PInst → Prop} {st st' : S} {s s' : Ctx} {o : OptOutput}

/-- C46: if `ComputeOptim` returns `Found = true`, then the value is a constant of the model's dimension,
it satisfies the formula, and no instance that satisfies the formula is below it in the order. This
holds for all formulas and orders given as Go functions whose encodings ask for the right instances,
and for every solver that never gives a wrong answer (it may fail). -/
theorem C46_optimum (hc : Correct sv) (h : Poses d nodes v fg og F R names) (hs : Ready d nodes names s) {tmp : Bool}
    {fuel : Nat} (he : computeOptim sv fg og v tmp fuel st s = (.ok o, st', s')) (hf : o.found = true) :
    o.value.val.length = d ∧ ValidVals o.value.val ∧ F (den o.value.val) ∧ ∀ e, F e → ¬ R e (den o.value.val) := by
  unfold computeOptim at he
  cases tmp with
  | false =>
    simp only [Bool.not_false, if_true, Prod.mk.injEq, Except.ok.injEq] at he
    rw [← he.1] at hf
    simp at hf
  | true =>
    simp only [Bool.not_true, Bool.false_eq_true, if_false] at he
    rcases asks_step (st := st) hc h.first hs with ⟨st1, s1, b, e, hH, hF⟩ | ⟨st1, s1, e, hu⟩ | ⟨err, st1, s1, e, -⟩
    · rw [e] at he
      obtain ⟨⟨b', -, h2, h3, h4, h5⟩, -⟩ := optimLoop_sound hc h fuel 1 st1 s1 b hH hF o st' s' he
      rw [h2]
      exact ⟨h3.1, h3.2, h4, h5⟩
    · rw [e] at he
      simp only [Prod.mk.injEq, Except.ok.injEq] at he
      rw [← he.1] at hf
      simp at hf
    · rw [e] at he; simp at he

/-- C46 for formulas and orders that are queries. -/
theorem C46_queries (hc : Correct sv) {f : Query} {ord : QConst → Query} (h : Optimises d nodes T depth v f ord)
    (hs : Ready d nodes ((Query.withVar v f).names d T []) s) {tmp : Bool} {fuel : Nat}
    (he : computeOptim sv (fun _ => f.comp) (fun _ k => (ord k).comp) v tmp fuel st s = (.ok o, st', s'))
    (hf : o.found = true) :
    o.value.val.length = d ∧ ValidVals o.value.val ∧ f.about d T v (den o.value.val) ∧
      ∀ e, f.about d T v e → ¬ (ord { val := o.value.val }).about d T v e := by
  obtain ⟨h1, h2, h3, h4⟩ := C46_optimum hc h.poses hs he hf
  rw [valsOf_den ⟨h1, h2⟩] at h4
  exact ⟨h1, h2, h3, h4⟩

/-- C46, failures: an error that `ComputeOptim` returns is that of a call of `Step` or of `Values` (or the panic on an empty list of
values), and the solver and the context are as this call left them. -/
theorem C46_errors {tmp : Bool} {fuel : Nat} {err : Err} (he : computeOptim sv fg og v tmp fuel st s = (.error err, st', s'))
    (hd : err ≠ .diverge) :
    (∃ act st1 s1, sv.step (some act) st1 s1 = (.error (.other err), st', s')) ∨
    (∃ st1 s1, sv.values [v] st1 s1 = (.error err, st', s')) ∨
    (∃ st1 s1 s2, sv.values [v] st1 s1 = (.ok [], st', s2) ∧ s' = s2.reset ∧ err = .panic "index out of range") := by
  have hloop : ∀ (fuel steps : Nat) (st : S) (s : Ctx), optimLoop sv fg og v fuel steps st s = (.error err, st', s') →
      (∃ act st1 s1, sv.step (some act) st1 s1 = (.error (.other err), st', s')) ∨
      (∃ st1 s1, sv.values [v] st1 s1 = (.error err, st', s')) ∨
      (∃ st1 s1 s2, sv.values [v] st1 s1 = (.ok [], st', s2) ∧ s' = s2.reset ∧ err = .panic "index out of range") := by
    intro fuel
    induction fuel with
    | zero => intro steps st s h; simp only [optimLoop, Prod.mk.injEq, Except.error.injEq] at h; exact absurd h.1.symm hd
    | succ fuel ih =>
      intro steps st s h
      rw [optimLoop] at h
      dsimp only at h
      rcases hv : sv.values [v] st s with ⟨r, st1, s1⟩
      rw [hv] at h
      match r with
      | .error e =>
        simp only [Prod.mk.injEq, Except.error.injEq] at h
        obtain ⟨rfl, rfl, rfl⟩ := h
        exact .inr (.inl ⟨st, s, hv⟩)
      | .ok [] =>
        simp only [Prod.mk.injEq, Except.error.injEq] at h
        obtain ⟨rfl, rfl, rfl⟩ := h
        exact .inr (.inr ⟨st, s, s1, hv, rfl, rfl⟩)
      | .ok (b :: _) =>
        simp only at h
        rcases hs : sv.step (some (encWithVar v (some (encAnd (fg v) (og v b))))) st1 s1.reset with ⟨r, st2, s2⟩
        rw [hs] at h
        match r with
        | .error .unsat => simp at h
        | .error (.other e) =>
          simp only [Prod.mk.injEq, Except.error.injEq] at h
          obtain ⟨rfl, rfl, rfl⟩ := h
          exact .inl ⟨_, _, _, hs⟩
        | .ok () => exact ih _ _ _ h
  unfold computeOptim at he
  cases tmp with
  | false => simp at he
  | true =>
    simp only [Bool.not_true, Bool.false_eq_true, if_false] at he
    rcases hs : sv.step (some (encWithVar v (fg v))) st s with ⟨r, st2, s2⟩
    rw [hs] at he
    match r with
    | .error .unsat => simp at he
    | .error (.other e) =>
      simp only [Prod.mk.injEq, Except.error.injEq] at he
      obtain ⟨rfl, rfl, rfl⟩ := he
      exact .inl ⟨_, _, _, hs⟩
    | .ok () => exact hloop _ _ _ _ he

/-- Concrete case: the function that gives the formula returns nil; the error is that of the first call of `Step`. -/
example (env : Env) (ht : env.temp = none) : ∃ st', computeOptim (binSolver fun _ => env) (fun _ => none) (fun _ _ => none) ['x'] true 3 {}
      (BasicQContext 2 []) = (.error (.msg "WithVar: Invalid encoding of nil child"), st', BasicQContext 2 []) ∧
    (binSolver fun _ => env).step (some (encWithVar ['x'] none)) {} (BasicQContext 2 []) =
      (.error (.other (.msg "WithVar: Invalid encoding of nil child")), st', BasicQContext 2 []) := by
  have h : ∃ st', (binSolver fun _ => env).step (some (encWithVar ['x'] none)) {}
        (BasicQContext 2 []) =
      (.error (.other (.msg "WithVar: Invalid encoding of nil child")), st', BasicQContext 2 []) := by
    simp only [binSolver, binStep, ht]
    exact ⟨_, rfl⟩
  obtain ⟨st', h⟩ := h
  refine ⟨st', ?_, h⟩
  simp [computeOptim, h]

/-! ### C47 -/

/-- C47, for executions in which the temporary file can be created: `ComputeOptim` returns
`Found = false` without error iff no instance satisfies the formula. Missing: `C47_temp_fails`. -/
theorem C47_absent_partial (hc : Correct sv) (hr : Reliable sv) (h : Poses d nodes v fg og F R names)
    (hs : Ready d nodes names s) (fuel : Nat) :
    (∃ o st' s', computeOptim sv fg og v true fuel st s = (.ok o, st', s') ∧ o.found = false) ↔ ∀ e, ¬ F e := by
  unfold computeOptim
  simp only [Bool.not_true, Bool.false_eq_true, if_false]
  rcases asks_step (st := st) hc h.first hs with ⟨st1, s1, b, e, hH, hF⟩ | ⟨st1, s1, e, hu⟩ | ⟨err, st1, s1, e, hn⟩
  · rw [e]
    constructor
    · rintro ⟨o, st', s', he, hf⟩
      obtain ⟨⟨b', h1, -⟩, -⟩ := optimLoop_sound hc h fuel 1 st1 s1 b hH hF o st' s' he
      rw [h1] at hf; simp at hf
    · intro hn; exact absurd hF (hn _)
  · rw [e]
    exact ⟨fun _ => hu, fun _ => ⟨_, _, _, rfl, rfl⟩⟩
  · exact absurd hr hn

/-- C47 is violated when the temporary file of line 48 cannot be created: the error is dropped, the
result says that there is no such instance, whatever the formula. -/
theorem C47_temp_fails (sv : Solver S) (fg : QVar → Comp) (og : QVar → QConst → Comp) (v : QVar) (fuel : Nat) (st : S) (s : Ctx) :
    computeOptim sv fg og v false fuel st s = (.ok { found := false, value := {}, calls := 0 }, st, s) := rfl

/-! ### C48 -/

/-- C48 with a rank: if among the instances that satisfy the formula every step down the order lowers a
rank of at most `B`, then `ComputeOptim` returns, without error and after at most `B + 2` calls, on
every correct and reliable solver (whatever solutions it chooses). -/
theorem C48_rank (hc : Correct sv) (hr : Reliable sv) (h : Poses d nodes v fg og F R names) (hs : Ready d nodes names s)
    (rk : List FeatV → Nat) (B : Nat) (hB : ∀ b, GoodVals d b → F (den b) → rk b ≤ B)
    (hrk : ∀ b b', GoodVals d b → GoodVals d b' → F (den b) → F (den b') → R (den b') (den b) → rk b' < rk b)
    {fuel : Nat} (hfuel : B < fuel) :
    ∃ o st' s', computeOptim sv fg og v true fuel st s = (.ok o, st', s') ∧ o.calls ≤ B + 2 := by
  unfold computeOptim
  simp only [Bool.not_true, Bool.false_eq_true, if_false]
  rcases asks_step (st := st) hc h.first hs with ⟨st1, s1, b, e, hH, hF⟩ | ⟨st1, s1, e, hu⟩ | ⟨err, st1, s1, e, hn⟩
  · rw [e]
    have hb := hB b hH.1 hF
    obtain ⟨o, st', s', h1, h2⟩ := optimLoop_ends hc hr h rk hrk fuel 1 st1 s1 b hH hF (by omega)
    exact ⟨o, st', s', h1, by omega⟩
  · rw [e]
    exact ⟨_, _, _, rfl, by simp⟩
  · exact absurd hr hn

/-- C48: for strict orders `ComputeOptim` returns, without error and after at most `3 ^ dim + 1` calls. -/
theorem C48_strict (hc : Correct sv) (hr : Reliable sv) (h : Poses d nodes v fg og F R names) (hs : Ready d nodes names s)
    (hR : StrictOn F R d) {fuel : Nat} (hfuel : 3 ^ d ≤ fuel) :
    ∃ o st' s', computeOptim sv fg og v true fuel st s = (.ok o, st', s') ∧ o.calls ≤ 3 ^ d + 1 := by
  have hpos : 0 < 3 ^ d := Nat.pow_pos (by omega)
  obtain ⟨o, st', s', h1, h2⟩ := C48_rank (st := st) hc hr h hs (rankOf F R d) (3 ^ d - 1)
    (fun b hb hF => by have := rankOf_bound hR hb hF; omega)
    (fun b b' hb hb' hF hF' hRR => rankOf_lt hR hb hb' hF hF' hRR) (fuel := fuel) (by omega)
  exact ⟨o, st', s', h1, by omega⟩

/-- Strict subsumption: `v` subsumes `k` and not the other way round (minimal instances). -/
def strictSubs (v : QVar) (k : QConst) : Query :=
  .and (.atom (.subs (.var v) (.const k))) (.not (.atom (.subs (.const k) (.var v))))

/-- The converse order (maximal instances). -/
def strictSups (v : QVar) (k : QConst) : Query :=
  .and (.atom (.subs (.const k) (.var v))) (.not (.atom (.subs (.var v) (.const k))))

/-- Strict LEL, as in compute/optimum_test.go:31-38: `v` has fewer defined features than `k`. -/
def strictLel (g : QVar → QVar) (v : QVar) (k : QConst) : Query :=
  .and (.atom (.lel (.var v) (.const k) (some g))) (.not (.atom (.lel (.const k) (.var v) (some g))))

theorem about_strictSubs {b : List FeatV} {e : PInst} :
    (strictSubs v { val := b }).about d T v e ↔ Subsumes d e (den b) ∧ ¬ Subsumes d (den b) e := by
  simp [strictSubs, Query.about, Query.fo, Atom.says, Term.val, upd]

theorem about_strictSups {b : List FeatV} {e : PInst} :
    (strictSups v { val := b }).about d T v e ↔ Subsumes d (den b) e ∧ ¬ Subsumes d e (den b) := by
  simp [strictSups, Query.about, Query.fo, Atom.says, Term.val, upd]

theorem about_strictLel {g : QVar → QVar} {b : List FeatV} {e : PInst} :
    (strictLel g v { val := b }).about d T v e ↔ numBot d (den b) < numBot d e := by
  simp only [strictLel, Query.about, Query.fo, Atom.says, Term.val, upd, Option.getD_none, if_true, LEL]
  omega

theorem subs_fits {t1 t2 : Term} {b : List FeatV} (hb : GoodVals d b)
    (h : (t1 = .var v ∧ t2 = .const { val := b }) ∨ (t1 = .const { val := b } ∧ t2 = .var v)) :
    (Atom.subs t1 t2).Fits d nodes T [v] [] := by
  rcases h with ⟨rfl, rfl⟩ | ⟨rfl, rfl⟩ <;>
  exact ⟨by simp [Atom.vars, Term.vars], by simpa [Spec.Atom.consts, Spec.Term.consts, resolve, GoodVals] using hb, rfl, trivial, trivial,
    trivial, by simp [Atom.onModel]⟩

theorem lel_fits {t1 t2 : Term} {g : QVar → QVar} {b : List FeatV} (hb : GoodVals d b)
    (h : (t1 = .var v ∧ t2 = .const { val := b }) ∨ (t1 = .const { val := b } ∧ t2 = .var v)) :
    (Atom.lel t1 t2 (some g)).Fits d nodes T [v] [] := by
  rcases h with ⟨rfl, rfl⟩ | ⟨rfl, rfl⟩ <;>
  exact ⟨by simp [Atom.vars, Term.vars], by simpa [Spec.Atom.consts, Spec.Term.consts, resolve, GoodVals] using hb, rfl, trivial, trivial,
    trivial, by simp [Atom.onModel]⟩

theorem optimises_subs {f : Query} (hg : (Query.withVar v f).Good d nodes T depth) (hp : (Query.withVar v f).Plain) :
    Optimises d nodes T depth v f (strictSubs v) := by
  refine ⟨hg, hp, fun b hb => ⟨hg.dim, ⟨hg.fits.1, hg.fits.2, subs_fits hb (.inl ⟨rfl, rfl⟩), subs_fits hb (.inr ⟨rfl, rfl⟩)⟩, ?_⟩,
    fun b _ => ⟨⟨hp.positive, trivial, rfl⟩, ?_, ?_, hp.guards, trivial, trivial⟩⟩
  · simpa [Query.names, Query.uses, strictSubs, Atom.uses] using hg.clean
  · simpa [Query.binders, strictSubs] using hp.distinct
  · simpa [Query.binders, strictSubs] using hp.names

theorem optimises_sups {f : Query} (hg : (Query.withVar v f).Good d nodes T depth) (hp : (Query.withVar v f).Plain) :
    Optimises d nodes T depth v f (strictSups v) := by
  refine ⟨hg, hp, fun b hb => ⟨hg.dim, ⟨hg.fits.1, hg.fits.2, subs_fits hb (.inr ⟨rfl, rfl⟩), subs_fits hb (.inl ⟨rfl, rfl⟩)⟩, ?_⟩,
    fun b _ => ⟨⟨hp.positive, trivial, rfl⟩, ?_, ?_, hp.guards, trivial, trivial⟩⟩
  · simpa [Query.names, Query.uses, strictSups, Atom.uses] using hg.clean
  · simpa [Query.binders, strictSups] using hp.distinct
  · simpa [Query.binders, strictSups] using hp.names

/-- The counting variables of the order must not clash with the names in the formula. -/
theorem optimises_lel {f : Query} {g : QVar → QVar} (hg : (Query.withVar v f).Good d nodes T depth) (hp : (Query.withVar v f).Plain)
    (hh : Hygienic d T ((Query.withVar v f).names d T []) ((g v, .bots v) :: (Query.withVar v f).uses d T depth [])) :
    Optimises d nodes T depth v f (strictLel g v) := by
  refine ⟨hg, hp, fun b hb => ⟨hg.dim, ⟨hg.fits.1, hg.fits.2, lel_fits hb (.inl ⟨rfl, rfl⟩), lel_fits hb (.inr ⟨rfl, rfl⟩)⟩, ?_⟩,
    fun b _ => ⟨⟨hp.positive, trivial, rfl⟩, ?_, ?_, hp.guards, trivial, trivial⟩⟩
  · intro u hu
    have hu' : ∀ u, u ∈ (Query.withVar v (.and f (strictLel g v { val := b }))).uses d T depth [] →
        u ∈ (g v, .bots v) :: (Query.withVar v f).uses d T depth [] := by
      intro u hu
      simp only [Query.uses, strictLel, Atom.uses, Term.res, suffix, List.take_nil, List.flatMap_cons, List.flatMap_nil,
        List.append_nil, List.nil_append, List.mem_append, List.mem_singleton] at hu
      grind [Query.uses]
    have hn : (Query.withVar v (.and f (strictLel g v { val := b }))).names d T [] = (Query.withVar v f).names d T [] := by
      simp [Query.names, strictLel]
    obtain ⟨h1, h2⟩ := hh u (hu' u hu)
    rw [hn]
    exact ⟨h1, fun u1 hu1 => h2 u1 (hu' u1 hu1)⟩
  · simpa [Query.binders, strictLel] using hp.distinct
  · simpa [Query.binders, strictLel] using hp.names

/-- C48 for strict subsumption: at most `dim + 2` calls, for minimal instances … -/
theorem C48_subsumption (hc : Correct sv) (hr : Reliable sv) {f : Query} (hg : (Query.withVar v f).Good d nodes T depth)
    (hp : (Query.withVar v f).Plain) (hs : Ready d nodes ((Query.withVar v f).names d T []) s) {fuel : Nat} (hfuel : d < fuel) :
    ∃ o st' s', computeOptim sv (fun _ => f.comp) (fun _ k => (strictSubs v k).comp) v true fuel st s = (.ok o, st', s') ∧
      o.calls ≤ d + 2 := by
  refine C48_rank hc hr (optimises_subs hg hp).poses hs (fun b => d - numBot d (den b)) d (fun _ _ _ => by omega) ?_ hfuel
  intro b b' hb hb' _ _ hR
  rw [about_strictSubs] at hR
  rw [valsOf_den hb] at hR
  have := numBot_lt hR.1 hR.2
  have := countFeats_le' d fun i => (den b' i).isNone
  unfold numBot at *
  omega

/-- … and for maximal ones. -/
theorem C48_supersumption (hc : Correct sv) (hr : Reliable sv) {f : Query} (hg : (Query.withVar v f).Good d nodes T depth)
    (hp : (Query.withVar v f).Plain) (hs : Ready d nodes ((Query.withVar v f).names d T []) s) {fuel : Nat} (hfuel : d < fuel) :
    ∃ o st' s', computeOptim sv (fun _ => f.comp) (fun _ k => (strictSups v k).comp) v true fuel st s = (.ok o, st', s') ∧
      o.calls ≤ d + 2 := by
  refine C48_rank hc hr (optimises_sups hg hp).poses hs (fun b => numBot d (den b)) d (fun _ _ _ => countFeats_le' _ _) ?_ hfuel
  intro b b' hb hb' _ _ hR
  rw [about_strictSups, valsOf_den hb] at hR
  exact numBot_lt hR.1 hR.2

/-- C48 for strict LEL: at most `dim + 2` calls. -/
theorem C48_lel (hc : Correct sv) (hr : Reliable sv) {f : Query} {g : QVar → QVar} (hg : (Query.withVar v f).Good d nodes T depth)
    (hp : (Query.withVar v f).Plain)
    (hh : Hygienic d T ((Query.withVar v f).names d T []) ((g v, .bots v) :: (Query.withVar v f).uses d T depth []))
    (hs : Ready d nodes ((Query.withVar v f).names d T []) s) {fuel : Nat} (hfuel : d < fuel) :
    ∃ o st' s', computeOptim sv (fun _ => f.comp) (fun _ k => (strictLel g v k).comp) v true fuel st s = (.ok o, st', s') ∧
      o.calls ≤ d + 2 := by
  refine C48_rank hc hr (optimises_lel hg hp hh).poses hs (fun b => d - numBot d (den b)) d (fun _ _ _ => by omega) ?_ hfuel
  intro b b' hb hb' _ _ hR
  rw [about_strictLel, valsOf_den hb] at hR
  have := countFeats_le' d fun i => (den b' i).isNone
  unfold numBot at *
  omega

/-- The formula of compute/optimum_test.go:18-29: `v` subsumes 111 and is not 000 (all undefined). -/
def testFormula (v : QVar) : Query :=
  .and (.atom (.subs (.var v) (.const { val := [ONE, ONE, ONE] }))) (.not (.atom (.subs (.var v) (.const { val := [BOT, BOT, BOT] }))))

theorem testFormula_good : (Query.withVar ['x'] (testFormula ['x'])).Good 3 [] exTree (fun _ => 0) := by
  refine ⟨by omega, ⟨rfl, subs_fits (by decide) (.inl ⟨rfl, rfl⟩), subs_fits (by decide) (.inl ⟨rfl, rfl⟩)⟩, ?_⟩
  intro u hu
  simp [Query.uses, testFormula, Atom.uses] at hu

theorem testFormula_plain : (Query.withVar ['x'] (testFormula ['x'])).Plain :=
  ⟨⟨trivial, rfl⟩, by decide, by decide, trivial, trivial⟩

/-- Concrete case of C46 and C48, the test of compute/optimum_test.go: the call returns an instance with
one defined feature, after at most 5 calls, whatever solutions the solver finds. -/
theorem C46_test (hc : Correct sv) (hr : Reliable sv) :
    ∃ o st' s', computeOptim sv (fun _ => (testFormula ['x']).comp) (fun _ k => (strictLel VarGenBotCount ['x'] k).comp) ['x'] true 4 st
        (BasicQContext 3 []) = (.ok o, st', s') ∧
      o.found = true ∧ o.calls ≤ 5 ∧
      (o.value.val = [BOT, BOT, ONE] ∨ o.value.val = [BOT, ONE, BOT] ∨ o.value.val = [ONE, BOT, BOT]) := by
  have hh : Hygienic 3 exTree ((Query.withVar ['x'] (testFormula ['x'])).names 3 exTree [])
      ((VarGenBotCount ['x'], .bots ['x']) :: (Query.withVar ['x'] (testFormula ['x'])).uses 3 exTree (fun _ => 0) []) :=
    .of_eq (by decide)
  have hO := optimises_lel testFormula_good testFormula_plain hh
  have hready := Ready.fresh_ctx 3 [] ((Query.withVar ['x'] (testFormula ['x'])).names 3 exTree [])
  obtain ⟨o, st', s', e, hcalls⟩ := C48_lel (st := st) hc hr testFormula_good testFormula_plain hh hready (fuel := 4) (by omega)
  have hab : ∀ e : PInst, (testFormula ['x']).about 3 exTree ['x'] e ↔
      Subsumes 3 e (den [ONE, ONE, ONE]) ∧ ¬ Subsumes 3 e (den [BOT, BOT, BOT]) := by
    intro e; simp [testFormula, Query.about, Query.fo, Atom.says, Term.val, upd]
  have hfound : o.found = true := by
    cases hf : o.found with
    | true => rfl
    | false =>
      have := (C47_absent_partial (st := st) hc hr hO.poses hready 4).1 ⟨o, st', s', e, hf⟩ (den [ONE, BOT, BOT])
      exact absurd ((hab _).2 (by decide)) this
  refine ⟨o, st', s', e, hfound, by omega, ?_⟩
  obtain ⟨h1, h2, h3, h4⟩ := C46_queries hc hO hready e hfound
  rw [hab] at h3
  have h5 := h4 (den [ONE, BOT, BOT]) ((hab _).2 (by decide))
  rw [about_strictLel] at h5
  have hm := mem_allVals (d := 3) ⟨h1, h2⟩
  revert h3 h5 hm
  generalize o.value.val = b
  intro h3 h5 hm
  exact (by decide +kernel : ∀ b ∈ allVals 3, (Subsumes 3 (den b) (den [ONE, ONE, ONE]) ∧ ¬ Subsumes 3 (den b) (den [BOT, BOT, BOT])) →
    ¬ numBot 3 (den b) < numBot 3 (den [ONE, BOT, BOT]) →
    (b = [BOT, BOT, ONE] ∨ b = [BOT, ONE, BOT] ∨ b = [ONE, BOT, BOT])) b hm h3 h5

/-- Concrete case of C47: no instance subsumes 111 and does not. -/
example (hc : Correct sv) (hr : Reliable sv) :
    let f : Query := .and (.atom (.subs (.var ['x']) (.const { val := [ONE, ONE, ONE] })))
      (.not (.atom (.subs (.var ['x']) (.const { val := [ONE, ONE, ONE] }))))
    ∃ o st' s', computeOptim sv (fun _ => f.comp) (fun _ k => (strictSubs ['x'] k).comp) ['x'] true 0 st (BasicQContext 3 []) =
      (.ok o, st', s') ∧ o.found = false := by
  intro f
  have hg : (Query.withVar ['x'] f).Good 3 [] exTree (fun _ => 0) :=
    ⟨by omega, ⟨rfl, subs_fits (by decide) (.inl ⟨rfl, rfl⟩), subs_fits (by decide) (.inl ⟨rfl, rfl⟩)⟩,
      by intro u hu; simp [Query.uses, f, Atom.uses] at hu⟩
  have hp : (Query.withVar ['x'] f).Plain := ⟨⟨trivial, rfl⟩, by decide, by decide, trivial, trivial⟩
  refine (C47_absent_partial hc hr (optimises_subs hg hp).poses (Ready.fresh_ctx 3 [] _) 0).2 fun e he => ?_
  simp [f, Query.about, Query.fo, Atom.says] at he

/-- Concrete case of C48: minimal and maximal instances of the formula of the test, after at most 5 calls. -/
example (hc : Correct sv) (hr : Reliable sv) :
    (∃ o st' s', computeOptim sv (fun _ => (testFormula ['x']).comp) (fun _ k => (strictSubs ['x'] k).comp) ['x'] true 4 st
      (BasicQContext 3 []) = (.ok o, st', s') ∧ o.calls ≤ 5) ∧
    ∃ o st' s', computeOptim sv (fun _ => (testFormula ['x']).comp) (fun _ k => (strictSups ['x'] k).comp) ['x'] true 4 st
      (BasicQContext 3 []) = (.ok o, st', s') ∧ o.calls ≤ 5 :=
  ⟨C48_subsumption hc hr testFormula_good testFormula_plain (Ready.fresh_ctx 3 [] _) (by omega),
    C48_supersumption hc hr testFormula_good testFormula_plain (Ready.fresh_ctx 3 [] _) (by omega)⟩

/-! ### C49 -/

/-- C49: if every instance that satisfies the formula has an instance below it that satisfies the formula
(as it does itself, if the order is reflexive), then `ComputeOptim` does not return: the loop needs
more than `fuel` rounds, for every `fuel`. -/
theorem C49_no_minimum (hc : Correct sv) (hr : Reliable sv) (h : Poses d nodes v fg og F R names) (hs : Ready d nodes names s)
    (hR : ∀ b, GoodVals d b → F (den b) → ∃ e, F e ∧ R e (den b)) (hF : ∃ e, F e) (fuel : Nat) :
    (computeOptim sv fg og v true fuel st s).1 = .error .diverge := by
  unfold computeOptim
  simp only [Bool.not_true, Bool.false_eq_true, if_false]
  rcases asks_step (st := st) hc h.first hs with ⟨st1, s1, b, e, hH, hFb⟩ | ⟨st1, s1, e, hu⟩ | ⟨err, st1, s1, e, hn⟩
  · rw [e]
    exact optimLoop_diverges hc hr h hR fuel 1 st1 s1 b hH hFb
  · obtain ⟨e, he⟩ := hF
    exact absurd he (hu e)
  · exact absurd hr hn

/-- C49 for orders that hold between equal instances. -/
theorem C49_reflexive (hc : Correct sv) (hr : Reliable sv) (h : Poses d nodes v fg og F R names) (hs : Ready d nodes names s)
    (hR : ∀ b, GoodVals d b → F (den b) → R (den b) (den b)) (hF : ∃ e, F e) (fuel : Nat) :
    (computeOptim sv fg og v true fuel st s).1 = .error .diverge :=
  C49_no_minimum hc hr h hs (fun b hb hF => ⟨den b, hF, hR b hb hF⟩) hF fuel

/-- Concrete case of C49: the order "subsumes", which is not strict. -/
example (hc : Correct sv) (hr : Reliable sv) (fuel : Nat) :
    (computeOptim sv (fun _ => (testFormula ['x']).comp) (fun _ k => (Query.atom (.subs (.var ['x']) (.const k))).comp) ['x'] true fuel st
      (BasicQContext 3 [])).1 = .error .diverge := by
  have hO : Optimises 3 [] exTree (fun _ => 0) ['x'] (testFormula ['x']) (fun k => .atom (.subs (.var ['x']) (.const k))) := by
    refine ⟨testFormula_good, testFormula_plain, fun b hb => ⟨by omega, ⟨rfl, testFormula_good.fits.2, subs_fits hb (.inl ⟨rfl, rfl⟩)⟩, ?_⟩,
      fun b hb => ⟨⟨testFormula_plain.positive, trivial⟩, by simpa [Query.binders] using testFormula_plain.distinct,
        by simpa [Query.binders] using testFormula_plain.names, testFormula_plain.guards, trivial⟩⟩
    intro u hu
    simp [Query.uses, testFormula, Atom.uses] at hu
  refine C49_reflexive hc hr hO.poses (Ready.fresh_ctx _ _ _) ?_ ⟨den [ONE, BOT, BOT], ?_⟩ fuel
  · intro b hb _
    rw [valsOf_den hb]
    simp [Query.about, Query.fo, Atom.says, Term.val, upd, Subsumes]
  · show (testFormula ['x']).about 3 exTree ['x'] (den [ONE, BOT, BOT])
    simp only [testFormula, Query.about, Query.fo, Atom.says, Term.val, upd, Option.getD_none, if_true]
    decide

/-! ### C50 -/

theorem optimLoop_counts {cnt : S → Nat} (hC : Counts sv cnt) (fuel : Nat) : ∀ (steps : Nat) (st : S) (s : Ctx),
    optimLoop sv fg og v fuel steps st s = (.ok o, st', s') → cnt st' + steps = cnt st + o.calls := by
  induction fuel with
  | zero => intro steps st s h; simp [optimLoop] at h
  | succ fuel ih =>
    intro steps st s h
    rw [optimLoop] at h
    have hv := hC.values [v] st s
    rcases hq : sv.values [v] st s with ⟨e | ks, st1, s1⟩ <;> rw [hq] at h hv
    · simp at h
    · cases ks with
      | nil => simp at h
      | cons k ks =>
        simp only at h hv
        have hst := hC.step (some (encWithVar v (some (encAnd (fg v) (og v k))))) st1 s1.reset
        rcases hq2 : sv.step (some (encWithVar v (some (encAnd (fg v) (og v k))))) st1 s1.reset with ⟨(_ | e) | ⟨⟩, st2, s2⟩ <;>
          rw [hq2] at h hst
        · simp only [Prod.mk.injEq, Except.ok.injEq] at h hst
          obtain ⟨rfl, rfl, rfl⟩ := h
          simp only
          omega
        · simp at h
        · simp only at h hst
          have := ih _ _ _ h
          omega

/-- C50: whatever the solver does, if `ComputeOptim` returns without error then the field `Calls` is the
number of calls of `Step` that were made. -/
theorem C50_calls {cnt : S → Nat} (hC : Counts sv cnt) {tmp : Bool} {fuel : Nat}
    (h : computeOptim sv fg og v tmp fuel st s = (.ok o, st', s')) : cnt st' = cnt st + o.calls := by
  unfold computeOptim at h
  cases tmp with
  | false =>
    simp only [Bool.not_false, if_true, Prod.mk.injEq, Except.ok.injEq] at h
    obtain ⟨rfl, rfl, rfl⟩ := h
    rfl
  | true =>
    simp only [Bool.not_true, Bool.false_eq_true, if_false] at h
    have hst := hC.step (some (encWithVar v (fg v))) st s
    rcases hq : sv.step (some (encWithVar v (fg v))) st s with ⟨(_ | e) | ⟨⟩, st1, s1⟩ <;> rw [hq] at h hst
    · simp only [Prod.mk.injEq, Except.ok.injEq] at h hst
      obtain ⟨rfl, rfl, rfl⟩ := h
      exact hst
    · simp at h
    · simp only at h hst
      have := optimLoop_counts hC fuel 1 st1 s1 h
      omega

/-- Concrete case of C50: the solver that runs an executable counts its calls. -/
example (env : Nat → Env) : Counts (binSolver env) BinSt.calls := binSolver_counts env

end

end Goexpdt.Props

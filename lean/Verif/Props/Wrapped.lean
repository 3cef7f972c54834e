import Verif.Lemmas.Wrapped
/-
C96: an error is not taken for an answer.

`QDTFAtom.Sat` and `ComputeOptim` use `errors.Is(err, UnsatError)` on whatever `Step` returns. The claim is that
an answer they give comes from the solver: the executable was run on the encoding and ended with the exit
code of that answer. It holds for all queries of the library, and for components of the user whose errors do
not wrap `UnsatError`; it fails for others.
-/
namespace Goexpdt.Props
open Goexpdt.Errs Goexpdt.Errs.Spec

/-- `errors.Is` finds an `UnsatError` wherever it is. -/
theorem C96_is (e : GoErr) : e.isUnsat = true ↔ Wraps e := wraps_iff e

/-- No error that the library makes wraps `UnsatError`: a query fails with such an error only if a component
of the user does. -/
theorem C96_quiet (q : UQuery) (h : ∀ x ∈ owns q, Quiet (some x)) : Quiet q.comp := quiet_query q h

/-- `QDTFAtom.Sat` answers only what the solver said. Missing for the full claim: components whose errors wrap
`UnsatError`, for which it is false (`C96_sat_not`). -/
theorem C96_sat_partial (env : Nat → Env) (q : UQuery) (hq : ∀ x ∈ owns q, Quiet (some x)) (negated b : Bool)
    (st st' : BinSt) (s s' : Ctx) (h : Errs.atomSat (Errs.binSolver env) q.comp negated st s = (.ok b, st', s')) :
    Said (env st.calls) q.comp s (if b = negated then 20 else 10) := by
  unfold Errs.atomSat at h
  split at h
  · rename_i f st1 s1 hs
    split at h
    · rename_i hu
      cases h
      rw [if_pos rfl]
      exact binStep_unsat (quiet_query q hq) hs hu
    · cases h
  · rename_i st1 s1 hs
    cases h
    rw [if_neg (by cases negated <;> decide)]
    exact binStep_sat hs

/-- For the library's queries the claim holds without further assumptions. -/
theorem C96_sat_library (env : Nat → Env) (q : Query) (negated b : Bool) (st st' : BinSt) (s s' : Ctx)
    (h : Errs.atomSat (Errs.binSolver env) (UQuery.ofQuery q).comp negated st s = (.ok b, st', s')) :
    Said (env st.calls) (UQuery.ofQuery q).comp s (if b = negated then 20 else 10) :=
  C96_sat_partial env _ (by rw [owns_ofQuery]; intro x hx; cases hx) negated b st st' s s' h

/-- `ComputeOptim` says that there is no solution only if the solver said so of the formula, and that a value is
the optimum only if the solver said that the formula and the order have no common solution. Missing for the
full claim: as before (`C96_optim_not`). -/
theorem C96_optim_partial (env : Nat → Env) (fg : QVar → UQuery) (og : QVar → QConst → UQuery) (v : QVar)
    (hf : ∀ x ∈ owns (fg v), Quiet (some x)) (ho : ∀ c, ∀ x ∈ owns (og v c), Quiet (some x))
    (fuel : Nat) (st st' : BinSt) (s s' : Ctx) (out : OptOutput)
    (h : Errs.computeOptim (Errs.binSolver env) (fun x => (fg x).comp) (fun x c => (og x c).comp) v true fuel st s =
      (.ok out, st', s')) :
    (out.found = false → Said (env st.calls) (UQuery.withVar v (fg v)).comp s 20) ∧
    (out.found = true → ∃ k s1,
      Said (env k) (UQuery.withVar v (UQuery.and (fg v) (og v out.value))).comp s1 20) := by
  have hf' := quiet_query _ hf
  have ho' := fun c => quiet_query _ (ho c)
  unfold Errs.computeOptim at h
  simp only [Bool.not_true, Bool.false_eq_true, if_false] at h
  split at h
  · rename_i f st1 s1 hs
    split at h
    · rename_i hu
      cases h
      exact ⟨fun _ => binStep_unsat (calm_quiet (calm_withVar hf')) hs hu, fun h => by cases h⟩
    · cases h
  · obtain ⟨h1, h2⟩ := optimLoop_said env _ _ v hf' ho' h
    exact ⟨fun h => absurd (h1.symm.trans h) (by decide), fun _ => h2⟩

/-- For quiet queries this model and the one of `Model/Compute.lean` agree, in which the solver's own answer is
the only `UnsatError`; so all theorems about the latter apply. -/
theorem C96_same (env : Nat → Env) (q : UQuery) (hq : ∀ x ∈ owns q, Quiet (some x)) (negated : Bool) (st : BinSt) (s : Ctx) :
    Goexpdt.atomSat (Goexpdt.binSolver env) (plainComp q.comp) negated st s =
      (plain (Errs.atomSat (Errs.binSolver env) q.comp negated st s).1,
        (Errs.atomSat (Errs.binSolver env) q.comp negated st s).2) :=
  atomSat_plain env (quiet_query q hq) negated st s

theorem C96_same_optim (env : Nat → Env) (fg : QVar → UQuery) (og : QVar → QConst → UQuery) (v : QVar)
    (hf : ∀ x ∈ owns (fg v), Quiet (some x)) (ho : ∀ c, ∀ x ∈ owns (og v c), Quiet (some x))
    (tmp : Bool) (fuel : Nat) (st : BinSt) (s : Ctx) :
    Goexpdt.computeOptim (Goexpdt.binSolver env) (fun x => plainComp (fg x).comp) (fun x c => plainComp (og x c).comp) v
        tmp fuel st s =
      (plain (Errs.computeOptim (Errs.binSolver env) (fun x => (fg x).comp) (fun x c => (og x c).comp) v tmp fuel st s).1,
        (Errs.computeOptim (Errs.binSolver env) (fun x => (fg x).comp) (fun x c => (og x c).comp) v tmp fuel st s).2) :=
  computeOptim_plain env _ _ v (quiet_query _ hf) (fun c => quiet_query _ (ho c)) tmp fuel st s

/-- The queries of the library are the same in both models, errors included. -/
theorem C96_library (q : Query) : plainComp (UQuery.ofQuery q).comp = q.comp := plain_ofQuery q

/-! ### where the claim fails -/

/-- The operators pass an `UnsatError` of a component on. -/
theorem C96_carry (q q2 : UQuery) (act act2 : ME CNF) (hq : q.comp = some act) (h2 : q2.comp = some act2) (s s' : Ctx)
    (e : GoErr) (h : act s = (.error (.err e), s')) (hw : Wraps e) :
    (∃ o g, (UQuery.not q).comp = some o ∧ o s = (.error (.err g), s') ∧ Wraps g) ∧
    (∃ o g, (UQuery.and q q2).comp = some o ∧ o s = (.error (.err g), s') ∧ Wraps g) ∧
    (∃ o g, (UQuery.or q q2).comp = some o ∧ o s = (.error (.err g), s') ∧ Wraps g) ∧
    (∀ s0 c, act2 s0 = (.ok c, s) →
      (∃ o g, (UQuery.and q2 q).comp = some o ∧ o s0 = (.error (.err g), s') ∧ Wraps g) ∧
      (∃ o g, (UQuery.or q2 q).comp = some o ∧ o s0 = (.error (.err g), s') ∧ Wraps g)) := by
  refine ⟨⟨_, .wrap "Not" e, rfl, ?_, .inside _ hw⟩,
    ⟨_, .wrap "And" (.wrap "Q1" e), rfl, ?_, .inside _ (.inside _ hw)⟩,
    ⟨_, .wrap "Or" (.wrap "Q1" e), rfl, ?_, .inside _ (.inside _ hw)⟩, fun s0 c h0 =>
    ⟨⟨_, .wrap "And" (.wrap "Q2" e), rfl, ?_, .inside _ (.inside _ hw)⟩,
    ⟨_, .wrap "Or" (.wrap "Q2" e), rfl, ?_, .inside _ (.inside _ hw)⟩⟩⟩
  · rw [hq]
    simp only [Errs.encNot, Errs.notBuild, ME.wrapErr, bind, h, Fail.wrap]
  · rw [hq, h2]
    simp only [Errs.encAnd, Errs.andBuild, ME.wrapErr, bind, h, Fail.wrap]
  · rw [hq, h2]
    simp only [Errs.encOr, Errs.orBuild, ME.wrapErr, bind, h, Fail.wrap]
  · rw [hq, h2]
    simp only [Errs.encAnd, Errs.andBuild, ME.wrapErr, bind, h0, h, Fail.wrap]
  · rw [hq, h2]
    simp only [Errs.encOr, Errs.orBuild, ME.wrapErr, bind, h0, h, Fail.wrap]

/-- If the encoding of a query fails with an error that wraps `UnsatError`, then `QDTFAtom.Sat` reports no error; its
answer is the flag `Negated`, and the executable is not run. -/
theorem C96_sat_not (env : Nat → Env) (q : UQuery) (act : ME CNF) (hq : q.comp = some act) (negated : Bool)
    (st : BinSt) (s s' : Ctx) (e : GoErr) (ht : (env st.calls).temp = none)
    (h : act s = (.error (.err e), s')) (hw : Wraps e) :
    Errs.atomSat (Errs.binSolver env) q.comp negated st s = (.ok negated, { st with calls := st.calls + 1 }, s') ∧
    ∀ code, ¬ Said (env st.calls) q.comp s code := by
  have hf : (Fail.err e).isUnsat = true := (wraps_iff e).mpr hw
  constructor
  · simp only [Errs.atomSat, Errs.binSolver, Errs.binStep, ht, hq, h, hf, if_true]
  · rintro code ⟨act', c, s1, file, o, e, h1, h2, -⟩
    rw [hq] at h1; cases h1
    rw [h] at h2; cases h2

/-- A component whose encoding asks a solver about another query and passes its error on. -/
def asking : UQuery := .own (ME.throw (.err (.wrap "subquery" .unsat)))

/-- A formula that all instances satisfy. -/
def noCondition : UQuery := .own (pure {})

/-- An executable that answers each time that the formula is satisfiable, with the value `0` for the
feature. -/
def alwaysYes : Nat → Env := fun _ =>
  { temp := none, create := some none, run := fun _ => .exited 10 "v 1 -2 -3 0".toList [] }

/-- `ComputeOptim` reports an optimum, or that there is no solution, though the executable answers each time that
the formula is satisfiable, and no error. -/
theorem C96_optim_not :
    (∃ st s, Errs.computeOptim (Errs.binSolver alwaysYes) (fun _ => noCondition.comp) (fun _ _ => asking.comp) "x".toList true 2 {}
      { dim := 1, nodes := [] } = (.ok ⟨true, { val := [ZERO] }, 2⟩, st, s)) ∧
    (∃ st s, Errs.computeOptim (Errs.binSolver alwaysYes) (fun _ => asking.comp) (fun _ _ => noCondition.comp) "x".toList true 2 {}
      { dim := 1, nodes := [] } = (.ok ⟨false, {}, 1⟩, st, s)) ∧
    ∀ k q s, ¬ Said (alwaysYes k) q s 20 := by
  refine ⟨⟨_, _, rfl⟩, ⟨_, _, rfl⟩, ?_⟩
  rintro k q s ⟨_, _, _, f, o, e, -, -, -, h⟩
  simp only [alwaysYes, Run.exited.injEq] at h
  exact absurd h.1 (by decide)

/-! ### examples -/

/-- A query of the user's and the library's components that meets the assumption. -/
example : ∀ x ∈ owns (.and noCondition (.not (.own (ME.throw (.err (.wrap "a" (.new "disk full"))))))), Quiet (some x) := by
  intro x hx act e
  cases e
  simp only [owns, noCondition, List.cons_append, List.nil_append, List.mem_cons, List.not_mem_nil, or_false] at hx
  rcases hx with rfl | rfl
  · intro s f s' h; cases h
  · intro s f s' h; cases h; rintro (_ | ⟨_, ⟨⟩⟩)

/-- It does not hold of `asking`. -/
example : ¬ Quiet asking.comp := fun h =>
  h _ rfl { dim := 1, nodes := [] } _ _ rfl (.inside _ .self)

/-- An answer, as in the hypothesis of `C96_sat_partial`. -/
example : (Errs.atomSat (Errs.binSolver alwaysYes) (UQuery.withVar "x".toList noCondition).comp false {} { dim := 1, nodes := [] }).1 =
    .ok true := rfl

/-- Through a universal quantifier, where the error of the component passes several functions, the answer is
"not satisfiable" all the same. -/
example : (Errs.atomSat (Errs.binSolver alwaysYes)
    (UQuery.forallG { id := "c".toList } (.and asking noCondition)).comp false {} { dim := 1, nodes := [⟨true, -1, -1, -1⟩] }).1 =
    .ok false := by decide +kernel

/-- An error that is joined with others is found too. -/
example : Wraps (.wrap "And" (.join (.new "disk full") (.wrap "Q1" .unsat))) := .inside _ (.right (.inside _ .self))

/-- Another error is returned. -/
example : (Errs.atomSat (Errs.binSolver alwaysYes)
    (UQuery.not (.own (ME.throw (.err (.new "disk full"))))).comp true {} { dim := 1, nodes := [] }).1 =
    .error (.err (.wrap "Not" (.new "disk full"))) := rfl

end Goexpdt.Props

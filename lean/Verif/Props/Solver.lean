import Verif.Props.Compute
/-
The constructor of the solver that runs an executable: C63.
-/
namespace Goexpdt.Props
open Goexpdt Spec

/-- C63 is false: for a path that exists there is no error, whatever is there; also if it cannot be executed. -/
theorem C63_not_checked (env : Nat → Env) : ∃ sv, newBinSolver none env = .ok sv := ⟨_, rfl⟩

/-- An environment with a program that does not solve anything and exits with 20. -/
def exConstant : Env := ⟨none, some none, fun _ => .exited 20 [] []⟩

/-- C63 is false, and it matters: there is a program that is not a solver, for which `BinSolver` returns no error and then a query that
is true is evaluated as false, without error. -/
theorem C63_refuted : ¬ Solves exConstant.run ∧
    (∃ sv st, newBinSolver none (fun _ => exConstant) = .ok (sv, st) ∧
      ∃ st' s', atomSat sv (Query.withVar ['x'] (.atom (.full (.var ['x'])))).comp false st (BasicQContext 2 exNodes) = (.ok false, st', s')) ∧
    ((Query.withVar ['x'] (.atom (.full (.var ['x'])))).fo 2 exTree (fun _ => bot) (fun _ => none)) := by
  refine ⟨fun h => ?_, ⟨_, _, rfl, ?_⟩, ⟨fun _ => some true, ?_⟩⟩
  · rcases h "p cnf 0 0\n".toList 0 0 [] (by decide +kernel) (by simp [BoundedBy]) (by simp [NonZero]) with ⟨_, _, _, h, _⟩ | ⟨_, _, _, h⟩
    · simp [exConstant] at h
    · exact h ⟨fun _ => true, by simp [clausesTrue]⟩
  · exact ⟨_, _, rfl⟩
  · simp [Query.fo, Atom.says, Term.val, upd, Full]

/-- C63, what holds: an error is returned exactly if there is nothing at the path (or it cannot be told, `os.Stat` fails). A program that
cannot be executed, or that never exits with 10 or 20, is found out by the first evaluation: no query is reported as true or false, and
`ComputeOptim` returns nothing but errors. -/
theorem C63_partial (stat : Option String) (env : Nat → Env) :
    ((∃ m, newBinSolver stat env = .error (.msg m)) ↔ stat ≠ none) ∧
    ∀ sv st, newBinSolver stat env = .ok (sv, st) →
      (∀ k t out err, (env k).run t ≠ .exited 10 out err ∧ (env k).run t ≠ .exited 20 out err) →
      ∀ st s, (∀ q negated b, (atomSat sv q negated st s).1 ≠ .ok b) ∧
        ∀ fg og v fuel o, (computeOptim sv fg og v true fuel st s).1 ≠ .ok o := by
  refine ⟨?_, ?_⟩
  · cases stat <;> simp [newBinSolver]
  · intro sv st0 h hr st s
    cases stat with
    | some m => simp [newBinSolver] at h
    | none =>
      simp only [newBinSolver, Except.ok.injEq, Prod.mk.injEq] at h
      obtain ⟨rfl, -⟩ := h
      have key : ∀ q, ∃ e st' s', (binSolver env).step q st s = (.error (.other e), st', s') := by
        intro q
        obtain ⟨h1, h2, -⟩ := C45_step (env st.calls) q st s
        rcases hb : binStep (env st.calls) q st s with ⟨r, st', s'⟩
        rw [hb] at h1 h2
        match r with
        | .ok () =>
          obtain ⟨_, c, _, out, err, _, _, _, _, h⟩ := h1.1 rfl
          exact absurd h (hr _ _ _ _).1
        | .error .unsat =>
          obtain ⟨_, c, _, out, err, _, _, _, _, h⟩ := h2.1 rfl
          exact absurd h (hr _ _ _ _).2
        | .error (.other e) => exact ⟨e, st', s', hb⟩
      refine ⟨fun q negated b => ?_, fun fg og v fuel o => ?_⟩
      · obtain ⟨e, st', s', h⟩ := key q
        rw [C42_error q negated st st' s s' e h]
        simp
      · obtain ⟨e, st', s', h⟩ := key (some (encWithVar v (fg v)))
        simp [computeOptim, h]

example : ∃ sv st, newBinSolver none (fun _ => ⟨none, some none, fun _ => .failed "permission denied"⟩) = .ok (sv, st) ∧
    ∃ st' s', atomSat sv (Query.withVar ['x'] (.atom (.full (.var ['x'])))).comp false st (BasicQContext 2 exNodes) =
      (.error (.msg "permission denied"), st', s') := ⟨_, _, rfl, _, _, rfl⟩

end Goexpdt.Props

import Verif.Lemmas.Solver
import Verif.Props.Dimacs
/- The solver that runs an executable. -/
namespace Goexpdt
open Spec Props

/-- `β` on the numbers up to `n`. -/
def cut (n : Int) (β : Val) : Val := fun k => if (k : Int) ≤ n then β k else false

theorem litTrue_cut {n : Int} {β : Val} {l : Int} (h : (l.natAbs : Int) ≤ n) : litTrue (cut n β) l ↔ litTrue β l := by
  unfold litTrue cut; simp only [if_pos h]

theorem clausesTrue_cut {n : Int} {β : Val} {cls : List Clause} (h : BoundedBy n cls) (ht : clausesTrue β cls) :
    clausesTrue (cut n β) cls := by
  intro cl hcl
  obtain ⟨l, hl, hb⟩ := ht cl hcl
  exact ⟨l, hl, (litTrue_cut (h cl hcl l hl)).2 hb⟩

theorem prints_cut {n : Int} {β : Val} {out : List Char} (h : Prints n β out) : Prints n (cut n β) out := by
  obtain ⟨ls, h1, h2, h3, h4⟩ := h
  exact ⟨ls, h1, h2, h3, fun k hk h0 => ⟨(h4 k hk h0).1, (litTrue_cut (h4 k hk h0).1).2 (h4 k hk h0).2⟩⟩

theorem models_iff_clauses {β : Val} {c : CNF} : clausesTrue β (c.sClauses ++ c.cClauses) ↔ Models β c := by
  unfold Models SemTrue ConTrue clausesTrue
  simp only [List.mem_append]
  exact ⟨fun h => ⟨fun cl hc => h cl (.inl hc), fun cl hc => h cl (.inr hc)⟩, fun h cl hc => hc.elim (h.1 cl) (h.2 cl)⟩

theorem WF.bounded {c : CNF} (h : WF c) : BoundedBy c.tv (c.sClauses ++ c.cClauses) := by
  intro cl hc
  rcases List.mem_append.1 hc with hc | hc
  · exact h.sBound cl hc
  · exact h.cBound cl hc

theorem WF.nonZero {c : CNF} (h : WF c) : NonZero (c.sClauses ++ c.cClauses) := by
  intro cl hc
  rcases List.mem_append.1 hc with hc | hc
  · exact h.sNonZero cl hc
  · exact h.cNonZero cl hc

/-- A successful `ToFile` has written the whole text. -/
theorem toFile_content {c : CNF} {create : Option (Option (Nat × Nat))} {f : FileSt} (h : c.toFile create = (true, some f)) :
    f.content = c.toBytes := by
  obtain ⟨ls, -, -, -, h0, ⟨f1, h1, h1'⟩, h2, h3⟩ := C07_toFile c
  match create with
  | none => rw [h0] at h; simp at h
  | some none => rw [h1] at h; simp at h; rw [← h, h1']
  | some (some (k, p)) =>
    by_cases hk : ls.length ≤ k
    · obtain ⟨f2, h2, h2'⟩ := h2 k p hk; rw [h2] at h; simp at h; rw [← h, h2']
    · obtain ⟨f2, h2, -⟩ := h3 k p (by omega); rw [h2] at h; simp at h

/-- The outcome of a run on a well-formed CNF. -/
theorem solves_bytes {run : List Char → Run} (h : Solves run) {c : CNF} (hw : WF c) :
    (∃ out err β, run c.toBytes = .exited 10 out err ∧ Models β c ∧ Prints c.tv β out ∧
      ∀ k : Int, c.tv < k → β k.natAbs = false) ∨
    (∃ out err, run c.toBytes = .exited 20 out err ∧ ¬ Satisfiable c) := by
  rcases h _ _ _ _ (readDimacs_toBytes c hw) hw.bounded hw.nonZero with ⟨out, err, β, h1, h2, h3⟩ | ⟨out, err, h1, h2⟩
  · refine .inl ⟨out, err, cut c.tv β, h1, models_iff_clauses.1 (clausesTrue_cut hw.bounded h2), prints_cut h3, ?_⟩
    intro k hk
    have := hw.tv_nonneg
    unfold cut
    rw [if_neg (by omega)]
  · exact .inr ⟨out, err, h1, fun ⟨β, hβ⟩ => h2 ⟨β, models_iff_clauses.2 hβ⟩⟩

theorem binSolver_correct {env : Nat → Env} (h : ∀ k, Solves (env k).run) : Correct (binSolver env) := by
  intro act st s s' c e hw hv
  rw [show (binSolver env).step (some act) st s = binStep (env st.calls) (some act) st s from rfl]
  unfold binStep
  cases (env st.calls).temp with
  | some msg => trivial
  | none =>
    simp only [e]
    rcases ht : c.toFile (env st.calls).create with ⟨ok, f⟩
    match ok, f with
    | false, _ => trivial
    | true, none => trivial
    | true, some f =>
      simp only
      rw [toFile_content ht]
      rcases solves_bytes (h st.calls) hw with ⟨out, err, β, h1, h2, h3, h4⟩ | ⟨out, err, h1, h2⟩
      · rw [h1]
        refine ⟨rfl, β, h2, fun vs es hr => ⟨_, binValues_prints hv h3 h4 vs es hr⟩⟩
      · rw [h1]
        exact ⟨rfl, h2⟩

theorem binSolver_reliable {env : Nat → Env} (h : ∀ k, Solves (env k).run) (ht : ∀ k, (env k).temp = none)
    (hc : ∀ k, (env k).create = some none) : Reliable (binSolver env) := by
  intro act st s s' c e hw hv err he
  revert he
  show (binStep (env st.calls) (some act) st s).1 ≠ _
  unfold binStep
  obtain ⟨_, -, -, -, -, ⟨f, hf, hf'⟩, -⟩ := C07_toFile c
  simp only [e, ht, hc, hf, hf']
  rcases solves_bytes (h st.calls) hw with ⟨out, err, β, h1, -⟩ | ⟨out, err, h1, -⟩ <;> rw [h1] <;>
    simp [runSolver]

theorem binStep_calls (env : Env) (q : Comp) (st : BinSt) (s : Ctx) : (binStep env q st s).2.1.calls = st.calls + 1 := by
  unfold binStep
  cases env.temp with
  | some msg => rfl
  | none =>
    cases q with
    | none => rfl
    | some act =>
      rcases h : act s with ⟨r | c, s1⟩
      · simp [h]
      · simp only [h]
        rcases c.toFile env.create with ⟨ok, f⟩
        match ok, f with
        | false, _ => rfl
        | true, none => rfl
        | true, some f =>
          simp only
          cases runSolver (env.run f.content) with
          | error e => rfl
          | ok p => simp only; split <;> rfl

theorem binSolver_counts (env : Nat → Env) : Counts (binSolver env) BinSt.calls where
  step q st s := binStep_calls _ q st s
  values _ _ _ := rfl

end Goexpdt

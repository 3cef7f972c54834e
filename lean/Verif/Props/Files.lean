import Verif.Lemmas.Files
import Verif.Props.Compute
/-
Temporary files: C64.
-/
namespace Goexpdt.Props
open Goexpdt Spec

/-- C64: a call of `Step`, whatever its outcome (a result, an error or a panic), closes every handle that it opens and, if `os.Remove`
succeeds, leaves the files exactly as they were. If `os.Remove` fails, or the encoding never ends, there is at most one file more, and all
others have the content that they had. -/
theorem C64_step (os : OS) (h : Exclusive os) (q : Comp) (st : BinSt) (s : Ctx) (fs : FS) :
    ((stepFS os q st s fs).1 ≠ .error (.other .diverge) →
      (stepFS os q st s fs).2.2.2.handles = fs.handles ∧ (os.remove = true → (stepFS os q st s fs).2.2.2 = fs)) ∧
    Intact fs (stepFS os q st s fs).2.2.2 ∧ (stepFS os q st s fs).2.2.2.files.length ≤ fs.files.length + 1 := by
  refine ⟨stepFS_clean h q st s fs, (stepFS_grown h q st s fs).intact, ?_⟩
  obtain ⟨new, h1, h2, -⟩ := stepFS_grown h q st s fs
  rw [h2, List.length_append]
  omega

/-- C64: the step does what the step of C45 does, in which files are not modelled: the executable is run on the text of the CNF. -/
theorem C64_same_as_without_files (os : OS) (h : Exclusive os) (q : Comp) (st : BinSt) (s : Ctx) (fs : FS) :
    let r := binStep ⟨match os.temp fs with | .error m => some m | .ok _ => none, os.create, os.run⟩ q st s
    (stepFS os q st s fs).1 = r.1 ∧ (stepFS os q st s fs).2.1 = r.2.1 ∧ (stepFS os q st s fs).2.2.1 = r.2.2 := by
  obtain ⟨fs', h1, -⟩ := stepFS_eq h q st s fs
  rw [h1]
  exact ⟨rfl, rfl, rfl⟩

/-- C64: so the solver with files is a correct implementation of the interface, and C42–C51 and C55–C61 hold for it. -/
theorem C64_solver {os : Nat → OS} (he : ∀ k, Exclusive (os k)) (h : ∀ k, Solves (os k).run) :
    Correct (fsSolver os) ∧
    ((∀ k fs, ∃ p, (os k).temp fs = .ok p) → (∀ k, (os k).create = some none) → Reliable (fsSolver os)) :=
  ⟨fsSolver_correct he h, fsSolver_reliable he h⟩

/-- C64: `ComputeOptim`, whatever its outcome, leaves the handles and the files as they were, if `os.Remove` succeeds. In any case, also if it
never ends, all files have the content that they had, and there is at most one more for every call of `Step`, and one. -/
theorem C64_optim (os0 : OS) (os : Nat → OS) (h0 : Exclusive os0) (he : ∀ k, Exclusive (os k)) (fg : QVar → Comp) (og : QVar → QConst → Comp)
    (v : QVar) (fuel : Nat) (st : BinSt) (s : Ctx) (fs : FS) :
    let r := computeOptimFS os0 os fg og v fuel st s fs
    (r.1 ≠ .error .diverge → r.2.2.2.handles = fs.handles ∧ (os0.remove = true → (∀ k, (os k).remove = true) → r.2.2.2 = fs)) ∧
    Intact fs r.2.2.2 ∧ r.2.2.2.files.length + st.calls ≤ fs.files.length + r.2.1.calls + 1 := by
  intro r
  have hst : ∀ {q : Comp} {st : BinSt × FS} {s : Ctx}, ((fsSolver os).step q st s).1 = (stepFS (os st.1.calls) q st.1 s st.2).1 := rfl
  -- what the calls keep
  have k1 := fun fs1 => computeOptim_keeps (sv := fsSolver os) (R := fun a b => b.2.handles = a.2.handles) (fun h1 h2 => h2.trans h1)
    (fun q st s hd => ((stepFS_clean (he st.1.calls) q st.1 s st.2) hd).1) (fun _ _ _ => rfl) fg og v fuel (st, fs1) s
  have k2 := fun (hr : ∀ k, (os k).remove = true) fs1 =>
    computeOptim_keeps (sv := fsSolver os) (R := fun a b => b.2 = a.2) (fun h1 h2 => h2.trans h1)
      (fun q st s hd => ((stepFS_clean (he st.1.calls) q st.1 s st.2) hd).2 (hr _)) (fun _ _ _ => rfl) fg og v fuel (st, fs1) s
  have k3 := fun fs1 => computeOptim_always (sv := fsSolver os) (R := fun a b => ∃ n, b.1.calls = a.1.calls + n ∧ a.2.Grown n b.2)
    (fun a => ⟨0, rfl, .refl _⟩) (fun ⟨m, h1, h2⟩ ⟨n, h3, h4⟩ => ⟨m + n, by omega, h2.trans h4⟩)
    (fun q st s => ⟨1, stepFS_calls (he st.1.calls) q st.1 s st.2, stepFS_grown (he st.1.calls) q st.1 s st.2⟩)
    (fun _ _ _ => ⟨0, rfl, .refl _⟩) fg og v fuel (st, fs1) s
  have hr : r = computeOptimFS os0 os fg og v fuel st s fs := rfl
  clear_value r
  unfold computeOptimFS at hr
  cases ht : os0.temp fs with
  | error m =>
    simp only [createTemp, ht] at hr
    subst hr
    exact ⟨fun _ => ⟨rfl, fun _ _ => rfl⟩, fun _ _ => rfl, by simp⟩
  | ok p =>
    have hp := h0 fs p ht
    rw [createTemp_ok h0 ht] at hr
    specialize k1 (fs.withTemp p [])
    have k2 := fun hr => k2 hr (fs.withTemp p [])
    specialize k3 (fs.withTemp p [])
    rcases hc : computeOptim (fsSolver os) fg og v true fuel (st, fs.withTemp p []) s with ⟨o, st', s'⟩
    rw [hc] at k1 k2 k3
    simp only [hc] at hr
    obtain ⟨n, h1, h2⟩ := k3
    have h3 : fs.Grown (n + 1) st'.2 := by
      have : fs.Grown 1 (fs.withTemp p []) := ⟨[(p, [])], by simp, rfl, by simpa using hp⟩
      exact (this.trans h2).mono (by omega)
    by_cases hd : o = .error .diverge
    · subst hd
      simp only at hr
      subst hr
      refine ⟨fun h => absurd rfl h, h3.intact, ?_⟩
      obtain ⟨new, h4, h5, -⟩ := h3
      simp only [h5, List.length_append]
      simp only at h1
      omega
    · have hr' : r = (o, st'.1, s', cleanup os0 p st'.2) := by
        rw [hr]
        split
        · next e => simp at e; exact absurd e.1 hd
        · next e =>
          simp only [Prod.mk.injEq] at e
          obtain ⟨rfl, rfl, rfl⟩ := e
          rfl
      subst hr'
      have h4 : fs.Grown (n + 1) (cleanup os0 p st'.2) := cleanup_grown hp h2
      have hh : (cleanup os0 p st'.2).handles = fs.handles := by
        have := k1 hd
        simp only at this
        unfold cleanup
        cases os0.remove <;> simp [FS.closeH, FS.remove, this, FS.withTemp]
      refine ⟨fun _ => ⟨hh, fun hr0 hrs => ?_⟩, h4.intact, ?_⟩
      · have h5 := k2 hrs hd
        simp only at h5
        simp only [h5]
        rw [cleanup_temp hp, if_pos hr0]
      · obtain ⟨new, h5, h6, -⟩ := h4
        simp only [h6, List.length_append]
        simp only at h1
        omega

/-- C64: the result is the one of `ComputeOptim` over the solver with files; its own temporary file, which it does not use, only matters when
it cannot be created (C47). -/
theorem C64_optim_result (os0 : OS) (os : Nat → OS) (fg : QVar → Comp) (og : QVar → QConst → Comp) (v : QVar) (fuel : Nat) (st : BinSt)
    (s : Ctx) (fs : FS) :
    ∃ tmp fs1, (computeOptimFS os0 os fg og v fuel st s fs).1 = (computeOptim (fsSolver os) fg og v tmp fuel (st, fs1) s).1 ∧
      (tmp = true ↔ ∃ p, os0.temp fs = .ok p) := by
  unfold computeOptimFS createTemp
  cases ht : os0.temp fs with
  | error m =>
    refine ⟨false, fs, ?_, by simp⟩
    simp [computeOptim]
  | ok p =>
    refine ⟨true, (fs.put p []).openH p, ?_, by simp⟩
    simp only
    split
    · next e => rw [e]
    · next e => rw [e]

/-- Names that are not in use: the first free one among `x`, `xx`, … -/
private def fresh (fs : FS) : Path := List.replicate ((fs.files.map (·.1.length)).sum + 1) 'x'

private theorem le_sum {l : List Nat} {a : Nat} (h : a ∈ l) : a ≤ l.sum := by
  induction l with
  | nil => simp at h
  | cons b l ih =>
    rcases List.mem_cons.1 h with rfl | h
    · simp
    · have := ih h
      simp only [List.sum_cons]
      omega

private theorem fresh_exclusive (run : List Char → Run) (create : Option (Option (Nat × Nat))) (remove : Bool) :
    Exclusive ⟨fun fs => .ok (fresh fs), create, run, remove⟩ := by
  intro fs p hp hm
  simp only [Except.ok.injEq] at hp
  obtain ⟨f, hf, rfl⟩ := List.mem_map.1 hm
  have h1 : f.1.length ≤ (fs.files.map (·.1.length)).sum := le_sum (List.mem_map_of_mem (f := (·.1.length)) hf)
  have h2 := congrArg List.length hp
  simp [fresh] at h2
  omega

-- A step on a query that panics, with a file that was there before; and the same when the file cannot be removed.
example :
    let fs : FS := ⟨[(['x'], ['a'])], []⟩
    let os : Bool → OS := fun b => ⟨fun fs => .ok (fresh fs), some none, fun _ => .exited 10 [] [], b⟩
    (∀ b, Exclusive (os b)) ∧
    stepFS (os true) none {} (BasicQContext 1 []) fs = (.error (.other (.panic "nil pointer dereference")), { calls := 1 }, BasicQContext 1 [], fs) ∧
    (stepFS (os false) none {} (BasicQContext 1 []) fs).2.2.2 = ⟨[(['x', 'x'], []), (['x'], ['a'])], []⟩ := by
  exact ⟨fun b => fresh_exclusive _ _ _, rfl, by decide⟩

-- A step on a query that is encoded: the executable sees the text.
example :
    let fs : FS := ⟨[(['x'], ['a'])], []⟩
    let os : OS := ⟨fun fs => .ok (fresh fs), some none, fun t => .exited 10 t [], true⟩
    let r := stepFS os (some fun s => (.ok TrueCNF, s)) {} (BasicQContext 1 []) fs
    r.1 = .ok () ∧ r.2.1.output = "p cnf 0 0\n".toList ∧ r.2.2.2 = fs := by
  decide

/-- An operating system on which everything works; the executable tries all valuations. -/
private def working : OS := ⟨fun fs => .ok (fresh fs), some none, bruteRun, true⟩

/-- A disk with one file. -/
private def oneFile : FS := ⟨[(['x'], ['a'])], []⟩

/-- C64_step, C64_same_as_without_files, C64_solver and C64_optim. -/
example (h : (stepFS working (testFormula ['x']).comp {} (BasicQContext 3 []) oneFile).1 ≠ .error (.other .diverge)) :
    (stepFS working (testFormula ['x']).comp {} (BasicQContext 3 []) oneFile).2.2.2 = oneFile :=
  ((C64_step working (fresh_exclusive _ _ _) (testFormula ['x']).comp {} _ oneFile).1 h).2 rfl
example : (stepFS working (testFormula ['x']).comp {} (BasicQContext 3 []) oneFile).1 = (binStep ⟨none, some none, bruteRun⟩ (testFormula ['x']).comp {} (BasicQContext 3 [])).1 :=
  (C64_same_as_without_files working (fresh_exclusive _ _ _) (testFormula ['x']).comp {} _ oneFile).1
example : Correct (fsSolver fun _ => working) ∧ Reliable (fsSolver fun _ => working) := by
  have h := C64_solver (os := fun _ => working) (fun _ => fresh_exclusive _ _ _) fun _ => bruteRun_solves
  exact ⟨h.1, h.2 (fun _ _ => ⟨_, rfl⟩) fun _ => rfl⟩
example (fuel : Nat) :
    let r := computeOptimFS working (fun _ => working) (fun _ => (testFormula ['x']).comp) (fun _ k => (strictSubs ['x'] k).comp) ['x'] fuel {}
      (BasicQContext 3 []) oneFile
    r.1 ≠ .error .diverge → r.2.2.2 = oneFile := fun h =>
  ((C64_optim working (fun _ => working) (fresh_exclusive _ _ _) (fun _ => fresh_exclusive _ _ _) _ _ _ fuel {} _ oneFile).1 h).2 rfl fun _ => rfl

/-- C64: the condition on `os.CreateTemp` is needed: a file that was there would be removed. -/
theorem C64_exclusive_needed :
    ∃ (os : OS) (fs : FS), ¬ Intact fs (stepFS os none {} (BasicQContext 1 []) fs).2.2.2 := by
  refine ⟨⟨fun _ => .ok ['x'], some none, fun _ => .exited 10 [] [], true⟩, ⟨[(['x'], ['a'])], []⟩, fun h => ?_⟩
  have := h ['x'] (by decide)
  revert this
  decide

end Goexpdt.Props

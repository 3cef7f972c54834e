import Verif.Spec.Files
import Verif.Lemmas.SolverBin
/-
Temporary files: what a step leaves of them.
-/
namespace Goexpdt
open Spec

/-- `fs` with a temporary file, open. -/
def FS.withTemp (fs : FS) (p : Path) (content : List Char) : FS := ⟨(p, content) :: fs.files, p :: fs.handles⟩

theorem createTemp_ok {os : OS} (h : Exclusive os) {fs : FS} {p : Path} (ht : os.temp fs = .ok p) :
    createTemp os fs = (.ok p, fs.withTemp p []) := by
  unfold createTemp
  rw [ht]
  simp [FS.put, h fs p ht, FS.openH, FS.withTemp]


theorem map_other {fs : FS} {p : Path} (h : p ∉ fs.paths) (content : List Char) :
    fs.files.map (fun f => if f.1 = p then (p, content) else f) = fs.files := by
  conv => rhs; rw [← List.map_id fs.files]
  refine List.map_congr_left fun f hf => ?_
  have : f.1 ≠ p := fun e => h (e ▸ List.mem_map_of_mem hf)
  simp [this]

/-- If `ToFile` returns no error there is a file. -/
theorem toFile_some {c : CNF} {create : Option (Option (Nat × Nat))} (h : c.toFile create = (true, none)) : False := by
  unfold CNF.toFile at h
  split at h
  · simp at h
  · split at h
    · simp at h
    · split at h
      · simp at h
      · split at h <;> simp at h

theorem withTemp_put {fs : FS} {p : Path} (h : p ∉ fs.paths) (a b : List Char) : (fs.withTemp p a).put p b = fs.withTemp p b := by
  simp [FS.withTemp, FS.put, FS.paths, map_other h]

theorem withTemp_read (fs : FS) (p : Path) (a : List Char) : (fs.withTemp p a).read p = some a := by
  simp [FS.withTemp, FS.read, mapGet]

theorem withTemp_read_other {fs : FS} {p p' : Path} (h : p' ≠ p) (a : List Char) : (fs.withTemp p a).read p' = fs.read p' := by
  simp [FS.withTemp, FS.read, mapGet, Ne.symm h]

/-- Writing the CNF changes the content of the temporary file only. -/
theorem toFileAt_temp {os : OS} {p : Path} {c : CNF} {fs : FS} (h : p ∉ fs.paths) (a : List Char) :
    ∃ b, toFileAt os p c (fs.withTemp p a) = ((c.toFile os.create).1, fs.withTemp p b) ∧
      ∀ f, (c.toFile os.create).2 = some f → b = f.content := by
  unfold toFileAt
  rcases ht : c.toFile os.create with ⟨ok, f⟩
  cases f with
  | none => exact ⟨a, rfl, fun f hf => by simp at hf⟩
  | some f =>
    refine ⟨f.content, ?_, fun f' hf => by simp at hf; rw [hf]⟩
    simp only [withTemp_put h]
    have : ((fs.withTemp p []).openH p).put p f.content = (fs.withTemp p f.content).openH p := by
      rw [← withTemp_put h [] f.content]; rfl
    rw [this]
    simp [FS.closeH, FS.openH]

/-- The step after the file is created does what the step without files does, and changes the content of the temporary file only. -/
theorem stepBody_temp {os : OS} {p : Path} {fs : FS} (h : p ∉ fs.paths) (q : Comp) (st : BinSt) (s : Ctx) (a : List Char) :
    ∃ b, stepBody os p q { st with calls := st.calls + 1 } s (fs.withTemp p a) =
      ((binStep ⟨none, os.create, os.run⟩ q st s).1, (binStep ⟨none, os.create, os.run⟩ q st s).2.1,
        (binStep ⟨none, os.create, os.run⟩ q st s).2.2, fs.withTemp p b) := by
  unfold stepBody binStep
  cases q with
  | none => exact ⟨a, rfl⟩
  | some act =>
    rcases hact : act s with ⟨r | c, s1⟩
    · exact ⟨a, by simp [hact]⟩
    · obtain ⟨b, hb, hb'⟩ := toFileAt_temp (os := os) (c := c) h a
      refine ⟨b, ?_⟩
      simp only [hact, hb]
      rcases ht : c.toFile os.create with ⟨ok, f⟩
      match ok, f with
      | false, _ => simp
      | true, none =>
        exfalso
        exact toFile_some ht
      | true, some f =>
        have := hb' f (by rw [ht])
        subst this
        simp only [withTemp_read]
        cases runSolver (os.run f.content) with
        | error e => rfl
        | ok r =>
          obtain ⟨code, out⟩ := r
          simp only
          split <;> rfl

/-- The environment of the step without files. -/
def OS.env (os : OS) (fs : FS) : Env :=
  ⟨match os.temp fs with | .error m => some m | .ok _ => none, os.create, os.run⟩

theorem cleanup_temp {os : OS} {p : Path} {fs : FS} (h : p ∉ fs.paths) (b : List Char) :
    cleanup os p (fs.withTemp p b) = if os.remove then fs else { fs with files := (p, b) :: fs.files } := by
  have : fs.files.filter (fun f => !decide (f.1 = p)) = fs.files := by
    rw [List.filter_eq_self]
    intro f hf
    have : f.1 ≠ p := fun e => h (e ▸ List.mem_map_of_mem hf)
    simpa using this
  unfold cleanup
  cases os.remove <;> simp [FS.closeH, FS.withTemp, FS.remove, this]

/-- The outcomes of a step. -/
theorem stepFS_eq {os : OS} (h : Exclusive os) (q : Comp) (st : BinSt) (s : Ctx) (fs : FS) :
    ∃ fs', stepFS os q st s fs = ((binStep (os.env fs) q st s).1, (binStep (os.env fs) q st s).2.1, (binStep (os.env fs) q st s).2.2, fs') ∧
      (fs' = fs ∨ ∃ p b, p ∉ fs.paths ∧
        (((binStep (os.env fs) q st s).1 = .error (.other .diverge) ∧ fs' = fs.withTemp p b) ∨
          ((binStep (os.env fs) q st s).1 ≠ .error (.other .diverge) ∧ os.remove = false ∧ fs' = { fs with files := (p, b) :: fs.files }))) := by
  unfold stepFS OS.env
  cases ht : os.temp fs with
  | error m =>
    refine ⟨fs, ?_, .inl rfl⟩
    simp [createTemp, ht, binStep]
  | ok p =>
    have hp := h fs p ht
    rw [createTemp_ok h ht]
    obtain ⟨b, hb⟩ := stepBody_temp (os := os) hp q st s []
    simp only [hb]
    rcases hr : binStep ⟨none, os.create, os.run⟩ q st s with ⟨r, st', s'⟩
    by_cases hd : r = .error (.other .diverge)
    · subst hd
      exact ⟨_, rfl, .inr ⟨p, b, hp, .inl ⟨rfl, rfl⟩⟩⟩
    · refine ⟨cleanup os p (fs.withTemp p b), ?_, ?_⟩
      · split
        · next e => simp at e; exact absurd e.1 hd
        · next e =>
          simp only [Prod.mk.injEq] at e
          obtain ⟨rfl, rfl, rfl, rfl⟩ := e
          rfl
      · rw [cleanup_temp hp]
        cases hrm : os.remove with
        | true => exact .inl (by simp)
        | false => exact .inr ⟨p, b, hp, .inr ⟨hd, rfl, by simp⟩⟩

/-- A correct implementation of the interface, with files. -/
theorem fsSolver_correct {os : Nat → OS} (he : ∀ k, Exclusive (os k)) (h : ∀ k, Solves (os k).run) : Correct (fsSolver os) := by
  intro act st s s' c e hw hv
  obtain ⟨fs', h1, -⟩ := stepFS_eq (he st.1.calls) (some act) st.1 s st.2
  have h2 := binSolver_correct (env := fun _ => (os st.1.calls).env st.2) (fun _ => h st.1.calls) act st.1 s s' c e hw hv
  have h3 : (fsSolver os).step (some act) st s = ((binStep ((os st.1.calls).env st.2) (some act) st.1 s).1,
      ((binStep ((os st.1.calls).env st.2) (some act) st.1 s).2.1, fs'), (binStep ((os st.1.calls).env st.2) (some act) st.1 s).2.2) := by
    show (match stepFS (os st.1.calls) (some act) st.1 s st.2 with | (r, b, s, fs) => (r, (b, fs), s)) = _
    rw [h1]
  rw [h3]
  rw [show (binSolver fun _ => (os st.1.calls).env st.2).step (some act) st.1 s = binStep ((os st.1.calls).env st.2) (some act) st.1 s
    from rfl] at h2
  rcases hb : binStep ((os st.1.calls).env st.2) (some act) st.1 s with ⟨r, st', s''⟩
  rw [hb] at h2
  match r with
  | .ok () =>
    obtain ⟨h4, β, h5, h6⟩ := h2
    refine ⟨h4, β, h5, fun vs es hr => ?_⟩
    obtain ⟨st'', h7⟩ := h6 vs es hr
    have h7 : binValues vs st' s' = (.ok (vs.map fun v => { val := valsOf s'.dim (es v) }), st'', s') := h7
    refine ⟨(st'', fs'), ?_⟩
    show (match binValues vs st' s' with | (r, b, s) => (r, (b, fs'), s)) = _
    rw [h7]
  | .error .unsat => exact h2
  | .error (.other e) => trivial

theorem fsSolver_reliable {os : Nat → OS} (he : ∀ k, Exclusive (os k)) (h : ∀ k, Solves (os k).run)
    (ht : ∀ k fs, ∃ p, (os k).temp fs = .ok p) (hc : ∀ k, (os k).create = some none) : Reliable (fsSolver os) := by
  intro act st s s' c e hw hv err
  obtain ⟨fs', h1, -⟩ := stepFS_eq (he st.1.calls) (some act) st.1 s st.2
  obtain ⟨p, hp⟩ := ht st.1.calls st.2
  have h2 := binSolver_reliable (env := fun _ => (os st.1.calls).env st.2) (fun _ => h st.1.calls)
    (fun _ => by simp [OS.env, hp]) (fun _ => hc st.1.calls) act st.1 s s' c e hw hv err
  have h3 : ((fsSolver os).step (some act) st s).1 = (binStep ((os st.1.calls).env st.2) (some act) st.1 s).1 := by
    show (match stepFS (os st.1.calls) (some act) st.1 s st.2 with | (r, b, s, fs) => (r, (b, fs), s)).1 = _
    rw [h1]
  rw [h3]
  exact h2

/-- A relation that every call of the solver keeps, unless it runs forever, is kept by the loop of `ComputeOptim`. -/
theorem optimLoop_keeps {S : Type} {sv : Solver S} {R : S → S → Prop} (htr : ∀ {a b c}, R a b → R b c → R a c)
    (hs : ∀ q st s, (sv.step q st s).1 ≠ .error (.other .diverge) → R st (sv.step q st s).2.1)
    (hv : ∀ vs st s, R st (sv.values vs st s).2.1) (fg : QVar → Comp) (og : QVar → QConst → Comp) (v : QVar) (fuel : Nat) :
    ∀ n st s, (optimLoop sv fg og v fuel n st s).1 ≠ .error .diverge → R st (optimLoop sv fg og v fuel n st s).2.1 := by
  induction fuel with
  | zero => intro n st s h; exact absurd rfl h
  | succ fuel ih =>
    intro n st s
    unfold optimLoop
    have h1 := hv [v] st s
    rcases hr : sv.values [v] st s with ⟨r, st1, s1⟩
    rw [hr] at h1
    match r with
    | .error e => exact fun _ => h1
    | .ok [] => exact fun _ => h1
    | .ok (b :: _) =>
      simp only
      have h2 := hs (some (encWithVar v (some (encAnd (fg v) (og v b))))) st1 s1.reset
      rcases hr2 : sv.step (some (encWithVar v (some (encAnd (fg v) (og v b))))) st1 s1.reset with ⟨r2, st2, s2⟩
      rw [hr2] at h2
      match r2 with
      | .error .unsat => exact fun _ => htr h1 (h2 (by simp))
      | .error (.other e) =>
        intro h
        exact htr h1 (h2 (by intro h'; simp at h'; subst h'; exact h rfl))
      | .ok () => exact fun h => htr (htr h1 (h2 (by simp))) (ih _ _ _ h)

theorem computeOptim_keeps {S : Type} {sv : Solver S} {R : S → S → Prop} (htr : ∀ {a b c}, R a b → R b c → R a c)
    (hs : ∀ q st s, (sv.step q st s).1 ≠ .error (.other .diverge) → R st (sv.step q st s).2.1)
    (hv : ∀ vs st s, R st (sv.values vs st s).2.1) (fg : QVar → Comp) (og : QVar → QConst → Comp) (v : QVar) (fuel : Nat) (st : S) (s : Ctx)
    (h : (computeOptim sv fg og v true fuel st s).1 ≠ .error .diverge) : R st (computeOptim sv fg og v true fuel st s).2.1 := by
  revert h
  unfold computeOptim
  simp only [Bool.not_true, Bool.false_eq_true, if_false]
  have h2 := hs (some (encWithVar v (fg v))) st s
  rcases hr2 : sv.step (some (encWithVar v (fg v))) st s with ⟨r2, st2, s2⟩
  rw [hr2] at h2
  match r2 with
  | .error .unsat => exact fun _ => h2 (by simp)
  | .error (.other e) =>
    intro h
    exact h2 (by intro h'; simp at h'; subst h'; exact h rfl)
  | .ok () => exact fun h => htr (h2 (by simp)) (optimLoop_keeps (R := R) htr hs hv fg og v fuel 1 st2 s2 h)

/-- The same for relations that also hold after calls that run forever. -/
theorem computeOptim_always {S : Type} {sv : Solver S} {R : S → S → Prop} (hrf : ∀ a, R a a) (htr : ∀ {a b c}, R a b → R b c → R a c)
    (hs : ∀ q st s, R st (sv.step q st s).2.1) (hv : ∀ vs st s, R st (sv.values vs st s).2.1) (fg : QVar → Comp)
    (og : QVar → QConst → Comp) (v : QVar) (fuel : Nat) (st : S) (s : Ctx) : R st (computeOptim sv fg og v true fuel st s).2.1 := by
  have loop : ∀ fuel n st s, R st (optimLoop sv fg og v fuel n st s).2.1 := by
    intro fuel
    induction fuel with
    | zero => intro n st s; exact hrf st
    | succ fuel ih =>
      intro n st s
      unfold optimLoop
      have h1 := hv [v] st s
      rcases hr : sv.values [v] st s with ⟨r, st1, s1⟩
      rw [hr] at h1
      match r with
      | .error e => exact h1
      | .ok [] => exact h1
      | .ok (b :: _) =>
        simp only
        have h2 := hs (some (encWithVar v (some (encAnd (fg v) (og v b))))) st1 s1.reset
        rcases hr2 : sv.step (some (encWithVar v (some (encAnd (fg v) (og v b))))) st1 s1.reset with ⟨r2, st2, s2⟩
        rw [hr2] at h2
        match r2 with
        | .error .unsat => exact htr h1 h2
        | .error (.other e) => exact htr h1 h2
        | .ok () => exact htr (htr h1 h2) (ih _ _ _)
  unfold computeOptim
  simp only [Bool.not_true, Bool.false_eq_true, if_false]
  have h2 := hs (some (encWithVar v (fg v))) st s
  rcases hr2 : sv.step (some (encWithVar v (fg v))) st s with ⟨r2, st2, s2⟩
  rw [hr2] at h2
  match r2 with
  | .error .unsat => exact h2
  | .error (.other e) => exact h2
  | .ok () => exact htr h2 (loop _ _ _ _)

/-- `fs'` has the files of `fs`, unchanged, and at most `n` others. -/
def FS.Grown (n : Nat) (fs fs' : FS) : Prop := ∃ new : List (Path × List Char), new.length ≤ n ∧ fs'.files = new ++ fs.files ∧
  ∀ f ∈ new, f.1 ∉ fs.paths

theorem FS.Grown.intact {n : Nat} {fs fs' : FS} (h : fs.Grown n fs') : Intact fs fs' := by
  obtain ⟨new, -, h2, h3⟩ := h
  intro p hp
  unfold FS.read
  rw [h2]
  clear h2
  induction new with
  | nil => rfl
  | cons f new ih =>
    have : f.1 ≠ p := fun e => h3 f (by simp) (e ▸ hp)
    simp only [List.cons_append, mapGet, if_neg this]
    exact ih fun f hf => h3 f (by simp [hf])

theorem FS.Grown.refl (fs : FS) : fs.Grown 0 fs := ⟨[], by simp, by simp, by simp⟩

theorem FS.Grown.trans {m n : Nat} {a b c : FS} (h1 : a.Grown m b) (h2 : b.Grown n c) : a.Grown (m + n) c := by
  obtain ⟨x, hx, hx2, hx3⟩ := h1
  obtain ⟨y, hy, hy2, hy3⟩ := h2
  refine ⟨y ++ x, by simp; omega, by rw [hy2, hx2]; simp, fun f hf => ?_⟩
  rcases List.mem_append.1 hf with hf | hf
  · intro h
    refine hy3 f hf ?_
    unfold FS.paths at h ⊢
    rw [hx2]
    simp only [List.map_append, List.mem_append]
    exact .inr h
  · exact hx3 f hf

theorem FS.Grown.mono {m n : Nat} {a b : FS} (h : a.Grown m b) (hmn : m ≤ n) : a.Grown n b := by
  obtain ⟨x, hx, h⟩ := h
  exact ⟨x, by omega, h⟩

/-- After a step there is at most one more file. -/
theorem stepFS_grown {os : OS} (h : Exclusive os) (q : Comp) (st : BinSt) (s : Ctx) (fs : FS) : fs.Grown 1 (stepFS os q st s fs).2.2.2 := by
  obtain ⟨fs', h1, h2⟩ := stepFS_eq h q st s fs
  rw [h1]
  rcases h2 with rfl | ⟨p, b, hp, ⟨-, rfl⟩ | ⟨-, -, rfl⟩⟩
  · exact (FS.Grown.refl fs').mono (by omega)
  · exact ⟨[(p, b)], by simp, rfl, by simpa using hp⟩
  · exact ⟨[(p, b)], by simp, rfl, by simpa using hp⟩

/-- A step ends with the handles that were open before, unless it runs forever; and with the files too, if they can be removed. -/
theorem stepFS_clean {os : OS} (h : Exclusive os) (q : Comp) (st : BinSt) (s : Ctx) (fs : FS)
    (hd : (stepFS os q st s fs).1 ≠ .error (.other .diverge)) :
    (stepFS os q st s fs).2.2.2.handles = fs.handles ∧ (os.remove = true → (stepFS os q st s fs).2.2.2 = fs) := by
  obtain ⟨fs', h1, h2⟩ := stepFS_eq h q st s fs
  rw [h1] at hd ⊢
  rcases h2 with rfl | ⟨p, b, hp, ⟨h3, rfl⟩ | ⟨-, h3, rfl⟩⟩
  · exact ⟨rfl, fun _ => rfl⟩
  · exact absurd h3 hd
  · exact ⟨rfl, fun h4 => by rw [h3] at h4; simp at h4⟩

theorem stepFS_calls {os : OS} (h : Exclusive os) (q : Comp) (st : BinSt) (s : Ctx) (fs : FS) :
    (stepFS os q st s fs).2.1.calls = st.calls + 1 := by
  obtain ⟨fs', h1, -⟩ := stepFS_eq h q st s fs
  rw [h1]
  exact binStep_calls _ _ _ _

theorem fsStep_state (os : Nat → OS) (q : Comp) (st : BinSt × FS) (s : Ctx) :
    ((fsSolver os).step q st s).1 = (stepFS (os st.1.calls) q st.1 s st.2).1 ∧
    ((fsSolver os).step q st s).2.1 = ((stepFS (os st.1.calls) q st.1 s st.2).2.1, (stepFS (os st.1.calls) q st.1 s st.2).2.2.2) := ⟨rfl, rfl⟩

/-- Removing a temporary file among others that are new. -/
theorem cleanup_grown {os : OS} {p : Path} {fs fs' : FS} {n : Nat} (hp : p ∉ fs.paths) (h : (fs.withTemp p []).Grown n fs') :
    fs.Grown (n + 1) (cleanup os p fs') := by
  obtain ⟨new, h1, h2, h3⟩ := h
  have h4 : ∀ f ∈ new, f.1 ≠ p := fun f hf e => h3 f hf (e ▸ by simp [FS.withTemp, FS.paths])
  have h5 : ∀ f ∈ new, f.1 ∉ fs.paths := fun f hf e => h3 f hf (by
    unfold FS.paths at e ⊢
    simp only [FS.withTemp, List.map_cons, List.mem_cons]
    exact .inr e)
  unfold cleanup
  cases os.remove
  · refine ⟨new ++ [(p, [])], by simpa using h1, by simp [FS.closeH, h2, FS.withTemp], fun f hf => ?_⟩
    rcases List.mem_append.1 hf with hf | hf
    · exact h5 f hf
    · simp only [List.mem_singleton] at hf
      subst hf
      exact hp
  · refine ⟨new, by omega, ?_, h5⟩
    simp only [FS.closeH, FS.remove, h2, FS.withTemp, if_true, List.filter_append, List.filter_cons]
    rw [List.filter_eq_self.2 (fun f hf => by simpa using h4 f hf), List.filter_eq_self.2 (fun f hf => ?_)]
    · simp
    · have : f.1 ≠ p := fun e => hp (e ▸ List.mem_map_of_mem hf)
      simpa using this

end Goexpdt

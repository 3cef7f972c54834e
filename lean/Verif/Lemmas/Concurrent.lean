import Verif.Spec.Concurrent
import Verif.Lemmas.SolverBin
/-
Lemmas for C90: what a program does to the files that it has created determines what it does.
-/
namespace Goexpdt.Conc
open Goexpdt.Spec

variable {α β : Type}

/-- The program, of which the files are `own`, uses only its files, and whatever paths it gets for new ones, it ends with `Q`. -/
def wp : Prog α → Disk → (α → Disk → Prop) → Prop
  | .ret a, own, Q => Q a own
  | .temp (some msg) k, own, Q => wp (k (.error msg)) own Q
  | .temp none k, own, Q => ∀ p, own p = none → wp (k (.ok p)) (own.put p (some [])) Q
  | .create p k, own, Q => own p ≠ none ∧ wp k (own.put p (some [])) Q
  | .write p text k, own, Q => own p ≠ none ∧ wp k (own.put p ((own p).map (· ++ text))) Q
  | .read p k, own, Q => own p ≠ none ∧ wp (k (own p)) own Q
  | .remove p k, own, Q => own p ≠ none ∧ wp k (own.put p none) Q

theorem wp_mono {pr : Prog α} {own : Disk} {Q R : α → Disk → Prop} (h : wp pr own Q) (hQ : ∀ a o, Q a o → R a o) : wp pr own R := by
  induction pr generalizing own with
  | ret a => exact hQ _ _ h
  | temp fail k ih =>
    cases fail with
    | some m => exact ih _ h
    | none => exact fun p hp => ih _ (h p hp)
  | create p k ih => exact ⟨h.1, ih h.2⟩
  | write p t k ih => exact ⟨h.1, ih h.2⟩
  | read p k ih => exact ⟨h.1, ih _ h.2⟩
  | remove p k ih => exact ⟨h.1, ih h.2⟩

theorem wp_bind {pr : Prog α} {f : α → Prog β} {own : Disk} {Q : β → Disk → Prop} (h : wp pr own fun a o => wp (f a) o Q) :
    wp (pr.bind f) own Q := by
  induction pr generalizing own with
  | ret a => exact h
  | temp fail k ih =>
    cases fail with
    | some m => exact ih _ h
    | none => exact fun p hp => ih _ (h p hp)
  | create p k ih => exact ⟨h.1, ih h.2⟩
  | write p t k ih => exact ⟨h.1, ih h.2⟩
  | read p k ih => exact ⟨h.1, ih _ h.2⟩
  | remove p k ih => exact ⟨h.1, ih h.2⟩

/-! ### Disks -/

theorem Disk.put_same (d : Disk) (p : Path) (c : Option (List Char)) : d.put p c p = c := by simp [Disk.put]

theorem Disk.put_other {d : Disk} {p x : Path} (c : Option (List Char)) (h : x ≠ p) : d.put p c x = d x := by simp [Disk.put, h]

theorem Disk.put_put (d : Disk) (p : Path) (c c' : Option (List Char)) : (d.put p c).put p c' = d.put p c' := by
  funext x
  by_cases h : x = p <;> simp [Disk.put, h]

theorem Disk.put_self (d : Disk) (p : Path) : d.put p (d p) = d := by
  funext x
  by_cases h : x = p <;> simp [Disk.put, h]

/-- The files of `own` are as they were. -/
def Holds (own o : Disk) : Prop := ∀ x, own x ≠ none → o x = own x

theorem Holds.trans {a b c : Disk} (h1 : Holds a b) (h2 : Holds b c) : Holds a c :=
  fun x hx => (h2 x (by rw [h1 x hx]; exact hx)).trans (h1 x hx)

theorem Holds.refl (a : Disk) : Holds a a := fun _ _ => rfl

theorem Holds.put {own : Disk} {p : Path} {c : Option (List Char)} (h : own p = none) : Holds own (own.put p c) :=
  fun _ hx => Disk.put_other _ fun e => hx (e ▸ h)

/-! ### ToFile -/

/-- The writes one after the other. -/
private def writesF (f : FileSt) : List (List Char) → Bool × FileSt
  | [] => (true, f)
  | t :: ts =>
    match f.write t with
    | (false, f) => (false, f)
    | (true, f) => writesF f ts

private theorem writesF_append (ts us : List (List Char)) (f : FileSt) :
    writesF f (ts ++ us) = match writesF f ts with
      | (false, f) => (false, f)
      | (true, f) => writesF f us := by
  induction ts generalizing f with
  | nil => rfl
  | cons t ts ih =>
    simp only [List.cons_append, writesF]
    rcases h : f.write t with ⟨ok, f'⟩
    cases ok with
    | false => rfl
    | true => exact ih f'

private theorem writeClauses_writesF (cls : List Clause) (f : FileSt) :
    writeClauses f cls = writesF f (cls.map fun cl => clauseToDIMACS cl ++ ['\n']) := by
  induction cls generalizing f with
  | nil => rfl
  | cons cl cls ih =>
    simp only [writeClauses, List.map_cons, writesF]
    rcases h : f.write (clauseToDIMACS cl ++ ['\n']) with ⟨ok, f'⟩
    cases ok with
    | false => rfl
    | true => exact ih f'

private theorem toFile_writesF (c : CNF) (b : Option (Nat × Nat)) :
    c.toFile (some b) = ((writesF ⟨[], b⟩ c.texts).1, some (writesF ⟨[], b⟩ c.texts).2) := by
  unfold CNF.toFile CNF.texts
  simp only [List.map_append, writesF]
  rcases h : (⟨[], b⟩ : FileSt).write (dimacsHeader c) with ⟨ok, f⟩
  cases ok with
  | false => rfl
  | true =>
    simp only [writesF_append, writeClauses_writesF]
    rcases h2 : writesF f (c.sClauses.map fun cl => clauseToDIMACS cl ++ ['\n']) with ⟨ok, f⟩
    cases ok with
    | false => rfl
    | true =>
      simp only
      rcases h3 : writesF f (c.cClauses.map fun cl => clauseToDIMACS cl ++ ['\n']) with ⟨ok, f⟩
      cases ok <;> rfl

private theorem wp_writesP {p : Path} (ts : List (List Char)) {c : List Char} {b : Option (Nat × Nat)} {own : Disk} (h : own p = some c) :
    wp (writesP p b ts) own fun ok o => ok = (writesF ⟨c, b⟩ ts).1 ∧ o = own.put p (some (writesF ⟨c, b⟩ ts).2.content) := by
  induction ts generalizing c b own with
  | nil =>
    cases b <;> exact ⟨rfl, by rw [writesF, ← h, Disk.put_self]⟩
  | cons t ts ih =>
    have hn : own p ≠ none := by rw [h]; simp
    match b with
    | none =>
      refine ⟨hn, wp_mono (ih (c := c ++ t) (by simp [Disk.put_same, h])) fun ok o ⟨h1, h2⟩ => ⟨h1, ?_⟩⟩
      rw [h2, Disk.put_put]
      rfl
    | some (0, n) =>
      refine ⟨hn, rfl, ?_⟩
      simp [h, writesF, FileSt.write]
    | some (k + 1, n) =>
      refine ⟨hn, wp_mono (ih (c := c ++ t) (by simp [Disk.put_same, h])) fun ok o ⟨h1, h2⟩ => ⟨h1, ?_⟩⟩
      rw [h2, Disk.put_put]
      rfl

theorem wp_toFileP {p : Path} {create : Option (Option (Nat × Nat))} {c : CNF} {own : Disk} (h : own p ≠ none) :
    wp (toFileP create p c) own fun ok o => ok = (c.toFile create).1 ∧
      ∃ text, o = own.put p (some text) ∧ ∀ f, (c.toFile create).2 = some f → text = f.content := by
  match create with
  | none =>
    obtain ⟨x, hx⟩ := Option.ne_none_iff_exists'.1 h
    exact ⟨rfl, x, by rw [← hx, Disk.put_self], fun f hf => by simp [CNF.toFile] at hf⟩
  | some b =>
    refine ⟨h, wp_mono (wp_writesP (b := b) (c := []) _ (Disk.put_same _ _ _)) fun ok o ⟨h1, h2⟩ => ?_⟩
    rw [toFile_writesF]
    refine ⟨h1, _, by rw [h2, Disk.put_put], fun f hf => ?_⟩
    cases hf
    rfl

/-! ### Step -/

theorem wp_stepBodyP {env : Env} {p : Path} {q : Comp} {st : BinSt} {s : Ctx} {own : Disk} (ht : env.temp = none) (h : own p ≠ none) :
    wp (stepBodyP env p q st s) own fun r o => (∀ st0 : BinSt, st = { st0 with calls := st0.calls + 1 } → r = binStep env q st0 s) ∧
      ∃ text, o = own.put p (some text) := by
  obtain ⟨x, hx⟩ := Option.ne_none_iff_exists'.1 h
  have hs : own = own.put p (some x) := by rw [← hx, Disk.put_self]
  unfold stepBodyP
  cases q with
  | none => exact ⟨fun st0 e => by subst e; simp [binStep, ht], x, hs⟩
  | some act =>
    simp only
    rcases ha : act s with ⟨r, s1⟩
    cases r with
    | error e => exact ⟨fun st0 e => by subst e; simp [binStep, ht, ha], x, hs⟩
    | ok c =>
      refine wp_bind (wp_mono (wp_toFileP h) fun ok o ⟨h1, text, h2, h3⟩ => ?_)
      rcases hc : c.toFile env.create with ⟨ok', f⟩
      rw [hc] at h1 h3
      subst h1
      cases ok with
      | false => exact ⟨fun st0 e => by subst e; simp [binStep, ht, ha, hc], text, h2⟩
      | true =>
        cases f with
        | none =>
          exfalso
          cases hcr : env.create with
          | none => rw [hcr] at hc; simp [CNF.toFile] at hc
          | some b => rw [hcr, toFile_writesF] at hc; simp at hc
        | some f =>
          have ho : o p = some f.content := by rw [h2, h3 f rfl, Disk.put_same]
          simp only [Bool.not_true, Bool.false_eq_true, if_false]
          refine ⟨by simp [ho], ?_⟩
          rw [ho]
          simp only
          rcases hr : runSolver (env.run f.content) with e | ⟨code, output⟩
          · exact ⟨fun st0 e => by subst e; simp [binStep, ht, ha, hc, hr], text, h2⟩
          · simp only
            split
            · exact ⟨fun st0 e => by subst e; simp [binStep, ht, ha, hc, hr, ‹code = 20›], text, h2⟩
            · exact ⟨fun st0 e => by subst e; simp [binStep, ht, ha, hc, hr, ‹¬ code = 20›], text, h2⟩

theorem wp_stepP (env : Env) (rm : Bool) (q : Comp) (st : BinSt) (s : Ctx) (own : Disk) :
    wp (stepP env rm q st s) own fun r o => r = binStep env q st s ∧ Holds own o ∧
      (rm = true → r.1 ≠ .error (.other .diverge) → o = own) := by
  unfold stepP
  rcases ht : env.temp with _ | m
  · intro p hp
    refine wp_bind (wp_mono (wp_stepBodyP ht (by simp [Disk.put_same])) fun r o ⟨h1, text, h2⟩ => ?_)
    rw [Disk.put_put] at h2
    have h3 := h1 st rfl
    have ho : Holds own o := h2 ▸ Holds.put hp
    have hcl : wp (cleanupP rm p r) o fun r o => r = binStep env q st s ∧ Holds own o ∧
        (rm = true → r.1 ≠ .error (.other .diverge) → o = own) := by
      unfold cleanupP
      cases rm with
      | false => exact ⟨h3, ho, by simp⟩
      | true =>
        have : o.put p none = own := by rw [h2, Disk.put_put, ← hp, Disk.put_self]
        exact ⟨by simp [h2, Disk.put_same], h3, by rw [this]; exact Holds.refl _, fun _ _ => this⟩
    split
    · exact ⟨h3, ho, fun _ hd => absurd rfl hd⟩
    · exact hcl
  · exact ⟨by simp [binStep, ht], Holds.refl _, fun _ _ => rfl⟩

theorem wp_step (e : EnvP) (q : Comp) (st : BinSt) (s : Ctx) (own : Disk) :
    wp (e.step q st s) own fun r o => r = (binSolver e.env).step q st s ∧ Holds own o ∧
      ((∀ i, e.rm i = true) → r.1 ≠ .error (.other .diverge) → o = own) :=
  wp_mono (wp_stepP _ _ _ _ _ _) fun _ _ ⟨h1, h0, h2⟩ => ⟨h1, h0, fun hr => h2 (hr _)⟩

/-! ### Sat -/

/-- The program computes what the function does. -/
def Runs (e : EnvP) (m : SatP) (m' : SatM BinSt) : Prop :=
  ∀ st s own, wp (m st s) own fun r o => r = m' st s ∧ Holds own o ∧ ((∀ i, e.rm i = true) → r.1 ≠ .error .diverge → o = own)

theorem Runs.atom (e : EnvP) (q : Comp) (negated : Bool) : Runs e (atomSatP e q negated) (atomSat (binSolver e.env) q negated) := by
  intro st s own
  refine wp_bind (wp_mono (wp_step e q st s own) fun r o ⟨h1, h0, h2⟩ => ?_)
  unfold atomSat
  rw [← h1]
  rcases r with ⟨r, st1, s1⟩
  match r with
  | .error .unsat => exact ⟨rfl, h0, fun hr _ => h2 hr (by simp)⟩
  | .error (.other e) => exact ⟨rfl, h0, fun hr hd => h2 hr (by simpa using hd)⟩
  | .ok () => exact ⟨rfl, h0, fun hr _ => h2 hr (by simp)⟩

/-- The same for lists of elements. -/
inductive RunsAll (e : EnvP) : List (Option SatP) → List (Option (SatM BinSt)) → Prop where
  | nil : RunsAll e [] []
  | none {es es'} : RunsAll e es es' → RunsAll e (none :: es) (none :: es')
  | some {m m' es es'} : Runs e m m' → RunsAll e es es' → RunsAll e (some m :: es) (some m' :: es')

theorem Runs.and {e : EnvP} {es : List (Option SatP)} {es' : List (Option (SatM BinSt))} (h : RunsAll e es es') :
    Runs e (andSatP es) (andSat es') := by
  intro st s own
  induction h generalizing st s own with
  | nil => exact ⟨rfl, Holds.refl _, fun _ _ => rfl⟩
  | none h ih => exact ⟨rfl, Holds.refl _, fun _ _ => rfl⟩
  | @some m m' es es' hm h ih =>
    refine wp_bind (wp_mono (hm st s own) fun r o ⟨h1, h0, h2⟩ => ?_)
    rw [andSat, ← h1]
    rcases r with ⟨r, st1, s1⟩
    match r with
    | .error e => exact ⟨rfl, h0, fun hr hd => h2 hr hd⟩
    | .ok false => exact ⟨rfl, h0, fun hr _ => h2 hr (by simp)⟩
    | .ok true => exact wp_mono (ih st1 s1 o) fun r' o' ⟨h3, h5, h4⟩ =>
        ⟨h3, h0.trans h5, fun hr hd => (h4 hr hd).trans (h2 hr (by simp))⟩

theorem Runs.or {e : EnvP} {es : List (Option SatP)} {es' : List (Option (SatM BinSt))} (h : RunsAll e es es') :
    Runs e (orSatP es) (orSat es') := by
  intro st s own
  induction h generalizing st s own with
  | nil => exact ⟨rfl, Holds.refl _, fun _ _ => rfl⟩
  | none h ih => exact ⟨rfl, Holds.refl _, fun _ _ => rfl⟩
  | @some m m' es es' hm h ih =>
    refine wp_bind (wp_mono (hm st s own) fun r o ⟨h1, h0, h2⟩ => ?_)
    rw [orSat, ← h1]
    rcases r with ⟨r, st1, s1⟩
    match r with
    | .error e => exact ⟨rfl, h0, fun hr hd => h2 hr hd⟩
    | .ok true => exact ⟨rfl, h0, fun hr _ => h2 hr (by simp)⟩
    | .ok false => exact wp_mono (ih st1 s1 o) fun r' o' ⟨h3, h5, h4⟩ =>
        ⟨h3, h0.trans h5, fun hr hd => (h4 hr hd).trans (h2 hr (by simp))⟩

mutual
theorem Runs.comb (e : EnvP) : ∀ c : Comb, Runs e (c.satP e) (c.alone e)
  | .atom q negated => by rw [Comb.satP, Comb.alone]; exact Runs.atom e q negated
  | .and es => by rw [Comb.satP, Comb.alone]; exact Runs.and (RunsAll.combs e es)
  | .or es => by rw [Comb.satP, Comb.alone]; exact Runs.or (RunsAll.combs e es)

theorem RunsAll.combs (e : EnvP) : ∀ es : List (Option Comb), RunsAll e (Comb.satsP e es) (Comb.alones e es)
  | [] => .nil
  | none :: es => .none (RunsAll.combs e es)
  | some c :: es => .some (Runs.comb e c) (RunsAll.combs e es)
end

/-! ### ComputeOptim -/

theorem wp_optimLoopP (e : EnvP) (fg : QVar → Comp) (og : QVar → QConst → Comp) (v : QVar) (fuel steps : Nat) (st : BinSt) (s : Ctx)
    (own : Disk) : wp (optimLoopP e fg og v fuel steps st s) own fun r o => r = optimLoop (binSolver e.env) fg og v fuel steps st s ∧
      Holds own o ∧ ((∀ i, e.rm i = true) → r.1 ≠ .error .diverge → o = own) := by
  induction fuel generalizing steps st s own with
  | zero => exact ⟨rfl, Holds.refl _, fun _ _ => rfl⟩
  | succ fuel ih =>
    unfold optimLoopP optimLoop
    have hv : (binSolver e.env).values [v] st s = binValues [v] st s := rfl
    rw [hv]
    rcases binValues [v] st s with ⟨r, st1, s1⟩
    match r with
    | .error e => exact ⟨rfl, Holds.refl _, fun _ _ => rfl⟩
    | .ok [] => exact ⟨rfl, Holds.refl _, fun _ _ => rfl⟩
    | .ok (b :: bs) =>
      refine wp_bind (wp_mono (wp_step e _ st1 s1.reset own) fun r o ⟨h1, h0, h2⟩ => ?_)
      simp only
      rw [← h1]
      rcases r with ⟨r, st2, s2⟩
      match r with
      | .error .unsat => exact ⟨rfl, h0, fun hr _ => h2 hr (by simp)⟩
      | .error (.other e) => exact ⟨rfl, h0, fun hr hd => h2 hr (by simpa using hd)⟩
      | .ok () => exact wp_mono (ih _ st2 s2 o) fun r' o' ⟨h3, h5, h4⟩ =>
          ⟨h3, h0.trans h5, fun hr hd => (h4 hr hd).trans (h2 hr (by simp))⟩

theorem wp_optimBodyP (e : EnvP) (fg : QVar → Comp) (og : QVar → QConst → Comp) (v : QVar) (fuel : Nat) (st : BinSt) (s : Ctx)
    (own : Disk) : wp (optimBodyP e fg og v fuel st s) own fun r o => r = computeOptim (binSolver e.env) fg og v true fuel st s ∧
      Holds own o ∧ ((∀ i, e.rm i = true) → r.1 ≠ .error .diverge → o = own) := by
  refine wp_bind (wp_mono (wp_step e _ st s own) fun r o ⟨h1, h0, h2⟩ => ?_)
  unfold computeOptim
  simp only [Bool.not_true, Bool.false_eq_true, if_false]
  rw [← h1]
  rcases r with ⟨r, st2, s2⟩
  match r with
  | .error .unsat => exact ⟨rfl, h0, fun hr _ => h2 hr (by simp)⟩
  | .error (.other e) => exact ⟨rfl, h0, fun hr hd => h2 hr (by simpa using hd)⟩
  | .ok () => exact wp_mono (wp_optimLoopP e fg og v fuel 1 st2 s2 o) fun r' o' ⟨h3, h5, h4⟩ =>
      ⟨h3, h0.trans h5, fun hr hd => (h4 hr hd).trans (h2 hr (by simp))⟩

theorem wp_computeOptimP (temp : Option String) (rm : Bool) (e : EnvP) (fg : QVar → Comp) (og : QVar → QConst → Comp) (v : QVar)
    (fuel : Nat) (st : BinSt) (s : Ctx) (own : Disk) : wp (computeOptimP temp rm e fg og v fuel st s) own fun r o =>
      r = computeOptim (binSolver e.env) fg og v temp.isNone fuel st s ∧
      (rm = true → (∀ i, e.rm i = true) → r.1 ≠ .error .diverge → o = own) := by
  unfold computeOptimP
  cases temp with
  | some m => exact ⟨rfl, fun _ _ _ => rfl⟩
  | none =>
    intro p hp
    refine wp_bind (wp_mono (wp_optimBodyP e fg og v fuel st s _) fun r o ⟨h1, h0, h2⟩ => ?_)
    have h3 : o p ≠ none := by rw [h0 p (by simp [Disk.put_same]), Disk.put_same]; simp
    have hcl : wp (cleanupP rm p r) o fun r o => r = computeOptim (binSolver e.env) fg og v true fuel st s ∧
        (rm = true → (∀ i, e.rm i = true) → r.1 ≠ .error .diverge → o = own) := by
      unfold cleanupP
      cases rm with
      | false => exact ⟨h1, by simp⟩
      | true =>
        refine ⟨h3, h1, fun _ hr hd => ?_⟩
        rw [h2 hr hd, Disk.put_put, ← hp, Disk.put_self]
    split
    · exact ⟨h1, fun _ _ hd => absurd rfl hd⟩
    · exact hcl

/-! ### Goroutines -/

theorem wp_prog (g : Goroutine α) (own : Disk) : wp g.prog own fun a o => a = g.alone ∧ (g.Clean → o = own) := by
  induction g generalizing own with
  | done a => exact ⟨rfl, fun _ => rfl⟩
  | step e q st s k ih =>
    refine wp_bind (wp_mono (wp_step e q st s own) fun r o ⟨h1, _, h2⟩ => ?_)
    subst h1
    exact wp_mono (ih _ o) fun a o' ⟨h3, h4⟩ => ⟨h3, fun hc => (h4 hc.2.2).trans (h2 hc.1 hc.2.1)⟩
  | sat e c st s k ih =>
    refine wp_bind (wp_mono (Runs.comb e c st s own) fun r o ⟨h1, _, h2⟩ => ?_)
    subst h1
    exact wp_mono (ih _ o) fun a o' ⟨h3, h4⟩ => ⟨h3, fun hc => (h4 hc.2.2).trans (h2 hc.1 hc.2.1)⟩
  | optim temp rm e fg og v fuel st s k ih =>
    refine wp_bind (wp_mono (wp_computeOptimP temp rm e fg og v fuel st s own) fun r o ⟨h1, h2⟩ => ?_)
    subst h1
    exact wp_mono (ih _ o) fun a o' ⟨h3, h4⟩ => ⟨h3, fun hc => (h4 hc.2.2.2).trans (h2 hc.1 hc.2.1 hc.2.2.1)⟩

/-! ### Executions -/

/-- What holds at any time: every goroutine has files of its own, which are as it left them; there are no others than those at the beginning
and those of other processes. -/
structure Inv (theirs : Path → Prop) (Q : Nat → α → Disk → Prop) (d0 d : Disk) (ps : List (Prog α)) (own : Nat → Disk) (used : List Path) :
    Prop where
  rest : ∀ i p, ps[i]? = some p → wp p (own i) (Q i)
  outside : ∀ i x, ps.length ≤ i → own i x = none
  known : ∀ i x, own i x ≠ none → d x = own i x ∧ ¬ theirs x ∧ d0 x = none ∧ x ∈ used
  apart : ∀ i j x, own i x ≠ none → own j x ≠ none → i = j
  same : ∀ x, ¬ theirs x → (∀ i, own i x = none) → d x = d0 x

/-- The files of goroutine `i` change at path `x`. -/
private def change (own : Nat → Disk) (i : Nat) (x : Path) (c : Option (List Char)) : Nat → Disk :=
  fun j => if j = i then (own i).put x c else own j

private theorem change_eq (own : Nat → Disk) (i j : Nat) (x y : Path) (c : Option (List Char)) :
    change own i x c j y = if j = i ∧ y = x then c else own j y := by
  unfold change Disk.put
  by_cases h : j = i <;> by_cases h' : y = x <;> simp [h, h']

private theorem Inv.changed {theirs : Path → Prop} {Q : Nat → α → Disk → Prop} {d0 d : Disk} {ps : List (Prog α)} {own : Nat → Disk}
    {used : List Path} (h : Inv theirs Q d0 d ps own used) {i : Nat} {p : Prog α} (hi : ps[i]? = some p) {x : Path} {c : Option (List Char)}
    {p' : Prog α} (hx : own i x ≠ none ∨ d x = none ∧ ¬ theirs x) (hw : wp p' ((own i).put x c) (Q i)) :
    Inv theirs Q d0 (d.put x c) (ps.set i p') (change own i x c) (x :: used) := by
  have hil : i < ps.length := by
    rcases Nat.lt_or_ge i ps.length with h' | h'
    · exact h'
    · rw [List.getElem?_eq_none h'] at hi; simp at hi
  -- no other goroutine has the file, and it was not there at the beginning
  have hx2 : ¬ theirs x ∧ d0 x = none ∧ ∀ j, j ≠ i → own j x = none := by
    rcases hx with hx | ⟨hx, hx'⟩
    · exact ⟨(h.known i x hx).2.1, (h.known i x hx).2.2.1, fun j hj => Classical.byContradiction fun hn => hj (h.apart j i x hn hx)⟩
    · have hn : ∀ j, own j x = none := fun j => Classical.byContradiction fun hn => hn ((h.known j x hn).1 ▸ hx)
      exact ⟨hx', by rw [← h.same x hx' hn]; exact hx, fun j _ => hn j⟩
  refine ⟨fun j q hq => ?_, fun j y hj => ?_, fun j y hy => ?_, fun j k y hj hk => ?_, fun y hy hn => ?_⟩
  · by_cases hji : j = i
    · subst hji
      rw [List.getElem?_set_self hil] at hq
      cases hq
      simpa [change] using hw
    · rw [List.getElem?_set_ne (Ne.symm hji)] at hq
      simpa [change, hji] using h.rest j q hq
  · rw [List.length_set] at hj
    rw [change_eq, if_neg (by omega)]
    exact h.outside j y hj
  · rw [change_eq] at hy ⊢
    by_cases hxy : y = x
    · subst hxy
      by_cases hji : j = i
      · simp [hji, Disk.put, hx2.1, hx2.2.1]
      · rw [if_neg (by simp [hji])] at hy
        exact absurd (hx2.2.2 j hji) hy
    · rw [if_neg (by simp [hxy])] at hy ⊢
      obtain ⟨h1, h2, h3, h4⟩ := h.known j y hy
      exact ⟨by rw [Disk.put_other _ hxy, h1], h2, h3, List.mem_cons_of_mem _ h4⟩
  · rw [change_eq] at hj hk
    by_cases hxy : y = x
    · subst hxy
      by_cases hji : j = i <;> by_cases hki : k = i
      · rw [hji, hki]
      · rw [if_neg (by simp [hki])] at hk
        exact absurd (hx2.2.2 k hki) hk
      · rw [if_neg (by simp [hji])] at hj
        exact absurd (hx2.2.2 j hji) hj
      · rw [if_neg (by simp [hji])] at hj
        exact absurd (hx2.2.2 j hji) hj
    · rw [if_neg (by simp [hxy])] at hj hk
      exact h.apart j k y hj hk
  · by_cases hxy : y = x
    · subst hxy
      have := hn i
      rw [change_eq, if_pos ⟨rfl, rfl⟩] at this
      rw [Disk.put_same, this, hx2.2.1]
    · rw [Disk.put_other _ hxy]
      refine h.same y hy fun j => ?_
      have := hn j
      rwa [change_eq, if_neg (by simp [hxy])] at this

private theorem Inv.keep {theirs : Path → Prop} {Q : Nat → α → Disk → Prop} {d0 d : Disk} {ps : List (Prog α)} {own : Nat → Disk}
    {used : List Path} (h : Inv theirs Q d0 d ps own used) {i : Nat} {p : Prog α} (hi : ps[i]? = some p) {p' : Prog α}
    (hw : wp p' (own i) (Q i)) : Inv theirs Q d0 d (ps.set i p') own used := by
  have hil : i < ps.length := by
    rcases Nat.lt_or_ge i ps.length with h' | h'
    · exact h'
    · rw [List.getElem?_eq_none h'] at hi; simp at hi
  refine ⟨fun j q hq => ?_, fun j y hj => h.outside j y (by simpa using hj), h.known, h.apart, h.same⟩
  by_cases hji : j = i
  · subst hji
    rw [List.getElem?_set_self hil] at hq
    cases hq
    exact hw
  · rw [List.getElem?_set_ne (Ne.symm hji)] at hq
    exact h.rest j q hq

theorem Inv.turn {theirs : Path → Prop} {Q : Nat → α → Disk → Prop} {d0 d d' : Disk} {ps ps' : List (Prog α)} {own : Nat → Disk}
    {used : List Path} (h : Inv theirs Q d0 d ps own used) (ht : OurTurn theirs d ps d' ps') :
    ∃ own' used', Inv theirs Q d0 d' ps' own' used' := by
  obtain ⟨i, d, ps, p, d', p', hi, op⟩ := ht
  have hw := h.rest i p hi
  cases op with
  | tempFails msg k => exact ⟨_, _, h.keep hi hw⟩
  | temp k x hx hx' => exact ⟨_, _, h.changed hi (.inr ⟨hx, hx'⟩) (hw x (Classical.byContradiction fun hn => hn ((h.known i x hn).1 ▸ hx)))⟩
  | create x k => exact ⟨_, _, h.changed hi (.inl hw.1) hw.2⟩
  | write x text k => exact ⟨_, _, h.changed hi (.inl hw.1) (by rw [(h.known i x hw.1).1]; exact hw.2)⟩
  | read x k => exact ⟨_, _, h.keep hi (by rw [(h.known i x hw.1).1]; exact hw.2)⟩
  | remove x k => exact ⟨_, _, h.changed hi (.inl hw.1) hw.2⟩

theorem Inv.others {theirs : Path → Prop} {Q : Nat → α → Disk → Prop} {d0 d d' : Disk} {ps : List (Prog α)} {own : Nat → Disk}
    {used : List Path} (h : Inv theirs Q d0 d ps own used) (hs : ∀ p, ¬ theirs p → d' p = d p) : Inv theirs Q d0 d' ps own used :=
  ⟨h.rest, h.outside, fun i x hx => ⟨(hs x (h.known i x hx).2.1).trans (h.known i x hx).1, (h.known i x hx).2⟩, h.apart,
    fun x hx hn => (hs x hx).trans (h.same x hx hn)⟩

/-- What every reachable state satisfies. -/
theorem Execution.inv {theirs : Path → Prop} {gs : List (Goroutine α)} {d0 d : Disk} {ps ps0 : List (Prog α)} (h0 : ps0 = gs.map (·.prog))
    (h : Execution theirs d0 ps0 d ps) :
    ∃ own used, Inv theirs (fun i a o => ∃ g, gs[i]? = some g ∧ a = g.alone ∧ (g.Clean → o = fun _ => none)) d0 d ps own used := by
  induction h with
  | refl =>
    subst h0
    refine ⟨fun _ _ => none, [], fun i p hp => ?_, fun _ _ _ => rfl, fun _ _ h => absurd rfl h, fun _ _ _ h => absurd rfl h,
      fun _ _ _ => rfl⟩
    rw [List.getElem?_map] at hp
    cases hg : gs[i]? with
    | none => simp [hg] at hp
    | some g =>
      rw [hg] at hp
      cases hp
      exact wp_mono (wp_prog g _) fun a o ⟨h1, h2⟩ => ⟨g, rfl, h1, h2⟩
  | ours _ ht ih =>
    obtain ⟨own, used, hI⟩ := ih h0
    exact hI.turn ht
  | others _ hs ih =>
    obtain ⟨own, used, hI⟩ := ih h0
    exact ⟨own, used, hI.others hs⟩

theorem Execution.length {theirs : Path → Prop} {d0 d : Disk} {ps0 ps : List (Prog α)} (h : Execution theirs d0 ps0 d ps) :
    ps.length = ps0.length := by
  induction h with
  | refl => rfl
  | ours _ ht ih => obtain ⟨i, d, ps, p, d', p', hi, op⟩ := ht; rw [List.length_set]; exact ih
  | others _ _ ih => exact ih

/-! ### The end -/

/-- What may come next in a program. -/
inductive Next : Prog α → Prog α → Prop where
  | temp (f : Option String) (k : Except String Path → Prog α) (r : Except String Path) : Next (k r) (.temp f k)
  | create (p : Path) (k : Prog α) : Next k (.create p k)
  | write (p : Path) (t : List Char) (k : Prog α) : Next k (.write p t k)
  | read (p : Path) (k : Option (List Char) → Prog α) (c : Option (List Char)) : Next (k c) (.read p k)
  | remove (p : Path) (k : Prog α) : Next k (.remove p k)

theorem next_acc (p : Prog α) : Acc Next p := by
  induction p with
  | ret a => exact ⟨_, fun y h => by cases h⟩
  | temp f k ih => exact ⟨_, fun y h => by cases h; exact ih _⟩
  | create p k ih => exact ⟨_, fun y h => by cases h; exact ih⟩
  | write p t k ih => exact ⟨_, fun y h => by cases h; exact ih⟩
  | read p k ih => exact ⟨_, fun y h => by cases h; exact ih _⟩
  | remove p k ih => exact ⟨_, fun y h => by cases h; exact ih⟩

theorem DiskOp.next {theirs : Path → Prop} {d d' : Disk} {p p' : Prog α} (h : DiskOp theirs d p d' p') : Next p' p := by
  cases h <;> constructor

/-- One of the programs goes on. -/
def NextOf (ps' ps : List (Prog α)) : Prop := ∃ (i : Nat) (p p' : Prog α), ps[i]? = some p ∧ Next p' p ∧ ps' = ps.set i p'

theorem nextOf_acc (ps : List (Prog α)) : Acc NextOf ps := by
  induction ps with
  | nil => exact ⟨_, fun y ⟨i, p, p', h, _⟩ => by simp at h⟩
  | cons p ps ih =>
    have hp := next_acc p
    induction hp generalizing ps with
    | intro p _ ihp =>
      induction ih with
      | intro ps hps ihps =>
        refine ⟨_, fun y ⟨i, q, q', h1, h2, h3⟩ => ?_⟩
        subst h3
        cases i with
        | zero =>
          simp only [List.getElem?_cons_zero, Option.some.injEq] at h1
          subst h1
          exact ihp q' h2 ps ⟨_, hps⟩
        | succ i =>
          simp only [List.getElem?_cons_succ] at h1
          exact ihps _ ⟨i, q, q', h1, h2, rfl⟩

theorem OurTurn.next {theirs : Path → Prop} {d d' : Disk} {ps ps' : List (Prog α)} (h : OurTurn theirs d ps d' ps') : NextOf ps' ps := by
  obtain ⟨i, d, ps, p, d', p', hi, op⟩ := h
  exact ⟨i, p, p', hi, DiskOp.next op, rfl⟩

/-- A program that has not ended can go on if there is a path for a new file. -/
theorem DiskOp.exists {theirs : Path → Prop} {d : Disk} (hp : ∃ p, d p = none ∧ ¬ theirs p) (p : Prog α) (h : ∀ a, p ≠ .ret a) :
    ∃ d' p', DiskOp theirs d p d' p' := by
  obtain ⟨x, h1, h2⟩ := hp
  match p with
  | .ret a => exact absurd rfl (h a)
  | .temp none k => exact ⟨_, _, .temp d k x h1 h2⟩
  | .temp (some m) k => exact ⟨_, _, .tempFails d m k⟩
  | .create p k => exact ⟨_, _, .create d p k⟩
  | .write p t k => exact ⟨_, _, .write d p t k⟩
  | .read p k => exact ⟨_, _, .read d p k⟩
  | .remove p k => exact ⟨_, _, .remove d p k⟩

/-- There are always paths for new files. -/
theorem Inv.free {theirs : Path → Prop} {Q : Nat → α → Disk → Prop} {d0 d : Disk} {ps : List (Prog α)} {own : Nat → Disk}
    {used : List Path} (h : Inv theirs Q d0 d ps own used) (hf : ∀ l : List Path, ∃ p, p ∉ l ∧ d0 p = none ∧ ¬ theirs p) :
    ∃ p, d p = none ∧ ¬ theirs p := by
  obtain ⟨p, h1, h2, h3⟩ := hf used
  refine ⟨p, ?_, h3⟩
  rw [h.same p h3 fun i => Classical.byContradiction fun hn => h1 (h.known i p hn).2.2.2]
  exact h2

end Goexpdt.Conc

import Verif.Spec.Wrapped
/- Errors that wrap others: forgetting what they wrap, and where an `UnsatError` can come from. -/
namespace Goexpdt.Errs
open Goexpdt.Errs.Spec

/-- A computation with the texts of its errors only. -/
def plainM {α : Type} (x : ME α) : M α := fun s => (plain (x s).1, (x s).2)

theorem plainComp_some (x : ME CNF) : plainComp (some x) = some (plainM x) := rfl
theorem plainComp_none : plainComp none = none := rfl

theorem plain_ofErr {α : Type} (e : Err) : plain (.error (ofErr e) : Except Fail α) = .error e := by
  cases e <;> rfl

theorem plainM_ofM {α : Type} (x : M α) : plainM (ME.ofM x) = x := by
  funext s
  show (plain (ME.ofM x s).1, (ME.ofM x s).2) = x s
  unfold ME.ofM
  split <;> rename_i h <;> rw [h]
  · rfl
  · rw [plain_ofErr]

theorem plainM_pure {α : Type} (a : α) : plainM (pure a : ME α) = pure a := rfl

theorem plainM_bind {α β : Type} (x : ME α) (f : α → ME β) :
    plainM (x >>= f) = (plainM x >>= fun a => plainM (f a)) := by
  funext s
  show (plain ((x >>= f) s).1, ((x >>= f) s).2) = M.bind' (plainM x) (fun a => plainM (f a)) s
  have e1 : (x >>= f) s = match x s with
      | (.ok a, s') => f a s'
      | (.error e, s') => (.error e, s') := rfl
  rw [e1]
  unfold M.bind' plainM
  rcases h : x s with ⟨r, s'⟩
  rcases r with e | a
  · cases e <;> rfl
  · rfl

theorem plainM_wrap {α : Type} (pre : String) (x : ME α) : plainM (ME.wrapErr pre x) = M.wrapErr pre (plainM x) := by
  funext s
  show (plain (ME.wrapErr pre x s).1, (ME.wrapErr pre x s).2) = M.wrapErr pre (plainM x) s
  unfold M.wrapErr plainM ME.wrapErr
  rcases h : x s with ⟨r, s'⟩
  rcases r with e | a
  · cases e <;> rfl
  · rfl

theorem plainM_throw {α : Type} (e : Err) : plainM (ME.throw (ofErr e) : ME α) = M.throw e := by
  cases e <;> rfl

/-! ### the operators -/

theorem plain_and (q1 q2 : CompE) : plainM (encAnd q1 q2) = Goexpdt.encAnd (plainComp q1) (plainComp q2) := by
  unfold encAnd Goexpdt.encAnd
  rw [plainM_wrap]
  rcases q1 with _ | q1
  · rfl
  rcases q2 with _ | q2
  · rfl
  simp only [plainComp_some, andBuild, Goexpdt.andBuild, plainM_bind, plainM_wrap, plainM_pure]

theorem plain_or (q1 q2 : CompE) : plainM (encOr q1 q2) = Goexpdt.encOr (plainComp q1) (plainComp q2) := by
  unfold encOr Goexpdt.encOr
  rw [plainM_wrap]
  rcases q1 with _ | q1
  · rfl
  rcases q2 with _ | q2
  · rfl
  simp only [plainComp_some, orBuild, Goexpdt.orBuild, plainM_bind, plainM_wrap, plainM_pure, plainM_ofM]

theorem plain_not (q : CompE) : plainM (encNot q) = Goexpdt.encNot (plainComp q) := by
  unfold encNot Goexpdt.encNot
  rw [plainM_wrap]
  rcases q with _ | q
  · rfl
  simp only [plainComp_some, notBuild, Goexpdt.notBuild, plainM_bind, plainM_pure, plainM_ofM]

theorem plain_withVar (x : QVar) (q : CompE) : plainM (encWithVar x q) = Goexpdt.encWithVar x (plainComp q) := by
  unfold encWithVar Goexpdt.encWithVar
  rw [plainM_wrap]
  rcases q with _ | q
  · rfl
  simp only [plainComp_some, withVarBuild, Goexpdt.withVarBuild, plainM_bind, plainM_pure, plainM_ofM]

theorem plain_loop (q : ME CNF) (nodes : List Node) (fuel : Nat) (w : WalkSt) (i : Int) (c : CNF) :
    plainM (forallLoop q nodes fuel w i c) = Goexpdt.forallLoop (plainM q) nodes fuel w i c := by
  induction fuel generalizing w i c with
  | zero => rfl
  | succ n ih =>
    unfold forallLoop Goexpdt.forallLoop
    rcases walkNext nodes (nextFuel nodes) w with e | _ | w'
    · exact plainM_throw _
    · rfl
    · simp only [plainM_bind, plainM_ofM, ih]

theorem plain_body (q : ME CNF) : plainM (forallBody q) = Goexpdt.forallBody (plainM q) := by
  unfold forallBody Goexpdt.forallBody
  simp only [plainM_bind, plainM_ofM, plain_loop]

theorem plain_join {α : Type} (r : Except Fail α) (e : Err) :
    plain (joinErr r (ofErr e)) = Goexpdt.joinErr (plain r) e := by
  rcases r with r | r
  · cases r <;> cases e <;> rfl
  · cases e <;> rfl

theorem plain_forallBuild (c : QConst) (q : ME CNF) :
    plainM (forallBuild c q) = Goexpdt.forallBuild c (plainM q) := by
  funext s
  have hb := congrFun (plain_body q) (s.addScope c.id)
  show (plain (forallBuild c q s).1, (forallBuild c q s).2) = _
  unfold forallBuild Goexpdt.forallBuild
  rw [← hb]
  show _ = match (forallBody q (s.addScope c.id)).2.popScope with
    | (.ok (), s') => (plain (forallBody q (s.addScope c.id)).1, s')
    | (.error perr, s') => (Goexpdt.joinErr (plain (forallBody q (s.addScope c.id)).1) perr, s')
  rcases h : (forallBody q (s.addScope c.id)).2.popScope with ⟨r, s'⟩
  rcases r with e | u
  · simp only [h, plain_join]
  · simp only [h]

theorem plain_forall (c : QConst) (q : CompE) : plainM (encForall c q) = Goexpdt.encForall c (plainComp q) := by
  unfold encForall Goexpdt.encForall
  rw [plainM_wrap]
  rcases q with _ | q
  · rfl
  · simp only [plainComp_some, plain_forallBuild]

theorem plain_ofQuery (q : Query) : plainComp (UQuery.ofQuery q).comp = q.comp := by
  induction q with
  | nil => rfl
  | atom a => exact congrArg some (plainM_ofM _)
  | and q1 q2 i1 i2 => exact congrArg some ((plain_and _ _).trans (by rw [i1, i2]))
  | or q1 q2 i1 i2 => exact congrArg some ((plain_or _ _).trans (by rw [i1, i2]))
  | not q ih => exact congrArg some ((plain_not _).trans (by rw [ih]))
  | withVar x q ih => exact congrArg some ((plain_withVar _ _).trans (by rw [ih]))
  | forallG c q ih => exact congrArg some ((plain_forall _ _).trans (by rw [ih]))

/-! ### quiet computations -/

/-- No outcome wraps `UnsatError`. -/
def Calm {α : Type} (x : ME α) : Prop := ∀ s f s', x s = (.error f, s') → f.isUnsat = false

theorem wraps_iff (e : GoErr) : e.isUnsat = true ↔ Wraps e := by
  induction e with
  | new s => exact Iff.intro (fun h => nomatch h) (fun h => nomatch h)
  | unsat => exact ⟨fun _ => .self, fun _ => rfl⟩
  | wrap pre e ih =>
    exact ⟨fun h => .inside pre (ih.mp h), fun h => by cases h with | inside _ h => exact ih.mpr h⟩
  | join a b ha hb =>
    simp only [GoErr.isUnsat, Bool.or_eq_true, ha, hb]
    constructor
    · rintro (h | h)
      · exact .left h
      · exact .right h
    · intro h
      cases h with
      | left h => exact .inl h
      | right h => exact .inr h

theorem calm_quiet {x : ME CNF} (h : Calm x) : Quiet (some x) := by
  intro act e s f s' hs hw
  cases e
  have := h s _ s' hs
  rw [show (Fail.err f).isUnsat = f.isUnsat from rfl, (wraps_iff f).mpr hw] at this
  cases this

theorem quiet_calm {x : ME CNF} (h : Quiet (some x)) : Calm x := by
  intro s f s' hs
  cases f with
  | err e =>
    rcases hu : e.isUnsat with _ | _
    · exact hu
    · exact absurd ((wraps_iff e).mp hu) (h x rfl s e s' hs)
  | panic p => rfl
  | diverge => rfl

theorem isUnsat_ofErr (e : Err) : (ofErr e).isUnsat = false := by cases e <;> rfl

theorem isUnsat_wrap (pre : String) (f : Fail) : (f.wrap pre).isUnsat = f.isUnsat := by cases f <;> rfl

theorem calm_ofM {α : Type} (x : M α) : Calm (ME.ofM x) := by
  intro s f s' h
  unfold ME.ofM at h
  split at h
  · cases h
  · cases h; exact isUnsat_ofErr _

theorem calm_pure {α : Type} (a : α) : Calm (pure a : ME α) := by
  intro s f s' h; cases h

theorem calm_throw {α : Type} {f : Fail} (hf : f.isUnsat = false) : Calm (ME.throw f : ME α) := by
  intro s g s' h; cases h; exact hf

theorem calm_bind {α β : Type} {x : ME α} {f : α → ME β} (hx : Calm x) (hf : ∀ a, Calm (f a)) : Calm (x >>= f) := by
  intro s g s' h
  have e1 : (x >>= f) s = match x s with
      | (.ok a, s') => f a s'
      | (.error e, s') => (.error e, s') := rfl
  rw [e1] at h
  split at h
  · exact hf _ _ _ _ h
  · rename_i hh; cases h; exact hx _ _ _ hh

theorem calm_wrap {α : Type} {pre : String} {x : ME α} (hx : Calm x) : Calm (ME.wrapErr pre x) := by
  intro s g s' h
  unfold ME.wrapErr at h
  split at h
  · cases h
  · rename_i hh; cases h; rw [isUnsat_wrap]; exact hx _ _ _ hh

theorem calm_and {q1 q2 : CompE} (h1 : Quiet q1) (h2 : Quiet q2) : Calm (encAnd q1 q2) := by
  refine calm_wrap ?_
  rcases q1 with _ | q1
  · exact calm_throw rfl
  rcases q2 with _ | q2
  · exact calm_throw rfl
  exact calm_bind (calm_wrap (quiet_calm h1)) fun _ =>
    calm_bind (calm_wrap (quiet_calm h2)) fun _ => calm_pure _

theorem calm_or {q1 q2 : CompE} (h1 : Quiet q1) (h2 : Quiet q2) : Calm (encOr q1 q2) := by
  refine calm_wrap ?_
  rcases q1 with _ | q1
  · exact calm_throw rfl
  rcases q2 with _ | q2
  · exact calm_throw rfl
  exact calm_bind (calm_wrap (quiet_calm h1)) fun _ => calm_bind (calm_wrap (quiet_calm h2)) fun _ =>
    calm_bind (calm_ofM _) fun _ => calm_bind (calm_ofM _) fun _ => calm_bind (calm_ofM _) fun _ =>
    calm_bind (calm_ofM _) fun _ => calm_bind (calm_ofM _) fun _ => calm_bind (calm_ofM _) fun _ => calm_pure _

theorem calm_not {q : CompE} (h : Quiet q) : Calm (encNot q) := by
  refine calm_wrap ?_
  rcases q with _ | q
  · exact calm_throw rfl
  exact calm_bind (quiet_calm h) fun _ => calm_bind (calm_ofM _) fun _ => calm_bind (calm_ofM _) fun _ => calm_pure _

theorem calm_withVar {x : QVar} {q : CompE} (h : Quiet q) : Calm (encWithVar x q) := by
  refine calm_wrap ?_
  rcases q with _ | q
  · exact calm_throw rfl
  exact calm_bind (calm_ofM _) fun _ => calm_bind (calm_ofM _) fun _ => calm_bind (quiet_calm h) fun _ => calm_pure _

theorem calm_loop {q : ME CNF} (h : Calm q) (nodes : List Node) (fuel : Nat) (w : WalkSt) (i : Int) (c : CNF) :
    Calm (forallLoop q nodes fuel w i c) := by
  induction fuel generalizing w i c with
  | zero => exact calm_throw rfl
  | succ n ih =>
    unfold forallLoop
    split
    · exact calm_throw (isUnsat_ofErr _)
    · exact calm_pure _
    · exact calm_bind (calm_ofM _) fun _ => calm_bind h fun _ => ih _ _ _

theorem calm_forall {c : QConst} {q : CompE} (h : Quiet q) : Calm (encForall c q) := by
  refine calm_wrap ?_
  rcases q with _ | q
  · exact calm_throw rfl
  have hb : Calm (forallBody q) := calm_bind (calm_ofM _) fun _ => calm_bind (calm_ofM _) fun _ =>
    calm_bind (calm_ofM _) fun _ => calm_loop (quiet_calm h) _ _ _ _ _
  intro s f s' e
  simp only [forallBuild] at e
  split at e
  · simp only [Prod.mk.injEq] at e
    exact hb (s.addScope c.id) f _ (Prod.ext e.1 rfl)
  · rename_i perr _ _
    simp only [Prod.mk.injEq] at e
    have e := e.1
    rcases hr : (forallBody q (s.addScope c.id)).1 with g | a
    · have hg := hb (s.addScope c.id) g _ (Prod.ext hr rfl)
      rw [hr] at e
      cases g <;> cases perr <;> simp only [joinErr, ofErr, Except.error.injEq] at e <;> subst e <;>
        simp_all [Fail.isUnsat, GoErr.isUnsat]
    · rw [hr] at e
      simp only [joinErr, Except.error.injEq] at e
      rw [← e]; exact isUnsat_ofErr _

theorem quiet_query (q : UQuery) (h : ∀ x ∈ owns q, Quiet (some x)) : Quiet q.comp := by
  induction q with
  | own x => exact h x (by simp [owns])
  | nil => intro act e; cases e
  | atom a => exact calm_quiet (calm_ofM _)
  | and q1 q2 i1 i2 =>
    exact calm_quiet (calm_and (i1 fun x hx => h x (List.mem_append_left _ hx)) (i2 fun x hx => h x (List.mem_append_right _ hx)))
  | or q1 q2 i1 i2 =>
    exact calm_quiet (calm_or (i1 fun x hx => h x (List.mem_append_left _ hx)) (i2 fun x hx => h x (List.mem_append_right _ hx)))
  | not q ih => exact calm_quiet (calm_not (ih h))
  | withVar x q ih => exact calm_quiet (calm_withVar (ih h))
  | forallG c q ih => exact calm_quiet (calm_forall (ih h))

theorem owns_ofQuery (q : Query) : owns (UQuery.ofQuery q) = [] := by
  induction q <;> simp_all [owns, UQuery.ofQuery]

/-! ### one call of the solver -/

theorem binStep_unsat {env : Env} {q : CompE} (hq : Quiet q) {st st' : BinSt} {s s' : Ctx} {f : Fail}
    (h : binStep env q st s = (.error f, st', s')) (hf : f.isUnsat = true) : Said env q s 20 := by
  simp only [binStep] at h
  split at h
  · cases h; cases hf
  split at h
  · cases h; cases hf
  rename_i act
  split at h
  · rename_i e s1 he
    cases h
    rw [quiet_calm hq _ _ _ he] at hf; cases hf
  rename_i c s1 hc
  split at h
  · rename_i file hfile
    split at h
    · cases h; rw [isUnsat_ofErr] at hf; cases hf
    · rename_i code out hr
      split at h
      · rename_i h20
        unfold runSolver at hr
        split at hr
        · rename_i code' o e hrun
          split at hr
          · cases hr
          split at hr
          · cases hr
          · cases hr; subst h20
            exact ⟨act, c, s1, file, _, _, rfl, hc, hfile, hrun⟩
        · cases hr
      · cases h
  · cases h; cases hf

theorem binStep_sat {env : Env} {q : CompE} {st st' : BinSt} {s s' : Ctx}
    (h : binStep env q st s = (.ok (), st', s')) : Said env q s 10 := by
  simp only [binStep] at h
  split at h
  · cases h
  split at h
  · cases h
  rename_i act
  split at h
  · cases h
  rename_i c s1 hc
  split at h
  · rename_i file hfile
    split at h
    · cases h
    · rename_i code out hr
      split at h
      · cases h
      · rename_i h20
        unfold runSolver at hr
        split at hr
        · rename_i code' o e hrun
          split at hr
          · cases hr
          split at hr
          · cases hr
          · rename_i hn
            cases hr
            have : code = 10 := by
              rcases Classical.em (code = 10) with h | h
              · exact h
              · exact absurd ⟨h, h20⟩ hn
            subst this
            exact ⟨act, c, s1, file, _, _, rfl, hc, hfile, hrun⟩
        · cases hr
  · cases h

/-- An outcome of `Step`, as `Model/Compute.lean` has it. -/
def stepOut : Except Fail Unit → Except StepErr Unit
  | .ok u => .ok u
  | .error f => if f.isUnsat then .error .unsat else .error (.other (match plain (.error f : Except Fail Unit) with
      | .error e => e
      | .ok _ => .diverge))

theorem stepOut_ofErr (e : Err) : stepOut (.error (ofErr e)) = .error (.other e) := by cases e <;> rfl

theorem binStep_plain (env : Env) {q : CompE} (hq : Quiet q) (st : BinSt) (s : Ctx) :
    Goexpdt.binStep env (plainComp q) st s =
      (stepOut (binStep env q st s).1, (binStep env q st s).2.1, (binStep env q st s).2.2) := by
  unfold binStep Goexpdt.binStep
  rcases env.temp with _ | msg
  · rcases q with _ | act
    · rfl
    · simp only [plainComp_some, plainM]
      rcases h : act s with ⟨r, s1⟩
      rcases r with f | c
      · have hf := quiet_calm hq _ _ _ h
        cases f <;> simp [plain, stepOut, hf]
      · simp only [plain]
        rcases c.toFile env.create with ⟨b, file⟩
        rcases b with _ | _ <;> rcases file with _ | file <;> try rfl
        simp only
        rcases runSolver (env.run file.content) with e | ⟨code, out⟩
        · simp only [stepOut_ofErr]
        · simp only
          split <;> rfl
  · rfl

theorem binValues_plain (vs : List QVar) (st : BinSt) (s : Ctx) :
    Goexpdt.binValues vs st s = (plain (binValues vs st s).1, (binValues vs st s).2.1, (binValues vs st s).2.2) := by
  unfold binValues
  rcases Goexpdt.binValues vs st s with ⟨r, st1, s1⟩
  rcases r with e | cs
  · simp only [plain_ofErr]
  · rfl

theorem optimLoop_plain (env : Nat → Env) (fg : QVar → CompE) (og : QVar → QConst → CompE) (v : QVar)
    (hf : Quiet (fg v)) (ho : ∀ c, Quiet (og v c)) (fuel steps : Nat) (st : BinSt) (s : Ctx) :
    Goexpdt.optimLoop (Goexpdt.binSolver env) (fun x => plainComp (fg x)) (fun x c => plainComp (og x c)) v fuel steps st s =
      (plain (optimLoop (binSolver env) fg og v fuel steps st s).1,
        (optimLoop (binSolver env) fg og v fuel steps st s).2.1, (optimLoop (binSolver env) fg og v fuel steps st s).2.2) := by
  induction fuel generalizing steps st s with
  | zero => rfl
  | succ n ih =>
    unfold optimLoop Goexpdt.optimLoop
    simp only [Goexpdt.binSolver, binSolver]
    rw [binValues_plain]
    rcases binValues [v] st s with ⟨r, st1, s1⟩
    rcases r with f | cs
    · cases f <;> rfl
    · rcases cs with _ | ⟨b, cs⟩
      · rfl
      · simp only [plain]
        have hw : some (Goexpdt.encWithVar v (some (Goexpdt.encAnd (plainComp (fg v)) (plainComp (og v b))))) =
            plainComp (some (encWithVar v (some (encAnd (fg v) (og v b))))) := by
          rw [plainComp_some, plain_withVar, plainComp_some, plain_and]
        rw [hw, binStep_plain _ (calm_quiet (calm_withVar (calm_quiet (calm_and hf (ho b)))))]
        rcases binStep (env st1.calls) (some (encWithVar v (some (encAnd (fg v) (og v b))))) st1 s1.reset with ⟨r, st2, s2⟩
        rcases r with f | u
        · rcases hu : f.isUnsat with _ | _
          · cases f <;> simp_all [stepOut, plain]
          · simp [stepOut, hu]
        · exact ih _ _ _

theorem computeOptim_plain (env : Nat → Env) (fg : QVar → CompE) (og : QVar → QConst → CompE) (v : QVar)
    (hf : Quiet (fg v)) (ho : ∀ c, Quiet (og v c)) (tmp : Bool) (fuel : Nat) (st : BinSt) (s : Ctx) :
    Goexpdt.computeOptim (Goexpdt.binSolver env) (fun x => plainComp (fg x)) (fun x c => plainComp (og x c)) v tmp fuel st s =
      (plain (computeOptim (binSolver env) fg og v tmp fuel st s).1,
        (computeOptim (binSolver env) fg og v tmp fuel st s).2.1, (computeOptim (binSolver env) fg og v tmp fuel st s).2.2) := by
  unfold computeOptim Goexpdt.computeOptim
  rcases tmp with _ | _
  · rfl
  · simp only [Goexpdt.binSolver, binSolver, Bool.not_true, Bool.false_eq_true, if_false]
    have hw : some (Goexpdt.encWithVar v (plainComp (fg v))) = plainComp (some (encWithVar v (fg v))) := by
      rw [plainComp_some, plain_withVar]
    rw [hw, binStep_plain _ (calm_quiet (calm_withVar hf))]
    rcases binStep (env st.calls) (some (encWithVar v (fg v))) st s with ⟨r, st2, s2⟩
    rcases r with f | u
    · rcases hu : f.isUnsat with _ | _
      · cases f <;> simp_all [stepOut, plain]
      · simp [stepOut, hu, plain]
    · exact optimLoop_plain env fg og v hf ho _ _ _ _

theorem atomSat_plain (env : Nat → Env) {q : CompE} (hq : Quiet q) (negated : Bool) (st : BinSt) (s : Ctx) :
    Goexpdt.atomSat (Goexpdt.binSolver env) (plainComp q) negated st s =
      (plain (atomSat (binSolver env) q negated st s).1, (atomSat (binSolver env) q negated st s).2.1,
        (atomSat (binSolver env) q negated st s).2.2) := by
  unfold atomSat Goexpdt.atomSat
  simp only [Goexpdt.binSolver, binSolver]
  rw [binStep_plain _ hq]
  rcases binStep (env st.calls) q st s with ⟨r, st2, s2⟩
  rcases r with f | u
  · rcases hu : f.isUnsat with _ | _
    · cases f <;> simp_all [stepOut, plain]
    · simp [stepOut, hu, plain]
  · rfl

theorem optimLoop_said (env : Nat → Env) (fg : QVar → CompE) (og : QVar → QConst → CompE) (v : QVar)
    (hf : Quiet (fg v)) (ho : ∀ c, Quiet (og v c)) {fuel steps : Nat} {st st' : BinSt} {s s' : Ctx} {out : OptOutput}
    (h : optimLoop (binSolver env) fg og v fuel steps st s = (.ok out, st', s')) :
    out.found = true ∧
      ∃ k s1, Said (env k) (some (encWithVar v (some (encAnd (fg v) (og v out.value))))) s1 20 := by
  induction fuel generalizing steps st s with
  | zero => cases h
  | succ n ih =>
    unfold optimLoop at h
    simp only at h
    split at h
    · cases h
    · cases h
    · rename_i b cs st1 s1 hv
      split at h
      · rename_i f st2 s2 hs
        split at h
        · rename_i hu
          cases h
          exact ⟨rfl, st1.calls, s1.reset,
            binStep_unsat (calm_quiet (calm_withVar (calm_quiet (calm_and hf (ho b))))) hs hu⟩
        · cases h
      · exact ih h

end Goexpdt.Errs

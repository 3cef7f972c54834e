import Verif.Lemmas.Reuse
import Verif.Lemmas.Values
import Verif.Lemmas.GroundOptim
import Verif.Lemmas.Fail
import Verif.Lemmas.Tame
/- `ComputeOptim` on contexts that have been used before. -/
namespace Goexpdt
open Spec

/-! ### the solver that runs an executable -/

theorem readFeats_valid {v : QVar} {vval : List (Int × Bool)} (is : List Nat) : ∀ s fs s', readFeats v vval is s = (.ok fs, s') → ValidVals fs := by
  induction is with
  | nil => intro s fs s' h; cases h; simp [ValidVals]
  | cons i is ih =>
    intro s fs s' h
    have key : ∀ (a : FeatV) s1, (a = BOT ∨ a = ZERO ∨ a = ONE) → (readFeats v vval is >>= fun rest => (pure (a :: rest) : M _)) s1 = (.ok fs, s') → ValidVals fs := by
      intro a s1 ha h
      rcases hr : readFeats v vval is s1 with ⟨e | rest, s2⟩
      · rw [M_bind_error hr] at h; simp at h
      · rw [M_bind_ok hr] at h
        cases h
        intro x hx
        rcases List.mem_cons.1 hx with rfl | hx
        · exact ha
        · exact ih _ _ _ hr x hx
    have var : ∀ (vr : VarRep) s1, ∃ n s2, M.cnfVar vr s1 = (.ok n, s2) := fun vr s1 => ⟨_, _, rfl⟩
    unfold readFeats at h
    obtain ⟨a, s1, e1⟩ := var ⟨v, i, BOT⟩ s
    rw [M_bind_ok e1] at h
    split at h
    · exact key _ _ (.inl rfl) h
    · obtain ⟨b, s2, e2⟩ := var ⟨v, i, ONE⟩ s1
      rw [M_bind_ok e2] at h
      split at h
      · exact key _ _ (.inr (.inr rfl)) h
      · obtain ⟨c, s3, e3⟩ := var ⟨v, i, ZERO⟩ s2
        rw [M_bind_ok e3] at h
        split at h
        · exact key _ _ (.inr (.inl rfl)) h
        · exact ih _ _ _ h

theorem varValue_valid {out : List Char} {v : QVar} {s s' : Ctx} {k : QConst} (h : varValueFromBytes out v s = (.ok k, s')) :
    k.id = [] ∧ ValidVals k.val := by
  have e0 : M.dim s = (.ok s.dim, s) := rfl
  unfold varValueFromBytes at h
  rw [M_bind_ok e0] at h
  rcases h1 : variableFilter v (List.range s.dim) s with ⟨e | fs, s1⟩
  · rw [M_bind_error h1] at h; simp at h
  rw [M_bind_ok h1] at h
  cases hsc : scanLines fs [] (splitOn '\n' out) with
  | error e =>
    have e3 : (M.lift (.error e) : M (List (Int × Bool))) s1 = (.error e, s1) := rfl
    rw [hsc, M_bind_error e3] at h; simp at h
  | ok vval =>
    have e3 : (M.lift (.ok vval) : M _) s1 = (.ok vval, s1) := rfl
    rw [hsc, M_bind_ok e3] at h
    rcases h2 : readFeats v vval (List.range s.dim) s1 with ⟨e | gs, s2⟩
    · rw [M_bind_error h2] at h; simp at h
    · rw [M_bind_ok h2] at h
      cases h
      exact ⟨rfl, readFeats_valid _ _ _ _ h2⟩

theorem binValuesLoop_valid {out : List Char} (vs : List QVar) : ∀ s ks s', binValuesLoop out vs s = (.ok ks, s') →
    ∀ k ∈ ks, k.id = [] ∧ ValidVals k.val := by
  induction vs with
  | nil => intro s ks s' h; cases h; simp
  | cons v vs ih =>
    intro s ks s' h
    unfold binValuesLoop at h
    rcases h1 : varValueFromBytes out v s with ⟨e | k, s1⟩
    · rw [M_bind_error h1] at h; simp at h
    rw [M_bind_ok h1] at h
    rcases h2 : binValuesLoop out vs s1 with ⟨e | r, s2⟩
    · rw [M_bind_error h2] at h; simp at h
    rw [M_bind_ok h2] at h
    cases h
    intro x hx
    rcases List.mem_cons.1 hx with rfl | hx
    · exact varValue_valid h1
    · exact ih _ _ _ h2 x hx

theorem binSolver_tidy (env : Nat → Env) : Tidy (binSolver env) := by
  intro vs st s ks st' s' hm h
  change binValues vs st s = _ at h
  unfold binValues at h
  rcases hr : binValuesLoop st.output vs s with ⟨r, s1⟩
  rw [hr] at h
  cases h
  obtain ⟨p, ha, -⟩ := binValuesLoop_alloc st.output vs hm
  rw [hr] at ha
  exact ⟨binValuesLoop_valid vs _ _ _ hr, ha.keeps.dim, ha.keeps.nodes, ha.keeps.scopes, ha.keeps.vars⟩

theorem binSolver_careful (env : Nat → Env) : Careful (binSolver env) := by
  intro act st s
  change _ ∨ ∃ e, (binStep (env st.calls) (some act) st s).1 = _
  unfold binStep
  cases (env st.calls).temp with
  | some m => exact .inr ⟨_, rfl⟩
  | none =>
    rcases hr : act s with ⟨e | c, s1⟩
    · exact .inr ⟨e, by simp [hr]⟩
    · exact .inl ⟨c, rfl⟩

/-! ### orders -/

section
variable {d : Nat} {nodes : List Node} {T : DTree} {v : QVar} {f : Query} {ord : QConst → Query}

theorem comp_refuses {q : Query} {s : Ctx} (h : ∃ e, (q.encode s).1 = .error e) : ∀ x, q.comp = some x → ∃ e, (x s).1 = .error e := by
  intro x hx
  unfold Query.encode at h
  rw [hx] at h
  exact h

/-- Where a part of a conjunction cannot be encoded, the conjunction cannot be either. -/
theorem and_refuses {q1 q2 : Query} {d : Nat} (h : (∀ s : Ctx, s.dim = d ∧ s.scopes = [] → ∃ e, (q1.encode s).1 = .error e) ∨
    (∀ s : Ctx, s.dim = d ∧ s.scopes = [] → ∃ e, (q2.encode s).1 = .error e)) {s : Ctx} (hs : s.dim = d ∧ s.scopes = []) :
    ∃ e, (encAnd q1.comp q2.comp s).1 = .error e := by
  unfold encAnd
  refine wrapErr_error ?_
  cases ha : q1.comp with
  | none => exact ⟨_, rfl⟩
  | some a =>
  cases hb : q2.comp with
  | none => exact ⟨_, rfl⟩
  | some b =>
    show ∃ e, (andBuild a b s).1 = .error e
    unfold andBuild
    rcases h with h | h
    · exact bind_error_left (wrapErr_error (comp_refuses (h s hs) a ha))
    · refine bind_error_right fun _ s1 e1 => bind_error_left (wrapErr_error (comp_refuses (h s1 ?_) b hb))
      have := ((q1.comp_tame a ha).wrapErr "Q1").keep s
      rw [e1] at this
      exact ⟨this.dim.trans hs.1, this.scopes.trans hs.2⟩

theorem withVar_refuses {x : M CNF} {d : Nat} (h : ∀ s : Ctx, s.dim = d ∧ s.scopes = [] → ∃ e, (x s).1 = .error e) {s : Ctx} (hs : s.dim = d ∧ s.scopes = []) :
    ∃ e, (encWithVar v (some x) s).1 = .error e := by
  unfold encWithVar
  refine wrapErr_error ?_
  have e : M.addVar v s = (.ok (), s.addVar v) := rfl
  show ∃ e, ((M.addVar v >>= fun _ => withVarBuild v x) s).1 = .error e
  rw [M_bind_ok e]
  unfold withVarBuild
  refine bind_error_right fun _ s1 e1 => bind_error_left (h s1 ?_)
  have := (encodeI_tame v).keep (s.addVar v)
  rw [e1] at this
  exact ⟨this.dim.trans ((addVar_other s v).1.dim.trans hs.1), this.scopes.trans ((addVar_other s v).1.scopes.trans hs.2)⟩

/-- An atom with a constant of another length. -/
theorem atom_refuses {a : Atom} {b : List FeatV} {d : Nat} (hm : { val := b } ∈ Spec.Atom.consts a) (hb : b.length ≠ d) (s : Ctx) (hs : s.dim = d ∧ s.scopes = []) :
    ∃ e, ((Query.atom a).encode s).1 = .error e := by
  obtain ⟨e, h, -⟩ := Atom.rej_dim a s ⟨_, hm, by rw [scopeConst_eq]; simpa [hs.1, hs.2, resolve] using hb⟩
  exact ⟨e, by show (a.encode s).1 = _; rw [h]⟩

end

/-! ### the loop -/

section
variable {S : Type} {sv : Solver S} {d : Nat} {nodes : List Node} {T : DTree} {v : QVar} {f : Query} {ord : QConst → Query}
  {st st' : S} {s s' : Ctx} {o : OptOutput}

/-- The loop after a first step of which nothing is known. -/
theorem optimLoop_used (hc : Correct sv) (hk : Careful sv) (ht : Tidy sv) (h : Explores d nodes T v f ord) (hr : Refuses d ord)
    (hs : Reused d nodes names s) {fuel : Nat}
    (he : optimLoop sv (fun _ => f.comp) (fun _ k => (ord k).comp) v fuel 1 st s = (.ok o, st', s')) :
    ∃ b, o.found = true ∧ o.value = { val := b } ∧ GoodVals d b ∧ (∀ e, f.about d T v e → ¬ (ord { val := b }).about d T v e) ∧
      (o.calls ≠ 2 → f.about d T v (den b)) := by
  cases fuel with
  | zero => simp [optimLoop] at he
  | succ fuel =>
    rw [optimLoop] at he
    simp only at he
    rcases hv : sv.values [v] st s with ⟨e | (_ | ⟨k, ks⟩), st1, s1⟩
    · rw [hv] at he; simp at he
    · rw [hv] at he; simp at he
    · rw [hv] at he
      simp only at he
      obtain ⟨hval, h1, h2, h3, h4⟩ := ht [v] st s _ st1 s1 hs.vm hv
      obtain ⟨hid, hvv⟩ := hval k (by simp)
      obtain ⟨id, b⟩ := k
      simp only at hid hvv
      subst hid
      have hready : ∀ names, Ready d nodes names s1.reset := fun names =>
        ⟨⟨Int.le_refl _, by intro vr n hn; simp [Ctx.reset] at hn, by intro a b n hn; simp [Ctx.reset] at hn⟩,
          h1.trans hs.dim, h2.trans hs.nodes, rfl, h4.trans hs.vars, by rintro n _ ⟨k, hk⟩; simp [Ctx.reset] at hk⟩
      by_cases hb : b.length = d
      · have hg : GoodVals d b := ⟨hb, hvv⟩
        obtain ⟨names', hA⟩ := h.poses.next { val := b } hg rfl
        simp only [valsOf_den hg] at hA
        rcases asks_step (st := st1) hc hA (hready names') with ⟨st2, s2, b', e, hH, hF, -⟩ | ⟨st2, s2, e, hu⟩ | ⟨err, st2, s2, e, -⟩
        · rw [e] at he
          obtain ⟨⟨b2, g1, g2, g3, g4, g5⟩, -⟩ := optimLoop_sound hc h.poses fuel 2 st2 s2 b' hH hF o st' s' he
          rw [valsOf_den g3] at g5
          exact ⟨b2, g1, g2, g3, g5, fun _ => g4⟩
        · rw [e] at he
          simp only [Prod.mk.injEq, Except.ok.injEq] at he
          obtain ⟨rfl, -, -⟩ := he
          exact ⟨b, rfl, rfl, hg, fun e h1 h2 => hu e ⟨h1, h2⟩, fun h => absurd rfl h⟩
        · rw [e] at he; simp at he
      · exfalso
        rcases hk (encWithVar v (some (encAnd f.comp (ord { val := b }).comp))) st1 s1.reset with ⟨c, hcn⟩ | ⟨e, hst⟩
        · obtain ⟨e, hh⟩ := withVar_refuses (v := v) (d := d) (x := encAnd f.comp (ord { val := b }).comp)
            (fun s hs => and_refuses (.inr (hr b hb)) hs) (s := s1.reset) ⟨h1.trans hs.dim, rfl⟩
          rw [hh] at hcn; cases hcn
        · rcases hq : sv.step (some (encWithVar v (some (encAnd f.comp (ord { val := b }).comp)))) st1 s1.reset with ⟨r, st2, s2⟩
          rw [hq] at he hst
          simp only at hst
          subst hst
          simp at he

end

end Goexpdt

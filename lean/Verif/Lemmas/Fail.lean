import Verif.Lemmas.TameOp
import Verif.Spec.Reachable
/- Rejected inputs. -/
namespace Goexpdt
open Spec

theorem validate_wrong {d : Nat} {cs : List QConst} {c : QConst} (hc : c ∈ cs)
    (hl : c.val.length ≠ d) : ∃ m, ValidateConstsDim d cs = .error (.msg m) := by
  have : ∀ (cs : List QConst) (i : Nat), c ∈ cs →
      ∃ m, validateConstsDimFrom d i cs = .error (.msg m) := by
    intro cs
    induction cs with
    | nil => intro i h; simp at h
    | cons a cs ih =>
      intro i h
      simp only [validateConstsDimFrom]
      split
      · exact ⟨_, rfl⟩
      · next ha =>
        simp only [List.mem_cons] at h
        rcases h with rfl | h
        · exact absurd hl ha
        · exact ih _ h
  exact this cs 0 hc

/-- The computation returns an error and leaves the context as it is; the error is an error value
(not a panic) if the scoper is in order. -/
def Rej (s : Ctx) (x : M CNF) : Prop :=
  ∃ e, x s = (.error e, s) ∧ (ScopeOk s → ∃ m, e = .msg m)

theorem Rej.throw {s : Ctx} (m : String) : Rej s (M.throw (.msg m)) := ⟨_, rfl, fun _ => ⟨m, rfl⟩⟩

theorem Rej.scopeVar {s : Ctx} {v : QVar} {f : QVar → M CNF} (h : ∀ a, Rej s (f a)) :
    Rej s (M.scopeVar v >>= f) := by
  cases e : s.scopeVar v with
  | ok a =>
    have : M.scopeVar v s = (.ok a, s) := by simp only [M.scopeVar, e]
    obtain ⟨x, hx⟩ := h a
    exact ⟨x, by rw [M_bind_ok this]; exact hx.1, hx.2⟩
  | error x =>
    have : M.scopeVar v s = (.error x, s) := by simp only [M.scopeVar, e]
    refine ⟨x, M_bind_error this, fun hs => ?_⟩
    rw [scopeVar_eq hs] at e
    simp at e

theorem Rej.scopeConst {s : Ctx} {c : QConst} {f : QConst → M CNF}
    (h : Rej s (f (s.scopeConst c).1)) : Rej s (M.scopeConst c >>= f) := by
  have : M.scopeConst c s = (.ok (s.scopeConst c).1, s) := rfl
  unfold Rej
  rw [M_bind_ok this]; exact h

theorem Rej.dim {s : Ctx} {f : Nat → M CNF} (h : Rej s (f s.dim)) : Rej s (M.dim >>= f) := by
  have : M.dim s = (.ok s.dim, s) := rfl
  unfold Rej
  rw [M_bind_ok this]; exact h

theorem Rej.pref {s : Ctx} {p : List Int} {d : Nat} {f : Unit → M CNF} (h : ∀ a, Rej s (f a)) :
    Rej s (M.lift (validatePref p d) >>= f) := by
  have key : ∀ (p seen : List Int) e, validatePrefFrom d seen p = .error e → ∃ m, e = .msg m := by
    intro p
    induction p with
    | nil => intro seen e h; simp [validatePrefFrom] at h
    | cons a p ih =>
      intro seen e h
      simp only [validatePrefFrom] at h
      split at h
      · simp at h; exact ⟨_, h.symm⟩
      · split at h
        · simp at h; exact ⟨_, h.symm⟩
        · exact ih _ _ h
  cases e : validatePref p d with
  | ok a =>
    obtain ⟨x, hx⟩ := h a
    exact ⟨x, by rw [M_bind_ok (by simp only [M.lift]; rfl)]; exact hx.1, hx.2⟩
  | error x =>
    exact ⟨x, M_bind_error (by simp only [M.lift]), fun _ => key _ _ _ e⟩

theorem Rej.validate {s : Ctx} {cs : List QConst} {f : Unit → M CNF}
    (h : ∃ c ∈ cs, c.val.length ≠ s.dim) : Rej s (validateM cs >>= f) := by
  obtain ⟨c, hc, hl⟩ := h
  obtain ⟨m, hm⟩ := validate_wrong hc hl
  have : validateM cs s = (.error (.msg m), s) := by
    have e : M.dim s = (.ok s.dim, s) := rfl
    unfold validateM
    rw [M_bind_ok e, M.lift, hm]
  exact ⟨_, M_bind_error this, fun _ => ⟨m, rfl⟩⟩

/-- Follows a component up to its check of the constants' lengths. -/
macro "rej" : tactic => `(tactic| repeat' (first
  | refine Rej.throw _
  | refine Rej.scopeVar fun _ => ?_
  | refine Rej.scopeConst ?_
  | refine Rej.dim ?_
  | refine Rej.pref fun _ => ?_
  | (refine Rej.validate ?_)
  | split))

theorem Atom.rej_dim (a : Atom) (s : Ctx)
    (h : ∃ c ∈ Spec.Atom.consts a, (s.scopeConst c).1.val.length ≠ s.dim) : Rej s a.encode := by
  obtain ⟨c, hc, hl⟩ := h
  unfold Atom.encode
  split
  · unfold subsConstConst; rej <;> simp_all [Spec.Atom.consts, Spec.Term.consts] <;> grind
  · unfold subsConstVar; rej <;> simp_all [Spec.Atom.consts, Spec.Term.consts] <;> grind
  · unfold subsVarConst; rej <;> simp_all [Spec.Atom.consts, Spec.Term.consts] <;> grind
  · simp [Spec.Atom.consts, Spec.Term.consts] at hc
  · unfold lelConstConst; rej <;> simp_all [Spec.Atom.consts, Spec.Term.consts] <;> grind
  · unfold lelConstVar; rej <;> simp_all [Spec.Atom.consts, Spec.Term.consts] <;> grind
  · unfold lelVarConst; rej <;> simp_all [Spec.Atom.consts, Spec.Term.consts] <;> grind
  · simp [Spec.Atom.consts, Spec.Term.consts] at hc
  · unfold isnodeConst; rej <;> simp_all [Spec.Atom.consts, Spec.Term.consts] <;> grind
  · simp [Spec.Atom.consts, Spec.Term.consts] at hc
  · unfold fullConst; rej <;> simp_all [Spec.Atom.consts, Spec.Term.consts] <;> grind
  · simp [Spec.Atom.consts, Spec.Term.consts] at hc
  · unfold consConstConst; rej <;> simp_all [Spec.Atom.consts, Spec.Term.consts] <;> grind
  · unfold consConstVar; rej <;> simp_all [Spec.Atom.consts, Spec.Term.consts] <;> grind
  · unfold consVarConst; rej <;> simp_all [Spec.Atom.consts, Spec.Term.consts] <;> grind
  · simp [Spec.Atom.consts, Spec.Term.consts] at hc
  · unfold allcompConst; rej <;> simp_all [Spec.Atom.consts, Spec.Term.consts] <;> grind
  · simp [Spec.Atom.consts, Spec.Term.consts] at hc
  · unfold dfsConst; rej <;> simp_all [Spec.Atom.consts, Spec.Term.consts] <;> grind
  · simp [Spec.Atom.consts, Spec.Term.consts] at hc
  · unfold heprConstConst; rej <;> simp_all [Spec.Atom.consts, Spec.Term.consts] <;> grind
  · unfold heprConstVar; rej <;> simp_all [Spec.Atom.consts, Spec.Term.consts] <;> grind
  · unfold heprVarConst; rej <;> simp_all [Spec.Atom.consts, Spec.Term.consts] <;> grind
  · simp [Spec.Atom.consts, Spec.Term.consts] at hc
  · unfold lehConstConstConst; rej <;> simp_all [Spec.Atom.consts, Spec.Term.consts] <;> grind
  · unfold lehConstConstVar; rej <;> simp_all [Spec.Atom.consts, Spec.Term.consts] <;> grind
  · unfold lehConstVarConst; rej <;> simp_all [Spec.Atom.consts, Spec.Term.consts] <;> grind
  · unfold lehConstVarVar; rej <;> simp_all [Spec.Atom.consts, Spec.Term.consts] <;> grind
  · unfold lehVarConstConst; rej <;> simp_all [Spec.Atom.consts, Spec.Term.consts] <;> grind
  · unfold lehVarConstVar; rej <;> simp_all [Spec.Atom.consts, Spec.Term.consts] <;> grind
  · unfold lehVarVarConst; rej <;> simp_all [Spec.Atom.consts, Spec.Term.consts] <;> grind
  · simp [Spec.Atom.consts, Spec.Term.consts] at hc

theorem Atom.rej_nilGen (a : Atom) (s : Ctx) (h : Spec.Atom.nilGen a = true) :
    ∃ m, a.encode s = (.error (.msg m), s) := by
  cases a with
  | subs t1 t2 => simp [Spec.Atom.nilGen] at h
  | full t => simp [Spec.Atom.nilGen] at h
  | cons t1 t2 => simp [Spec.Atom.nilGen] at h
  | dfs t => simp [Spec.Atom.nilGen] at h
  | lel t1 t2 g =>
    cases g with
    | some g => simp [Spec.Atom.nilGen] at h
    | none => cases t1 <;> cases t2 <;> first | exact ⟨_, rfl⟩ | simp [Spec.Atom.nilGen, Spec.Term.isVar] at h
  | isnode t g =>
    cases g with
    | some g => simp [Spec.Atom.nilGen] at h
    | none => cases t <;> first | exact ⟨_, rfl⟩ | simp [Spec.Atom.nilGen, Spec.Term.isVar] at h
  | allcomp t b g =>
    cases g with
    | some g => simp [Spec.Atom.nilGen] at h
    | none => cases t <;> first | exact ⟨_, rfl⟩ | simp [Spec.Atom.nilGen, Spec.Term.isVar] at h
  | hepr t1 t2 p g =>
    cases g with
    | some g => simp [Spec.Atom.nilGen] at h
    | none => cases t1 <;> cases t2 <;> first | exact ⟨_, rfl⟩ | simp [Spec.Atom.nilGen, Spec.Term.isVar] at h
  | leh t1 t2 t3 g e =>
    cases g <;> cases e <;> cases t1 <;> cases t2 <;> cases t3 <;>
      first | exact ⟨_, rfl⟩ | simp [Spec.Atom.nilGen, Spec.Term.isVar] at h

/-! ### Errors reach the top -/

theorem wrapErr_error {α : Type} {pre : String} {x : M α} {s : Ctx} (h : ∃ e, (x s).1 = .error e) :
    ∃ e, (M.wrapErr pre x s).1 = .error e := by
  obtain ⟨e, h⟩ := h
  unfold M.wrapErr
  split
  · next a s' hx => rw [hx] at h; simp at h
  · exact ⟨_, rfl⟩

theorem bind_error_left {α : Type} {x : M α} {f : α → M CNF} {s : Ctx}
    (h : ∃ e, (x s).1 = .error e) : ∃ e, ((x >>= f) s).1 = .error e := by
  obtain ⟨e, h⟩ := h
  cases hx : x s with
  | mk r s' =>
    rw [hx] at h
    simp only at h
    subst h
    exact ⟨e, by rw [M_bind_error hx]⟩

theorem bind_error_right {α : Type} {x : M α} {f : α → M CNF} {s : Ctx}
    (h : ∀ a s', x s = (.ok a, s') → ∃ e, (f a s').1 = .error e) : ∃ e, ((x >>= f) s).1 = .error e := by
  cases hx : x s with
  | mk r s' =>
    cases r with
    | error e => exact ⟨e, by rw [M_bind_error hx]⟩
    | ok a => rw [M_bind_ok hx]; exact h a s' hx

theorem forallBuild_error {c : QConst} {q : M CNF} (h : ∀ s, ∃ e, (q s).1 = .error e) (s : Ctx) :
    ∃ e, (forallBuild c q s).1 = .error e := by
  have key : ∃ e, (forallBody q (s.addScope c.id)).1 = .error e := by
    rcases forallBody_eq q (s.addScope c.id) with ⟨e, -, h'⟩ | ⟨ws, hi, hok, h'⟩
    · exact ⟨e, by rw [h']⟩
    · rw [h']
      obtain ⟨h1, h2, -⟩ := newIter_ok hok
      obtain ⟨ws', a, -, -, d, -⟩ := iterates_init h1 h2
      obtain rfl := hi.unique a
      have := (d 0).2 .root
      cases ws with
      | nil => simp at this
      | cons w ws =>
        simp only [List.map_cons, forallFold]
        exact bind_error_right fun _ _ _ => bind_error_left (h _)
  obtain ⟨e, he⟩ := key
  unfold forallBuild
  simp only [he]
  split
  · exact ⟨_, rfl⟩
  · cases e with
    | msg a => rename_i p _ _; cases p <;> exact ⟨_, rfl⟩
    | panic a => exact ⟨_, rfl⟩
    | diverge => exact ⟨_, rfl⟩

/-- A query with a defect is never encoded. -/
theorem Query.defect_comp {bad : Atom → Prop}
    (hb : ∀ a, bad a → ∀ s, ∃ e, (a.encode s).1 = .error e) (q : Query)
    (h : Spec.Query.Defect bad q) : ∀ x, q.comp = some x → ∀ s, ∃ e, (x s).1 = .error e := by
  induction q with
  | nil => intro x hx; simp [Query.comp] at hx
  | atom a =>
    intro x hx s; simp only [Query.comp, Option.some.injEq] at hx; subst hx; exact hb a h s
  | and q1 q2 h1 h2 =>
    intro x hx s
    simp only [Query.comp, Option.some.injEq] at hx
    subst hx
    unfold encAnd
    refine wrapErr_error ?_
    cases ha : q1.comp with
    | none => exact ⟨_, rfl⟩
    | some a =>
    cases hb : q2.comp with
    | none => exact ⟨_, rfl⟩
    | some b =>
      show ∃ e, (andBuild a b s).1 = .error e
      unfold andBuild
      rcases h with h | h
      · exact bind_error_left (wrapErr_error (h1 h _ ha s))
      · exact bind_error_right fun _ _ _ => bind_error_left (wrapErr_error (h2 h _ hb _))
  | or q1 q2 h1 h2 =>
    intro x hx s
    simp only [Query.comp, Option.some.injEq] at hx
    subst hx
    unfold encOr
    refine wrapErr_error ?_
    cases ha : q1.comp with
    | none => exact ⟨_, rfl⟩
    | some a =>
    cases hb : q2.comp with
    | none => exact ⟨_, rfl⟩
    | some b =>
      show ∃ e, (orBuild a b s).1 = .error e
      unfold orBuild
      rcases h with h | h
      · exact bind_error_left (wrapErr_error (h1 h _ ha s))
      · exact bind_error_right fun _ _ _ => bind_error_left (wrapErr_error (h2 h _ hb _))
  | not q h1 =>
    intro x hx s
    simp only [Query.comp, Option.some.injEq] at hx
    subst hx
    unfold encNot
    refine wrapErr_error ?_
    cases ha : q.comp with
    | none => exact ⟨_, rfl⟩
    | some a => exact bind_error_left (x := a) (f := negStep) (h1 h _ ha s)
  | withVar v q h1 =>
    intro x hx s
    simp only [Query.comp, Option.some.injEq] at hx
    subst hx
    unfold encWithVar
    refine wrapErr_error ?_
    cases ha : q.comp with
    | none => exact ⟨_, rfl⟩
    | some a =>
      show ∃ e, ((M.addVar v >>= fun _ => withVarBuild v a) s).1 = .error e
      refine bind_error_right fun _ _ _ => ?_
      exact bind_error_right fun _ _ _ => bind_error_left (h1 h _ ha _)
  | forallG c q h1 =>
    intro x hx s
    simp only [Query.comp, Option.some.injEq] at hx
    subst hx
    unfold encForall
    refine wrapErr_error ?_
    cases ha : q.comp with
    | none => exact ⟨_, rfl⟩
    | some a => exact forallBuild_error (fun s => h1 h _ ha s) s

end Goexpdt

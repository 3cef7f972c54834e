import Verif.Lemmas.Succeeds
import Verif.Spec.Trouble
/- The text of errors. -/
namespace Goexpdt
open Spec

/-! ### the checks -/

theorem validate_trouble {d : Nat} {o : List (List Char × Nat)} {f : QConst → QConst}
    (hf : ∀ c, (f c).val.length = lengthIn o c) (cs : List QConst) :
    ValidateConstsDim d (cs.map f) = match wrongDim d o cs with
      | some t => .error (.msg t)
      | none => .ok () := by
  unfold ValidateConstsDim wrongDim
  generalize 0 = k
  induction cs generalizing k with
  | nil => rfl
  | cons c cs ih =>
    simp only [List.map_cons, validateConstsDimFrom, List.zipIdx_cons, List.find?_cons]
    rw [hf c]
    by_cases h : lengthIn o c = d
    · rw [if_neg (by simpa using h), ih, show (lengthIn o c != d) = false from by simpa using h]
    · rw [if_pos h, show (lengthIn o c != d) = true from by simpa using h]
      rfl

theorem validatePref_trouble {d : Nat} (p : List Int) :
    validatePref p d = match wrongPref d p with
      | some t => .error (.msg t)
      | none => .ok () := by
  have key : ∀ (rest pre seen : List Int), p = pre ++ rest → (∀ x, x ∈ seen ↔ x ∈ pre) →
      validatePrefFrom d seen rest = match ((rest.zipIdx pre.length).find? fun e =>
          decide (¬ (0 ≤ e.1 ∧ e.1 < (d : Int)) ∨ e.1 ∈ p.take e.2)).map (fun e : Int × Nat =>
        if 0 ≤ e.1 ∧ e.1 < (d : Int) then "Invalid duplicate preference '" ++ toString e.1 ++ "'"
        else "Preference feature index out of range '" ++ toString e.1 ++ "'") with
      | some t => .error (.msg t)
      | none => .ok () := by
    intro rest
    induction rest with
    | nil => intro pre seen _ _; rfl
    | cons i rest ih =>
      intro pre seen hp hs
      have htake : p.take pre.length = pre := by rw [hp]; simp
      simp only [validatePrefFrom, List.zipIdx_cons, List.find?_cons, htake]
      by_cases h1 : 0 ≤ i ∧ i < (d : Int)
      · rw [if_neg (by omega)]
        by_cases h2 : i ∈ pre
        · rw [if_pos ((hs i).2 h2)]
          simp [h1, h2]
          rfl
        · rw [if_neg (fun h => h2 ((hs i).1 h)), ih (pre ++ [i]) (i :: seen) (by simp [hp]) (by
            intro x; simp only [List.mem_cons, hs x, List.mem_append, List.not_mem_nil, or_false]; exact or_comm)]
          simp [h1, h2]
      · rw [if_pos (by omega)]
        simp only [h1, not_false_eq_true, true_or, decide_true, Option.map_some, if_false]
        rfl
  exact key p [] [] rfl (by simp)

/-! ### predicates -/

section
variable {s : Ctx} {e : Err}

theorem fails_scopeVar (hs : Sane s) {v : QVar} {f : QVar → M CNF} (h : ∀ a, (f a s).1 = .error e) :
    ((M.scopeVar v >>= f) s).1 = .error e := by
  have e := scopeVar_eq hs.scope v
  have : M.scopeVar v s = (.ok _, s) := Prod.ext e rfl
  rw [M_bind_ok this]
  exact h _

theorem fails_validate {cs : List QConst} {f : Unit → M CNF} (h : ValidateConstsDim s.dim cs = .error e) :
    ((validateM cs >>= f) s).1 = .error e := by
  have : validateM cs s = (.error e, s) := by
    have e : M.dim s = (.ok s.dim, s) := rfl
    unfold validateM
    rw [M_bind_ok e, M.lift, h]
  rw [M_bind_error this]

theorem fails_lift {α : Type} {r : Except Err α} {f : α → M CNF} (h : r = .error e) : ((M.lift r >>= f) s).1 = .error e := by
  subst h; rfl

theorem fails_ok {α : Type} {a : α} {r : Except Err α} {f : α → M CNF} (h : r = .ok a) (h' : (f a s).1 = .error e) :
    ((M.lift r >>= f) s).1 = .error e := by
  subst h; exact h'

theorem fails_scopeConst {c : QConst} {f : QConst → M CNF} (h : (f (s.scopeConst c).1 s).1 = .error e) :
    ((M.scopeConst c >>= f) s).1 = .error e := h
theorem fails_dim {f : Nat → M CNF} (h : (f s.dim s).1 = .error e) : ((M.dim >>= f) s).1 = .error e := h

end

/-- Follows a component up to its check of the constants' lengths. -/
macro "fails" : tactic => `(tactic| repeat' (first
  | with_reducible refine fails_scopeVar ‹_› fun _ => ?_
  | with_reducible refine fails_scopeConst ?_
  | with_reducible refine fails_dim ?_
  | with_reducible refine fails_ok ‹_› ?_
  | with_reducible refine fails_validate ?_))

theorem Atom.fails_nilGen (a : Atom) (s : Ctx) (h : Spec.Atom.nilGen a = true) :
    a.encode s = (.error (.msg "Invalid nil var generation function"), s) := by
  cases a with
  | subs t1 t2 => simp [Spec.Atom.nilGen] at h
  | full t => simp [Spec.Atom.nilGen] at h
  | cons t1 t2 => simp [Spec.Atom.nilGen] at h
  | dfs t => simp [Spec.Atom.nilGen] at h
  | lel t1 t2 g =>
    cases g with
    | some g => simp [Spec.Atom.nilGen] at h
    | none => cases t1 <;> cases t2 <;> first | rfl | simp [Spec.Atom.nilGen, Spec.Term.isVar] at h
  | isnode t g =>
    cases g with
    | some g => simp [Spec.Atom.nilGen] at h
    | none => cases t <;> first | rfl | simp [Spec.Atom.nilGen, Spec.Term.isVar] at h
  | allcomp t b g =>
    cases g with
    | some g => simp [Spec.Atom.nilGen] at h
    | none => cases t <;> first | rfl | simp [Spec.Atom.nilGen, Spec.Term.isVar] at h
  | hepr t1 t2 p g =>
    cases g with
    | some g => simp [Spec.Atom.nilGen] at h
    | none => cases t1 <;> cases t2 <;> first | rfl | simp [Spec.Atom.nilGen, Spec.Term.isVar] at h
  | leh t1 t2 t3 g e =>
    cases g <;> cases e <;> cases t1 <;> cases t2 <;> cases t3 <;>
      first | rfl | simp [Spec.Atom.nilGen, Spec.Term.isVar] at h

theorem Atom.fails_pref {t1 t2 : Term} {p : List Int} {g : Option (QVar → QVar → QVar → QVar)} (s : Ctx)
    (hg : Spec.Atom.nilGen (.hepr t1 t2 p g) = false) {e : Err} (h : validatePref p s.dim = .error e) :
    ((Atom.hepr t1 t2 p g).encode s).1 = .error e := by
  have key : ∀ f : Unit → M CNF, ((M.dim >>= fun d => M.lift (validatePref p d) >>= f) s).1 = .error e :=
    fun f => fails_dim (fails_lift h)
  cases t1 <;> cases t2
  · exact key _
  all_goals
    cases g
    · simp [Spec.Atom.nilGen, Spec.Term.isVar] at hg
    · exact key _

theorem Atom.fails_dims (a : Atom) {s : Ctx} (hs : Sane s) (hg : Spec.Atom.nilGen a = false) (hp : a.PrefOk s.dim)
    {e : Err} (h : ValidateConstsDim s.dim ((Spec.Atom.consts a).map fun c => (s.scopeConst c).1) = .error e) :
    (a.encode s).1 = .error e := by
  unfold Atom.encode
  split <;> simp only [Spec.Atom.consts, Spec.Term.consts, List.cons_append, List.nil_append, List.append_nil, List.map_cons,
    List.map_nil] at h
  · unfold subsConstConst; fails; exact h
  · unfold subsConstVar; fails; exact h
  · unfold subsVarConst; fails; exact h
  · cases h
  · unfold lelConstConst; fails; exact h
  · next g => unfold lelConstVar; cases g <;> first | (simp [Spec.Atom.nilGen, Spec.Term.isVar] at hg; done) | (simp only; fails; exact h)
  · next g => unfold lelVarConst; cases g <;> first | (simp [Spec.Atom.nilGen, Spec.Term.isVar] at hg; done) | (simp only; fails; exact h)
  · cases h
  · unfold isnodeConst; fails; exact h
  · cases h
  · unfold fullConst; fails; exact h
  · cases h
  · unfold consConstConst; fails; exact h
  · unfold consConstVar; fails; exact h
  · unfold consVarConst; fails; exact h
  · cases h
  · unfold allcompConst; fails; exact h
  · cases h
  · unfold dfsConst; fails; exact h
  · cases h
  · have hp := validatePref_ok.2 hp; unfold heprConstConst; fails; exact h
  · next g => have hp := validatePref_ok.2 hp; unfold heprConstVar; cases g <;> first | (simp [Spec.Atom.nilGen, Spec.Term.isVar] at hg; done) | (simp only; fails; exact h)
  · next g => have hp := validatePref_ok.2 hp; unfold heprVarConst; cases g <;> first | (simp [Spec.Atom.nilGen, Spec.Term.isVar] at hg; done) | (simp only; fails; exact h)
  · cases h
  · unfold lehConstConstConst; fails; exact h
  · next g _ => unfold lehConstConstVar; cases g <;> first | (simp [Spec.Atom.nilGen, Spec.Term.isVar] at hg; done) | (simp only; fails; exact h)
  · next g _ => unfold lehConstVarConst; cases g <;> first | (simp [Spec.Atom.nilGen, Spec.Term.isVar] at hg; done) | (simp only; fails; exact h)
  · next g _ => unfold lehConstVarVar; cases g <;> first | (simp [Spec.Atom.nilGen, Spec.Term.isVar] at hg; done) | (simp only; fails; exact h)
  · next g _ => unfold lehVarConstConst; cases g <;> first | (simp [Spec.Atom.nilGen, Spec.Term.isVar] at hg; done) | (simp only; fails; exact h)
  · next g e => unfold lehVarConstVar; cases g <;> cases e <;> first | (simp [Spec.Atom.nilGen, Spec.Term.isVar] at hg; done) | (simp only; fails; exact h)
  · next g e => unfold lehVarVarConst; cases g <;> cases e <;> first | (simp [Spec.Atom.nilGen, Spec.Term.isVar] at hg; done) | (simp only; fails; exact h)
  · cases h

theorem Atom.turns (a : Atom) {s : Ctx} (hs : Sane s) (hac : Acyclic s.nodes) :
    Turns (a.encode s).1 (Spec.Atom.trouble s.dim (opens s.scopes) a) := by
  unfold Spec.Atom.trouble
  cases hg : Spec.Atom.nilGen a with
  | true => rw [a.fails_nilGen s hg]; rfl
  | false =>
    simp only [Bool.false_eq_true, if_false]
    cases hpt : Spec.Atom.trouble.prefTrouble s.dim a with
    | some t =>
      cases a with
      | hepr t1 t2 p g =>
        have := validatePref_trouble (d := s.dim) p
        rw [show wrongPref s.dim p = some t from hpt] at this
        exact Atom.fails_pref s hg this
      | _ => cases hpt
    | none =>
      have hp : a.PrefOk s.dim := by
        cases a with
        | hepr t1 t2 p g =>
          have := validatePref_trouble (d := s.dim) p
          rw [show wrongPref s.dim p = none from hpt] at this
          exact validatePref_ok.1 this
        | _ => trivial
      have hv := validate_trouble (d := s.dim) (o := opens s.scopes) (f := fun c => (s.scopeConst c).1)
        (fun c => (lengthIn_opens s c).symm) (Spec.Atom.consts a)
      cases hw : wrongDim s.dim (opens s.scopes) (Spec.Atom.consts a) with
      | some t =>
        rw [hw] at hv
        exact a.fails_dims hs hg hp hv
      | none =>
        rw [hw] at hv
        have hd : ∀ c ∈ Spec.Atom.consts a, (s.scopeConst c).1.val.length = s.dim := by
          intro c hc
          refine Classical.byContradiction fun hl => ?_
          obtain ⟨m, hm⟩ := validate_wrong (d := s.dim) (List.mem_map.2 ⟨c, hc, rfl⟩ : (s.scopeConst c).1 ∈ (Spec.Atom.consts a).map fun c => (s.scopeConst c).1) hl
          rw [hv] at hm
          cases hm
        have hnm := a.nm hs hac hg hd hp
        have hnd := a.nd s fun _ => hac
        cases hem : Spec.Atom.trouble.emptyPref a with
        | true =>
          simp only [if_true]
          obtain ⟨e, he⟩ := a.rej_empty s (by
            cases a with
            | hepr t1 t2 p g =>
              simp only [Spec.Atom.trouble.emptyPref, Bool.and_eq_true, List.isEmpty_iff] at hem
              obtain ⟨h1, rfl⟩ := hem
              cases t1 <;> cases t2 <;> simp [Spec.Term.isVar, Spec.Atom.PrefsNonempty] at h1 ⊢
            | _ => cases hem)
          cases e with
          | msg m => exact absurd he (hnm m)
          | panic m => exact ⟨m, he⟩
          | diverge => exact absurd he hnd
        | false =>
          simp only [Bool.false_eq_true, if_false]
          refine ok_of (a.np s hs ?_) hnd hnm
          cases a with
          | hepr t1 t2 p g =>
            simp only [Spec.Atom.trouble.emptyPref, Bool.and_eq_false_iff] at hem
            cases t1 <;> cases t2 <;> simp [Spec.Term.isVar, Spec.Atom.PrefsNonempty] at hem ⊢ <;> exact hem
          | _ => trivial

theorem Atom.trouble_none {a : Atom} {d : Nat} {o : List (List Char × Nat)} :
    Spec.Atom.trouble d o a = none ↔ Spec.Atom.Valid d o a := by
  have hw : wrongDim d o (Spec.Atom.consts a) = none ↔ ∀ c ∈ Spec.Atom.consts a, lengthIn o c = d := by
    have : ∀ (cs : List QConst) k, ((cs.zipIdx k).find? fun p => lengthIn o p.1 != d) = none ↔ ∀ c ∈ cs, lengthIn o c = d := by
      intro cs
      induction cs with
      | nil => simp
      | cons c cs ih =>
        intro k
        simp only [List.zipIdx_cons, List.find?_cons, List.mem_cons, forall_eq_or_imp]
        by_cases h : lengthIn o c = d
        · rw [show (lengthIn o c != d) = false from by simpa using h]
          simp only [h, true_and]
          exact ih _
        · rw [show (lengthIn o c != d) = true from by simpa using h]
          simp [h]
    unfold wrongDim
    rw [Option.map_eq_none_iff]
    exact this _ 0
  have hp : Spec.Atom.trouble.prefTrouble d a = none ↔ a.PrefOk d := by
    cases a with
    | hepr t1 t2 p g =>
      rw [show (Atom.PrefOk d (.hepr t1 t2 p g)) ↔ ∃ u, validatePref p d = .ok u from
        ⟨fun h => ⟨(), validatePref_ok.2 h⟩, fun ⟨_, h⟩ => validatePref_ok.1 h⟩, validatePref_trouble]
      show wrongPref d p = none ↔ _
      cases wrongPref d p <;> simp
    | _ => simp [Spec.Atom.trouble.prefTrouble, Atom.PrefOk]
  have he : Spec.Atom.trouble.emptyPref a = false ↔ Spec.Atom.PrefsNonempty a := by
    cases a with
    | hepr t1 t2 p g => cases t1 <;> cases t2 <;> cases p <;> simp [Spec.Atom.trouble.emptyPref, Spec.Term.isVar, Spec.Atom.PrefsNonempty]
    | _ => simp [Spec.Atom.trouble.emptyPref, Spec.Atom.PrefsNonempty]
  unfold Spec.Atom.trouble
  constructor
  · intro h
    split at h
    · cases h
    · next hg =>
      split at h
      · cases h
      · next h1 =>
        split at h
        · cases h
        · next h2 =>
          refine ⟨by simpa using hg, hw.1 h2, hp.1 h1, he.1 ?_⟩
          cases hx : Spec.Atom.trouble.emptyPref a with
          | false => rfl
          | true => rw [hx] at h; cases h
  · intro h
    rw [h.gens, hp.2 h.pref, hw.2 h.dims, he.2 h.prefne]
    rfl

/-! ### operators -/

theorem turns_wrap {w : String} {x : M CNF} {s : Ctx} {t : Option Trouble} (h : Turns (x s).1 t) :
    Turns (M.wrapErr w x s).1 (t.map (Trouble.at w)) := by
  unfold M.wrapErr
  rcases t with _ | (m | _)
  · obtain ⟨c, hc⟩ := h
    rcases hx : x s with ⟨r, s'⟩
    rw [hx] at hc
    cases hc
    exact ⟨c, rfl⟩
  · rcases hx : x s with ⟨r, s'⟩
    rw [hx] at h
    cases (show r = _ from h)
    rfl
  · obtain ⟨m, hm⟩ := h
    rcases hx : x s with ⟨r, s'⟩
    rw [hx] at hm
    cases hm
    exact ⟨m, rfl⟩

theorem turns_bind {x : M CNF} {f : CNF → M CNF} {s : Ctx} {t t' : Option Trouble} (h : Turns (x s).1 t)
    (h' : ∀ a, Turns (f a (x s).2).1 t') : Turns ((x >>= f) s).1 (t.or t') := by
  rcases t with _ | (m | _)
  · obtain ⟨c, hc⟩ := h
    rcases hx : x s with ⟨r, s'⟩
    rw [hx] at hc h'
    cases hc
    rw [M_bind_ok hx]
    exact h' c
  · rcases hx : x s with ⟨r, s'⟩
    rw [hx] at h
    cases (show r = _ from h)
    rw [M_bind_error hx]
    rfl
  · obtain ⟨m, hm⟩ := h
    rcases hx : x s with ⟨r, s'⟩
    rw [hx] at hm
    cases hm
    rw [M_bind_error hx]
    exact ⟨m, rfl⟩

theorem turns_bind' {x : M CNF} {f : CNF → M CNF} {s : Ctx} {t : Option Trouble} (h : Turns (x s).1 t)
    (h' : ∀ a s, ∃ k, (f a s).1 = .ok k) : Turns ((x >>= f) s).1 t := by
  have := turns_bind h (t' := none) fun a => h' a _
  simpa using this

theorem forallFold_turns {q : M CNF} (hq : Tame q) {dim : Nat} {nodes : List Node} {base : List Scope} {tgt : List Char}
    {t : Option Trouble}
    (hc : ∀ s, Sane s → s.dim = dim → s.nodes = nodes → opens s.scopes = opens base ++ [(tgt, dim)] → Turns (q s).1 t)
    (ts : List (List FeatV)) : ∀ (i : Int) (c : CNF) (s : Ctx) (g : Scope), (∀ t ∈ ts, t.length = dim) → s.dim = dim → s.nodes = nodes →
      s.scopes = base ++ [g] → g.target = tgt → Sane s → Turns (forallFold q ts i c s).1 (if ts = [] then none else t) := by
  induction ts with
  | nil => intro i c s g _ _ _ _ _ _; exact ⟨_, rfl⟩
  | cons u ts ih =>
    intro i c s g hts hd hn hg htg hs
    simp only [forallFold]
    rw [M_bind_ok (setScope_append hg i u)]
    generalize hs1 : ({ s with scopes := base ++ [{ g with vIdx := i, value := u }] } : Ctx) = s1
    have hsc1 : s1.scopes = base ++ [{ g with vIdx := i, value := u }] := by rw [← hs1]
    have hs1' : Sane s1 := by
      refine ⟨?_, ?_, ?_, ?_, ?_⟩
      · intro v k hk
        rw [show s1.vars = s.vars by rw [← hs1]] at hk
        have := hs.scope v k hk
        rw [hg] at this
        rw [hsc1]
        simpa using this
      · intro v k hk
        rw [show s1.vars = s.vars by rw [← hs1]] at hk ⊢
        exact hs.fn v k hk
      · rw [← hs1]; exact hs.dim
      · rw [← hs1]; exact hs.ne
      · rw [← hs1]; exact hs.valid
    have hd1 : s1.dim = dim := by rw [← hs1]; exact hd
    have hn1 : s1.nodes = nodes := by rw [← hs1]; exact hn
    have hk := hq.keep s1
    have hqs := hc s1 hs1' hd1 hn1 (by rw [hsc1]; simp [opens, htg, hts u (by simp)])
    have := turns_bind hqs (f := fun a => forallFold q ts (i + 1) (c.conjunction a))
      fun a => ih (i + 1) (c.conjunction a) (q s1).2 { g with vIdx := i, value := u } (fun t ht => hts t (by simp [ht]))
        (hk.dim.trans hd1) (hk.nodes.trans hn1) (hk.scopes.trans hsc1) htg (hq.sane hs1')
    have e : t.or (if ts = [] then none else t) = t := by cases t <;> simp
    rw [e] at this
    simpa using this

theorem forallBuild_turns {q : M CNF} (hq : Tame q) {c : QConst} {s : Ctx} (hs : Sane s) {t : Option Trouble}
    (hc : ∀ s', Sane s' → s'.dim = s.dim → s'.nodes = s.nodes → opens s'.scopes = opens s.scopes ++ [(c.id, s.dim)] →
      Turns (q s').1 t) :
    Turns (forallBuild c q s).1 t := by
  have hsc : (s.addScope c.id).scopes = s.scopes ++ [{ target := c.id }] := rfl
  have hs1 : Sane (s.addScope c.id) := by
    refine ⟨fun v k hk => ?_, hs.fn, hs.dim, hs.ne, hs.valid⟩
    have := hs.scope v k hk
    rw [hsc, List.length_append]
    simp only [List.length_cons, List.length_nil]
    omega
  have hw : newNodeAsValuesIter s.dim s.nodes = .ok (WalkSt.init s.dim s.nodes.length) := by
    unfold newNodeAsValuesIter
    rw [if_neg (by simpa using hs.ne), validate_of_valid hs.valid]
  rcases forallBody_eq q (s.addScope c.id) with ⟨e, h, -⟩ | ⟨ws, hi, -, h⟩
  · rw [show (s.addScope c.id).dim = s.dim from rfl,
      show (s.addScope c.id).nodes = s.nodes from rfl, hw] at h
    simp at h
  · have hL := forallFold_tame (V := False) hq s.scopes (ws.map (·.t)) 0 {} (s.addScope c.id)
      ⟨_, hsc⟩ (fun h => h.elim) (fun h => h.elim)
    obtain ⟨g, hg⟩ := hL.scopes
    rw [forallBuild_of h (by rw [hg]; simp)]
    obtain ⟨ws', hi', -, -, hr, hlen⟩ := iterates_init hs.ne hs.valid
    obtain rfl := hi.unique hi'
    show Turns (forallFold q (ws.map (·.t)) 0 {} (s.addScope c.id)).1 t
    have := forallFold_turns (dim := s.dim) (nodes := s.nodes) (base := s.scopes) (tgt := c.id) hq hc (ws.map (·.t)) 0 {}
      (s.addScope c.id) { target := c.id }
      (fun t ht => by obtain ⟨w, hw, rfl⟩ := List.mem_map.1 ht; exact hlen w hw) rfl rfl hsc rfl hs1
    have hne : ws.map (·.t) ≠ [] := by
      have := (hr 0).2 .root
      cases ws with
      | nil => simp at this
      | cons w ws => simp
    rw [if_neg hne] at this
    exact this

theorem isNil_of_comp {q : Query} {a : M CNF} (h : q.comp = some a) : Spec.Query.trouble.isNil q = false := by
  cases q <;> simp_all [Query.comp, Spec.Query.trouble.isNil]

theorem Query.turns (q : Query) : ∀ x, q.comp = some x → ∀ s, Sane s → Acyclic s.nodes →
    Turns (x s).1 (Spec.Query.trouble s.dim (opens s.scopes) q) := by
  have nilEq : ∀ q : Query, q.comp = none → q = .nil := by
    intro q hq; cases q <;> simp_all [Query.comp]
  have two : ∀ (t1 t2 : Option Trouble), twoTrouble false false t1 t2 =
      (t1.map (Trouble.at "Q1")).or (t2.map (Trouble.at "Q2")) := by
    intro t1 t2; cases t1 <;> rfl
  induction q with
  | nil => intro x hx; simp [Query.comp] at hx
  | atom a =>
    intro x hx s hs ha
    simp only [Query.comp, Option.some.injEq] at hx
    subst hx
    exact a.turns hs ha
  | and q1 q2 h1 h2 =>
    intro x hx s hs hac
    simp only [Query.comp, Option.some.injEq] at hx
    subst hx
    refine turns_wrap ?_
    cases ha : q1.comp with
    | none => rw [nilEq _ ha]; rfl
    | some a =>
    cases hb : q2.comp with
    | none => rw [nilEq _ hb]; simp only [isNil_of_comp ha]; rfl
    | some b =>
      have hk := (q1.comp_tame _ ha).keep s
      rw [isNil_of_comp ha, isNil_of_comp hb, two]
      refine turns_bind (turns_wrap (h1 _ ha s hs hac)) fun c1 => turns_bind' ?_ fun _ _ => ⟨_, rfl⟩
      rw [wrapErr_snd]
      have := h2 _ hb (a s).2 ((q1.comp_tame _ ha).sane hs) (by rw [hk.nodes]; exact hac)
      rw [hk.dim, hk.scopes] at this
      exact turns_wrap this
  | or q1 q2 h1 h2 =>
    intro x hx s hs hac
    simp only [Query.comp, Option.some.injEq] at hx
    subst hx
    refine turns_wrap ?_
    cases ha : q1.comp with
    | none => rw [nilEq _ ha]; rfl
    | some a =>
    cases hb : q2.comp with
    | none => rw [nilEq _ hb]; simp only [isNil_of_comp ha]; rfl
    | some b =>
      have hk := (q1.comp_tame _ ha).keep s
      rw [isNil_of_comp ha, isNil_of_comp hb, two]
      show Turns (orBuild a b s).1 _
      rw [orBuild_eq]
      refine turns_bind (turns_wrap (h1 _ ha s hs hac)) fun c1 => turns_bind' ?_ fun _ _ => ⟨_, rfl⟩
      rw [wrapErr_snd]
      have := h2 _ hb (a s).2 ((q1.comp_tame _ ha).sane hs) (by rw [hk.nodes]; exact hac)
      rw [hk.dim, hk.scopes] at this
      exact turns_wrap this
  | not q h1 =>
    intro x hx s hs hac
    simp only [Query.comp, Option.some.injEq] at hx
    subst hx
    refine turns_wrap ?_
    cases ha : q.comp with
    | none => rw [nilEq _ ha]; rfl
    | some a =>
      rw [isNil_of_comp ha]
      exact turns_bind' (h1 _ ha s hs hac) fun c s => negStep_ok c s
  | withVar v q h1 =>
    intro x hx s hs hac
    simp only [Query.comp, Option.some.injEq] at hx
    subst hx
    refine turns_wrap ?_
    cases ha : q.comp with
    | none => rw [nilEq _ ha]; rfl
    | some a =>
      rw [isNil_of_comp ha]
      show Turns (withVarBuild v a (s.addVar v)).1 _
      have e1 := (addVar_other s v).1
      have e2 := addVar_varsExt v hs.fn
      have hs1 : Sane (s.addVar v) := ⟨e2.scopeOk hs.scope e1.scopes, e2.fn, by rw [e1.dim]; exact hs.dim,
        by rw [e1.nodes]; exact hs.ne, by rw [e1.dim, e1.nodes]; exact hs.valid⟩
      have hk := (encodeI_tame v).keep (s.addVar v)
      refine turns_bind (t := none) (encodeI_ok hs1) fun c1 => turns_bind' ?_ fun _ _ => ⟨_, rfl⟩
      have := h1 _ ha (encodeI v (s.addVar v)).2 ((encodeI_tame v).sane hs1) (by rw [hk.nodes, e1.nodes]; exact hac)
      rw [hk.dim, hk.scopes, e1.dim, e1.scopes] at this
      exact this
  | forallG c q h1 =>
    intro x hx s hs hac
    simp only [Query.comp, Option.some.injEq] at hx
    subst hx
    refine turns_wrap ?_
    cases ha : q.comp with
    | none => rw [nilEq _ ha]; rfl
    | some a =>
      rw [isNil_of_comp ha]
      refine forallBuild_turns (q.comp_tame _ ha) hs fun s' hs' hd hn ho => ?_
      have := h1 _ ha s' hs' (by rw [hn]; exact hac)
      rw [ho, hd] at this
      exact this

end Goexpdt

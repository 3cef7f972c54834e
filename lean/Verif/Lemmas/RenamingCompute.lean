import Verif.Lemmas.RenamingTag
import Verif.Model.Compute
namespace Goexpdt
open Spec

section
variable {V : QVar → QVar → Prop} {K : List Char → List Char → Prop} {R : QVar → QVar → Prop}

/-- Equal results, equal states of the solver and contexts that differ by names. -/
def SameS {E α : Type} (V : QVar → QVar → Prop) (K : List Char → List Char → Prop) (R : QVar → QVar → Prop)
    (x x' : Except E α × BinSt × Ctx) : Prop := x'.1 = x.1 ∧ x'.2.1 = x.2.1 ∧ CtxR V K R x.2.2 x'.2.2

theorem CtxR.reset {s s' : Ctx} (h : CtxR V K R s s') : CtxR V K R s.reset s'.reset := ⟨h.dim, h.nodes, rfl, .nil, h.vars, .nil⟩

theorem sim_eq {α : Type} {m m' : M α} (h : Sim V K R Eq m m') {s s' : Ctx} (hs : CtxR V K R s s') :
    (m' s').1 = (m s).1 ∧ CtxR V K R (m s).2 (m' s').2 := by
  obtain ⟨h1, h2⟩ := h s s' hs
  refine ⟨?_, h1⟩
  revert h2
  cases (m s).1 <;> cases (m' s').1
  · exact fun h => by rw [h]
  · exact fun h => h.elim
  · exact fun h => h.elim
  · exact fun h => by rw [h]

/-- Two values of the interface type `LogOpQ`. -/
def CompR (V : QVar → QVar → Prop) (K : List Char → List Char → Prop) (R : QVar → QVar → Prop) : Comp → Comp → Prop
  | none, none => True
  | some m, some m' => Sim V K R Eq m m'
  | _, _ => False

theorem query_compR (hn : Naming V K R) {q q' : Query} (h : QueryR V K R q q') : CompR V K R q.comp q'.comp := by
  rcases q.comp_sim hn q' h with ⟨e1, e2⟩ | ⟨x, x', e1, e2, h1⟩
  · rw [e1, e2]; exact trivial
  · rw [e1, e2]; exact h1

theorem step_R (env : Env) {q q' : Comp} (h : CompR V K R q q') (st : BinSt) {s s' : Ctx} (hs : CtxR V K R s s') :
    SameS V K R (binStep env q st s) (binStep env q' st s') := by
  unfold binStep
  dsimp only
  cases env.temp with
  | some msg => exact ⟨rfl, rfl, hs⟩
  | none =>
    cases q <;> cases q'
    · exact ⟨rfl, rfl, hs⟩
    · exact h.elim
    · exact h.elim
    · next m m' =>
      obtain ⟨h1, h2⟩ := sim_eq h hs
      dsimp only
      generalize m s = p at h1 h2
      generalize m' s' = p' at h1 h2
      obtain ⟨r, u⟩ := p
      obtain ⟨r', u'⟩ := p'
      dsimp only at h1 h2
      subst h1
      cases r' with
      | error e => exact ⟨rfl, rfl, h2⟩
      | ok c =>
        dsimp only
        split
        · split
          · exact ⟨rfl, rfl, h2⟩
          · split
            · exact ⟨rfl, rfl, h2⟩
            · exact ⟨rfl, rfl, h2⟩
        · exact ⟨rfl, rfl, h2⟩

variable (hn : Naming V K R)
include hn

theorem sim_variableFilter {v v' : QVar} (h : R v v') (is : List Nat) : Sim V K R Eq (variableFilter v is) (variableFilter v' is) := by
  induction is with
  | nil => exact sim_pure rfl
  | cons i is ih =>
    exact sim_same (sim_cnfVar hn h _ _) fun _ => sim_same (sim_cnfVar hn h _ _) fun _ => sim_same (sim_cnfVar hn h _ _) fun _ =>
      sim_same ih fun _ => sim_pure rfl

theorem sim_readFeats {v v' : QVar} (h : R v v') (vv : List (Int × Bool)) (is : List Nat) : Sim V K R Eq (readFeats v vv is) (readFeats v' vv is) := by
  induction is with
  | nil => exact sim_pure rfl
  | cons i is ih =>
    exact sim_same (sim_cnfVar hn h _ _) fun _ => sim_ite (sim_same ih fun _ => sim_pure rfl) (sim_same (sim_cnfVar hn h _ _) fun _ =>
      sim_ite (sim_same ih fun _ => sim_pure rfl) (sim_same (sim_cnfVar hn h _ _) fun _ =>
        sim_ite (sim_same ih fun _ => sim_pure rfl) ih))

theorem sim_varValueFromBytes {v v' : QVar} (h : R v v') (out : List Char) :
    Sim V K R Eq (varValueFromBytes out v) (varValueFromBytes out v') :=
  sim_same sim_dim fun _ => sim_same (sim_variableFilter hn h _) fun _ => sim_same (sim_lift _) fun _ =>
    sim_same (sim_readFeats hn h _ _) fun _ => sim_pure rfl

theorem values_R {v v' : QVar} (h : R v v') (st : BinSt) {s s' : Ctx} (hs : CtxR V K R s s') :
    SameS V K R (binValues [v] st s) (binValues [v'] st s') := by
  have h1 : Sim V K R Eq (binValuesLoop st.output [v]) (binValuesLoop st.output [v']) :=
    sim_same (sim_varValueFromBytes hn h _) fun _ => sim_same (sim_pure rfl) fun _ => sim_pure rfl
  obtain ⟨e1, e2⟩ := sim_eq h1 hs
  exact ⟨e1, rfl, e2⟩

omit hn in
theorem atomSat_R (env : Nat → Env) {q q' : Comp} (h : CompR V K R q q') (neg : Bool) (st : BinSt) {s s' : Ctx} (hs : CtxR V K R s s') :
    SameS V K R (atomSat (binSolver env) q neg st s) (atomSat (binSolver env) q' neg st s') := by
  have h1 : SameS V K R ((binSolver env).step q st s) ((binSolver env).step q' st s') := step_R (env st.calls) h st hs
  unfold atomSat
  generalize (binSolver env).step q st s = x at h1
  generalize (binSolver env).step q' st s' = x' at h1
  obtain ⟨r, u, c⟩ := x
  obtain ⟨r', u', c'⟩ := x'
  obtain ⟨e1, e2, h2⟩ := h1
  dsimp only at e1 e2 h2
  subst e1 e2
  cases r' with
  | ok _ => exact ⟨rfl, rfl, h2⟩
  | error e => cases e <;> exact ⟨rfl, rfl, h2⟩

theorem compR_withVar {x x' : QVar} (hx : V x x') {q q' : Comp} (h : CompR V K R q q') : Sim V K R Eq (encWithVar x q) (encWithVar x' q') := by
  refine sim_wrapErr _ ?_
  cases q <;> cases q'
  · exact sim_throw _
  · exact h.elim
  · exact h.elim
  · exact sim_same (sim_addVar hn hx) fun _ => sim_same (sim_encodeI hn hx) fun _ => sim_same h fun _ => sim_pure rfl

omit hn in
theorem compR_and {q q' k k' : Comp} (h : CompR V K R q q') (h2 : CompR V K R k k') : Sim V K R Eq (encAnd q k) (encAnd q' k') := by
  refine sim_wrapErr _ ?_
  cases q <;> cases q'
  · exact sim_throw _
  · exact h.elim
  · exact h.elim
  · cases k <;> cases k'
    · exact sim_throw _
    · exact h2.elim
    · exact h2.elim
    · exact sim_same (sim_wrapErr _ h) fun _ => sim_same (sim_wrapErr _ h2) fun _ => sim_pure rfl

omit hn in
theorem M_bind_inv {α β : Type} {x : M α} {f : α → M β} {s s' : Ctx} {b : β} (h : (x >>= f) s = (.ok b, s')) :
    ∃ a s1, x s = (.ok a, s1) ∧ f a s1 = (.ok b, s') := by
  rcases hx : x s with ⟨r, s1⟩
  cases r with
  | error e => rw [M_bind_error hx] at h; cases h
  | ok a => exact ⟨a, s1, rfl, (M_bind_ok hx).symm.trans h⟩

omit hn in
/-- The constants that `Values` returns have no identifier. -/
theorem values_id {vs : List QVar} {st st' : BinSt} {s s' : Ctx} {l : List QConst} (h : binValues vs st s = (.ok l, st', s')) :
    ∀ b ∈ l, b.id = [] := by
  have key : ∀ (out : List Char) (vs : List QVar) (s s' : Ctx) (l : List QConst), binValuesLoop out vs s = (.ok l, s') → ∀ b ∈ l, b.id = [] := by
    intro out vs
    induction vs with
    | nil =>
      intro s s' l h b hb
      cases h
      cases hb
    | cons v vs ih =>
      intro s s' l h
      obtain ⟨c, s1, hc, h1⟩ := M_bind_inv h
      obtain ⟨rest, s2, hr, h2⟩ := M_bind_inv h1
      cases h2
      obtain ⟨_, _, -, hc⟩ := M_bind_inv hc
      obtain ⟨_, _, -, hc⟩ := M_bind_inv hc
      obtain ⟨_, _, -, hc⟩ := M_bind_inv hc
      obtain ⟨_, _, -, hc⟩ := M_bind_inv hc
      cases hc
      intro b hb
      rcases List.mem_cons.1 hb with rfl | hb
      · rfl
      · exact ih _ _ _ hr b hb
  unfold binValues at h
  rcases hl : binValuesLoop st.output vs s with ⟨r, s1⟩
  rw [hl] at h
  cases h
  exact key _ _ _ _ _ hl

variable {v v' : QVar} (hv : V v v') {fg fg' : QVar → Comp} {og og' : QVar → QConst → Comp} (hf : CompR V K R (fg v) (fg' v'))
  (ho : ∀ b : QConst, b.id = [] → CompR V K R (og v b) (og' v' b)) (env : Nat → Env)
include hv hf ho

theorem optimLoop_R : ∀ (fuel steps : Nat) (st : BinSt) {s s' : Ctx}, CtxR V K R s s' →
    SameS V K R (optimLoop (binSolver env) fg og v fuel steps st s) (optimLoop (binSolver env) fg' og' v' fuel steps st s') := by
  intro fuel
  induction fuel with
  | zero => exact fun _ _ _ _ hs => ⟨rfl, rfl, hs⟩
  | succ fuel ih =>
    intro steps st s s' hs
    have hr : R v v' := hn.var hv ⟨_, _, .nil, (List.append_nil _).symm, (List.append_nil _).symm⟩
    have h1 : SameS V K R ((binSolver env).values [v] st s) ((binSolver env).values [v'] st s') := values_R hn hr st hs
    have hid : ∀ l u c, (binSolver env).values [v] st s = (.ok l, u, c) → ∀ b ∈ l, b.id = [] := fun l u c h =>
      values_id (vs := [v]) (st := st) (s := s) h
    simp only [optimLoop]
    generalize (binSolver env).values [v] st s = x at h1 hid
    generalize (binSolver env).values [v'] st s' = x' at h1
    obtain ⟨r, u, c⟩ := x
    obtain ⟨r', u', c'⟩ := x'
    obtain ⟨e1, e2, h2⟩ := h1
    dsimp only at e1 e2 h2
    subst e1 e2
    cases r' with
    | error e => exact ⟨rfl, rfl, h2⟩
    | ok l =>
      cases l with
      | nil => exact ⟨rfl, rfl, h2.reset⟩
      | cons b _ =>
        dsimp only
        have h3 : SameS V K R ((binSolver env).step (some (encWithVar v (some (encAnd (fg v) (og v b))))) u' c.reset)
            ((binSolver env).step (some (encWithVar v' (some (encAnd (fg' v') (og' v' b))))) u' c'.reset) :=
          step_R (env u'.calls) (q := some _) (q' := some _)
            (compR_withVar hn hv (q := some _) (q' := some _) (compR_and hf (ho b (hid _ _ _ rfl b (by simp))))) u' h2.reset
        generalize (binSolver env).step (some (encWithVar v (some (encAnd (fg v) (og v b))))) u' c.reset = y at h3
        generalize (binSolver env).step (some (encWithVar v' (some (encAnd (fg' v') (og' v' b))))) u' c'.reset = y' at h3
        obtain ⟨r, w, d⟩ := y
        obtain ⟨r', w', d'⟩ := y'
        obtain ⟨e1, e2, h4⟩ := h3
        dsimp only at e1 e2 h4
        subst e1 e2
        cases r' with
        | ok _ => exact ih _ _ h4
        | error e => cases e <;> exact ⟨rfl, rfl, h4⟩

theorem computeOptim_R (tmp : Bool) (fuel : Nat) (st : BinSt) {s s' : Ctx} (hs : CtxR V K R s s') :
    SameS V K R (computeOptim (binSolver env) fg og v tmp fuel st s) (computeOptim (binSolver env) fg' og' v' tmp fuel st s') := by
  unfold computeOptim
  cases tmp with
  | false => exact ⟨rfl, rfl, hs⟩
  | true =>
    simp only [Bool.not_true, Bool.false_eq_true, if_false]
    have h3 : SameS V K R ((binSolver env).step (some (encWithVar v (fg v))) st s)
        ((binSolver env).step (some (encWithVar v' (fg' v'))) st s') :=
      step_R (env st.calls) (q := some _) (q' := some _) (compR_withVar hn hv hf) st hs
    generalize (binSolver env).step (some (encWithVar v (fg v))) st s = y at h3
    generalize (binSolver env).step (some (encWithVar v' (fg' v'))) st s' = y' at h3
    obtain ⟨r, w, d⟩ := y
    obtain ⟨r', w', d'⟩ := y'
    obtain ⟨e1, e2, h4⟩ := h3
    dsimp only at e1 e2 h4
    subst e1 e2
    cases r' with
    | ok _ => exact optimLoop_R hn hv hf ho env _ _ _ h4
    | error e => cases e <;> exact ⟨rfl, rfl, h4⟩

end

end Goexpdt

import Verif.Lemmas.OptimOrder
/- The cases in which `leh` answers "true" without looking at the variable; components that agree outside of scopes. -/
namespace Goexpdt
open Spec

section
variable {c1 c2 : QConst} {x : QVar} {g : QVar → QVar → QVar} {eg : Option (QVar → QVar → QVar)} {s : Ctx}

private theorem scopeConst_run (s : Ctx) (c : QConst) : M.scopeConst c s = (.ok { id := c.id, val := resolve s.scopes c }, s) := by
  show (Except.ok (s.scopeConst c).1, s) = _
  rw [scopeConst_eq]

private theorem scopeVar_run {s : Ctx} {x sv : QVar} (h : s.scopeVar x = .ok sv) : M.scopeVar x s = (.ok sv, s) :=
  Prod.ext h rfl

private theorem validate_run {s : Ctx} {cs : List QConst} (h : ∀ c ∈ cs, c.val.length = s.dim) : validateM cs s = (.ok (), s) := by
  have := validate_ok cs h
  show (M.dim >>= fun d => M.lift (ValidateConstsDim d cs)) s = _
  rw [M_bind_ok (show M.dim s = (.ok s.dim, s) from rfl), this]
  rfl

/-- `leh.ConstConstVar` with full constants that do not differ. -/
theorem ccv_true {sv : QVar} (hs : s.scopeVar x = .ok sv) (h1 : GoodVals s.dim (resolve s.scopes c1)) (h2 : GoodVals s.dim (resolve s.scopes c2))
    (f1 : Full s.dim (den (resolve s.scopes c1))) (f2 : Full s.dim (den (resolve s.scopes c2)))
    (hh : hamming s.dim (den (resolve s.scopes c1)) (den (resolve s.scopes c2)) = 0) :
    (Atom.leh (.const c1) (.const c2) (.var x) (some g) eg).encode s = (.ok TrueCNF, s) := by
  have hsv := scopeVar_run hs
  show lehConstConstVar c1 c2 x (some g) s = _
  unfold lehConstConstVar
  have f1' := (isFull_iff (c := { id := c1.id, val := resolve s.scopes c1 }) h1).2 f1
  have f2' := (isFull_iff (c := { id := c2.id, val := resolve s.scopes c2 }) h2).2 f2
  simp only
  rw [M_bind_ok (show M.dim s = (.ok s.dim, s) from rfl), M_bind_ok (scopeConst_run s c1), M_bind_ok (scopeConst_run s c2),
    M_bind_ok hsv, M_bind_ok (validate_run (by simp [h1.1, h2.1])), f1', f2']
  simp only [Bool.not_true, Bool.or_false, Bool.false_eq_true, if_false]
  rw [hdCC_ok (d := s.dim) h1 h2, M_bind_ok (show M.lift _ s = (.ok _, s) from rfl), if_pos hh]
  rfl

/-- `leh.ConstVarConst` with full constants that differ everywhere. -/
theorem cvc_true {sv : QVar} (hs : s.scopeVar x = .ok sv) (h1 : GoodVals s.dim (resolve s.scopes c1)) (h2 : GoodVals s.dim (resolve s.scopes c2))
    (f1 : Full s.dim (den (resolve s.scopes c1))) (f2 : Full s.dim (den (resolve s.scopes c2)))
    (hh : hamming s.dim (den (resolve s.scopes c1)) (den (resolve s.scopes c2)) = s.dim) :
    (Atom.leh (.const c1) (.var x) (.const c2) (some g) eg).encode s = (.ok TrueCNF, s) := by
  have hsv := scopeVar_run hs
  show lehConstVarConst c1 x c2 (some g) s = _
  unfold lehConstVarConst
  have f1' := (isFull_iff (c := { id := c1.id, val := resolve s.scopes c1 }) h1).2 f1
  have f2' := (isFull_iff (c := { id := c2.id, val := resolve s.scopes c2 }) h2).2 f2
  simp only
  rw [M_bind_ok (show M.dim s = (.ok s.dim, s) from rfl), M_bind_ok (scopeConst_run s c1), M_bind_ok (scopeConst_run s c2),
    M_bind_ok hsv, M_bind_ok (validate_run (by simp [h1.1, h2.1])), f1', f2']
  simp only [Bool.not_true, Bool.or_false, Bool.false_eq_true, if_false]
  rw [hdCC_ok (d := s.dim) h1 h2, M_bind_ok (show M.lift _ s = (.ok _, s) from rfl), if_pos hh]
  rfl

/-- `full.Const` with a full constant. -/
theorem full_true (h1 : GoodVals s.dim (resolve s.scopes c1)) (f1 : Full s.dim (den (resolve s.scopes c1))) :
    (Atom.full (.const c1)).encode s = (.ok TrueCNF, s) := by
  show fullConst c1 s = _
  unfold fullConst
  rw [M_bind_ok (scopeConst_run s c1), M_bind_ok (validate_run (by simp [h1.1]))]
  have := (fullC_iff (d := s.dim) _ h1).2 f1
  simp only [this, if_true]
  rfl

end

theorem scopeVar_top {s : Ctx} (h : s.scopes = []) (x : QVar) : s.scopeVar x = .ok x := by
  unfold Ctx.scopeVar
  rw [h]
  rfl

/-- The encodings agree in all contexts of the dimension without open scopes. -/
def SameTop (d : Nat) (x y : M CNF) : Prop := ∀ s, s.dim = d → s.scopes = [] → x s = y s

section
variable {d : Nat} {q1 q2 q1' q2' : M CNF}

theorem SameTop.refl (x : M CNF) : SameTop d x x := fun _ _ _ => rfl

theorem SameTop.and (ht : Tame q1) (h1 : SameTop d q1 q1') (h2 : SameTop d q2 q2') :
    SameTop d (encAnd (some q1) (some q2)) (encAnd (some q1') (some q2')) := by
  intro s hd hs
  have e1 := h1 s hd hs
  have k := ht.keep s
  have e2 := h2 (q1 s).2 (k.dim.trans hd) (k.scopes.trans hs)
  unfold encAnd
  simp only [M.wrapErr, andBuild, M_bind]
  rw [← e1]
  rcases hq : q1 s with ⟨_ | c, s1⟩
  · rfl
  · rw [hq] at e2
    simp only [e2]

theorem SameTop.not (h1 : SameTop d q1 q1') : SameTop d (encNot (some q1)) (encNot (some q1')) := by
  intro s hd hs
  have e1 := h1 s hd hs
  unfold encNot
  simp only [M.wrapErr, notBuild, M_bind]
  rw [← e1]

theorem SameTop.withVar (x : QVar) (h1 : SameTop d q1 q1') : SameTop d (encWithVar x (some q1)) (encWithVar x (some q1')) := by
  intro s hd hs
  unfold encWithVar
  simp only [M.wrapErr, withVarBuild, M_bind]
  obtain ⟨a, -, -⟩ := addVar_other s x
  have k := (encodeI_tame x).keep (s.addVar x)
  have e1 := h1 (encodeI x (s.addVar x)).2 (k.dim.trans (a.dim.trans hd)) (k.scopes.trans (a.scopes.trans hs))
  have : M.addVar x s = (.ok (), s.addVar x) := rfl
  simp only [this]
  rcases hq : encodeI x (s.addVar x) with ⟨_ | c, s1⟩
  · rfl
  · rw [hq] at e1
    simp only [e1]

theorem SameTop.asks {nodes : List Node} {names : List QVar} {v : QVar} {F : PInst → Prop} (h : SameTop d q1 q2)
    (ha : Asks d nodes names v q2 F) : Asks d nodes names v q1 F := by
  obtain ⟨hv, P, hD, hF⟩ := ha
  refine ⟨hv, P, fun s hs => ?_, hF⟩
  rw [h s hs.dim hs.scopes]
  exact hD s hs

end

end Goexpdt

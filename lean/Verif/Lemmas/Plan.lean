import Verif.Model.Calls
/- Lemmas for C58: the predicates execute their plans. -/
namespace Goexpdt

theorem M_map_eq {α β : Type} (f : α → β) (x : M α) : f <$> x = x >>= fun a => pure (f a) := rfl

instance : LawfulMonad M := LawfulMonad.mk'
  (id_map := by
    intro α x
    funext s
    show M.bind' x (fun a => pure (id a)) s = x s
    unfold M.bind'
    rcases x s with ⟨r, s'⟩
    cases r <;> rfl)
  (pure_bind := by intros; rfl)
  (bind_assoc := by
    intro α β γ x f g
    funext s
    show M.bind' (M.bind' x f) g s = M.bind' x (fun a => M.bind' (f a) g) s
    unfold M.bind'
    rcases x s with ⟨r, s'⟩
    cases r <;> rfl)

theorem throw_bind {α β : Type} (e : Err) (f : α → M β) : (M.throw e : M α) >>= f = M.throw e := rfl

theorem ite_bind' {α β : Type} {p : Prop} [Decidable p] (x y : M α) (f : α → M β) :
    (if p then x else y) >>= f = if p then x >>= f else y >>= f := by split <;> rfl

theorem Atom.encode_plan (a : Atom) : a.encode = a.plan >>= Plan.exec := by
  cases a with
  | subs t1 t2 =>
    cases t1 <;> cases t2 <;>
      simp only [Atom.encode, Atom.plan, subsConstConst, subsConstConstPlan, subsConstVar, subsConstVarPlan,
        subsVarConst, subsVarConstPlan, subsVarVar, subsVarVarPlan, bind_assoc, pure_bind, ite_bind', Plan.exec]
  | lel t1 t2 g =>
    cases t1 <;> cases t2 <;> (try cases g) <;>
      simp only [Atom.encode, Atom.plan, lelConstConst, lelConstConstPlan, lelConstVar, lelConstVarPlan,
        lelVarConst, lelVarConstPlan, lelVarVar, lelVarVarPlan, bind_assoc, pure_bind, ite_bind', Plan.exec, throw_bind]
  | isnode t g =>
    cases t <;> (try cases g) <;>
      simp only [Atom.encode, Atom.plan, isnodeConst, isnodeConstPlan, isnodeVar, isnodeVarPlan,
        bind_assoc, pure_bind, ite_bind', Plan.exec, throw_bind]
  | full t =>
    cases t <;>
      simp only [Atom.encode, Atom.plan, fullConst, fullConstPlan, fullVar, fullVarPlan,
        bind_assoc, pure_bind, ite_bind', Plan.exec]
  | cons t1 t2 =>
    cases t1 <;> cases t2 <;>
      simp only [Atom.encode, Atom.plan, consConstConst, consConstConstPlan, consConstVar, consConstVarPlan,
        consVarConst, consVarConstPlan, consVarVar, consVarVarPlan, consConstRet, consConstRetPlan,
        bind_assoc, pure_bind, ite_bind', Plan.exec]
  | allcomp t b g =>
    cases t <;> (try cases g) <;>
      simp only [Atom.encode, Atom.plan, allcompConst, allcompConstPlan, allcompVar, allcompVarPlan,
        bind_assoc, pure_bind, ite_bind', Plan.exec, throw_bind]
  | dfs t =>
    cases t <;>
      simp only [Atom.encode, Atom.plan, dfsConst, dfsConstPlan, dfsVar, dfsVarPlan,
        bind_assoc, pure_bind, ite_bind', Plan.exec, throw_bind]
  | hepr t1 t2 p g =>
    cases t1 <;> cases t2 <;> (try cases g) <;>
      simp only [Atom.encode, Atom.plan, heprConstConst, heprConstConstPlan, heprConstVar, heprConstVarPlan,
        heprVarConst, heprVarConstPlan, heprVarVar, heprVarVarPlan,
        bind_assoc, pure_bind, ite_bind', Plan.exec, throw_bind]
  | leh t1 t2 t3 g e =>
    cases t1 <;> cases t2 <;> cases t3 <;> (try cases g) <;> (try cases e) <;>
      simp only [Atom.encode, Atom.plan, lehConstConstVar, lehConstConstVarPlan,
        lehConstVarConst, lehConstVarConstPlan, lehConstVarVar, lehConstVarVarPlan,
        lehVarConstConst, lehVarConstConstPlan, lehVarConstVar, lehVarConstVarPlan,
        lehVarVarConst, lehVarVarConstPlan, lehVarVarVar, lehVarVarVarPlan,
        bind_assoc, pure_bind, ite_bind', Plan.exec, throw_bind] <;>
      (simp only [lehConstConstConst, lehConstConstConstPlan, bind_assoc]
       refine congrArg _ (funext fun c1 => congrArg _ (funext fun c2 => congrArg _ (funext fun c3 =>
         congrArg _ (funext fun _ => ?_))))
       split
       · rfl
       · cases hammingDistCC c1 c2 with
         | error => rfl
         | ok a =>
           cases hammingDistCC c1 c3 with
           | error => rfl
           | ok b => simp only [ite_bind', pure_bind, Plan.exec])

end Goexpdt

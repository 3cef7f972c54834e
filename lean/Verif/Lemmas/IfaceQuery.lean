import Verif.Lemmas.IfaceAtom
namespace Goexpdt
open Spec

namespace Over

variable {σ : Type} {J : Par σ} {n : Nat} {w : Pairing}

theorem atom_G (a : Atom) (hv : ∀ x ∈ a.args.flatMap Term.varNames, ∀ v v', NameR J.name J.ids x v v' → J.R v v') (hg : a.GensR J.name J.ids J.R) :
    SimG J n w CnfR a.encode (atom J.I a) := by
  cases a
  case subs t1 t2 =>
    cases t1 <;> cases t2
    · exact subsConstConst_G
    · exact subsConstVar_G (hv _ (by simp [Atom.args, Term.varNames]))
    · exact subsVarConst_G (hv _ (by simp [Atom.args, Term.varNames]))
    · exact subsVarVar_G (hv _ (by simp [Atom.args, Term.varNames])) (hv _ (by simp [Atom.args, Term.varNames]))
  case lel t1 t2 g =>
    cases t1 <;> cases t2
    · exact lelConstConst_G
    · cases g
      · exact simG_throw _
      · exact lelConstVar_G (hv _ (by simp [Atom.args, Term.varNames])) fun a a' h => hg (.var _) (by simp) trivial a a' h
    · cases g
      · exact simG_throw _
      · exact lelVarConst_G (hv _ (by simp [Atom.args, Term.varNames])) fun a a' h => hg (.var _) (by simp) trivial a a' h
    · cases g
      · exact simG_throw _
      · exact lelVarVar_G (hv _ (by simp [Atom.args, Term.varNames])) (hv _ (by simp [Atom.args, Term.varNames]))
          fun a a' h => h.elim (hg (.var _) (by simp) trivial a a') (hg (.var _) (by simp) trivial a a')
  case isnode t g =>
    cases t
    · exact isnodeConst_G
    · cases g
      · exact simG_throw _
      · exact isnodeVar_G (hv _ (by simp [Atom.args, Term.varNames])) fun a a' h => hg trivial a a' h
  case full t =>
    cases t
    · exact fullConst_G
    · exact fullVar_G (hv _ (by simp [Atom.args, Term.varNames]))
  case cons t1 t2 =>
    cases t1 <;> cases t2
    · exact consConstConst_G
    · exact consConstVar_G (hv _ (by simp [Atom.args, Term.varNames]))
    · exact consVarConst_G (hv _ (by simp [Atom.args, Term.varNames]))
    · exact consVarVar_G (hv _ (by simp [Atom.args, Term.varNames])) (hv _ (by simp [Atom.args, Term.varNames]))
  case allcomp t b g =>
    cases t
    · exact allcompConst_G b
    · cases g
      · exact simG_throw _
      · exact allcompVar_G (hv _ (by simp [Atom.args, Term.varNames])) b fun a a' h => hg trivial a a' h
  case dfs t =>
    cases t
    · exact dfsConst_G
    · exact dfsVar_G (hv _ (by simp [Atom.args, Term.varNames]))
  case hepr t1 t2 p g =>
    cases t1 <;> cases t2
    · exact heprConstConst_G p
    · cases g
      · exact simG_throw _
      · exact heprConstVar_G (hv _ (by simp [Atom.args, Term.varNames])) p fun k b b' h => hg (.inr trivial) _ _ b b' ⟨k, rfl, rfl⟩ h
    · cases g
      · exact simG_throw _
      · exact heprVarConst_G (hv _ (by simp [Atom.args, Term.varNames])) p fun k b b' h => hg (.inl trivial) b b' _ _ h ⟨k, rfl, rfl⟩
    · cases g
      · exact simG_throw _
      · exact heprVarVar_G (hv _ (by simp [Atom.args, Term.varNames])) (hv _ (by simp [Atom.args, Term.varNames])) p
          fun a a' b b' h h' => hg (.inl trivial) a a' b b' h h'
  case leh t1 t2 t3 g e =>
    cases t1 <;> cases t2 <;> cases t3
    case const.const.const => exact lehConstConstConst_G
    all_goals
      cases g
      case none => exact simG_throw _
    case const.const.var.some c1 c2 x g =>
      exact lehConstConstVar_G (hv _ (by simp [Atom.args, Term.varNames])) fun a a' k h =>
        hg.1 _ rfl (.var x) (by simp) (.const c1) (by simp) trivial a a' _ _ h ⟨k, rfl, rfl⟩
    case const.var.const.some c1 x c2 g =>
      exact lehConstVarConst_G (hv _ (by simp [Atom.args, Term.varNames])) fun a a' k h =>
        hg.1 _ rfl (.var x) (by simp) (.const c1) (by simp) trivial a a' _ _ h ⟨k, rfl, rfl⟩
    case const.var.var.some c1 x y g =>
      exact lehConstVarVar_G (hv _ (by simp [Atom.args, Term.varNames])) (hv _ (by simp [Atom.args, Term.varNames])) fun a a' k h =>
        h.elim (fun h => hg.1 _ rfl (.var x) (by simp) (.const c1) (by simp) trivial a a' _ _ h ⟨k, rfl, rfl⟩)
          (fun h => hg.1 _ rfl (.var y) (by simp) (.const c1) (by simp) trivial a a' _ _ h ⟨k, rfl, rfl⟩)
    case var.const.const.some x c1 c2 g =>
      exact lehVarConstConst_G (hv _ (by simp [Atom.args, Term.varNames])) fun a a' k h =>
        hg.1 _ rfl (.var x) (by simp) (.const c1) (by simp) trivial a a' _ _ h ⟨k, rfl, rfl⟩
    all_goals
      cases e
      case none => exact simG_throw _
    case var.const.var.some.some x c1 y g e =>
      exact lehVarConstVar_G (hv _ (by simp [Atom.args, Term.varNames])) (hv _ (by simp [Atom.args, Term.varNames]))
        (fun a a' k h => hg.1 _ rfl (.var x) (by simp) (.const c1) (by simp) trivial a a' _ _ h ⟨k, rfl, rfl⟩)
        (fun a a' b b' h h' => hg.1 _ rfl (.var x) (by simp) (.var y) (by simp) trivial a a' b b' h h')
        fun a a' b b' h h' => hg.2 _ rfl (.var y) (by simp) trivial trivial a a' b b' h h'
    case var.var.const.some.some x y c1 g e =>
      exact lehVarVarConst_G (hv _ (by simp [Atom.args, Term.varNames])) (hv _ (by simp [Atom.args, Term.varNames]))
        (fun a a' k h => hg.1 _ rfl (.var x) (by simp) (.const c1) (by simp) trivial a a' _ _ h ⟨k, rfl, rfl⟩)
        (fun a a' b b' h h' => hg.1 _ rfl (.var x) (by simp) (.var y) (by simp) trivial a a' b b' h h')
        fun a a' b b' h h' => hg.2 _ rfl (.var y) (by simp) trivial trivial a a' b b' h h'
    case var.var.var.some.some x y z g e =>
      exact lehVarVarVar_G (hv _ (by simp [Atom.args, Term.varNames])) (hv _ (by simp [Atom.args, Term.varNames]))
        (hv _ (by simp [Atom.args, Term.varNames]))
        (fun a a' b b' h h' => h'.elim (hg.1 _ rfl (.var x) (by simp) (.var y) (by simp) trivial a a' b b' h)
          (hg.1 _ rfl (.var x) (by simp) (.var z) (by simp) trivial a a' b b' h))
        fun a a' b b' h h' => h'.elim (hg.2 _ rfl (.var y) (by simp) trivial trivial a a' b b' h)
          (hg.2 _ rfl (.var z) (by simp) trivial trivial a a' b b' h)

/-! ### Operators -/

theorem simG_reqAllFeats {v v' : QVar} (h : J.R v v') : ∀ (k i : Nat) (w : Pairing),
    SimG J n w ClsR (Goexpdt.reqAllFeats v i k) (reqAllFeats J.I v' i k) := by
  intro k
  induction k with
  | zero => exact fun i w => simG_pure fun _ _ _ => .nil
  | succ k ih =>
    intro i w
    refine simG_bindW (simG_cnfVar h _ _) fun w1 h1 a a' ha => simG_bindW (simG_cnfVar h _ _) fun w2 h2 b b' hb =>
      simG_bindW (simG_cnfVar h _ _) fun w3 h3 c c' hc => simG_bindW (ih _ _) fun w4 h4 r r' hr => simG_pure fun w5 h5 _ => ?_
    exact .cons (.cons ⟨a, a', h5.rel (h4.rel (h3.rel (h2.rel ha))), .inl ⟨rfl, rfl⟩⟩ (.cons ⟨b, b', h5.rel (h4.rel (h3.rel hb)), .inl ⟨rfl, rfl⟩⟩
      (.cons ⟨c, c', h5.rel (h4.rel hc), .inl ⟨rfl, rfl⟩⟩ .nil))) (ClsR.mono h5 hr)

theorem simG_reqOnePerFeat {v v' : QVar} (h : J.R v v') : ∀ (k i : Nat) (w : Pairing) (c c' : CNF), CnfR w c c' →
    SimG J n w CnfR (Goexpdt.reqOnePerFeat v i k c) (reqOnePerFeat J.I v' i k c') := by
  intro k
  induction k with
  | zero => exact fun i w c c' hc => simG_pure fun _ h _ => hc.mono h
  | succ k ih =>
    intro i w c c' hc
    refine simG_bindW (simG_cnfVar h _ _) fun w1 h1 z1 z1' e1 => simG_bindW (simG_cnfVar h _ _) fun w2 h2 o1 o1' e2 =>
      simG_bindW (simG_cnfVar h _ _) fun w3 h3 z2 z2' e3 => simG_bindW (simG_cnfVar h _ _) fun w4 h4 b2 b2' e4 =>
      simG_bindW (simG_cnfVar h _ _) fun w5 h5 o3 o3' e5 => simG_bindW (simG_cnfVar h _ _) fun w6 h6 b3 b3' e6 =>
      simG_ok fun w7 h7 ok => ih _ _ _ _ ?_
    have g6 := h7
    have g5 := h6.trans g6
    have g4 := h5.trans g5
    have g3 := h4.trans g4
    have g2 := h3.trans g3
    have g1 := h2.trans g2
    refine (hc.mono (h1.trans g1)).appendConsistency ok (.cons ?_ (.cons ?_ (.cons ?_ .nil)))
    · exact .cons ⟨_, _, g1.rel e1, .inr ⟨rfl, rfl⟩⟩ (.cons ⟨_, _, g2.rel e2, .inr ⟨rfl, rfl⟩⟩ .nil)
    · exact .cons ⟨_, _, g3.rel e3, .inr ⟨rfl, rfl⟩⟩ (.cons ⟨_, _, g4.rel e4, .inr ⟨rfl, rfl⟩⟩ .nil)
    · exact .cons ⟨_, _, g5.rel e5, .inr ⟨rfl, rfl⟩⟩ (.cons ⟨_, _, g6.rel e6, .inr ⟨rfl, rfl⟩⟩ .nil)

theorem simG_encodeI {x : QVar} (hx : ∀ a a', NameR J.name J.ids x a a' → J.R a a') : SimG J n w CnfR (Goexpdt.encodeI x) (encodeI J.I x) := by
  unfold Goexpdt.encodeI encodeI
  refine simG_bind (simG_scopeVar _) fun v v' hv => simG_same (simG_cnfVarExists (hx _ _ hv) _ _) fun ex =>
    simG_ite (simG_pure fun _ _ ok => cnfR_empty ok) (simG_same simG_dim fun d => ?_)
  exact simG_bindW (simG_reqAllFeats (hx _ _ hv) _ _ _) fun w1 _ a b e => simG_ok fun w2 h2 ok =>
    simG_reqOnePerFeat (hx _ _ hv) _ _ _ _ _ ((cnfR_empty ok).appendConsistency ok (ClsR.mono h2 e))

variable {m : M CNF} {m' : MG σ CNF}

theorem simG_forallLoop (h0 : 0 < n) (h : ∀ w, SimG J n w CnfR m m') (nodes : List Node) : ∀ (k : Nat) (wk : WalkSt) (i : Int) (w : Pairing)
    (c c' : CNF), CnfR w c c' → SimG J n w CnfR (Goexpdt.forallLoop m nodes k wk i c) (forallLoop J.I m' nodes k wk i c') := by
  intro k
  induction k with
  | zero => exact fun _ _ _ _ _ _ => simG_throw _
  | succ k ih =>
    intro wk i w c c' hc
    simp only [Goexpdt.forallLoop, forallLoop]
    rcases walkNext nodes (nextFuel nodes) wk with e | _ | wk'
    · exact simG_throw _
    · exact simG_pure fun _ h _ => hc.mono h
    · exact simG_same (simG_setScope h0 _ _) fun _ => simG_bindW (h _) fun w1 h1 a b e => simG_ok fun w2 h2 ok =>
        ih _ _ _ _ _ ((hc.mono (h1.trans h2)).conjunction ok (e.mono h2))

theorem simG_forallBuild {c : QConst} (hc : c.id ∈ J.ids) (h : ∀ w, SimG J (n + 1) w CnfR m m') :
    SimG J n w CnfR (Goexpdt.forallBuild c m) (forallBuild J.I c m') := by
  have hb : SimG J (n + 1) w CnfR (Goexpdt.forallBody m) (forallBody J.I m') := by
    unfold Goexpdt.forallBody forallBody
    exact simG_same simG_dim fun d => simG_same simG_nodes fun nodes => simG_same (simG_lift _) fun w =>
      simG_ok fun w1 _ ok => simG_forallLoop (by omega) h _ _ _ _ _ _ _ (cnfR_empty ok)
  intro w1 hw s t hst hl
  obtain ⟨a, t1, e, hi, hv⟩ := J.keeps.addScope t c.id hst.inv
  have hst' : At J w1 (s.addScope c.id) t1 := by
    refine ⟨hst.ok, hi, hst.dim, hst.nodes, hst.topv, by rw [hv]; exact hst.top, ?_, ?_, by rw [hv]; exact hst.level,
      exec_scopeOk (.addScope c.id) s (by simp) hst.fn hst.scope, exec_varsFun (.addScope c.id) s hst.fn, by rw [hv]; exact hst.nums⟩
    · rw [hv]; exact congrArg (· ++ _) hst.scopes
    · intro g hg
      rcases List.mem_append.1 hg with hg | hg
      · exact hst.ids g hg
      · rw [List.mem_singleton.1 hg]; exact hc
  obtain ⟨w2, f1, f2, f3, f4⟩ := hb w1 hw _ _ hst' (by simp [Ctx.addScope, hl])
  unfold Goexpdt.forallBuild forallBuild
  rw [e]
  dsimp only
  generalize Goexpdt.forallBody m (s.addScope c.id) = p at f2 f3 f4
  generalize forallBody J.I m' t1 = p' at f2 f4
  obtain ⟨r, u⟩ := p
  obtain ⟨r', u'⟩ := p'
  dsimp only at f2 f3 f4 ⊢
  have hne : u.scopes ≠ [] := by intro e; rw [e] at f3; simp at f3
  obtain ⟨gs, g, eg⟩ : ∃ gs g, u.scopes = gs ++ [g] := ⟨u.scopes.dropLast, u.scopes.getLast hne, (List.dropLast_concat_getLast hne).symm⟩
  obtain ⟨b, t2, e2, hi2, hv2⟩ := J.keeps.popScope u' gs g f2.inv (f2.scopes.trans eg)
  rw [e2]
  have hvars := fun x => popScope_vars f2.fn hne x
  have h1 := exec_scopeOk .popScope u (by simp) f2.fn f2.scope
  have h2 := exec_varsFun .popScope u f2.fn
  have hp : u.popScope = (.ok (), { u with vars := u.vars.filter (fun p => ¬ p.2 = u.scopes.length), scopes := u.scopes.dropLast }) := by
    unfold Ctx.popScope
    rw [if_neg (by simpa using hne)]
  have hlen : u.scopes.length = gs.length + 1 := by rw [eg]; simp
  have hdl : u.scopes.dropLast = gs := by rw [eg]; simp
  change ScopeOk u.popScope.2 at h1
  change VarsFun u.popScope.2 at h2
  simp only [hp] at h1 h2 hvars ⊢
  refine ⟨w2, f1, ⟨f2.ok, hi2, f2.dim, f2.nodes, f2.topv, by rw [hv2]; exact f2.top, by rw [hv2]; exact hdl.symm, ?_, ?_, h1, h2,
    by rw [hv2]; exact f2.nums⟩, ?_, f4⟩
  · intro g' hg'
    exact f2.ids g' (List.dropLast_subset _ hg')
  · intro x
    rw [hv2]
    dsimp only
    rw [hvars, f2.level, hlen]
    cases hm : mapGet u.vars x with
    | none => simp
    | some k =>
      simp only [Option.getD_some]
      split <;> rfl
  · show u.scopes.dropLast.length = n
    rw [hdl]; omega

instance : LawfulMonad (MG σ) := LawfulMonad.mk' (m := MG σ)
  (id_map := by
    intro α x
    funext s
    show MG.bind' x (fun a s => (.ok a, s)) s = x s
    unfold MG.bind'
    rcases x s with ⟨_ | _, _⟩ <;> rfl)
  (pure_bind := fun _ _ => rfl)
  (bind_assoc := by
    intro α β γ x f g
    funext s
    show MG.bind' (MG.bind' x f) g s = MG.bind' x (fun a => MG.bind' (f a) g) s
    unfold MG.bind'
    rcases x s with ⟨_ | _, _⟩ <;> rfl)

theorem orBuildG_eq (I : QContext σ) (x y : MG σ CNF) : orBuild I x y = MG.wrapErr "Q1" x >>= fun c => MG.wrapErr "Q2" y >>= fun c' =>
    negStepG I c >>= fun c => negStepG I c' >>= fun c' => negStepG I (c.conjunction c') := by
  simp only [orBuild, negStepG, bind_assoc, pure_bind]

theorem notBuildG_eq (I : QContext σ) (x : MG σ CNF) : notBuild I x = x >>= fun c => negStepG I c := rfl

theorem comp_G (q : Query) : ∀ (n : Nat), (∀ x ∈ q.varNames, ∀ v v', NameR J.name J.ids x v v' → J.R v v') → (∀ i ∈ q.idNames, i ∈ J.ids) →
    (∀ a ∈ q.atoms, a.GensR J.name J.ids J.R) →
    (q.comp = none ∧ comp J.I q = none) ∨ ∃ x x', q.comp = some x ∧ comp J.I q = some x' ∧ ∀ w, SimG J n w CnfR x x' := by
  induction q with
  | nil => exact fun n _ _ _ => .inl ⟨rfl, rfl⟩
  | atom a => exact fun n hv _ hg => .inr ⟨_, _, rfl, rfl, fun w => atom_G a hv (hg a (by simp [Query.atoms]))⟩
  | and q1 q2 i1 i2 =>
    intro n hv hi hg
    refine .inr ⟨_, _, rfl, rfl, fun w => simG_wrapErr _ ?_⟩
    rcases i1 n (fun x hx => hv x (List.mem_append_left _ hx)) (fun x hx => hi x (List.mem_append_left _ hx))
      (fun x hx => hg x (List.mem_append_left _ hx)) with ⟨e1, e2⟩ | ⟨x, x', e1, e2, h1⟩
    · rw [e1, e2]; exact simG_throw _
    · rw [e1, e2]
      rcases i2 n (fun x hx => hv x (List.mem_append_right _ hx)) (fun x hx => hi x (List.mem_append_right _ hx))
        (fun x hx => hg x (List.mem_append_right _ hx)) with ⟨e1, e2⟩ | ⟨y, y', e1, e2, h2⟩
      · rw [e1, e2]; exact simG_throw _
      · rw [e1, e2]
        exact simG_bindW (simG_wrapErr _ (h1 _)) fun _ _ _ _ r1 => simG_bindW (simG_wrapErr _ (h2 _)) fun _ l2 _ _ r2 =>
          simG_pure fun _ l3 ok => ((r1.mono l2).mono l3).conjunction ok (r2.mono l3)
  | or q1 q2 i1 i2 =>
    intro n hv hi hg
    refine .inr ⟨_, _, rfl, rfl, fun w => simG_wrapErr _ ?_⟩
    rcases i1 n (fun x hx => hv x (List.mem_append_left _ hx)) (fun x hx => hi x (List.mem_append_left _ hx))
      (fun x hx => hg x (List.mem_append_left _ hx)) with ⟨e1, e2⟩ | ⟨x, x', e1, e2, h1⟩
    · rw [e1, e2]; exact simG_throw _
    · rw [e1, e2]
      rcases i2 n (fun x hx => hv x (List.mem_append_right _ hx)) (fun x hx => hi x (List.mem_append_right _ hx))
        (fun x hx => hg x (List.mem_append_right _ hx)) with ⟨e1, e2⟩ | ⟨y, y', e1, e2, h2⟩
      · rw [e1, e2]; exact simG_throw _
      · rw [e1, e2]
        dsimp only
        rw [orBuild_eq, orBuildG_eq]
        exact simG_bindW (simG_wrapErr _ (h1 _)) fun _ _ _ _ r1 => simG_bindW (simG_wrapErr _ (h2 _)) fun _ l2 _ _ r2 =>
          simG_bindW (simG_negStep (r1.mono l2)) fun _ l3 _ _ r3 => simG_bindW (simG_negStep (r2.mono l3)) fun _ l4 _ _ r4 =>
          simG_ok fun _ l5 ok => simG_negStep (((r3.mono l4).mono l5).conjunction ok (r4.mono l5))
  | not q i1 =>
    intro n hv hi hg
    refine .inr ⟨_, _, rfl, rfl, fun w => simG_wrapErr _ ?_⟩
    rcases i1 n hv hi hg with ⟨e1, e2⟩ | ⟨x, x', e1, e2, h1⟩
    · rw [e1, e2]; exact simG_throw _
    · rw [e1, e2]
      dsimp only
      rw [notBuild_eq, notBuildG_eq]
      exact simG_bindW (h1 _) fun _ _ _ _ r => simG_negStep r
  | withVar v q i1 =>
    intro n hv hi hg
    refine .inr ⟨_, _, rfl, rfl, fun w => simG_wrapErr _ ?_⟩
    rcases i1 n (fun x hx => hv x (List.mem_cons_of_mem _ hx)) hi hg with ⟨e1, e2⟩ | ⟨x, x', e1, e2, h1⟩
    · rw [e1, e2]; exact simG_throw _
    · rw [e1, e2]
      exact simG_same (simG_addVar v) fun _ => simG_bindW (simG_encodeI (hv v List.mem_cons_self)) fun _ _ _ _ r1 =>
        simG_bindW (h1 _) fun _ l2 _ _ r2 => simG_pure fun _ l3 ok => ((r1.mono l2).mono l3).conjunction ok (r2.mono l3)
  | forallG c q i1 =>
    intro n hv hi hg
    refine .inr ⟨_, _, rfl, rfl, fun w => simG_wrapErr _ ?_⟩
    rcases i1 (n + 1) hv (fun x hx => hi x (List.mem_cons_of_mem _ hx)) hg with ⟨e1, e2⟩ | ⟨x, x', e1, e2, h1⟩
    · rw [e1, e2]; exact simG_throw _
    · rw [e1, e2]
      exact simG_forallBuild (hi _ List.mem_cons_self) h1

theorem query_G {q : Query} (hids : q.idNames = J.ids) (hv : ∀ x ∈ q.varNames, ∀ v v', NameR J.name q.idNames x v v' → J.R v v')
    (hg : ∀ a ∈ q.atoms, a.GensR J.name q.idNames J.R) : SimG J n w CnfR q.encode (encode J.I q) := by
  unfold Query.encode encode
  rw [hids] at hv hg
  rcases comp_G q n hv (by rw [hids]; exact fun _ h => h) hg with ⟨e1, e2⟩ | ⟨x, x', e1, e2, h1⟩
  · rw [e1, e2]; exact simG_throw _
  · rw [e1, e2]; exact h1 w

end Over

end Goexpdt

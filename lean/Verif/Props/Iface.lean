import Verif.Lemmas.IfaceTag
import Verif.Lemmas.IfaceBasic
import Verif.Props.Tidy
/-
C87: queries can be encoded with any implementation of the interface `QContext` that keeps the contract of Spec/Iface.lean; the basic context is
one of them.
-/
namespace Goexpdt.Props
open Goexpdt Spec

variable {σ : Type} {d : Nat} {nodes : List Node} {T : DTree} {depth : QVar → Nat} {q : Query} {I : QContext σ} {inv : σ → Prop}
  {view : σ → View} {name : QVar → ScopePath → QVar} {R : QVar → QVar → Prop} {t : σ} {tags : Tags}

/-- C87: the functions over an arbitrary context (Model/Iface.lean), used with the basic context, are those of the rest of the model, and the
basic context keeps the contract, from its first state on. -/
theorem C87_basic (d : Nat) (nodes : List Node) : (∀ q, Over.encode basicI q = q.encode) ∧
    CtxContract d nodes basicI (CtxInv d nodes) ctxView (fun x p => x ++ p.flatMap fun g => [sep] ++ g.1 ++ [sep] ++ itoa g.2) ∧
    Unused (CtxInv d nodes) ctxView (BasicQContext d nodes) :=
  ⟨fun q => (Over.same_encode q).eq, basic_contract d nodes, unused_start d nodes (Int.le_refl 0)⟩

/-- C87: with a context that keeps the contract and whose names fit, every query has the same outcome as with the basic context: the same
error, or a CNF with clauses of the same lengths that is satisfiable exactly if the other one is. -/
theorem C87_same (hk : CtxContract d nodes I inv view name) (hu : Unused inv view t) (hn : q.NamesFit name R) :
    (∃ c s c' t', q.encode (BasicQContext d nodes) = (.ok c, s) ∧ Over.encode I q t = (.ok c', t') ∧ inv t' ∧ WF c' ∧ c'.tv ≤ (view t').top ∧
      (view t').scopes = [] ∧ (Satisfiable c' ↔ Satisfiable c) ∧ c'.sClauses.map List.length = c.sClauses.map List.length ∧
      c'.cClauses.map List.length = c.cClauses.map List.length) ∨
    ∃ e s t', q.encode (BasicQContext d nodes) = (.error e, s) ∧ Over.encode I q t = (.error e, t') ∧ inv t' ∧ (view t').scopes = [] := by
  let J : Over.Par σ := ⟨d, nodes, I, inv, view, name, q.idNames, R, hk, hn.oneOne⟩
  obtain ⟨w, -, ha, hl, hr⟩ := Over.query_G (J := J) (n := 0) (q := q) rfl hn.var hn.gens _ (.refl _) _ _ (Over.at_start J hu) rfl
  have hs : (view (Over.encode I q t).2).scopes = [] := by
    rw [ha.scopes, List.length_eq_zero_iff.1 hl]
  have hi : inv (Over.encode I q t).2 := ha.inv
  rcases e : q.encode (BasicQContext d nodes) with ⟨r, s⟩
  rcases e' : Over.encode I q t with ⟨r', t'⟩
  rw [e'] at hs hi
  change Over.At J w (q.encode (BasicQContext d nodes)).2 (Over.encode I q t).2 at ha
  change Over.ResR _ (q.encode (BasicQContext d nodes)).1 (Over.encode I q t).1 at hr
  rw [e, e'] at ha hr
  have hlen : ∀ {a a' : List Clause}, Over.ClsR w a a' → a'.map List.length = a.map List.length := by
    intro a a' h
    induction h with
    | nil => rfl
    | cons h _ ih => rw [List.map_cons, List.map_cons, h.length, ih]
  cases r with
  | error err =>
    cases r' with
    | error err' =>
      have : err' = err := hr
      subst this
      exact .inr ⟨_, _, _, rfl, rfl, hi, hs⟩
    | ok c' => exact hr.elim
  | ok c =>
    cases r' with
    | error err' => exact hr.elim
    | ok c' =>
      have hr : Over.CnfR w c c' := hr
      have htop : (view t').top = w.lo' := ha.top
      exact .inl ⟨c, s, c', t', rfl, rfl, hi, hr.wf', by rw [htop]; exact hr.tv', hs, Over.satisfiable_iff ha.ok hr, hlen hr.sem, hlen hr.con⟩

/-- C87: with such a context every query that meets the conditions of C39 is encoded without error, and the CNF is faithful to what the query
says. -/
theorem C87_faithful (hk : CtxContract d nodes I inv view name) (hu : Unused inv view t) (hn : q.NamesFit name R) (hg : q.Good d nodes T depth) :
    ∃ c t', Over.encode I q t = (.ok c, t') ∧ WF c ∧ FaithfulIn d R (q.names d T []) (fun σ => q.sem d T depth σ []) (view t') c := by
  let J : Over.Par σ := ⟨d, nodes, I, inv, view, name, q.idNames, R, hk, hn.oneOne⟩
  obtain ⟨w, -, ha, hl, hr⟩ := Over.query_G (J := J) (n := 0) (q := q) rfl hn.var hn.gens _ (.refl _) _ _ (Over.at_start J hu) rfl
  obtain ⟨c, s', e, -, -, -, hnm, -, hf⟩ := good_query hg (Ready.fresh_ctx d nodes (q.names d T []))
  change Over.At J w (q.encode (BasicQContext d nodes)).2 (Over.encode I q t).2 at ha
  change Over.ResR _ (q.encode (BasicQContext d nodes)).1 (Over.encode I q t).1 at hr
  rcases e' : Over.encode I q t with ⟨r', t'⟩
  rw [e, e'] at ha hr
  cases r' with
  | error err' => exact hr.elim
  | ok c' =>
    have hr : Over.CnfR w c c' := hr
    refine ⟨c', t', rfl, hr.wf', Over.faithful_transfer ha hr ?_ hnm hf⟩
    intro n hnn
    obtain ⟨x, hx, gs, h1, rfl⟩ := names_form (ids := q.idNames) (by simp) (fun _ h => h) n hnn
    exact ⟨_, hn.var x hx _ _ ⟨gs, h1, rfl, rfl⟩⟩

/-- C87 in first-order semantics. -/
theorem C87_first_order (hk : CtxContract d nodes I inv view name) (hu : Unused inv view t) (hn : q.NamesFit name R) (hg : q.Good d nodes T depth)
    (hp : q.Plain) : ∃ c t', Over.encode I q t = (.ok c, t') ∧ (Satisfiable c ↔ q.fo d T (fun _ => bot) fun _ => none) := by
  obtain ⟨c, t', e, -, hf⟩ := C87_faithful hk hu hn hg
  obtain ⟨c0, s0, e0, h0⟩ := C40_first_order hg hp
  obtain ⟨c1, s1, e1, -, h1⟩ := (C39_faithful hg).1
  rw [e1] at e0
  cases e0
  exact ⟨c, t', e, hf.sat.trans (h1.sat.symm.trans h0)⟩

theorem nameR_basic {ids : List (List Char)} (hname : ∀ x gs, name x (pathOf gs) = x ++ suffix gs) {x a a' : QVar} (h : NameR name ids x a a') :
    a = a' := by
  obtain ⟨gs, -, rfl, rfl⟩ := h
  exact (hname x gs).symm

theorem gens_basic {ids : List (List Char)} (hname : ∀ x gs, name x (pathOf gs) = x ++ suffix gs) (a : Atom) : a.GensR name ids Eq := by
  have hk : ∀ {T : Term} {a a'}, T.KeyG name ids a a' → a = a' := by
    intro T a a' h
    cases T with
    | var x => exact nameR_basic hname h
    | const c => obtain ⟨k, rfl, rfl⟩ := h; rfl
  cases a with
  | lel t1 t2 g =>
    cases g with
    | none => trivial
    | some g => exact fun T _ _ a a' h => congrArg g (hk h)
  | isnode t1 g =>
    cases g with
    | none => trivial
    | some g => exact fun _ a a' h => congrArg g (hk h)
  | allcomp t1 b g =>
    cases g with
    | none => trivial
    | some g => exact fun _ a a' h => congrArg g (hk h)
  | hepr t1 t2 p g =>
    cases g with
    | none => trivial
    | some g => exact fun _ a a' b b' h h' => by rw [hk h, hk h']
  | leh t1 t2 t3 g e => exact ⟨fun g' _ T _ U _ _ a a' b b' h h' => by rw [hk h, hk h'], fun e' _ T _ _ _ a a' b b' h h' => by rw [hk h, hk h']⟩
  | _ => trivial

/-- C87: the names fit, whatever generators the query uses, if they are those of the basic context; only the numbers may then differ. -/
theorem C87_names_basic (hname : ∀ x gs, name x (pathOf gs) = x ++ suffix gs) (q : Query) : q.NamesFit name Eq :=
  ⟨⟨fun h h' => h.symm.trans h', fun h h' => h.trans h'.symm⟩, fun _ _ _ _ h => nameR_basic hname h, fun a _ => gens_basic hname a⟩

theorem tidy_tagged {a : Atom} (h : a.Tidy tags) : a.TaggedBy tags := by
  cases a with
  | lel t1 t2 g => cases t1 <;> cases t2 <;> simp_all [Atom.Tidy, Atom.TaggedBy, Term.IsVar]
  | isnode t1 g => cases t1 <;> simp_all [Atom.Tidy, Atom.TaggedBy, Term.IsVar]
  | allcomp t1 b g => cases t1 <;> simp_all [Atom.Tidy, Atom.TaggedBy, Term.IsVar]
  | hepr t1 t2 p g => cases t1 <;> cases t2 <;> simp_all [Atom.Tidy, Atom.TaggedBy, Term.IsVar]
  | leh t1 t2 t3 g e => cases t1 <;> cases t2 <;> cases t3 <;> simp_all [Atom.Tidy, Atom.TaggedBy, Term.IsVar]
  | _ => trivial

theorem tidy_atoms : ∀ {q : Query}, q.Tidy tags → ∀ a ∈ q.atoms, a.Tidy tags
  | .nil, _, _, h => by cases h
  | .atom b, h, a, ha => by rw [List.mem_singleton.1 ha]; exact h
  | .and q1 q2, h, a, ha => (List.mem_append.1 ha).elim (tidy_atoms h.1 a) (tidy_atoms h.2 a)
  | .or q1 q2, h, a, ha => (List.mem_append.1 ha).elim (tidy_atoms h.1 a) (tidy_atoms h.2 a)
  | .not q, h, a, ha => tidy_atoms (q := q) h a ha
  | .withVar _ q, h, a, ha => tidy_atoms (q := q) h.2 a ha
  | .forallG _ q, h, a, ha => tidy_atoms (q := q) h.2 a ha

/-- C87: for queries that meet the syntactic conditions of C54, with the generators of the tests, it is enough that `ScopeVar` gives different
names to different variables and to the same variable at different places (`NamesApart`). -/
theorem C87_tidy (hk : CtxContract d nodes I inv view name) (hu : Unused inv view t) (ha : NamesApart name q.varNames q.idNames) (hp : q.Plainly)
    (hd : 0 < d) (hT : IsTree d nodes T) (hC : Covers nodes T) (hok : tags.Ok) (ht : q.Tidy tags) (hsep : q.Separate tags)
    (hs : q.Scoped d depth [] []) : ∃ R c t', OneOne R ∧ (∀ x ∈ q.varNames, ∀ a a', NameR name q.idNames x a a' → R a a') ∧
      Over.encode I q t = (.ok c, t') ∧ WF c ∧
      FaithfulIn d R (q.names d T []) (fun σ => q.sem d T depth σ []) (view t') c := by
  have hn := namesFit_tagged (name := name) hok (fun a h => tidy_tagged (tidy_atoms ht a h)) hp ha
  obtain ⟨c, t', h⟩ := C87_faithful hk hu hn (query_good hd hT hC hok ht hsep hs)
  exact ⟨_, c, t', hn.oneOne, hn.var, h⟩

/-- Concrete cases of the theorems above: a context that leaves out three numbers after each. -/
example : ∃ c t', Over.encode (spacedI [] 3) nodeQuery (BasicQContext 2 exNodes) = (.ok c, t') ∧ WF c ∧
    FaithfulIn 2 Eq (nodeQuery.names 2 exTree []) (fun σ => nodeQuery.sem 2 exTree nodeDepth σ []) (ctxView t') c :=
  C87_faithful (spaced_contract 2 exNodes [] 3) (unused_start 2 exNodes (Int.le_refl 0)) (C87_names_basic (spacedName_path []) nodeQuery) nodeQuery_good
example : ∃ c t', Over.encode (spacedI [] 3) nodeQuery (BasicQContext 2 exNodes) = (.ok c, t') ∧
    (Satisfiable c ↔ ∃ x, ¬ IsNode 2 exTree x ∧ ∀ p ∈ exTree.nodeInsts bot, ∃ y, Subsumes 2 p.2 y ∧ LEL 2 y x) :=
  C87_first_order (spaced_contract 2 exNodes [] 3) (unused_start 2 exNodes (Int.le_refl 0)) (C87_names_basic (spacedName_path []) nodeQuery)
    nodeQuery_good nodeQuery_plain

/-- A concrete case of `C87_same` with an error: the constant has one feature, the model two. -/
example : ∃ e s t', (Query.withVar ['x'] (.atom (.subs (.var ['x']) (.const ⟨[], [ONE]⟩)))).encode (BasicQContext 2 exNodes) = (.error e, s) ∧
    Over.encode (spacedI [] 3) (.withVar ['x'] (.atom (.subs (.var ['x']) (.const ⟨[], [ONE]⟩)))) (BasicQContext 2 exNodes) = (.error e, t') := by
  rcases C87_same (spaced_contract 2 exNodes [] 3) (unused_start 2 exNodes (Int.le_refl 0))
    (C87_names_basic (spacedName_path []) (.withVar ['x'] (.atom (.subs (.var ['x']) (.const ⟨[], [ONE]⟩))))) with
    ⟨c, s, c', t', h, -⟩ | ⟨e, s, t', h1, h2, -⟩
  · have h0 : ((Query.withVar ['x'] (.atom (.subs (.var ['x']) (.const ⟨[], [ONE]⟩)))).encode (BasicQContext 2 exNodes)).1.toOption.isSome = false := by
      decide +kernel
    rw [h] at h0
    cases h0
  · exact ⟨e, s, t', h1, h2⟩

/-! ### Other contexts -/

/-- C87: a context that names variables with a prefix, leaves out three numbers after each, and begins with 100 keeps the contract. -/
theorem C87_other (d : Nat) (nodes : List Node) : CtxContract d nodes (spacedI ['q', '.'] 3) (CtxInv d nodes) ctxView (spacedName ['q', '.']) ∧
    Unused (CtxInv d nodes) ctxView { BasicQContext d nodes with topv := 100 } :=
  ⟨spaced_contract d nodes _ _, unused_start d nodes (by decide)⟩

theorem bigQuery_plainly : bigQuery.Plainly := by
  constructor
  · have : ∀ x ∈ bigQuery.varNames, x = ['x'] ∨ x = ['y'] ∨ x = ['z'] := by decide
    intro x hx
    rcases this x hx with rfl | rfl | rfl <;> exact ⟨⟨by decide, _, _, rfl, by decide⟩, by decide⟩
  · have : ∀ x ∈ bigQuery.idNames, recSep ∉ x ∧ sep ∉ x := by decide
    exact this

theorem spaced_apart (hp : q.Plainly) : NamesApart (spacedName ['q', '.']) q.varNames q.idNames := by
  have hpath : ∀ p : ScopePath, ∃ gs : List Scope, p = pathOf gs := fun p =>
    ⟨p.map fun g => { target := g.1, vIdx := g.2 }, by unfold pathOf; rw [List.map_map]; exact (List.map_id' _).symm⟩
  constructor
  · intro x hx p h
    obtain ⟨gs, rfl⟩ := hpath p
    rw [spacedName_path]
    refine ⟨?_, 'q', _, rfl, by decide⟩
    have h1 : recSep ∉ x ++ suffix gs := by
      rw [List.mem_append, not_or]
      refine ⟨(hp.vars x hx).1.1, suffix_no_RS' fun g hg => (hp.ids _ (h (g.target, g.vIdx) ?_)).1⟩
      exact List.mem_map.2 ⟨g, hg, rfl⟩
    have h2 : recSep ≠ 'q' := by decide
    have h3 : recSep ≠ '.' := by decide
    simp only [List.cons_append, List.nil_append, List.mem_cons, not_or]
    exact ⟨h2, h3, h1⟩
  · intro x hx y hy p p' h h' e
    obtain ⟨gs, rfl⟩ := hpath p
    obtain ⟨hs, rfl⟩ := hpath p'
    rw [spacedName_path, spacedName_path] at e
    have e := List.append_cancel_left e
    obtain ⟨e1, e2⟩ := split_sep (hp.vars x hx).2 (hp.vars y hy).2 (suffix_path.suffix_tail gs) (suffix_path.suffix_tail hs) e
    exact ⟨e1, suffix_path (fun g hg => (hp.ids _ (h (g.target, g.vIdx) (List.mem_map.2 ⟨g, hg, rfl⟩))).2)
      (fun g hg => (hp.ids _ (h' (g.target, g.vIdx) (List.mem_map.2 ⟨g, hg, rfl⟩))).2) e2⟩

/-- Concrete case of `C87_tidy`. -/
example : ∃ R c t', OneOne R ∧ (∀ x ∈ bigQuery.varNames, ∀ a a', NameR (spacedName ['q', '.']) bigQuery.idNames x a a' → R a a') ∧
      Over.encode (spacedI ['q', '.'] 3) bigQuery { BasicQContext 2 exNodes with topv := 100 } = (.ok c, t') ∧ WF c ∧
      FaithfulIn 2 R (bigQuery.names 2 exTree []) (fun σ => bigQuery.sem 2 exTree nodeDepth σ []) (ctxView t') c :=
  C87_tidy (C87_other 2 exNodes).1 (C87_other 2 exNodes).2 (spaced_apart bigQuery_plainly) bigQuery_plainly (by omega) exNodes_isTree exNodes_covers
    C54_test_generators.1 bigQuery_tidy.1 bigQuery_tidy.2.1 bigQuery_tidy.2.2

/-- The encoding does differ. -/
example : (Over.encode (spacedI ['q', '.'] 3) (.withVar ['x'] (.atom (.full (.var ['x'])))) { BasicQContext 2 exNodes with topv := 100 }).1.toOption =
    some { tv := 121, sClauses := [[-109], [-121]], cClauses := [[101, 105, 109], [113, 117, 121], [-101, -105], [-101, -109], [-105, -109],
      [-113, -117], [-113, -121], [-117, -121]] } := by decide +kernel

/-! ### What the documentation asks of `ScopeVar` is not enough -/

/-- The basic context, with a `ScopeVar` that returns the variable itself. -/
def flatI : QContext Ctx := { basicI with scopeVar := fun v s => (.ok v, s) }

/-- Every node is subsumed by and subsumes some `y`. -/
def copyQuery : Query :=
  .forallG { id := ['c'] } (.withVar ['y'] (.and (.atom (.subs (.const { id := ['c'] }) (.var ['y'])))
    (.atom (.subs (.var ['y']) (.const { id := ['c'] })))))

theorem copyQuery_good : copyQuery.Good 2 exNodes exTree nodeDepth := by
  refine ⟨by omega, ⟨exNodes_isTree, exNodes_covers, ?_⟩, .of_eq (by decide +kernel)⟩
  intro g hg
  obtain ⟨i, p, -, rfl⟩ := mem_scopesOf.1 hg
  have hv : GoodVals 2 (resolve ([] ++ [scopeAt 2 ['c'] i p]) { id := ['c'] }) := by
    rw [show resolve ([] ++ [scopeAt 2 ['c'] i p]) { id := ['c'] } = valsOf 2 p.2 by simp [resolve, scopeAt]]
    exact valsOf_good 2 p.2
  refine ⟨rfl, ⟨by simp [Atom.vars, Term.vars], ?_, rfl, trivial, trivial, trivial, by simp [Atom.onModel]⟩,
    ⟨by simp [Atom.vars, Term.vars], ?_, rfl, trivial, trivial, trivial, by simp [Atom.onModel]⟩⟩
  · simp only [Spec.Atom.consts, Spec.Term.consts, List.append_nil, List.mem_singleton, forall_eq]
    exact hv
  · simp only [Spec.Atom.consts, Spec.Term.consts, List.nil_append, List.mem_singleton, forall_eq]
    exact hv

theorem copyQuery_plain : copyQuery.Plain := by
  refine ⟨?_, by decide, by decide, ?_⟩
  · exact ⟨trivial, trivial⟩
  · exact ⟨by simp, by decide, trivial, trivial⟩

theorem flat_contract (d : Nat) (nodes : List Node) : CtxContract d nodes flatI (CtxInv d nodes) ctxView fun x _ => x :=
  { basic_contract d nodes with scopeVar := fun s x h _ => ⟨x, s, rfl, h, rfl, rfl⟩ }

/-- C87: query/scoper.go:11-15 asks that different variables have different names in any two stacks; that a variable has different names in
different iterations of a quantifier around its declaration is not asked for. A `ScopeVar` that always returns its argument does what is asked
for, and the context keeps the contract with it; but the query that says that every node has a copy is true and its encoding is unsatisfiable,
because all copies are the same. -/
theorem C87_documented_not_enough : CtxContract 2 exNodes flatI (CtxInv 2 exNodes) ctxView (fun x _ => x) ∧
    (∀ u v s1 s2, u ≠ v → (flatI.scopeVar u s1).1.toOption ≠ (flatI.scopeVar v s2).1.toOption) ∧
    copyQuery.fo 2 exTree (fun _ => bot) (fun _ => none) ∧
    (∃ c s', copyQuery.encode (BasicQContext 2 exNodes) = (.ok c, s') ∧ Satisfiable c) ∧
    ∃ c s', Over.encode flatI copyQuery (BasicQContext 2 exNodes) = (.ok c, s') ∧ ¬ Satisfiable c := by
  have hfo : copyQuery.fo 2 exTree (fun _ => bot) (fun _ => none) := by
    intro p hp
    exact ⟨p.2, fun i _ _ => rfl, fun i _ _ => rfl⟩
  refine ⟨flat_contract 2 exNodes, ?_, hfo, ?_, unsat_of_refutedResult (n := 60) (by decide +kernel)⟩
  · intro u v s1 s2 h e
    exact h (by injection e)
  · obtain ⟨c, s', e, h⟩ := C40_first_order copyQuery_good copyQuery_plain
    exact ⟨c, s', e, h.2 hfo⟩

end Goexpdt.Props

import Verif.Lemmas.Fail
import Verif.Lemmas.Indexed
/- Absence of panics. -/
namespace Goexpdt
open Spec

/-- The context is one for which no component panics: the scoper is in order, the dimension is
positive and the model is valid. -/
structure Sane (s : Ctx) : Prop where
  scope : ScopeOk s
  fn : VarsFun s
  dim : 0 < s.dim
  ne : s.nodes ≠ []
  valid : Valid s.dim s.nodes

/-- Not a panic. -/
def NP {α : Type} (r : Except Err α) : Prop := ∀ m, r ≠ .error (.panic m)

theorem NP.ok {α : Type} (a : α) : NP (.ok a : Except Err α) := by intro m; simp
theorem NP.msg {α : Type} (m : String) : NP (.error (.msg m) : Except Err α) := by intro m; simp
theorem NP.diverge {α : Type} : NP (.error .diverge : Except Err α) := by intro m; simp

theorem np_pure {s : Ctx} (c : CNF) : NP ((pure c : M CNF) s).1 := .ok c
theorem np_throw {s : Ctx} (m : String) : NP ((M.throw (.msg m) : M CNF) s).1 := .msg m
theorem np_nilGen {s : Ctx} : NP ((M.throw errNilGen : M CNF) s).1 := .msg _
theorem np_empty {s : Ctx} : NP ((M.throw errEmptyModel : M CNF) s).1 := .msg _
theorem np_true {s : Ctx} : NP (retTrue s).1 := .ok _
theorem np_false {s : Ctx} : NP (retFalse s).1 := .ok _
theorem np_emit {s : Ctx} (st : List Step) : NP (emit st s).1 := by
  obtain ⟨k, s', e, -⟩ := emitFrom_keeps st {} s
  rw [emit, e]; exact .ok k
theorem np_emitF {s : Ctx} (cls : List SClause) (st : List Step) : NP (emitF cls st s).1 := by
  rw [emitF_eq]; exact np_emit _

theorem np_scopeVar {s : Ctx} {v : QVar} {f : QVar → M CNF} (hs : Sane s) (h : ∀ a, NP (f a s).1) :
    NP ((M.scopeVar v >>= f) s).1 := by
  have e := scopeVar_eq hs.scope v
  have : M.scopeVar v s = (.ok _, s) := Prod.ext e rfl
  rw [M_bind_ok this]; exact h _

theorem np_scopeConst {s : Ctx} {c : QConst} {f : QConst → M CNF} (h : NP (f (s.scopeConst c).1 s).1) :
    NP ((M.scopeConst c >>= f) s).1 := h
theorem np_dim {s : Ctx} {f : Nat → M CNF} (h : NP (f s.dim s).1) : NP ((M.dim >>= f) s).1 := h
theorem np_nodes {s : Ctx} {f : List Node → M CNF} (h : NP (f s.nodes s).1) :
    NP ((M.nodes >>= f) s).1 := h
theorem np_lift {α : Type} {s : Ctx} {r : Except Err α} {f : α → M CNF} (hr : NP r)
    (h : ∀ a, r = .ok a → NP (f a s).1) : NP ((M.lift r >>= f) s).1 := by
  cases r with
  | ok a => exact h a rfl
  | error e =>
    intro m
    have := hr m
    intro h'
    apply this
    have e1 : M.lift (.error e : Except Err α) s = (.error e, s) := rfl
    rw [M_bind_error e1] at h'
    simpa using h'

theorem validate_np (d : Nat) (cs : List QConst) : NP (ValidateConstsDim d cs) := by
  have : ∀ (cs : List QConst) i, NP (validateConstsDimFrom d i cs) := by
    intro cs
    induction cs with
    | nil => intro i; exact .ok _
    | cons a cs ih =>
      intro i
      simp only [validateConstsDimFrom]
      split
      · exact .msg _
      · exact ih _
  exact this cs 0

theorem validate_dims {d : Nat} {cs : List QConst} (h : ValidateConstsDim d cs = .ok ()) : ∀ c ∈ cs, c.val.length = d := by
  intro c hc
  refine Classical.byContradiction fun hl => ?_
  obtain ⟨m, hm⟩ := validate_wrong hc hl
  rw [hm] at h
  simp at h

theorem np_validate {s : Ctx} {cs : List QConst} {f : Unit → M CNF}
    (h : (∀ c ∈ cs, c.val.length = s.dim) → NP (f () s).1) : NP ((validateM cs >>= f) s).1 :=
  np_lift (s := s) (f := f) (validate_np s.dim cs) fun _ hv => h (validate_dims hv)

theorem np_indexed {s : Ctx} {is : List Int} {cs : List QConst} {f : Unit → M CNF}
    (hi : ∀ c ∈ cs, ∀ i ∈ is, 0 ≤ i ∧ i < c.val.length) (h : NP (f () s).1) :
    NP ((M.lift (indexed is cs) >>= f) s).1 := by
  rw [indexed_ok hi]; exact h

theorem pref_np (p : List Int) (d : Nat) : NP (validatePref p d) := by
  have : ∀ (p seen : List Int), NP (validatePrefFrom d seen p) := by
    intro p
    induction p with
    | nil => intro seen; exact .ok _
    | cons a p ih =>
      intro seen
      simp only [validatePrefFrom]
      split
      · exact .msg _
      · split
        · exact .msg _
        · exact ih _
  exact this p []

theorem np_pref {s : Ctx} {p : List Int} {d : Nat} {f : Unit → M CNF}
    (h : (∀ i ∈ p, 0 ≤ i ∧ i < d) → NP (f () s).1) : NP ((M.lift (validatePref p d) >>= f) s).1 :=
  np_lift (pref_np p d) fun _ hv => h (pref_range hv)

theorem isnodeLoop_np {d : Nat} {sc : QConst} (hd : sc.val.length = d) {nodes : List Node} (fuel : Nat) :
    ∀ n v, NP (isnodeLoop d sc nodes fuel n v) := by
  induction fuel with
  | zero => intro n v; exact .diverge
  | succ k ih =>
    intro n v
    simp only [isnodeLoop]
    split
    · exact .ok _
    split
    · exact .msg _
    rw [indexed_ok (by simp; omega)]
    simp only
    repeat' split
    all_goals first | exact .ok _ | exact .msg _ | exact ih _ _

theorem acPush_valid {nodes : List Node} {ch : Int} {vis : List Int} {stk : List Node}
    (h : 0 ≤ ch ∧ ch < nodes.length) (hs : ∀ n ∈ stk, n ∈ nodes) :
    ∃ r, acPush nodes ch vis stk = .ok r ∧ ∀ n ∈ r.2, n ∈ nodes := by
  unfold acPush
  split
  · exact ⟨_, rfl, hs⟩
  · rw [if_neg (by omega)]
    refine ⟨_, rfl, fun n hn => ?_⟩
    simp only [List.mem_cons] at hn
    rcases hn with rfl | hn
    · exact List.mem_of_getElem? (getElem?_nodeAt (by omega))
    · exact hs n hn

theorem acLoop_np {d : Nat} {sc : QConst} (hd : sc.val.length = d) {b : Bool} {nodes : List Node}
    (hva : ∀ n ∈ nodes, n.isLeaf = false → (0 ≤ n.zChild ∧ n.zChild < nodes.length) ∧ (0 ≤ n.oChild ∧ n.oChild < nodes.length))
    (fuel : Nat) : ∀ vis stk, (∀ n ∈ stk, n ∈ nodes) → NP (acLoop d sc b nodes fuel vis stk) := by
  induction fuel with
  | zero => intro vis stk _; exact .diverge
  | succ k ih =>
    intro vis stk hs
    cases stk with
    | nil => exact .ok _
    | cons n stk =>
      have hsk : ∀ m ∈ stk, m ∈ nodes := fun m hm => hs m (List.mem_cons_of_mem _ hm)
      simp only [acLoop]
      split
      · split
        · exact .ok _
        · exact ih _ _ hsk
      · next hl =>
        obtain ⟨⟨z1, z2⟩, o1, o2⟩ := hva n (hs n (List.mem_cons_self ..)) (by simpa using hl)
        split
        · exact .msg _
        · rw [indexed_ok (by simp; omega)]
          simp only
          split
          · obtain ⟨r, e, h1⟩ := acPush_valid (vis := vis) ⟨z1, z2⟩ hsk
            obtain ⟨r', e', h1'⟩ := acPush_valid (vis := r.1) ⟨o1, o2⟩ h1
            rw [e]
            simp only [e']
            exact ih _ _ h1'
          · split
            · obtain ⟨r, e, h1⟩ := acPush_valid (vis := vis) ⟨z1, z2⟩ hsk
              rw [e]
              exact ih _ _ h1
            · split
              · obtain ⟨r, e, h1⟩ := acPush_valid (vis := vis) ⟨o1, o2⟩ hsk
                rw [e]
                exact ih _ _ h1
              · exact ih _ _ hsk

theorem leafs_np {d : Nat} {nodes : List Node} (hne : nodes ≠ []) (hva : Valid d nodes) :
    NP (leafsAsConsts d nodes) := by
  obtain ⟨ws, a, b, -⟩ := iterates_init hne hva
  unfold leafsAsConsts
  rw [validate_of_valid hva]
  simp only [if_neg (show ¬ nodes.length = 0 by simpa using hne)]
  rw [leafsLoop_spec a _ _ _ (by omega)]
  exact .ok _

theorem featsInRange_of_valid {d : Nat} {nodes : List Node} (hva : Valid d nodes) :
    featsInRange d nodes = true := by
  simp only [featsInRange, List.all_eq_true, Bool.or_eq_true, Bool.and_eq_true, decide_eq_true_eq]
  intro n hn
  obtain ⟨i, hi⟩ := List.mem_iff_getElem?.1 hn
  cases hl : n.isLeaf with
  | true => exact .inl rfl
  | false => obtain ⟨a, b, -⟩ := hva i n hi hl; exact .inr ⟨a, b⟩

theorem hdCC_np (c1 c2 : QConst) : NP (hammingDistCC c1 c2) := by
  unfold hammingDistCC; split
  · exact .msg _
  · exact .ok _

theorem hdVC_np {d : Nat} (hd : 0 < d) (v : QVar) (c : QConst) (w : QVar) :
    NP (hammingDistVC d v c w) := by
  unfold hammingDistVC
  split
  · next e he => have := validate_np d [c]; intro m hm; rw [he] at this; simp only [Except.error.injEq] at hm; exact this m (by rw [hm])
  · next he =>
    have := validate_dims he c (by simp)
    rw [indexed_ok (by grind [mem_upto])]
    exact .ok _

theorem dfsOuter_np (sc : QConst) (ns ps : List QConst) : NP (dfsOuter sc ns ps) := by
  have hi : ∀ p ns, NP (dfsInner sc p ns) := by
    intro p ns
    induction ns with
    | nil => exact .ok _
    | cons n ns ih =>
      simp only [dfsInner, leafCompare]
      split
      · next e he =>
        split at he
        · simp only [Except.error.injEq] at he; subst he; exact .msg _
        · rw [indexed_upto (by simp; omega)] at he
          simp [Except.map] at he
      · exact .ok _
      · exact ih
  induction ps with
  | nil => exact .ok _
  | cons p ps ih =>
    simp only [dfsOuter]
    split
    · next e he => have := hi p ns; rw [he] at this; intro m hm; simp only [Except.error.injEq] at hm; exact this m (by rw [hm])
    · exact .ok _
    · exact ih

theorem dfsClauses_np (d : Nat) (v : QVar) (ls : List (QConst × QConst)) : NP (dfsClauses d v ls) := by
  induction ls with
  | nil => exact .ok _
  | cons p ls ih =>
    obtain ⟨p, n⟩ := p
    simp only [dfsClauses, notAWitnessClause]
    split
    · next e he =>
      split at he
      · simp only [Except.error.injEq] at he; subst he; exact .msg _
      · rw [indexed_upto (by simp; omega)] at he
        simp [Except.map] at he
    · split
      · next e he => rw [he] at ih; intro m hm; simp only [Except.error.injEq] at hm; exact ih m (by rw [hm])
      · exact .ok _

theorem np_ite {p : Prop} [Decidable p] {x y : M CNF} {s : Ctx} (hx : p → NP (x s).1)
    (hy : ¬ p → NP (y s).1) : NP ((if p then x else y) s).1 := by
  split
  · next h => exact hx h
  · next h => exact hy h

macro "calm" : tactic => `(tactic| repeat' (first
  | with_reducible refine np_ite (fun _ => ?_) (fun _ => ?_)
  | with_reducible exact np_pure _
  | with_reducible exact np_throw _
  | with_reducible exact np_nilGen
  | with_reducible exact np_empty
  | with_reducible exact np_true
  | with_reducible exact np_false
  | with_reducible exact np_emit _
  | with_reducible exact np_emitF _ _
  | with_reducible refine np_scopeVar ‹_› fun _ => ?_
  | with_reducible refine np_scopeConst ?_
  | with_reducible refine np_dim ?_
  | with_reducible refine np_nodes ?_
  | with_reducible refine np_validate fun _ => ?_
  | with_reducible refine np_indexed (by grind [mem_upto]) ?_
  | with_reducible refine np_pref fun _ => ?_
  | with_reducible refine np_lift (hdCC_np _ _) fun _ _ => ?_
  | with_reducible refine np_lift (hdVC_np (Sane.dim ‹_›) _ _ _) fun _ _ => ?_
  | with_reducible refine np_lift (isnodeLoop_np (by grind) _ _ _) fun _ _ => ?_
  | with_reducible refine np_lift (dfsOuter_np _ _ _) fun _ _ => ?_
  | with_reducible refine np_lift (dfsClauses_np _ _ _) fun _ _ => ?_
  | with_reducible refine np_lift (leafs_np (Sane.ne (by assumption)) (Sane.valid (by assumption))) fun _ _ => ?_))

theorem childrenIn_of_valid {d : Nat} {nodes : List Node} (hva : Valid d nodes) :
    ∀ n ∈ nodes, n.isLeaf = false → (0 ≤ n.zChild ∧ n.zChild < nodes.length) ∧ (0 ≤ n.oChild ∧ n.oChild < nodes.length) := by
  intro n hn hl
  obtain ⟨i, hi⟩ := List.mem_iff_getElem?.1 hn
  obtain ⟨-, -, z1, z2, o1, o2⟩ := hva i n hi hl
  exact ⟨⟨z1, z2⟩, o1, o2⟩

theorem isnodeConst_np (i : QConst) (s : Ctx) : NP (isnodeConst i s).1 := by unfold isnodeConst; calm

theorem allcompConst_np {s : Ctx}
    (h : ∀ n ∈ s.nodes, n.isLeaf = false → (0 ≤ n.zChild ∧ n.zChild < s.nodes.length) ∧ (0 ≤ n.oChild ∧ n.oChild < s.nodes.length))
    (i : QConst) (b : Bool) : NP (allcompConst i b s).1 := by
  unfold allcompConst
  refine np_scopeConst (np_validate fun hv => np_dim (np_nodes ?_))
  refine np_ite (fun _ => np_empty) fun hne => ?_
  refine np_lift (acLoop_np (hv _ (by simp)) h _ _ _ fun n hn => ?_) fun _ _ => ?_
  · simp only [List.mem_cons, List.not_mem_nil, or_false] at hn
    subst hn
    exact List.mem_of_getElem? (getElem?_nodeAt (by omega))
  · calm

theorem Atom.np (a : Atom) (s : Ctx) (hs : Sane s) (hp : Spec.Atom.PrefsNonempty a) : NP (a.encode s).1 := by
  unfold Atom.encode
  split
  · unfold subsConstConst; calm
  · unfold subsConstVar; calm
  · unfold subsVarConst; calm
  · unfold subsVarVar; calm
  · unfold lelConstConst; calm
  · next g => unfold lelConstVar; cases g <;> simp only <;> calm
  · next g => unfold lelVarConst; cases g <;> simp only <;> calm
  · next g => unfold lelVarVar; cases g <;> simp only <;> calm
  · unfold isnodeConst; calm
  · next g => unfold isnodeVar; cases g <;> simp only <;> calm; simp_all [featsInRange_of_valid hs.valid]
  · unfold fullConst; calm
  · unfold fullVar; calm
  · unfold consConstConst; try unfold consConstRet
    calm
  · unfold consConstVar; try unfold consConstRet
    calm
  · unfold consVarConst; try unfold consConstRet
    calm
  · unfold consVarVar; try unfold consConstRet
    calm
  · exact allcompConst_np (childrenIn_of_valid hs.valid) _ _
  · next g => unfold allcompVar; cases g <;> simp only <;> calm
  · unfold dfsConst; calm
  · unfold dfsVar; calm
  · unfold heprConstConst; calm
  · next g => unfold heprConstVar; cases g <;> simp only <;> calm; exact absurd (List.length_eq_zero_iff.1 ‹_›) hp
  · next g => unfold heprVarConst; cases g <;> simp only <;> calm; exact absurd (List.length_eq_zero_iff.1 ‹_›) hp
  · next g => unfold heprVarVar; cases g <;> simp only <;> calm; exact absurd (List.length_eq_zero_iff.1 ‹_›) hp
  · unfold lehConstConstConst; calm
    next c1 c2 c3 _ _ _ _ =>
    cases hammingDistCC (s.scopeConst c1).1 (s.scopeConst c2).1 <;>
      cases hammingDistCC (s.scopeConst c1).1 (s.scopeConst c3).1 <;> simp only <;> calm
  · next g _ => unfold lehConstConstVar; cases g <;> simp only <;> calm
  · next g _ => unfold lehConstVarConst; cases g <;> simp only <;> calm
  · next g _ => unfold lehConstVarVar; cases g <;> simp only <;> calm
  · next g _ => unfold lehVarConstConst; cases g <;> simp only <;> calm
  · next g e => unfold lehVarConstVar; cases g <;> cases e <;> simp only <;> calm
  · next g e => unfold lehVarVarConst; cases g <;> cases e <;> simp only <;> calm
  · next g e => unfold lehVarVarVar; cases g <;> cases e <;> simp only <;> calm

/-! ### Queries -/

theorem Tame.sane {x : M CNF} (h : Tame x) {s : Ctx} (hs : Sane s) : Sane (x s).2 := by
  have h1 := h.vars s hs.fn hs.scope
  have h2 := h.keep s
  exact ⟨h1.scopeOk hs.scope h2.scopes, h1.fn, by rw [h2.dim]; exact hs.dim,
    by rw [h2.nodes]; exact hs.ne, by rw [h2.dim, h2.nodes]; exact hs.valid⟩

theorem np_wrapErr {pre : String} {x : M CNF} {s : Ctx} (h : NP (x s).1) :
    NP (M.wrapErr pre x s).1 := by
  intro m hm
  unfold M.wrapErr at hm
  split at hm
  · simp at hm
  · next e s' hx =>
    rw [hx] at h
    cases e with
    | msg a => simp [Err.wrap] at hm
    | panic a => exact h a rfl
    | diverge => simp [Err.wrap] at hm

theorem np_bind {x : M CNF} {f : CNF → M CNF} {s : Ctx} (hx : NP (x s).1)
    (hf : ∀ a, NP (f a (x s).2).1) : NP ((x >>= f) s).1 := by
  cases h : x s with
  | mk r s' =>
    rw [h] at hx hf
    cases r with
    | ok a => rw [M_bind_ok h]; exact hf a
    | error e => rw [M_bind_error h]; intro m hm; exact hx m (by simpa using hm)

theorem np_forallFold {q : M CNF} (hq : Tame q) (hc : ∀ s, Sane s → NP (q s).1)
    (ts : List (List FeatV)) : ∀ (i : Int) (c : CNF) (s : Ctx) (base : List Scope) (g : Scope),
      s.scopes = base ++ [g] → Sane s → NP (forallFold q ts i c s).1 := by
  induction ts with
  | nil => intro i c s _ _ _ _; exact .ok _
  | cons t ts ih =>
    intro i c s base g hg hs
    simp only [forallFold]
    rw [M_bind_ok (setScope_append hg i t)]
    generalize hs1 : ({ s with scopes := base ++ [{ g with vIdx := i, value := t }] } : Ctx) = s1
    have hsc1 : s1.scopes = base ++ [{ g with vIdx := i, value := t }] := by rw [← hs1]
    have hs1' : Sane s1 := by
      refine ⟨?_, ?_, ?_, ?_, ?_⟩
      · intro v k hk
        rw [show s1.vars = s.vars by rw [← hs1]] at hk
        have := hs.scope v k hk
        rw [hg] at this
        rw [hsc1]
        simpa using this
      · intro v k hk
        rw [show s1.vars = s.vars by rw [← hs1]] at hk ⊢
        exact hs.fn v k hk
      · rw [← hs1]; exact hs.dim
      · rw [← hs1]; exact hs.ne
      · rw [← hs1]; exact hs.valid
    refine np_bind (hc s1 hs1') fun a => ?_
    exact ih _ _ _ base _ ((hq.keep s1).scopes.trans hsc1) (hq.sane hs1')

theorem np_forallBuild {q : M CNF} (hq : Tame q) (hc : ∀ s, Sane s → NP (q s).1) (c : QConst)
    {s : Ctx} (hs : Sane s) : NP (forallBuild c q s).1 := by
  have hsc : (s.addScope c.id).scopes = s.scopes ++ [{ target := c.id }] := rfl
  have hs1 : Sane (s.addScope c.id) := by
    refine ⟨fun v k hk => ?_, hs.fn, hs.dim, hs.ne, hs.valid⟩
    have := hs.scope v k hk
    rw [hsc, List.length_append]
    simp only [List.length_cons, List.length_nil]
    omega
  have hw : newNodeAsValuesIter s.dim s.nodes = .ok (WalkSt.init s.dim s.nodes.length) := by
    unfold newNodeAsValuesIter
    rw [if_neg (by simpa using hs.ne), validate_of_valid hs.valid]
  rcases forallBody_eq q (s.addScope c.id) with ⟨e, h, -⟩ | ⟨ws, -, -, h⟩
  · rw [show (s.addScope c.id).dim = s.dim from rfl,
      show (s.addScope c.id).nodes = s.nodes from rfl, hw] at h
    simp at h
  · have hL := forallFold_tame (V := False) hq s.scopes (ws.map (·.t)) 0 {} (s.addScope c.id)
      ⟨_, hsc⟩ (fun h => h.elim) (fun h => h.elim)
    obtain ⟨g, hg⟩ := hL.scopes
    rw [forallBuild_of h (by rw [hg]; simp)]
    exact np_forallFold hq hc _ _ _ _ s.scopes _ hsc hs1

theorem np_negStep {c : CNF} {s : Ctx} : NP (negStep c s).1 := .ok _

theorem np_encodeI {x : QVar} {s : Ctx} (hs : Sane s) : NP (encodeI x s).1 := by
  unfold encodeI
  refine np_scopeVar hs fun v => ?_
  show NP ((if s.cnfVarExists ⟨v, 0, BOT⟩ = true then pure {} else
    M.dim >>= fun d => reqAllFeats v 0 d >>= fun cls => reqOnePerFeat v 0 d
      (({} : CNF).appendConsistency cls)) s).1
  refine np_ite (fun _ => np_pure _) fun _ => np_dim ?_
  rw [encodeI_new]
  exact np_emit _

theorem Query.np_comp (q : Query) (h : Spec.Query.PrefsNonempty q) : ∀ x, q.comp = some x →
    ∀ s, Sane s → NP (x s).1 := by
  induction q with
  | nil => intro x hx; simp [Query.comp] at hx
  | atom a =>
    intro x hx s hs
    simp only [Query.comp, Option.some.injEq] at hx
    subst hx
    exact a.np s hs h
  | and q1 q2 h1 h2 =>
    intro x hx s hs
    simp only [Query.comp, Option.some.injEq] at hx
    subst hx
    refine np_wrapErr ?_
    cases ha : q1.comp with
    | none => exact .msg _
    | some a =>
    cases hb : q2.comp with
    | none => exact .msg _
    | some b =>
      refine np_bind (np_wrapErr (h1 h.1 _ ha s hs)) fun c1 => ?_
      refine np_bind (np_wrapErr (h2 h.2 _ hb _ ?_)) fun c2 => .ok _
      rw [wrapErr_snd]
      exact (q1.comp_tame _ ha).sane hs
  | or q1 q2 h1 h2 =>
    intro x hx s hs
    simp only [Query.comp, Option.some.injEq] at hx
    subst hx
    refine np_wrapErr ?_
    cases ha : q1.comp with
    | none => exact .msg _
    | some a =>
    cases hb : q2.comp with
    | none => exact .msg _
    | some b =>
      show NP (orBuild a b s).1
      rw [orBuild_eq]
      refine np_bind (np_wrapErr (h1 h.1 _ ha s hs)) fun c1 => ?_
      refine np_bind (np_wrapErr (h2 h.2 _ hb _ ?_)) fun c2 => ?_
      · rw [wrapErr_snd]
        exact (q1.comp_tame _ ha).sane hs
      · exact np_bind np_negStep fun _ => np_bind np_negStep fun _ => np_negStep
  | not q h1 =>
    intro x hx s hs
    simp only [Query.comp, Option.some.injEq] at hx
    subst hx
    refine np_wrapErr ?_
    cases ha : q.comp with
    | none => exact .msg _
    | some a => exact np_bind (h1 h _ ha s hs) fun _ => np_negStep
  | withVar v q h1 =>
    intro x hx s hs
    simp only [Query.comp, Option.some.injEq] at hx
    subst hx
    refine np_wrapErr ?_
    cases ha : q.comp with
    | none => exact .msg _
    | some a =>
      show NP (withVarBuild v a (s.addVar v)).1
      have e1 := (addVar_other s v).1
      have e2 := addVar_varsExt v hs.fn
      have hs1 : Sane (s.addVar v) := ⟨e2.scopeOk hs.scope e1.scopes, e2.fn, by rw [e1.dim]; exact hs.dim,
        by rw [e1.nodes]; exact hs.ne, by rw [e1.dim, e1.nodes]; exact hs.valid⟩
      refine np_bind (np_encodeI hs1) fun c1 => ?_
      exact np_bind (h1 h _ ha _ ((encodeI_tame v).sane hs1)) fun _ => .ok _
  | forallG c q h1 =>
    intro x hx s hs
    simp only [Query.comp, Option.some.injEq] at hx
    subst hx
    refine np_wrapErr ?_
    cases ha : q.comp with
    | none => exact .msg _
    | some a => exact np_forallBuild (q.comp_tame _ ha) (h1 h _ ha) c hs

end Goexpdt

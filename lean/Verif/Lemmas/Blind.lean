import Verif.Model.Syntax
import Verif.Spec.Blind
namespace Goexpdt
open Spec

/-- A computation that does the same on a model with nodes `N'` as on one with nodes `N`. -/
def Blind {α : Type} (N N' : List Node) (m : M α) : Prop :=
  ∀ s, s.nodes = N → m { s with nodes := N' } = ((m s).1, { (m s).2 with nodes := N' }) ∧ (m s).2.nodes = N

section
variable {α β : Type} {N N' : List Node}

theorem blind_pure (a : α) : Blind N N' (pure a : M α) := fun _ h => ⟨rfl, h⟩

theorem blind_lift (r : Except Err α) : Blind N N' (M.lift r) := fun _ h => ⟨rfl, h⟩

theorem blind_throw (e : Err) : Blind N N' (M.throw e : M α) := fun _ h => ⟨rfl, h⟩

theorem blind_bind {m : M α} {f : α → M β} (hm : Blind N N' m) (hf : ∀ a, Blind N N' (f a)) :
    Blind N N' (m >>= f) := by
  intro s hs
  obtain ⟨h1, h2⟩ := hm s hs
  show M.bind' m f _ = ((M.bind' m f s).1, { (M.bind' m f s).2 with nodes := N' }) ∧ (M.bind' m f s).2.nodes = N
  unfold M.bind'
  rw [h1]
  cases hr : m s with
  | mk r s1 =>
    rw [hr] at h2
    cases r with
    | error e => exact ⟨rfl, h2⟩
    | ok a => exact hf a s1 h2

theorem blind_wrapErr (pre : String) {m : M α} (hm : Blind N N' m) : Blind N N' (M.wrapErr pre m) := by
  intro s hs
  obtain ⟨h1, h2⟩ := hm s hs
  unfold M.wrapErr
  rw [h1]
  cases hr : m s with
  | mk r s1 =>
    rw [hr] at h2
    cases r <;> exact ⟨rfl, h2⟩

theorem blind_dim : Blind N N' M.dim := fun _ h => ⟨rfl, h⟩

theorem blind_topV : Blind N N' M.topV := fun _ h => ⟨rfl, h⟩

theorem blind_updateTopV (v : Int) : Blind N N' (M.updateTopV v) := by
  intro s h
  simp only [M.updateTopV, Ctx.updateTopV]
  split <;> exact ⟨rfl, h⟩

theorem blind_cnfVar (vr : VarRep) : Blind N N' (M.cnfVar vr) := by
  intro s h
  simp only [M.cnfVar, Ctx.cnfVar]
  split <;> exact ⟨rfl, h⟩

theorem blind_cnfVarExists (vr : VarRep) : Blind N N' (M.cnfVarExists vr) := fun _ h => ⟨rfl, h⟩

theorem blind_scopeVar (x : QVar) : Blind N N' (M.scopeVar x) := fun _ h => ⟨rfl, h⟩

theorem blind_scopeConst (c : QConst) : Blind N N' (M.scopeConst c) := fun _ h => ⟨rfl, h⟩

theorem blind_addVar (x : QVar) : Blind N N' (M.addVar x) := by
  intro s h
  simp only [M.addVar, Ctx.addVar]
  split
  · exact ⟨rfl, h⟩
  · split <;> exact ⟨rfl, h⟩

theorem blind_setScope (i : Int) (val : List FeatV) : Blind N N' (M.setScope i val) := by
  intro s h
  simp only [M.setScope, Ctx.setScope]
  split <;> exact ⟨rfl, h⟩

theorem blind_ite {p : Prop} [Decidable p] {a b : M α} (ha : Blind N N' a) (hb : Blind N N' b) :
    Blind N N' (if p then a else b) := by
  split
  · exact ha
  · exact hb

theorem blind_validateM (cs : List QConst) : Blind N N' (validateM cs) :=
  blind_bind blind_dim fun _ => blind_lift _

theorem blind_allocLit (l : SLit) : Blind N N' (allocLit l) := blind_bind (blind_cnfVar _) fun _ => blind_pure _

theorem blind_allocClause : ∀ c : SClause, Blind N N' (allocClause c)
  | [] => blind_pure _
  | l :: ls => blind_bind (blind_allocLit l) fun _ => blind_bind (blind_allocClause ls) fun _ => blind_pure _

theorem blind_allocClauses : ∀ cs : List SClause, Blind N N' (allocClauses cs)
  | [] => blind_pure _
  | c :: cs => blind_bind (blind_allocClause c) fun _ => blind_bind (blind_allocClauses cs) fun _ => blind_pure _

theorem blind_emitFrom : ∀ (st : List Step) (k : CNF), Blind N N' (emitFrom k st)
  | [], _ => blind_pure _
  | .touch cls :: st, _ => blind_bind (blind_allocClauses cls) fun _ => blind_emitFrom st _
  | .sem cls :: st, _ => blind_bind (blind_allocClauses cls) fun _ => blind_emitFrom st _
  | .con cls :: st, _ => blind_bind (blind_allocClauses cls) fun _ => blind_emitFrom st _

theorem blind_emit (st : List Step) : Blind N N' (emit st) := blind_emitFrom st _

theorem blind_emitF (cls : List SClause) (st : List Step) : Blind N N' (emitF cls st) :=
  blind_bind (blind_allocClauses cls) fun _ => blind_emitFrom st _

theorem blind_retTrue : Blind N N' retTrue := blind_pure _

theorem blind_retFalse : Blind N N' retFalse := blind_pure _

theorem blind_nodes {f : List Node → M α} (h : Blind N N' (f N)) (e : f N' = f N) :
    Blind N N' (M.nodes >>= f) := by
  intro s hs
  show M.bind' M.nodes f _ = ((M.bind' M.nodes f s).1, { (M.bind' M.nodes f s).2 with nodes := N' }) ∧
    (M.bind' M.nodes f s).2.nodes = N
  unfold M.bind' M.nodes
  simp only [hs, e]
  exact h s hs

end

/-- One step of the proof that a predicate does not look at the nodes. -/
macro "blind_step" : tactic => `(tactic| with_reducible first
  | refine blind_bind ?_ fun _ => ?_
  | refine blind_ite ?_ ?_
  | exact blind_pure _ | exact blind_lift _ | exact blind_throw _ | exact blind_dim | exact blind_topV
  | exact blind_scopeVar _ | exact blind_scopeConst _ | exact blind_validateM _ | exact blind_emit _
  | exact blind_emitF _ _ | exact blind_retTrue | exact blind_retFalse)

/-- All of them. -/
macro "blind_steps" : tactic => `(tactic| repeat (first | blind_step | split))

theorem atom_blind {a : Atom} (h : a.onModel = false) (N N' : List Node) : Blind N N' a.encode := by
  cases a with
  | isnode => cases h
  | allcomp => cases h
  | dfs => cases h
  | subs t1 t2 =>
    cases t1 <;> cases t2 <;> simp only [Atom.encode, subsConstConst, subsConstVar, subsVarConst, subsVarVar] <;> blind_steps
  | lel t1 t2 g =>
    cases g <;> cases t1 <;> cases t2 <;> simp only [Atom.encode, lelConstConst, lelConstVar, lelVarConst, lelVarVar] <;> blind_steps
  | full t => cases t <;> simp only [Atom.encode, fullConst, fullVar] <;> blind_steps
  | cons t1 t2 =>
    cases t1 <;> cases t2 <;> simp only [Atom.encode, consConstConst, consConstVar, consVarConst, consVarVar, consConstRet] <;>
      blind_steps
  | hepr t1 t2 p g =>
    cases g <;> cases t1 <;> cases t2 <;> simp only [Atom.encode, heprConstConst, heprConstVar, heprVarConst, heprVarVar] <;>
      blind_steps
  | leh t1 t2 t3 g e =>
    cases g <;> cases e <;> cases t1 <;> cases t2 <;> cases t3 <;> simp only [Atom.encode, lehConstConstConst, lehConstConstVar,
      lehConstVarConst, lehConstVarVar, lehVarConstConst, lehVarConstVar, lehVarVarConst, lehVarVarVar] <;> blind_steps

theorem reqAllFeats_blind {N N' : List Node} (v : QVar) : ∀ n i, Blind N N' (reqAllFeats v i n)
  | 0, _ => blind_pure _
  | n + 1, i => blind_bind (blind_cnfVar _) fun _ => blind_bind (blind_cnfVar _) fun _ => blind_bind (blind_cnfVar _) fun _ =>
      blind_bind (reqAllFeats_blind v n (i + 1)) fun _ => blind_pure _

theorem reqOnePerFeat_blind {N N' : List Node} (v : QVar) : ∀ n i k, Blind N N' (reqOnePerFeat v i n k)
  | 0, _, _ => blind_pure _
  | n + 1, i, _ => blind_bind (blind_cnfVar _) fun _ => blind_bind (blind_cnfVar _) fun _ => blind_bind (blind_cnfVar _) fun _ =>
      blind_bind (blind_cnfVar _) fun _ => blind_bind (blind_cnfVar _) fun _ => blind_bind (blind_cnfVar _) fun _ =>
      reqOnePerFeat_blind v n (i + 1) _

theorem encodeI_blind {N N' : List Node} (x : QVar) : Blind N N' (encodeI x) :=
  blind_bind (blind_scopeVar x) fun _ => blind_bind (blind_cnfVarExists _) fun _ => blind_ite (blind_pure _) <|
    blind_bind blind_dim fun _ => blind_bind (reqAllFeats_blind _ _ _) fun _ => reqOnePerFeat_blind _ _ _ _

/-- A component that is nil or does the same on both models. -/
def BlindC (N N' : List Node) : Comp → Prop
  | none => True
  | some m => Blind N N' m

theorem encAnd_blind {N N' : List Node} {q1 q2 : Comp} (h1 : BlindC N N' q1) (h2 : BlindC N N' q2) : Blind N N' (encAnd q1 q2) := by
  refine blind_wrapErr _ ?_
  cases q1 with
  | none => exact blind_throw _
  | some q1 => cases q2 with
    | none => exact blind_throw _
    | some q2 => exact blind_bind (blind_wrapErr _ h1) fun _ => blind_bind (blind_wrapErr _ h2) fun _ => blind_pure _

theorem encOr_blind {N N' : List Node} {q1 q2 : Comp} (h1 : BlindC N N' q1) (h2 : BlindC N N' q2) : Blind N N' (encOr q1 q2) := by
  refine blind_wrapErr _ ?_
  cases q1 with
  | none => exact blind_throw _
  | some q1 => cases q2 with
    | none => exact blind_throw _
    | some q2 =>
      exact blind_bind (blind_wrapErr _ h1) fun _ => blind_bind (blind_wrapErr _ h2) fun _ => blind_bind blind_topV fun _ =>
        blind_bind (blind_updateTopV _) fun _ => blind_bind blind_topV fun _ => blind_bind (blind_updateTopV _) fun _ =>
        blind_bind blind_topV fun _ => blind_bind (blind_updateTopV _) fun _ => blind_pure _

theorem encNot_blind {N N' : List Node} {q : Comp} (h : BlindC N N' q) : Blind N N' (encNot q) := by
  refine blind_wrapErr _ ?_
  cases q with
  | none => exact blind_throw _
  | some q =>
    exact blind_bind h fun _ => blind_bind blind_topV fun _ => blind_bind (blind_updateTopV _) fun _ => blind_pure _

theorem encWithVar_blind {N N' : List Node} (x : QVar) {q : Comp} (h : BlindC N N' q) : Blind N N' (encWithVar x q) := by
  refine blind_wrapErr _ ?_
  cases q with
  | none => exact blind_throw _
  | some q =>
    exact blind_bind (blind_addVar x) fun _ => blind_bind (encodeI_blind x) fun _ => blind_bind h fun _ => blind_pure _

theorem blind_encode {N N' : List Node} {q : Query} (h : BlindC N N' q.comp) : Blind N N' q.encode := by
  unfold Query.encode
  cases hq : q.comp with
  | none => exact blind_throw _
  | some m => rw [hq] at h; exact h

theorem modelFree_blind (N N' : List Node) : ∀ q : Query, q.modelFree = true → BlindC N N' q.comp
  | .nil, _ => trivial
  | .atom a, h => atom_blind (by simpa [Query.modelFree] using h) N N'
  | .and q1 q2, h => by
    simp only [Query.modelFree, Bool.and_eq_true] at h
    exact encAnd_blind (modelFree_blind N N' q1 h.1) (modelFree_blind N N' q2 h.2)
  | .or q1 q2, h => by
    simp only [Query.modelFree, Bool.and_eq_true] at h
    exact encOr_blind (modelFree_blind N N' q1 h.1) (modelFree_blind N N' q2 h.2)
  | .not q, h => encNot_blind (modelFree_blind N N' q h)
  | .withVar x q, h => encWithVar_blind x (modelFree_blind N N' q h)
  | .forallG _ _, h => by cases h

/-! ### Models of the same content -/

section
variable {N N' : List Node}

theorem content_leaf {n m : Node} (h : n.content = m.content) : n.isLeaf = m.isLeaf := by
  unfold Node.content at h
  simp only [Node.isLeaf]
  split at h <;> split at h
  · rename_i h1 h2
    simp only [← Bool.decide_or, h1, h2]
  · cases h
  · cases h
  · rename_i h1 h2
    simp only [← Bool.decide_or, h1, h2]

theorem content_value {n m : Node} (h : n.content = m.content) (hl : n.isLeaf = true) : n.value = m.value := by
  have hm := content_leaf h
  rw [hl] at hm
  simp only [Node.isLeaf, ← Bool.decide_or, decide_eq_true_eq] at hl
  simp only [Node.isLeaf, ← Bool.decide_or] at hm
  have hm := of_decide_eq_true hm.symm
  unfold Node.content at h
  rw [if_pos hl, if_pos hm] at h
  exact Sum.inl.inj h

theorem content_inner {n m : Node} (h : n.content = m.content) (hl : n.isLeaf = false) :
    n.feat = m.feat ∧ n.zChild = m.zChild ∧ n.oChild = m.oChild := by
  have hm := content_leaf h
  rw [hl] at hm
  simp only [Node.isLeaf, ← Bool.decide_or, decide_eq_false_iff_not] at hl
  simp only [Node.isLeaf, ← Bool.decide_or] at hm
  have hm := of_decide_eq_false hm.symm
  unfold Node.content at h
  rw [if_neg hl, if_neg hm] at h
  have := Sum.inr.inj h
  grind

theorem content_length (h : N.map Node.content = N'.map Node.content) : N.length = N'.length := by
  simpa using congrArg List.length h

theorem content_at (h : N.map Node.content = N'.map Node.content) (i : Nat) :
    (nodeAt N i).content = (nodeAt N' i).content := by
  have h' : (N.map Node.content).getD i (default : Node).content = (N'.map Node.content).getD i (default : Node).content := by rw [h]
  simpa [nodeAt, List.getD_eq_getElem?_getD, List.getElem?_map, Option.getD_map] using h'

theorem isLeaf_at (h : N.map Node.content = N'.map Node.content) (i : Nat) : (nodeAt N i).isLeaf = (nodeAt N' i).isLeaf :=
  content_leaf (content_at h i)

theorem validateNode_content {n m : Node} (h : n.content = m.content) (d l : Nat) : validateNode n d l = validateNode m d l := by
  unfold validateNode
  cases hl : n.isLeaf with
  | true => rw [← content_leaf h, hl]; rfl
  | false =>
    obtain ⟨h1, h2, h3⟩ := content_inner h hl
    rw [← content_leaf h, hl, h1, h2, h3]

theorem validateNodes_content (d l : Nat) : ∀ N N' : List Node, N.map Node.content = N'.map Node.content →
    validateNodes d l N = validateNodes d l N'
  | [], [], _ => rfl
  | [], _ :: _, h => by simp at h
  | _ :: _, [], h => by simp at h
  | n :: N, m :: N', h => by
    simp only [List.map_cons, List.cons.injEq] at h
    simp only [validateNodes, validateNode_content h.1, validateNodes_content d l N N' h.2]

/-- The walk goes back to nodes that are no leaves only. -/
def BackInner (N : List Node) (w : WalkSt) : Prop :=
  (w.cp = 0 ∨ (nodeAt N 0).isLeaf = false) ∧ ∀ i, w.prev.getD i 0 = 0 ∨ (nodeAt N (w.prev.getD i 0)).isLeaf = false

theorem walkBackup_content (h : N.map Node.content = N'.map Node.content) {w : WalkSt} (hw : BackInner N w) :
    walkBackup N w = walkBackup N' w ∧ BackInner N (walkBackup N w).2 := by
  unfold walkBackup
  by_cases h0 : w.cp = 0
  · simp only [h0, if_true, true_and]
    exact hw
  · simp only [h0, if_false]
    have hr : (nodeAt N 0).isLeaf = false := hw.1.resolve_left h0
    have hp : (nodeAt N (w.prev.getD w.cp 0)).isLeaf = false := by
      rcases hw.2 w.cp with e | e
      · rw [e]; exact hr
      · exact e
    exact ⟨by rw [(content_inner (content_at h _) hp).1], .inr hr, hw.2⟩

theorem walkDown_content (h : N.map Node.content = N'.map Node.content) {w : WalkSt} (hw : BackInner N w) (ch : Nat) (val : FeatV)
    (hl : (nodeAt N w.cp).isLeaf = false) :
    walkDown N w ch val = walkDown N' w ch val ∧ BackInner N (walkDown N w ch val).2 := by
  unfold walkDown
  refine ⟨by rw [(content_inner (content_at h _) hl).1], ?_, ?_⟩
  · right
    rcases hw.1 with e | e
    · rw [← e]; exact hl
    · exact e
  · intro i
    show (w.prev.set ch w.cp).getD i 0 = 0 ∨ (nodeAt N ((w.prev.set ch w.cp).getD i 0)).isLeaf = false
    by_cases hi : ch = i ∧ i < w.prev.length
    · right
      rw [List.getD_eq_getElem?_getD, List.getElem?_set, if_pos hi.1, hi.1, if_pos hi.2]
      exact hl
    · have : (w.prev.set ch w.cp).getD i 0 = w.prev.getD i 0 := by
        rw [List.getD_eq_getElem?_getD, List.getD_eq_getElem?_getD, List.getElem?_set]
        split
        · rename_i e
          rw [if_neg (by omega)]
          rw [List.getElem?_eq_none (by omega)]
        · rfl
      rw [this]
      exact hw.2 i

theorem walkStep_content (h : N.map Node.content = N'.map Node.content) {w : WalkSt} (hw : BackInner N w) :
    walkStep N w = walkStep N' w ∧ BackInner N (walkStep N w).2 := by
  unfold walkStep
  have e := isLeaf_at h w.cp
  cases hv : w.visited.getD w.cp false with
  | false => exact ⟨by simp, hw⟩
  | true =>
    cases hl : (nodeAt N w.cp).isLeaf with
    | true =>
      have hl' := e ▸ hl
      simp only [hl, hl', if_true]
      exact walkBackup_content h hw
    | false =>
      have hl' := e ▸ hl
      obtain ⟨-, h2, h3⟩ := content_inner (content_at h w.cp) hl
      simp only [hl, hl', h2, h3, if_true, Bool.false_eq_true, if_false]
      split
      · exact walkDown_content h hw _ _ hl
      · split
        · exact walkDown_content h hw _ _ hl
        · exact walkBackup_content h hw

theorem walkNext_content (h : N.map Node.content = N'.map Node.content) : ∀ fuel {w : WalkSt}, BackInner N w →
    walkNext N fuel w = walkNext N' fuel w ∧ ∀ w', walkNext N fuel w = .ok (some w') → BackInner N w'
  | 0, w, hw => ⟨rfl, fun _ h => by cases h⟩
  | fuel + 1, w, hw => by
    obtain ⟨h1, h2⟩ := walkStep_content h hw
    unfold walkNext
    rw [← h1]
    cases hr : walkStep N w with
    | mk ev w1 =>
      rw [hr] at h2
      cases ev with
      | finished => exact ⟨rfl, fun _ h => by cases h⟩
      | visited => exact ⟨rfl, fun _ h => by cases h; exact h2⟩
      | moved => exact walkNext_content h fuel h2

theorem backInner_init (N : List Node) (d l : Nat) : BackInner N (WalkSt.init d l) := by
  refine ⟨.inl rfl, fun i => .inl ?_⟩
  simp only [WalkSt.init, List.getD_eq_getElem?_getD, List.getElem?_replicate]
  split <;> rfl

theorem leafsLoop_content (h : N.map Node.content = N'.map Node.content) : ∀ fuel {w : WalkSt} pl nl, BackInner N w →
    leafsLoop N fuel w pl nl = leafsLoop N' fuel w pl nl
  | 0, w, pl, nl, hw => rfl
  | fuel + 1, w, pl, nl, hw => by
    unfold leafsLoop
    have hl : nextFuel N = nextFuel N' := by unfold nextFuel; rw [content_length h]
    obtain ⟨h1, h2⟩ := walkNext_content h (nextFuel N) hw
    rw [← hl, ← h1]
    cases hr : walkNext N (nextFuel N) w with
    | error e => rfl
    | ok o =>
      cases o with
      | none => rfl
      | some w' =>
        have hw' := h2 w' hr
        have e := isLeaf_at h w'.cp
        cases hf : (nodeAt N w'.cp).isLeaf with
        | false =>
          have hf' := e ▸ hf
          simp only [hf, hf', Bool.not_false, if_true]
          exact leafsLoop_content h fuel _ _ hw'
        | true =>
          have hf' := e ▸ hf
          simp only [hf, hf', Bool.not_true, Bool.false_eq_true, if_false, content_value (content_at h w'.cp) hf]
          split <;> exact leafsLoop_content h fuel _ _ hw'

theorem leafsAsConsts_content (h : N.map Node.content = N'.map Node.content) (d : Nat) :
    leafsAsConsts d N = leafsAsConsts d N' := by
  unfold leafsAsConsts
  rw [content_length h, validateNodes_content d _ N N' h]
  cases validateNodes d N'.length N' with
  | error e => rfl
  | ok u =>
    simp only
    split
    · rfl
    · exact leafsLoop_content h _ _ _ (backInner_init N d _)

theorem forallLoop_content (h : N.map Node.content = N'.map Node.content) (q : M CNF) : ∀ fuel {w : WalkSt} i k, BackInner N w →
    forallLoop q N fuel w i k = forallLoop q N' fuel w i k
  | 0, _, _, _, _ => rfl
  | fuel + 1, w, i, k, hw => by
    unfold forallLoop
    have hl : nextFuel N = nextFuel N' := by unfold nextFuel; rw [content_length h]
    obtain ⟨h1, h2⟩ := walkNext_content h (nextFuel N) hw
    rw [← hl, ← h1]
    cases hr : walkNext N (nextFuel N) w with
    | error e => rfl
    | ok o =>
      cases o with
      | none => rfl
      | some w' =>
        simp only [forallLoop_content h q fuel _ _ (h2 w' hr)]

theorem forallLoop_blind (L : List Node) {q : M CNF} (hq : Blind N N' q) : ∀ fuel w i k, Blind N N' (forallLoop q L fuel w i k)
  | 0, _, _, _ => blind_throw _
  | fuel + 1, w, i, k => by
    unfold forallLoop
    split
    · exact blind_throw _
    · exact blind_pure _
    · exact blind_bind (blind_setScope _ _) fun _ => blind_bind hq fun _ => forallLoop_blind L hq fuel _ _ _

theorem newNodeAsValuesIter_content (h : N.map Node.content = N'.map Node.content) (d : Nat) :
    newNodeAsValuesIter d N = newNodeAsValuesIter d N' := by
  unfold newNodeAsValuesIter
  rw [content_length h, validateNodes_content d _ N N' h]

/-- The body of the quantifier after the nodes were read. -/
theorem forallRest_content (h : N.map Node.content = N'.map Node.content) (q : M CNF) (d : Nat) :
    (do let iter ← M.lift (newNodeAsValuesIter d N'); forallLoop q N' (N'.length + 1) iter 0 {} : M CNF) =
      (do let iter ← M.lift (newNodeAsValuesIter d N); forallLoop q N (N.length + 1) iter 0 {} : M CNF) := by
  rw [← newNodeAsValuesIter_content h]
  unfold newNodeAsValuesIter
  split
  · rfl
  · split
    · rfl
    · funext s
      show forallLoop q N' (N'.length + 1) (WalkSt.init d N.length) 0 {} s = forallLoop q N (N.length + 1) (WalkSt.init d N.length) 0 {} s
      rw [forallLoop_content h q _ _ _ (backInner_init N d _), content_length h]

theorem forallBody_blind (h : N.map Node.content = N'.map Node.content) {q : M CNF} (hq : Blind N N' q) :
    Blind N N' (forallBody q) :=
  blind_bind blind_dim fun d => blind_nodes (blind_bind (blind_lift _) fun _ => forallLoop_blind N hq _ _ _ _)
    (forallRest_content h q d)

theorem encForall_blind (h : N.map Node.content = N'.map Node.content) (c : QConst) {q : Comp} (hq : BlindC N N' q) :
    Blind N N' (encForall c q) := by
  refine blind_wrapErr _ ?_
  cases q with
  | none => exact blind_throw _
  | some q =>
    intro s hs
    obtain ⟨h1, h2⟩ := forallBody_blind h hq (s.addScope c.id) hs
    show forallBuild c q _ = ((forallBuild c q s).1, { (forallBuild c q s).2 with nodes := N' }) ∧ (forallBuild c q s).2.nodes = N
    unfold forallBuild
    rw [show ({ s with nodes := N' } : Ctx).addScope c.id = { s.addScope c.id with nodes := N' } from rfl, h1]
    simp only [Ctx.popScope]
    by_cases h0 : (forallBody q (s.addScope c.id)).2.scopes.length = 0
    · simp only [h0, if_true]
      exact ⟨trivial, h2⟩
    · simp only [h0, if_false]
      exact ⟨trivial, h2⟩

theorem isnodeLoop_content (h : N.map Node.content = N'.map Node.content) (d : Nat) (sc : QConst) : ∀ fuel {n m : Node} vis,
    n.content = m.content → isnodeLoop d sc N fuel n vis = isnodeLoop d sc N' fuel m vis
  | 0, _, _, _, _ => rfl
  | fuel + 1, n, m, vis, e => by
    unfold isnodeLoop
    rw [← content_leaf e]
    cases hl : n.isLeaf with
    | true => rfl
    | false =>
      obtain ⟨h1, h2, h3⟩ := content_inner e hl
      simp only [h1, h2, h3, content_length h, isnodeLoop_content h d sc fuel _ (content_at h _)]

theorem acPush_content (h : N.map Node.content = N'.map Node.content) (ch : Int) (vis : List Int) {st st' : List Node}
    (e : st.map Node.content = st'.map Node.content) :
    match acPush N ch vis st, acPush N' ch vis st' with
    | .ok a, .ok b => a.1 = b.1 ∧ a.2.map Node.content = b.2.map Node.content
    | .error a, .error b => a = b
    | _, _ => False := by
  unfold acPush
  rw [content_length h]
  by_cases h1 : ch ∈ vis
  · simp only [h1, if_true]
    exact ⟨trivial, e⟩
  · simp only [h1, if_false]
    by_cases h2 : ch < 0 ∨ ch ≥ (N'.length : Int)
    · simp only [h2, if_true]
    · simp only [h2, if_false]
      exact ⟨trivial, by simp [content_at h, e]⟩

theorem acLoop_content (h : N.map Node.content = N'.map Node.content) (d : Nat) (sc : QConst) (leaf : Bool) : ∀ fuel vis {st st' : List Node},
    st.map Node.content = st'.map Node.content → acLoop d sc leaf N fuel vis st = acLoop d sc leaf N' fuel vis st'
  | 0, _, _, _, _ => by simp only [acLoop]
  | _ + 1, _, [], [], _ => by simp only [acLoop]
  | _ + 1, _, [], _ :: _, e => by simp at e
  | _ + 1, _, _ :: _, [], e => by simp at e
  | fuel + 1, vis, n :: st, m :: st', e => by
    simp only [List.map_cons, List.cons.injEq] at e
    have ih := fun vis => @acLoop_content h d sc leaf fuel vis
    have push := fun ch vis => @acPush_content N N' h ch vis
    simp only [acLoop, ← content_leaf e.1]
    cases hl : n.isLeaf with
    | true => simp only [if_true, content_value e.1 hl, ih vis e.2]
    | false =>
      obtain ⟨h1, h2, h3⟩ := content_inner e.1 hl
      simp only [h1, h2, h3, Bool.false_eq_true, if_false]
      have one : ∀ ch, (match acPush N ch vis st with
          | .error e => (.error e : Except Err Bool)
          | .ok (visited, stack) => acLoop d sc leaf N fuel visited stack) =
          (match acPush N' ch vis st' with
          | .error e => (.error e : Except Err Bool)
          | .ok (visited, stack) => acLoop d sc leaf N' fuel visited stack) := by
        intro ch
        have hp := push ch vis e.2
        cases ha : acPush N ch vis st <;> cases hb : acPush N' ch vis st' <;> rw [ha, hb] at hp
        · simp only at hp; simp only [hp]
        · exact hp.elim
        · exact hp.elim
        · simp only at hp ⊢
          rw [hp.1]
          exact ih _ hp.2
      have two : ∀ ch ch', (match acPush N ch vis st with
          | .error e => (.error e : Except Err Bool)
          | .ok (visited, stack) => match acPush N ch' visited stack with
            | .error e => (.error e : Except Err Bool)
            | .ok (visited, stack) => acLoop d sc leaf N fuel visited stack) =
          (match acPush N' ch vis st' with
          | .error e => (.error e : Except Err Bool)
          | .ok (visited, stack) => match acPush N' ch' visited stack with
            | .error e => (.error e : Except Err Bool)
            | .ok (visited, stack) => acLoop d sc leaf N' fuel visited stack) := by
        intro ch ch'
        have hp := push ch vis e.2
        cases ha : acPush N ch vis st <;> cases hb : acPush N' ch vis st' <;> rw [ha, hb] at hp
        · simp only at hp; simp only [hp]
        · exact hp.elim
        · exact hp.elim
        · rename_i a b
          simp only at hp ⊢
          rw [hp.1]
          have hp' := push ch' b.1 hp.2
          cases ha : acPush N ch' b.1 a.2 <;> cases hb : acPush N' ch' b.1 b.2 <;> rw [ha, hb] at hp'
          · simp only at hp'; simp only [hp']
          · exact hp'.elim
          · exact hp'.elim
          · simp only at hp' ⊢
            rw [hp'.1]
            exact ih _ hp'.2
      by_cases hf : m.feat < 0 ∨ m.feat ≥ (d : Int)
      · simp only [hf, if_true]
      · simp only [hf, if_false]
        cases indexed [m.feat] [sc] with
        | error e => rfl
        | ok u =>
          dsimp only
          by_cases hb : sc.at m.feat.toNat = BOT
          · simp only [hb, if_true]
            exact two _ _
          · simp only [hb, if_false]
            by_cases hz : sc.at m.feat.toNat = ZERO
            · simp only [hz, if_true]
              exact one _
            · simp only [hz, if_false]
              by_cases ho : sc.at m.feat.toNat = ONE
              · simp only [ho, if_true]
                exact one _
              · simp only [ho, if_false]
                exact ih vis e.2

theorem isnodeVar_content (h : N.map Node.content = N'.map Node.content) (d : Nat) (sv r : QVar) :
    isnodeFcl d N' sv r = isnodeFcl d N sv r ∧ isnodeFclOrder d N' sv r = isnodeFclOrder d N sv r ∧
      isnodeProp N' sv r = isnodeProp N sv r ∧ featsInRange d N' = featsInRange d N := by
  refine ⟨?_, ?_, ?_, ?_⟩
  · unfold isnodeFcl
    rw [content_length h]
    refine List.map_congr_left fun f _ => ?_
    congr 2
    refine List.filter_congr fun i _ => ?_
    rw [isLeaf_at h]
    cases hl : (nodeAt N' i).isLeaf with
    | true => simp
    | false => rw [(content_inner (content_at h i) ((isLeaf_at h i).trans hl)).1]
  · unfold isnodeFclOrder
    rw [content_length h]
    simp only [isLeaf_at h]
  · unfold isnodeProp
    rw [content_length h, List.flatMap_def, List.flatMap_def]
    refine congrArg List.flatten (List.map_congr_left fun i _ => ?_)
    dsimp only
    rw [isLeaf_at h]
    cases hl : (nodeAt N' i).isLeaf with
    | true => rfl
    | false =>
      obtain ⟨h1, h2, h3⟩ := content_inner (content_at h i) ((isLeaf_at h i).trans hl)
      rw [h1, h2, h3]
  · unfold featsInRange
    clear sv r
    induction N generalizing N' with
    | nil => cases N' with
      | nil => rfl
      | cons => simp at h
    | cons n N ih => cases N' with
      | nil => simp at h
      | cons m N' =>
        simp only [List.map_cons, List.cons.injEq] at h
        simp only [List.all_cons, ih h.2, ← content_leaf h.1]
        cases hl : n.isLeaf with
        | true => rfl
        | false => rw [(content_inner h.1 hl).1]

theorem allcompStep_content (h : N.map Node.content = N'.map Node.content) (leaf : Bool) (sv r : QVar) (i : Nat) :
    allcompStep leaf N' sv r i = allcompStep leaf N sv r i := by
  unfold allcompStep
  dsimp only
  rw [← isLeaf_at h]
  cases hl : (nodeAt N i).isLeaf with
  | true => simp only [if_true, content_value (content_at h i) hl]
  | false =>
    obtain ⟨h1, h2, h3⟩ := content_inner (content_at h i) hl
    simp only [h1, h2, h3, Bool.false_eq_true, if_false]

theorem atom_content (h : N.map Node.content = N'.map Node.content) (a : Atom) : Blind N N' a.encode := by
  cases a with
  | isnode t g =>
    cases t with
    | const c =>
      refine blind_bind (blind_scopeConst _) fun sc => blind_bind (blind_validateM _) fun _ => blind_bind blind_dim fun d =>
        blind_nodes (blind_ite (blind_throw _) (blind_bind (blind_lift _) fun _ => blind_ite blind_retTrue blind_retFalse)) ?_
      simp only [content_length h, isnodeLoop_content h d sc _ _ (content_at h 0)]
    | var x =>
      cases g with
      | none => exact blind_throw _
      | some g =>
        refine blind_nodes (blind_ite (blind_throw _) (blind_bind blind_dim fun d => blind_bind (blind_scopeVar _) fun _ =>
          blind_ite (blind_throw _) (blind_emit _))) ?_
        simp only [content_length h, fun d sv r => (isnodeVar_content h d sv r).1, fun d sv r => (isnodeVar_content h d sv r).2.1,
          fun sv r => (isnodeVar_content h 0 sv r).2.2.1, fun d => (isnodeVar_content h d [] []).2.2.2]
  | allcomp t leaf g =>
    cases t with
    | const c =>
      refine blind_bind (blind_scopeConst _) fun sc => blind_bind (blind_validateM _) fun _ => blind_bind blind_dim fun d =>
        blind_nodes (blind_ite (blind_throw _) (blind_bind (blind_lift _) fun _ => blind_ite blind_retTrue blind_retFalse)) ?_
      have e : [nodeAt N 0].map Node.content = [nodeAt N' 0].map Node.content := by simp [content_at h]
      simp only [content_length h, acLoop_content h d sc leaf _ _ e]
    | var x =>
      cases g with
      | none => exact blind_throw _
      | some g =>
        refine blind_nodes (blind_ite (blind_throw _) (blind_bind (blind_scopeVar _) fun _ => blind_emit _)) ?_
        have e : ∀ sv r, allcompStep leaf N' sv r = allcompStep leaf N sv r := fun sv r => funext (allcompStep_content h leaf sv r)
        simp only [content_length h, e]
  | dfs t =>
    cases t with
    | const c =>
      refine blind_bind (blind_scopeConst _) fun sc => blind_bind (blind_validateM _) fun _ => blind_bind blind_dim fun d =>
        blind_nodes (blind_bind (blind_lift _) fun _ => blind_ite (blind_throw _) (blind_bind (blind_lift _) fun _ =>
          blind_ite blind_retTrue blind_retFalse)) ?_
      simp only [leafsAsConsts_content h]
    | var x =>
      refine blind_bind (blind_scopeVar _) fun sv => blind_bind blind_dim fun d =>
        blind_nodes (blind_bind (blind_lift _) fun _ => blind_ite (blind_throw _) (blind_bind (blind_lift _) fun _ =>
          blind_emitF _ _)) ?_
      simp only [leafsAsConsts_content h]
  | _ => exact atom_blind rfl N N'

theorem content_blind (h : N.map Node.content = N'.map Node.content) : ∀ q : Query, BlindC N N' q.comp
  | .nil => trivial
  | .atom a => atom_content h a
  | .and q1 q2 => encAnd_blind (content_blind h q1) (content_blind h q2)
  | .or q1 q2 => encOr_blind (content_blind h q1) (content_blind h q2)
  | .not q => encNot_blind (content_blind h q)
  | .withVar x q => encWithVar_blind x (content_blind h q)
  | .forallG c q => encForall_blind h c (content_blind h q)

end

end Goexpdt

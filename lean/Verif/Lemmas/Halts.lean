import Verif.Lemmas.Calm
import Verif.Spec.Graph
/- Termination of the loops over the nodes, and of encodings. -/
namespace Goexpdt
open Spec

/-! ### isnode.Const -/

/-- The node to which the loop of isnode.Const goes from node `i`. -/
def isnodeNext (dim : Nat) (sc : QConst) (nodes : List Node) (i : Nat) : Option Nat :=
  let node := nodeAt nodes i
  if node.isLeaf then none
  else if node.feat < 0 ∨ node.feat ≥ dim then none
  else if ¬ indexed [node.feat] [sc] = .ok () then none
  else if sc.at node.feat.toNat = BOT then none
  else if sc.at node.feat.toNat = ZERO then
    if node.zChild < 0 ∨ node.zChild ≥ nodes.length then none else some node.zChild.toNat
  else if node.oChild < 0 ∨ node.oChild ≥ nodes.length then none
  else some node.oChild.toNat

/-- `k` steps. -/
def isnodeIter (dim : Nat) (sc : QConst) (nodes : List Node) : Nat → Nat → Option Nat
  | 0, i => some i
  | k + 1, i => (isnodeNext dim sc nodes i).bind (isnodeIter dim sc nodes k)

variable {dim : Nat} {sc : QConst} {nodes : List Node}

theorem isnodeNext_lt {i j : Nat} (h : isnodeNext dim sc nodes i = some j) : j < nodes.length := by
  unfold isnodeNext at h
  simp only at h
  grind

theorem isnodeNext_child {i j : Nat} (hi : i < nodes.length) (h : isnodeNext dim sc nodes i = some j) :
    ChildOf nodes i j := by
  have hj := isnodeNext_lt h
  refine ⟨nodeAt nodes i, nodeAt nodes j, getElem?_nodeAt hi, getElem?_nodeAt hj, ?_⟩
  change (nodeAt nodes i).isLeaf = false ∧ _
  unfold isnodeNext at h
  simp only at h
  grind

theorem isnodeLoop_step (i : Nat) (vis : List Nat) :
    (isnodeNext dim sc nodes i = none ∧ ∃ r, r ≠ .error .diverge ∧ ∀ k, isnodeLoop dim sc nodes (k + 1) (nodeAt nodes i) vis = r) ∨
    ∃ j vis', isnodeNext dim sc nodes i = some j ∧
      ∀ k, isnodeLoop dim sc nodes (k + 1) (nodeAt nodes i) vis = isnodeLoop dim sc nodes k (nodeAt nodes j) vis' := by
  simp only [isnodeNext, isnodeLoop]
  rcases indexed_cases [(nodeAt nodes i).feat] [sc] with hx | hx <;> simp only [hx, reduceCtorEq, not_true, not_false_eq_true, if_true, if_false]
  all_goals repeat' split
  all_goals first
    | exact .inr ⟨_, _, rfl, fun _ => rfl⟩
    | exact .inl ⟨rfl, _, by simp, fun _ => rfl⟩

theorem isnodeLoop_diverge (fuel : Nat) : ∀ (i : Nat) (vis : List Nat),
    isnodeLoop dim sc nodes fuel (nodeAt nodes i) vis = .error .diverge ↔ (isnodeIter dim sc nodes fuel i).isSome = true := by
  induction fuel with
  | zero => intro i vis; simp [isnodeLoop, isnodeIter]
  | succ k ih =>
    intro i vis
    rcases isnodeLoop_step (dim := dim) (sc := sc) (nodes := nodes) i vis with ⟨h, r, hr, e⟩ | ⟨j, vis', h, e⟩
    · rw [e]; simp [isnodeIter, h, hr]
    · rw [e, ih]; simp [isnodeIter, h]

theorem isnodeLoop_mono (fuel : Nat) : ∀ (i : Nat) (vis : List Nat) (k : Nat),
    isnodeLoop dim sc nodes fuel (nodeAt nodes i) vis ≠ .error .diverge →
    isnodeLoop dim sc nodes (fuel + k) (nodeAt nodes i) vis = isnodeLoop dim sc nodes fuel (nodeAt nodes i) vis := by
  induction fuel with
  | zero => intro i vis k h; simp [isnodeLoop] at h
  | succ f ih =>
    intro i vis k h
    rw [show f + 1 + k = (f + k) + 1 by omega]
    rcases isnodeLoop_step (dim := dim) (sc := sc) (nodes := nodes) i vis with ⟨_, r, _, e⟩ | ⟨j, vis', _, e⟩
    · rw [e, e]
    · rw [e] at h
      rw [e, e]
      exact ih _ _ _ h

theorem isnodeIter_add (a b i : Nat) : isnodeIter dim sc nodes (a + b) i =
    (isnodeIter dim sc nodes a i).bind (isnodeIter dim sc nodes b) := by
  induction a generalizing i with
  | zero => simp [isnodeIter]
  | succ a ih =>
    rw [show a + 1 + b = (a + b) + 1 by omega]
    simp only [isnodeIter]
    cases isnodeNext dim sc nodes i with
    | none => rfl
    | some j => exact ih j

theorem isnodeIter_below {k : Nat} : ∀ {i j : Nat}, i < nodes.length → isnodeIter dim sc nodes (k + 1) i = some j →
    Below nodes i j := by
  induction k with
  | zero =>
    intro i j hi h
    simp only [isnodeIter] at h
    cases hn : isnodeNext dim sc nodes i with
    | none => simp [hn] at h
    | some m =>
      simp only [hn, Option.bind_some, Option.some.injEq] at h
      subst h
      exact .child (isnodeNext_child hi hn)
  | succ k ih =>
    intro i j hi h
    rw [isnodeIter] at h
    cases hn : isnodeNext dim sc nodes i with
    | none => simp [hn] at h
    | some m =>
      rw [hn] at h
      exact .step (isnodeNext_child hi hn) (ih (isnodeNext_lt hn) h)

/-- A walk of more steps than there are nodes comes back to a node. -/
theorem isnodeIter_repeats {i : Nat} (hi : i < nodes.length) (h : (isnodeIter dim sc nodes nodes.length i).isSome = true) :
    ∃ a p j, isnodeIter dim sc nodes a i = some j ∧ isnodeIter dim sc nodes (p + 1) j = some j ∧ j < nodes.length := by
  have hdef : ∀ a ≤ nodes.length, ∃ j, isnodeIter dim sc nodes a i = some j ∧ j < nodes.length := by
    intro a ha
    have hs : (isnodeIter dim sc nodes a i).isSome = true := by
      rw [show nodes.length = a + (nodes.length - a) by omega, isnodeIter_add] at h
      cases hx : isnodeIter dim sc nodes a i with
      | none => simp [hx] at h
      | some j => rfl
    obtain ⟨j, hj⟩ := Option.isSome_iff_exists.1 hs
    refine ⟨j, hj, ?_⟩
    cases a with
    | zero => simp only [isnodeIter, Option.some.injEq] at hj; omega
    | succ a =>
      rw [isnodeIter_add] at hj
      cases hx : isnodeIter dim sc nodes a i with
      | none => simp [hx] at hj
      | some m =>
        simp only [hx, Option.bind_some, isnodeIter] at hj
        cases hn : isnodeNext dim sc nodes m with
        | none => simp [hn] at hj
        | some m' =>
          simp only [hn, Option.bind_some, Option.some.injEq] at hj
          subst hj
          exact isnodeNext_lt hn
  let pos : Nat → Nat := fun a => (isnodeIter dim sc nodes a i).getD 0
  have hpos : ∀ a ≤ nodes.length, isnodeIter dim sc nodes a i = some (pos a) ∧ pos a < nodes.length := by
    intro a ha
    obtain ⟨j, hj, hl⟩ := hdef a ha
    have : pos a = j := by simp [pos, hj]
    rw [this]; exact ⟨hj, hl⟩
  have hrep : ∃ a b, a < b ∧ b ≤ nodes.length ∧ pos a = pos b := by
    refine Classical.byContradiction fun hno => ?_
    have hnd : ((List.range (nodes.length + 1)).map pos).Nodup := by
      refine List.Pairwise.map _ (fun a b h => h) ?_
      have := List.pairwise_lt_range (n := nodes.length + 1)
      refine List.Pairwise.imp_of_mem (fun ha hb hab e => hno ⟨_, _, hab, ?_, e⟩) this
      have := List.mem_range.1 hb
      omega
    have hsub : (List.range (nodes.length + 1)).map pos ⊆ List.range nodes.length := by
      intro x hx
      obtain ⟨a, ha, rfl⟩ := List.mem_map.1 hx
      exact List.mem_range.2 (hpos a (by have := List.mem_range.1 ha; omega)).2
    have := hnd.length_le_of_subset hsub
    simp at this
    omega
  obtain ⟨a, b, hab, hb, e⟩ := hrep
  refine ⟨a, b - a - 1, pos a, (hpos a (by omega)).1, ?_, (hpos a (by omega)).2⟩
  have h1 := (hpos b hb).1
  rw [show b = a + (b - a - 1 + 1) by omega, isnodeIter_add, (hpos a (by omega)).1, Option.bind_some] at h1
  rw [h1, e]
  congr 2
  omega

theorem isnodeIter_periodic {j p : Nat} (h : isnodeIter dim sc nodes (p + 1) j = some j) (k : Nat) :
    (isnodeIter dim sc nodes k j).isSome = true := by
  induction k using Nat.strongRecOn with
  | _ k ih =>
    by_cases hk : k < p + 1
    · rw [show p + 1 = k + (p + 1 - k) by omega, isnodeIter_add] at h
      cases hx : isnodeIter dim sc nodes k j with
      | none => simp [hx] at h
      | some m => rfl
    · rw [show k = (p + 1) + (k - (p + 1)) by omega, isnodeIter_add, h]
      exact ih _ (by omega)

/-- If the loop runs for as many turns as there are nodes, it runs forever. -/
theorem isnodeLoop_forever {i fuel : Nat} {vis : List Nat} (hi : i < nodes.length) (hf : nodes.length ≤ fuel)
    (h : isnodeLoop dim sc nodes fuel (nodeAt nodes i) vis = .error .diverge) (k : Nat) :
    isnodeLoop dim sc nodes k (nodeAt nodes i) vis = .error .diverge := by
  rw [isnodeLoop_diverge] at h ⊢
  have hl : (isnodeIter dim sc nodes nodes.length i).isSome = true := by
    rw [show fuel = nodes.length + (fuel - nodes.length) by omega, isnodeIter_add] at h
    cases hx : isnodeIter dim sc nodes nodes.length i with
    | none => simp [hx] at h
    | some m => rfl
  obtain ⟨a, p, j, h1, h2, -⟩ := isnodeIter_repeats hi hl
  have h3 := isnodeIter_periodic h2 k
  have h4 : (isnodeIter dim sc nodes (a + k) i).isSome = true := by rw [isnodeIter_add, h1]; exact h3
  rw [Nat.add_comm, isnodeIter_add] at h4
  cases hx : isnodeIter dim sc nodes k i with
  | none => simp [hx] at h4
  | some m => rfl

theorem isnodeLoop_halts (ha : Acyclic nodes) {i fuel : Nat} {vis : List Nat} (hi : i < nodes.length) (hf : nodes.length ≤ fuel) :
    isnodeLoop dim sc nodes fuel (nodeAt nodes i) vis ≠ .error .diverge := by
  intro h
  have h1 := isnodeLoop_forever hi hf h nodes.length
  rw [isnodeLoop_diverge] at h1
  obtain ⟨a, p, j, -, h2, hj⟩ := isnodeIter_repeats hi h1
  exact ha j (isnodeIter_below hj h2)

/-! ### allcomp.Const -/

/-- The nodes recorded as visited are different from each other and in range. -/
structure VisOk (nodes : List Node) (vis : List Int) : Prop where
  nodup : vis.Nodup
  range : ∀ v ∈ vis, 0 ≤ v ∧ v < nodes.length

theorem VisOk.length_le {vis : List Int} (h : VisOk nodes vis) : vis.length ≤ nodes.length := by
  have hsub : vis ⊆ (List.range nodes.length).map (fun (k : Nat) => (k : Int)) := by
    intro v hv
    obtain ⟨h1, h2⟩ := h.range v hv
    exact List.mem_map.2 ⟨v.toNat, List.mem_range.2 (by omega), by omega⟩
  simpa using h.nodup.length_le_of_subset hsub

theorem acPush_ok {ch : Int} {vis vis' : List Int} {stk stk' : List Node} (h : VisOk nodes vis)
    (e : acPush nodes ch vis stk = .ok (vis', stk')) :
    VisOk nodes vis' ∧ stk'.length + vis.length = stk.length + vis'.length := by
  unfold acPush at e
  split at e
  · simp only [Except.ok.injEq, Prod.mk.injEq] at e
    obtain ⟨rfl, rfl⟩ := e
    exact ⟨h, rfl⟩
  · next hn =>
    split at e
    · simp at e
    · next hr =>
      simp only [Except.ok.injEq, Prod.mk.injEq] at e
      obtain ⟨rfl, rfl⟩ := e
      refine ⟨⟨List.nodup_cons.2 ⟨hn, h.nodup⟩, ?_⟩, by simp; omega⟩
      intro v hv
      rcases List.mem_cons.1 hv with rfl | hv
      · omega
      · exact h.range v hv

theorem acPush_nd {ch : Int} {vis : List Int} {stk : List Node} : acPush nodes ch vis stk ≠ .error .diverge := by
  unfold acPush
  split
  · simp
  · split <;> simp

theorem acLoop_halts {b : Bool} (fuel : Nat) : ∀ (vis : List Int) (stk : List Node), VisOk nodes vis →
    stk.length + nodes.length < fuel + vis.length → acLoop dim sc b nodes fuel vis stk ≠ .error .diverge := by
  induction fuel with
  | zero =>
    intro vis stk h hf
    have := h.length_le
    omega
  | succ k ih =>
    intro vis stk h hf
    cases stk with
    | nil => simp [acLoop]
    | cons n stk =>
      simp only [List.length_cons] at hf
      simp only [acLoop]
      split
      · split
        · simp
        · exact ih _ _ h (by omega)
      · split
        · simp
        · rcases indexed_cases [n.feat] [sc] with hx | hx <;> rw [hx] <;> simp only
          rotate_left
          · simp
          split
          · cases e : acPush nodes n.zChild vis stk with
            | error e' => intro hh; exact acPush_nd (e.trans (by simpa using hh))
            | ok r =>
              obtain ⟨vis1, stk1⟩ := r
              obtain ⟨h1, h2⟩ := acPush_ok h e
              simp only
              cases e1 : acPush nodes n.oChild vis1 stk1 with
              | error e' => intro hh; exact acPush_nd (e1.trans (by simpa using hh))
              | ok r =>
                obtain ⟨vis2, stk2⟩ := r
                obtain ⟨h3, h4⟩ := acPush_ok h1 e1
                exact ih _ _ h3 (by omega)
          · split
            · cases e : acPush nodes n.zChild vis stk with
              | error e' => intro hh; exact acPush_nd (e.trans (by simpa using hh))
              | ok r =>
                obtain ⟨vis1, stk1⟩ := r
                obtain ⟨h1, h2⟩ := acPush_ok h e
                exact ih _ _ h1 (by omega)
            · split
              · cases e : acPush nodes n.oChild vis stk with
                | error e' => intro hh; exact acPush_nd (e.trans (by simpa using hh))
                | ok r =>
                  obtain ⟨vis1, stk1⟩ := r
                  obtain ⟨h1, h2⟩ := acPush_ok h e
                  exact ih _ _ h1 (by omega)
              · exact ih _ _ h (by omega)

/-! ### components -/

/-- Not an endless loop. -/
def ND {α : Type} (r : Except Err α) : Prop := r ≠ .error .diverge

section
variable {s : Ctx}

theorem ND.ok {α : Type} (a : α) : ND (.ok a : Except Err α) := by simp [ND]
theorem ND.msg {α : Type} (m : String) : ND (.error (.msg m) : Except Err α) := by simp [ND]
theorem ND.panic {α : Type} (m : String) : ND (.error (.panic m) : Except Err α) := by simp [ND]

theorem nd_emit (st : List Step) : ND (emit st s).1 := by
  obtain ⟨k, s', e, -⟩ := emitFrom_keeps st {} s
  rw [emit, e]; exact .ok k
theorem nd_emitF (cls : List SClause) (st : List Step) : ND (emitF cls st s).1 := by
  rw [emitF_eq]; exact nd_emit _

theorem nd_lift {α : Type} {r : Except Err α} {f : α → M CNF} (hr : ND r)
    (h : ∀ a, ND (f a s).1) : ND ((M.lift r >>= f) s).1 := by
  cases r with
  | ok a => exact h a
  | error e =>
    have e1 : M.lift (.error e : Except Err α) s = (.error e, s) := rfl
    rw [M_bind_error e1]
    intro h'
    exact hr (by simpa using h')

theorem scopeVar_nd (s : Ctx) (v : QVar) : ND (s.scopeVar v) := by
  unfold Ctx.scopeVar
  repeat' split
  all_goals first | exact .ok _ | exact .msg _ | exact .panic _

theorem nd_scopeVar {v : QVar} {f : QVar → M CNF} (h : ∀ a, ND (f a s).1) : ND ((M.scopeVar v >>= f) s).1 := by
  have : ((M.scopeVar v >>= f) s) = (M.lift (s.scopeVar v) >>= f) s := rfl
  rw [this]
  exact nd_lift (scopeVar_nd s v) h
theorem nd_scopeConst {c : QConst} {f : QConst → M CNF} (h : ND (f (s.scopeConst c).1 s).1) :
    ND ((M.scopeConst c >>= f) s).1 := h
theorem nd_dim {f : Nat → M CNF} (h : ND (f s.dim s).1) : ND ((M.dim >>= f) s).1 := h
theorem nd_nodes {f : List Node → M CNF} (h : ND (f s.nodes s).1) : ND ((M.nodes >>= f) s).1 := h

theorem validate_nd (d : Nat) (cs : List QConst) : ND (ValidateConstsDim d cs) := by
  have : ∀ (cs : List QConst) i, ND (validateConstsDimFrom d i cs) := by
    intro cs
    induction cs with
    | nil => intro i; exact .ok _
    | cons a cs ih =>
      intro i
      simp only [validateConstsDimFrom]
      split
      · exact .msg _
      · exact ih _
  exact this cs 0

theorem nd_validate {cs : List QConst} {f : Unit → M CNF} (h : ND (f () s).1) :
    ND ((validateM cs >>= f) s).1 :=
  nd_lift (s := s) (f := f) (validate_nd s.dim cs) fun _ => h

theorem pref_nd (p : List Int) (d : Nat) : ND (validatePref p d) := by
  have : ∀ (p seen : List Int), ND (validatePrefFrom d seen p) := by
    intro p
    induction p with
    | nil => intro seen; exact .ok _
    | cons a p ih =>
      intro seen
      simp only [validatePrefFrom]
      split
      · exact .msg _
      · split
        · exact .msg _
        · exact ih _
  exact this p []

theorem validateNodes_nd (d n : Nat) (ns : List Node) : ND (validateNodes d n ns) := by
  induction ns with
  | nil => exact .ok _
  | cons a ns ih =>
    simp only [validateNodes]
    split
    · next e he =>
      unfold validateNode at he
      repeat' split at he
      all_goals first
        | (simp only [Except.error.injEq] at he; subst he; exact .msg _)
        | simp at he
    · exact ih

theorem newIter_nd (d : Nat) (nodes : List Node) : ND (newNodeAsValuesIter d nodes) := by
  unfold newNodeAsValuesIter
  split
  · exact .msg _
  · have := validateNodes_nd d nodes.length nodes
    split
    · next e he => rw [he] at this; intro h; simp only [Except.error.injEq] at h; subst h; exact this rfl
    · exact .ok _

theorem leafs_nd (d : Nat) (nodes : List Node) : ND (leafsAsConsts d nodes) := by
  unfold leafsAsConsts
  have := validateNodes_nd d nodes.length nodes
  split
  · next e he => rw [he] at this; intro h; simp only [Except.error.injEq] at h; subst h; exact this rfl
  · next he =>
    split
    · exact .panic _
    · next hne =>
      obtain ⟨ws, a, b, -⟩ := iterates_init (by intro h; rw [h] at hne; simp at hne) (valid_of_validate he)
      rw [leafsLoop_spec a _ _ _ (by omega)]
      exact .ok _

theorem hdCC_nd (c1 c2 : QConst) : ND (hammingDistCC c1 c2) := by
  unfold hammingDistCC; split
  · exact .msg _
  · exact .ok _

theorem hdVC_nd (d : Nat) (v : QVar) (c : QConst) (w : QVar) : ND (hammingDistVC d v c w) := by
  unfold hammingDistVC
  split
  · next e he => have := validate_nd d [c]; intro hm; rw [he] at this; simp only [Except.error.injEq] at hm; exact this (by rw [hm])
  · rcases indexed_cases (0 :: upto d) [c] with hx | hx <;> rw [hx]
    · exact .ok _
    · exact .panic _

theorem indexed_nd (is : List Int) (cs : List QConst) : ND (indexed is cs) := by
  rcases indexed_cases is cs with hx | hx <;> rw [hx]
  · exact .ok _
  · exact .panic _

theorem dfsOuter_nd (sc : QConst) (ns ps : List QConst) : ND (dfsOuter sc ns ps) := by
  have hi : ∀ p ns, ND (dfsInner sc p ns) := by
    intro p ns
    induction ns with
    | nil => exact .ok _
    | cons n ns ih =>
      simp only [dfsInner, leafCompare]
      split
      · next e he =>
        split at he
        · simp only [Except.error.injEq] at he; subst he; exact .msg _
        · rw [indexed_upto (by simp; omega)] at he
          simp [Except.map] at he
      · exact .ok _
      · exact ih
  induction ps with
  | nil => exact .ok _
  | cons p ps ih =>
    simp only [dfsOuter]
    split
    · next e he => have := hi p ns; rw [he] at this; intro hm; simp only [Except.error.injEq] at hm; exact this (by rw [hm])
    · exact .ok _
    · exact ih

theorem dfsClauses_nd (d : Nat) (v : QVar) (ls : List (QConst × QConst)) : ND (dfsClauses d v ls) := by
  induction ls with
  | nil => exact .ok _
  | cons p ls ih =>
    obtain ⟨p, n⟩ := p
    simp only [dfsClauses, notAWitnessClause]
    split
    · next e he =>
      split at he
      · simp only [Except.error.injEq] at he; subst he; exact .msg _
      · rw [indexed_upto (by simp; omega)] at he
        simp [Except.map] at he
    · split
      · next e he => rw [he] at ih; intro hm; simp only [Except.error.injEq] at hm; exact ih (by rw [hm])
      · exact .ok _

theorem nd_ite {p : Prop} [Decidable p] {x y : M CNF} (hx : p → ND (x s).1)
    (hy : ¬ p → ND (y s).1) : ND ((if p then x else y) s).1 := by
  split
  · next h => exact hx h
  · next h => exact hy h

theorem nd_pure (c : CNF) : ND ((pure c : M CNF) s).1 := .ok c
theorem nd_throw (m : String) : ND ((M.throw (.msg m) : M CNF) s).1 := .msg m
theorem nd_panic (m : String) : ND ((M.throw (.panic m) : M CNF) s).1 := .panic m
theorem nd_nilGen : ND ((M.throw errNilGen : M CNF) s).1 := .msg _
theorem nd_empty : ND ((M.throw errEmptyModel : M CNF) s).1 := .msg _
theorem nd_true : ND (retTrue s).1 := .ok _
theorem nd_false : ND (retFalse s).1 := .ok _

end

macro "halts" : tactic => `(tactic| repeat' (first
  | with_reducible refine nd_ite (fun _ => ?_) (fun _ => ?_)
  | with_reducible exact nd_pure _
  | with_reducible exact nd_throw _
  | with_reducible exact nd_panic _
  | with_reducible exact nd_nilGen
  | with_reducible exact nd_empty
  | with_reducible exact nd_true
  | with_reducible exact nd_false
  | with_reducible exact nd_emit _
  | with_reducible exact nd_emitF _ _
  | with_reducible refine nd_scopeVar fun _ => ?_
  | with_reducible refine nd_scopeConst ?_
  | with_reducible refine nd_dim ?_
  | with_reducible refine nd_nodes ?_
  | with_reducible refine nd_validate ?_
  | with_reducible refine nd_lift (pref_nd _ _) fun _ => ?_
  | with_reducible refine nd_lift (indexed_nd _ _) fun _ => ?_
  | with_reducible refine nd_lift (hdCC_nd _ _) fun _ => ?_
  | with_reducible refine nd_lift (hdVC_nd _ _ _ _) fun _ => ?_
  | with_reducible refine nd_lift (dfsOuter_nd _ _ _) fun _ => ?_
  | with_reducible refine nd_lift (dfsClauses_nd _ _ _) fun _ => ?_
  | with_reducible refine nd_lift (leafs_nd _ _) fun _ => ?_))

theorem isnodeConst_nd (i : QConst) {s : Ctx} (h : Acyclic s.nodes) : ND (isnodeConst i s).1 := by
  unfold isnodeConst
  refine nd_scopeConst (nd_validate (nd_dim (nd_nodes ?_)))
  refine nd_ite (fun _ => nd_empty) fun hne => ?_
  refine nd_lift (isnodeLoop_halts h (by omega) (by omega)) fun _ => ?_
  halts

theorem allcompConst_nd (i : QConst) (b : Bool) (s : Ctx) : ND (allcompConst i b s).1 := by
  unfold allcompConst
  refine nd_scopeConst (nd_validate (nd_dim (nd_nodes ?_)))
  refine nd_ite (fun _ => nd_empty) fun hne => ?_
  refine nd_lift (acLoop_halts _ _ _ ⟨by simp, by simp⟩ (by simp; omega)) fun _ => ?_
  halts

theorem Atom.nd (a : Atom) (s : Ctx) (hs : a.walks = true → Acyclic s.nodes) : ND (a.encode s).1 := by
  unfold Atom.encode
  split
  · unfold subsConstConst; halts
  · unfold subsConstVar; halts
  · unfold subsVarConst; halts
  · unfold subsVarVar; halts
  · unfold lelConstConst; halts
  · next g => unfold lelConstVar; cases g <;> simp only <;> halts
  · next g => unfold lelVarConst; cases g <;> simp only <;> halts
  · next g => unfold lelVarVar; cases g <;> simp only <;> halts
  · exact isnodeConst_nd _ (hs rfl)
  · next g => unfold isnodeVar; cases g <;> simp only <;> halts
  · unfold fullConst; halts
  · unfold fullVar; halts
  · unfold consConstConst; try unfold consConstRet
    halts
  · unfold consConstVar; try unfold consConstRet
    halts
  · unfold consVarConst; try unfold consConstRet
    halts
  · unfold consVarVar; try unfold consConstRet
    halts
  · exact allcompConst_nd _ _ _
  · next g => unfold allcompVar; cases g <;> simp only <;> halts
  · unfold dfsConst; halts
  · unfold dfsVar; halts
  · unfold heprConstConst; halts
  · next g => unfold heprConstVar; cases g <;> simp only <;> halts
  · next g => unfold heprVarConst; cases g <;> simp only <;> halts
  · next g => unfold heprVarVar; cases g <;> simp only <;> halts
  · unfold lehConstConstConst; halts
    next c1 c2 c3 _ _ _ =>
    cases hammingDistCC (s.scopeConst c1).1 (s.scopeConst c2).1 <;>
      cases hammingDistCC (s.scopeConst c1).1 (s.scopeConst c3).1 <;> simp only <;> halts
  · next g _ => unfold lehConstConstVar; cases g <;> simp only <;> halts
  · next g _ => unfold lehConstVarConst; cases g <;> simp only <;> halts
  · next g _ => unfold lehConstVarVar; cases g <;> simp only <;> halts
  · next g _ => unfold lehVarConstConst; cases g <;> simp only <;> halts
  · next g e => unfold lehVarConstVar; cases g <;> cases e <;> simp only <;> halts
  · next g e => unfold lehVarVarConst; cases g <;> cases e <;> simp only <;> halts
  · next g e => unfold lehVarVarVar; cases g <;> cases e <;> simp only <;> halts

/-! ### queries -/

theorem nd_wrapErr {pre : String} {x : M CNF} {s : Ctx} (h : ND (x s).1) : ND (M.wrapErr pre x s).1 := by
  intro hm
  unfold M.wrapErr at hm
  split at hm
  · simp at hm
  · next e s' hx =>
    rw [hx] at h
    cases e with
    | msg a => simp [Err.wrap] at hm
    | panic a => simp [Err.wrap] at hm
    | diverge => exact h rfl

theorem nd_bind {x : M CNF} {f : CNF → M CNF} {s : Ctx} (hx : ND (x s).1)
    (hf : ∀ a, ND (f a (x s).2).1) : ND ((x >>= f) s).1 := by
  cases h : x s with
  | mk r s' =>
    rw [h] at hx hf
    cases r with
    | ok a => rw [M_bind_ok h]; exact hf a
    | error e => rw [M_bind_error h]; intro hm; exact hx (by simpa using hm)

theorem nd_forallFold {q : M CNF} (hq : Tame q) (hc : ∀ s, s.nodes = nodes → ND (q s).1)
    (ts : List (List FeatV)) : ∀ (i : Int) (c : CNF) (s : Ctx), s.nodes = nodes → ND (forallFold q ts i c s).1 := by
  induction ts with
  | nil => intro i c s _; exact .ok _
  | cons t ts ih =>
    intro i c s hs
    simp only [forallFold]
    cases h : M.setScope i t s with
    | mk r s1 =>
      have hs1 : s1.nodes = nodes := by
        unfold M.setScope Ctx.setScope at h
        split at h <;> (simp only [Prod.mk.injEq] at h; rw [← h.2]; exact hs)
      have hr : ∀ e, r = .error e → e ≠ .diverge := by
        unfold M.setScope Ctx.setScope at h
        split at h <;> simp only [Prod.mk.injEq] at h <;> rw [← h.1] <;> simp +contextual
      cases r with
      | error e => rw [M_bind_error h]; intro hm; exact hr e rfl (by simpa using hm)
      | ok u =>
        rw [M_bind_ok h]
        exact nd_bind (hc s1 hs1) fun a => ih _ _ _ ((hq.keep s1).nodes.trans hs1)

theorem nd_forallBuild {q : M CNF} (hq : Tame q) (hc : ∀ s, s.nodes = nodes → ND (q s).1) (c : QConst)
    {s : Ctx} (hs : s.nodes = nodes) : ND (forallBuild c q s).1 := by
  have hb : ND (forallBody q (s.addScope c.id)).1 := by
    rcases forallBody_eq q (s.addScope c.id) with ⟨e, h1, h2⟩ | ⟨ws, -, -, h⟩
    · rw [h2]
      have := newIter_nd (s.addScope c.id).dim (s.addScope c.id).nodes
      rw [h1] at this
      intro h
      simp only [Except.error.injEq] at h
      exact this (by rw [h])
    · rw [h]; exact nd_forallFold hq hc _ _ _ _ hs
  unfold forallBuild
  simp only
  split
  · exact hb
  · next perr s' he =>
    have hp : perr ≠ .diverge := by
      unfold Ctx.popScope at he
      split at he <;> simp only [Prod.mk.injEq, reduceCtorEq, false_and, Except.error.injEq] at he
      rw [← he.1]; simp
    intro hj
    unfold joinErr at hj
    split at hj
    · simp only [Except.error.injEq] at hj; exact hp hj
    · simp at hj
    · next h1 _ => rw [h1] at hb; simp only [Except.error.injEq] at hj; exact hb (by rw [hj])

theorem nd_encodeI {x : QVar} {s : Ctx} : ND (encodeI x s).1 := by
  unfold encodeI
  refine nd_scopeVar fun v => ?_
  show ND ((if s.cnfVarExists ⟨v, 0, BOT⟩ = true then pure {} else
    M.dim >>= fun d => reqAllFeats v 0 d >>= fun cls => reqOnePerFeat v 0 d
      (({} : CNF).appendConsistency cls)) s).1
  refine nd_ite (fun _ => nd_pure _) fun _ => nd_dim ?_
  rw [encodeI_new]
  exact nd_emit _

theorem nd_negStep {c : CNF} {s : Ctx} : ND (negStep c s).1 := .ok _

theorem Query.nd_comp (q : Query) (h : q.walks = true → Acyclic nodes) : ∀ x, q.comp = some x →
    ∀ s, s.nodes = nodes → ND (x s).1 := by
  induction q with
  | nil => intro x hx; simp [Query.comp] at hx
  | atom a =>
    intro x hx s hs
    simp only [Query.comp, Option.some.injEq] at hx
    subst hx
    exact a.nd s (by rw [hs]; exact h)
  | and q1 q2 h1 h2 =>
    intro x hx s hs
    simp only [Query.comp, Option.some.injEq] at hx
    subst hx
    refine nd_wrapErr ?_
    cases ha : q1.comp with
    | none => exact .msg _
    | some a =>
    cases hb : q2.comp with
    | none => exact .msg _
    | some b =>
      refine nd_bind (nd_wrapErr (h1 (fun hw => h (by simp [Query.walks, hw])) _ ha s hs)) fun c1 => ?_
      refine nd_bind (nd_wrapErr (h2 (fun hw => h (by simp [Query.walks, hw])) _ hb _ ?_)) fun c2 => .ok _
      rw [wrapErr_snd]
      exact ((q1.comp_tame _ ha).keep s).nodes.trans hs
  | or q1 q2 h1 h2 =>
    intro x hx s hs
    simp only [Query.comp, Option.some.injEq] at hx
    subst hx
    refine nd_wrapErr ?_
    cases ha : q1.comp with
    | none => exact .msg _
    | some a =>
    cases hb : q2.comp with
    | none => exact .msg _
    | some b =>
      show ND (orBuild a b s).1
      rw [orBuild_eq]
      refine nd_bind (nd_wrapErr (h1 (fun hw => h (by simp [Query.walks, hw])) _ ha s hs)) fun c1 => ?_
      refine nd_bind (nd_wrapErr (h2 (fun hw => h (by simp [Query.walks, hw])) _ hb _ ?_)) fun c2 => ?_
      · rw [wrapErr_snd]
        exact ((q1.comp_tame _ ha).keep s).nodes.trans hs
      · exact nd_bind nd_negStep fun _ => nd_bind nd_negStep fun _ => nd_negStep
  | not q h1 =>
    intro x hx s hs
    simp only [Query.comp, Option.some.injEq] at hx
    subst hx
    refine nd_wrapErr ?_
    cases ha : q.comp with
    | none => exact .msg _
    | some a => exact nd_bind (h1 h _ ha s hs) fun _ => nd_negStep
  | withVar v q h1 =>
    intro x hx s hs
    simp only [Query.comp, Option.some.injEq] at hx
    subst hx
    refine nd_wrapErr ?_
    cases ha : q.comp with
    | none => exact .msg _
    | some a =>
      show ND (withVarBuild v a (s.addVar v)).1
      have e1 := (addVar_other s v).1
      refine nd_bind nd_encodeI fun c1 => ?_
      exact nd_bind (h1 h _ ha _ (((encodeI_tame v).keep _).nodes.trans (e1.nodes.trans hs))) fun _ => .ok _
  | forallG c q h1 =>
    intro x hx s hs
    simp only [Query.comp, Option.some.injEq] at hx
    subst hx
    refine nd_wrapErr ?_
    cases ha : q.comp with
    | none => exact .msg _
    | some a => exact nd_forallBuild (q.comp_tame _ ha) (h1 h _ ha) c hs

end Goexpdt

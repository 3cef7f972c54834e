import Verif.Lemmas.CaptureForall
import Verif.Props.Encode
/-
Properties of the logical operators over arbitrary components: C19, C20, C22.

The contract of components is `Captures` of Spec/Contract.lean: from every admissible context the
component returns a CNF; valuations that satisfy its consistency clauses satisfy its semantic clauses
iff the proposition holds of the instances they assign to the variables; and the consistency clauses
exclude no assignment of instances.
-/
namespace Goexpdt.Props
open Goexpdt Spec

variable {W : World} {Γ : List QVar} {stack : List Scope} {q q1 q2 : M CNF} {R R1 R2 : Asg → Prop}

/-! ### a component written by a user -/

/-- A component that is not in the library: "feature `i` of `x` is ONE". -/
def isOne (x : QVar) (i : Nat) : M CNF := do
  let v ← M.scopeVar x
  let n ← M.cnfVar ⟨v, i, ONE⟩
  pure (({} : CNF).appendSemantics [[n]])

/-- It satisfies the contract. -/
theorem isOne_captures {x : QVar} (hx : x ∈ Γ) {i : Nat} (hi : i < W.dim) :
    Captures W Γ stack (isOne x i) (fun σ => σ (W.nm stack x) i = some true) := by
  refine .scopeVar hx ?_
  have : (M.cnfVar ⟨W.nm stack x, i, ONE⟩ >>= fun n => pure (({} : CNF).appendSemantics [[n]])) =
      emit [.sem [[P (W.nm stack x) i ONE]]] := rfl
  rw [this]
  refine .emitC ?_ ?_ ?_
  · simp only [allOf, List.append_nil, usedOk_cons, List.mem_singleton, forall_eq]
    exact ⟨.inst (instNames_of hx) hi one_mem, usedOk_nil⟩
  · intro σ ν hr _
    have := hr x hx i hi ONE one_mem
    simp only [semOf, List.append_nil, ssTrue, List.mem_singleton, forall_eq, scTrue, exists_eq_left, slTrue, P]
    rw [this]
    cases σ (W.nm stack x) i with
    | none => simp [valOf, BOT, ONE]
    | some b => cases b <;> simp [valOf, ZERO, ONE]
  · intro σ _ _; intro c hc; simp [conOf] at hc

/-! ### C19 -/

/-- C19, `And`. -/
theorem C19_and (h1 : Captures W Γ stack q1 R1) (h2 : Captures W Γ stack q2 R2) :
    Captures W Γ stack (encAnd (some q1) (some q2)) (fun σ => R1 σ ∧ R2 σ) := h1.encAnd h2

/-- C19, `Or`. -/
theorem C19_or (h1 : Captures W Γ stack q1 R1) (h2 : Captures W Γ stack q2 R2) :
    Captures W Γ stack (encOr (some q1) (some q2)) (fun σ => R1 σ ∨ R2 σ) := h1.encOr h2

/-- C19, `Not`. -/
theorem C19_not (h : Captures W Γ stack q R) :
    Captures W Γ stack (encNot (some q)) (fun σ => ¬ R σ) := h.encNot

/-- Concrete case: the operators over the user's component, nested; it says that exactly one of the
features 0 and 1 is ONE. -/
theorem exXor_captures {x : QVar} (hx : x ∈ Γ) (hd : 1 < W.dim) :
    Captures W Γ stack (encAnd (some (encOr (some (isOne x 0)) (some (isOne x 1))))
      (some (encNot (some (encAnd (some (isOne x 0)) (some (isOne x 1)))))))
      (fun σ => (σ (W.nm stack x) 0 = some true ∨ σ (W.nm stack x) 1 = some true) ∧
        ¬ (σ (W.nm stack x) 0 = some true ∧ σ (W.nm stack x) 1 = some true)) :=
  have h0 := isOne_captures (stack := stack) hx (i := 0) (by omega)
  have h1 := isOne_captures (stack := stack) hx hd
  C19_and (C19_or h0 h1) (C19_not (C19_and h0 h1))

/-! ### C20 -/

/-- C20: let `v` be the name of `x` and suppose it has not been declared. Whatever the child is (as
long as it only adds numbers to the context), every valuation satisfying the consistency clauses of
`WithVar x q` makes exactly one of the three variables of each feature of `v` true. -/
theorem C20_exactly_one (x v : QVar) (d : Nat) (nodes : List Node) (s : Ctx) (hs : ReachableNR d nodes s)
    (hv : (s.addVar x).scopeVar x = .ok v) (hn : s.cnfVarExists ⟨v, 0, BOT⟩ = false)
    (q : M CNF) (hq : ∀ s, VMok s → Ext s (q s).2) (c : CNF) (s' : Ctx)
    (h : encWithVar x (some q) s = (.ok c, s')) (β : Val) (hβ : ConTrue β c) (i : Nat) (hi : i < d) :
    ∃ val ∈ [ZERO, ONE, BOT], ∀ val' ∈ [ZERO, ONE, BOT],
      β (s'.cnfVar ⟨v, i, val'⟩).1.natAbs = decide (val' = val) := by
  obtain ⟨h1, h2, h3, -⟩ := reachableNR_scope hs
  have hvm := reachable_vm hs.reachable
  have a1 := addVar_other s x
  have hvm' : VMok (s.addVar x) := hvm.of_vm_eq a1.2.1 a1.2.2
  have hn' : (s.addVar x).cnfVarExists ⟨v, 0, BOT⟩ = false := by
    unfold Ctx.cnfVarExists; rw [a1.2.2]; exact hn
  obtain ⟨c1, s1, he, hal, -, hcon⟩ := encodeI_clauses hvm' hv hn'
  rw [a1.1.dim, h3] at hal hcon
  have b1 : M.addVar x s = (.ok (), s.addVar x) := rfl
  have key : encWithVar x (some q) s = M.wrapErr "WithVar" (M.addVar x >>= fun _ => withVarBuild x q) s := rfl
  rw [key, M.wrapErr, M_bind_ok b1, withVarBuild, M_bind_ok he] at h
  cases hr : q s1 with
  | mk r s2 =>
    cases r with
    | error e => rw [M_bind_error hr] at h; simp at h
    | ok c2 =>
      rw [M_bind_ok hr] at h
      simp only [M_pure, Prod.mk.injEq, Except.ok.injEq] at h
      obtain ⟨rfl, rfl⟩ := h
      have hc1 := (conTrue_conjunction.1 hβ).1
      obtain ⟨e, hrd⟩ := reads_of_inst ((hcon β).1 hc1)
      have hext := hq s1 hal.ok
      rw [hr] at hext
      have hval : ∀ val ∈ featVals, β (s2.cnfVar ⟨v, i, val⟩).1.natAbs = decide (valOf (e i) = val) := by
        intro val hmem
        have hnamed : Named s1 ⟨v, i, val⟩ := by
          rw [hal.named]
          exact .inr (instSteps_used.2 ⟨rfl, ⟨i, hi, rfl⟩, hmem⟩)
        rw [symVal_eq (s := s2) (hext.named hnamed) β, symVal_ext hext hnamed]
        exact hrd i hi val hmem
      refine ⟨valOf (e i), ?_, fun val' hv' => ?_⟩
      · have := valOf_mem (e i)
        simp only [featVals, List.mem_cons, List.not_mem_nil, or_false] at this ⊢
        rcases this with h | h | h <;> simp [h]
      · rw [hval val' (by simp only [featVals, List.mem_cons, List.not_mem_nil, or_false] at hv' ⊢; rcases hv' with h | h | h <;> simp [h])]
        simp [eq_comm]

/-- C20, the other direction: every partial instance is represented by a valuation satisfying the
clauses that `WithVar x` adds (those of the child are dealt with by its contract, see C39). -/
theorem C20_every_instance (x v : QVar) (d : Nat) (nodes : List Node) (s : Ctx) (hs : ReachableNR d nodes s)
    (hv : s.scopeVar x = .ok v) (hn : s.cnfVarExists ⟨v, 0, BOT⟩ = false) :
    ∃ c s', encodeI x s = (.ok c, s') ∧ c.sClauses = [] ∧ ∀ e : PInst, ∃ β, ConTrue β c ∧
      ∀ i < d, ∀ val ∈ [ZERO, ONE, BOT], β (s'.cnfVar ⟨v, (i : Nat), val⟩).1.natAbs = decide (valOf (e i) = val) := by
  obtain ⟨-, -, h3, -⟩ := reachableNR_scope hs
  obtain ⟨c, s1, he, hal, hsem, hcon⟩ := encodeI_clauses (reachable_vm hs.reachable) hv hn
  rw [h3] at hal hcon
  refine ⟨c, s1, he, hsem, fun e => ?_⟩
  obtain ⟨β, hβ⟩ := exists_reading hal.ok e v
  have hnamed : ∀ i < d, ∀ val ∈ featVals, Named s1 ⟨v, (i : Nat), val⟩ := fun i hi val hm =>
    (hal.named _).2 (.inr (instSteps_used.2 ⟨rfl, ⟨i, hi, rfl⟩, hm⟩))
  refine ⟨β, (hcon β).2 (inst_of_reads fun i hi val hm => hβ i val (hnamed i hi val hm)), fun i hi val hm => ?_⟩
  have hm' : val ∈ featVals := by
    simp only [featVals, List.mem_cons, List.not_mem_nil, or_false] at hm ⊢
    rcases hm with h | h | h <;> simp [h]
  rw [symVal_eq (hnamed i hi val hm') β, hβ i val (hnamed i hi val hm')]

/-- Concrete case: `x` declared inside a loop over a model with two features, over a child of the
library; the name is `x` with the position of the loop, and the valuation that makes variables 1 and 6
true (feature 0 is ZERO, feature 1 is BOT) satisfies the clauses. -/
example : let s := run [.addScope ['c'], .setScope 3 [BOT, ONE]] (BasicQContext 2 exNodes)
    let v := ['x', sep, 'c', sep, '3']
    ReachableNR 2 exNodes s ∧ (s.addVar ['x']).scopeVar ['x'] = .ok v ∧ s.cnfVarExists ⟨v, 0, BOT⟩ = false ∧
    (match encWithVar ['x'] (some (subsConstVar { id := ['c'] } ['x'])) s with
      | (.ok c, _) => decide (ConTrue (fun k => k == 1 || k == 6) c) && !decide (ConTrue (fun _ => false) c)
      | _ => false) = true := by
  refine ⟨?_, by decide, by decide, by decide⟩
  exact .call (.setScope 3 [BOT, ONE]) (by simp) (.call (.addScope ['c']) (by simp) .new)

/-! ### C22 -/

/-- C22: if wherever the guarded constant has the value of a node (in the scope of the iteration of
this node) the child captures a proposition, then `ForAllGuarded` captures the conjunction of these
propositions over all nodes of the tree. The scopes of the iterations are different, so that a
variable declared by the child has one copy per node. -/
theorem C22_forall {T : DTree} {k : QConst} {R : Scope → Asg → Prop} (hT : IsTree W.dim W.nodes T)
    (hC : Covers W.nodes T) (h : ∀ g ∈ scopesOf W.dim T k.id, Captures W Γ (stack ++ [g]) q (R g)) :
    Captures W Γ stack (encForall k (some q)) (fun σ => ∀ g ∈ scopesOf W.dim T k.id, R g σ) :=
  .encForallTree hT hC h

/-- C22: the scopes are those of the nodes in pre-order: as many as there are nodes, the `i`-th one
with index `i`, the name of the guarded constant, and the value of the `i`-th node. -/
theorem C22_scopes (d : Nat) (T : DTree) (id : List Char) :
    (scopesOf d T id).length = T.indexes.length ∧
    ∀ (i : Nat) (g : Scope), (scopesOf d T id)[i]? = some g → g.target = id ∧ g.vIdx = i ∧ ∃ u e,
      (T.nodeInsts bot)[i]? = some (u, e) ∧ Same d (den g.value) e ∧ g.value.length = d := by
  have hlen : ∀ (T : DTree) e, (T.nodeInsts e).length = T.indexes.length := by
    intro T
    induction T with
    | leaf => intro e; rfl
    | node i f z o hz ho => intro e; simp [DTree.nodeInsts, DTree.indexes, hz, ho]
  refine ⟨by simp [scopesOf, hlen], ?_⟩
  intro i g hg
  simp only [scopesOf, List.getElem?_map, List.getElem?_zipIdx, Option.map_map, Option.map_eq_some_iff] at hg
  obtain ⟨⟨u, e⟩, h1, rfl⟩ := hg
  refine ⟨rfl, by simp [scopeAt], u, e, h1, den_valsOf d e, by simp [scopeAt, valsOf]⟩

/-- Concrete case, with the user's component: feature 0 of a variable of the enclosing query is ONE in
each of five iterations. -/
example {x : QVar} (hx : x ∈ Γ) (hd : W.dim = 2) (hn : W.nodes = exNodes) :
    Captures W Γ stack (encForall { id := ['c'] } (some (isOne x 0)))
      (fun σ => ∀ g ∈ scopesOf W.dim exTree ['c'], σ (W.nm (stack ++ [g]) x) 0 = some true) ∧
    (scopesOf 2 exTree ['c']).map (·.value) =
      [[BOT, BOT], [BOT, ZERO], [ZERO, ZERO], [ONE, ZERO], [BOT, ONE]] := by
  refine ⟨C22_forall (by rw [hd, hn]; exact exNodes_isTree) ?_ fun g _ => isOne_captures hx (by omega), by decide⟩
  rw [hn]
  unfold Covers
  decide

end Goexpdt.Props

import Verif.Lemmas.SizeAtoms
import Verif.Lemmas.Redeclare
import Verif.Lemmas.FactsModel
/- Nested quantifiers multiply the size of an encoding. -/
namespace Goexpdt
open Spec

theorem reachable_model {d : Nat} {nodes : List Node} {s : Ctx} (h : Reachable d nodes s) :
    s.dim = d ∧ s.nodes = nodes := by
  induction h with
  | new => exact ⟨rfl, rfl⟩
  | @call s op _ ih =>
    rw [← ih.1, ← ih.2]
    cases op with
    | cnfVar vr => exact ⟨(cnfVar_keeps s vr).dim, (cnfVar_keeps s vr).nodes⟩
    | updateTopV v => exact ⟨(updateTopV_tame s v).1.dim, (updateTopV_tame s v).1.nodes⟩
    | addVar v => exact ⟨(addVar_other s v).1.dim, (addVar_other s v).1.nodes⟩
    | addScope t => exact ⟨rfl, rfl⟩
    | popScope => simp only [Op.exec, Ctx.popScope]; split <;> exact ⟨rfl, rfl⟩
    | setScope i v => simp only [Op.exec, Ctx.setScope]; split <;> exact ⟨rfl, rfl⟩
    | reset => exact ⟨rfl, rfl⟩
  | @encode s q _ ih =>
    have h2 := q.tame.keep s
    exact ⟨h2.dim.trans ih.1, h2.nodes.trans ih.2⟩

theorem weight_conjunction (a b : CNF) : (a.conjunction b).weight = a.weight + b.weight := by
  simp only [CNF.weight, CNF.conjunction, CNF.appendSemantics, CNF.appendConsistency, weight_append]
  omega

/-- No quantifier in scope replaces the unnamed constants. -/
def NoAnon (s : Ctx) : Prop := ∀ g ∈ s.scopes, g.target ≠ []

theorem scopeConst_anon {s : Ctx} (h : NoAnon s) (v : List FeatV) : (s.scopeConst { val := v }).1 = { val := v } := by
  have : ∀ gs : List Scope, (∀ g ∈ gs, g.target ≠ []) → (Ctx.scopeConstLoop { val := v } gs).1 = { val := v } := by
    intro gs
    induction gs with
    | nil => intro _; rfl
    | cons g gs ih =>
      intro h
      simp only [Ctx.scopeConstLoop]
      rw [if_neg (h g (by simp))]
      exact ih fun g' hg' => h g' (by simp [hg'])
  exact this s.scopes h

theorem fullAtom_false {d : Nat} (hd : 0 < d) {s : Ctx} (h : NoAnon s) (hs : s.dim = d) :
    fullConst { val := List.replicate d BOT } s = (.ok FalseCNF, s) := by
  unfold fullConst
  have e1 : M.scopeConst { val := List.replicate d BOT } s = (.ok { val := List.replicate d BOT }, s) := by
    simp only [M.scopeConst, scopeConst_anon h]
  rw [M_bind_ok e1]
  have e2 : validateM [{ val := List.replicate d BOT }] s = (.ok (), s) := by
    show (ValidateConstsDim s.dim _, s) = _
    rw [hs]
    simp [ValidateConstsDim, validateConstsDimFrom]
  rw [M_bind_ok e2]
  obtain ⟨k, rfl⟩ : ∃ k, d = k + 1 := ⟨d - 1, by omega⟩
  simp only [List.replicate_succ, fullC, if_true]
  rfl

theorem forallFold_weight {d : Nat} {nodes : List Node} {q : M CNF} (t : Tame q) {W : Nat}
    (hq : ∀ s, NoAnon s → s.dim = d → s.nodes = nodes → ∃ c s', q s = (.ok c, s') ∧ c.weight = W)
    (ts : List (List FeatV)) :
    ∀ (i : Int) (ncnf : CNF) (s : Ctx), NoAnon s → s.dim = d → s.nodes = nodes → s.scopes ≠ [] →
      ∃ c s', forallFold q ts i ncnf s = (.ok c, s') ∧ c.weight = ncnf.weight + ts.length * W := by
  induction ts with
  | nil => intro i ncnf s _ _ _ _; exact ⟨ncnf, s, rfl, by simp⟩
  | cons v ts ih =>
    intro i ncnf s ha hd hn hne
    obtain ⟨base, g, hg⟩ : ∃ base g, s.scopes = base ++ [g] :=
      ⟨s.scopes.dropLast, s.scopes.getLast hne, (List.dropLast_concat_getLast hne).symm⟩
    simp only [forallFold]
    rw [M_bind_ok (setScope_append hg i v)]
    generalize hs1 : ({ s with scopes := base ++ [{ g with vIdx := i, value := v }] } : Ctx) = s1
    have ha1 : NoAnon s1 := by
      intro g' hg'
      rw [← hs1] at hg'
      simp only [List.mem_append, List.mem_singleton] at hg'
      rcases hg' with h | h
      · exact ha g' (by rw [hg]; simp [h])
      · rw [h]; exact ha g (by rw [hg]; simp)
    have hd1 : s1.dim = d := by rw [← hs1]; exact hd
    have hn1 : s1.nodes = nodes := by rw [← hs1]; exact hn
    have hsc : s1.scopes ≠ [] := by rw [← hs1]; simp
    obtain ⟨c1, s2, e, w⟩ := hq s1 ha1 hd1 hn1
    have k := t.keep s1
    rw [e] at k
    rw [M_bind_ok e]
    obtain ⟨c, s', e', w'⟩ := ih (i + 1) (ncnf.conjunction c1) s2 (by intro g' hg'; rw [k.scopes] at hg'; exact ha1 g' hg')
      (k.dim.trans hd1) (k.nodes.trans hn1) (by rw [k.scopes]; exact hsc)
    refine ⟨c, s', e', ?_⟩
    rw [w', weight_conjunction, w, List.length_cons, Nat.add_mul]
    omega

theorem nodeInsts_indexes (T : DTree) : ∀ e, (T.nodeInsts e).map Prod.fst = T.indexes := by
  induction T with
  | leaf i v => intro e; rfl
  | node i f z o hz ho => intro e; simp [DTree.nodeInsts, DTree.indexes, hz, ho]

theorem tree_visits {d : Nat} {nodes : List Node} {T : DTree} (hT : IsTree d nodes T) (hC : Covers nodes T)
    {ws : List WalkSt} (h : Iterates nodes (WalkSt.init d nodes.length) ws) : ws.length = nodes.length := by
  have e : ws.map (·.cp) = T.indexes := by
    have := congrArg (List.map Prod.fst) (tree_iterates hT h)
    rw [List.map_map] at this
    have p : ∀ (T : DTree) t, (preVals t T).map Prod.fst = T.indexes := by
      intro T
      induction T with
      | leaf i v => intro t; rfl
      | node i f z o hz ho => intro t; simp [preVals, DTree.indexes, hz, ho]
    rw [p] at this
    exact this
  have l := congrArg List.length e
  rw [List.length_map] at l
  have a := indexes_length_le hT.laid hT.nodup
  have b : nodes.length ≤ T.indexes.length := by
    have := List.nodup_range (n := nodes.length)
    have := this.length_le_of_subset (l₂ := T.indexes) fun i hi => hC i (List.mem_range.1 hi)
    simpa using this
  omega

theorem nested_weight {d : Nat} {nodes : List Node} {T : DTree} (hT : IsTree d nodes T) (hC : Covers nodes T)
    (hd : 0 < d) (r : Nat) : ∀ x, (nested { id := ['c'] } (.full (.const { val := List.replicate d BOT })) r).comp = some x →
    ∀ s, NoAnon s → s.dim = d → s.nodes = nodes → ∃ c s', x s = (.ok c, s') ∧ c.weight = nodes.length ^ r := by
  induction r with
  | zero =>
    intro x hx s ha hs hn
    simp only [nested, Query.comp, Option.some.injEq] at hx
    subst hx
    exact ⟨FalseCNF, s, fullAtom_false hd ha hs, rfl⟩
  | succ r ih =>
    intro x hx s ha hs hn
    simp only [nested, Query.comp, Option.some.injEq] at hx
    subst hx
    cases hq : (nested { id := ['c'] } (.full (.const { val := List.replicate d BOT })) r).comp with
    | none => cases r <;> simp [nested, Query.comp] at hq
    | some q =>
      have t := Query.comp_tame _ q hq
      have ih := ih q hq
      simp only [encForall]
      have key : ∃ c s', forallBuild { id := ['c'] } q s = (.ok c, s') ∧ c.weight = nodes.length ^ (r + 1) := by
        rcases forallBody_eq q (s.addScope ['c']) with ⟨e, he, -⟩ | ⟨ws, hi, he, h1⟩
        · exfalso
          have hne : nodes.length ≠ 0 := by
            have := hC 0
            have := indexes_length_le hT.laid hT.nodup
            rw [indexes_eq, List.length_cons] at this
            omega
          have e1 : (s.addScope ['c']).dim = d := hs
          have e2 : (s.addScope ['c']).nodes = nodes := hn
          rw [e1, e2] at he
          unfold newNodeAsValuesIter at he
          rw [if_neg hne, validate_of_valid (tree_valid hT hC)] at he
          simp at he
        · have e1 : (s.addScope ['c']).dim = d := hs
          have e2 : (s.addScope ['c']).nodes = nodes := hn
          rw [e1, e2] at hi
          have ha' : NoAnon (s.addScope ['c']) := by
            intro g hg
            simp only [Ctx.addScope, List.mem_append, List.mem_singleton] at hg
            rcases hg with h | h
            · exact ha g h
            · rw [h]; simp
          obtain ⟨c, s', e, w⟩ := forallFold_weight t ih (ws.map (·.t)) 0 {} (s.addScope ['c']) ha' e1 e2 (by simp [Ctx.addScope])
          have l := (forallFold_tame (V := False) t s.scopes (ws.map (·.t)) 0 {} (s.addScope ['c']) ⟨_, rfl⟩
            False.elim False.elim).scopes
          rw [e] at h1 l
          refine ⟨c, s'.popScope.2, ?_, ?_⟩
          · obtain ⟨g, hg⟩ := l
            exact forallBuild_of (c := { id := ['c'] }) (r := (.ok c, s')) h1 (by rw [hg]; simp)
          · rw [w, List.length_map, tree_visits hT hC hi, Nat.pow_succ, Nat.mul_comm]
            simp [CNF.weight, weight_nil]
      obtain ⟨c, s', e, w⟩ := key
      exact ⟨c, s', wrapErr_ok e, w⟩

end Goexpdt

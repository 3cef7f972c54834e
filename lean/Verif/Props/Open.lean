import Verif.Lemmas.Open
import Verif.Props.Meaning
/-
Property C80: queries that are encoded where scopes are open.
-/
namespace Goexpdt.Props
open Goexpdt Spec

section
variable {d : Nat} {nodes : List Node} {T : DTree} {depth : QVar → Nat} {stack : List Scope} {q : Query}

/-- C80: a program may open any scopes by hand before it encodes a closed query. The query is encoded without error and faithfully:
constants with the name of a scope have its value, variables are named with the scopes. If the program then closes the scopes, the context can
be used for further queries, and names that the query does not use are not declared. -/
theorem C80_scopes (hg : q.GoodIn d nodes T depth stack) {others : List QVar} (ho : ∀ u ∈ q.uses d T depth stack, u.1 ∉ others)
    {s : Ctx} (hs : Ready d nodes (q.names d T stack ++ others) s) :
    ∃ c s', q.encode (openScopes s stack) = (.ok c, s') ∧ WF c ∧
      Faithful d (q.names d T stack) (fun σ => q.sem d T depth σ stack) s' c ∧
      Ready d nodes (others.filter (· ∉ q.names d T stack)) (closeScopes s' stack.length) ∧
      (closeScopes s' stack.length).vmap = s'.vmap ∧ (closeScopes s' stack.length).topv = s'.topv := by
  have hs' : ReadyIn d nodes stack (q.names d T stack ++ others) (openScopes s stack) := by
    rw [openScopes_eq]
    refine ⟨⟨hs.vm.1, hs.vm.2, hs.vm.3⟩, hs.dim, hs.nodes, by simp [hs.scopes], hs.vars, ?_⟩
    rintro n hn ⟨k, h⟩
    exact hs.fresh n hn ⟨k, h⟩
  obtain ⟨c, s', e, hw, ⟨hv, hd, hn, hsc⟩, hvars, hoth, hF⟩ := open_query hg ho hs'
  have hc := closeScopes_eq stack.length s' (by rw [hsc]) (fun p hp => (hvars p hp).1) fun h0 => by
    cases hl : s'.vars with
    | nil => rfl
    | cons p l =>
      have := (hvars p (by simp [hl])).2
      omega
  refine ⟨c, s', e, hw, hF, ?_, by rw [hc], by rw [hc]⟩
  rw [hc]
  refine ⟨⟨hv.1, hv.2, hv.3⟩, hd, hn, rfl, rfl, ?_⟩
  rintro n hn ⟨k, h⟩
  simp only [List.mem_filter, decide_eq_true_eq] at hn
  exact hoth n hn.1 hn.2 ⟨k, h⟩

/-- C80: in first-order semantics, with the values of the scopes for the constants. -/
theorem C80_first_order (hg : q.GoodIn d nodes T depth stack) (hp : q.PlainIn stack) :
    ∃ c s', q.encode (openScopes (BasicQContext d nodes) stack) = (.ok c, s') ∧
      (Satisfiable c ↔ q.fo d T (fun _ => bot) (guardVals stack)) := by
  obtain ⟨c, s', e, -, hF, -⟩ := C80_scopes hg (others := []) (by simp) (Ready.fresh_ctx d nodes _)
  exact ⟨c, s', e, hF.sat.trans (exists_sem_iff_fo_in hg.fits hp)⟩

end

/-- `c` has at least the undefined features of some node that subsumes `k`, for constants `c` and `k` of scopes opened by hand. -/
def scopedQuery : Query :=
  .withVar ['x'] (.and (.and (.atom (.isnode (.var ['x']) (some VarGenNodeReach))) (.atom (.subs (.var ['x']) (.const { id := ['k'] }))))
    (.atom (.lel (.const { id := ['c'] }) (.var ['x']) (some VarGenBotCount))))

/-- The two scopes. -/
def twoScopes : List Scope := [{ target := ['c'], vIdx := 7, value := [BOT, ONE] }, { target := ['k'], vIdx := 0, value := [ONE, ZERO] }]

theorem scopedQuery_good : scopedQuery.GoodIn 2 exNodes exTree (fun _ => 2) twoScopes := by
  refine ⟨by omega, ⟨rfl, ⟨⟨?_, ?_⟩, ?_⟩⟩, .of_eq (by decide +kernel)⟩
  · exact ⟨by simp [Atom.vars, Term.vars], by simp [Spec.Atom.consts, Spec.Term.consts], rfl, trivial, trivial, trivial,
      fun _ => ⟨exNodes_isTree, exNodes_covers⟩⟩
  · refine ⟨by simp [Atom.vars, Term.vars], ?_, rfl, trivial, trivial, trivial, by simp [Atom.onModel]⟩
    simp [Spec.Atom.consts, Spec.Term.consts, resolve, twoScopes, ValidVals, ZERO, ONE, BOT]
  · refine ⟨by simp [Atom.vars, Term.vars], ?_, rfl, trivial, trivial, trivial, by simp [Atom.onModel]⟩
    simp [Spec.Atom.consts, Spec.Term.consts, resolve, twoScopes, ValidVals, ZERO, ONE, BOT]

theorem scopedQuery_plain : scopedQuery.PlainIn twoScopes :=
  ⟨by simp [scopedQuery, Query.Positive], by decide, by decide, by simp [scopedQuery, Query.GuardsApart], by decide⟩

/-- What the query says, and that it is true. -/
example : ∃ c s', scopedQuery.encode (openScopes (BasicQContext 2 exNodes) twoScopes) = (.ok c, s') ∧
    (Satisfiable c ↔ ∃ x, (IsNode 2 exTree x ∧ Subsumes 2 x (den [ONE, ZERO])) ∧ LEL 2 (den [BOT, ONE]) x) ∧ Satisfiable c := by
  obtain ⟨c, s', e, h⟩ := C80_first_order scopedQuery_good scopedQuery_plain
  refine ⟨c, s', e, h, h.2 ⟨(exTree.nodeInsts bot)[1].2, ⟨⟨⟨_, List.getElem_mem (by decide), fun _ _ => rfl⟩, ?_⟩, ?_⟩⟩⟩
  · show Subsumes 2 _ _
    unfold Subsumes
    decide
  · show LEL 2 _ _
    unfold LEL
    decide

/-- What the program leaves behind before and after it closes the scopes. -/
example : (scopedQuery.encode (openScopes (BasicQContext 2 exNodes) twoScopes)).2.scopes = twoScopes ∧
    (scopedQuery.encode (openScopes (BasicQContext 2 exNodes) twoScopes)).2.vars = [(['x'], 2)] ∧
    (closeScopes (scopedQuery.encode (openScopes (BasicQContext 2 exNodes) twoScopes)).2 2).vars = [] ∧
    scopedQuery.names 2 exTree twoScopes = [['x', sep, 'c', sep, '7', sep, 'k', sep, '0']] := by
  decide +kernel

end Goexpdt.Props

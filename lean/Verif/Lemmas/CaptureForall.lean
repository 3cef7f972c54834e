import Verif.Lemmas.CaptureQuery
/- `ForAllGuarded` over an arbitrary component, and the clauses of `WithVar`. -/
namespace Goexpdt
open Spec Props

variable {W : World} {T : DTree} {Γ : List QVar} {stack : List Scope}

theorem Captures.encForallTree {k : QConst} {q : M CNF} {R : Scope → Asg → Prop}
    (hT : IsTree W.dim W.nodes T) (hC : Covers W.nodes T)
    (h : ∀ g ∈ scopesOf W.dim T k.id, Captures W Γ (stack ++ [g]) q (R g)) :
    Captures W Γ stack (Goexpdt.encForall k (some q)) (fun σ => ∀ g ∈ scopesOf W.dim T k.id, R g σ) := by
  have hok := C18_accepted _ _ _ hT.raw hC
  obtain ⟨ws, hws, -⟩ := C17_terminates _ _ _ hok
  obtain ⟨hv, hg⟩ := C18_values _ _ _ hT ws hws
  have hscope : ∀ i w, ws[i]? = some w → (⟨k.id, w.t, (i : Nat)⟩ : Scope) ∈ scopesOf W.dim T k.id := by
    intro i w hw
    have h1 : (T.nodeInsts bot)[i]? = some (w.cp, den w.t) := by rw [← hv, List.getElem?_map, hw]; rfl
    refine mem_scopesOf.2 ⟨i, _, h1, ?_⟩
    unfold scopeAt
    rw [valsOf_den (hg w (List.mem_of_getElem? hw))]
  refine (Captures.encForall (Ps := fun i σ => ∀ w, ws[i]? = some w → R ⟨k.id, w.t, (i : Nat)⟩ σ) hok hws ?_).congr ?_
  · intro i w hw
    refine (h _ (hscope i w hw)).congr fun σ => ⟨fun hR w' hw' => ?_, fun hR => hR w hw⟩
    rw [hw] at hw'
    cases hw'
    exact hR
  · intro σ
    constructor
    · intro hR g hg'
      obtain ⟨i, p, hp, rfl⟩ := mem_scopesOf.1 hg'
      have hlen : i < ws.length := by
        have h1 := (List.getElem?_eq_some_iff.1 hp).1
        rw [← hv] at h1
        simpa using h1
      have hw : ws[i]? = some ws[i] := List.getElem?_eq_getElem hlen
      have h1 : (T.nodeInsts bot)[i]? = some (ws[i].cp, den ws[i].t) := by rw [← hv, List.getElem?_map, hw]; rfl
      rw [hp] at h1
      cases h1
      have := hR i hlen ws[i] hw
      unfold scopeAt
      rw [valsOf_den (hg _ (List.getElem_mem hlen))]
      exact this
    · intro hR i _ w hw
      exact hR _ (hscope i w hw)

/-- The clauses `WithVar` adds for a name that has not been declared. -/
theorem encodeI_clauses {x v : QVar} {s : Ctx} (hvm : VMok s) (hv : s.scopeVar x = .ok v)
    (hn : s.cnfVarExists ⟨v, 0, BOT⟩ = false) :
    ∃ c s1, encodeI x s = (.ok c, s1) ∧ Alloc (usedIn (allOf (instSteps s.dim v))) s s1 ∧ c.sClauses = [] ∧
      ∀ β, ConTrue β c ↔ ssTrue (symVal s1 β) (conOf (instSteps s.dim v)) := by
  obtain ⟨c, s1, e, h⟩ := emit_spec (instSteps s.dim v) s hvm
  refine ⟨c, s1, (encodeI_fresh hv hn).trans e, h.alloc, ?_, fun β => ?_⟩
  · rw [h.sem, instSteps_sem]; rfl
  · unfold ConTrue
    rw [h.con]
    exact (by simp : clausesTrue β (({} : CNF).cClauses ++ _) ↔ _).trans
      (clausesTrue_imgS h.alloc.ok fun vr hvr => (h.alloc.named vr).2 (.inr (usedIn_conOf hvr)))

theorem symVal_eq {s : Ctx} {vr : VarRep} (h : Named s vr) (β : Val) :
    β (s.cnfVar vr).1.natAbs = symVal s β vr := by
  obtain ⟨k, hk⟩ := h
  rw [cnfVar_of_some hk]
  simp [symVal, num, hk]

/-- A valuation giving every triple the truth value it has for an assignment. -/
theorem exists_reading {s : Ctx} (hv : VMok s) (e : PInst) (v : QVar) :
    ∃ β, ∀ i : Nat, ∀ k : Int, Named s ⟨v, (i : Nat), k⟩ → symVal s β ⟨v, (i : Nat), k⟩ = decide (valOf (e i) = k) := by
  obtain ⟨β, hβ⟩ := exists_canon ⟨1, [], fun _ => True, fun _ => True, fun n σ i k => decide (valOf (σ n i.toNat) = k), fun _ => 0,
    fun _ => True, by omega, fun n _ σ i k _ => by simp⟩ hv (σ := fun _ => e) trivial
  exact ⟨β, fun i k hn => by rw [hβ.2 _ hn]; simp⟩

end Goexpdt

import Verif.Lemmas.Drawn
/- The predicates with auxiliary variables that do not look at the nodes: what they say about their triples. -/
namespace Goexpdt
open Spec

/-- The command says `Q` about the instances of `xs`, whatever nodes are marked. -/
def Aside (d : Nat) (nodes : List Node) (xs : List QVar) (role : QVar → Option Role) (act : M CNF) (Q : Asg → Prop) : Prop :=
  Marked d nodes xs role act (fun _ _ => True) (fun σ _ => Q σ)

variable {d : Nat} {nodes : List Node} {xs : List QVar} {role : QVar → Option Role} {Q : Asg → Prop}

namespace Aside

theorem dim {f : Nat → M CNF} (h : Aside d nodes xs role (f d) Q) : Aside d nodes xs role (M.dim >>= f) Q := by
  obtain ⟨K, F, a, b⟩ := h
  exact ⟨K, F, .dim a, b⟩

theorem lift {α : Type} {r : Except Err α} {a : α} (hr : r = .ok a) {f : α → M CNF} (h : Aside d nodes xs role (f a) Q) :
    Aside d nodes xs role (M.lift r >>= f) Q := by
  obtain ⟨K, F, a, b⟩ := h
  exact ⟨K, F, .lift hr a, b⟩

theorem scopeVar {x : QVar} {f : QVar → M CNF} (h : Aside d nodes xs role (f x) Q) : Aside d nodes xs role (M.scopeVar x >>= f) Q := by
  obtain ⟨K, F, a, b⟩ := h
  exact ⟨K, F, .scopeVar a, b⟩

theorem scopeConst (c : QConst) {f : QConst → M CNF} (h : Aside d nodes xs role (f c) Q) : Aside d nodes xs role (M.scopeConst c >>= f) Q := by
  obtain ⟨K, F, a, b⟩ := h
  exact ⟨K, F, .scopeConst c a, b⟩

theorem validate {cs : List QConst} (hc : ∀ c ∈ cs, c.val.length = d) {f : Unit → M CNF} (h : Aside d nodes xs role (f ()) Q) :
    Aside d nodes xs role (validateM cs >>= f) Q := by
  obtain ⟨K, F, a, b⟩ := h
  exact ⟨K, F, .validate hc a, b⟩

theorem ofTrue (h : ∀ σ, Q σ) : Aside d nodes xs role Goexpdt.retTrue Q :=
  Draws.retTrue.marked fun _ σ _ => ⟨Iff.rfl, fun _ => h σ, fun _ => trivial⟩

theorem ofFalse (h : ∀ σ, ¬ Q σ) : Aside d nodes xs role Goexpdt.retFalse Q :=
  Draws.retFalse.marked fun _ σ _ => ⟨Iff.rfl, False.elim, h σ⟩

theorem congr {act : M CNF} {Q' : Asg → Prop} (h : Aside d nodes xs role act Q) (hq : ∀ σ, Q σ ↔ Q' σ) : Aside d nodes xs role act Q' := by
  obtain ⟨K, F, a, b⟩ := h
  exact ⟨K, F, a, fun ν σ hr => ⟨fun hk => ⟨trivial, ((b ν σ hr).1 hk).2.trans (hq σ)⟩, (b ν σ hr).2⟩⟩

theorem retTrue : Aside d nodes xs role Goexpdt.retTrue fun _ => True := ofTrue fun _ => trivial

theorem retFalse : Aside d nodes xs role Goexpdt.retFalse fun _ => False := ofFalse fun _ => id

theorem pureBool (b : Bool) : Aside d nodes xs role (if b then Goexpdt.retTrue else Goexpdt.retFalse) fun _ => b = true := by
  cases b
  · exact ofFalse fun _ => nofun
  · exact ofTrue fun _ => rfl

theorem emitC {st : List Step}
    (hA : ∀ (σ : Asg) (ν : VarRep → Bool), (∀ x ∈ xs, Rd d ν x (σ x)) → ssTrue ν (conOf st) → (ssTrue ν (semOf st) ↔ Q σ))
    (hB : ∀ (σ : Asg) (ν : VarRep → Bool), (∀ x ∈ xs, Rd d ν x (σ x)) → AsMeant d nodes xs role σ ν → ssTrue ν (conOf st)) :
    Aside d nodes xs role (emit st) Q :=
  ⟨_, _, Draws.emit st, fun ν σ hr => ⟨fun hk => ⟨trivial, hA σ ν hr hk⟩, fun hc _ => hB σ ν hr hc⟩⟩

end Aside

/-- The auxiliary variable has the purpose. -/
def HasRole (xs : List QVar) (role : QVar → Option Role) (a : QVar) (ρ : Role) : Prop := role a = some ρ ∧ a ∉ xs

/-- The valuation as a world in which names mean what their triples say. -/
def plainWorld (hd : 0 < d) (nodes : List Node) (σ : Asg) (ν : VarRep → Bool) : World :=
  ⟨d, nodes, fun _ => False, fun _ => False, fun a _ i v => ν ⟨a, i, v⟩, fun _ => 0, fun σ' => σ' = σ, hd, nofun⟩

theorem AsMeant.plays {σ : Asg} {ν : VarRep → Bool} (h : AsMeant d nodes xs role σ ν) (hd : 0 < d) {a : QVar} {ρ : Role} (ha : HasRole xs role a ρ) :
    Plays (plainWorld hd nodes σ ν) (.leaf 0 true) a ρ :=
  ⟨nofun, fun σ' hσ i v hr => by
    obtain rfl : σ' = σ := hσ
    exact h a ρ ha.1 ha.2 i v hr⟩

theorem lel_aside (hd : 0 < d) {t1 t2 : Term} {g : Option (QVar → QVar)} (h : (Atom.lel t1 t2 g).Fits d nodes (.leaf 0 true) xs [])
    (hu : ∀ u ∈ (Atom.lel t1 t2 g).uses (fun _ => 0) [], HasRole xs role u.1 u.2) :
    Aside d nodes xs role (Atom.lel t1 t2 g).encode (fun σ => (Atom.lel t1 t2 g).says d (.leaf 0 true) fun t => t.under σ) := by
  have hc := h.consts
  have hx := h.vars
  have hg := h.gens
  cases t1 with
  | const c1 =>
    have h1 : GoodVals d c1.val := hc c1 (by simp [Spec.Atom.consts, Spec.Term.consts])
    cases t2 with
    | const c2 =>
      have h2 : GoodVals d c2.val := hc c2 (by simp [Spec.Atom.consts, Spec.Term.consts])
      refine .scopeConst c1 (.scopeConst c2 (.validate (by simp [h1.1, h2.1]) ?_))
      have e1 := botCount_eq _ h1
      have e2 := botCount_eq _ h2
      simp only [e1, e2]
      split
      · next hlt =>
        exact Aside.retFalse.congr fun σ => by
          have hlt' : numBot d (den c1.val) < numBot d (den c2.val) := hlt
          exact ⟨False.elim, fun h => absurd hlt' (Nat.not_lt.2 h)⟩
      · next hlt =>
        exact Aside.retTrue.congr fun σ => by
          have hlt' : ¬ numBot d (den c1.val) < numBot d (den c2.val) := hlt
          exact ⟨fun _ => Nat.not_lt.1 hlt', fun _ => trivial⟩
    | var x =>
      cases g with
      | none => simp [Spec.Atom.nilGen, Spec.Term.isVar] at hg
      | some g =>
      have hx := hx x (by simp [Atom.vars, Term.vars])
      have hp : HasRole xs role (g x) (.bots x) :=
        hu (g x, .bots x) (by simp [Atom.uses, Term.res, suffix, resolve])
      refine .scopeVar (.scopeConst c1 (.validate (by simp [h1.1]) (.dim ?_)))
      refine .emitC ?_ ?_
      · intro σ ν hr hcon
        simp only [conOf, semOf, List.append_nil] at hcon ⊢
        exact lelConstVar_iff hd h1 ((Counter.ofRd hd (hr x hx)).1 hcon)
      · intro σ ν hr hcan
        simp only [conOf, List.append_nil]
        exact (Counter.ofRd hd (hr x hx)).2 ((hcan.plays hd hp).bots rfl)
  | var x =>
    have hx1 := hx x (by simp [Atom.vars, Term.vars])
    cases g with
    | none => simp [Spec.Atom.nilGen, Spec.Term.isVar] at hg
    | some g =>
    have hp : HasRole xs role (g x) (.bots x) :=
      hu (g x, .bots x) (by simp [Atom.uses, Term.res, suffix, resolve])
    cases t2 with
    | const c2 =>
      have h2 : GoodVals d c2.val := hc c2 (by simp [Spec.Atom.consts, Spec.Term.consts])
      refine .scopeVar (.scopeConst c2 (.validate (by simp [h2.1]) (.dim ?_)))
      refine .emitC ?_ ?_
      · intro σ ν hr hcon
        simp only [conOf, semOf, List.append_nil] at hcon ⊢
        exact lelVarConst_iff hd h2 ((Counter.ofRd hd (hr x hx1)).1 hcon)
      · intro σ ν hr hcan
        simp only [conOf, List.append_nil]
        exact (Counter.ofRd hd (hr x hx1)).2 ((hcan.plays hd hp).bots rfl)
    | var y =>
      have hy := hx y (by simp [Atom.vars, Term.vars])
      have hp2 : HasRole xs role (g y) (.bots y) :=
        hu (g y, .bots y) (by simp [Atom.uses, Term.res, suffix, resolve])
      refine .scopeVar (.scopeVar (.dim ?_))
      refine .emitC ?_ ?_
      · intro σ ν hr hcon
        simp only [conOf, semOf, List.append_nil, ssTrue_append] at hcon ⊢
        exact lelVarVar_iff hd ((Counter.ofRd hd (hr x hx1)).1 hcon.1) ((Counter.ofRd hd (hr y hy)).1 hcon.2)
      · intro σ ν hr hcan
        simp only [conOf, List.append_nil, ssTrue_append]
        exact ⟨(Counter.ofRd hd (hr x hx1)).2 ((hcan.plays hd hp).bots rfl), (Counter.ofRd hd (hr y hy)).2 ((hcan.plays hd hp2).bots rfl)⟩

theorem hepr_aside (hd : 0 < d) {t1 t2 : Term} {p : List Int} {g : Option (QVar → QVar → QVar → QVar)} (h : (Atom.hepr t1 t2 p g).Fits d nodes (.leaf 0 true) xs [])
    (hu : ∀ u ∈ (Atom.hepr t1 t2 p g).uses (fun _ => 0) [], HasRole xs role u.1 u.2) :
    Aside d nodes xs role (Atom.hepr t1 t2 p g).encode (fun σ => (Atom.hepr t1 t2 p g).says d (.leaf 0 true) fun t => t.under σ) := by
  have hc := h.consts
  have hx := h.vars
  have hg := h.gens
  have hpr := h.pref.1
  have hpne := h.prefne
  have hval := validatePref_ok.2 h.pref
  cases t1 with
  | const c1 =>
    have h1 : GoodVals d c1.val := hc c1 (by simp [Spec.Atom.consts, Spec.Term.consts])
    cases t2 with
    | const c2 =>
      have h2 : GoodVals d c2.val := hc c2 (by simp [Spec.Atom.consts, Spec.Term.consts])
      refine .dim (.lift hval (.scopeConst c1 (.scopeConst c2 (.validate (by simp [h1.1, h2.1])
        (.lift (indexed_ok (by simpa [h1.1, h2.1] using hpr)) ?_)))))
      split
      · next h0 =>
        refine Aside.retTrue.congr fun σ => ?_
        show True ↔ HEPR (p.map Int.toNat) _ _
        rw [List.length_eq_zero_iff.1 h0]
        simp [HEPR_nil]
      · exact (Aside.pureBool _).congr fun σ => heprCC_iff h1 h2 p hpr
    | var x =>
      cases g with
      | none => simp [Spec.Atom.nilGen, Spec.Term.isVar] at hg
      | some g =>
      have hne : p ≠ [] := hpne
      have hx := hx x (by simp [Atom.vars, Term.vars])
      have hp : HasRole xs role (g (prefVar p) c1.asString x)
          (.rank (p.map Int.toNat) (.vals c1.val) (.name x)) :=
        hu (_, _) (by simp [Atom.uses, Term.key, Term.res, suffix, keyOf, resolve])
      refine .dim (.lift hval (.scopeConst c1 (.scopeVar (.validate (by simp [h1.1])
        (.lift (indexed_ok (by simpa [h1.1] using hpr)) ?_)))))
      rw [if_neg (by simpa using hne)]
      refine .emitC ?_ ?_
      · intro σ ν hr hcon
        simp only [conOf, semOf, List.append_nil] at hcon ⊢
        exact rank_sem hne ((heprConstVarCon_iff hpr h1 (hr x hx) hne).1 hcon)
      · intro σ ν hr hcan
        simp only [conOf, List.append_nil]
        exact (heprConstVarCon_iff hpr h1 (hr x hx) hne).2 ((hcan.plays hd hp).rank rfl)
  | var x =>
    have hx1 := hx x (by simp [Atom.vars, Term.vars])
    cases g with
    | none => simp [Spec.Atom.nilGen, Spec.Term.isVar] at hg
    | some g =>
    have hne : p ≠ [] := hpne
    cases t2 with
    | const c2 =>
      have h2 : GoodVals d c2.val := hc c2 (by simp [Spec.Atom.consts, Spec.Term.consts])
      have hp : HasRole xs role (g (prefVar p) x c2.asString)
          (.rank (p.map Int.toNat) (.name x) (.vals c2.val)) :=
        hu (_, _) (by simp [Atom.uses, Term.key, Term.res, suffix, keyOf, resolve])
      refine .dim (.lift hval (.scopeVar (.scopeConst c2 (.validate (by simp [h2.1])
        (.lift (indexed_ok (by simpa [h2.1] using hpr)) ?_)))))
      rw [if_neg (by simpa using hne)]
      refine .emitC ?_ ?_
      · intro σ ν hr hcon
        simp only [conOf, semOf, List.append_nil] at hcon ⊢
        exact rank_sem hne ((heprVarConstCon_iff hpr h2 (hr x hx1) hne).1 hcon)
      · intro σ ν hr hcan
        simp only [conOf, List.append_nil]
        exact (heprVarConstCon_iff hpr h2 (hr x hx1) hne).2 ((hcan.plays hd hp).rank rfl)
    | var y =>
      have hy := hx y (by simp [Atom.vars, Term.vars])
      have hp : HasRole xs role (g (prefVar p) x y)
          (.rank (p.map Int.toNat) (.name x) (.name y)) :=
        hu (_, _) (by simp [Atom.uses, Term.key, Term.res, suffix])
      refine .dim (.lift hval (.scopeVar (.scopeVar ?_)))
      rw [if_neg (by simpa using hne)]
      refine .emitC ?_ ?_
      · intro σ ν hr hcon
        simp only [conOf, semOf, List.append_nil] at hcon ⊢
        exact rank_sem hne ((heprVarVarCon_iff hpr (hr x hx1) (hr y hy) hne).1 hcon)
      · intro σ ν hr hcan
        simp only [conOf, List.append_nil]
        exact (heprVarVarCon_iff hpr (hr x hx1) (hr y hy) hne).2 ((hcan.plays hd hp).rank rfl)

theorem leh_aside (hd : 0 < d) {t1 t2 t3 : Term} {g eg : Option (QVar → QVar → QVar)} (h : (Atom.leh t1 t2 t3 g eg).Fits d nodes (.leaf 0 true) xs [])
    (hu : ∀ u ∈ (Atom.leh t1 t2 t3 g eg).uses (fun _ => 0) [], HasRole xs role u.1 u.2) :
    Aside d nodes xs role (Atom.leh t1 t2 t3 g eg).encode (fun σ => (Atom.leh t1 t2 t3 g eg).says d (.leaf 0 true) fun t => t.under σ) := by
  have hc := h.consts
  have hx := h.vars
  have hg := h.gens
  have hreg := h.regular
  cases t1 with
  | const c1 =>
    have h1 : GoodVals d c1.val := hc c1 (by simp [Spec.Atom.consts, Spec.Term.consts])
    cases t2 with
    | const c2 =>
      have h2 : GoodVals d c2.val := hc c2 (by simp [Spec.Atom.consts, Spec.Term.consts])
      cases t3 with
      | const c3 =>
        have h3 : GoodVals d c3.val := hc c3 (by simp [Spec.Atom.consts, Spec.Term.consts])
        refine .scopeConst c1 (.scopeConst c2 (.scopeConst c3 (.validate (by simp [h1.1, h2.1, h3.1]) ?_)))
        split
        · next hf =>
          refine .ofFalse fun σ hs => ?_
          obtain ⟨f1, f2, f3, -⟩ := hs
          have f1 := (isFull_iff h1).2 f1
          have f2 := (isFull_iff h2).2 f2
          have f3 := (isFull_iff h3).2 f3
          simp [f1, f2, f3] at hf
        · next hf =>
          simp only [Bool.or_eq_true, Bool.not_eq_true', not_or, Bool.not_eq_false] at hf
          rw [hdCC_ok h1 h2]
          simp only
          rw [hdCC_ok h1 h3]
          simp only
          have hff := (isFull_iff h1).1 hf.1.1
          have hff2 := (isFull_iff h2).1 hf.1.2
          have hff3 := (isFull_iff h3).1 hf.2
          split
          · next hlt =>
            refine .ofFalse fun σ hs => ?_
            exact absurd hs.2.2.2 (Nat.not_le.2 hlt)
          · next hlt =>
            exact Aside.retTrue.congr fun σ => ⟨fun _ => ⟨hff, hff2, hff3, Nat.not_lt.1 hlt⟩, fun _ => trivial⟩
      | var x =>
        have hx1 := hx x (by simp [Atom.vars, Term.vars])
        cases g with
        | none => simp [Spec.Atom.nilGen, Spec.Term.isVar] at hg
        | some g =>
        have hp : HasRole xs role (g x c1.asString) (.dist (.name x) (.vals c1.val)) :=
          hu (_, _) (by simp [Atom.uses, suffix, keyOf, resolve])
        refine .dim (.scopeConst c1 (.scopeConst c2 (.scopeVar (.validate (by simp [h1.1, h2.1]) ?_))))
        split
        · next hf =>
          refine .ofFalse fun σ hs => ?_
          obtain ⟨f1, f2, f3, -⟩ := hs
          have f1 := (isFull_iff h1).2 f1
          have f2 := (isFull_iff h2).2 f2
          simp [f1, f2] at hf
        · next hf =>
          simp only [Bool.or_eq_true, Bool.not_eq_true', not_or, Bool.not_eq_false] at hf
          have f1 := (isFull_iff h1).1 hf.1
          have f2 := (isFull_iff h2).1 hf.2
          refine .lift (hdCC_ok h1 h2) ?_
          rw [if_neg (show ¬ hamming d (den c1.val) (den c2.val) = 0 from hreg f1 f2)]
          refine .lift (hdVC_ok hd h1 _ _) ?_
          rw [emitF_eq]
          refine .emitC ?_ ?_
          · intro σ ν hr hcon
            simp only [conOf, semOf, List.append_nil, ssTrue_append] at hcon ⊢
            have hk := (hdVC_iff hd h1 (hr x hx1)).1 hcon
            have hle := hamming_le d (den c1.val) (den c2.val)
            rw [varFull_iff (hr x hx1), last_ne_iff hd hk (Nat.le_succ_of_le hle)]
            show _ ↔ LEH d (den c1.val) (den c2.val) (σ x)
            have hcm := hamming_comm d (σ x) (den c1.val)
            unfold hamming at hcm
            simp only [LEH, f1, f2, true_and, hcm]
            simp only [Nat.zero_le, true_and, Nat.not_lt]
            exact Iff.rfl
          · intro σ ν hr hcan
            simp only [conOf, List.append_nil]
            exact (hdVC_iff hd h1 (hr x hx1)).2 ((hcan.plays hd hp).dist rfl)
    | var x =>
      have hx1 := hx x (by simp [Atom.vars, Term.vars])
      cases g with
      | none => simp [Spec.Atom.nilGen, Spec.Term.isVar] at hg
      | some g =>
      cases t3 with
      | const c3 =>
        have h3 : GoodVals d c3.val := hc c3 (by simp [Spec.Atom.consts, Spec.Term.consts])
        have hp : HasRole xs role (g x c3.asString) (.dist (.name x) (.vals c1.val)) :=
          hu (_, _) (by simp [Atom.uses, suffix, keyOf, resolve])
        refine .dim (.scopeConst c1 (.scopeConst c3 (.scopeVar (.validate (by simp [h1.1, h3.1]) ?_))))
        split
        · next hf =>
          refine .ofFalse fun σ hs => ?_
          obtain ⟨f1, f2, f3, -⟩ := hs
          have f1 := (isFull_iff h1).2 f1
          have f3 := (isFull_iff h3).2 f3
          simp [f1, f3] at hf
        · next hf =>
          simp only [Bool.or_eq_true, Bool.not_eq_true', not_or, Bool.not_eq_false] at hf
          have f1 := (isFull_iff h1).1 hf.1
          have f3 := (isFull_iff h3).1 hf.2
          refine .lift (hdCC_ok h1 h3) ?_
          rw [if_neg (show ¬ hamming d (den c1.val) (den c3.val) = d from hreg f1 f3)]
          refine .lift (hdVC_ok hd h1 _ _) ?_
          rw [emitF_eq]
          refine .emitC ?_ ?_
          · intro σ ν hr hcon
            simp only [conOf, semOf, List.append_nil, ssTrue_append] at hcon ⊢
            have hk := (hdVC_iff hd h1 (hr x hx1)).1 hcon
            rw [varFull_iff (hr x hx1), last_ne_iff hd hk (Nat.le_refl _)]
            show _ ↔ LEH d (den c1.val) (σ x) (den c3.val)
            have hcm := hamming_comm d (σ x) (den c1.val)
            have hle := hamming_le d (σ x) (den c1.val)
            have f1' : Full d (den c1.val) := f1
            have f3' : Full d (den c3.val) := f3
            simp only [LEH, f1', f3', true_and, ← hcm]
            show _ ∧ ¬ (hamming d (den c1.val) (den c3.val) + 1 ≤
              hamming d (σ x) (den c1.val) ∧
              hamming d (σ x) (den c1.val) < d + 1) ↔ _
            refine and_congr Iff.rfl ?_
            omega
          · intro σ ν hr hcan
            simp only [conOf, List.append_nil]
            exact (hdVC_iff hd h1 (hr x hx1)).2 ((hcan.plays hd hp).dist rfl)
      | var y =>
        have hy := hx y (by simp [Atom.vars, Term.vars])
        have hp : HasRole xs role (g x c1.asString) (.dist (.name x) (.vals c1.val)) :=
          hu (_, _) (by simp [Atom.uses, suffix, keyOf, resolve])
        have hp' : HasRole xs role (g y c1.asString) (.dist (.name y) (.vals c1.val)) :=
          hu (_, _) (by simp [Atom.uses, suffix, keyOf, resolve])
        refine .dim (.scopeConst c1 (.scopeVar (.scopeVar (.validate (by simp [h1.1]) ?_))))
        split
        · next hf =>
          refine .ofFalse fun σ hs => ?_
          have f1 := (isFull_iff h1).2 hs.1
          simp [f1] at hf
        · next hf =>
          simp only [Bool.not_eq_true', Bool.not_eq_false] at hf
          have f1 : Full d (den c1.val) := (isFull_iff h1).1 hf
          refine .lift (hdVC_ok hd h1 _ _) (.lift (hdVC_ok hd h1 _ _) ?_)
          refine .emitC ?_ ?_
          · intro σ ν hr hcon
            simp only [conOf, semOf, List.append_nil, ssTrue_append] at hcon ⊢
            have hk := (hdVC_iff hd h1 (hr x hx1)).1 hcon.1
            have hk' := (hdVC_iff hd h1 (hr y hy)).1 hcon.2
            rw [varFull_iff (hr x hx1), varFull_iff (hr y hy), hdLeSem_iff hd hk hk']
            show _ ↔ LEH d (den c1.val) (σ x) (σ y)
            simp only [LEH, f1, true_and, hamming_comm d (den c1.val)]
            exact Iff.rfl
          · intro σ ν hr hcan
            simp only [conOf, List.append_nil, ssTrue_append]
            exact ⟨(hdVC_iff hd h1 (hr x hx1)).2 ((hcan.plays hd hp).dist rfl), (hdVC_iff hd h1 (hr y hy)).2 ((hcan.plays hd hp').dist rfl)⟩
  | var x =>
    have hx1 := hx x (by simp [Atom.vars, Term.vars])
    cases g with
    | none => simp [Spec.Atom.nilGen, Spec.Term.isVar] at hg
    | some g =>
    cases t2 with
    | const c2 =>
      have h2 : GoodVals d c2.val := hc c2 (by simp [Spec.Atom.consts, Spec.Term.consts])
      cases t3 with
      | const c3 =>
        have h3 : GoodVals d c3.val := hc c3 (by simp [Spec.Atom.consts, Spec.Term.consts])
        have hp : HasRole xs role (g x c2.asString) (.dist (.name x) (.vals c2.val)) :=
          hu (_, _) (by simp [Atom.uses, suffix, keyOf, resolve])
        have hp' : HasRole xs role (g x c3.asString) (.dist (.name x) (.vals c3.val)) :=
          hu (_, _) (by simp [Atom.uses, suffix, keyOf, resolve])
        refine .dim (.scopeConst c2 (.scopeConst c3 (.scopeVar (.validate (by simp [h2.1, h3.1]) ?_))))
        split
        · next hf =>
          refine .ofFalse fun σ hs => ?_
          obtain ⟨f1, f2, f3, -⟩ := hs
          have f2 := (isFull_iff h2).2 f2
          have f3 := (isFull_iff h3).2 f3
          simp [f2, f3] at hf
        · next hf =>
          simp only [Bool.or_eq_true, Bool.not_eq_true', not_or, Bool.not_eq_false] at hf
          have f2 : Full d (den c2.val) := (isFull_iff h2).1 hf.1
          have f3 : Full d (den c3.val) := (isFull_iff h3).1 hf.2
          refine .lift (hdVC_ok hd h2 _ _) (.lift (hdVC_ok hd h3 _ _) ?_)
          rw [emitF_eq]
          refine .emitC ?_ ?_
          · intro σ ν hr hcon
            simp only [conOf, semOf, List.append_nil, ssTrue_append] at hcon ⊢
            have hk := (hdVC_iff hd h2 (hr x hx1)).1 hcon.1
            have hk' := (hdVC_iff hd h3 (hr x hx1)).1 hcon.2
            rw [varFull_iff (hr x hx1), hdLeSem_iff hd hk hk']
            show _ ↔ LEH d (σ x) (den c2.val) (den c3.val)
            simp only [LEH, f2, f3, true_and]
            exact Iff.rfl
          · intro σ ν hr hcan
            simp only [conOf, List.append_nil, ssTrue_append]
            exact ⟨(hdVC_iff hd h2 (hr x hx1)).2 ((hcan.plays hd hp).dist rfl), (hdVC_iff hd h3 (hr x hx1)).2 ((hcan.plays hd hp').dist rfl)⟩
      | var y =>
        have hy := hx y (by simp [Atom.vars, Term.vars])
        cases eg with
        | none => simp [Spec.Atom.nilGen, Spec.Term.isVar] at hg
        | some eg =>
        have hp : HasRole xs role (g x c2.asString) (.dist (.name x) (.vals c2.val)) :=
          hu (_, _) (by simp [Atom.uses, Term.res, Term.key, suffix, keyOf, resolve])
        have hp' : HasRole xs role (g x y) (.dist (.name x) (.name y)) :=
          hu (_, _) (by simp [Atom.uses, Term.res, Term.key, suffix, keyOf, resolve])
        have he : HasRole xs role (eg x y) (.same x y) :=
          hu (_, _) (by simp [Atom.uses, Term.res, Term.key, suffix, keyOf, resolve])
        refine .dim (.scopeConst c2 (.scopeVar (.scopeVar (.validate (by simp [h2.1]) ?_))))
        split
        · next hf =>
          refine .ofFalse fun σ hs => ?_
          have f2 := (isFull_iff h2).2 hs.2.1
          simp [f2] at hf
        · next hf =>
          simp only [Bool.not_eq_true', Bool.not_eq_false] at hf
          have f2 : Full d (den c2.val) := (isFull_iff h2).1 hf
          refine .lift (hdVC_ok hd h2 _ _) ?_
          refine .emitC ?_ ?_
          · intro σ ν hr hcon
            simp only [conOf, semOf, List.append_nil, ssTrue_append] at hcon ⊢
            have hk := (hdVC_iff hd h2 (hr x hx1)).1 hcon.2.2
            rw [varFull_iff (hr x hx1), varFull_iff (hr y hy)]
            show _ ↔ LEH d (σ x) (den c2.val) (σ y)
            simp only [LEH, f2, true_and]
            refine and_congr_right fun ha => and_congr_right fun hb => ?_
            exact hdLeSem_iff hd hk (hdVV_full hd (hr x hx1) (hr y hy) ha hb hcon.1 hcon.2.1)
          · intro σ ν hr hcan
            simp only [conOf, List.append_nil, ssTrue_append]
            exact ⟨fullVarEqual_of (hr x hx1) (hr y hy) fun i hi => (hcan.plays hd he).same rfl hi, hdVV_of hd (fun i hi => (hcan.plays hd he).same rfl hi) ((hcan.plays hd hp').dist rfl),
              (hdVC_iff hd h2 (hr x hx1)).2 ((hcan.plays hd hp).dist rfl)⟩
    | var y =>
      have hy := hx y (by simp [Atom.vars, Term.vars])
      cases eg with
      | none => cases t3 <;> simp [Spec.Atom.nilGen, Spec.Term.isVar] at hg
      | some eg =>
      have hp' : HasRole xs role (g x y) (.dist (.name x) (.name y)) :=
        hu (_, _) (by simp [Atom.uses, Term.res, Term.key, suffix, keyOf, resolve])
      have he : HasRole xs role (eg x y) (.same x y) :=
        hu (_, _) (by simp [Atom.uses, Term.res, Term.key, suffix, keyOf, resolve])
      cases t3 with
      | const c3 =>
        have h3 : GoodVals d c3.val := hc c3 (by simp [Spec.Atom.consts, Spec.Term.consts])
        have hp : HasRole xs role (g x c3.asString) (.dist (.name x) (.vals c3.val)) :=
          hu (_, _) (by simp [Atom.uses, Term.res, Term.key, suffix, keyOf, resolve])
        refine .dim (.scopeVar (.scopeVar (.scopeConst c3 (.validate (by simp [h3.1]) ?_))))
        split
        · next hf =>
          refine .ofFalse fun σ hs => ?_
          have f3 := (isFull_iff h3).2 hs.2.2.1
          simp [f3] at hf
        · next hf =>
          simp only [Bool.not_eq_true', Bool.not_eq_false] at hf
          have f3 : Full d (den c3.val) := (isFull_iff h3).1 hf
          refine .lift (hdVC_ok hd h3 _ _) ?_
          refine .emitC ?_ ?_
          · intro σ ν hr hcon
            simp only [conOf, semOf, List.append_nil, ssTrue_append] at hcon ⊢
            have hk := (hdVC_iff hd h3 (hr x hx1)).1 hcon.2.2
            rw [varFull_iff (hr x hx1), varFull_iff (hr y hy)]
            show _ ↔ LEH d (σ x) (σ y) (den c3.val)
            simp only [LEH, f3, true_and]
            refine and_congr_right fun ha => and_congr_right fun hb => ?_
            exact hdLeSem_iff hd (hdVV_full hd (hr x hx1) (hr y hy) ha hb hcon.1 hcon.2.1) hk
          · intro σ ν hr hcan
            simp only [conOf, List.append_nil, ssTrue_append]
            exact ⟨fullVarEqual_of (hr x hx1) (hr y hy) fun i hi => (hcan.plays hd he).same rfl hi, hdVV_of hd (fun i hi => (hcan.plays hd he).same rfl hi) ((hcan.plays hd hp').dist rfl),
              (hdVC_iff hd h3 (hr x hx1)).2 ((hcan.plays hd hp).dist rfl)⟩
      | var z =>
        have hz := hx z (by simp [Atom.vars, Term.vars])
        have hp : HasRole xs role (g x z) (.dist (.name x) (.name z)) :=
          hu (_, _) (by simp [Atom.uses, Term.res, Term.key, suffix, keyOf, resolve])
        have he' : HasRole xs role (eg x z) (.same x z) :=
          hu (_, _) (by simp [Atom.uses, Term.res, Term.key, suffix, keyOf, resolve])
        refine .dim (.scopeVar (.scopeVar (.scopeVar ?_)))
        refine .emitC ?_ ?_
        · intro σ ν hr hcon
          simp only [conOf, semOf, List.append_nil, ssTrue_append] at hcon ⊢
          rw [varFull_iff (hr x hx1), varFull_iff (hr y hy), varFull_iff (hr z hz)]
          show _ ↔ LEH d (σ x) (σ y) (σ z)
          simp only [LEH]
          refine and_congr_right fun ha => and_congr_right fun hb => and_congr_right fun hc => ?_
          exact hdLeSem_iff hd (hdVV_full hd (hr x hx1) (hr y hy) ha hb hcon.1 hcon.2.2.1)
            (hdVV_full hd (hr x hx1) (hr z hz) ha hc hcon.2.1 hcon.2.2.2)
        · intro σ ν hr hcan
          simp only [conOf, List.append_nil, ssTrue_append]
          exact ⟨fullVarEqual_of (hr x hx1) (hr y hy) fun i hi => (hcan.plays hd he).same rfl hi,
            fullVarEqual_of (hr x hx1) (hr z hz) fun i hi => (hcan.plays hd he').same rfl hi,
            hdVV_of hd (fun i hi => (hcan.plays hd he).same rfl hi) ((hcan.plays hd hp').dist rfl), hdVV_of hd (fun i hi => (hcan.plays hd he').same rfl hi) ((hcan.plays hd hp).dist rfl)⟩

end Goexpdt

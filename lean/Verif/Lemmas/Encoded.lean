import Verif.Lemmas.CaptureAtoms
import Verif.Spec.Encoded
/- Predicates as they are encoded, also in the cases in which `leh` does not look at the variable. -/
namespace Goexpdt
open Spec

variable {W : World} {T : DTree} {Γ : List QVar} {stack : List Scope}

theorem full_of_all {c : QConst} (h : c.val.all (· != BOT) = true) : c.isFull = true := by
  have : ∀ vs : List FeatV, vs.all (· != BOT) = true → QConst.isFull.go vs = true := by
    intro vs
    induction vs with
    | nil => intro _; rfl
    | cons v vs ih =>
      intro h
      simp only [List.all_cons, Bool.and_eq_true, bne_iff_ne] at h
      simp only [QConst.isFull.go, if_neg h.1]
      exact ih h.2
  exact this _ h

theorem all_of_full {c : QConst} (h : c.isFull = true) : c.val.all (· != BOT) = true := by
  have : ∀ vs : List FeatV, QConst.isFull.go vs = true → vs.all (· != BOT) = true := by
    intro vs
    induction vs with
    | nil => intro _; rfl
    | cons v vs ih =>
      intro h
      simp only [QConst.isFull.go] at h
      split at h
      · simp at h
      · next hv => simp [hv, ih h]
  exact this _ h

theorem total_iff (c : QConst) : Total stack c = ({ id := c.id, val := resolve stack c } : QConst).isFull := by
  cases h : ({ id := c.id, val := resolve stack c } : QConst).isFull with
  | true => exact all_of_full h
  | false =>
    cases h' : Total stack c with
    | false => rfl
    | true => rw [full_of_all (c := { id := c.id, val := resolve stack c }) h'] at h; simp at h

theorem total_full {d : Nat} {c : QConst} (h : GoodVals d (resolve stack c)) : Total stack c = true ↔ Full d (den (resolve stack c)) := by
  rw [total_iff]
  exact isFull_iff (c := { id := c.id, val := resolve stack c }) h

/-- A predicate is blind exactly if it is not regular. -/
theorem blind_iff {d : Nat} {a : Atom} (h : ∀ c ∈ Spec.Atom.consts a, (resolve stack c).length = d ∧ ValidVals (resolve stack c)) :
    a.blind d stack = false ↔ a.Regular d stack := by
  cases a with
  | leh t1 t2 t3 g e =>
    cases t1 with
    | var _ => cases t2 <;> cases t3 <;> simp [Atom.blind, Atom.Regular]
    | const c1 =>
      have h1 := total_full (stack := stack) (d := d) (h c1 (by simp [Spec.Atom.consts, Spec.Term.consts]))
      cases t2 with
      | const c2 =>
        have h2 := total_full (stack := stack) (d := d) (h c2 (by simp [Spec.Atom.consts, Spec.Term.consts]))
        cases t3 with
        | const _ => simp [Atom.blind, Atom.Regular]
        | var x =>
          simp only [Atom.blind, Atom.Regular, ← h1, ← h2, ne_eq, Bool.and_eq_false_iff, beq_eq_false_iff_ne]
          grind
      | var x =>
        cases t3 with
        | var _ => simp [Atom.blind, Atom.Regular]
        | const c3 =>
          have h2 := total_full (stack := stack) (d := d) (h c3 (by simp [Spec.Atom.consts, Spec.Term.consts]))
          simp only [Atom.blind, Atom.Regular, ← h1, ← h2, ne_eq, Bool.and_eq_false_iff, beq_eq_false_iff_ne]
          grind
  | _ => simp [Atom.blind, Atom.Regular]

theorem Atom.Fits.loose {d : Nat} {nodes : List Node} {a : Goexpdt.Atom} (h : a.Fits d nodes T Γ stack) : a.Loose d nodes T Γ stack :=
  ⟨h.vars, h.consts, h.gens, h.pref, h.prefne, h.tree⟩

theorem atom_loose_fits {d : Nat} {nodes : List Node} {a : Atom} (h : a.Loose d nodes T Γ stack) (hb : a.blind d stack = false) :
    a.Fits d nodes T Γ stack :=
  ⟨h.vars, h.consts, h.gens, h.pref, h.prefne, (blind_iff h.consts).1 hb, h.tree⟩

/-- A predicate with a constant that is not full is not blind. -/
theorem total_of_blind {d : Nat} {a : Atom} (h : a.blind d stack = true) : (Spec.Atom.consts a).all (Total stack) = true := by
  cases a with
  | leh t1 t2 t3 g e =>
    cases t1 <;> cases t2 <;> cases t3 <;> simp_all [Atom.blind, Spec.Atom.consts, Spec.Term.consts]
  | _ => simp [Atom.blind] at h

theorem emits_sub_uses {d : Nat} {depth : QVar → Nat} {a : Atom} {u : QVar × Role} (h : u ∈ a.emits d depth stack) : u ∈ a.uses depth stack := by
  cases a with
  | leh t1 t2 t3 g e =>
    simp only [Atom.emits] at h
    split at h
    · exact h
    · simp at h
  | _ => exact h

/-- `leh` is false if one of its constants is not full. -/
theorem leh_not_total {t1 t2 t3 : Term} {g eg : Option (QVar → QVar → QVar)} (h : (Atom.leh t1 t2 t3 g eg).Loose W.dim W.nodes T Γ stack)
    (ht : (Spec.Atom.consts (Atom.leh t1 t2 t3 g eg)).all (Total stack) = false) {σ : Asg} :
    ¬ (Atom.leh t1 t2 t3 g eg).says W.dim T fun t => (t.res W.depth stack).den σ := by
  rintro ⟨f1, f2, f3, -⟩
  have : (Spec.Atom.consts (Atom.leh t1 t2 t3 g eg)).all (Total stack) = true := by
    refine List.all_eq_true.2 fun c hc => ?_
    rw [total_full (h.consts c hc)]
    simp only [Spec.Atom.consts, List.mem_append] at hc
    have key : ∀ {t : Term}, c ∈ Spec.Term.consts t → (t.res W.depth stack).den σ = den (resolve stack c) := by
      intro t ht
      cases t with
      | var x => simp [Spec.Term.consts] at ht
      | const c' => simp only [Spec.Term.consts, List.mem_singleton] at ht; subst ht; rfl
    rcases hc with (hc | hc) | hc
    · exact key hc ▸ (show Full W.dim ((t1.res W.depth stack).den σ) from f1)
    · exact key hc ▸ (show Full W.dim ((t2.res W.depth stack).den σ) from f2)
    · exact key hc ▸ (show Full W.dim ((t3.res W.depth stack).den σ) from f3)
  rw [ht] at this; simp at this

/-- Then the code says so, whatever the auxiliary variables. -/
theorem leh_false {t1 t2 t3 : Term} {g eg : Option (QVar → QVar → QVar)} (h : (Atom.leh t1 t2 t3 g eg).Loose W.dim W.nodes T Γ stack)
    (ht : (Spec.Atom.consts (Atom.leh t1 t2 t3 g eg)).all (Total stack) = false) :
    Captures W Γ stack (Atom.leh t1 t2 t3 g eg).encode (fun _ => False) := by
  have hc := h.consts
  have hx := h.vars
  have hg := h.gens
  cases t1 with
  | const c1 =>
    have h1 := good_res (hc c1 (by simp [Spec.Atom.consts, Spec.Term.consts]))
    cases t2 with
    | const c2 =>
      have h2 := good_res (hc c2 (by simp [Spec.Atom.consts, Spec.Term.consts]))
      cases t3 with
      | const c3 =>
        have h3 := good_res (hc c3 (by simp [Spec.Atom.consts, Spec.Term.consts]))
        refine .scopeConst c1 (.scopeConst c2 (.scopeConst c3 (.validate (by simp [h1.1, h2.1, h3.1]) ?_)))
        rw [if_pos]
        · exact .retFalse
        · simp only [← total_iff]
          simp [Spec.Atom.consts, Spec.Term.consts] at ht
          grind
      | var x =>
        have hx1 := hx x (by simp [Atom.vars, Term.vars])
        cases g with
        | none => simp [Spec.Atom.nilGen, Spec.Term.isVar] at hg
        | some g =>
        refine .dim (.scopeConst c1 (.scopeConst c2 (.scopeVar hx1 (.validate (by simp [h1.1, h2.1]) ?_))))
        rw [if_pos]
        · exact .retFalse
        · simp only [← total_iff]
          simp [Spec.Atom.consts, Spec.Term.consts] at ht
          grind
    | var x =>
      have hx1 := hx x (by simp [Atom.vars, Term.vars])
      cases g with
      | none => simp [Spec.Atom.nilGen, Spec.Term.isVar] at hg
      | some g =>
      cases t3 with
      | const c3 =>
        have h3 := good_res (hc c3 (by simp [Spec.Atom.consts, Spec.Term.consts]))
        refine .dim (.scopeConst c1 (.scopeConst c3 (.scopeVar hx1 (.validate (by simp [h1.1, h3.1]) ?_))))
        rw [if_pos]
        · exact .retFalse
        · simp only [← total_iff]
          simp [Spec.Atom.consts, Spec.Term.consts] at ht
          grind
      | var y =>
        have hy := hx y (by simp [Atom.vars, Term.vars])
        refine .dim (.scopeConst c1 (.scopeVar hx1 (.scopeVar hy (.validate (by simp [h1.1]) ?_))))
        rw [if_pos]
        · exact .retFalse
        · simp only [← total_iff]
          simp [Spec.Atom.consts, Spec.Term.consts] at ht
          grind
  | var x =>
    have hx1 := hx x (by simp [Atom.vars, Term.vars])
    cases g with
    | none => simp [Spec.Atom.nilGen, Spec.Term.isVar] at hg
    | some g =>
    cases t2 with
    | const c2 =>
      have h2 := good_res (hc c2 (by simp [Spec.Atom.consts, Spec.Term.consts]))
      cases t3 with
      | const c3 =>
        have h3 := good_res (hc c3 (by simp [Spec.Atom.consts, Spec.Term.consts]))
        refine .dim (.scopeConst c2 (.scopeConst c3 (.scopeVar hx1 (.validate (by simp [h2.1, h3.1]) ?_))))
        rw [if_pos]
        · exact .retFalse
        · simp only [← total_iff]
          simp [Spec.Atom.consts, Spec.Term.consts] at ht
          grind
      | var y =>
        have hy := hx y (by simp [Atom.vars, Term.vars])
        cases eg with
        | none => simp [Spec.Atom.nilGen, Spec.Term.isVar] at hg
        | some eg =>
        refine .dim (.scopeConst c2 (.scopeVar hx1 (.scopeVar hy (.validate (by simp [h2.1]) ?_))))
        rw [if_pos]
        · exact .retFalse
        · simp only [← total_iff]
          simp [Spec.Atom.consts, Spec.Term.consts] at ht
          grind
    | var y =>
      have hy := hx y (by simp [Atom.vars, Term.vars])
      cases eg with
      | none => cases t3 <;> simp [Spec.Atom.nilGen, Spec.Term.isVar] at hg
      | some eg =>
      cases t3 with
      | const c3 =>
        have h3 := good_res (hc c3 (by simp [Spec.Atom.consts, Spec.Term.consts]))
        refine .dim (.scopeVar hx1 (.scopeVar hy (.scopeConst c3 (.validate (by simp [h3.1]) ?_))))
        rw [if_pos]
        · exact .retFalse
        · simp only [← total_iff]
          simp [Spec.Atom.consts, Spec.Term.consts] at ht
          grind
      | var z => simp [Spec.Atom.consts, Spec.Term.consts] at ht

/-- If it is blind the code says "true". -/
theorem leh_blind {t1 t2 t3 : Term} {g eg : Option (QVar → QVar → QVar)} (h : (Atom.leh t1 t2 t3 g eg).Loose W.dim W.nodes T Γ stack)
    (hb : (Atom.leh t1 t2 t3 g eg).blind W.dim stack = true) :
    Captures W Γ stack (Atom.leh t1 t2 t3 g eg).encode (fun _ => True) := by
  have hc := h.consts
  have hx := h.vars
  have hg := h.gens
  cases t1 with
  | var x => cases t2 <;> cases t3 <;> simp [Atom.blind] at hb
  | const c1 =>
    have h1 := good_res (hc c1 (by simp [Spec.Atom.consts, Spec.Term.consts]))
    cases t2 with
    | const c2 =>
      have h2 := good_res (hc c2 (by simp [Spec.Atom.consts, Spec.Term.consts]))
      cases t3 with
      | const c3 => simp [Atom.blind] at hb
      | var x =>
        have hx1 := hx x (by simp [Atom.vars, Term.vars])
        cases g with
        | none => simp [Spec.Atom.nilGen, Spec.Term.isVar] at hg
        | some g =>
        simp only [Atom.blind, Bool.and_eq_true, beq_iff_eq] at hb
        refine .dim (.scopeConst c1 (.scopeConst c2 (.scopeVar hx1 (.validate (by simp [h1.1, h2.1]) ?_))))
        rw [if_neg (by simp only [← total_iff, hb.1.1, hb.1.2]; simp)]
        refine .lift (hdCC_ok h1 h2) ?_
        rw [if_pos hb.2]
        exact .retTrue
    | var x =>
      have hx1 := hx x (by simp [Atom.vars, Term.vars])
      cases g with
      | none => simp [Spec.Atom.nilGen, Spec.Term.isVar] at hg
      | some g =>
      cases t3 with
      | var _ => simp [Atom.blind] at hb
      | const c3 =>
        have h3 := good_res (hc c3 (by simp [Spec.Atom.consts, Spec.Term.consts]))
        simp only [Atom.blind, Bool.and_eq_true, beq_iff_eq] at hb
        refine .dim (.scopeConst c1 (.scopeConst c3 (.scopeVar hx1 (.validate (by simp [h1.1, h3.1]) ?_))))
        rw [if_neg (by simp only [← total_iff, hb.1.1, hb.1.2]; simp)]
        refine .lift (hdCC_ok h1 h3) ?_
        rw [if_pos hb.2]
        exact .retTrue

theorem leh_encoded {t1 t2 t3 : Term} {g eg : Option (QVar → QVar → QVar)} (h : (Atom.leh t1 t2 t3 g eg).Loose W.dim W.nodes T Γ stack)
    (hu : ∀ u ∈ (Atom.leh t1 t2 t3 g eg).emits W.dim W.depth stack, Plays W T u.1 u.2) :
    Captures W Γ stack (Atom.leh t1 t2 t3 g eg).encode
      (fun σ => (Atom.leh t1 t2 t3 g eg).encoded W.dim T stack fun t => (t.res W.depth stack).den σ) := by
  cases ht : (Spec.Atom.consts (Atom.leh t1 t2 t3 g eg)).all (Total stack) with
  | false =>
    refine (leh_false h ht).congr fun σ => ⟨False.elim, fun hs => ?_⟩
    rcases hs with hs | hs
    · exact leh_not_total h ht hs
    · rw [total_of_blind hs] at ht; simp at ht
  | true =>
    cases hb : (Atom.leh t1 t2 t3 g eg).blind W.dim stack with
    | true => exact (leh_blind h hb).congr fun σ => ⟨fun _ => .inr hb, fun _ => trivial⟩
    | false =>
      simp only [Atom.emits, ht, hb, Bool.not_false, Bool.and_self, if_true] at hu
      refine (leh_captures (atom_loose_fits h hb) hu).congr fun σ => ?_
      simp [Atom.encoded, hb]

/-- Every predicate says what it says as it is encoded. -/
theorem atom_encoded {a : Atom} (h : a.Loose W.dim W.nodes T Γ stack) (hu : ∀ u ∈ a.emits W.dim W.depth stack, Plays W T u.1 u.2) :
    Captures W Γ stack a.encode (fun σ => a.encoded W.dim T stack fun t => (t.res W.depth stack).den σ) := by
  have key : a.emits W.dim W.depth stack = a.uses W.depth stack → a.blind W.dim stack = false →
      Captures W Γ stack a.encode (fun σ => a.encoded W.dim T stack fun t => (t.res W.depth stack).den σ) := by
    intro he hb
    rw [he] at hu
    exact (atom_captures (atom_loose_fits h hb) hu).congr fun σ => by simp [Atom.encoded, hb]
  cases a with
  | leh t1 t2 t3 g e => exact leh_encoded h hu
  | _ => exact key rfl rfl

end Goexpdt

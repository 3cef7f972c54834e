import Verif.Lemmas.GroundQuery
import Verif.Lemmas.Force
import Verif.Lemmas.SizeNested
import Verif.Spec.Settle
import Verif.Spec.Closed
/- The meaning of auxiliary variables is fixed by consistency clauses. -/
namespace Goexpdt
open Spec Props

/-- The valuation gives the triples of the auxiliary variable the truth values its purpose says. -/
def Sets (d : Nat) (nodes : List Node) (T : DTree) (ν : VarRep → Bool) (σ : Asg) (u : QVar × Role) : Prop :=
  ∀ i v, u.2.range d nodes i v → ν ⟨u.1, i, v⟩ = u.2.mean d T σ i v

/-- The truth values the purpose of the auxiliary variable says have been found. -/
def Tells (d : Nat) (nodes : List Node) (T : DTree) (K : Force.Known) (σ : Asg) (u : QVar × Role) : Prop :=
  ∀ i v, u.2.range d nodes i v → K ⟨u.1, i, v⟩ (u.2.mean d T σ i v)

section
variable {d : Nat} {nodes : List Node} {T : DTree} {K : Force.Known} {σ : Asg} {a : QVar}

theorem nat_of_range {i : Int} {d : Nat} (h0 : 0 ≤ i) (h : i < d) : ∃ k : Nat, k < d ∧ i = (k : Nat) := ⟨i.toNat, by omega, by omega⟩

theorem Tells.bots {n : QVar} (h : Force.Counter d K a (fun i => (σ n i).isNone)) : Tells d nodes T K σ (a, .bots n) := by
  rintro i v ⟨h1, h2, h3, h4⟩
  obtain ⟨i, hi, rfl⟩ := nat_of_range h1 h2
  obtain ⟨v, hv, rfl⟩ := nat_of_range (d := d + 1) h3 (by omega)
  have := h i hi v (by omega)
  simpa [Role.mean, Int.ofNat_inj] using this

theorem Tells.dist {t1 t2 : RTerm} (h : Force.Counter d K a (fun i => t1.den σ i != t2.den σ i)) : Tells d nodes T K σ (a, .dist t1 t2) := by
  rintro i v ⟨h1, h2, h3, h4⟩
  obtain ⟨i, hi, rfl⟩ := nat_of_range h1 h2
  obtain ⟨v, hv, rfl⟩ := nat_of_range (d := d + 1) h3 (by omega)
  have := h i hi v (by omega)
  simpa [Role.mean, Int.ofNat_inj] using this

theorem Tells.same {n m q : QVar} (hr1 : Force.Rd d K n (σ n)) (hr2 : Force.Rd d K m (σ m)) (h1 : Full d (σ n)) (h2 : Full d (σ m))
    (h : Force.KS K (fullVarEqualClauses d n m q)) : Tells d nodes T K σ (q, .same n m) := by
  rintro i v ⟨h3, h4, rfl⟩
  obtain ⟨i, hi, rfl⟩ := nat_of_range h3 h4
  have := Force.same hr1 hr2 h1 h2 h hi
  simpa [Role.mean] using this

theorem Tells.far {n m q : QVar} (hd : 0 < d) (hr1 : Force.Rd d K n (σ n)) (hr2 : Force.Rd d K m (σ m)) (h1 : Full d (σ n)) (h2 : Full d (σ m))
    (h : Force.KS K (fullVarEqualClauses d n m q)) (h' : Force.KS K (hdClauses d a fun i => ⟨q, (i : Nat), 0⟩)) :
    Tells d nodes T K σ (a, .dist (.name n) (.name m)) :=
  .dist (Force.far hd hr1 hr2 h1 h2 h h')

theorem known_of {S : Prop} {b : Bool} {vr : VarRep} (h : (S → K vr true) ∧ (¬ S → K vr false)) (hb : b = true ↔ S) : K vr b := by
  cases b
  · exact h.2 fun hS => by simpa using hb.2 hS
  · exact h.1 (hb.1 rfl)

theorem Tells.rank {pref : List Nat} {t1 t2 : RTerm} (h : Force.Rank K a pref (t1.den σ) (t2.den σ)) :
    Tells d nodes T K σ (a, .rank pref t1 t2) := by
  rintro i v ⟨rfl, h3, h4⟩
  obtain ⟨v, hv, rfl⟩ := nat_of_range h3 h4
  exact known_of (h v hv) (by simp [Role.mean])

theorem Tells.onPath {n : QVar} (h : Force.Marks nodes K a fun u => ∃ p ∈ T.nodeInsts bot, p.1 = u ∧ Subsumes d p.2 (σ n)) :
    Tells d nodes T K σ (a, .onPath n) := by
  rintro i v ⟨rfl, h3, h4⟩
  obtain ⟨v, hv, rfl⟩ := nat_of_range h3 h4
  exact known_of (h v hv) (by simp [Role.mean, Int.ofNat_inj])

theorem Tells.reach {n : QVar} (h : Force.Marks nodes K a fun u => ∃ p ∈ T.nodeInsts bot, p.1 = u ∧ Cons d p.2 (σ n)) :
    Tells d nodes T K σ (a, .reach n) := by
  rintro i v ⟨rfl, h3, h4⟩
  obtain ⟨v, hv, rfl⟩ := nat_of_range h3 h4
  exact known_of (h v hv) (by simp [Role.mean, Int.ofNat_inj])

end

/-- The features of the declared variables have been found. -/
def Sees (W : World) (s : Ctx) (L : Force.Found) (σ : Asg) : Prop :=
  ∀ n, W.isInst n → Declared s n → Force.Rd W.dim (Force.known s L) n (σ n)

/-- Unit propagation with the consistency clauses finds the meaning of the auxiliary variables `F` as far as it is clear, also in later contexts. -/
def Fix (W : World) (T : DTree) (s' : Ctx) (c : CNF) (F : List (QVar × Role)) : Prop :=
  ∀ s'', VMok s'' → Ext s' s'' → ∀ L σ, Force.LS L c.cClauses → Sees W s'' L σ → ∀ u ∈ F, u.2.clear W.dim σ → Tells W.dim W.nodes T (Force.known s'' L) σ u

def Fixes (W : World) (T : DTree) (Γ : List QVar) (stack : List Scope) (act : M CNF) (F : List (QVar × Role)) : Prop :=
  ∀ s, Pre W Γ s → s.scopes = stack → ∀ c s', act s = (.ok c, s') → Fix W T s' c F

variable {W : World} {T : DTree} {Γ : List QVar} {stack : List Scope} {F F1 F2 : List (QVar × Role)} {s s' s1 : Ctx} {c c1 c2 : CNF}

/-- The same for valuations that satisfy the consistency clauses. -/
theorem Fix.sets (h : Fix W T s c F) (hv : VMok s) {β : Val} {σ : Asg} (hc : ConTrue β c) (ha : Agree W s β σ) :
    ∀ u ∈ F, u.2.clear W.dim σ → Sets W.dim W.nodes T (symVal s β) σ u :=
  h s hv (.refl _) (fun n b => β n = b) σ (Force.LS_of hc) ha

theorem Fix.ext (h : Fix W T s c F) (he : Ext s s') : Fix W T s' c F := fun s'' hv he' => h s'' hv (he.trans he')

theorem Fix.nil : Fix W T s c [] := by intro _ _ _ _ _ _ _ u hu; simp at hu

theorem Fix.mono (h : Fix W T s c F) (hs : ∀ u ∈ F1, u ∈ F) : Fix W T s c F1 := fun s'' hv he β σ hc ha u hu => h s'' hv he β σ hc ha u (hs u hu)

theorem Fix.conj (h1 : Fix W T s c1 F1) (h2 : Fix W T s c2 F2) : Fix W T s (c1.conjunction c2) (F1 ++ F2) := by
  intro s'' hv he β σ hc ha u hu
  simp only [CNF.conjunction, CNF.appendSemantics, CNF.appendConsistency, Force.LS_append] at hc
  rcases List.mem_append.1 hu with hu | hu
  · exact h1 s'' hv he β σ hc.1 ha u hu
  · exact h2 s'' hv he β σ hc.2 ha u hu

theorem Fix.neg (h : Fix W T s c F) (hw : WF c) (tv : Option Int) : Fix W T s (c.negate tv) F := by
  intro s'' hv he β σ hc ha
  obtain ⟨new, h1, -⟩ := negate_spec c tv hw.tv_nonneg hw.sNonZero
  refine h s'' hv he β σ ?_ ha
  rw [h1, Force.LS_append] at hc
  exact hc.1

theorem Fixes.nil {act : M CNF} : Fixes W T Γ stack act [] := fun _ _ _ _ _ _ => .nil

theorem Fixes.step {α : Type} {x : M α} {f : α → M CNF} (a : α)
    (h : ∀ s, Pre W Γ s → s.scopes = stack → x s = (.ok a, s)) (hc : Fixes W T Γ stack (f a) F) :
    Fixes W T Γ stack (x >>= f) F := by
  intro s hp hs
  rw [M_bind_ok (h s hp hs)]
  exact hc s hp hs

theorem Fixes.dim {f : Nat → M CNF} (hc : Fixes W T Γ stack (f W.dim) F) :
    Fixes W T Γ stack (M.dim >>= f) F :=
  .step W.dim (fun s hp _ => by show (Except.ok s.dim, s) = _; rw [hp.dim]) hc

theorem Fixes.nodes {f : List Node → M CNF} (hc : Fixes W T Γ stack (f W.nodes) F) :
    Fixes W T Γ stack (M.nodes >>= f) F :=
  .step W.nodes (fun s hp _ => by show (Except.ok s.nodes, s) = _; rw [hp.nodes]) hc

theorem Fixes.lift {α : Type} {r : Except Err α} {a : α} (h : r = .ok a) {f : α → M CNF}
    (hc : Fixes W T Γ stack (f a) F) : Fixes W T Γ stack (M.lift r >>= f) F :=
  .step a (fun s _ _ => by show (r, s) = _; rw [h]) hc

theorem Fixes.scopeVar {x : QVar} (hx : x ∈ Γ) {f : QVar → M CNF}
    (hc : Fixes W T Γ stack (f (W.nm stack x)) F) : Fixes W T Γ stack (M.scopeVar x >>= f) F :=
  .step _ (fun s hp hs => by show (s.scopeVar x, s) = _; rw [hp.scopeVar hx, hs]) hc

theorem Fixes.scopeConst (c : QConst) {f : QConst → M CNF}
    (hc : Fixes W T Γ stack (f { id := c.id, val := resolve stack c }) F) :
    Fixes W T Γ stack (M.scopeConst c >>= f) F :=
  .step _ (fun s hp hs => by show (Except.ok (s.scopeConst c).1, s) = _; rw [scopeConst_eq, hs]) hc

theorem Fixes.validate {cs : List QConst} (h : ∀ c ∈ cs, c.val.length = W.dim) {f : Unit → M CNF}
    (hc : Fixes W T Γ stack (f ()) F) : Fixes W T Γ stack (validateM cs >>= f) F :=
  .step () (fun s hp _ => by
    show M.bind' M.dim (fun d => M.lift (ValidateConstsDim d cs)) s = _
    show (ValidateConstsDim s.dim cs, s) = _
    rw [hp.dim, validate_ok cs h]) hc

theorem Fixes.emitC {st : List Step}
    (hA : ∀ (σ : Asg) (K : Force.Known), (∀ x ∈ Γ, Force.Rd W.dim K (W.nm stack x) (σ (W.nm stack x))) →
      Force.KS K (conOf st) → ∀ u ∈ F, u.2.clear W.dim σ → Tells W.dim W.nodes T K σ u) :
    Fixes W T Γ stack (Goexpdt.emit st) F := by
  intro s hp hs c s' e s'' hv he β σ hc ha
  subst hs
  obtain ⟨c', s1, e', h⟩ := emit_spec st s hp.vm
  rw [e] at e'
  obtain ⟨e1, rfl⟩ := Prod.mk.inj e'
  obtain rfl := Except.ok.inj e1
  have hn : ∀ vr, usedIn (conOf st) vr → Named s' vr := fun vr hvr => (h.alloc.named vr).2 (.inr (usedIn_conOf hvr))
  refine hA σ _ (fun x hx => ?_) ?_
  · obtain ⟨-, -, a, b⟩ := hp.free x hx
    exact ha _ a (b.ext (h.alloc.ext.trans he))
  · rw [h.con, ← he.imgS hn] at hc
    exact Force.KS_img hv (fun vr hvr => he.named (hn vr hvr)) (by simpa using hc)

/-! ### predicates -/

theorem lel_fixes {t1 t2 : Term} {g : Option (QVar → QVar)} (h : (Atom.lel t1 t2 g).Fits W.dim W.nodes T Γ stack) :
    Fixes W T Γ stack (Atom.lel t1 t2 g).encode ((Atom.lel t1 t2 g).emits W.dim W.depth stack) := by
  have hc := h.consts
  have hx := h.vars
  have hg := h.gens
  have hd := W.dim_pos
  cases t1 with
  | const c1 =>
    have h1 := good_res (hc c1 (by simp [Spec.Atom.consts, Spec.Term.consts]))
    cases t2 with
    | const c2 => cases g <;> exact .nil
    | var x =>
      cases g with
      | none => simp [Spec.Atom.nilGen, Spec.Term.isVar] at hg
      | some g =>
      have hx := hx x (by simp [Atom.vars, Term.vars])
      refine .scopeVar hx (.scopeConst c1 (.validate (by simp [h1.1]) (.dim ?_)))
      refine .emitC fun σ K hr hcon u hu _ => ?_
      simp only [conOf, List.append_nil] at hcon
      have : u = (g (W.nm stack x), .bots (W.nm stack x)) := by simpa [Atom.emits, Atom.uses, Term.res, World.nm] using hu
      rw [this]
      exact .bots (Force.bots_rd hd (hr x hx) hcon)
  | var x =>
    have hx1 := hx x (by simp [Atom.vars, Term.vars])
    cases g with
    | none => simp [Spec.Atom.nilGen, Spec.Term.isVar] at hg
    | some g =>
    cases t2 with
    | const c2 =>
      have h2 := good_res (hc c2 (by simp [Spec.Atom.consts, Spec.Term.consts]))
      refine .scopeVar hx1 (.scopeConst c2 (.validate (by simp [h2.1]) (.dim ?_)))
      refine .emitC fun σ K hr hcon u hu _ => ?_
      simp only [conOf, List.append_nil] at hcon
      have : u = (g (W.nm stack x), .bots (W.nm stack x)) := by simpa [Atom.emits, Atom.uses, Term.res, World.nm] using hu
      rw [this]
      exact .bots (Force.bots_rd hd (hr x hx1) hcon)
    | var y =>
      have hy := hx y (by simp [Atom.vars, Term.vars])
      refine .scopeVar hx1 (.scopeVar hy (.dim ?_))
      refine .emitC fun σ K hr hcon u hu _ => ?_
      simp only [conOf, List.append_nil, Force.KS_append] at hcon
      have : u = (g (W.nm stack x), .bots (W.nm stack x)) ∨ u = (g (W.nm stack y), .bots (W.nm stack y)) := by
        simpa [Atom.emits, Atom.uses, Term.res, World.nm] using hu
      rcases this with rfl | rfl
      · exact .bots (Force.bots_rd hd (hr x hx1) hcon.1)
      · exact .bots (Force.bots_rd hd (hr y hy) hcon.2)

theorem isnode_fixes {t : Term} {g : Option (QVar → QVar)} (h : (Atom.isnode t g).Fits W.dim W.nodes T Γ stack) :
    Fixes W T Γ stack (Atom.isnode t g).encode ((Atom.isnode t g).emits W.dim W.depth stack) := by
  obtain ⟨hT, hC⟩ := h.tree rfl
  have hne := tree_ne hT
  have hlen : ¬ W.nodes.length = 0 := by simpa using hne
  have hv := tree_valid hT hC
  cases t with
  | const c => cases g <;> exact .nil
  | var x =>
    have hx := h.vars x (by simp [Atom.vars, Term.vars])
    cases g with
    | none => have := h.gens; simp [Spec.Atom.nilGen, Spec.Term.isVar] at this
    | some g =>
    refine .nodes ?_
    rw [if_neg hlen]
    refine .dim (.scopeVar hx ?_)
    rw [if_neg (by simp [featsInRange_of hv])]
    refine .emitC fun σ K hr hcon u hu _ => ?_
    simp only [conOf, List.append_nil] at hcon
    have : u = (g (W.nm stack x), .onPath (W.nm stack x)) := by simpa [Atom.emits, Atom.uses, World.nm] using hu
    rw [this]
    exact .onPath (Force.onPath hT hC (hr x hx) hcon)

theorem allcomp_fixes {t : Term} {b : Bool} {g : Option (QVar → QVar)} (h : (Atom.allcomp t b g).Fits W.dim W.nodes T Γ stack) :
    Fixes W T Γ stack (Atom.allcomp t b g).encode ((Atom.allcomp t b g).emits W.dim W.depth stack) := by
  obtain ⟨hT, hC⟩ := h.tree rfl
  have hne := tree_ne hT
  have hlen : ¬ W.nodes.length = 0 := by simpa using hne
  cases t with
  | const c => cases g <;> exact .nil
  | var x =>
    have hx := h.vars x (by simp [Atom.vars, Term.vars])
    cases g with
    | none => have := h.gens; simp [Spec.Atom.nilGen, Spec.Term.isVar] at this
    | some g =>
    refine .nodes ?_
    rw [if_neg hlen]
    refine .scopeVar hx ?_
    refine .emitC fun σ K hr hcon u hu _ => ?_
    have : u = (g (W.nm stack x), .reach (W.nm stack x)) := by simpa [Atom.emits, Atom.uses, World.nm] using hu
    rw [this]
    exact .reach (Force.reach hT hC (hr x hx) b hcon)

theorem hepr_fixes {t1 t2 : Term} {p : List Int} {g : Option (QVar → QVar → QVar → QVar)}
    (h : (Atom.hepr t1 t2 p g).Fits W.dim W.nodes T Γ stack) :
    Fixes W T Γ stack (Atom.hepr t1 t2 p g).encode ((Atom.hepr t1 t2 p g).emits W.dim W.depth stack) := by
  have hc := h.consts
  have hx := h.vars
  have hg := h.gens
  have hpr := h.pref.1
  have hpne := h.prefne
  have hval := validatePref_ok.2 h.pref
  cases t1 with
  | const c1 =>
    have h1 := good_res (hc c1 (by simp [Spec.Atom.consts, Spec.Term.consts]))
    cases t2 with
    | const c2 => cases g <;> exact .nil
    | var x =>
      cases g with
      | none => simp [Spec.Atom.nilGen, Spec.Term.isVar] at hg
      | some g =>
      have hne : p ≠ [] := hpne
      have hx := hx x (by simp [Atom.vars, Term.vars])
      refine .dim (.lift hval (.scopeConst c1 (.scopeVar hx (.validate (by simp [h1.1])
        (.lift (indexed_ok (by simpa [h1.1] using hpr)) ?_)))))
      rw [if_neg (by simpa using hne)]
      refine .emitC fun σ K hr hcon u hu _ => ?_
      simp only [conOf, List.append_nil] at hcon
      have : u = (g (prefVar p) (keyOf stack c1) (W.nm stack x),
          .rank (p.map Int.toNat) (.vals (resolve stack c1)) (.name (W.nm stack x))) := by
        simpa [Atom.emits, Atom.uses, Term.key, Term.res, World.nm] using hu
      rw [this]
      exact .rank (Force.rankCV hpr h1 (hr x hx) hne hcon)
  | var x =>
    have hx1 := hx x (by simp [Atom.vars, Term.vars])
    cases g with
    | none => simp [Spec.Atom.nilGen, Spec.Term.isVar] at hg
    | some g =>
    have hne : p ≠ [] := hpne
    cases t2 with
    | const c2 =>
      have h2 := good_res (hc c2 (by simp [Spec.Atom.consts, Spec.Term.consts]))
      refine .dim (.lift hval (.scopeVar hx1 (.scopeConst c2 (.validate (by simp [h2.1])
        (.lift (indexed_ok (by simpa [h2.1] using hpr)) ?_)))))
      rw [if_neg (by simpa using hne)]
      refine .emitC fun σ K hr hcon u hu _ => ?_
      simp only [conOf, List.append_nil] at hcon
      have : u = (g (prefVar p) (W.nm stack x) (keyOf stack c2),
          .rank (p.map Int.toNat) (.name (W.nm stack x)) (.vals (resolve stack c2))) := by
        simpa [Atom.emits, Atom.uses, Term.key, Term.res, World.nm] using hu
      rw [this]
      exact .rank (Force.rankVC hpr h2 (hr x hx1) hne hcon)
    | var y =>
      have hy := hx y (by simp [Atom.vars, Term.vars])
      refine .dim (.lift hval (.scopeVar hx1 (.scopeVar hy ?_)))
      rw [if_neg (by simpa using hne)]
      refine .emitC fun σ K hr hcon u hu _ => ?_
      simp only [conOf, List.append_nil] at hcon
      have : u = (g (prefVar p) (W.nm stack x) (W.nm stack y),
          .rank (p.map Int.toNat) (.name (W.nm stack x)) (.name (W.nm stack y))) := by
        simpa [Atom.emits, Atom.uses, Term.key, Term.res, World.nm] using hu
      rw [this]
      exact .rank (Force.rankVV hpr (hr x hx1) (hr y hy) hne hcon)

theorem leh_fixes {t1 t2 t3 : Term} {g eg : Option (QVar → QVar → QVar)} (h : (Atom.leh t1 t2 t3 g eg).Loose W.dim W.nodes T Γ stack) :
    Fixes W T Γ stack (Atom.leh t1 t2 t3 g eg).encode ((Atom.leh t1 t2 t3 g eg).emits W.dim W.depth stack) := by
  have hc := h.consts
  have hx := h.vars
  have hg := h.gens
  have hd := W.dim_pos
  simp only [Atom.emits]
  split
  case isFalse => exact .nil
  case isTrue hall =>
  simp only [Bool.and_eq_true, List.all_eq_true, Bool.not_eq_true'] at hall
  have hreg := (blind_iff h.consts).1 hall.2
  replace hall := hall.1
  have hfull : ∀ c ∈ Spec.Atom.consts (Atom.leh t1 t2 t3 g eg), ({ id := c.id, val := resolve stack c } : QConst).isFull = true :=
    fun c hcc => (total_iff (stack := stack) c).symm.trans (hall c hcc)
  have hfull' : ∀ c ∈ Spec.Atom.consts (Atom.leh t1 t2 t3 g eg), Full W.dim (den (resolve stack c)) :=
    fun c hcc => (isFull_iff (good_res (hc c hcc))).1 (hfull c hcc)
  cases t1 with
  | const c1 =>
    have m1 : c1 ∈ Spec.Atom.consts (Atom.leh (.const c1) t2 t3 g eg) := by simp [Spec.Atom.consts, Spec.Term.consts]
    have h1 := good_res (hc c1 m1)
    have f1 := hfull c1 m1
    cases t2 with
    | const c2 =>
      have m2 : c2 ∈ Spec.Atom.consts (Atom.leh (.const c1) (.const c2) t3 g eg) := by simp [Spec.Atom.consts, Spec.Term.consts]
      have h2 := good_res (hc c2 m2)
      have f2 := hfull c2 m2
      cases t3 with
      | const c3 => exact .nil
      | var x =>
        have hx1 := hx x (by simp [Atom.vars, Term.vars])
        cases g with
        | none => simp [Spec.Atom.nilGen, Spec.Term.isVar] at hg
        | some g =>
        refine .dim (.scopeConst c1 (.scopeConst c2 (.scopeVar hx1 (.validate (by simp [h1.1, h2.1]) ?_))))
        rw [if_neg (by simp [f1, f2])]
        refine .lift (hdCC_ok h1 h2) ?_
        rw [if_neg (hreg (hfull' c1 m1) (hfull' c2 m2))]
        refine .lift (hdVC_ok hd h1 _ _) ?_
        rw [emitF_eq]
        refine .emitC fun σ K hr hcon u hu _ => ?_
        simp only [conOf, List.append_nil] at hcon
        have : u = (g (W.nm stack x) (keyOf stack c1), .dist (.name (W.nm stack x)) (.vals (resolve stack c1))) := by
          simpa [Atom.uses, World.nm] using hu
        rw [this]
        exact .dist (Force.dist_const hd h1 (hr x hx1) hcon)
    | var x =>
      have hx1 := hx x (by simp [Atom.vars, Term.vars])
      cases g with
      | none => simp [Spec.Atom.nilGen, Spec.Term.isVar] at hg
      | some g =>
      cases t3 with
      | const c3 =>
        have m3 : c3 ∈ Spec.Atom.consts (Atom.leh (.const c1) (.var x) (.const c3) (some g) eg) := by
          simp [Spec.Atom.consts, Spec.Term.consts]
        have h3 := good_res (hc c3 m3)
        have f3 := hfull c3 m3
        refine .dim (.scopeConst c1 (.scopeConst c3 (.scopeVar hx1 (.validate (by simp [h1.1, h3.1]) ?_))))
        rw [if_neg (by simp [f1, f3])]
        refine .lift (hdCC_ok h1 h3) ?_
        rw [if_neg (hreg (hfull' c1 m1) (hfull' c3 m3))]
        refine .lift (hdVC_ok hd h1 _ _) ?_
        rw [emitF_eq]
        refine .emitC fun σ K hr hcon u hu _ => ?_
        simp only [conOf, List.append_nil] at hcon
        have : u = (g (W.nm stack x) (keyOf stack c3), .dist (.name (W.nm stack x)) (.vals (resolve stack c1))) := by
          simpa [Atom.uses, World.nm] using hu
        rw [this]
        exact .dist (Force.dist_const hd h1 (hr x hx1) hcon)
      | var y =>
        have hy := hx y (by simp [Atom.vars, Term.vars])
        refine .dim (.scopeConst c1 (.scopeVar hx1 (.scopeVar hy (.validate (by simp [h1.1]) ?_))))
        rw [if_neg (by simp [f1])]
        refine .lift (hdVC_ok hd h1 _ _) (.lift (hdVC_ok hd h1 _ _) ?_)
        refine .emitC fun σ K hr hcon u hu _ => ?_
        simp only [conOf, List.append_nil, Force.KS_append] at hcon
        have : u = (g (W.nm stack x) (keyOf stack c1), .dist (.name (W.nm stack x)) (.vals (resolve stack c1))) ∨
            u = (g (W.nm stack y) (keyOf stack c1), .dist (.name (W.nm stack y)) (.vals (resolve stack c1))) := by
          simpa [Atom.uses, World.nm] using hu
        rcases this with rfl | rfl
        · exact .dist (Force.dist_const hd h1 (hr x hx1) hcon.1)
        · exact .dist (Force.dist_const hd h1 (hr y hy) hcon.2)
  | var x =>
    have hx1 := hx x (by simp [Atom.vars, Term.vars])
    cases g with
    | none => simp [Spec.Atom.nilGen, Spec.Term.isVar] at hg
    | some g =>
    cases t2 with
    | const c2 =>
      have m2 : c2 ∈ Spec.Atom.consts (Atom.leh (.var x) (.const c2) t3 (some g) eg) := by simp [Spec.Atom.consts, Spec.Term.consts]
      have h2 := good_res (hc c2 m2)
      have f2 := hfull c2 m2
      cases t3 with
      | const c3 =>
        have m3 : c3 ∈ Spec.Atom.consts (Atom.leh (.var x) (.const c2) (.const c3) (some g) eg) := by
          simp [Spec.Atom.consts, Spec.Term.consts]
        have h3 := good_res (hc c3 m3)
        have f3 := hfull c3 m3
        refine .dim (.scopeConst c2 (.scopeConst c3 (.scopeVar hx1 (.validate (by simp [h2.1, h3.1]) ?_))))
        rw [if_neg (by simp [f2, f3])]
        refine .lift (hdVC_ok hd h2 _ _) (.lift (hdVC_ok hd h3 _ _) ?_)
        rw [emitF_eq]
        refine .emitC fun σ K hr hcon u hu _ => ?_
        simp only [conOf, List.append_nil, Force.KS_append] at hcon
        have : u = (g (W.nm stack x) (keyOf stack c2), .dist (.name (W.nm stack x)) (.vals (resolve stack c2))) ∨
            u = (g (W.nm stack x) (keyOf stack c3), .dist (.name (W.nm stack x)) (.vals (resolve stack c3))) := by
          simpa [Atom.uses, World.nm] using hu
        rcases this with rfl | rfl
        · exact .dist (Force.dist_const hd h2 (hr x hx1) hcon.1)
        · exact .dist (Force.dist_const hd h3 (hr x hx1) hcon.2)
      | var y =>
        have hy := hx y (by simp [Atom.vars, Term.vars])
        cases eg with
        | none => simp [Spec.Atom.nilGen, Spec.Term.isVar] at hg
        | some eg =>
        refine .dim (.scopeConst c2 (.scopeVar hx1 (.scopeVar hy (.validate (by simp [h2.1]) ?_))))
        rw [if_neg (by simp [f2])]
        refine .lift (hdVC_ok hd h2 _ _) ?_
        refine .emitC fun σ K hr hcon u hu hk => ?_
        simp only [conOf, List.append_nil, Force.KS_append] at hcon
        have : u = (g (W.nm stack x) (keyOf stack c2), .dist (.name (W.nm stack x)) (.vals (resolve stack c2))) ∨
            u = (g (W.nm stack x) (W.nm stack y), .dist (.name (W.nm stack x)) (.name (W.nm stack y))) ∨
            u = (eg (W.nm stack x) (W.nm stack y), .same (W.nm stack x) (W.nm stack y)) := by
          simpa [Atom.uses, World.nm, Term.res, Term.key] using hu
        rcases this with rfl | rfl | rfl
        · exact .dist (Force.dist_const hd h2 (hr x hx1) hcon.2.2)
        · exact Tells.far hd (hr x hx1) (hr y hy) hk.1 hk.2 hcon.1 hcon.2.1
        · exact Tells.same (hr x hx1) (hr y hy) hk.1 hk.2 hcon.1
    | var y =>
      have hy := hx y (by simp [Atom.vars, Term.vars])
      cases eg with
      | none => cases t3 <;> simp [Spec.Atom.nilGen, Spec.Term.isVar] at hg
      | some eg =>
      cases t3 with
      | const c3 =>
        have m3 : c3 ∈ Spec.Atom.consts (Atom.leh (.var x) (.var y) (.const c3) (some g) (some eg)) := by
          simp [Spec.Atom.consts, Spec.Term.consts]
        have h3 := good_res (hc c3 m3)
        have f3 := hfull c3 m3
        refine .dim (.scopeVar hx1 (.scopeVar hy (.scopeConst c3 (.validate (by simp [h3.1]) ?_))))
        rw [if_neg (by simp [f3])]
        refine .lift (hdVC_ok hd h3 _ _) ?_
        refine .emitC fun σ K hr hcon u hu hk => ?_
        simp only [conOf, List.append_nil, Force.KS_append] at hcon
        have : u = (g (W.nm stack x) (W.nm stack y), .dist (.name (W.nm stack x)) (.name (W.nm stack y))) ∨
            u = (eg (W.nm stack x) (W.nm stack y), .same (W.nm stack x) (W.nm stack y)) ∨
            u = (g (W.nm stack x) (keyOf stack c3), .dist (.name (W.nm stack x)) (.vals (resolve stack c3))) := by
          simpa [Atom.uses, World.nm, Term.res, Term.key] using hu
        rcases this with rfl | rfl | rfl
        · exact Tells.far hd (hr x hx1) (hr y hy) hk.1 hk.2 hcon.1 hcon.2.1
        · exact Tells.same (hr x hx1) (hr y hy) hk.1 hk.2 hcon.1
        · exact .dist (Force.dist_const hd h3 (hr x hx1) hcon.2.2)
      | var z =>
        have hz := hx z (by simp [Atom.vars, Term.vars])
        refine .dim (.scopeVar hx1 (.scopeVar hy (.scopeVar hz ?_)))
        refine .emitC fun σ K hr hcon u hu hk => ?_
        simp only [conOf, List.append_nil, Force.KS_append] at hcon
        have : u = (g (W.nm stack x) (W.nm stack y), .dist (.name (W.nm stack x)) (.name (W.nm stack y))) ∨
            u = (eg (W.nm stack x) (W.nm stack y), .same (W.nm stack x) (W.nm stack y)) ∨
            u = (g (W.nm stack x) (W.nm stack z), .dist (.name (W.nm stack x)) (.name (W.nm stack z))) ∨
            u = (eg (W.nm stack x) (W.nm stack z), .same (W.nm stack x) (W.nm stack z)) := by
          simpa [Atom.uses, World.nm, Term.res, Term.key] using hu
        rcases this with rfl | rfl | rfl | rfl
        · exact Tells.far hd (hr x hx1) (hr y hy) hk.1 hk.2 hcon.1 hcon.2.2.1
        · exact Tells.same (hr x hx1) (hr y hy) hk.1 hk.2 hcon.1
        · exact Tells.far hd (hr x hx1) (hr z hz) hk.1 hk.2 hcon.2.1 hcon.2.2.2
        · exact Tells.same (hr x hx1) (hr z hz) hk.1 hk.2 hcon.2.1

theorem atom_fixes {a : Atom} (h : a.Loose W.dim W.nodes T Γ stack) : Fixes W T Γ stack a.encode (a.emits W.dim W.depth stack) := by
  cases a with
  | subs t1 t2 => exact .nil
  | lel t1 t2 g => exact lel_fixes (atom_loose_fits h rfl)
  | isnode t g => exact isnode_fixes (atom_loose_fits h rfl)
  | full t => exact .nil
  | cons t1 t2 => exact .nil
  | allcomp t b g => exact allcomp_fixes (atom_loose_fits h rfl)
  | dfs t => exact .nil
  | hepr t1 t2 p g => exact hepr_fixes (atom_loose_fits h rfl)
  | leh t1 t2 t3 g e => exact leh_fixes h

/-! ### queries -/

/-- Like `Fixes`, for components that declare variables of any depth. -/
def Binds (W : World) (T : DTree) (Γ : List QVar) (lv : Levels) (stack : List Scope) (act : M CNF) (F : List (QVar × Role)) : Prop :=
  ∀ s, Pre (W.at lv) [] s → Lv s lv → Has W s Γ → s.scopes = stack → ∀ c s', act s = (.ok c, s') → Fix W T s' c F

section
variable {Γ' Γ1 Γ2 : List QVar} {lv lv' lv1 lv2 : Levels} {P P1 P2 : Asg → Prop} {q q1 q2 : M CNF}

theorem wrapErr_inv {α : Type} {pre : String} {act : M α} {s s' : Ctx} {a : α} (h : M.wrapErr pre act s = (.ok a, s')) :
    act s = (.ok a, s') := by
  unfold M.wrapErr at h
  split at h
  · next h' => rw [h']; exact h
  · next h' => simp at h

theorem Binds.wrapErr (pre : String) (h : Binds W T Γ lv stack q F) : Binds W T Γ lv stack (M.wrapErr pre q) F :=
  fun s hp hl hh hs c s' e => h s hp hl hh hs c s' (wrapErr_inv e)

theorem ok_inj {α : Type} {r : Except Err α × Ctx} {a b : α} {s s' : Ctx} (h : r = (.ok a, s)) (h' : r = (.ok b, s')) : b = a ∧ s' = s := by
  rw [h] at h'
  obtain ⟨h1, rfl⟩ := Prod.mk.inj h'
  exact ⟨(Except.ok.inj h1).symm, rfl⟩

theorem Binds.mono (h : Binds W T Γ lv stack q F) (hs : ∀ u ∈ F1, u ∈ F) : Binds W T Γ lv stack q F1 :=
  fun s hp hl hh hsc c s' e => (h s hp hl hh hsc c s' e).mono hs

theorem Binds.atom {a : Atom} (hf : a.Loose W.dim W.nodes T a.vars stack)
    (hΓ : ∀ x ∈ a.vars, x ++ suffix (stack.take (lv x)) ∈ Γ) : Binds W T Γ lv stack a.encode (a.emits W.dim lv stack) := by
  intro s hp hl hh hs
  subst hs
  have hpre : Pre (W.at lv) a.vars s := by
    refine { hp with free := fun x hx => ?_ }
    obtain ⟨h1, h2⟩ := hh _ (hΓ x hx)
    refine ⟨?_, ?_, h1, h2⟩
    · cases h : mapGet s.vars x with
      | none => left; have := hl x; rw [h] at this; exact this.symm
      | some k => right; rw [hl.some h]; rfl
    · have := hl x
      cases h : mapGet s.vars x with
      | none => rw [h] at this; simp only [World.at]; simp at this; omega
      | some k => have h1 := hp.scope x k h; rw [hl.some h] at h1; exact h1.2
  exact atom_fixes (W := W.at lv) hf s hpre rfl

theorem Binds.encAnd (h1 : Shows W Γ Γ1 lv lv1 stack q1 P1) (h2 : Shows W Γ1 Γ2 lv1 lv2 stack q2 P2)
    (b1 : Binds W T Γ lv stack q1 F1) (b2 : Binds W T Γ1 lv1 stack q2 F2) :
    Binds W T Γ lv stack (encAnd (some q1) (some q2)) (F1 ++ F2) := by
  refine Binds.wrapErr _ fun s hp hl hh hs c s' e => ?_
  obtain ⟨c1, s1, e1, p1, l1, g1⟩ := h1 s hp hl hh hs
  have hs1 := p1.moves.scopes.trans hs
  obtain ⟨c2, s2, e2, p2, l2, g2⟩ := h2 s1 p1.moves.pre l1 g1 hs1
  have e' : andBuild q1 q2 s = (.ok (c1.conjunction c2), s2) := by
    unfold andBuild
    rw [M_bind_ok (wrapErr_ok e1), M_bind_ok (wrapErr_ok e2)]; rfl
  obtain ⟨rfl, rfl⟩ := ok_inj e' e
  exact ((b1 s hp hl hh hs _ _ e1).ext p2.moves.ext).conj (b2 s1 p1.moves.pre l1 g1 hs1 _ _ e2)

theorem Binds.encNot (h : Shows W Γ Γ' lv lv' stack q P) (b : Binds W T Γ lv stack q F) : Binds W T Γ lv stack (encNot (some q)) F := by
  refine Binds.wrapErr _ fun s hp hl hh hs c s' e => ?_
  obtain ⟨c1, s1, e1, p1, l1, g1⟩ := h s hp hl hh hs
  have e' : notBuild q s = (.ok (c1.negate (some s1.topv)), (s1.updateTopV (c1.negate (some s1.topv)).tv).2) := by
    simp only [notBuild_eq]
    rw [M_bind_ok e1, negStep_eq]
  obtain ⟨rfl, rfl⟩ := ok_inj e' e
  exact ((b s hp hl hh hs _ _ e1).neg p1.wf _).ext (p1.moves.pre.updateTopV _).1.ext

theorem Binds.encOr (h1 : Shows W Γ Γ1 lv lv1 stack q1 P1) (h2 : Shows W Γ1 Γ2 lv1 lv2 stack q2 P2)
    (b1 : Binds W T Γ lv stack q1 F1) (b2 : Binds W T Γ1 lv1 stack q2 F2) :
    Binds W T Γ lv stack (encOr (some q1) (some q2)) (F1 ++ F2) := by
  refine Binds.wrapErr _ fun s hp hl hh hs c s' e => ?_
  obtain ⟨c1, s1, e1, p1, l1, g1⟩ := h1 s hp hl hh hs
  have hs1 := p1.moves.scopes.trans hs
  obtain ⟨c2, s2, e2, p2, l2, g2⟩ := h2 s1 p1.moves.pre l1 g1 hs1
  have f1 := (b1 s hp hl hh hs _ _ e1).ext p2.moves.ext
  have f2 := b2 s1 p1.moves.pre l1 g1 hs1 _ _ e2
  generalize hN1 : c1.negate (some s2.topv) = N1 at *
  have hx1 := (p2.moves.pre.updateTopV N1.tv).1
  generalize hS1 : (s2.updateTopV N1.tv).2 = S1 at *
  generalize hN2 : c2.negate (some S1.topv) = N2 at *
  have hx2 := (hx1.pre.updateTopV N2.tv).1
  generalize hS2 : (S1.updateTopV N2.tv).2 = S2 at *
  have hw1 : WF N1 := hN1 ▸ p1.wf.negate _
  have hw2 : WF N2 := hN2 ▸ p2.wf.negate _
  have e' : orBuild q1 q2 s = (.ok ((N1.conjunction N2).negate (some S2.topv)),
      (S2.updateTopV ((N1.conjunction N2).negate (some S2.topv)).tv).2) := by
    simp only [orBuild_eq]
    rw [M_bind_ok (wrapErr_ok e1), M_bind_ok (wrapErr_ok e2), M_bind_ok (negStep_eq c1 s2), hN1, hS1,
      M_bind_ok (negStep_eq c2 _), hN2, hS2, negStep_eq]
  obtain ⟨rfl, rfl⟩ := ok_inj e' e
  have g1 : Fix W T S1 N1 F1 := by rw [← hN1]; exact (f1.neg p1.wf _).ext hx1.ext
  have g2 : Fix W T S2 N2 F2 := by rw [← hN2]; exact (f2.neg p2.wf _).ext (hx1.ext.trans hx2.ext)
  exact (((g1.ext hx2.ext).conj g2).neg (hw1.conjunction hw2) _).ext (hx2.pre.updateTopV _).1.ext

theorem Binds.encWithVar {x n : QVar} (hn : n = x ++ suffix (stack.take ((lv.declare stack.length x) x)))
    (hin : W.isInst n) (hmay : W.may n)
    (h : Shows W (n :: Γ) Γ' (lv.declare stack.length x) lv' stack q P)
    (b : Binds W T (n :: Γ) (lv.declare stack.length x) stack q F) : Binds W T Γ lv stack (encWithVar x (some q)) F := by
  refine Binds.wrapErr _ fun s hp hl hh hs c s' e => ?_
  subst hs
  obtain ⟨a, b', c'⟩ := addVar_other s x
  have hx := addVar_varsExt x hp.fn
  have hso := hx.scopeOk hp.scope a.scopes
  have hl1 := addVar_lv (x := x) hp.scope hl
  have hp1 : Pre (W.at (lv.declare s.scopes.length x)) [] (s.addVar x) := by
    refine ⟨hp.vm.of_vm_eq b' c', a.dim.trans hp.dim, a.nodes.trans hp.nodes, hso, hx.fn, ?_, fun y k hk => hl1.some hk, by simp⟩
    intro n hn hd i hi v hv
    exact (Named.of_vm c').2 (hp.inst n hn ((Named.of_vm c').1 hd) i hi v hv)
  have hv : (s.addVar x).scopeVar x = .ok n := by rw [scopeVar_eq hso, a.scopes, hl1 x, hn]
  obtain ⟨c1, s1, e1, p1, v1, d1⟩ := encodeI_named hp1 hv hin hmay
  have hh1 : Has W s1 (n :: Γ) := by
    intro m hm
    rcases List.mem_cons.1 hm with rfl | hm
    · exact ⟨hin, d1⟩
    · exact ((hh.of_vm c').ext p1.moves.ext) m hm
  have hs1 := p1.moves.scopes.trans a.scopes
  obtain ⟨c2, s2, e2, p2, l2, g2⟩ := h s1 p1.moves.pre (hl1.of_vars v1) hh1 hs1
  have e' : (M.addVar x >>= fun _ => withVarBuild x q) s = (.ok (c1.conjunction c2), s2) := by
    have e0 : M.addVar x s = (.ok (), s.addVar x) := rfl
    rw [M_bind_ok e0, withVarBuild_eq, M_bind_ok e1, M_bind_ok e2]; rfl
  obtain ⟨rfl, rfl⟩ := ok_inj e' e
  exact (Fix.nil (c := c1)).conj (b s1 p1.moves.pre (hl1.of_vars v1) hh1 hs1 _ _ e2)

theorem forallFold_binds {Γs : Nat → List QVar} {lvs : Nat → Levels} {Ps : Nat → Asg → Prop} {Fs : Nat → List (QVar × Role)}
    {tgt : List Char} (ts : List (List FeatV)) :
    ∀ (i : Nat) (ncnf : CNF) (s : Ctx) (g : Scope) (F0 : List (QVar × Role)),
      (∀ j t, ts[j]? = some t → Shows W (Γs (i + j)) (Γs (i + j + 1)) (lvs (i + j)) (lvs (i + j + 1))
          (stack ++ [⟨tgt, t, ((i + j : Nat) : Int)⟩]) q (Ps (i + j)) ∧
        Binds W T (Γs (i + j)) (lvs (i + j)) (stack ++ [⟨tgt, t, ((i + j : Nat) : Int)⟩]) q (Fs (i + j))) →
      s.scopes = stack ++ [g] → g.target = tgt → Pre (W.at (lvs i)) [] s → Lv s (lvs i) → Has W s (Γs i) → Fix W T s ncnf F0 →
      ∀ c s', forallFold q ts i ncnf s = (.ok c, s') →
        Fix W T s' c F0 ∧ ∀ j < ts.length, Fix W T s' c (Fs (i + j)) := by
  induction ts with
  | nil =>
    intro i ncnf s g F0 _ _ _ _ _ _ hf c s' e
    obtain ⟨rfl, rfl⟩ := ok_inj (show forallFold q [] i ncnf s = (.ok ncnf, s) from rfl) e
    exact ⟨hf, fun j hj => by simp at hj⟩
  | cons t ts ih =>
    intro i ncnf s g F0 hch hs hg hp hl hh hf c s' e
    have hp1 := hp.rescope (g' := { g with vIdx := (i : Nat), value := t }) hs (by simp)
    obtain ⟨hsh, hb⟩ := hch 0 t (by simp)
    have hsc : (⟨tgt, t, ((i + 0 : Nat) : Int)⟩ : Scope) = { g with vIdx := (i : Nat), value := t } := by rw [← hg]; rfl
    rw [hsc] at hsh hb
    obtain ⟨c2, s2, e2, p2, l2, g2⟩ := hsh _ hp1 hl hh rfl
    have f2 := hb _ hp1 hl hh rfl _ _ e2
    have f1 : Fix W T s2 ncnf F0 := by
      exact hf.ext ((Ext.of_vm_eq rfl rfl : Ext s { s with scopes := stack ++ [{ g with vIdx := (i : Nat), value := t }] }).trans
        p2.moves.ext)
    simp only [forallFold] at e
    rw [M_bind_ok (setScope_append hs (i : Nat) t), M_bind_ok e2] at e
    obtain ⟨k1, k2⟩ := ih (i + 1) (ncnf.conjunction c2) s2 { g with vIdx := (i : Nat), value := t } (F0 ++ Fs i) (by
        intro j t' hj
        have := hch (j + 1) t' (by simpa using hj)
        rw [show i + 1 + j = i + (j + 1) by omega]
        exact this) p2.moves.scopes hg p2.moves.pre l2 g2 (f1.conj f2) c s' e
    refine ⟨k1.mono fun u hu => List.mem_append_left _ hu, fun j hj => ?_⟩
    cases j with
    | zero => exact k1.mono fun u hu => List.mem_append_right _ hu
    | succ j =>
      have := k2 j (by simpa using hj)
      rwa [show i + 1 + j = i + (j + 1) by omega] at this

theorem Binds.encForall {k : QConst} {Γs : Nat → List QVar} {lvs : Nat → Levels} {Ps : Nat → Asg → Prop} {Fs : Nat → List (QVar × Role)}
    {ws : List WalkSt}
    (hok : newNodeAsValuesIter W.dim W.nodes = .ok (WalkSt.init W.dim W.nodes.length))
    (hws : Iterates W.nodes (WalkSt.init W.dim W.nodes.length) ws)
    (hch : ∀ i w, ws[i]? = some w → Shows W (Γs i) (Γs (i + 1)) (lvs i) (lvs (i + 1)) (stack ++ [⟨k.id, w.t, (i : Nat)⟩]) q (Ps i) ∧
      Binds W T (Γs i) (lvs i) (stack ++ [⟨k.id, w.t, (i : Nat)⟩]) q (Fs i)) :
    ∀ i < ws.length, Binds W T (Γs 0) (lvs 0) stack (encForall k (some q)) (Fs i) := by
  intro i hi
  refine Binds.wrapErr _ fun s hp hl hh hs c s' e => ?_
  subst hs
  have hp0 := hp.addScope k.id
  have hch' : ∀ j t, (ws.map (·.t))[j]? = some t → Shows W (Γs (0 + j)) (Γs (0 + j + 1)) (lvs (0 + j)) (lvs (0 + j + 1))
          (s.scopes ++ [⟨k.id, t, ((0 + j : Nat) : Int)⟩]) q (Ps (0 + j)) ∧
        Binds W T (Γs (0 + j)) (lvs (0 + j)) (s.scopes ++ [⟨k.id, t, ((0 + j : Nat) : Int)⟩]) q (Fs (0 + j)) := by
    intro j t hj
    simp only [List.getElem?_map, Option.map_eq_some_iff] at hj
    obtain ⟨w, hw, rfl⟩ := hj
    simpa using hch j w hw
  obtain ⟨c2, s2, g', e2, p, -, -⟩ := forallFold_shows (q := q) (Γs := Γs) (lvs := lvs) (Ps := Ps) (tgt := k.id) (ws.map (·.t)) 0 {}
    (s.addScope k.id) (s.addScope k.id) { target := k.id } (fun _ => True) (fun j t hj => (hch' j t hj).1) rfl rfl (.true hp0) hl hh
  have hbody : forallBody q (s.addScope k.id) = (.ok c2, s2) := by
    rcases forallBody_eq q (s.addScope k.id) with ⟨e', h1, -⟩ | ⟨ws', h1, -, h2⟩
    · rw [hp0.dim, hp0.nodes] at h1
      rw [show (W.at (lvs 0)).dim = W.dim from rfl, show (W.at (lvs 0)).nodes = W.nodes from rfl, hok] at h1
      simp at h1
    · rw [hp0.dim, hp0.nodes] at h1
      rw [h2, h1.unique hws]
      exact e2
  have hsc : s2.scopes = s.scopes ++ [g'] := p.moves.scopes
  have hne : s2.scopes ≠ [] := by rw [hsc]; simp
  have p1 : s2.popScope.2.topv = s2.topv := by unfold Ctx.popScope; split <;> rfl
  have p2 : s2.popScope.2.vmap = s2.vmap := by unfold Ctx.popScope; split <;> rfl
  have e' : forallBuild k q s = (.ok c2, s2.popScope.2) := by rw [forallBuild_of hbody hne]
  obtain ⟨rfl, rfl⟩ := ok_inj e' e
  have := (forallFold_binds (T := T) (q := q) (Γs := Γs) (lvs := lvs) (Ps := Ps) (Fs := Fs) (tgt := k.id) (ws.map (·.t)) 0 {}
    (s.addScope k.id) { target := k.id } [] hch' rfl rfl hp0 hl hh .nil _ _ e2).2 i (by simpa using hi)
  rw [Nat.zero_add] at this
  exact this.ext (.of_vm_eq p1 p2)

end

theorem Binds.all {q : M CNF} {lv : Levels} (h : ∀ u ∈ F, Binds W T Γ lv stack q [u]) : Binds W T Γ lv stack q F :=
  fun s hp hl hh hs c s' e s'' hv hx β σ hc ha u hu => h u hu s hp hl hh hs c s' e s'' hv hx β σ hc ha u (by simp)

theorem query_binds (q : Query) : ∀ (Γ : List QVar) (stack : List Scope) (lv : Levels),
    (q.ground W.dim T stack lv).Loose W.dim W.nodes T Γ → (q.loops = true → IsTree W.dim W.nodes T ∧ Covers W.nodes T) →
    (∀ n ∈ (q.ground W.dim T stack lv).names, W.isInst n ∧ W.may n) →
    (∀ u ∈ (q.ground W.dim T stack lv).emits W.dim, Plays W T u.1 u.2) →
    ∀ act, q.comp = some act → Binds W T Γ lv stack act ((q.ground W.dim T stack lv).emits W.dim) := by
  induction q with
  | nil => intro Γ stack lv h; exact h.elim
  | atom a =>
    intro Γ stack lv h _ _ hu act hact
    simp only [Query.comp, Option.some.injEq] at hact
    subst hact
    exact Binds.atom h.1 h.2
  | and q1 q2 ih1 ih2 =>
    intro Γ stack lv h ht hn hu act hact
    simp only [Query.ground, Ground.names, Ground.emits, List.mem_append, Query.loops, Bool.or_eq_true] at hn hu ht
    obtain ⟨a1, e1, c1⟩ := query_encoded q1 Γ stack lv h.1 (fun x => ht (.inl x)) (fun n hn' => hn n (.inl hn')) (fun u hu' => hu u (.inl hu'))
    obtain ⟨a2, e2, c2⟩ := query_encoded q2 _ stack _ h.2 (fun x => ht (.inr x)) (fun n hn' => hn n (.inr hn')) (fun u hu' => hu u (.inr hu'))
    simp only [Query.comp, Option.some.injEq] at hact
    subst hact
    rw [e1, e2]
    exact Binds.encAnd c1 c2 (ih1 Γ stack lv h.1 (fun x => ht (.inl x)) (fun n hn' => hn n (.inl hn')) (fun u hu' => hu u (.inl hu')) _ e1)
      (ih2 _ stack _ h.2 (fun x => ht (.inr x)) (fun n hn' => hn n (.inr hn')) (fun u hu' => hu u (.inr hu')) _ e2)
  | or q1 q2 ih1 ih2 =>
    intro Γ stack lv h ht hn hu act hact
    simp only [Query.ground, Ground.names, Ground.emits, List.mem_append, Query.loops, Bool.or_eq_true] at hn hu ht
    obtain ⟨a1, e1, c1⟩ := query_encoded q1 Γ stack lv h.1 (fun x => ht (.inl x)) (fun n hn' => hn n (.inl hn')) (fun u hu' => hu u (.inl hu'))
    obtain ⟨a2, e2, c2⟩ := query_encoded q2 _ stack _ h.2 (fun x => ht (.inr x)) (fun n hn' => hn n (.inr hn')) (fun u hu' => hu u (.inr hu'))
    simp only [Query.comp, Option.some.injEq] at hact
    subst hact
    rw [e1, e2]
    exact Binds.encOr c1 c2 (ih1 Γ stack lv h.1 (fun x => ht (.inl x)) (fun n hn' => hn n (.inl hn')) (fun u hu' => hu u (.inl hu')) _ e1)
      (ih2 _ stack _ h.2 (fun x => ht (.inr x)) (fun n hn' => hn n (.inr hn')) (fun u hu' => hu u (.inr hu')) _ e2)
  | not q ih =>
    intro Γ stack lv h ht hn hu act hact
    obtain ⟨a, e, c⟩ := query_encoded q Γ stack lv h ht hn hu
    simp only [Query.comp, Option.some.injEq] at hact
    subst hact
    rw [e]
    exact Binds.encNot c (ih Γ stack lv h ht hn hu _ e)
  | withVar x q ih =>
    intro Γ stack lv h ht hn hu act hact
    simp only [Query.ground, Ground.names, List.mem_cons] at hn
    obtain ⟨a, e, c⟩ := query_encoded q _ stack _ h ht (fun n hn' => hn n (.inr hn')) hu
    obtain ⟨h1, h2⟩ := hn _ (.inl rfl)
    simp only [Query.comp, Option.some.injEq] at hact
    subst hact
    rw [e]
    exact Binds.encWithVar rfl h1 h2 c (ih _ stack _ h ht (fun n hn' => hn n (.inr hn')) hu _ e)
  | forallG k q ih =>
    intro Γ stack lv h ht hn hu act hact
    simp only [Query.comp, Option.some.injEq] at hact
    subst hact
    obtain ⟨hT, hC⟩ := ht rfl
    have hok := C18_accepted _ _ _ hT.raw hC
    obtain ⟨ws, hws, -⟩ := C17_terminates _ _ _ hok
    obtain ⟨hv, hg⟩ := C18_values _ _ _ hT ws hws
    have hscope : scopesOf W.dim T k.id = ws.mapIdx fun i w => (⟨k.id, w.t, (i : Nat)⟩ : Scope) := by
      apply List.ext_getElem?
      intro i
      simp only [scopesOf, List.getElem?_map, List.getElem?_zipIdx, Option.map_map, List.getElem?_mapIdx]
      rw [← hv, List.getElem?_map]
      cases hw : ws[i]? with
      | none => rfl
      | some w =>
        simp only [Option.map_some, Option.some.injEq, Function.comp_apply, Nat.zero_add, scopeAt]
        rw [valsOf_den (hg w (List.mem_of_getElem? hw))]
    generalize hgs : (scopesOf W.dim T k.id).mapIdx (fun i g =>
      q.ground W.dim T (stack ++ [g]) (times (fun lv => q.levels (stack.length + 1) lv) i lv)) = gs
    have hG : (Query.forallG k q).ground W.dim T stack lv = .conj gs := by rw [← hgs]; rfl
    have hlen : gs.length = ws.length := by rw [← hgs, hscope]; simp
    have hget : ∀ i w, ws[i]? = some w → gs[i]? = some (q.ground W.dim T (stack ++ [⟨k.id, w.t, (i : Nat)⟩])
        (times (fun lv => q.levels (stack.length + 1) lv) i lv)) := by
      intro i w hw
      rw [← hgs, List.getElem?_mapIdx, hscope, List.getElem?_mapIdx, hw]
      rfl
    rw [hG] at h hn hu ⊢
    have hin : ∀ i w, ws[i]? = some w → ∃ act, q.comp = some act ∧
        Shows W (namesUpTo Γ gs i) (namesUpTo Γ gs (i + 1)) (times (fun lv => q.levels (stack.length + 1) lv) i lv)
          (times (fun lv => q.levels (stack.length + 1) lv) (i + 1) lv) (stack ++ [⟨k.id, w.t, (i : Nat)⟩]) act
          (fun σ => (q.ground W.dim T (stack ++ [⟨k.id, w.t, (i : Nat)⟩])
            (times (fun lv => q.levels (stack.length + 1) lv) i lv)).encoded W.dim T σ) ∧
        Binds W T (namesUpTo Γ gs i) (times (fun lv => q.levels (stack.length + 1) lv) i lv) (stack ++ [⟨k.id, w.t, (i : Nat)⟩]) act
          ((gs[i]?.map (Ground.emits W.dim)).getD []) := by
      intro i w hw
      have hgi := hget i w hw
      have hm := List.mem_of_getElem? hgi
      have hn1 := fun n hn' => hn n ((conj_names gs).2 ⟨_, hm, hn'⟩)
      have hu1 := fun u hu' => hu u ((conj_emits gs).2 ⟨_, hm, hu'⟩)
      obtain ⟨a, e, c⟩ := query_encoded q (namesUpTo Γ gs i) _ _ (conj_loose gs Γ h i _ hgi) (fun _ => ⟨hT, hC⟩) hn1 hu1
      refine ⟨a, e, ?_, ?_⟩
      · rw [namesUpTo_succ hgi]
        simp only [List.length_append, List.length_cons, List.length_nil, Nat.zero_add] at c
        exact c
      · rw [hgi]
        exact ih (namesUpTo Γ gs i) _ _ (conj_loose gs Γ h i _ hgi) (fun _ => ⟨hT, hC⟩) hn1 hu1 _ e
    cases hc : q.comp with
    | none =>
      obtain ⟨w, hw⟩ : ∃ w, ws[0]? = some w := by
        cases T <;> (cases ws <;> simp_all [DTree.nodeInsts])
      obtain ⟨a, e, -⟩ := hin 0 w hw
      rw [hc] at e; simp at e
    | some act =>
    have key := Binds.encForall (T := T) (stack := stack) (k := k) (q := act) (Γs := namesUpTo Γ gs)
      (lvs := fun i => times (fun lv => q.levels (stack.length + 1) lv) i lv)
      (Ps := fun i σ => ∀ w, ws[i]? = some w → (q.ground W.dim T (stack ++ [⟨k.id, w.t, (i : Nat)⟩])
            (times (fun lv => q.levels (stack.length + 1) lv) i lv)).encoded W.dim T σ)
      (Fs := fun i => (gs[i]?.map (Ground.emits W.dim)).getD []) hok hws (fun i w hw => by
        obtain ⟨a, e, c, b⟩ := hin i w hw
        rw [hc] at e
        simp only [Option.some.injEq] at e
        subst e
        exact ⟨c.congr fun σ => by rw [hw]; simp, b⟩)
    rw [namesUpTo_zero] at key
    refine Binds.all fun u hu' => ?_
    obtain ⟨g, hg', hu'⟩ := (conj_emits gs).1 hu'
    obtain ⟨i, hi, rfl⟩ := List.getElem_of_mem hg'
    refine (key i (hlen ▸ hi)).mono fun u' hu'' => ?_
    simp only [List.mem_singleton] at hu''
    subst hu''
    rw [List.getElem?_eq_getElem hi]
    exact hu'

/-! ### what is settled -/

theorem settles_emits {d : Nat} {a : Atom} {lv : Levels} {stk : List Scope} {u : QVar × Role} (h : u ∈ a.settles d lv stk) :
    u ∈ a.emits d lv stk := by
  cases a <;> try exact h
  exact (List.mem_filter.1 h).1

theorem ground_settles_emits {d : Nat} (g : Ground) {u : QVar × Role} : u ∈ g.settles d → u ∈ g.emits d := by
  induction g with
  | nil => exact id
  | tt => exact id
  | atom a lv stk => exact settles_emits
  | and g1 g2 ih1 ih2 => simp only [Ground.settles, Ground.emits, List.mem_append]; exact fun h => h.imp ih1 ih2
  | or g1 g2 ih1 ih2 => simp only [Ground.settles, Ground.emits, List.mem_append]; exact fun h => h.imp ih1 ih2
  | not g ih => exact ih
  | decl n g ih => exact ih

theorem settles_settled {d : Nat} {a : Atom} {lv : Levels} {stk : List Scope} {u : QVar × Role} (h : u ∈ a.settles d lv stk) :
    u.2.settled = true := by
  cases a with
  | leh t1 t2 t3 g e => exact (List.mem_filter.1 h).2
  | lel t1 t2 g =>
    cases g <;> cases t1 <;> cases t2 <;> simp [Atom.settles, Atom.emits, Atom.uses, Term.res] at h <;> grind [Role.settled]
  | isnode t g => cases g <;> cases t <;> simp [Atom.settles, Atom.emits, Atom.uses] at h <;> grind [Role.settled]
  | allcomp t b g => cases g <;> cases t <;> simp [Atom.settles, Atom.emits, Atom.uses] at h <;> grind [Role.settled]
  | hepr t1 t2 p g => cases g <;> cases t1 <;> cases t2 <;> simp [Atom.settles, Atom.emits, Atom.uses] at h <;> grind [Role.settled]
  | subs t1 t2 => simp [Atom.settles, Atom.emits, Atom.uses] at h
  | full t => simp [Atom.settles, Atom.emits, Atom.uses] at h
  | cons t1 t2 => simp [Atom.settles, Atom.emits, Atom.uses] at h
  | dfs t => simp [Atom.settles, Atom.emits, Atom.uses] at h

theorem ground_settles_settled {d : Nat} (g : Ground) {u : QVar × Role} : u ∈ g.settles d → u.2.settled = true := by
  induction g with
  | nil => intro h; simp [Ground.settles] at h
  | tt => intro h; simp [Ground.settles] at h
  | atom a lv stk => exact settles_settled
  | and g1 g2 ih1 ih2 => simp only [Ground.settles, List.mem_append]; exact fun h => h.elim ih1 ih2
  | or g1 g2 ih1 ih2 => simp only [Ground.settles, List.mem_append]; exact fun h => h.elim ih1 ih2
  | not g ih => exact ih
  | decl n g ih => exact ih

theorem Role.settled.clear {d : Nat} {σ : Asg} {ρ : Role} (h : ρ.settled = true) : ρ.clear d σ := by
  cases ρ with
  | dist t1 t2 => cases t2 <;> simp_all [Role.settled, Role.clear]
  | same => simp [Role.settled] at h
  | _ => trivial

/-! ### closed queries -/

theorem encodable_query {d : Nat} {nodes : List Node} {q : Query} (hg : q.Encodable d nodes T)
    {s : Ctx} (hs : Ready d nodes (q.flat d T).names s) :
    ∃ c s', q.encode s = (.ok c, s') ∧ WF c ∧ Ready d nodes [] s' ∧
      Shared d nodes T (q.flat d T).names (fun σ => (q.flat d T).encoded d T σ) ((q.flat d T).settles d) ((q.flat d T).emits d) s' c := by
  let W := worldOf d nodes T (fun _ => 0) hg.dim (q.flat d T).names [] ((q.flat d T).emits d)
  have hn : ∀ n ∈ (q.ground W.dim T [] fun _ => 0).names, W.isInst n ∧ W.may n := fun n hn => ⟨List.mem_append_left _ hn, hn⟩
  have hu : ∀ u ∈ (q.ground W.dim T [] fun _ => 0).emits W.dim, Plays W T u.1 u.2 := worldOf_plays fun u hu => by
    rw [List.append_nil]
    exact hg.apart u hu
  obtain ⟨act, e, hc⟩ := query_encoded (W := W) (T := T) q [] [] (fun _ => 0) hg.fits hg.tree hn hu
  have hb := query_binds (W := W) (T := T) q [] [] (fun _ => 0) hg.fits hg.tree hn hu act e
  have hp : Pre W [] s := Ready.pre (W := W) hs fun n hn => by
    have : n ∈ (q.flat d T).names ++ [] := hn
    simpa using this
  obtain ⟨c, s', e', p, l, hd⟩ := hc s hp (fun x => by rw [hs.vars]; rfl) (fun n hn => by simp at hn) hs.scopes
  have hfix := hb s hp (fun x => by rw [hs.vars]; rfl) (fun n hn => by simp at hn) hs.scopes c s' e'
  have hl0 : ∀ x k, mapGet s'.vars x = some k → k = 0 := by
    intro x k hk
    have := p.moves.pre.scope x k hk
    rw [p.moves.scopes, hs.scopes] at this
    simp at this
    omega
  have hx := (p.at (lv' := fun _ => 0) hl0).exact (W := W) hp hs.scopes fun n hn => hs.fresh n (by
    have : n ∈ (q.flat d T).names ++ [] := hn
    simpa using this)
  have hdecl : ∀ n ∈ (q.flat d T).names, Declared s' n := fun n hn => (hd n (List.mem_append_left _ hn)).2
  have hag : ∀ β σ, (∀ n ∈ (q.flat d T).names, Reads d s' β n (σ n)) ↔ Agree W s' β σ := by
    intro β σ
    exact ⟨fun h n hn hnd => h n (hx.decl n hn hnd), fun h n hn => h n (List.mem_append_left _ hn) (hdecl n hn)⟩
  refine ⟨c, s', by rw [Query.encode_eq e]; exact e', hx.wf,
    ⟨hx.vm, hx.dim.trans hs.dim, hx.nodes.trans hs.nodes, hx.scopes, hx.vars, by simp⟩, ?_, ?_, ?_, ?_⟩
  · intro β hβ
    obtain ⟨σ, hσ⟩ := hx.reads β hβ
    exact ⟨σ, (hag β σ).2 hσ⟩
  · intro β σ hβ hσ u hu u' hu' hn i v hi hi'
    have key := hfix.sets hx.vm hβ ((hag β σ).1 hσ)
    have key := fun u hu => key u (ground_settles_emits _ hu) (Role.settled.clear (ground_settles_settled _ hu))
    exact (key u' hu' i v hi').symm.trans ((congrArg (fun n => symVal s' β ⟨n, i, v⟩) hn).trans (key u hu i v hi))
  · intro σ hσ
    obtain ⟨β, h1, h2⟩ := hx.con σ hσ
    exact ⟨β, h1, (hag β σ).2 h2⟩
  · intro β σ h1 h2
    exact hx.sem β σ h1 ((hag β σ).1 h2)

theorem Shared.says {d : Nat} {nodes : List Node} {names : List QVar} {P Q : Asg → Prop} {settles uses : List (QVar × Role)}
    (h : Shared d nodes T names P settles uses s' c) (h1 : ∀ σ, P σ → Coherent d nodes T settles σ → Q σ)
    (h2 : ∀ σ, Q σ → P σ ∧ Coherent d nodes T uses σ) : Says d names Q s' c := by
  have hdec : ∀ β, Models β c → ∃ σ, Q σ ∧ ∀ n ∈ names, Reads d s' β n (σ n) := by
    rintro β ⟨hs, hc⟩
    obtain ⟨σ, hσ⟩ := h.reads β hc
    exact ⟨σ, h1 σ ((h.sem β σ hc hσ).1 hs) (h.settled β σ hc hσ), hσ⟩
  have henc : ∀ σ, Q σ → ∃ β, Models β c ∧ ∀ n ∈ names, Reads d s' β n (σ n) := by
    intro σ hσ
    obtain ⟨hP, hC⟩ := h2 σ hσ
    obtain ⟨β, hc, hr⟩ := h.con σ hC
    exact ⟨β, ⟨(h.sem β σ hc hr).2 hP, hc⟩, hr⟩
  refine ⟨⟨?_, ?_⟩, hdec, henc⟩
  · rintro ⟨β, hβ⟩
    obtain ⟨σ, hσ, -⟩ := hdec β hβ
    exact ⟨σ, hσ⟩
  · rintro ⟨σ, hσ⟩
    obtain ⟨β, hβ, -⟩ := henc σ hσ
    exact ⟨β, hβ⟩

theorem Says.congr {d : Nat} {names : List QVar} {P Q : Asg → Prop} (h : Says d names P s' c) (hq : ∀ σ, P σ ↔ Q σ) : Says d names Q s' c := by
  have : P = Q := funext fun σ => propext (hq σ)
  rwa [← this]

/-! ### nodes -/

theorem lands_iff {d : Nat} {e : PInst} (T : DTree) : ∀ e0 : PInst, T.ReadOnce → (∀ f ∈ T.feats, f < d) → (∀ f ∈ T.feats, e0 f = none) →
    Subsumes d e0 e → ((∀ p ∈ T.nodeInsts e0, Cons d p.2 e → Subsumes d p.2 e) ↔ Lands e T) := by
  induction T with
  | leaf i v =>
    intro e0 _ _ _ h
    simp [DTree.nodeInsts, Lands, h]
  | node i f z o ihz iho =>
    intro e0 hro hf h0 h
    obtain ⟨hfz, hfo, hroz, hroo⟩ := hro
    have hfd : f < d := hf f (by simp [DTree.feats])
    have hset : ∀ b, e f = some b → Subsumes d (e0.set f b) e := by
      intro b hb j hj hne
      by_cases hjf : j = f
      · subst hjf; simp [PInst.set, hb]
      · simp only [PInst.set, hjf, if_false] at hne ⊢
        exact h j hj hne
    have hnone : ∀ {t : DTree} b, f ∉ t.feats → (∀ g ∈ t.feats, g ∈ (DTree.node i f z o).feats) → ∀ g ∈ t.feats, (e0.set f b) g = none := by
      intro t b hft ht g hg
      have : g ≠ f := by rintro rfl; exact hft hg
      simp only [PInst.set, this, if_false]
      exact h0 g (ht g hg)
    have hz : ∀ g ∈ z.feats, g ∈ (DTree.node i f z o).feats := fun g hg => by simp [DTree.feats, hg]
    have ho : ∀ g ∈ o.feats, g ∈ (DTree.node i f z o).feats := fun g hg => by simp [DTree.feats, hg]
    have kz := fun hb => ihz (e0.set f false) hroz (fun g hg => hf g (hz g hg)) (hnone false hfz hz) (hset false hb)
    have ko := fun hb => iho (e0.set f true) hroo (fun g hg => hf g (ho g hg)) (hnone true hfo ho) (hset true hb)
    simp only [DTree.nodeInsts, List.mem_cons, List.mem_append, Lands]
    constructor
    · intro hall
      cases hb : e f with
      | none =>
        obtain ⟨j, hj⟩ : ∃ j, (j, e0.set f false) ∈ z.nodeInsts (e0.set f false) := by
          cases z <;> simp [DTree.nodeInsts]
        have := hall _ (.inr (.inl hj)) (by
          intro k hk h1 h2
          have hkf : k ≠ f := by rintro rfl; exact h2 hb
          simp only [PInst.set, hkf, if_false] at h1 ⊢
          exact h k hk h1) f hfd (by simp [PInst.set])
        simp [PInst.set, hb] at this
      | some b =>
        cases b with
        | false => exact .inl ⟨rfl, (kz hb).1 fun p hp => hall p (.inr (.inl hp))⟩
        | true => exact .inr ⟨rfl, (ko hb).1 fun p hp => hall p (.inr (.inr hp))⟩
    · rintro (⟨hb, hl⟩ | ⟨hb, hl⟩) p (rfl | hp | hp) hc
      · exact h
      · exact (kz hb).2 hl p hp hc
      · have h1 := nodeInsts_out hp hfo
        have := hc f hfd (by rw [h1]; simp [PInst.set]) (by simp [hb])
        rw [h1, hb] at this
        simp [PInst.set] at this
      · exact h
      · have h1 := nodeInsts_out hp hfz
        have := hc f hfd (by rw [h1]; simp [PInst.set]) (by simp [hb])
        rw [h1, hb] at this
        simp [PInst.set] at this
      · exact (ko hb).2 hl p hp hc

theorem nodup_fst_inj {α β : Type} {l : List (α × β)} (h : (l.map Prod.fst).Nodup) {p p' : α × β} (hp : p ∈ l) (hp' : p' ∈ l)
    (e : p.1 = p'.1) : p = p' := by
  induction l with
  | nil => simp at hp
  | cons a l ih =>
    simp only [List.map_cons, List.nodup_cons, List.mem_map, not_exists, not_and] at h
    rcases List.mem_cons.1 hp with rfl | h1 <;> rcases List.mem_cons.1 hp' with rfl | h2
    · rfl
    · exact absurd e.symm (h.1 p' h2)
    · exact absurd e (h.1 p h1)
    · exact ih h.2 h1 h2

theorem marks_agree {d : Nat} {nodes : List Node} {σ : Asg} {n : QVar} (hT : IsTree d nodes T) :
    (∀ i v, Role.range d nodes i v (.onPath n) → Role.range d nodes i v (.reach n) → Role.mean d T σ i v (.reach n) = Role.mean d T σ i v (.onPath n)) ↔
      Lands (σ n) T := by
  rw [← lands_iff (d := d) T bot hT.once hT.range (fun _ _ => rfl) (fun i _ h => absurd rfl h)]
  have hid := nodeInsts_indexes T bot
  constructor
  · intro h p hp hc
    have hlt : p.1 < nodes.length := laysOut_lt hT.laid _ (hid ▸ List.mem_map_of_mem hp)
    have := h 0 (p.1 : Nat) ⟨rfl, by omega, by omega⟩ ⟨rfl, by omega, by omega⟩
    simp only [Role.mean, decide_eq_decide] at this
    obtain ⟨p', hp', he, hs⟩ := this.1 ⟨p, hp, rfl, hc⟩
    have : p' = p := by
      have hnd : ((T.nodeInsts bot).map Prod.fst).Nodup := hid ▸ hT.nodup
      exact nodup_fst_inj hnd hp' hp (by exact_mod_cast he)
    rwa [this] at hs
  · intro h i v _ _
    simp only [Role.mean, decide_eq_decide]
    constructor
    · rintro ⟨p, hp, he, hc⟩
      exact ⟨p, hp, he, h p hp hc⟩
    · rintro ⟨p, hp, he, hc⟩
      exact ⟨p, hp, he, fun k hk h1 _ => hc k hk h1⟩

theorem coherent_nodes {d : Nat} {nodes : List Node} {uses : List (QVar × Role)} {σ : Asg} (hT : IsTree d nodes T) (hu : NodesShared uses) :
    Coherent d nodes T uses σ ↔ ∀ n, sharedBy uses n → Lands (σ n) T := by
  constructor
  · rintro h n ⟨a, h1, h2⟩
    exact (marks_agree hT).1 fun i v hi hi' => h _ h1 _ h2 rfl i v hi hi'
  · intro h u hu1 u' hu2 e i v hi hi'
    rcases hu u hu1 u' hu2 e with h1 | ⟨n, ⟨h1, h2⟩ | ⟨h1, h2⟩⟩
    · rw [h1]
    · obtain ⟨a, ρ⟩ := u; obtain ⟨a', ρ'⟩ := u'
      simp only at h1 h2 e hi hi'
      subst h1 h2 e
      exact (marks_agree hT).2 (h n ⟨_, hu1, hu2⟩) i v hi hi'
    · obtain ⟨a, ρ⟩ := u; obtain ⟨a', ρ'⟩ := u'
      simp only at h1 h2 e hi hi'
      subst h1 h2 e
      exact ((marks_agree hT).2 (h n ⟨_, hu2, hu1⟩) i v hi' hi).symm

/-- Roles of the other predicates than `leh` -/
def Role.byLeh : Role → Bool
  | .dist _ _ => true
  | .same _ _ => true
  | _ => false

theorem leh_roles {t1 t2 t3 : Term} {g e : Option (QVar → QVar → QVar)} {lv : Levels} {stk : List Scope} {u : QVar × Role}
    (h : u ∈ (Atom.leh t1 t2 t3 g e).uses lv stk) : u.2.byLeh = true := by
  cases t1 <;> cases t2 <;> cases t3 <;> cases g <;> cases e <;>
    simp only [Atom.uses, List.not_mem_nil, List.mem_cons, List.mem_map, List.flatMap_cons, List.flatMap_nil, List.mem_append, Term.res,
      or_false, List.append_nil] at h <;> grind [Role.byLeh]

theorem ground_uses_settles {d : Nat} (g : Ground) {u : QVar × Role} (hr : u.2.byLeh = false) : u ∈ g.uses → u ∈ g.settles d := by
  induction g with
  | nil => exact id
  | tt => exact id
  | atom a lv stk =>
    intro h
    cases a <;> try exact h
    rw [leh_roles h] at hr
    simp at hr
  | and g1 g2 ih1 ih2 => simp only [Ground.settles, Ground.uses, List.mem_append]; exact fun h => h.imp ih1 ih2
  | or g1 g2 ih1 ih2 => simp only [Ground.settles, Ground.uses, List.mem_append]; exact fun h => h.imp ih1 ih2
  | not g ih => exact ih
  | decl n g ih => exact ih

theorem Coherent.mono {d : Nat} {nodes : List Node} {us us' : List (QVar × Role)} {σ : Asg} (h : Coherent d nodes T us σ)
    (hs : ∀ u ∈ us', u ∈ us) : Coherent d nodes T us' σ :=
  fun u hu u' hu' => h u (hs u hu) u' (hs u' hu')

/-! ### declarations at the top -/

theorem declare_zero_levels (x : QVar) : Levels.declare (fun _ => 0) 0 x = fun _ => 0 := by
  funext y; simp [Levels.declare]

theorem declare_flat {d : Nat} (q : Query) : ∀ xs : List QVar,
    ((declare xs q).flat d T).names = xs ++ (q.flat d T).names ∧ ((declare xs q).flat d T).uses = (q.flat d T).uses ∧
    ((declare xs q).flat d T).emits d = (q.flat d T).emits d ∧ ((declare xs q).flat d T).settles d = (q.flat d T).settles d ∧
    (∀ σ, ((declare xs q).flat d T).encoded d T σ ↔ (q.flat d T).encoded d T σ) ∧ (declare xs q).loops = q.loops := by
  intro xs
  induction xs with
  | nil => simp [declare]
  | cons x xs ih =>
    have : (declare (x :: xs) q).flat d T = .decl x ((declare xs q).flat d T) := by
      simp [Query.flat, declare, Query.ground, declare_zero_levels, suffix]
    rw [this]
    refine ⟨?_, ih.2.1, ih.2.2.1, ih.2.2.2.1, ih.2.2.2.2.1, ih.2.2.2.2.2⟩
    rw [show (Ground.decl x ((declare xs q).flat d T)).names = x :: ((declare xs q).flat d T).names from rfl, ih.1]
    rfl

theorem declare_flat_loose {d : Nat} {nodes : List Node} (q : Query) : ∀ (xs Γ : List QVar),
    (∀ Γ', (∀ x ∈ xs ++ Γ, x ∈ Γ') → (q.flat d T).Loose d nodes T Γ') → ((declare xs q).flat d T).Loose d nodes T Γ := by
  intro xs
  induction xs with
  | nil => intro Γ h; exact h Γ (by simp)
  | cons x xs ih =>
    intro Γ h
    have : (declare (x :: xs) q).flat d T = .decl x ((declare xs q).flat d T) := by
      simp [Query.flat, declare, Query.ground, declare_zero_levels, suffix]
    rw [this]
    exact ih (x :: Γ) fun Γ' hΓ => h Γ' fun y hy => hΓ y (by simp at hy ⊢; grind)

/-! ### distances -/

/-- Two counts agree at all positions exactly if they count the same. -/
theorem counts_agree {d : Nat} {p p' : Nat → Bool} (h : ∀ i < d, countFeats (i + 1) p = countFeats (i + 1) p') : ∀ i < d, p i = p' i := by
  intro i hi
  have step : ∀ p : Nat → Bool, countFeats (i + 1) p = countFeats i p + (if p i then 1 else 0) := by
    intro p
    simp [countFeats, List.range_succ, List.countP_append, List.countP_cons]
  have h1 := h i hi
  rw [step p, step p'] at h1
  have h0 : countFeats i p = countFeats i p' := by
    cases i with
    | zero => simp [countFeats]
    | succ i => exact h i (by omega)
  rw [h0] at h1
  cases hp : p i <;> cases hp' : p' i <;> simp_all

theorem dist_agree {d : Nat} {nodes : List Node} {σ : Asg} {uses : List (QVar × Role)} (h : Coherent d nodes T uses σ) {a n : QVar}
    {t t' : RTerm} (h1 : (a, Role.dist (.name n) t) ∈ uses) (h2 : (a, Role.dist (.name n) t') ∈ uses) :
    ∀ i < d, (σ n i = t.den σ i ↔ σ n i = t'.den σ i) := by
  have hle : ∀ (k : Nat) (p : Nat → Bool), countFeats k p ≤ k := fun k p => by
    have := List.countP_le_length (p := p) (l := List.range k)
    simpa [countFeats] using this
  have := counts_agree (d := d) (p := fun i => σ n i != t.den σ i) (p' := fun i => σ n i != t'.den σ i) fun i hi => by
    have hb := hle (i + 1) fun k => σ n k != t.den σ k
    have := h _ h1 _ h2 rfl (i : Nat) (countFeats (i + 1) fun k => σ n k != t.den σ k : Nat) ⟨by omega, by omega, by omega, by omega⟩
      ⟨by omega, by omega, by omega, by omega⟩
    simp [Role.mean, RTerm.den, Int.ofNat_inj] at this
    exact this.symm
  intro i hi
  have h3 := this i hi
  by_cases h4 : σ n i = t.den σ i <;> by_cases h5 : σ n i = t'.den σ i <;> simp_all

end Goexpdt

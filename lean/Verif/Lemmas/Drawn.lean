import Verif.Spec.Marking
import Verif.Lemmas.CaptureAtoms
import Verif.Lemmas.CaptureQuery
import Verif.Lemmas.Diagram
/- What an encoding says about its triples, without any meaning of auxiliary variables being given beforehand. -/
namespace Goexpdt
open Spec

/-- The valuation of triples depends on the triples of the context only. -/
def Local (s : Ctx) (K : (VarRep → Bool) → Prop) : Prop := ∀ ν ν', (∀ vr, Named s vr → ν vr = ν' vr) → (K ν ↔ K ν')

/-- Outside of quantifiers, in a context for the model. -/
structure Outer (d : Nat) (nodes : List Node) (D : List QVar) (s : Ctx) : Prop where
  vm : VMok s
  dim : s.dim = d
  nodes : s.nodes = nodes
  scopes : s.scopes = []
  vars : s.vars = []
  decl : ∀ x ∈ D, Declared s x

/-- Two CNFs encoded from `s` to `s'`: their consistency clauses say `K` about the triples, and their semantic clauses then say `F1` and
`F2`. -/
structure Drawn2 (s s' : Ctx) (c1 c2 : CNF) (K F1 F2 : (VarRep → Bool) → Prop) : Prop where
  vm : VMok s'
  ext : Ext s s'
  keeps : Keeps s s'
  wf1 : WF c1
  wf2 : WF c2
  top1 : c1.tv ≤ s'.topv
  top2 : c2.tv ≤ s'.topv
  localK : Local s' K
  local1 : Local s' F1
  local2 : Local s' F2
  con : ∀ β, ConTrue β c1 → ConTrue β c2 → K (symVal s' β)
  sem1 : ∀ β, ConTrue β c1 → ConTrue β c2 → (SemTrue β c1 ↔ F1 (symVal s' β))
  sem2 : ∀ β, ConTrue β c1 → ConTrue β c2 → (SemTrue β c2 ↔ F2 (symVal s' β))
  inv : ∀ β, K (symVal s' β) → ∃ β', SameNamed s.topv s' β β' ∧ ConTrue β' c1 ∧ ConTrue β' c2

/-- The same for one CNF. -/
def Drawn (s s' : Ctx) (c : CNF) (K F : (VarRep → Bool) → Prop) : Prop := Drawn2 s s' c {} K F (fun _ => True)

namespace Drawn2

variable {s s1 s2 s' : Ctx} {c c1 c2 : CNF} {K K1 K2 F F1 F2 : (VarRep → Bool) → Prop}

theorem local_ext (he : Ext s s') (h : Local s K) : Local s' K := fun ν ν' hν => h ν ν' fun vr hn => hν vr (he.named hn)

theorem local_sym (he : Ext s s') (h : Local s K) (β : Val) : K (symVal s' β) ↔ K (symVal s β) :=
  h _ _ fun _ hn => symVal_ext he hn β

theorem local_same (hv : VMok s) (h : Local s K) {m : Int} {β β' : Val} (hs : SameNamed m s β β') : K (symVal s β') ↔ K (symVal s β) :=
  h _ _ fun _ hn => hs.symVal hv hn

theorem one (a : VMok s') (b : Ext s s') (k : Keeps s s') (w : WF c) (t : c.tv ≤ s'.topv) (l1 : Local s' K) (l2 : Local s' F)
    (h1 : ∀ β, ConTrue β c → K (symVal s' β)) (h2 : ∀ β, ConTrue β c → (SemTrue β c ↔ F (symVal s' β)))
    (h3 : ∀ β, K (symVal s' β) → ∃ β', SameNamed s.topv s' β β' ∧ ConTrue β' c) : Drawn s s' c K F :=
  ⟨a, b, k, w, WF.empty, t, a.topv_nonneg, l1, l2, fun _ _ _ => Iff.rfl, fun β h _ => h1 β h, fun β h _ => h2 β h,
    fun β _ _ => by simp [SemTrue], fun β h => by obtain ⟨β', x, y⟩ := h3 β h; exact ⟨β', x, y, by simp [ConTrue]⟩⟩

theorem congr {K' F1' F2' : (VarRep → Bool) → Prop} (h : Drawn2 s s' c1 c2 K F1 F2) (e : ∀ ν, K ν ↔ K' ν) (e1 : ∀ ν, F1 ν ↔ F1' ν)
    (e2 : ∀ ν, F2 ν ↔ F2' ν) : Drawn2 s s' c1 c2 K' F1' F2' := by
  obtain rfl : K = K' := funext fun ν => propext (e ν)
  obtain rfl : F1 = F1' := funext fun ν => propext (e1 ν)
  obtain rfl : F2 = F2' := funext fun ν => propext (e2 ν)
  exact h

theorem symm (h : Drawn2 s s' c1 c2 K F1 F2) : Drawn2 s s' c2 c1 K F2 F1 :=
  ⟨h.vm, h.ext, h.keeps, h.wf2, h.wf1, h.top2, h.top1, h.localK, h.local2, h.local1, fun β a b => h.con β b a, fun β a b => h.sem2 β b a,
    fun β a b => h.sem1 β b a, fun β hk => by obtain ⟨β', a, b, c⟩ := h.inv β hk; exact ⟨β', a, c, b⟩⟩

theorem of_seq (h1 : Drawn s s1 c1 K1 F1) (h2 : Drawn s1 s2 c2 K2 F2) : Drawn2 s s2 c1 c2 (fun ν => K1 ν ∧ K2 ν) F1 F2 := by
  have he := h2.ext
  have ne : ∀ β, ConTrue β {} := fun β => by simp [ConTrue]
  refine ⟨h2.vm, h1.ext.trans he, h1.keeps.trans h2.keeps, h1.wf1, h2.wf1, ?_, h2.top1, ?_, local_ext he h1.local1, h2.local1, ?_, ?_, ?_, ?_⟩
  · have := h1.top1; have := he.topv_le; omega
  · exact fun ν ν' hν => and_congr (local_ext he h1.localK ν ν' hν) (h2.localK ν ν' hν)
  · intro β hc1 hc2
    exact ⟨(local_sym he h1.localK β).2 (h1.con β hc1 (ne β)), h2.con β hc2 (ne β)⟩
  · intro β hc1 _
    rw [h1.sem1 β hc1 (ne β)]
    exact (local_sym he h1.local1 β).symm
  · intro β _ hc2; exact h2.sem1 β hc2 (ne β)
  · rintro β ⟨k1, k2⟩
    obtain ⟨β1, hs1, ht1, -⟩ := h1.inv β ((local_sym he h1.localK β).1 k1)
    have hs1' : SameNamed s.topv s2 β β1 := hs1.trans h1.ext he (.refl _ _ _)
    obtain ⟨β2, hs2, ht2, -⟩ := h2.inv β1 ((local_same h2.vm h2.localK hs1').2 k2)
    exact ⟨β2, hs1.trans h1.ext he hs2, conTrue_same h1.wf1 h1.top1 hs2 ht1, ht2⟩

theorem merge (h : Drawn2 s s' c1 c2 K F1 F2) : Drawn s s' (c1.conjunction c2) K (fun ν => F1 ν ∧ F2 ν) := by
  refine one h.vm h.ext h.keeps (h.wf1.conjunction h.wf2) (conjunction_tv_le h.top1 h.wf2 h.top2) h.localK
    (fun ν ν' hν => and_congr (h.local1 ν ν' hν) (h.local2 ν ν' hν)) ?_ ?_ ?_
  · intro β hc; rw [conTrue_conjunction] at hc; exact h.con β hc.1 hc.2
  · intro β hc
    rw [conTrue_conjunction] at hc
    rw [semTrue_conjunction, h.sem1 β hc.1 hc.2, h.sem2 β hc.1 hc.2]
  · intro β hk
    obtain ⟨β', hs, hc⟩ := h.inv β hk
    exact ⟨β', hs, conTrue_conjunction.2 hc⟩

/-- Negating the first CNF with the context's top variable and raising the latter. -/
theorem neg (h : Drawn2 s s1 c1 c2 K F1 F2) :
    Drawn2 s (s1.updateTopV (c1.negate (some s1.topv)).tv).2 (c1.negate (some s1.topv)) c2 K (fun ν => ¬ F1 ν) F2 := by
  obtain ⟨ha, hb, hc⟩ := updateTopV_tame s1 (c1.negate (some s1.topv)).tv
  obtain ⟨hm1, hm2, ht⟩ := hc h.vm
  have hv : (s1.updateTopV (c1.negate (some s1.topv)).tv).2.vmap = s1.vmap := by
    unfold Ctx.updateTopV; split <;> rfl
  obtain ⟨new, h1, h2, h3, h4, h5, h6, h7, h8⟩ := negate_spec c1 (some s1.topv) h.wf1.tv_nonneg h.wf1.sNonZero
  generalize hN : c1.negate (some s1.topv) = N at *
  generalize (s1.updateTopV N.tv).2 = s2 at *
  have hnt : negTop c1 (some s1.topv) = s1.topv := by
    have := h.top1; simp only [negTop]; omega
  rw [hnt] at h2 h8
  have hsv : ∀ β, symVal s2 β = symVal s1 β := by intro β; funext vr; simp only [symVal, num, hv]
  have hcN : ∀ β, ConTrue β N ↔ ConTrue β c1 ∧ clausesTrue β new := by
    intro β; unfold ConTrue; rw [h1, clausesTrue_append]
  refine ⟨hm1, h.ext.trans hm2, h.keeps.trans ⟨ha.scopes, hb, ha.dim, ha.nodes⟩, hN ▸ h.wf1.negate _, h.wf2, by omega,
    by have := h.top2; omega, local_ext hm2 h.localK, fun ν ν' hν => not_congr (local_ext hm2 h.local1 ν ν' hν),
    local_ext hm2 h.local2, ?_, ?_, ?_, ?_⟩
  · intro β hc1 hc2; rw [hsv]; exact h.con β ((hcN β).1 hc1).1 hc2
  · intro β hc1 hc2
    obtain ⟨a, b⟩ := (hcN β).1 hc1
    rw [h7 β b, h.sem1 β a hc2, hsv]
  · intro β hc1 hc2; rw [hsv]; exact h.sem2 β ((hcN β).1 hc1).1 hc2
  · intro β hk
    rw [hsv] at hk
    obtain ⟨β1, hs1, ha1, hb1⟩ := h.inv β hk
    obtain ⟨β2, hs2, hb2⟩ := h8 (h.wf1.sBound.mono h.top1) β1
    have hs2' : SameNamed s1.topv s2 β1 β2 := by
      intro k hk
      apply hs2
      rcases hk with hk | hk | ⟨vr, hk⟩
      · exact .inl hk
      · right; omega
      · rw [hv] at hk; exact .inl (h.vm.range _ _ hk).2
    exact ⟨β2, hs1.trans h.ext hm2 hs2',
      (hcN β2).2 ⟨conTrue_same h.wf1 h.top1 hs2' ha1, hb2⟩, conTrue_same h.wf2 h.top2 hs2' hb1⟩

end Drawn2

/-- The command, in every context for the model outside of quantifiers, succeeds with a CNF that says `K` and `F` about its triples. -/
def Draws (d : Nat) (nodes : List Node) (D : List QVar) (act : M CNF) (K F : (VarRep → Bool) → Prop) : Prop :=
  ∀ s, Outer d nodes D s → ∃ c s', act s = (.ok c, s') ∧ Drawn s s' c K F

theorem Outer.keeps {d : Nat} {nodes : List Node} {D : List QVar} {s s' : Ctx} (h : Outer d nodes D s) (k : Keeps s s') (hv : VMok s') (he : Ext s s') :
    Outer d nodes D s' :=
  ⟨hv, k.dim.trans h.dim, k.nodes.trans h.nodes, k.scopes.trans h.scopes, k.vars.trans h.vars, fun x hx => he.named (h.decl x hx)⟩

namespace Draws

variable {d : Nat} {nodes : List Node} {D : List QVar} {q q1 q2 : M CNF} {K K1 K2 F F1 F2 : (VarRep → Bool) → Prop}

theorem congr {K' F' : (VarRep → Bool) → Prop} (h : Draws d nodes D q K F) (e : ∀ ν, K ν ↔ K' ν) (e1 : ∀ ν, F ν ↔ F' ν) :
    Draws d nodes D q K' F' := fun s hs => by
  obtain ⟨c, s', a, b⟩ := h s hs; exact ⟨c, s', a, Drawn2.congr b e e1 fun _ => Iff.rfl⟩

theorem wrapErr (pre : String) (h : Draws d nodes D q K F) : Draws d nodes D (M.wrapErr pre q) K F := fun s hs => by
  obtain ⟨c, s', a, b⟩ := h s hs; exact ⟨c, s', wrapErr_ok a, b⟩

theorem encAnd (h1 : Draws d nodes D q1 K1 F1) (h2 : Draws d nodes D q2 K2 F2) :
    Draws d nodes D (Goexpdt.encAnd (some q1) (some q2)) (fun ν => K1 ν ∧ K2 ν) (fun ν => F1 ν ∧ F2 ν) := by
  refine wrapErr _ fun s hs => ?_
  obtain ⟨c1, s1, e1, p1⟩ := h1.wrapErr "Q1" s hs
  obtain ⟨c2, s2, e2, p2⟩ := h2.wrapErr "Q2" s1 (hs.keeps p1.keeps p1.vm p1.ext)
  refine ⟨_, s2, ?_, (Drawn2.of_seq p1 p2).merge⟩
  show andBuild q1 q2 s = _
  unfold andBuild
  rw [M_bind_ok e1, M_bind_ok e2]; rfl

theorem encNot (h : Draws d nodes D q K F) : Draws d nodes D (Goexpdt.encNot (some q)) K (fun ν => ¬ F ν) := by
  refine wrapErr _ fun s hs => ?_
  obtain ⟨c1, s1, e1, p1⟩ := h s hs
  refine ⟨_, _, ?_, p1.neg⟩
  simp only [notBuild_eq]
  rw [M_bind_ok e1, negStep_eq]

theorem encOr (h1 : Draws d nodes D q1 K1 F1) (h2 : Draws d nodes D q2 K2 F2) :
    Draws d nodes D (Goexpdt.encOr (some q1) (some q2)) (fun ν => K1 ν ∧ K2 ν) (fun ν => F1 ν ∨ F2 ν) := by
  refine wrapErr _ fun s hs => ?_
  obtain ⟨c1, s1, e1, p1⟩ := h1.wrapErr "Q1" s hs
  obtain ⟨c2, s2, e2, p2⟩ := h2.wrapErr "Q2" s1 (hs.keeps p1.keeps p1.vm p1.ext)
  refine ⟨_, _, ?_, Drawn2.congr (Drawn2.of_seq p1 p2).neg.symm.neg.symm.merge.neg (fun _ => Iff.rfl) ?_ fun _ => Iff.rfl⟩
  · simp only [orBuild_eq]
    rw [M_bind_ok e1, M_bind_ok e2, M_bind_ok (negStep_eq c1 s2), M_bind_ok (negStep_eq c2 _), negStep_eq]
  · intro ν
    by_cases a : F1 ν <;> by_cases b : F2 ν <;> simp [a, b]

/-! ### predicates -/

theorem step {α : Type} {x : M α} {f : α → M CNF} (a : α) (h : ∀ s, Outer d nodes D s → x s = (.ok a, s)) (hc : Draws d nodes D (f a) K F) :
    Draws d nodes D (x >>= f) K F := by
  intro s hs
  rw [M_bind_ok (h s hs)]
  exact hc s hs

theorem dim {f : Nat → M CNF} (hc : Draws d nodes D (f d) K F) : Draws d nodes D (M.dim >>= f) K F :=
  .step d (fun s hp => by show (Except.ok s.dim, s) = _; rw [hp.dim]) hc

theorem model {f : List Node → M CNF} (hc : Draws d nodes D (f nodes) K F) : Draws d nodes D (M.nodes >>= f) K F :=
  .step nodes (fun s hp => by show (Except.ok s.nodes, s) = _; rw [hp.nodes]) hc

theorem lift {α : Type} {r : Except Err α} {a : α} (h : r = .ok a) {f : α → M CNF} (hc : Draws d nodes D (f a) K F) :
    Draws d nodes D (M.lift r >>= f) K F := .step a (fun s _ => by show (r, s) = _; rw [h]) hc

theorem scopeVar {x : QVar} {f : QVar → M CNF} (hc : Draws d nodes D (f x) K F) : Draws d nodes D (M.scopeVar x >>= f) K F :=
  .step x (fun s hs => by
    show (s.scopeVar x, s) = _
    rw [scopeVar_eq (s := s) (by intro v k hk; rw [hs.vars] at hk; simp [mapGet] at hk), hs.scopes]
    simp [suffix]) hc

theorem scopeConst (c : QConst) {f : QConst → M CNF} (hc : Draws d nodes D (f c) K F) : Draws d nodes D (M.scopeConst c >>= f) K F :=
  .step c (fun s hs => by
    show (Except.ok (s.scopeConst c).1, s) = _
    rw [scopeConst_eq, hs.scopes]; rfl) hc

theorem validate {cs : List QConst} (h : ∀ c ∈ cs, c.val.length = d) {f : Unit → M CNF} (hc : Draws d nodes D (f ()) K F) :
    Draws d nodes D (validateM cs >>= f) K F :=
  .step () (fun s hs => by
    show M.bind' M.dim (fun d => M.lift (ValidateConstsDim d cs)) s = _
    show (ValidateConstsDim s.dim cs, s) = _
    rw [hs.dim, validate_ok cs h]) hc

theorem local_const (s : Ctx) (P : Prop) : Local s (fun _ => P) := fun _ _ _ => Iff.rfl

theorem retTrue : Draws d nodes D retTrue (fun _ => True) (fun _ => True) := fun s hs =>
  ⟨{}, s, rfl, Drawn2.one hs.vm (.refl s) (.refl s) WF.empty hs.vm.topv_nonneg (local_const _ _) (local_const _ _) (fun _ _ => trivial)
    (fun β _ => by simp [SemTrue]) fun β _ => ⟨β, .refl _ _ _, by simp [ConTrue]⟩⟩

theorem retFalse : Draws d nodes D retFalse (fun _ => True) (fun _ => False) := fun s hs =>
  ⟨FalseCNF, s, rfl, Drawn2.one hs.vm (.refl s) (.refl s) WF.falseCNF hs.vm.topv_nonneg (local_const _ _) (local_const _ _)
    (fun _ _ => trivial) (fun β _ => by
      simp only [SemTrue, FalseCNF, NegClauses, iff_false]
      exact fun h => clauseTrue_nil (h [] (by simp))) fun β _ => ⟨β, .refl _ _ _, by simp [ConTrue, FalseCNF]⟩⟩

theorem pureBool (b : Bool) : Draws d nodes D (if b then Goexpdt.retTrue else Goexpdt.retFalse) (fun _ => True) (fun _ => b = true) := by
  cases b
  · exact retFalse.congr (by simp) (by simp)
  · exact retTrue.congr (by simp) (by simp)

theorem local_ss {s : Ctx} {cls : List SClause} (h : ∀ vr, usedIn cls vr → Named s vr) : Local s (fun ν => ssTrue ν cls) := by
  intro ν ν' hν
  unfold ssTrue
  refine forall_congr' fun cl => forall_congr' fun hcl => ?_
  unfold scTrue
  refine exists_congr fun l => and_congr_right fun hl => ?_
  unfold slTrue
  rw [hν l.vr (h _ ⟨cl, hcl, l, hl, rfl⟩)]

theorem emit (st : List Step) : Draws d nodes D (Goexpdt.emit st) (fun ν => ssTrue ν (conOf st)) (fun ν => ssTrue ν (semOf st)) := by
  intro s hs
  obtain ⟨c, s', e, h⟩ := emit_spec st s hs.vm
  have hn : ∀ vr, usedIn (allOf st) vr → Named s' vr := fun vr hvr => (h.alloc.named vr).2 (.inr hvr)
  have hsem : ∀ β, SemTrue β c ↔ ssTrue (symVal s' β) (semOf st) := by
    intro β
    unfold SemTrue
    rw [h.sem]
    exact (by simp : clausesTrue β (({} : CNF).sClauses ++ _) ↔ _).trans
      (clausesTrue_imgS h.alloc.ok fun vr hvr => hn vr (usedIn_semOf hvr))
  have hcon : ∀ β, ConTrue β c ↔ ssTrue (symVal s' β) (conOf st) := by
    intro β
    unfold ConTrue
    rw [h.con]
    exact (by simp : clausesTrue β (({} : CNF).cClauses ++ _) ↔ _).trans
      (clausesTrue_imgS h.alloc.ok fun vr hvr => hn vr (usedIn_conOf hvr))
  exact ⟨c, s', e, Drawn2.one h.alloc.ok h.alloc.ext h.alloc.keeps (h.wf WF.empty) (h.top hs.vm.topv_nonneg)
    (local_ss fun vr hvr => hn vr (usedIn_conOf hvr)) (local_ss fun vr hvr => hn vr (usedIn_semOf hvr)) (fun β => (hcon β).1)
    (fun β _ => hsem β) fun β hk => ⟨β, .refl _ _ _, (hcon β).2 hk⟩⟩

theorem emitF (cls : List SClause) : Draws d nodes D (Goexpdt.emitF cls []) (fun _ => True) (fun ν => ssTrue ν cls) := by
  rw [emitF_eq]
  exact (Draws.emit _).congr (fun ν => by simp [conOf]) (fun ν => by simp [semOf])

end Draws

/-! ### commands and what they say about instances and marked nodes -/

/-- The nodes whose triples of the auxiliary variable are true. -/
def markOf (ν : VarRep → Bool) (a : QVar) (u : Nat) : Prop := ν ⟨a, 0, (u : Nat)⟩ = true

/-- The auxiliary variables with a purpose have the values that they are meant to have. -/
def AsMeant (d : Nat) (nodes : List Node) (xs : List QVar) (role : QVar → Option Role) (σ : Asg) (ν : VarRep → Bool) : Prop :=
  ∀ a ρ, role a = some ρ → a ∉ xs → ∀ i v, ρ.range d nodes i v → ν ⟨a, i, v⟩ = ρ.mean d (.leaf 0 true) σ i v

/-- The command says `R` and `Q` about the instances of `xs` and the marked nodes. -/
def Marked (d : Nat) (nodes : List Node) (xs : List QVar) (role : QVar → Option Role) (act : M CNF) (R Q : Asg → (QVar → Nat → Prop) → Prop) :
    Prop :=
  ∃ K F, Draws d nodes xs act K F ∧ ∀ ν σ, (∀ x ∈ xs, Rd d ν x (σ x)) →
    (K ν → R σ (markOf ν) ∧ (F ν ↔ Q σ (markOf ν))) ∧ (AsMeant d nodes xs role σ ν → R σ (markOf ν) → K ν)

section
variable {d : Nat} {nodes : List Node} {xs : List QVar} {role : QVar → Option Role} {act : M CNF} {R Q : Asg → (QVar → Nat → Prop) → Prop}
  {ν : VarRep → Bool} {n r : QVar} {e : PInst}

theorem Draws.marked {K F : (VarRep → Bool) → Prop} (h : Draws d nodes xs act K F)
    (hk : ∀ ν σ, (∀ x ∈ xs, Rd d ν x (σ x)) → (K ν ↔ R σ (markOf ν)) ∧ (F ν ↔ Q σ (markOf ν))) : Marked d nodes xs role act R Q :=
  ⟨K, F, h, fun ν σ hr => ⟨fun h => ⟨(hk ν σ hr).1.1 h, (hk ν σ hr).2⟩, fun _ => (hk ν σ hr).1.2⟩⟩

theorem Marked.bool {b : Bool} (h : ∀ σ μ, b = true ↔ Q σ μ) :
    Marked d nodes xs role (if b then retTrue else retFalse) (fun _ _ => True) Q :=
  (Draws.pureBool b).marked fun _ σ _ => ⟨Iff.rfl, h σ _⟩

end
end Goexpdt

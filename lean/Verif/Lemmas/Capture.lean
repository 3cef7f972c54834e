import Verif.Spec.Contract
import Verif.Lemmas.Redeclare
/- The logical operators preserve the contract of `Spec/Contract.lean`. -/
namespace Goexpdt
open Spec

variable {W : World} {Γ : List QVar} {s s1 s2 s' : Ctx} {c c1 c2 : CNF} {P P1 P2 : Asg → Prop}

/-! ### states -/

theorem Moves.trans (h : Moves W Γ s s1) (h' : Moves W Γ s1 s2) : Moves W Γ s s2 := by
  refine ⟨h'.pre, h.ext.trans h'.ext, h'.scopes.trans h.scopes, fun x k hk => h'.keep x k (h.keep x k hk),
    fun x k hk => ?_, fun n hn hd => ?_⟩
  · rcases h'.new x k hk with h1 | h1
    · exact h.new x k h1
    · rw [h.scopes] at h1; exact .inr h1
  · rcases h'.decl n hn hd with h1 | h1
    · exact h.decl n hn h1
    · exact .inr h1

theorem Moves.refl (h : Pre W Γ s) : Moves W Γ s s :=
  ⟨h, .refl s, rfl, fun _ _ h => h, fun _ _ h => .inl h, fun _ _ h => .inl h⟩

theorem Declared.ext {n : QVar} (he : Ext s s') (h : Declared s n) : Declared s' n := he.named h

theorem Pre.weaken {Γ' : List QVar} (h : Pre W Γ s) (hs : ∀ x ∈ Γ', x ∈ Γ) : Pre W Γ' s :=
  { h with free := fun x hx => h.free x (hs x hx) }

theorem Moves.weaken {Γ' : List QVar} (h : Moves W Γ s s') (hs : ∀ x ∈ Γ', x ∈ Γ) : Moves W Γ' s s' :=
  { h with pre := h.pre.weaken hs }

theorem Post.weaken {Γ' : List QVar} (h : Post W Γ s s' c P) (hs : ∀ x ∈ Γ', x ∈ Γ) :
    Post W Γ' s s' c P := { h with moves := h.moves.weaken hs }

theorem Post.congr {Q : Asg → Prop} (h : Post W Γ s s' c P) (e : ∀ σ, P σ ↔ Q σ) : Post W Γ s s' c Q :=
  { h with sem := fun β σ h1 h2 => (h.sem β σ h1 h2).trans (e σ) }

/-- Allocating triples that belong to declared variables or to no variable at all. -/
theorem Pre.alloc {used : VarRep → Prop} (h : Pre W Γ s) (ha : Alloc used s s')
    (hu : ∀ vr, used vr → Named s vr ∨ ¬ W.isInst vr.v) : Pre W Γ s' := by
  have hd : ∀ n, W.isInst n → Declared s' n → Declared s n := by
    intro n hn hd
    rcases (ha.named _).1 hd with h1 | h1
    · exact h1
    · rcases hu _ h1 with h2 | h2
      · exact h2
      · exact absurd hn h2
  refine ⟨ha.ok, ha.keeps.dim.trans h.dim, ha.keeps.nodes.trans h.nodes, ?_, ?_, ?_, ?_, ?_⟩
  · intro v k hk; rw [ha.keeps.vars] at hk; rw [ha.keeps.scopes]; exact h.scope v k hk
  · intro v k hk; rw [ha.keeps.vars] at hk ⊢; exact h.fn v k hk
  · intro n hn hdn i hi v hv
    exact ha.ext.named (h.inst n hn (hd n hn hdn) i hi v hv)
  · intro x k hk; rw [ha.keeps.vars] at hk; exact h.depth x k hk
  · intro x hx
    rw [ha.keeps.vars, ha.keeps.scopes]
    obtain ⟨a, b, c, d⟩ := h.free x hx
    exact ⟨a, b, c, d.ext ha.ext⟩

theorem Moves.alloc {used : VarRep → Prop} (h : Pre W Γ s) (ha : Alloc used s s')
    (hu : ∀ vr, used vr → Named s vr ∨ ¬ W.isInst vr.v) : Moves W Γ s s' :=
  ⟨h.alloc ha hu, ha.ext, ha.keeps.scopes, by rw [ha.keeps.vars]; exact fun _ _ h => h,
    by rw [ha.keeps.vars]; exact fun _ _ h => .inl h, by
      intro n hn hd
      rcases (ha.named _).1 hd with h1 | h1
      · exact .inl h1
      · rcases hu _ h1 with h2 | h2
        · exact .inl h2
        · exact absurd hn h2⟩

/-- Raising the top variable. -/
theorem Pre.updateTopV (h : Pre W Γ s) (v : Int) :
    Moves W Γ s (s.updateTopV v).2 ∧ (s.updateTopV v).2.topv = max s.topv v ∧
    (s.updateTopV v).2.vmap = s.vmap := by
  obtain ⟨a, b, c⟩ := updateTopV_tame s v
  obtain ⟨c1, c2, c3⟩ := c h.vm
  have hm : (s.updateTopV v).2.vmap = s.vmap := by
    unfold Ctx.updateTopV; split <;> rfl
  have hn : ∀ vr, Named (s.updateTopV v).2 vr ↔ Named s vr := by
    intro vr; unfold Named; rw [hm]
  refine ⟨⟨⟨c1, a.dim.trans h.dim, a.nodes.trans h.nodes, ?_, ?_, ?_, ?_, ?_⟩, c2, a.scopes, ?_, ?_,
    fun n _ hd => .inl ((hn _).1 hd)⟩, c3, hm⟩
  · intro v k hk; rw [b] at hk; rw [a.scopes]; exact h.scope v k hk
  · intro v k hk; rw [b] at hk ⊢; exact h.fn v k hk
  · intro n hn' hd i hi v hv
    exact (hn _).2 (h.inst n hn' ((hn _).1 hd) i hi v hv)
  · intro x k hk; rw [b] at hk; exact h.depth x k hk
  · intro x hx
    rw [b, a.scopes]
    obtain ⟨e1, e2, e3, e4⟩ := h.free x hx
    exact ⟨e1, e2, e3, (hn _).2 e4⟩
  · rw [b]; exact fun _ _ h => h
  · rw [b]; exact fun _ _ h => .inl h

/-! ### valuations -/

theorem symVal_ext (he : Ext s s') {vr : VarRep} (hn : Named s vr) (β : Val) :
    symVal s' β vr = symVal s β vr := by simp only [symVal, he.num hn]

theorem Reads.ext {n : QVar} {e : PInst} {β : Val} {d : Nat} (he : Ext s s')
    (hn : ∀ i < d, ∀ v ∈ featVals, Named s ⟨n, (i : Nat), v⟩) :
    Reads d s' β n e ↔ Reads d s β n e := by
  constructor
  · intro h i hi v hv; rw [← symVal_ext he (hn i hi v hv)]; exact h i hi v hv
  · intro h i hi v hv; rw [symVal_ext he (hn i hi v hv)]; exact h i hi v hv

theorem Agree.of_ext {β : Val} {σ : Asg} (hp : Pre W Γ s) (he : Ext s s') (h : Agree W s' β σ) :
    Agree W s β σ := fun n hn hd => (Reads.ext he (hp.inst n hn hd)).1 (h n hn (hd.ext he))

theorem Canon.of_ext {β : Val} {σ : Asg} (he : Ext s s') (h : Canon W s' β σ) : Canon W s β σ := by
  refine ⟨h.1, fun vr hn => ?_⟩
  rw [← symVal_ext he hn]
  exact h.2 vr (he.named hn)

theorem SameNamed.symVal {m : Int} {β β' : Val} (hv : VMok s) (h : SameNamed m s β β') {vr : VarRep}
    (hn : Named s vr) : symVal s β' vr = symVal s β vr := by
  obtain ⟨n, hn⟩ := hn
  have hr := hv.range _ _ hn
  unfold Goexpdt.symVal
  rw [num_eq hn]
  apply h
  refine .inr (.inr ⟨vr, ?_⟩)
  rw [show ((n.natAbs : Nat) : Int) = n by omega]
  exact hn

theorem SameNamed.canon {m : Int} {β β' : Val} {σ : Asg} (hv : VMok s) (h : SameNamed m s β β')
    (hc : Canon W s β σ) : Canon W s β' σ := ⟨hc.1, fun vr hn => by rw [h.symVal hv hn]; exact hc.2 vr hn⟩

theorem SameNamed.refl (m : Int) (s : Ctx) (β : Val) : SameNamed m s β β := fun _ _ => rfl

/-- Changes made for the first part of an encoding and then for the second part. -/
theorem SameNamed.trans {β β1 β2 : Val} (he : Ext s s1) (he' : Ext s1 s2)
    (h : SameNamed s.topv s1 β β1) (h' : SameNamed s1.topv s2 β1 β2) : SameNamed s.topv s2 β β2 := by
  intro k hk
  have := he.topv_le
  have := he'.topv_le
  rw [h' k]
  · apply h
    rcases hk with hk | hk | ⟨vr, hk⟩
    · exact .inl hk
    · exact .inr (.inl (by omega))
    · cases hm : mapGet s1.vmap vr with
      | some n =>
        have := he'.keep _ _ hm
        rw [this] at hk
        simp only [Option.some.injEq] at hk
        subst hk
        exact .inr (.inr ⟨vr, hm⟩)
      | none => exact .inr (.inl (he'.fresh _ _ hm hk))
  · rcases hk with hk | hk | hk
    · left; omega
    · exact .inr (.inl hk)
    · exact .inr (.inr hk)

theorem conTrue_same {m : Int} {β β' : Val} (hw : WF c) (ht : c.tv ≤ m) (h : SameNamed m s β β')
    (hc : ConTrue β c) : ConTrue β' c :=
  (clausesTrue_congr_of_bounded (hw.cBound.mono ht) fun n hn => h n (.inl hn)).2 hc

theorem conTrue_conjunction {β : Val} : ConTrue β (c1.conjunction c2) ↔ ConTrue β c1 ∧ ConTrue β c2 := by
  simp [ConTrue, CNF.conjunction, CNF.appendSemantics, CNF.appendConsistency]

theorem semTrue_conjunction {β : Val} : SemTrue β (c1.conjunction c2) ↔ SemTrue β c1 ∧ SemTrue β c2 := by
  simp [SemTrue, CNF.conjunction, CNF.appendSemantics, CNF.appendConsistency]

/-! ### two CNFs side by side -/

/-- The contract for two CNFs that are not yet combined. -/
structure Post2 (W : World) (Γ : List QVar) (s s' : Ctx) (c1 c2 : CNF) (P1 P2 : Asg → Prop) : Prop where
  moves : Moves W Γ s s'
  wf1 : WF c1
  wf2 : WF c2
  top1 : c1.tv ≤ s'.topv
  top2 : c2.tv ≤ s'.topv
  inst : ∀ β, ConTrue β c1 → ConTrue β c2 → ∀ n, W.isInst n → Declared s' n → ¬ Declared s n →
    ∃ e, Reads W.dim s' β n e
  sem1 : ∀ β σ, ConTrue β c1 → ConTrue β c2 → Agree W s' β σ → (SemTrue β c1 ↔ P1 σ)
  sem2 : ∀ β σ, ConTrue β c1 → ConTrue β c2 → Agree W s' β σ → (SemTrue β c2 ↔ P2 σ)
  con : ∀ β σ, Canon W s' β σ → ∃ β', SameNamed s.topv s' β β' ∧ ConTrue β' c1 ∧ ConTrue β' c2

theorem Post2.of_seq (h1 : Post W Γ s s1 c1 P1) (h2 : Post W Γ s1 s2 c2 P2) :
    Post2 W Γ s s2 c1 c2 P1 P2 := by
  have he := h2.moves.ext
  have hp := h1.moves.pre
  refine ⟨h1.moves.trans h2.moves, h1.wf, h2.wf, ?_, h2.top, ?_, ?_, ?_, ?_⟩
  · have := h1.top; have := he.topv_le; omega
  · intro β hc1 hc2 n hn hd hnd
    by_cases hd1 : Declared s1 n
    · obtain ⟨e, hr⟩ := h1.inst β hc1 n hn hd1 hnd
      exact ⟨e, (Reads.ext he (hp.inst n hn hd1)).2 hr⟩
    · exact h2.inst β hc2 n hn hd hd1
  · intro β σ hc1 _ ha; exact h1.sem β σ hc1 (ha.of_ext hp he)
  · intro β σ _ hc2 ha; exact h2.sem β σ hc2 ha
  · intro β σ hca
    obtain ⟨β1, hs1, ht1⟩ := h1.con β σ (hca.of_ext he)
    have hs1' : SameNamed s.topv s2 β β1 := hs1.trans h1.moves.ext he (.refl _ _ _)
    obtain ⟨β2, hs2, ht2⟩ := h2.con β1 σ (hs1'.canon h2.moves.pre.vm hca)
    exact ⟨β2, hs1.trans h1.moves.ext he hs2, conTrue_same h1.wf h1.top hs2 ht1, ht2⟩

theorem Post2.symm (h : Post2 W Γ s s' c1 c2 P1 P2) : Post2 W Γ s s' c2 c1 P2 P1 :=
  ⟨h.moves, h.wf2, h.wf1, h.top2, h.top1, fun β a b => h.inst β b a, fun β σ a b => h.sem2 β σ b a,
    fun β σ a b => h.sem1 β σ b a, fun β σ hc => by
      obtain ⟨β', a, b, c⟩ := h.con β σ hc; exact ⟨β', a, c, b⟩⟩

theorem Post2.merge (h : Post2 W Γ s s' c1 c2 P1 P2) :
    Post W Γ s s' (c1.conjunction c2) (fun σ => P1 σ ∧ P2 σ) := by
  refine ⟨h.moves, h.wf1.conjunction h.wf2, conjunction_tv_le h.top1 h.wf2 h.top2, ?_, ?_, ?_⟩
  · intro β hc; rw [conTrue_conjunction] at hc; exact h.inst β hc.1 hc.2
  · intro β σ hc ha
    rw [conTrue_conjunction] at hc
    rw [semTrue_conjunction, h.sem1 β σ hc.1 hc.2 ha, h.sem2 β σ hc.1 hc.2 ha]
  · intro β σ hca
    obtain ⟨β', hs, hc⟩ := h.con β σ hca
    exact ⟨β', hs, conTrue_conjunction.2 hc⟩

/-- Negating the first CNF with the context's top variable and raising the latter. -/
theorem Post2.neg (h : Post2 W Γ s s1 c1 c2 P1 P2) :
    Post2 W Γ s (s1.updateTopV (c1.negate (some s1.topv)).tv).2 (c1.negate (some s1.topv)) c2
      (fun σ => ¬ P1 σ) P2 := by
  obtain ⟨hm, ht, hv⟩ := h.moves.pre.updateTopV (c1.negate (some s1.topv)).tv
  obtain ⟨new, h1, h2, h3, h4, h5, h6, h7, h8⟩ :=
    negate_spec c1 (some s1.topv) h.wf1.tv_nonneg h.wf1.sNonZero
  generalize hN : c1.negate (some s1.topv) = N at *
  generalize (s1.updateTopV N.tv).2 = s2 at *
  have hnt : negTop c1 (some s1.topv) = s1.topv := by
    have := h.top1; simp only [negTop]; omega
  rw [hnt] at h2 h8
  have hsv : ∀ β, symVal s2 β = symVal s1 β := by intro β; funext vr; simp only [symVal, num, hv]
  have hnm : ∀ vr, Named s2 vr ↔ Named s1 vr := by intro vr; unfold Named; rw [hv]
  have hrd : ∀ β n e, Reads W.dim s2 β n e ↔ Reads W.dim s1 β n e := by
    intro β n e; unfold Reads; rw [hsv]
  have hag : ∀ β σ, Agree W s2 β σ → Agree W s1 β σ := by
    intro β σ ha n hn hd; exact (hrd _ _ _).1 (ha n hn ((hnm _).2 hd))
  have hcN : ∀ β, ConTrue β N ↔ ConTrue β c1 ∧ clausesTrue β new := by
    intro β; unfold ConTrue; rw [h1, clausesTrue_append]
  refine ⟨h.moves.trans hm, hN ▸ h.wf1.negate _, h.wf2, by omega, by have := h.top2; omega, ?_, ?_, ?_, ?_⟩
  · intro β hc1 hc2 n hn hd hnd
    obtain ⟨e, he⟩ := h.inst β ((hcN β).1 hc1).1 hc2 n hn ((hnm _).1 hd) hnd
    exact ⟨e, (hrd _ _ _).2 he⟩
  · intro β σ hc1 hc2 ha
    obtain ⟨a, b⟩ := (hcN β).1 hc1
    rw [h7 β b, h.sem1 β σ a hc2 (hag β σ ha)]
  · intro β σ hc1 hc2 ha
    exact h.sem2 β σ ((hcN β).1 hc1).1 hc2 (hag β σ ha)
  · intro β σ hca
    obtain ⟨β1, hs1, ha1, hb1⟩ := h.con β σ (hca.of_ext hm.ext)
    obtain ⟨β2, hs2, hb2⟩ := h8 (h.wf1.sBound.mono h.top1) β1
    have hs2' : SameNamed s1.topv s2 β1 β2 := by
      intro k hk
      apply hs2
      rcases hk with hk | hk | ⟨vr, hk⟩
      · exact .inl hk
      · right; omega
      · rw [hv] at hk; exact .inl (h.moves.pre.vm.range _ _ hk).2
    exact ⟨β2, hs1.trans h.moves.ext hm.ext hs2',
      (hcN β2).2 ⟨conTrue_same h.wf1 h.top1 hs2' ha1, hb2⟩, conTrue_same h.wf2 h.top2 hs2' hb1⟩

theorem Post.pair (h : Post W Γ s s' c P) : Post2 W Γ s s' c {} P (fun _ => True) := by
  have hp := h.moves.pre
  refine ⟨h.moves, h.wf, WF.empty, h.top, hp.vm.topv_nonneg, fun β a _ => h.inst β a,
    fun β σ a _ => h.sem β σ a, fun β σ _ _ _ => ?_, fun β σ hc => ?_⟩
  · simp [SemTrue]
  · obtain ⟨β', a, b⟩ := h.con β σ hc
    exact ⟨β', a, b, by simp [ConTrue]⟩

theorem Post2.fst (h : Post2 W Γ s s' c {} P (fun _ => True)) : Post W Γ s s' c P :=
  ⟨h.moves, h.wf1, h.top1, fun β a => h.inst β a (by simp [ConTrue]),
    fun β σ a => h.sem1 β σ a (by simp [ConTrue]), fun β σ hc => by
      obtain ⟨β', a, b, -⟩ := h.con β σ hc; exact ⟨β', a, b⟩⟩

theorem Post.neg (h : Post W Γ s s1 c P) :
    Post W Γ s (s1.updateTopV (c.negate (some s1.topv)).tv).2 (c.negate (some s1.topv))
      (fun σ => ¬ P σ) := h.pair.neg.fst

/-! ### operators -/

variable {stack : List Scope} {q q1 q2 : M CNF}

theorem Captures.congr {Q : Asg → Prop} (h : Captures W Γ stack q P) (e : ∀ σ, P σ ↔ Q σ) :
    Captures W Γ stack q Q := fun s hp hs => by
  obtain ⟨c, s', a, b⟩ := h s hp hs; exact ⟨c, s', a, b.congr e⟩

theorem Captures.wrapErr (pre : String) (h : Captures W Γ stack q P) :
    Captures W Γ stack (M.wrapErr pre q) P := fun s hp hs => by
  obtain ⟨c, s', a, b⟩ := h s hp hs; exact ⟨c, s', wrapErr_ok a, b⟩

theorem Captures.encAnd (h1 : Captures W Γ stack q1 P1) (h2 : Captures W Γ stack q2 P2) :
    Captures W Γ stack (encAnd (some q1) (some q2)) (fun σ => P1 σ ∧ P2 σ) := by
  refine Captures.wrapErr _ fun s hp hs => ?_
  obtain ⟨c1, s1, e1, p1⟩ := h1.wrapErr "Q1" s hp hs
  obtain ⟨c2, s2, e2, p2⟩ := h2.wrapErr "Q2" s1 p1.moves.pre (p1.moves.scopes.trans hs)
  refine ⟨_, s2, ?_, (Post2.of_seq p1 p2).merge⟩
  show andBuild q1 q2 s = _
  unfold andBuild
  rw [M_bind_ok e1, M_bind_ok e2]; rfl

theorem Captures.encNot (h : Captures W Γ stack q P) :
    Captures W Γ stack (encNot (some q)) (fun σ => ¬ P σ) := by
  refine Captures.wrapErr _ fun s hp hs => ?_
  obtain ⟨c1, s1, e1, p1⟩ := h s hp hs
  refine ⟨_, _, ?_, p1.neg⟩
  simp only [notBuild_eq]
  rw [M_bind_ok e1, negStep_eq]

theorem Captures.encOr (h1 : Captures W Γ stack q1 P1) (h2 : Captures W Γ stack q2 P2) :
    Captures W Γ stack (encOr (some q1) (some q2)) (fun σ => P1 σ ∨ P2 σ) := by
  refine Captures.wrapErr _ fun s hp hs => ?_
  obtain ⟨c1, s1, e1, p1⟩ := h1.wrapErr "Q1" s hp hs
  obtain ⟨c2, s2, e2, p2⟩ := h2.wrapErr "Q2" s1 p1.moves.pre (p1.moves.scopes.trans hs)
  refine ⟨_, _, ?_, ((Post2.of_seq p1 p2).neg.symm.neg.symm.merge.neg).congr (Q := fun σ => P1 σ ∨ P2 σ) ?_⟩
  · simp only [orBuild_eq]
    rw [M_bind_ok e1, M_bind_ok e2, M_bind_ok (negStep_eq c1 s2), M_bind_ok (negStep_eq c2 _), negStep_eq]
  · intro σ
    by_cases a : P1 σ <;> by_cases b : P2 σ <;> simp [a, b]

end Goexpdt

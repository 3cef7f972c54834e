import Verif.Lemmas.Capture
/- `WithVar`, `ForAllGuarded` and lists of clauses satisfy the contract of `Spec/Contract.lean`. -/
namespace Goexpdt
open Spec

variable {W : World} {Γ : List QVar} {s s1 s2 s' : Ctx} {c c1 c2 : CNF} {P P1 P2 : Asg → Prop}
variable {stack : List Scope} {q q1 q2 : M CNF}

/-! ### states with the same variable manager -/

theorem Named.of_vm {vr : VarRep} (h : s'.vmap = s.vmap) : Named s' vr ↔ Named s vr := by
  unfold Named; rw [h]

theorem symVal_of_vm (h : s'.vmap = s.vmap) (β : Val) : symVal s' β = symVal s β := by
  funext vr; simp only [symVal, num, h]

theorem Post.of_vm {Γ' : List QVar} {a b : Ctx} (h : Post W Γ s s' c P) (hm : Moves W Γ' a b)
    (h1 : a.topv = s.topv) (h2 : a.vmap = s.vmap) (h3 : b.topv = s'.topv) (h4 : b.vmap = s'.vmap) :
    Post W Γ' a b c P := by
  have hr : ∀ β n e, Reads W.dim b β n e ↔ Reads W.dim s' β n e := by
    intro β n e; unfold Reads; rw [symVal_of_vm h4]
  refine ⟨hm, h.wf, by rw [h3]; exact h.top, ?_, ?_, ?_⟩
  · intro β hc n hn hd hnd
    obtain ⟨e, he⟩ := h.inst β hc n hn ((Named.of_vm h4).1 hd) (fun x => hnd ((Named.of_vm h2).2 x))
    exact ⟨e, (hr _ _ _).2 he⟩
  · intro β σ hc ha
    exact h.sem β σ hc fun n hn hd => (hr _ _ _).1 (ha n hn ((Named.of_vm h4).2 hd))
  · intro β σ hca
    obtain ⟨β', x, y⟩ := h.con β σ ⟨hca.1, by
      intro vr hn; rw [← symVal_of_vm h4]; exact hca.2 vr ((Named.of_vm h4).2 hn)⟩
    refine ⟨β', ?_, y⟩
    unfold SameNamed
    rw [h1, h3, h4]
    exact x

theorem Pre.of_vm {Γ' : List QVar} (h : Pre W Γ s) (h1 : s'.topv = s.topv) (h2 : s'.vmap = s.vmap)
    (h3 : s'.dim = s.dim) (h4 : s'.nodes = s.nodes) (h5 : ScopeOk s') (h6 : VarsFun s')
    (h7 : ∀ x k, mapGet s'.vars x = some k → k = W.depth x)
    (h8 : ∀ x ∈ Γ', (W.depth x = 0 ∨ mapGet s'.vars x = some (W.depth x)) ∧
      W.depth x ≤ s'.scopes.length ∧ W.isInst (W.nm s'.scopes x) ∧ Declared s (W.nm s'.scopes x)) :
    Pre W Γ' s' := by
  refine ⟨h.vm.of_vm_eq h1 h2, h3.trans h.dim, h4.trans h.nodes, h5, h6, ?_, h7, ?_⟩
  · intro n hn hd i hi v hv
    exact (Named.of_vm h2).2 (h.inst n hn ((Named.of_vm h2).1 hd) i hi v hv)
  · intro x hx
    obtain ⟨a, b, c, d⟩ := h8 x hx
    exact ⟨a, b, c, (Named.of_vm h2).2 d⟩

theorem nm_append {x : QVar} {l l' : List Scope} (h : W.depth x ≤ l.length) :
    W.nm (l ++ l') x = W.nm l x := by
  unfold World.nm; rw [List.take_append_of_le_length h]

/-- The name the context gives to a free variable. -/
theorem Pre.scopeVar (h : Pre W Γ s) {x : QVar} (hx : x ∈ Γ) :
    s.scopeVar x = .ok (W.nm s.scopes x) := by
  rw [scopeVar_eq h.scope]
  unfold World.nm
  rcases (h.free x hx).1 with h0 | h0
  · cases hv : mapGet s.vars x with
    | none => simp [h0]
    | some k =>
      have := h.depth x k hv
      have := h.scope x k hv
      omega
  · rw [h0]; rfl

/-! ### constant results -/

theorem Post.true (h : Pre W Γ s) : Post W Γ s s {} (fun _ => True) := by
  refine ⟨.refl h, WF.empty, h.vm.topv_nonneg, ?_, ?_, ?_⟩
  · intro β _ n _ hd hnd; exact absurd hd hnd
  · intro β σ _ _; simp [SemTrue]
  · intro β σ _; exact ⟨β, .refl _ _ _, by simp [ConTrue]⟩

theorem Captures.retTrue : Captures W Γ stack retTrue (fun _ => True) := fun s hp _ =>
  ⟨{}, s, rfl, .true hp⟩

theorem Captures.retFalse : Captures W Γ stack retFalse (fun _ => False) := fun s h _ => by
  refine ⟨FalseCNF, s, rfl, .refl h, WF.falseCNF, h.vm.topv_nonneg, ?_, ?_, ?_⟩
  · intro β _ n _ hd hnd; exact absurd hd hnd
  · intro β σ _ _
    simp only [SemTrue, FalseCNF, NegClauses, iff_false]
    intro h
    exact clauseTrue_nil (h [] (by simp))
  · intro β σ _; exact ⟨β, .refl _ _ _, by simp [ConTrue, FalseCNF]⟩

theorem Captures.pureBool (b : Bool) : Captures W Γ stack (if b then Goexpdt.retTrue else Goexpdt.retFalse)
    (fun _ => b = true) := by
  cases b
  · exact Captures.retFalse.congr (by simp)
  · exact Captures.retTrue.congr (by simp)

/-! ### lists of clauses -/

/-- A list of clauses over triples of declared variables and auxiliary triples. -/
theorem Captures.emit {act : M CNF} {st : List Step}
    (hred : ∀ s, Pre W Γ s → s.scopes = stack → act s = Goexpdt.emit st s)
    (hused : ∀ vr, usedIn (allOf st) vr →
      (∃ x ∈ Γ, vr.v = W.nm stack x ∧ (∃ i < W.dim, vr.idx = (i : Nat)) ∧ vr.val ∈ featVals) ∨
      ¬ W.isInst vr.v)
    (hA : ∀ (σ : Asg) (ν : VarRep → Bool),
      (∀ x ∈ Γ, ∀ i < W.dim, ∀ v ∈ featVals,
        ν ⟨W.nm stack x, (i : Nat), v⟩ = decide (valOf (σ (W.nm stack x) i) = v)) →
      ssTrue ν (conOf st) → (ssTrue ν (semOf st) ↔ P σ))
    (hB : (∀ x ∈ Γ, W.isInst (W.nm stack x)) →
      ∀ σ : Asg, W.dom σ → ssTrue (fun vr => W.mean vr.v σ vr.idx vr.val) (conOf st)) :
    Captures W Γ stack act P := by
  intro s hp hs
  subst hs
  rw [hred s hp rfl]
  obtain ⟨c, s', e, h⟩ := emit_spec st s hp.vm
  have hu : ∀ vr, usedIn (allOf st) vr → Named s vr ∨ ¬ W.isInst vr.v := by
    intro vr hvr
    rcases hused vr hvr with ⟨x, hx, h1, ⟨i, hi, h2⟩, h3⟩ | h1
    · left
      obtain ⟨-, -, a, b⟩ := hp.free x hx
      have := hp.inst _ a b i hi _ h3
      rwa [← h1, ← h2] at this
    · exact .inr h1
  have hm := Moves.alloc hp h.alloc hu
  have hn : ∀ vr, usedIn (allOf st) vr → Named s' vr := fun vr hvr => (h.alloc.named vr).2 (.inr hvr)
  have hsem : ∀ β, SemTrue β c ↔ ssTrue (symVal s' β) (semOf st) := by
    intro β
    unfold SemTrue
    rw [h.sem]
    exact (by simp : clausesTrue β (({} : CNF).sClauses ++ _) ↔ _).trans
      (clausesTrue_imgS h.alloc.ok fun vr hvr => hn vr (usedIn_semOf hvr))
  have hcon : ∀ β, ConTrue β c ↔ ssTrue (symVal s' β) (conOf st) := by
    intro β
    unfold ConTrue
    rw [h.con]
    exact (by simp : clausesTrue β (({} : CNF).cClauses ++ _) ↔ _).trans
      (clausesTrue_imgS h.alloc.ok fun vr hvr => hn vr (usedIn_conOf hvr))
  refine ⟨c, s', e, hm, h.wf WF.empty, h.top hp.vm.topv_nonneg, ?_, ?_, ?_⟩
  · intro β _ n hin hd hnd
    exfalso
    rcases (h.alloc.named _).1 hd with h1 | h1
    · exact hnd h1
    · rcases hu _ h1 with h2 | h2
      · exact hnd h2
      · exact h2 hin
  · intro β σ hc ha
    rw [hsem]
    refine hA σ (symVal s' β) ?_ ((hcon β).1 hc)
    intro x hx i hi v hv
    obtain ⟨-, -, a, b⟩ := hp.free x hx
    exact ha _ a (b.ext h.alloc.ext) i hi v hv
  · intro β σ hca
    refine ⟨β, .refl _ _ _, (hcon β).2 ?_⟩
    intro cl hcl
    obtain ⟨l, hl, ht⟩ := hB (fun x hx => (hp.free x hx).2.2.1) σ hca.1 cl hcl
    refine ⟨l, hl, ?_⟩
    have := hca.2 l.vr (hn _ (usedIn_conOf ⟨cl, hcl, l, hl, rfl⟩))
    unfold slTrue at ht ⊢
    rw [this]; exact ht

/-! ### WithVar -/

theorem conOf_map_con {α : Type} (l : List α) (f : α → List SClause) :
    conOf (l.map fun a => .con (f a)) = l.flatMap f := by
  induction l with
  | nil => rfl
  | cons a l ih => simp [conOf, ih]

theorem semOf_map_con {α : Type} (l : List α) (f : α → List SClause) :
    semOf (l.map fun a => .con (f a)) = [] := by
  induction l with
  | nil => rfl
  | cons a l ih => simp [semOf, ih]

theorem allOf_map_con {α : Type} (l : List α) (f : α → List SClause) :
    allOf (l.map fun a => .con (f a)) = l.flatMap f := by
  induction l with
  | nil => rfl
  | cons a l ih => simp [allOf, ih]

theorem instSteps_con (d : Nat) (v : QVar) : conOf (instSteps d v) = allOf (instSteps d v) := by
  simp [instSteps, conOf, allOf, conOf_map_con, allOf_map_con]

theorem instSteps_sem (d : Nat) (v : QVar) : semOf (instSteps d v) = [] := by
  simp [instSteps, semOf, semOf_map_con]

theorem instSteps_true {d : Nat} {v : QVar} {ν : VarRep → Bool} :
    ssTrue ν (conOf (instSteps d v)) ↔ ∀ i < d,
      (ν ⟨v, (i : Nat), ZERO⟩ = true ∨ ν ⟨v, (i : Nat), ONE⟩ = true ∨ ν ⟨v, (i : Nat), BOT⟩ = true) ∧
      (ν ⟨v, (i : Nat), ZERO⟩ = false ∨ ν ⟨v, (i : Nat), ONE⟩ = false) ∧
      (ν ⟨v, (i : Nat), ZERO⟩ = false ∨ ν ⟨v, (i : Nat), BOT⟩ = false) ∧
      (ν ⟨v, (i : Nat), ONE⟩ = false ∨ ν ⟨v, (i : Nat), BOT⟩ = false) := by
  simp only [instSteps, conOf, conOf_map_con, ssTrue_append, ssTrue_flatMap, reqAllS, ssTrue_map,
    reqOneS, ssTrue_cons, ssTrue_nil, scTrue_cons, scTrue_nil, slTrue_P, slTrue_N, mem_rng, or_false,
    and_true, Nat.zero_add, Nat.zero_le, true_and]
  exact ⟨fun ⟨a, b⟩ i hi => ⟨a i hi, b i hi⟩, fun h => ⟨fun i hi => (h i hi).1, fun i hi => (h i hi).2⟩⟩

theorem instSteps_used {d : Nat} {v : QVar} {vr : VarRep} :
    usedIn (allOf (instSteps d v)) vr ↔
      vr.v = v ∧ (∃ i < d, vr.idx = (i : Nat)) ∧ vr.val ∈ featVals := by
  obtain ⟨n, i, k⟩ := vr
  simp only [instSteps, allOf, allOf_map_con, usedIn_append, usedIn_flatMap, reqAllS, usedIn_map,
    reqOneS, usedIn_cons, usedIn_nil, List.mem_cons, List.not_mem_nil, exists_eq_or_imp, or_false,
    mem_rng, P, N, featVals, Nat.zero_add, Nat.zero_le, true_and, VarRep.mk.injEq,
    exists_eq_left]
  constructor
  · rintro (⟨j, hj, h⟩ | ⟨j, hj, h⟩)
    · rcases h with ⟨rfl, rfl, rfl⟩ | ⟨rfl, rfl, rfl⟩ | ⟨rfl, rfl, rfl⟩ <;>
        exact ⟨rfl, ⟨j, hj, rfl⟩, by simp⟩
    · rcases h with (⟨rfl, rfl, rfl⟩ | ⟨rfl, rfl, rfl⟩) | (⟨rfl, rfl, rfl⟩ | ⟨rfl, rfl, rfl⟩) |
        (⟨rfl, rfl, rfl⟩ | ⟨rfl, rfl, rfl⟩) <;> exact ⟨rfl, ⟨j, hj, rfl⟩, by simp⟩
  · rintro ⟨rfl, ⟨j, hj, rfl⟩, h⟩
    refine .inl ⟨j, hj, ?_⟩
    rcases h with rfl | rfl | rfl <;> simp

theorem featVals_distinct : (ZERO : FeatV) ≠ ONE ∧ (ZERO : FeatV) ≠ BOT ∧ (ONE : FeatV) ≠ BOT := by
  decide

/-- Exactly one of the three values for each feature: the name reads as an instance. -/
theorem reads_of_inst {d : Nat} {v : QVar} {ν : VarRep → Bool} (h : ssTrue ν (conOf (instSteps d v))) :
    ∃ e : PInst, ∀ i < d, ∀ k ∈ featVals, ν ⟨v, (i : Nat), k⟩ = decide (valOf (e i) = k) := by
  rw [instSteps_true] at h
  refine ⟨fun i => if ν ⟨v, (i : Nat), ZERO⟩ then some false else if ν ⟨v, (i : Nat), ONE⟩ then
    some true else none, fun i hi k hk => ?_⟩
  obtain ⟨a, b, c, d⟩ := h i hi
  obtain ⟨h1, h2, h3⟩ := featVals_distinct
  simp only [featVals, List.mem_cons, List.not_mem_nil, or_false] at hk
  rcases hk with rfl | rfl | rfl <;>
    cases hz : ν ⟨v, (i : Nat), ZERO⟩ <;> cases ho : ν ⟨v, (i : Nat), ONE⟩ <;>
    cases hb : ν ⟨v, (i : Nat), BOT⟩ <;> simp_all [valOf, Ne.symm h1, Ne.symm h2, Ne.symm h3]

theorem inst_of_reads {d : Nat} {v : QVar} {ν : VarRep → Bool} {e : PInst}
    (h : ∀ i < d, ∀ k ∈ featVals, ν ⟨v, (i : Nat), k⟩ = decide (valOf (e i) = k)) :
    ssTrue ν (conOf (instSteps d v)) := by
  rw [instSteps_true]
  intro i hi
  obtain ⟨h1, h2, h3⟩ := featVals_distinct
  rw [h i hi ZERO (by simp [featVals]), h i hi ONE (by simp [featVals]), h i hi BOT (by simp [featVals])]
  rcases e i with - | b
  · simp [valOf, Ne.symm h2, Ne.symm h3]
  · cases b <;> simp [valOf, h1, h2, h3, Ne.symm h1]

theorem addVar_pre {x : QVar} (h : Pre W Γ s) (hd : W.depth x = s.scopes.length) :
    Moves W Γ s (s.addVar x) ∧ (s.addVar x).scopeVar x = .ok (W.nm s.scopes x) ∧
    (W.depth x = 0 ∨ mapGet (s.addVar x).vars x = some (W.depth x)) := by
  obtain ⟨a, b, c⟩ := addVar_other s x
  have hx := addVar_varsExt x h.fn
  have hso := hx.scopeOk h.scope a.scopes
  have hdep : ∀ y k, mapGet (s.addVar x).vars y = some k → k = W.depth y := by
    intro y k hk
    rw [addVar_vars] at hk
    split at hk
    · next hh =>
      obtain ⟨-, -, rfl⟩ := hh
      simp only [Option.some.injEq] at hk
      omega
    · exact h.depth y k hk
  have hp : Pre W Γ (s.addVar x) := h.of_vm b c a.dim a.nodes hso hx.fn hdep (by
    intro y hy
    rw [a.scopes]
    obtain ⟨e1, e2, e3, e4⟩ := h.free y hy
    exact ⟨e1.imp id (hx.keep _ _), e2, e3, e4⟩)
  have hv : W.depth x = 0 ∨ mapGet (s.addVar x).vars x = some (W.depth x) := by
    rw [addVar_vars]
    split
    · exact .inr (by rw [hd])
    · next hh =>
      cases hm : mapGet s.vars x with
      | some k => exact .inr (by rw [h.depth x k hm])
      | none =>
        left
        rw [hd]
        by_cases h0 : s.scopes = []
        · simp [h0]
        · exact absurd ⟨h0, hm, rfl⟩ hh
  refine ⟨⟨hp, .of_vm_eq b c, a.scopes, hx.keep, fun y k hk => hx.new y k hk,
    fun n _ hd => .inl ((Named.of_vm c).1 hd)⟩, ?_, hv⟩
  rw [scopeVar_eq hso, a.scopes]
  unfold World.nm
  rcases hv with h0 | h0
  · have h1 : s.scopes = [] := List.length_eq_zero_iff.1 (by omega)
    rw [h1]; simp
  · rw [h0]; rfl

theorem exists_iff_declared {n : QVar} : s.cnfVarExists ⟨n, 0, BOT⟩ = true ↔ Declared s n := by
  unfold Ctx.cnfVarExists Declared Named
  rw [Option.isSome_iff_exists]

/-- The clauses of `encodeI`. -/
theorem encodeI_post {x : QVar} (h : Pre W Γ s) (hd : W.depth x = s.scopes.length)
    (hv : s.scopeVar x = .ok (W.nm s.scopes x))
    (hvars : W.depth x = 0 ∨ mapGet s.vars x = some (W.depth x))
    (hin : W.isInst (W.nm s.scopes x)) (hmay : W.may (W.nm s.scopes x)) :
    ∃ c s', encodeI x s = (.ok c, s') ∧ Post W (x :: Γ) s s' c (fun _ => True) := by
  cases he : s.cnfVarExists ⟨W.nm s.scopes x, 0, BOT⟩ with
  | true =>
    refine ⟨_, s, encodeI_declared hv he, .true ?_⟩
    refine { h with free := fun y hy => ?_ }
    rcases List.mem_cons.1 hy with rfl | hy
    · exact ⟨hvars, by omega, hin, exists_iff_declared.1 he⟩
    · exact h.free y hy
  | false =>
    rw [encodeI_fresh hv he]
    obtain ⟨c, s1, e, hE⟩ := emit_spec (instSteps s.dim (W.nm s.scopes x)) s h.vm
    have ha := hE.alloc
    generalize hn : W.nm s.scopes x = n at *
    have hdim := h.dim
    have hused : ∀ i < W.dim, ∀ v ∈ featVals, Named s1 ⟨n, (i : Nat), v⟩ := by
      intro i hi v hv
      exact (ha.named _).2 (.inr (instSteps_used.2 ⟨rfl, ⟨i, by omega, rfl⟩, hv⟩))
    have hnd : ¬ Declared s n := by rw [← exists_iff_declared, he]; simp
    have hold : ∀ m, m ≠ n → Declared s1 m → Declared s m := by
      intro m hm hdm
      rcases (ha.named _).1 hdm with h1 | h1
      · exact h1
      · exact absurd (instSteps_used.1 h1).1 hm
    have hp : Pre W (x :: Γ) s1 := by
      refine ⟨ha.ok, ha.keeps.dim.trans h.dim, ha.keeps.nodes.trans h.nodes, ?_, ?_, ?_, ?_, ?_⟩
      · intro v k hk; rw [ha.keeps.vars] at hk; rw [ha.keeps.scopes]; exact h.scope v k hk
      · intro v k hk; rw [ha.keeps.vars] at hk ⊢; exact h.fn v k hk
      · intro m hm hdm i hi v hvv
        by_cases hmn : m = n
        · rw [hmn]; exact hused i hi v hvv
        · exact ha.ext.named (h.inst m hm (hold m hmn hdm) i hi v hvv)
      · intro x k hk; rw [ha.keeps.vars] at hk; exact h.depth x k hk
      · intro y hy
        rw [ha.keeps.vars, ha.keeps.scopes]
        rcases List.mem_cons.1 hy with rfl | hy
        · refine ⟨hvars, by omega, by rw [hn]; exact hin, ?_⟩
          rw [hn]
          exact hused 0 W.dim_pos BOT (by simp [featVals])
        · obtain ⟨a, b, c, d⟩ := h.free y hy
          exact ⟨a, b, c, d.ext ha.ext⟩
    have hcon : ∀ β, ConTrue β c ↔ ssTrue (symVal s1 β) (conOf (instSteps s.dim n)) := by
      intro β
      unfold ConTrue
      rw [hE.con]
      exact (by simp : clausesTrue β (({} : CNF).cClauses ++ _) ↔ _).trans
        (clausesTrue_imgS ha.ok fun vr hvr => (ha.named vr).2 (.inr (usedIn_conOf hvr)))
    refine ⟨c, s1, e, ⟨hp, ha.ext, ha.keeps.scopes, by rw [ha.keeps.vars]; exact fun _ _ h => h,
      by rw [ha.keeps.vars]; exact fun _ _ h => .inl h, ?_⟩, hE.wf WF.empty, hE.top h.vm.topv_nonneg, ?_, ?_, ?_⟩
    · intro m hm hdm
      by_cases hmn : m = n
      · subst hmn; exact .inr hmay
      · exact .inl (hold m hmn hdm)
    · intro β hc m hm hdm hndm
      by_cases hmn : m = n
      · subst hmn
        obtain ⟨e, he⟩ := reads_of_inst ((hcon β).1 hc)
        rw [hdim] at he
        exact ⟨e, he⟩
      · exact absurd (hold m hmn hdm) hndm
    · intro β σ _ _
      simp only [SemTrue, hE.sem, instSteps_sem]
      simp [imgS]
    · intro β σ hca
      refine ⟨β, .refl _ _ _, (hcon β).2 (inst_of_reads (e := σ n) fun i hi v hv => ?_)⟩
      rw [hca.2 _ (hused i (by omega) v hv)]
      exact W.inst_mean n hin σ i v hv

theorem Captures.encWithVar {x : QVar} (hd : W.depth x = stack.length) (hin : W.isInst (W.nm stack x))
    (hmay : W.may (W.nm stack x)) (h : Captures W (x :: Γ) stack q P) : Captures W Γ stack (encWithVar x (some q)) P := by
  refine Captures.wrapErr _ fun s hp hs => ?_
  subst hs
  obtain ⟨m1, hv, hvars⟩ := addVar_pre hp hd
  obtain ⟨a, b, c⟩ := addVar_other s x
  obtain ⟨c1, s1, e1, p1⟩ := encodeI_post (x := x) m1.pre (by rw [a.scopes]; exact hd)
    (by rw [a.scopes]; exact hv) hvars (by rw [a.scopes]; exact hin)
    (by rw [a.scopes]; exact hmay)
  obtain ⟨c2, s2, e2, p2⟩ := h s1 p1.moves.pre (p1.moves.scopes.trans a.scopes)
  have hp2 := ((Post2.of_seq p1 p2).merge.congr (Q := P) (by simp)).weaken (Γ' := Γ)
    (fun y hy => List.mem_cons_of_mem _ hy)
  refine ⟨c1.conjunction c2, s2, ?_, hp2.of_vm (m1.trans hp2.moves) b.symm c.symm rfl rfl⟩
  show (M.addVar x >>= fun _ => withVarBuild x q) s = _
  have e0 : M.addVar x s = (.ok (), s.addVar x) := rfl
  rw [M_bind_ok e0, withVarBuild_eq, M_bind_ok e1, M_bind_ok e2]; rfl

/-! ### ForAllGuarded -/

/-- Changing the values of the innermost scope. -/
theorem Pre.rescope {g g' : Scope} (h : Pre W Γ s) (hs : s.scopes = stack ++ [g])
    (hΓ : ∀ x ∈ Γ, W.depth x ≤ stack.length) :
    Pre W Γ { s with scopes := stack ++ [g'] } := by
  refine h.of_vm rfl rfl rfl rfl ?_ h.fn h.depth ?_
  · intro v k hk
    have := h.scope v k hk
    rw [hs] at this
    simpa using this
  · intro x hx
    obtain ⟨a, b, c, d⟩ := h.free x hx
    rw [hs, nm_append (hΓ x hx)] at c d
    refine ⟨a, ?_, ?_, ?_⟩
    · have := hΓ x hx; simp; omega
    · rw [nm_append (hΓ x hx)]; exact c
    · rw [nm_append (hΓ x hx)]; exact d

theorem Post.rescope {g g' : Scope} (h : Post W Γ s s' c P) (hs : s.scopes = stack ++ [g])
    (hΓ : ∀ x ∈ Γ, W.depth x ≤ stack.length) :
    Post W Γ { s with scopes := stack ++ [g'] } { s' with scopes := stack ++ [g'] } c P := by
  refine h.of_vm ⟨h.moves.pre.rescope (h.moves.scopes.trans hs) hΓ,
    ⟨h.moves.ext.topv_le, h.moves.ext.keep, h.moves.ext.fresh⟩, rfl, h.moves.keep, ?_,
    h.moves.decl⟩ rfl rfl rfl rfl
  intro x k hk
  have := h.moves.new x k hk
  rw [hs] at this
  simpa using this

theorem forallFold_captures {Ps : Nat → Asg → Prop} {tgt : List Char}
    (hΓ : ∀ x ∈ Γ, W.depth x ≤ stack.length) (ts : List (List FeatV)) :
    ∀ (i : Nat) (ncnf : CNF) (s0 s : Ctx) (g : Scope) (Q : Asg → Prop),
      (∀ j t, ts[j]? = some t → Captures W Γ (stack ++ [⟨tgt, t, ((i + j : Nat) : Int)⟩]) q (Ps (i + j))) →
      s0.scopes = stack ++ [g] → g.target = tgt → Post W Γ s0 s ncnf Q →
      ∃ c s' g', forallFold q ts i ncnf s = (.ok c, s') ∧
        Post W Γ { s0 with scopes := stack ++ [g'] } s' c
          (fun σ => Q σ ∧ ∀ j < ts.length, Ps (i + j) σ) := by
  induction ts with
  | nil =>
    intro i ncnf s0 s g Q _ hs0 _ hp
    refine ⟨ncnf, s, g, rfl, ?_⟩
    rw [← hs0]
    exact hp.congr (by simp)
  | cons t ts ih =>
    intro i ncnf s0 s g Q hch hs0 hg hp
    have hs : s.scopes = stack ++ [g] := hp.moves.scopes.trans hs0
    have hp1 := hp.rescope (g' := { g with vIdx := (i : Nat), value := t }) hs0 hΓ
    obtain ⟨c2, s2, e2, p2⟩ := hch 0 t (by simp) _ hp1.moves.pre (by simp [← hg])
    have p3 := (Post2.of_seq hp1 p2).merge
    obtain ⟨c, s', g', e3, p4⟩ := ih (i + 1) (ncnf.conjunction c2) _ s2
      { g with vIdx := (i : Nat), value := t } _ (by
        intro j t' hj
        have := hch (j + 1) t' (by simpa using hj)
        rw [show i + 1 + j = i + (j + 1) by omega]
        exact this) rfl hg p3
    refine ⟨c, s', g', ?_, p4.congr ?_⟩
    · simp only [forallFold]
      rw [M_bind_ok (setScope_append hs (i : Nat) t), M_bind_ok e2]
      exact e3
    · intro σ
      simp only [List.length_cons, Nat.add_zero, and_assoc]
      constructor
      · rintro ⟨a, b, c⟩
        refine ⟨a, fun j hj => ?_⟩
        cases j with
        | zero => exact b
        | succ j => rw [show i + (j + 1) = i + 1 + j by omega]; exact c j (by omega)
      · rintro ⟨a, b⟩
        refine ⟨a, b 0 (by omega), fun j hj => ?_⟩
        rw [show i + 1 + j = i + (j + 1) by omega]
        exact b (j + 1) (by omega)

theorem Pre.addScope (h : Pre W Γ s) (tgt : List Char) : Pre W Γ (s.addScope tgt) := by
  have hsc : (s.addScope tgt).scopes = s.scopes ++ [{ target := tgt }] := rfl
  refine h.of_vm rfl rfl rfl rfl ?_ h.fn h.depth ?_
  · intro v k hk
    have := h.scope v k hk
    rw [hsc]
    simp only [List.length_append, List.length_cons, List.length_nil]
    omega
  · intro x hx
    obtain ⟨a, b, c, d⟩ := h.free x hx
    rw [hsc, nm_append b]
    refine ⟨a, ?_, c, d⟩
    simp only [List.length_append, List.length_cons, List.length_nil]
    omega

theorem Captures.encForall {k : QConst} {Ps : Nat → Asg → Prop} {ws : List WalkSt}
    (hok : newNodeAsValuesIter W.dim W.nodes = .ok (WalkSt.init W.dim W.nodes.length))
    (hws : Iterates W.nodes (WalkSt.init W.dim W.nodes.length) ws)
    (hch : ∀ i w, ws[i]? = some w → Captures W Γ (stack ++ [⟨k.id, w.t, (i : Nat)⟩]) q (Ps i)) :
    Captures W Γ stack (encForall k (some q)) (fun σ => ∀ i < ws.length, Ps i σ) := by
  refine Captures.wrapErr _ fun s hp hs => ?_
  subst hs
  have hΓ : ∀ x ∈ Γ, W.depth x ≤ s.scopes.length := fun x hx => (hp.free x hx).2.1
  have hp0 := hp.addScope k.id
  obtain ⟨c, s', g', e, p⟩ := forallFold_captures (q := q) (Ps := Ps) (tgt := k.id) hΓ (ws.map (·.t)) 0 {}
    (s.addScope k.id) (s.addScope k.id) { target := k.id } (fun _ => True) (by
      intro j t hj
      simp only [List.getElem?_map, Option.map_eq_some_iff] at hj
      obtain ⟨w, hw, rfl⟩ := hj
      simpa using hch j w hw) rfl rfl (.true hp0)
  have hbody : forallBody q (s.addScope k.id) = (.ok c, s') := by
    rcases forallBody_eq q (s.addScope k.id) with ⟨e', h1, -⟩ | ⟨ws', h1, -, h2⟩
    · rw [hp0.dim, hp0.nodes, hok] at h1; simp at h1
    · rw [hp0.dim, hp0.nodes] at h1
      rw [h2, h1.unique hws]
      exact e
  have hsc : s'.scopes = s.scopes ++ [g'] := p.moves.scopes
  have hne : s'.scopes ≠ [] := by rw [hsc]; simp
  have hlen : s'.scopes.length = s.scopes.length + 1 := by rw [hsc]; simp
  refine ⟨c, s'.popScope.2, ?_, ?_⟩
  · show forallBuild k q s = _
    rw [forallBuild_of hbody hne]
  have p1 : s'.popScope.2.topv = s'.topv := by unfold Ctx.popScope; split <;> rfl
  have p2 : s'.popScope.2.vmap = s'.vmap := by unfold Ctx.popScope; split <;> rfl
  have p3 : s'.popScope.2.dim = s'.dim := by unfold Ctx.popScope; split <;> rfl
  have p4 : s'.popScope.2.nodes = s'.nodes := by unfold Ctx.popScope; split <;> rfl
  have p5 : s'.popScope.2.scopes = s.scopes := by rw [popScope_scopes, hsc]; simp
  have hp' := p.moves.pre
  have hpv := popScope_vars hp'.fn hne
  have hold : ∀ x k, mapGet s'.popScope.2.vars x = some k → mapGet s'.vars x = some k ∧
      k ≠ s.scopes.length + 1 := by
    intro x k hk
    rw [hpv, hlen] at hk
    split at hk
    · next k' hk' =>
      split at hk
      · simp at hk
      · simp only [Option.some.injEq] at hk
        subst hk
        exact ⟨hk', by assumption⟩
    · simp at hk
  have hkeep : ∀ x k, mapGet s'.vars x = some k → k ≤ s.scopes.length →
      mapGet s'.popScope.2.vars x = some k := by
    intro x k hk hle
    rw [hpv, hlen, hk]
    simp only
    rw [if_neg (by omega)]
  have hpre : Pre W Γ s'.popScope.2 := by
    refine hp'.of_vm p1 p2 p3 p4 ?_ (exec_varsFun .popScope s' hp'.fn) ?_ ?_
    · intro x k hk
      obtain ⟨h1, h2⟩ := hold x k hk
      have := hp'.scope x k h1
      rw [p5]; omega
    · intro x k hk; exact hp'.depth x k (hold x k hk).1
    · intro x hx
      obtain ⟨a, b, c, d⟩ := hp'.free x hx
      rw [hsc, nm_append (hΓ x hx)] at c d
      rw [p5]
      exact ⟨a.imp id fun h => hkeep x _ h (hΓ x hx), hΓ x hx, c, d⟩
  have hmv : Moves W Γ s s'.popScope.2 := by
    refine ⟨hpre, ?_, p5, ?_, ?_, fun n hn hd => p.moves.decl n hn ((Named.of_vm p2).1 hd)⟩
    · have := p.moves.ext
      refine ⟨?_, ?_, ?_⟩
      · rw [p1]; exact this.topv_le
      · rw [p2]; exact this.keep
      · rw [p2]; exact this.fresh
    · intro x k hk
      exact hkeep x k (p.moves.keep x k hk) (hp.scope x k hk).2
    · intro x k hk
      obtain ⟨h1, h2⟩ := hold x k hk
      rcases p.moves.new x k h1 with h3 | ⟨h3, -⟩
      · exact .inl h3
      · simp only [List.length_append, List.length_cons, List.length_nil] at h3
        omega
  exact (p.of_vm hmv rfl rfl p1 p2).congr (by simp)

end Goexpdt

import Verif.Lemmas.Own
import Verif.Props.Compute
/-
Queries with predicates of the user's own: C84.
-/
namespace Goexpdt.Props
open Goexpdt Spec

variable {d : Nat} {nodes : List Node} {T : DTree} {depth : QVar → Nat} {q : OQuery} {s : Ctx}

/-! ### C84: what the operators make of such predicates -/

/-- C84: a closed query over predicates that meet their contract is encoded without error, and its encoding is faithful to what the query
says. -/
theorem C84_faithful (hg : q.Good d nodes T depth) (hs : Ready d nodes (q.names d T) s) :
    ∃ c s', q.encode s = (.ok c, s') ∧ WF c ∧ c.tv ≤ s'.topv ∧ Ready d nodes [] s' ∧
      Faithful d (q.names d T) (fun σ => q.sem d T depth σ []) s' c := by
  obtain ⟨c, s', h1, h2, h3, -, -, h4, h5⟩ := good_own hg hs
  exact ⟨c, s', h1, h2, h3, h4, h5⟩

/-- C84 in first-order semantics: where nothing is declared below negations, the encoding is satisfiable iff the query is true. -/
theorem C84_first_order (hg : q.Good d nodes T depth) (hp : q.skel.Plain) (hs : Ready d nodes (q.names d T) s) :
    ∃ c s', q.encode s = (.ok c, s') ∧ (Satisfiable c ↔ q.fo T (fun _ => bot) (fun _ => none)) := by
  obtain ⟨c, s', h1, -, -, -, h5⟩ := C84_faithful hg hs
  exact ⟨c, s', h1, by rw [h5.sat, own_exists_sem_iff_fo hg.fits hp]⟩

variable {S : Type} {sv : Solver S}

/-- C84, `compute.Atom`: with a solver that is right and does not fail, `Sat` returns the truth value of the query, or of its negation. -/
theorem C84_atom (hc : Correct sv) (hr : Reliable sv) (hg : q.Good d nodes T depth) (hp : q.skel.Plain)
    (hs : Ready d nodes (q.names d T) s) (negated : Bool) (st : S) :
    ∃ b st' s', atomSat sv (some q.encode) negated st s = (.ok b, st', s') ∧
      (b = true ↔ (q.fo T (fun _ => bot) (fun _ => none) ↔ negated = false)) := by
  rw [← own_exists_sem_iff_fo hg.fits hp]
  unfold atomSat
  rcases decides_step (st := st) hc hg.decides hs with ⟨st1, s1, e, -, β, σ, hP, -⟩ | ⟨st1, s1, e, -, hn⟩ | ⟨_, _, _, _, hn⟩
  · refine ⟨!negated, st1, s1, by rw [e], ?_⟩
    have : ∃ σ, q.sem d T depth σ [] := ⟨σ, hP⟩
    cases negated <;> simp [this]
  · refine ⟨negated, st1, s1, by rw [e], ?_⟩
    cases negated <;> simp [hn]
  · exact absurd hr hn

variable {v : QVar} {f : OQuery} {o : QConst → OQuery} {st st' : S} {s' : Ctx} {r : OptOutput}

/-- C84, `compute.ComputeOptim`: what is returned satisfies the formula, and nothing that satisfies it is better. -/
theorem C84_optimum (hc : Correct sv) (h : OQuery.Optimises d nodes T depth v f o) (hs : Ready d nodes ((OQuery.withVar v f).names d T) s)
    {tmp : Bool} {fuel : Nat}
    (he : computeOptim sv (fun _ => some f.encode) (fun _ k => some (o k).encode) v tmp fuel st s = (.ok r, st', s'))
    (hf : r.found = true) :
    GoodVals d r.value.val ∧ f.about T v (den r.value.val) ∧ ∀ e, f.about T v e → ¬ (o { val := r.value.val }).about T v e := by
  obtain ⟨h1, h2, h3, h4⟩ := C46_optimum hc h.poses hs he hf
  rw [valsOf_den ⟨h1, h2⟩] at h4
  exact ⟨⟨h1, h2⟩, h3, h4⟩

/-- C84, `compute.ComputeOptim`: if the order is strict, it returns after at most `3 ^ d + 1` calls, and it finds something iff there is
something that satisfies the formula. -/
theorem C84_optim_ends (hc : Correct sv) (hr : Reliable sv) (h : OQuery.Optimises d nodes T depth v f o)
    (hs : Ready d nodes ((OQuery.withVar v f).names d T) s)
    (hR : StrictOn (f.about T v) (fun e p => (o { val := valsOf d p }).about T v e) d) {fuel : Nat} (hfuel : 3 ^ d ≤ fuel) :
    ∃ r st' s', computeOptim sv (fun _ => some f.encode) (fun _ k => some (o k).encode) v true fuel st s = (.ok r, st', s') ∧
      r.calls ≤ 3 ^ d + 1 ∧ (r.found = true ↔ ∃ e, f.about T v e) := by
  obtain ⟨r, st', s', h1, h2⟩ := C48_strict (st := st) hc hr h.poses hs hR hfuel
  refine ⟨r, st', s', h1, h2, ?_⟩
  have h3 := C47_absent_partial (st := st) hc hr h.poses hs fuel
  constructor
  · intro hf
    exact ⟨_, (C84_optimum hc h hs h1 hf).2.1⟩
  · rintro ⟨e, he⟩
    rcases hf : r.found
    · exact absurd he (h3.1 ⟨r, st', s', h1, hf⟩ e)
    · rfl

/-! ### C84: which predicates meet the contract -/

/-- C84: the predicates of the library meet it. -/
theorem C84_library {a : Atom} (hg : Spec.Atom.nilGen a = false) (hp : a.PrefOk d) (hn : Spec.Atom.PrefsNonempty a)
    (hT : a.onModel = true → IsTree d nodes T ∧ Covers nodes T) : (a.pred d nodes T).Meets d nodes := by
  have hmem : ∀ t ∈ a.terms, t ∈ (a.pred d nodes T).terms := by
    intro t ht
    show t ∈ a.vars.map .var ++ (Spec.Atom.consts a).map .const
    cases t with
    | var x => exact List.mem_append_left _ (List.mem_map.2 ⟨x, mem_terms_var ht, rfl⟩)
    | const c =>
      refine List.mem_append_right _ (List.mem_map.2 ⟨c, ?_, rfl⟩)
      have hc : c ∈ Spec.Term.consts (.const c) := by simp [Spec.Term.consts]
      cases a <;> simp only [Atom.terms, List.mem_cons, List.not_mem_nil, or_false] at ht <;>
        simp only [Spec.Atom.consts, List.mem_append] <;> grind
  refine ⟨fun ρ ρ' h => says_congr hp fun t ht => h t (hmem t ht), ?_⟩
  rintro W Γ stack rfl rfl hv hc ha hu
  refine atom_captures (T := T) ⟨fun x hx => hv x ?_, fun c hc' => hc c ?_, hg, hp, hn, ha, hT⟩ fun u hu' => ?_
  · exact List.mem_append_left _ (List.mem_map.2 ⟨x, hx, rfl⟩)
  · exact List.mem_append_right _ (List.mem_map.2 ⟨c, hc', rfl⟩)
  · exact hu _ (List.mem_map.2 ⟨u, hu', rfl⟩)

/-- C84: predicates given by clauses over features meet it. -/
theorem C84_clauses {xs : List QVar} {cls : List SClause} (h : Within d xs cls) : (clausePred xs cls).Meets d nodes := by
  refine ⟨?_, ?_⟩
  · intro ρ ρ' hs
    refine forall_congr' fun c => forall_congr' fun hc => exists_congr fun l => and_congr_right fun hl => ?_
    obtain ⟨h1, ⟨i, hi, h2⟩, -⟩ := h c hc l hl
    have := hs (.var l.vr.v) (List.mem_map.2 ⟨_, h1, rfl⟩) i hi
    rw [h2, Int.toNat_natCast]
    show (valOf (ρ (.var l.vr.v) i) = _ ↔ _) ↔ (valOf (ρ' (.var l.vr.v) i) = _ ↔ _)
    rw [this]
  · rintro W Γ stack rfl rfl hv - - -
    have hΓ : ∀ x ∈ xs, x ∈ Γ := fun x hx => hv x (List.mem_map.2 ⟨x, hx, rfl⟩)
    have hsc : ∀ (ys : List QVar) (k : (QVar → QVar) → M CNF) (Q : Asg → Prop), (∀ x ∈ ys, x ∈ Γ) →
        (∀ f : QVar → QVar, (∀ x ∈ ys, f x = W.nm stack x) → Captures W Γ stack (k f) Q) → Captures W Γ stack (withNames ys k) Q := by
      intro ys
      induction ys with
      | nil => intro k Q _ hk; exact hk id (by simp)
      | cons y ys ih =>
        intro k Q hy hk
        refine .scopeVar (hy y (by simp)) (ih _ _ (fun x hx => hy x (by simp [hx])) fun f hf => hk _ fun x hx => ?_)
        unfold upd
        split
        · next e => rw [e]
        · next e => exact hf x (by simpa [e] using hx)
    refine hsc xs _ _ hΓ fun f hf => .emitS ?_ ?_
    · intro vr hvr
      obtain ⟨c', hc', l', hl', rfl⟩ := hvr
      obtain ⟨c, hc, rfl⟩ := List.mem_map.1 hc'
      obtain ⟨l, hl, rfl⟩ := List.mem_map.1 hl'
      obtain ⟨h1, ⟨i, hi, h2⟩, h3⟩ := h c hc l hl
      simp only [SLit.named, hf _ h1, h2]
      exact .inst (instNames_of (hΓ _ h1)) hi h3
    · intro σ ν hr
      show (∀ c' ∈ cls.map _, _) ↔ _
      rw [List.forall_mem_map]
      refine forall_congr' fun c => forall_congr' fun hc => ?_
      have key : ∀ l ∈ c, (slTrue ν (SLit.named f l) ↔ (valOf (σ (W.nm stack l.vr.v) l.vr.idx.toNat) = l.vr.val ↔ l.pos = true)) := by
        intro l hl
        obtain ⟨h1, ⟨i, hi, h2⟩, h3⟩ := h c hc l hl
        simp only [slTrue, SLit.named, hf _ h1, h2, Int.toNat_natCast]
        rw [hr _ (hΓ _ h1) i hi _ h3]
        cases l.pos <;> simp
      constructor
      · rintro ⟨l', hl', ht⟩
        obtain ⟨l, hl, rfl⟩ := List.mem_map.1 hl'
        exact ⟨l, hl, (key l hl).1 ht⟩
      · rintro ⟨l, hl, ht⟩
        exact ⟨_, List.mem_map.2 ⟨l, hl, rfl⟩, (key l hl).2 ht⟩

open Classical in
/-- Clauses that exclude all values of `xs` without the property. -/
noncomputable def excluding (d : Nat) : List QVar → ((QVar → PInst) → Prop) → List SClause
  | [], F => if F (fun _ => bot) then [] else [[]]
  | x :: xs, F => (allVals d).flatMap fun b =>
      (excluding d xs fun ρ => F (upd ρ x (den b))).map ((List.range d).map (fun (i : Nat) => N x i (valOf (den b i))) ++ ·)

/-- C84: every property of finitely many instances can be added in this way: there are clauses that say it. -/
theorem C84_every (xs : List QVar) (F : (QVar → PInst) → Prop)
    (hF : ∀ ρ ρ' : QVar → PInst, (∀ x ∈ xs, Same d (ρ x) (ρ' x)) → (F ρ ↔ F ρ')) :
    ∃ cls, (clausePred xs cls).Meets d nodes ∧ ∀ ρ, (clausePred xs cls).says ρ ↔ F fun x => ρ (.var x) := by
  have hw : ∀ (ys : List QVar) (F : (QVar → PInst) → Prop), Within d ys (excluding d ys F) := by
    intro ys
    induction ys with
    | nil =>
      intro F c hc l hl
      unfold excluding at hc
      split at hc <;> simp_all
    | cons y ys ih =>
      intro F c hc l hl
      simp only [excluding, List.mem_flatMap, List.mem_map] at hc
      obtain ⟨b, -, c', hc', rfl⟩ := hc
      rcases List.mem_append.1 hl with hl | hl
      · obtain ⟨i, hi, rfl⟩ := List.mem_map.1 hl
        exact ⟨by simp [N], ⟨i, List.mem_range.1 hi, rfl⟩, valOf_mem _⟩
      · obtain ⟨h1, h2⟩ := ih _ c' hc' l hl
        exact ⟨by simp [h1], h2⟩
  have hs : ∀ (ys : List QVar) (F : (QVar → PInst) → Prop), (∀ ρ ρ' : QVar → PInst, (∀ x ∈ ys, Same d (ρ x) (ρ' x)) → (F ρ ↔ F ρ')) →
      ∀ ρ, clauseSays (excluding d ys F) ρ ↔ F ρ := by
    intro ys
    induction ys with
    | nil =>
      intro F hF ρ
      rw [hF ρ (fun _ => bot) (by simp)]
      unfold excluding clauseSays
      split <;> simp_all
    | cons y ys ih =>
      intro F hF ρ
      have hstep : ∀ b, GoodVals d b → (clauseSays (excluding d ys fun ρ => F (upd ρ y (den b))) ρ ↔ F (upd ρ y (den b))) := by
        intro b _
        refine ih _ (fun ρ ρ' h => hF _ _ fun x hx => ?_) ρ
        unfold upd
        split
        · exact same_refl _
        · next e => exact h x (by simpa [e] using hx)
      have hself : F ρ ↔ F (upd ρ y (den (valsOf d (ρ y)))) := by
        refine hF _ _ fun x _ => ?_
        unfold upd
        split
        · next e => rw [e]; exact Same.symm (den_valsOf d (ρ y))
        · exact same_refl _
      have hmiss : ∀ b, (∃ l ∈ (List.range d).map (fun (i : Nat) => N y i (valOf (den b i))),
          (valOf (ρ l.vr.v l.vr.idx.toNat) = l.vr.val ↔ l.pos = true)) ↔ ¬ Same d (ρ y) (den b) := by
        intro b
        simp only [List.mem_map, List.mem_range, Same]
        constructor
        · rintro ⟨l, ⟨i, hi, rfl⟩, h⟩ hsame
          simp only [N, Int.toNat_natCast, hsame i hi] at h
          simp at h
        · intro h
          obtain ⟨i, hi⟩ := Classical.not_forall.1 h
          obtain ⟨hi, hne⟩ := Classical.not_imp.1 hi
          exact ⟨_, ⟨i, hi, rfl⟩, by simp [N, valOf_inj, hne]⟩
      have hsplit : clauseSays (excluding d (y :: ys) F) ρ ↔ ∀ b, GoodVals d b → Same d (ρ y) (den b) → F (upd ρ y (den b)) := by
        constructor
        · intro h b hb hsame
          refine (hstep b hb).1 fun c hc => ?_
          obtain ⟨l, hl, ht⟩ := h _ (List.mem_flatMap.2 ⟨b, mem_allVals hb, List.mem_map.2 ⟨c, hc, rfl⟩⟩)
          rcases List.mem_append.1 hl with hl | hl
          · exact absurd hsame ((hmiss b).1 ⟨l, hl, ht⟩)
          · exact ⟨l, hl, ht⟩
        · intro h c hc
          simp only [excluding, List.mem_flatMap, List.mem_map] at hc
          obtain ⟨b, hb, c', hc', rfl⟩ := hc
          by_cases hsame : Same d (ρ y) (den b)
          · obtain ⟨l, hl, ht⟩ := (hstep b (allVals_good hb)).2 (h b (allVals_good hb) hsame) c' hc'
            exact ⟨l, List.mem_append_right _ hl, ht⟩
          · obtain ⟨l, hl, ht⟩ := (hmiss b).2 hsame
            exact ⟨l, List.mem_append_left _ hl, ht⟩
      rw [hsplit]
      constructor
      · intro h
        exact hself.2 (h _ (valsOf_good _ _) (Same.symm (den_valsOf d (ρ y))))
      · intro h b hb hsame
        refine (hF _ _ fun x _ => ?_).1 h
        unfold upd
        split
        · next e => rw [e]; exact hsame
        · exact same_refl _
  exact ⟨excluding d xs F, C84_clauses (hw xs F), fun ρ => hs xs F hF fun x => ρ (.var x)⟩

/-! ### C84: why the contract is needed -/

/-- A predicate that puts its condition, "feature 0 of `x` is ONE", among the consistency clauses. -/
def misplaced (x : QVar) : Pred where
  encode := do
    let v ← M.scopeVar x
    let n ← M.cnfVar ⟨v, 0, ONE⟩
    pure (({} : CNF).appendConsistency [[n]])
  terms := [.var x]
  says ρ := ρ (.var x) 0 = some true
  admits _ := True
  aux _ _ := []

/-- C84: such a predicate is right by itself (the encoding of "there is such an instance" is satisfiable, and in its models feature 0 of `x`
is ONE), but not below a negation: "there is an instance that is not such" is true, and its encoding is not satisfiable. So it does not meet
the contract. -/
theorem C84_needed :
    (∃ c s', (OQuery.withVar ['x'] (.pred (misplaced ['x']))).encode (BasicQContext 1 []) = (.ok c, s') ∧ Satisfiable c ∧
      ∀ β, Models β c → ∃ e, Reads 1 s' β ['x'] e ∧ e 0 = some true) ∧
    (OQuery.withVar ['x'] (.not (.pred (misplaced ['x'])))).fo (.leaf 0 false) (fun _ => bot) (fun _ => none) ∧
    (∃ c s', (OQuery.withVar ['x'] (.not (.pred (misplaced ['x'])))).encode (BasicQContext 1 []) = (.ok c, s') ∧ ¬ Satisfiable c) ∧
    ¬ (misplaced ['x']).Meets 1 [] := by
  have hfo : (OQuery.withVar ['x'] (.not (.pred (misplaced ['x'])))).fo (.leaf 0 false) (fun _ => bot) (fun _ => none) :=
    ⟨bot, by simp [OQuery.fo, misplaced, Term.val, upd, bot]⟩
  have hun : ∃ c s', (OQuery.withVar ['x'] (.not (.pred (misplaced ['x'])))).encode (BasicQContext 1 []) = (.ok c, s') ∧ ¬ Satisfiable c := by
    refine ⟨{ tv := 3, sClauses := [[]], cClauses := [[1, 2, 3], [-1, -2], [-1, -3], [-2, -3], [2]] }, _, rfl, ?_⟩
    rintro ⟨β, h, -⟩
    obtain ⟨l, hl, -⟩ := h [] (by simp)
    simp at hl
  refine ⟨⟨{ tv := 3, sClauses := [], cClauses := [[1, 2, 3], [-1, -2], [-1, -3], [-2, -3], [2]] }, _, rfl, ?_, ?_⟩, hfo, hun, fun hm => ?_⟩
  · refine ⟨fun n => n == 2, ?_⟩
    simp [Models, SemTrue, ConTrue, clausesTrue, clauseTrue, litTrue]
  · rintro β ⟨-, h⟩
    have h2 : β 2 = true := by
      obtain ⟨l, hl, ht⟩ := h [2] (by simp)
      rw [List.mem_singleton.1 hl] at ht
      simpa [litTrue] using ht
    have h1 : β 1 = false := by
      obtain ⟨l, hl, ht⟩ := h [-1, -2] (by simp)
      simp only [List.mem_cons, List.not_mem_nil, or_false] at hl
      rcases hl with rfl | rfl <;> simp_all [litTrue]
    have h3 : β 3 = false := by
      obtain ⟨l, hl, ht⟩ := h [-2, -3] (by simp)
      simp only [List.mem_cons, List.not_mem_nil, or_false] at hl
      rcases hl with rfl | rfl <;> simp_all [litTrue]
    refine ⟨fun _ => some true, ?_, rfl⟩
    intro i hi v hv
    obtain rfl : i = 0 := by omega
    simp only [featVals, List.mem_cons, List.not_mem_nil, or_false] at hv
    rcases hv with rfl | rfl | rfl
    · exact h3
    · exact h1
    · exact h2
  · obtain ⟨c, s', h1, h2⟩ := C84_first_order (T := .leaf 0 false) (depth := fun _ => 0) (nodes := [])
      (q := OQuery.withVar ['x'] (.not (.pred (misplaced ['x'])))) (d := 1)
      ⟨by omega, ⟨rfl, hm, by simp [misplaced], by simp [misplaced], trivial⟩, by simp [OQuery.aux, misplaced]⟩
      ⟨rfl, by simp [OQuery.skel, Query.binders], by simp [OQuery.skel, Query.binders]; decide, trivial⟩ (Ready.fresh_ctx _ _ _)
    obtain ⟨c', s'', h3, h4⟩ := hun
    rw [h1] at h3
    simp only [Prod.mk.injEq, Except.ok.injEq] at h3
    rw [h3.1] at h2
    exact h4 (h2.2 hfo)

/-! ### concrete cases -/

/-- Own predicates by clauses: "features 0 and 1 of `x` are equal", "feature 0 of `x` is ONE or that of `y` is not undefined". -/
def equalEnds : Pred := clausePred [['x']] (featVals.map fun v => [N ['x'] 0 v, P ['x'] 1 v])
def someKnown : Pred := clausePred [['x'], ['y']] [[P ['x'] 0 ONE, N ['y'] 0 BOT]]

theorem equalEnds_meets : equalEnds.Meets 2 nodes := C84_clauses (by
  intro c hc l hl
  obtain ⟨v, hv, rfl⟩ := List.mem_map.1 hc
  simp only [List.mem_cons, List.not_mem_nil, or_false] at hl
  rcases hl with rfl | rfl
  · exact ⟨by simp [N], ⟨0, by omega, rfl⟩, hv⟩
  · exact ⟨by simp [P], ⟨1, by omega, rfl⟩, hv⟩)

theorem someKnown_meets : someKnown.Meets 2 nodes := C84_clauses (by
  intro c hc l hl
  simp only [List.mem_singleton] at hc
  subst hc
  simp only [List.mem_cons, List.not_mem_nil, or_false] at hl
  rcases hl with rfl | rfl
  · exact ⟨by simp [P], ⟨0, by omega, rfl⟩, one_mem⟩
  · exact ⟨by simp [N], ⟨0, by omega, rfl⟩, bot_mem⟩)

/-- Own predicates and the library's, below a negation and a guarded quantifier: there is an instance `x` with equal features such that for
every node `c` there is an instance `y` that `c` subsumes, with … not. -/
noncomputable def ownQuery : OQuery :=
  .withVar ['x'] (.and (.pred equalEnds) (.forallG { id := ['c'] } (.withVar ['y'] (.and
    (.pred (Atom.pred 2 exNodes exTree (.subs (.const { id := ['c'] }) (.var ['y'])))) (.not (.pred someKnown))))))

theorem ownQuery_good : ownQuery.Good 2 exNodes exTree nodeDepth := by
  refine ⟨by omega, ⟨rfl, ⟨equalEnds_meets, ?_, ?_, trivial⟩, exNodes_isTree, exNodes_covers, ?_⟩, ?_⟩
  · simp [equalEnds, clausePred]
  · simp [equalEnds, clausePred]
  · intro g hg
    obtain ⟨i, p, -, rfl⟩ := mem_scopesOf.1 hg
    refine ⟨rfl, ⟨C84_library rfl trivial trivial (by simp [Atom.onModel]), ?_, ?_, trivial⟩, someKnown_meets, ?_, ?_, trivial⟩
    · simp [Atom.pred, Atom.vars, Term.vars]
    · simp only [Atom.pred, Spec.Atom.consts, Spec.Term.consts]
      intro c hc
      obtain rfl : c = { id := ['c'] } := by simpa using hc
      exact valsOf_good 2 p.2
    · simp [someKnown, clausePred]
    · simp [someKnown, clausePred]
  · intro u hu
    simp [ownQuery, OQuery.aux, equalEnds, someKnown, clausePred, Atom.pred, Atom.uses] at hu

theorem ownQuery_plain : ownQuery.skel.Plain :=
  ⟨⟨trivial, trivial, rfl⟩, by simp [ownQuery, OQuery.skel, Query.binders], by simp [ownQuery, OQuery.skel, Query.binders]; decide,
    ⟨trivial, by simp, by decide, trivial, trivial⟩⟩

/-- Concrete case of C84: a query with own predicates, in a fresh context. -/
example : ∃ c s', ownQuery.encode (BasicQContext 2 exNodes) = (.ok c, s') ∧
    (Satisfiable c ↔ ownQuery.fo exTree (fun _ => bot) (fun _ => none)) :=
  C84_first_order ownQuery_good ownQuery_plain (Ready.fresh_ctx _ _ _)

example (negated : Bool) : ∃ b st' s', atomSat bruteSolver (some ownQuery.encode) negated {} (BasicQContext 2 exNodes) = (.ok b, st', s') ∧
    (b = true ↔ (ownQuery.fo exTree (fun _ => bot) (fun _ => none) ↔ negated = false)) :=
  C84_atom bruteSolver_correct bruteSolver_reliable ownQuery_good ownQuery_plain (Ready.fresh_ctx _ _ _) negated {}

/-- The library's strict subsumption, as an order. -/
noncomputable def ownOrder (k : QConst) : OQuery :=
  .and (.pred (Atom.pred 2 exNodes exTree (.subs (.var ['x']) (.const k)))) (.not (.pred (Atom.pred 2 exNodes exTree (.subs (.const k) (.var ['x'])))))

theorem ownOptimises : OQuery.Optimises 2 exNodes exTree (fun _ => 0) ['x'] (.pred equalEnds) ownOrder := by
  have hfit : ∀ k : QConst, GoodVals 2 k.val → ∀ t1 t2 : Term, (t1 = .const k ∧ t2 = .var ['x'] ∨ t1 = .var ['x'] ∧ t2 = .const k) →
      (OQuery.pred (Atom.pred 2 exNodes exTree (.subs t1 t2))).Fits 2 exNodes exTree (fun _ => 0) [['x']] [] := by
    intro k hk t1 t2 h
    refine ⟨C84_library rfl trivial trivial (by simp [Atom.onModel]), ?_, ?_, trivial⟩
    · rcases h with ⟨rfl, rfl⟩ | ⟨rfl, rfl⟩ <;> simp [Atom.pred, Atom.vars, Term.vars]
    · rcases h with ⟨rfl, rfl⟩ | ⟨rfl, rfl⟩ <;> simp [Atom.pred, Spec.Atom.consts, Spec.Term.consts, resolve, hk]
  have hx : (OQuery.pred equalEnds).Fits 2 exNodes exTree (fun _ => 0) [['x']] [] :=
    ⟨equalEnds_meets, by simp [equalEnds, clausePred], by simp [equalEnds, clausePred], trivial⟩
  refine ⟨⟨by omega, ⟨rfl, hx⟩, ?_⟩, ⟨trivial, ?_, ?_, trivial⟩, fun b hb => ⟨by omega, ⟨rfl, hx, ?_, ?_⟩, ?_⟩, fun b hb => ⟨⟨trivial, trivial, rfl⟩, ?_, ?_, ?_⟩⟩
  · intro u hu; simp [OQuery.aux, equalEnds, clausePred] at hu
  · simp [OQuery.skel, Query.binders]
  · simp [OQuery.skel, Query.binders]; decide
  · exact hfit _ hb _ _ (.inr ⟨rfl, rfl⟩)
  · exact hfit _ hb _ _ (.inl ⟨rfl, rfl⟩)
  · intro u hu; simp [OQuery.aux, equalEnds, clausePred, ownOrder, Atom.pred, Atom.uses] at hu
  · simp [OQuery.skel, Query.binders, ownOrder]
  · simp [OQuery.skel, Query.binders, ownOrder]; decide
  · exact ⟨trivial, trivial, trivial⟩

/-- Concrete case of C84: the least defined instance with equal features, with the solver that tries all valuations. -/
example : ∃ r st' s', computeOptim bruteSolver (fun _ => some equalEnds.encode) (fun _ k => some (ownOrder k).encode) ['x'] true 9 {}
    (BasicQContext 2 exNodes) = (.ok r, st', s') ∧ r.calls ≤ 10 ∧
    (r.found = true ↔ ∃ e, (OQuery.pred equalEnds).about exTree ['x'] e) := by
  refine C84_optim_ends (d := 2) (fuel := 9) bruteSolver_correct bruteSolver_reliable ownOptimises (Ready.fresh_ctx _ _ _) ⟨?_, ?_⟩ (by omega)
  · rintro b hb - ⟨h1, h2⟩
    rw [valsOf_den hb] at h1 h2
    exact h2 h1
  · rintro a b c ha hb hc - - - ⟨h1, h2⟩ ⟨h3, h4⟩
    rw [valsOf_den hb] at h1 h2
    rw [valsOf_den hc] at h3 h4
    simp only [ownOrder, OQuery.about, OQuery.fo, Atom.pred, Atom.says, Term.val, upd, if_true, Option.getD_none] at h1 h2 h3 h4 ⊢
    rw [valsOf_den hc]
    have htr : ∀ e f g : PInst, Subsumes 2 e f → Subsumes 2 f g → Subsumes 2 e g := by
      intro e f g h h' i hi he
      have := h i hi he
      rw [this] at he ⊢
      exact h' i hi he
    exact ⟨htr _ _ _ h1 h3, fun h => h2 (htr _ _ _ h3 h)⟩

end Goexpdt.Props

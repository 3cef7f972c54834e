import Verif.Lemmas.GroundFo
/- The conditions of C39 and C40 are a special case of those of C65 and C66. -/
namespace Goexpdt
open Spec

variable {d : Nat} {nodes : List Node} {T : DTree} {depth : QVar → Nat}

theorem flatMap_ext {α β : Type} {l : List α} {f g : α → List β} (h : ∀ a ∈ l, f a = g a) : l.flatMap f = l.flatMap g := by
  induction l with
  | nil => rfl
  | cons a l ih => simp only [List.flatMap_cons]; rw [h a (by simp), ih fun b hb => h b (by simp [hb])]

theorem uses_congr {a : Atom} {lv lv' : Levels} {stack : List Scope} (h : ∀ x ∈ a.vars, lv x = lv' x) :
    a.uses lv stack = a.uses lv' stack := by
  have hn : ∀ x ∈ a.vars, x ++ suffix (stack.take (lv x)) = x ++ suffix (stack.take (lv' x)) := fun x hx => by rw [h x hx]
  have ht : ∀ t ∈ a.terms, t.res lv stack = t.res lv' stack ∧ t.key lv stack = t.key lv' stack := by
    intro t ht
    cases t with
    | const c => exact ⟨rfl, rfl⟩
    | var x =>
      have := hn x (mem_terms_var ht)
      exact ⟨congrArg RTerm.name this, this⟩
  unfold Atom.uses
  split <;> simp_all [Atom.vars, Atom.terms, Term.res, Term.key]

theorem says_res_congr {a : Atom} {lv lv' : Levels} {stack : List Scope} {σ : Asg} (h : ∀ x ∈ a.vars, lv x = lv' x) :
    (a.says d T fun t => (t.res lv stack).den σ) ↔ a.says d T fun t => (t.res lv' stack).den σ := by
  refine says_ext fun t ht => ?_
  cases t with
  | const c => rfl
  | var x =>
    show σ (x ++ suffix (stack.take (lv x))) = σ (x ++ suffix (stack.take (lv' x)))
    rw [h x (mem_terms_var ht)]

/-- The recorded depths are those of the variables. -/
structure Known (depth : QVar → Nat) (Γ : List QVar) (lv : Levels) : Prop where
  all : ∀ x, lv x = 0 ∨ lv x = depth x
  free : ∀ x ∈ Γ, lv x = depth x

theorem nodeInsts_inhabited (T : DTree) : ∃ (i : Nat) (p : Nat × PInst), (T.nodeInsts bot)[i]? = some p := by
  cases T <;> exact ⟨0, _, rfl⟩

theorem Query.Fits.inhabited {c : QConst} {q : Query} {Γ : List QVar} {stack : List Scope} (h : (Query.forallG c q).Fits d nodes T depth Γ stack) :
    ∃ g, q.Fits d nodes T depth Γ (stack ++ [g]) := by
  obtain ⟨i, p, hp⟩ := nodeInsts_inhabited T
  exact ⟨_, h.2.2 _ (mem_scopesOf.2 ⟨i, p, hp, rfl⟩)⟩

theorem tops_depth (q : Query) : ∀ Γ stack, q.Fits d nodes T depth Γ stack → ∀ x ∈ q.tops, depth x = stack.length := by
  induction q with
  | nil => intro _ _ h; exact h.elim
  | atom a => intro _ _ _ x hx; simp [Query.tops] at hx
  | and q1 q2 ih1 ih2 =>
    intro Γ stack h x hx
    simp only [Query.tops, List.mem_append] at hx
    exact hx.elim (ih1 _ _ h.1 x) (ih2 _ _ h.2 x)
  | or q1 q2 ih1 ih2 =>
    intro Γ stack h x hx
    simp only [Query.tops, List.mem_append] at hx
    exact hx.elim (ih1 _ _ h.1 x) (ih2 _ _ h.2 x)
  | not q ih => intro Γ stack h x hx; exact ih _ _ h x hx
  | withVar y q ih =>
    intro Γ stack h x hx
    simp only [Query.tops, List.mem_cons] at hx
    rcases hx with rfl | hx
    · exact h.1
    · exact ih _ _ h.2 x hx
  | forallG c q ih => intro _ _ _ x hx; simp [Query.tops] at hx

theorem Known.levels {q : Query} {Γ : List QVar} {lv : Levels} {k : Nat} (h : Known depth Γ lv)
    (ht : ∀ x ∈ q.tops, depth x = k) : Known depth Γ (q.levels k lv) := by
  refine ⟨fun x => ?_, fun x hx => ?_⟩
  · rw [levels_eq]
    split
    · next h' => exact .inr (ht x h'.1).symm
    · exact h.all x
  · rw [levels_eq]
    split
    · next h' => exact (ht x h'.1).symm
    · exact h.free x hx

theorem Known.declare {x : QVar} {Γ : List QVar} {lv : Levels} {k : Nat} (h : Known depth Γ lv) (hx : depth x = k) :
    Known depth (x :: Γ) (lv.declare k x) ∧ lv.declare k x x = k := by
  have hxx : lv.declare k x x = k := by
    unfold Levels.declare
    rcases h.all x with h0 | h0
    · simp [h0]
    · split
      · rfl
      · rw [h0, hx]
  refine ⟨⟨fun y => ?_, fun y hy => ?_⟩, hxx⟩
  · unfold Levels.declare
    split
    · next h' => rw [h'.1, hx]; exact .inr rfl
    · exact h.all y
  · by_cases hyx : y = x
    · rw [hyx, hxx, hx]
    · rw [← h.free y (by simpa [hyx] using hy)]
      simp [Levels.declare, hyx]

theorem Known.times {q : Query} {Γ : List QVar} {lv : Levels} {k : Nat} (h : Known depth Γ lv)
    (ht : ∀ x ∈ q.tops, depth x = k) (i : Nat) : Known depth Γ (times (fun lv => q.levels k lv) i lv) := by
  rw [times_levels]
  split
  · exact h
  · exact h.levels ht

theorem iter_tops {c : QConst} {q : Query} {Γ : List QVar} {stack : List Scope} (h : (Query.forallG c q).Fits d nodes T depth Γ stack) :
    ∀ x ∈ q.tops, depth x = stack.length + 1 := by
  obtain ⟨g, hg⟩ := h.inhabited
  intro x hx
  simpa using tops_depth q _ _ hg x hx

/-- A list of iterations, seen in two ways. -/
theorem iters_map (f : Nat → Scope → Ground) (id : List Char) :
    (scopesOf d T id).mapIdx f = (scopesOf d T id).map fun g => f g.vIdx.toNat g := by
  apply List.ext_getElem
  · simp
  · intro i h1 h2
    simp only [List.getElem_mapIdx, List.getElem_map]
    have : ((scopesOf d T id)[i]'(by simpa using h1)).vIdx = (i : Int) := by simp [scopesOf, scopeAt]
    rw [this]
    rfl

theorem conj_fits_of (gs : List Ground) : ∀ Γ, (∀ g ∈ gs, ∀ Δ, (∀ n ∈ Γ, n ∈ Δ) → g.Fits d nodes T Δ) → (Ground.conj gs).Fits d nodes T Γ := by
  induction gs with
  | nil => intro _ _; trivial
  | cons g gs ih =>
    intro Γ h
    exact ⟨h g (by simp) Γ fun _ hn => hn, ih _ fun g' hg' Δ hΔ =>
      h g' (by simp [hg']) Δ fun n hn => hΔ n (List.mem_append_right _ hn)⟩

theorem conj_names_flatMap (gs : List Ground) : (Ground.conj gs).names = gs.flatMap (·.names) := by
  induction gs with
  | nil => rfl
  | cons g gs ih => simp [Ground.conj, Ground.names, ih]

theorem conj_uses_flatMap (gs : List Ground) : (Ground.conj gs).uses = gs.flatMap (·.uses) := by
  induction gs with
  | nil => rfl
  | cons g gs ih => simp [Ground.conj, Ground.uses, ih]

theorem ground_good (q : Query) : ∀ (Γ : List QVar) (stack : List Scope) (lv : Levels), q.Fits d nodes T depth Γ stack → Known depth Γ lv →
    (q.ground d T stack lv).names = q.names d T stack ∧ (q.ground d T stack lv).uses = q.uses d T depth stack ∧
    ∀ σ, (q.ground d T stack lv).sem d T σ ↔ q.sem d T depth σ stack := by
  induction q with
  | nil => intro _ _ _ h; exact h.elim
  | atom a =>
    intro Γ stack lv hf hk
    have hv : ∀ x ∈ a.vars, lv x = depth x := fun x hx => hk.free x (hf.vars x hx)
    exact ⟨rfl, uses_congr hv, fun σ => says_res_congr hv⟩
  | and q1 q2 ih1 ih2 =>
    intro Γ stack lv hf hk
    obtain ⟨a1, b1, c1⟩ := ih1 Γ stack lv hf.1 hk
    obtain ⟨a2, b2, c2⟩ := ih2 Γ stack _ hf.2 (hk.levels (tops_depth q1 _ _ hf.1))
    simp only [Query.ground, Ground.names, Ground.uses, Query.names, Query.uses, a1, a2, b1, b2]
    exact ⟨trivial, trivial, fun σ => and_congr (c1 σ) (c2 σ)⟩
  | or q1 q2 ih1 ih2 =>
    intro Γ stack lv hf hk
    obtain ⟨a1, b1, c1⟩ := ih1 Γ stack lv hf.1 hk
    obtain ⟨a2, b2, c2⟩ := ih2 Γ stack _ hf.2 (hk.levels (tops_depth q1 _ _ hf.1))
    simp only [Query.ground, Ground.names, Ground.uses, Query.names, Query.uses, a1, a2, b1, b2]
    exact ⟨trivial, trivial, fun σ => or_congr (c1 σ) (c2 σ)⟩
  | not q ih =>
    intro Γ stack lv hf hk
    obtain ⟨a, b, c⟩ := ih Γ stack lv hf hk
    exact ⟨a, b, fun σ => not_congr (c σ)⟩
  | withVar x q ih =>
    intro Γ stack lv hf hk
    obtain ⟨hk', hx⟩ := hk.declare hf.1
    obtain ⟨a, b, c⟩ := ih _ stack _ hf.2 hk'
    simp only [Query.ground, Ground.names, Ground.uses, Query.names, Query.uses, a, b, hx, List.take_length]
    exact ⟨trivial, trivial, c⟩
  | forallG k q ih =>
    intro Γ stack lv hf hk
    have hit : ∀ g ∈ scopesOf d T k.id, _ := fun g hg =>
      ih Γ (stack ++ [g]) _ (hf.2.2 g hg) (hk.times (iter_tops hf) g.vIdx.toNat)
    simp only [Query.ground, Query.names, Query.uses]
    rw [iters_map, conj_names_flatMap, conj_uses_flatMap, List.flatMap_map, List.flatMap_map]
    refine ⟨?_, ?_, fun σ => ?_⟩
    · exact flatMap_ext fun g hg => (hit g hg).1
    · exact flatMap_ext fun g hg => (hit g hg).2.1
    · rw [conj_sem]
      simp only [List.mem_map, forall_exists_index, and_imp, forall_apply_eq_imp_iff₂]
      exact forall_congr' fun g => forall_congr' fun hg => (hit g hg).2.2 σ

theorem ground_good_fits (q : Query) : ∀ (Γ Δ : List QVar) (stack : List Scope) (lv : Levels), q.Fits d nodes T depth Γ stack →
    Known depth Γ lv → (∀ x ∈ Γ, depth x ≤ stack.length ∧ nmOf depth stack x ∈ Δ) → (q.ground d T stack lv).Fits d nodes T Δ := by
  induction q with
  | nil => intro _ _ _ _ h; exact h.elim
  | atom a =>
    intro Γ Δ stack lv hf hk hΔ
    refine ⟨{ hf with vars := fun x hx => hx }, fun x hx => ?_⟩
    rw [hk.free x (hf.vars x hx)]
    exact (hΔ x (hf.vars x hx)).2
  | and q1 q2 ih1 ih2 =>
    intro Γ Δ stack lv hf hk hΔ
    exact ⟨ih1 Γ Δ stack lv hf.1 hk hΔ, ih2 Γ _ stack _ hf.2 (hk.levels (tops_depth q1 _ _ hf.1))
      fun x hx => ⟨(hΔ x hx).1, List.mem_append_right _ (hΔ x hx).2⟩⟩
  | or q1 q2 ih1 ih2 =>
    intro Γ Δ stack lv hf hk hΔ
    exact ⟨ih1 Γ Δ stack lv hf.1 hk hΔ, ih2 Γ _ stack _ hf.2 (hk.levels (tops_depth q1 _ _ hf.1))
      fun x hx => ⟨(hΔ x hx).1, List.mem_append_right _ (hΔ x hx).2⟩⟩
  | not q ih => intro Γ Δ stack lv hf hk hΔ; exact ih Γ Δ stack lv hf hk hΔ
  | withVar x q ih =>
    intro Γ Δ stack lv hf hk hΔ
    obtain ⟨hk', hx⟩ := hk.declare hf.1
    refine ih _ _ stack _ hf.2 hk' fun y hy => ?_
    rcases List.mem_cons.1 hy with rfl | hy
    · refine ⟨Nat.le_of_eq hf.1, ?_⟩
      simp [nmOf, hf.1, hx]
    · exact ⟨(hΔ y hy).1, List.mem_cons_of_mem _ (hΔ y hy).2⟩
  | forallG k q ih =>
    intro Γ Δ stack lv hf hk hΔ
    have key : ∀ (gs : List Ground) (Δ : List QVar), (∀ x ∈ Γ, nmOf depth stack x ∈ Δ) →
        (∀ g ∈ gs, ∀ Δ, (∀ x ∈ Γ, nmOf depth stack x ∈ Δ) → g.Fits d nodes T Δ) → (Ground.conj gs).Fits d nodes T Δ := by
      intro gs
      induction gs with
      | nil => intro _ _ _; trivial
      | cons g gs ih =>
        intro Δ h1 h2
        exact ⟨h2 g (by simp) Δ h1, ih _ (fun x hx => List.mem_append_right _ (h1 x hx)) fun g' hg' => h2 g' (by simp [hg'])⟩
    refine key _ Δ (fun x hx => (hΔ x hx).2) fun g hg Δ' h' => ?_
    obtain ⟨i, p, hp, rfl⟩ := mem_iters.1 hg
    refine ih Γ Δ' _ _ (hf.2.2 _ (mem_scopesOf.2 ⟨i, p, hp, rfl⟩)) (hk.times (iter_tops hf) i) fun x hx => ?_
    rw [nmOf_append (hΔ x hx).1]
    exact ⟨by have := (hΔ x hx).1; simp; omega, h' x hx⟩

theorem good_tree (q : Query) : ∀ Γ stack, q.Fits d nodes T depth Γ stack → q.loops = true → IsTree d nodes T ∧ Covers nodes T := by
  induction q with
  | nil => intro _ _ h; exact h.elim
  | atom a => intro _ _ _ h; simp [Query.loops] at h
  | and q1 q2 ih1 ih2 =>
    intro Γ stack h hl
    simp only [Query.loops, Bool.or_eq_true] at hl
    exact hl.elim (ih1 _ _ h.1) (ih2 _ _ h.2)
  | or q1 q2 ih1 ih2 =>
    intro Γ stack h hl
    simp only [Query.loops, Bool.or_eq_true] at hl
    exact hl.elim (ih1 _ _ h.1) (ih2 _ _ h.2)
  | not q ih => intro Γ stack h hl; exact ih _ _ h hl
  | withVar x q ih => intro Γ stack h hl; exact ih _ _ h.2 hl
  | forallG c q ih => intro Γ stack h _; exact ⟨h.1, h.2.1⟩

theorem good_known : Known depth [] fun _ => 0 := ⟨fun _ => .inl rfl, by simp⟩

theorem good_sound {q : Query} (h : q.Good d nodes T depth) : q.Sound d nodes T := by
  obtain ⟨h1, h2, -⟩ := ground_good q [] [] _ h.fits good_known
  refine ⟨h.dim, good_tree q _ _ h.fits, ground_good_fits q [] [] [] _ h.fits good_known (by simp), ?_⟩
  unfold Query.flat
  rw [h1, h2]
  exact h.clean

/-! ### C40 -/

theorem good_closed (q : Query) : ∀ Γ stack, q.Fits d nodes T depth Γ stack → q.Closed Γ := by
  induction q with
  | nil => intro _ _ h; exact h.elim
  | atom a => intro _ _ h; exact h.vars
  | and q1 q2 ih1 ih2 => intro Γ stack h; exact ⟨ih1 _ _ h.1, ih2 _ _ h.2⟩
  | or q1 q2 ih1 ih2 => intro Γ stack h; exact ⟨ih1 _ _ h.1, ih2 _ _ h.2⟩
  | not q ih => intro Γ stack h; exact ih _ _ h
  | withVar x q ih => intro Γ stack h; exact ih _ _ h.2
  | forallG c q ih => intro Γ stack h; obtain ⟨g, hg⟩ := h.inhabited; exact ih _ _ hg

theorem good_lexical (q : Query) : ∀ Γ stack lv lex, q.Fits d nodes T depth Γ stack → Known depth Γ lv → (∀ x ∈ Γ, lex x = depth x) →
    q.Lexical stack.length lv lex := by
  induction q with
  | nil => intro _ _ _ _ h; exact h.elim
  | atom a =>
    intro Γ stack lv lex h hk hl x hx
    rw [hk.free x (h.vars x hx), hl x (h.vars x hx)]
  | and q1 q2 ih1 ih2 =>
    intro Γ stack lv lex h hk hl
    exact ⟨ih1 _ _ _ _ h.1 hk hl, ih2 _ _ _ _ h.2 (hk.levels (tops_depth q1 _ _ h.1)) hl⟩
  | or q1 q2 ih1 ih2 =>
    intro Γ stack lv lex h hk hl
    exact ⟨ih1 _ _ _ _ h.1 hk hl, ih2 _ _ _ _ h.2 (hk.levels (tops_depth q1 _ _ h.1)) hl⟩
  | not q ih => intro Γ stack lv lex h hk hl; exact ih _ _ _ _ h hk hl
  | withVar x q ih =>
    intro Γ stack lv lex h hk hl
    obtain ⟨hk', hx⟩ := hk.declare h.1
    refine ⟨hx, ih _ _ _ _ h.2 hk' fun y hy => ?_⟩
    by_cases hyx : y = x
    · simp [upd, hyx, h.1]
    · simp only [upd, if_neg hyx]; exact hl y (by simpa [hyx] using hy)
  | forallG c q ih =>
    intro Γ stack lv lex h hk hl
    obtain ⟨g, hg⟩ := h.inhabited
    have ht := iter_tops h
    have h1 := ih _ _ _ lex hg hk hl
    have h2 := ih _ _ _ lex hg (hk.levels ht) hl
    simp only [List.length_append, List.length_cons, List.length_nil, Nat.zero_add] at h1 h2
    exact ⟨h1, h2⟩

theorem places_fst (q : Query) : ∀ ids, (q.places ids).map Prod.fst = q.binders := by
  induction q with
  | nil => intro _; rfl
  | atom a => intro _; rfl
  | and q1 q2 ih1 ih2 => intro ids; simp [Query.places, Query.binders, ih1, ih2]
  | or q1 q2 ih1 ih2 => intro ids; simp [Query.places, Query.binders, ih1, ih2]
  | not q ih => intro ids; exact ih ids
  | withVar x q ih => intro ids; simp [Query.places, Query.binders, ih]
  | forallG c q ih => intro ids; exact ih _

theorem good_scoped {q : Query} (h : q.Good d nodes T depth) (hp : q.Plain) : q.WellScoped := by
  refine ⟨hp.positive, good_closed q _ _ h.fits, good_lexical q [] [] _ _ h.fits good_known (by simp), ?_, hp.names, hp.guards⟩
  have := hp.distinct
  rw [← places_fst q []] at this
  exact List.Pairwise.of_map Prod.fst (fun a b hab e => hab (by rw [e])) this

end Goexpdt

import Verif.Lemmas.Fo
import Verif.Lemmas.GroundQuery
/- First-order semantics of queries in which variables are declared several times. -/
namespace Goexpdt
open Spec

/-! ### ground queries: assignments and witnesses -/

namespace Ground

/-- The names that occur in predicates. -/
def occ : Ground → List QVar
  | .nil => []
  | .tt => []
  | .atom a lv stack => a.vars.map fun x => x ++ suffix (stack.take (lv x))
  | .and g1 g2 => g1.occ ++ g2.occ
  | .or g1 g2 => g1.occ ++ g2.occ
  | .not g => g.occ
  | .decl _ g => g.occ

/-- Reading declarations as existential quantifiers. -/
def ex (d : Nat) (T : DTree) : Asg → Ground → Prop
  | _, .nil => False
  | _, .tt => True
  | σ, .atom a lv stack => a.says d T fun t => (t.res lv stack).den σ
  | σ, .and g1 g2 => g1.ex d T σ ∧ g2.ex d T σ
  | σ, .or g1 g2 => g1.ex d T σ ∨ g2.ex d T σ
  | σ, .not g => ¬ g.ex d T σ
  | σ, .decl n g => ∃ e, g.ex d T (upd σ n e)

/-- Nothing is declared below a negation. -/
def Positive : Ground → Prop
  | .nil => True
  | .tt => True
  | .atom _ _ _ => True
  | .and g1 g2 => g1.Positive ∧ g2.Positive
  | .or g1 g2 => g1.Positive ∧ g2.Positive
  | .not g => g.names = []
  | .decl _ g => g.Positive

/-- What is declared in one part of a conjunction does not occur in the other. -/
def Apart : Ground → Prop
  | .nil => True
  | .tt => True
  | .atom _ _ _ => True
  | .and g1 g2 => g1.Apart ∧ g2.Apart ∧ ∀ n, (n ∈ g1.names → n ∉ g2.names ∧ n ∉ g2.occ) ∧ (n ∈ g1.occ → n ∉ g2.names)
  | .or g1 g2 => g1.Apart ∧ g2.Apart
  | .not g => g.Apart
  | .decl _ g => g.Apart

end Ground

variable {d : Nat} {T : DTree} {σ σ' : Asg} {nodes : List Node}

theorem says_ext {a : Atom} {ρ ρ' : Term → PInst} (h : ∀ t ∈ a.terms, ρ t = ρ' t) : a.says d T ρ ↔ a.says d T ρ' := by
  cases a <;> simp only [Atom.terms, List.mem_cons, List.not_mem_nil, or_false, forall_eq_or_imp, forall_eq] at h <;>
    simp only [Atom.says]
  · rw [h.1, h.2]
  · rw [h.1, h.2]
  · rw [h]
  · rw [h]
  · rw [h.1, h.2]
  · rw [h]
  · rw [h]
  · rw [h.1, h.2]
  · rw [h.1, h.2.1, h.2.2]

theorem ground_sem_congr (g : Ground) (h : ∀ n ∈ g.occ, σ n = σ' n) : g.sem d T σ ↔ g.sem d T σ' := by
  induction g with
  | nil => exact Iff.rfl
  | tt => exact Iff.rfl
  | atom a lv stack =>
    refine says_ext fun t ht => ?_
    cases t with
    | const c => rfl
    | var x => exact h _ (List.mem_map.2 ⟨x, mem_terms_var ht, rfl⟩)
  | and g1 g2 ih1 ih2 =>
    simp only [Ground.occ, List.mem_append] at h
    exact and_congr (ih1 fun n hn => h n (.inl hn)) (ih2 fun n hn => h n (.inr hn))
  | or g1 g2 ih1 ih2 =>
    simp only [Ground.occ, List.mem_append] at h
    exact or_congr (ih1 fun n hn => h n (.inl hn)) (ih2 fun n hn => h n (.inr hn))
  | not g ih => exact not_congr (ih h)
  | decl n g ih => exact ih h

theorem ex_iff_sem (g : Ground) : ∀ σ, g.names = [] → (g.ex d T σ ↔ g.sem d T σ) := by
  induction g with
  | nil => intro σ _; exact Iff.rfl
  | tt => intro σ _; exact Iff.rfl
  | atom a lv stack => intro σ _; exact Iff.rfl
  | and g1 g2 ih1 ih2 =>
    intro σ h
    simp only [Ground.names, List.append_eq_nil_iff] at h
    exact and_congr (ih1 σ h.1) (ih2 σ h.2)
  | or g1 g2 ih1 ih2 =>
    intro σ h
    simp only [Ground.names, List.append_eq_nil_iff] at h
    exact or_congr (ih1 σ h.1) (ih2 σ h.2)
  | not g ih => intro σ h; exact not_congr (ih σ h)
  | decl n g ih => intro σ h; simp [Ground.names] at h

theorem upd_self {κ α : Type} [DecidableEq κ] (f : κ → α) (k : κ) : upd f k (f k) = f := by
  funext k'
  unfold upd
  split
  · next h => rw [h]
  · rfl

theorem sem_ex (g : Ground) : ∀ σ, g.Positive → g.sem d T σ → g.ex d T σ := by
  induction g with
  | nil => intro σ _ h; exact h
  | tt => intro σ _ h; exact h
  | atom a lv stack => intro σ _ h; exact h
  | and g1 g2 ih1 ih2 => intro σ hp h; exact ⟨ih1 σ hp.1 h.1, ih2 σ hp.2 h.2⟩
  | or g1 g2 ih1 ih2 => intro σ hp h; exact h.imp (ih1 σ hp.1) (ih2 σ hp.2)
  | not g ih => intro σ hp h; exact fun h' => h ((ex_iff_sem g σ hp).1 h')
  | decl n g ih => intro σ hp h; exact ⟨σ n, by rw [upd_self]; exact ih σ hp h⟩

theorem ex_sem (g : Ground) : ∀ σ, g.Positive → g.Apart → g.ex d T σ →
    ∃ σ' : Asg, (∀ n, n ∉ g.names → σ' n = σ n) ∧ g.sem d T σ' := by
  induction g with
  | nil => intro σ _ _ h; exact h.elim
  | tt => intro σ _ _ h; exact ⟨σ, fun _ _ => rfl, h⟩
  | atom a lv stack => intro σ _ _ h; exact ⟨σ, fun _ _ => rfl, h⟩
  | and g1 g2 ih1 ih2 =>
    intro σ hp ha h
    obtain ⟨a1, a2, hc⟩ := ha
    obtain ⟨σ1, k1, s1⟩ := ih1 σ hp.1 a1 h.1
    obtain ⟨σ2, k2, s2⟩ := ih2 σ hp.2 a2 h.2
    refine ⟨fun n => if n ∈ g1.names then σ1 n else σ2 n, fun n hn => ?_, ?_, ?_⟩
    · simp only [Ground.names, List.mem_append, not_or] at hn
      simp only [if_neg hn.1]
      exact k2 n hn.2
    · refine (ground_sem_congr g1 fun n hn => ?_).1 s1
      split
      · rfl
      · next h' => rw [k1 n h', k2 n ((hc n).2 hn)]
    · refine (ground_sem_congr g2 fun n hn => ?_).1 s2
      rw [if_neg fun h' => ((hc n).1 h').2 hn]
  | or g1 g2 ih1 ih2 =>
    intro σ hp ha h
    rcases h with h | h
    · obtain ⟨σ1, k1, s1⟩ := ih1 σ hp.1 ha.1 h
      exact ⟨σ1, fun n hn => k1 n fun h => hn (by simp [Ground.names, h]), .inl s1⟩
    · obtain ⟨σ1, k1, s1⟩ := ih2 σ hp.2 ha.2 h
      exact ⟨σ1, fun n hn => k1 n fun h => hn (by simp [Ground.names, h]), .inr s1⟩
  | not g ih => intro σ hp _ h; exact ⟨σ, fun _ _ => rfl, fun h' => h ((ex_iff_sem g σ hp).2 h')⟩
  | decl n g ih =>
    intro σ hp ha ⟨e, h⟩
    obtain ⟨σ', k, s⟩ := ih _ hp ha h
    refine ⟨σ', fun m hm => ?_, s⟩
    simp only [Ground.names, List.mem_cons, not_or] at hm
    rw [k m hm.2]
    simp [upd, hm.1]

theorem conj_ex (gs : List Ground) : (Ground.conj gs).ex d T σ ↔ ∀ g ∈ gs, g.ex d T σ := by
  induction gs with
  | nil => simp [Ground.conj, Ground.ex]
  | cons g gs ih => simp [Ground.conj, Ground.ex, ih]

/-! ### recorded depths -/

/-- The variables declared outside of quantifiers. -/
def Query.tops : Query → List QVar
  | .nil => []
  | .atom _ => []
  | .and q1 q2 => q1.tops ++ q2.tops
  | .or q1 q2 => q1.tops ++ q2.tops
  | .not q => q.tops
  | .withVar x q => x :: q.tops
  | .forallG _ _ => []

theorem levels_eq (q : Query) (k : Nat) : ∀ lv x, q.levels k lv x = if x ∈ q.tops ∧ lv x = 0 then k else lv x := by
  induction q with
  | nil => intro lv x; simp [Query.levels, Query.tops]
  | atom a => intro lv x; simp [Query.levels, Query.tops]
  | and q1 q2 ih1 ih2 => intro lv x; simp only [Query.levels, Query.tops, List.mem_append, ih1, ih2]; grind
  | or q1 q2 ih1 ih2 => intro lv x; simp only [Query.levels, Query.tops, List.mem_append, ih1, ih2]; grind
  | not q ih => intro lv x; exact ih lv x
  | withVar y q ih => intro lv x; simp only [Query.levels, Query.tops, List.mem_cons, ih, Levels.declare]; grind
  | forallG c q ih => intro lv x; simp [Query.levels, Query.tops]

theorem levels_idem (q : Query) (k : Nat) (lv : Levels) : q.levels k (q.levels k lv) = q.levels k lv := by
  funext x
  simp only [levels_eq]
  grind

theorem times_levels (q : Query) (k : Nat) (lv : Levels) : ∀ i,
    times (fun lv => q.levels k lv) i lv = if i = 0 then lv else q.levels k lv
  | 0 => rfl
  | i + 1 => by
    show q.levels k (times (fun lv => q.levels k lv) i lv) = _
    rw [times_levels q k lv i]
    split
    · simp
    · simp [levels_idem]

/-- The iterations of a quantifier. -/
theorem mem_iters {f : Nat → Scope → Ground} {id : List Char} {g : Ground} :
    g ∈ (scopesOf d T id).mapIdx f ↔ ∃ i p, (T.nodeInsts bot)[i]? = some p ∧ g = f i (scopeAt d id i p) := by
  rw [List.mem_iff_getElem?]
  simp only [List.getElem?_mapIdx, scopesOf, List.getElem?_map, List.getElem?_zipIdx, Option.map_map, Nat.zero_add,
    Option.map_eq_some_iff, Function.comp_apply]
  exact exists_congr fun i => exists_congr fun p => and_congr_right fun _ => eq_comm

theorem lexical_iter {c : QConst} {q : Query} {k : Nat} {lv lex : Levels} (h : (Query.forallG c q).Lexical k lv lex) (i : Nat) :
    q.Lexical (k + 1) (times (fun lv => q.levels (k + 1) lv) i lv) lex := by
  rw [times_levels]
  split
  · exact h.1
  · exact h.2

theorem fits_iter {gs : List Ground} {Δ : List QVar} {g : Ground} (h : (Ground.conj gs).Fits d nodes T Δ) (hg : g ∈ gs) :
    ∃ Δ, g.Fits d nodes T Δ := by
  obtain ⟨i, hi⟩ := List.mem_iff_getElem?.1 hg
  exact ⟨_, conj_fits gs Δ h i g hi⟩

/-! ### first-order semantics -/

theorem ground_names_nil (q : Query) : ∀ (stack : List Scope) (lv : Levels), q.binders = [] → (q.ground d T stack lv).names = [] := by
  induction q with
  | nil => intro _ _ _; rfl
  | atom a => intro _ _ _; rfl
  | and q1 q2 ih1 ih2 =>
    intro stack lv h
    simp only [Query.binders, List.append_eq_nil_iff] at h
    simp only [Query.ground, Ground.names, List.append_eq_nil_iff]
    exact ⟨ih1 _ _ h.1, ih2 _ _ h.2⟩
  | or q1 q2 ih1 ih2 =>
    intro stack lv h
    simp only [Query.binders, List.append_eq_nil_iff] at h
    simp only [Query.ground, Ground.names, List.append_eq_nil_iff]
    exact ⟨ih1 _ _ h.1, ih2 _ _ h.2⟩
  | not q ih => intro stack lv h; exact ih _ _ h
  | withVar x q ih => intro stack lv h; simp [Query.binders] at h
  | forallG c q ih =>
    intro stack lv h
    refine List.eq_nil_iff_forall_not_mem.2 fun n hn => ?_
    obtain ⟨g, hg, hn⟩ := (conj_names _).1 hn
    obtain ⟨i, p, -, rfl⟩ := mem_iters.1 hg
    rw [ih _ _ h] at hn
    simp at hn

theorem conj_positive {gs : List Ground} (h : ∀ g ∈ gs, g.Positive) : (Ground.conj gs).Positive := by
  induction gs with
  | nil => trivial
  | cons g gs ih => exact ⟨h g (by simp), ih fun g' hg' => h g' (by simp [hg'])⟩

theorem ground_positive (q : Query) : ∀ (stack : List Scope) (lv : Levels), q.Positive → (q.ground d T stack lv).Positive := by
  induction q with
  | nil => intro _ _ _; trivial
  | atom a => intro _ _ _; trivial
  | and q1 q2 ih1 ih2 => intro stack lv h; exact ⟨ih1 _ _ h.1, ih2 _ _ h.2⟩
  | or q1 q2 ih1 ih2 => intro stack lv h; exact ⟨ih1 _ _ h.1, ih2 _ _ h.2⟩
  | not q ih => intro stack lv h; exact ground_names_nil q _ _ h
  | withVar x q ih => intro stack lv h; exact ih _ _ h
  | forallG c q ih =>
    intro stack lv h
    refine conj_positive fun g hg => ?_
    obtain ⟨i, p, -, rfl⟩ := mem_iters.1 hg
    exact ih _ _ h

theorem fo_iff_ex (q : Query) : ∀ (Γ : List QVar) (stack : List Scope) (lv lex : Levels) (env : QVar → PInst)
    (guards : List Char → Option PInst) (σ : Asg), q.Lexical stack.length lv lex → q.Closed Γ →
    (∃ Δ, (q.ground d T stack lv).Fits d nodes T Δ) → (∀ x ∈ q.binders, sep ∉ x) → (∀ x ∈ Γ, sep ∉ x) →
    q.GuardsApart (stack.map (·.target)).reverse →
    (∀ x ∈ Γ, env x = σ (nmOf lex stack x) ∧ lex x ≤ stack.length) → GRel d stack guards →
    (q.fo d T env guards ↔ (q.ground d T stack lv).ex d T σ) := by
  induction q with
  | nil => intro _ _ _ _ _ _ _ _ _ _ _ _ _ _ _; exact Iff.rfl
  | atom a =>
    intro Γ stack lv lex env guards σ hl hc hf _ _ _ hv hg
    obtain ⟨Δ, hf, -⟩ := hf
    refine (says_congr hf.pref fun t ht => res_val hg fun x hx => ?_).symm
    subst hx
    have hx := mem_terms_var ht
    rw [(hv x (hc x hx)).1]
    unfold nmOf
    rw [hl x hx]
  | and q1 q2 ih1 ih2 =>
    intro Γ stack lv lex env guards σ hl hc hf hb hΓ hG hv hg
    obtain ⟨Δ, hf⟩ := hf
    simp only [Query.binders, List.mem_append] at hb
    exact and_congr (ih1 _ _ _ _ _ _ _ hl.1 hc.1 ⟨_, hf.1⟩ (fun x hx => hb x (.inl hx)) hΓ hG.1 hv hg)
      (ih2 _ _ _ _ _ _ _ hl.2 hc.2 ⟨_, hf.2⟩ (fun x hx => hb x (.inr hx)) hΓ hG.2 hv hg)
  | or q1 q2 ih1 ih2 =>
    intro Γ stack lv lex env guards σ hl hc hf hb hΓ hG hv hg
    obtain ⟨Δ, hf⟩ := hf
    simp only [Query.binders, List.mem_append] at hb
    exact or_congr (ih1 _ _ _ _ _ _ _ hl.1 hc.1 ⟨_, hf.1⟩ (fun x hx => hb x (.inl hx)) hΓ hG.1 hv hg)
      (ih2 _ _ _ _ _ _ _ hl.2 hc.2 ⟨_, hf.2⟩ (fun x hx => hb x (.inr hx)) hΓ hG.2 hv hg)
  | not q ih =>
    intro Γ stack lv lex env guards σ hl hc hf hb hΓ hG hv hg
    exact not_congr (ih _ _ _ _ _ _ _ hl hc hf hb hΓ hG hv hg)
  | withVar x q ih =>
    intro Γ stack lv lex env guards σ hl hc hf hb hΓ hG hv hg
    obtain ⟨Δ, hf⟩ := hf
    simp only [Query.binders, List.mem_cons] at hb
    refine exists_congr fun e => ih (x :: Γ) _ _ _ _ _ _ hl.2 hc ⟨_, hf⟩ (fun y hy => hb y (.inr hy)) ?_ hG ?_ hg
    · intro y hy
      rcases List.mem_cons.1 hy with rfl | hy
      · exact hb _ (.inl rfl)
      · exact hΓ y hy
    · intro y hy
      have hn : x ++ suffix (stack.take ((lv.declare stack.length x) x)) = x ++ suffix stack := by
        rw [hl.1, List.take_length]
      rw [hn]
      by_cases hyx : y = x
      · subst hyx
        simp [upd, nmOf]
      · have hy' : y ∈ Γ := by simpa [hyx] using hy
        obtain ⟨h1, h2⟩ := hv y hy'
        have e1 : (upd lex x stack.length) y = lex y := by simp [upd, hyx]
        have e2 : nmOf (upd lex x stack.length) stack y = nmOf lex stack y := by unfold nmOf; rw [e1]
        rw [e1, e2]
        refine ⟨?_, h2⟩
        simp only [upd, if_neg hyx]
        rw [if_neg]
        · exact h1
        · intro he
          exact hyx (name_inj (hΓ y hy') (hb x (.inl rfl)) he).1
  | forallG c q ih =>
    intro Γ stack lv lex env guards σ hl hc hf hb hΓ hG hv hg
    obtain ⟨Δ, hf⟩ := hf
    obtain ⟨g1, g2, g3⟩ := hG
    have hn : c.id ∉ stack.map (·.target) := by simpa using g1
    have key : ∀ i p, (T.nodeInsts bot)[i]? = some p → (q.fo d T env (upd guards c.id (some p.2)) ↔
        (q.ground d T (stack ++ [scopeAt d c.id i p]) (times (fun lv => q.levels (stack.length + 1) lv) i lv)).ex d T σ) := by
      intro i p hp
      refine ih Γ (stack ++ [scopeAt d c.id i p]) _ lex env _ σ ?_ hc (fits_iter hf (mem_iters.2 ⟨i, p, hp, rfl⟩)) hb hΓ ?_ ?_ ?_
      · simpa using lexical_iter hl i
      · simpa [scopeAt] using g3
      · intro x hx
        obtain ⟨h1, h2⟩ := hv x hx
        rw [nmOf_append h2]
        exact ⟨h1, by simp; omega⟩
      · exact hg.push (g := scopeAt d c.id i p) hn (den_valsOf d p.2)
    show (∀ p ∈ T.nodeInsts bot, _) ↔ (Ground.conj _).ex d T σ
    rw [conj_ex]
    constructor
    · intro h g hgm
      obtain ⟨i, p, hp, rfl⟩ := mem_iters.1 hgm
      exact (key i p hp).1 (h p (List.mem_of_getElem? hp))
    · intro h p hp
      obtain ⟨i, hi⟩ := List.mem_iff_getElem?.1 hp
      exact (key i p hi).2 (h _ (mem_iters.2 ⟨i, p, hi, rfl⟩))

/-! ### names -/

/-- The names of the open quantifiers. -/
abbrev idsOf (stack : List Scope) : List (List Char) := stack.map (·.target)

theorem places_ext (q : Query) : ∀ ids p, p ∈ q.places ids → ∃ rest, p.2 = ids ++ rest := by
  induction q with
  | nil => intro ids p h; simp [Query.places] at h
  | atom a => intro ids p h; simp [Query.places] at h
  | and q1 q2 ih1 ih2 =>
    intro ids p h
    simp only [Query.places, List.mem_append] at h
    exact h.elim (ih1 _ _) (ih2 _ _)
  | or q1 q2 ih1 ih2 =>
    intro ids p h
    simp only [Query.places, List.mem_append] at h
    exact h.elim (ih1 _ _) (ih2 _ _)
  | not q ih => intro ids p h; exact ih _ _ h
  | withVar x q ih =>
    intro ids p h
    simp only [Query.places, List.mem_cons] at h
    rcases h with rfl | h
    · exact ⟨[], by simp⟩
    · exact ih _ _ h
  | forallG c q ih =>
    intro ids p h
    obtain ⟨rest, h⟩ := ih _ _ h
    exact ⟨c.id :: rest, by rw [h]; simp⟩

/-- A name declared by the query. -/
def Own (q : Query) (stack : List Scope) (n : QVar) : Prop :=
  ∃ x more, n = x ++ suffix (stack ++ more) ∧ (x, idsOf (stack ++ more)) ∈ q.places (idsOf stack) ∧ x ∈ q.binders ∧
    ∀ g ∈ more, sep ∉ g.target

theorem Own.mono {q q' : Query} {stack : List Scope} {n : QVar} (h : Own q stack n)
    (h1 : ∀ p ∈ q.places (idsOf stack), p ∈ q'.places (idsOf stack)) (h2 : ∀ x ∈ q.binders, x ∈ q'.binders) : Own q' stack n := by
  obtain ⟨x, more, a, b, c, e⟩ := h
  exact ⟨x, more, a, h1 _ b, h2 _ c, e⟩

theorem Own.push {c : QConst} {q : Query} {stack : List Scope} {n : QVar} {g : Scope} (h : Own q (stack ++ [g]) n)
    (hg : g.target = c.id) (hu : sep ∉ c.id) : Own (.forallG c q) stack n := by
  obtain ⟨x, more, h1, h2, h3, h4⟩ := h
  refine ⟨x, g :: more, by rw [h1]; simp, ?_, h3, ?_⟩
  · simp only [Query.places]
    simpa [hg] using h2
  · intro g' hg'
    rcases List.mem_cons.1 hg' with rfl | hg'
    · rw [hg]; exact hu
    · exact h4 g' hg'

theorem ground_names_own (q : Query) : ∀ (stack : List Scope) (lv lex : Levels) (ids : List (List Char)), q.Lexical stack.length lv lex →
    q.GuardsApart ids → ∀ n ∈ (q.ground d T stack lv).names, Own q stack n := by
  induction q with
  | nil => intro _ _ _ _ _ _ n hn; simp [Query.ground, Ground.names] at hn
  | atom a => intro _ _ _ _ _ _ n hn; simp [Query.ground, Ground.names] at hn
  | and q1 q2 ih1 ih2 =>
    intro stack lv lex ids hl hg n hn
    simp only [Query.ground, Ground.names, List.mem_append] at hn
    rcases hn with hn | hn
    · exact (ih1 _ _ _ _ hl.1 hg.1 n hn).mono (by simp +contextual [Query.places]) (by simp +contextual [Query.binders])
    · exact (ih2 _ _ _ _ hl.2 hg.2 n hn).mono (by simp +contextual [Query.places]) (by simp +contextual [Query.binders])
  | or q1 q2 ih1 ih2 =>
    intro stack lv lex ids hl hg n hn
    simp only [Query.ground, Ground.names, List.mem_append] at hn
    rcases hn with hn | hn
    · exact (ih1 _ _ _ _ hl.1 hg.1 n hn).mono (by simp +contextual [Query.places]) (by simp +contextual [Query.binders])
    · exact (ih2 _ _ _ _ hl.2 hg.2 n hn).mono (by simp +contextual [Query.places]) (by simp +contextual [Query.binders])
  | not q ih => intro stack lv lex ids hl hg n hn; exact ih _ _ _ _ hl hg n hn
  | withVar x q ih =>
    intro stack lv lex ids hl hg n hn
    simp only [Query.ground, Ground.names, List.mem_cons] at hn
    rcases hn with rfl | hn
    · refine ⟨x, [], ?_, by simp [Query.places], by simp [Query.binders], by simp⟩
      rw [hl.1, List.take_length]; simp
    · exact (ih _ _ _ _ hl.2 hg n hn).mono (by simp +contextual [Query.places]) (by simp +contextual [Query.binders])
  | forallG c q ih =>
    intro stack lv lex ids hl hg n hn
    obtain ⟨g, hg', hn⟩ := (conj_names _).1 hn
    obtain ⟨i, p, -, rfl⟩ := mem_iters.1 hg'
    exact (ih _ _ lex _ (by simpa using lexical_iter hl i) hg.2.2 n hn).push rfl hg.2.1

theorem ground_occ_own (q : Query) : ∀ (Γ : List QVar) (stack : List Scope) (lv lex : Levels) (ids : List (List Char)),
    q.Lexical stack.length lv lex → q.Closed Γ → q.GuardsApart ids → (∀ x ∈ Γ, lex x ≤ stack.length) →
    ∀ n ∈ (q.ground d T stack lv).occ, (∃ x ∈ Γ, n = nmOf lex stack x) ∨ Own q stack n := by
  induction q with
  | nil => intro _ _ _ _ _ _ _ _ _ n hn; simp [Query.ground, Ground.occ] at hn
  | atom a =>
    intro Γ stack lv lex ids hl hc _ _ n hn
    simp only [Query.ground, Ground.occ, List.mem_map] at hn
    obtain ⟨x, hx, rfl⟩ := hn
    exact .inl ⟨x, hc x hx, by unfold nmOf; rw [hl x hx]⟩
  | and q1 q2 ih1 ih2 =>
    intro Γ stack lv lex ids hl hc hg hd n hn
    simp only [Query.ground, Ground.occ, List.mem_append] at hn
    rcases hn with hn | hn
    · exact (ih1 _ _ _ _ _ hl.1 hc.1 hg.1 hd n hn).imp id
        fun h => h.mono (by simp +contextual [Query.places]) (by simp +contextual [Query.binders])
    · exact (ih2 _ _ _ _ _ hl.2 hc.2 hg.2 hd n hn).imp id
        fun h => h.mono (by simp +contextual [Query.places]) (by simp +contextual [Query.binders])
  | or q1 q2 ih1 ih2 =>
    intro Γ stack lv lex ids hl hc hg hd n hn
    simp only [Query.ground, Ground.occ, List.mem_append] at hn
    rcases hn with hn | hn
    · exact (ih1 _ _ _ _ _ hl.1 hc.1 hg.1 hd n hn).imp id
        fun h => h.mono (by simp +contextual [Query.places]) (by simp +contextual [Query.binders])
    · exact (ih2 _ _ _ _ _ hl.2 hc.2 hg.2 hd n hn).imp id
        fun h => h.mono (by simp +contextual [Query.places]) (by simp +contextual [Query.binders])
  | not q ih => intro Γ stack lv lex ids hl hc hg hd n hn; exact ih _ _ _ _ _ hl hc hg hd n hn
  | withVar x q ih =>
    intro Γ stack lv lex ids hl hc hg hd n hn
    have hd' : ∀ y ∈ x :: Γ, upd lex x stack.length y ≤ stack.length := by
      intro y hy
      by_cases hyx : y = x
      · simp [upd, hyx]
      · simp only [upd, if_neg hyx]; exact hd y (by simpa [hyx] using hy)
    rcases ih (x :: Γ) _ _ _ _ hl.2 hc hg hd' n hn with ⟨y, hy, rfl⟩ | h
    · by_cases hyx : y = x
      · subst hyx
        refine .inr ⟨y, [], ?_, by simp [Query.places], by simp [Query.binders], by simp⟩
        simp [nmOf, upd]
      · refine .inl ⟨y, by simpa [hyx] using hy, ?_⟩
        simp [nmOf, upd, hyx]
    · exact .inr (h.mono (by simp +contextual [Query.places]) (by simp +contextual [Query.binders]))
  | forallG c q ih =>
    intro Γ stack lv lex ids hl hc hg hd n hn
    have hn' : ∃ g ∈ (scopesOf d T c.id).mapIdx (fun i g =>
      q.ground d T (stack ++ [g]) (times (fun lv => q.levels (stack.length + 1) lv) i lv)), n ∈ g.occ := by
      have : ∀ gs : List Ground, n ∈ (Ground.conj gs).occ → ∃ g ∈ gs, n ∈ g.occ := by
        intro gs
        induction gs with
        | nil => simp [Ground.conj, Ground.occ]
        | cons g gs ih => simp only [Ground.conj, Ground.occ, List.mem_append, List.mem_cons]; grind
      exact this _ hn
    obtain ⟨g, hg', hn⟩ := hn'
    obtain ⟨i, p, -, rfl⟩ := mem_iters.1 hg'
    rcases ih Γ _ _ lex _ (by simpa using lexical_iter hl i) hc hg.2.2 (fun x hx => by have := hd x hx; simp; omega) n hn with
      ⟨x, hx, rfl⟩ | h
    · exact .inl ⟨x, hx, nmOf_append (hd x hx)⟩
    · exact .inr (h.push rfl hg.2.1)

theorem own_inj {x y : QVar} {st st' : List Scope} (hx : sep ∉ x) (hy : sep ∉ y) (hs : ∀ g ∈ st, sep ∉ g.target)
    (hs' : ∀ g ∈ st', sep ∉ g.target) (h : x ++ suffix st = y ++ suffix st') :
    x = y ∧ st.map (fun g => (g.target, g.vIdx)) = st'.map (fun g => (g.target, g.vIdx)) := by
  obtain ⟨h1, h2⟩ := name_inj hx hy h
  exact ⟨h1, suffix_inj hs hs' h2⟩

theorem idsOf_eq {st st' : List Scope} (h : st.map (fun g => (g.target, g.vIdx)) = st'.map (fun g => (g.target, g.vIdx))) :
    idsOf st = idsOf st' := by
  have := congrArg (List.map Prod.fst) h
  simpa [List.map_map, Function.comp_def] using this

/-- Names of free variables are not declared in the query. -/
theorem free_not_own {q : Query} {stack : List Scope} {lex : Levels} {x : QVar} (hx : sep ∉ x)
    (hb : ∀ y ∈ q.binders, sep ∉ y) (hs : ∀ g ∈ stack, sep ∉ g.target)
    (hp : (x, (idsOf stack).take (lex x)) ∉ q.places (idsOf stack)) : ¬ Own q stack (nmOf lex stack x) := by
  rintro ⟨y, more, h1, h2, h3, h4⟩
  obtain ⟨rfl, h5⟩ := own_inj hx (hb y h3) (fun g hg => hs g (List.mem_of_mem_take hg)) (by
    intro g hg
    rcases List.mem_append.1 hg with hg | hg
    · exact hs g hg
    · exact h4 g hg) h1
  refine hp ?_
  have := idsOf_eq h5
  rw [← this] at h2
  simpa [idsOf, List.map_take] using h2

theorem own_apart {q1 q2 : Query} {stack : List Scope} {n : QVar} (hb1 : ∀ y ∈ q1.binders, sep ∉ y)
    (hb2 : ∀ y ∈ q2.binders, sep ∉ y) (hs : ∀ g ∈ stack, sep ∉ g.target)
    (hd : ∀ p ∈ q1.places (idsOf stack), p ∉ q2.places (idsOf stack)) (h1 : Own q1 stack n) : ¬ Own q2 stack n := by
  rintro ⟨y, m, a, b, c, e⟩
  obtain ⟨y', m', a', b', c', e'⟩ := h1
  rw [a] at a'
  have hu : ∀ m : List Scope, (∀ g ∈ m, sep ∉ g.target) → ∀ g ∈ stack ++ m, sep ∉ g.target := by
    intro m hm g hg
    rcases List.mem_append.1 hg with hg | hg
    · exact hs g hg
    · exact hm g hg
  obtain ⟨rfl, h⟩ := own_inj (hb2 y c) (hb1 y' c') (hu m e) (hu m' e') a'
  rw [idsOf_eq h] at b
  exact hd _ b' b

theorem own_iter_apart {q : Query} {stack : List Scope} {n : QVar} {g g' : Scope} (hb : ∀ y ∈ q.binders, sep ∉ y)
    (hs : ∀ g ∈ stack, sep ∉ g.target) (h1 : sep ∉ g.target) (h2 : sep ∉ g'.target) (hne : g.vIdx ≠ g'.vIdx)
    (h : Own q (stack ++ [g]) n) : ¬ Own q (stack ++ [g']) n := by
  rintro ⟨y, m, a, b, c, e⟩
  obtain ⟨y', m', a', b', c', e'⟩ := h
  rw [a] at a'
  have hu : ∀ g : Scope, sep ∉ g.target → ∀ m : List Scope, (∀ g ∈ m, sep ∉ g.target) → ∀ k ∈ stack ++ [g] ++ m, sep ∉ k.target := by
    intro g hg m hm k hk
    simp only [List.mem_append, List.mem_singleton] at hk
    rcases hk with (hk | rfl) | hk
    · exact hs k hk
    · exact hg
    · exact hm k hk
  obtain ⟨-, h⟩ := own_inj (hb y c) (hb y' c') (hu _ h2 m e) (hu _ h1 m' e') a'
  simp only [List.append_assoc, List.singleton_append, List.map_append, List.map_cons, List.append_cancel_left_eq,
    List.cons.injEq, Prod.mk.injEq] at h
  exact hne h.1.2.symm

theorem conj_apart {gs : List Ground} (h : ∀ g ∈ gs, g.Apart)
    (hp : gs.Pairwise fun g1 g2 => ∀ n, (n ∈ g1.names → n ∉ g2.names ∧ n ∉ g2.occ) ∧ (n ∈ g1.occ → n ∉ g2.names)) :
    (Ground.conj gs).Apart := by
  induction gs with
  | nil => trivial
  | cons g gs ih =>
    rw [List.pairwise_cons] at hp
    refine ⟨h g (by simp), ih (fun g' hg' => h g' (by simp [hg'])) hp.2, fun n => ?_⟩
    have hocc : ∀ gs : List Ground, n ∈ (Ground.conj gs).occ → ∃ g ∈ gs, n ∈ g.occ := by
      intro gs
      induction gs with
      | nil => simp [Ground.conj, Ground.occ]
      | cons g gs ih => simp only [Ground.conj, Ground.occ, List.mem_append, List.mem_cons]; grind
    refine ⟨fun hn => ⟨fun hn' => ?_, fun hn' => ?_⟩, fun hn hn' => ?_⟩
    · obtain ⟨g', hg', hn'⟩ := (conj_names gs).1 hn'
      exact ((hp.1 g' hg' n).1 hn).1 hn'
    · obtain ⟨g', hg', hn'⟩ := hocc gs hn'
      exact ((hp.1 g' hg' n).1 hn).2 hn'
    · obtain ⟨g', hg', hn'⟩ := (conj_names gs).1 hn'
      exact (hp.1 g' hg' n).2 hn hn'

theorem ground_apart (q : Query) : ∀ (Γ : List QVar) (stack : List Scope) (lv lex : Levels), q.Lexical stack.length lv lex →
    q.Closed Γ → q.GuardsApart (idsOf stack).reverse → (q.places (idsOf stack)).Nodup →
    (∀ x ∈ q.binders, sep ∉ x) → (∀ x ∈ Γ, sep ∉ x) → (∀ g ∈ stack, sep ∉ g.target) →
    (∀ x ∈ Γ, lex x ≤ stack.length ∧ (x, (idsOf stack).take (lex x)) ∉ q.places (idsOf stack)) →
    (q.ground d T stack lv).Apart := by
  induction q with
  | nil => intro _ _ _ _ _ _ _ _ _ _ _ _; trivial
  | atom a => intro _ _ _ _ _ _ _ _ _ _ _ _; trivial
  | and q1 q2 ih1 ih2 =>
    intro Γ stack lv lex hl hc hg hnd hb hΓ hs hp
    simp only [Query.places, List.nodup_append, List.mem_append, not_or] at hnd hp
    simp only [Query.binders, List.mem_append] at hb
    have hb1 := fun x hx => hb x (.inl hx)
    have hb2 := fun x hx => hb x (.inr hx)
    refine ⟨ih1 Γ stack lv lex hl.1 hc.1 hg.1 hnd.1 hb1 hΓ hs fun x hx => ⟨(hp x hx).1, (hp x hx).2.1⟩,
      ih2 Γ stack _ lex hl.2 hc.2 hg.2 hnd.2.1 hb2 hΓ hs fun x hx => ⟨(hp x hx).1, (hp x hx).2.2⟩, fun n => ?_⟩
    have o1 := ground_names_own (d := d) (T := T) q1 stack lv lex _ hl.1 hg.1 n
    have o2 := ground_names_own (d := d) (T := T) q2 stack _ lex _ hl.2 hg.2 n
    have c1 := ground_occ_own (d := d) (T := T) q1 Γ stack lv lex _ hl.1 hc.1 hg.1 (fun x hx => (hp x hx).1) n
    have c2 := ground_occ_own (d := d) (T := T) q2 Γ stack _ lex _ hl.2 hc.2 hg.2 (fun x hx => (hp x hx).1) n
    have ap : Own q1 stack n → ¬ Own q2 stack n := own_apart hb1 hb2 hs fun p h1 h2 => hnd.2.2 p h1 p h2 rfl
    refine ⟨fun hn => ⟨fun hn' => ap (o1 hn) (o2 hn'), fun hn' => ?_⟩, fun hn hn' => ?_⟩
    · rcases c2 hn' with ⟨x, hx, rfl⟩ | h
      · exact free_not_own (hΓ x hx) hb1 hs (hp x hx).2.1 (o1 hn)
      · exact ap (o1 hn) h
    · rcases c1 hn with ⟨x, hx, rfl⟩ | h
      · exact free_not_own (hΓ x hx) hb2 hs (hp x hx).2.2 (o2 hn')
      · exact ap h (o2 hn')
  | or q1 q2 ih1 ih2 =>
    intro Γ stack lv lex hl hc hg hnd hb hΓ hs hp
    simp only [Query.places, List.nodup_append, List.mem_append, not_or] at hnd hp
    simp only [Query.binders, List.mem_append] at hb
    exact ⟨ih1 Γ stack lv lex hl.1 hc.1 hg.1 hnd.1 (fun x hx => hb x (.inl hx)) hΓ hs fun x hx => ⟨(hp x hx).1, (hp x hx).2.1⟩,
      ih2 Γ stack _ lex hl.2 hc.2 hg.2 hnd.2.1 (fun x hx => hb x (.inr hx)) hΓ hs fun x hx => ⟨(hp x hx).1, (hp x hx).2.2⟩⟩
  | not q ih => intro Γ stack lv lex hl hc hg hnd hb hΓ hs hp; exact ih Γ stack lv lex hl hc hg hnd hb hΓ hs hp
  | withVar x q ih =>
    intro Γ stack lv lex hl hc hg hnd hb hΓ hs hp
    simp only [Query.places, List.nodup_cons, List.mem_cons, not_or] at hnd hp
    simp only [Query.binders, List.mem_cons] at hb
    refine ih (x :: Γ) stack _ _ hl.2 hc hg hnd.2 (fun y hy => hb y (.inr hy)) ?_ hs ?_
    · intro y hy
      rcases List.mem_cons.1 hy with rfl | hy
      · exact hb _ (.inl rfl)
      · exact hΓ y hy
    · intro y hy
      by_cases hyx : y = x
      · subst hyx
        simp only [upd, if_true]
        refine ⟨Nat.le_refl _, ?_⟩
        rw [List.take_of_length_le (by simp [idsOf])]
        exact hnd.1
      · simp only [upd, if_neg hyx]
        have := hp y (by simpa [hyx] using hy)
        exact ⟨this.1, this.2.2⟩
  | forallG c q ih =>
    intro Γ stack lv lex hl hc hg hnd hb hΓ hs hp
    obtain ⟨g1, g2, g3⟩ := hg
    have hids : ∀ i p, idsOf (stack ++ [scopeAt d c.id i p]) = idsOf stack ++ [c.id] := by intro i p; simp [idsOf, scopeAt]
    have hs' : ∀ i p, ∀ g ∈ stack ++ [scopeAt d c.id i p], sep ∉ g.target := by
      intro i p g hg
      simp only [List.mem_append, List.mem_singleton] at hg
      rcases hg with hg | rfl
      · exact hs g hg
      · exact g2
    have hfree : ∀ x ∈ Γ, (x, (idsOf stack ++ [c.id]).take (lex x)) ∉ q.places (idsOf stack ++ [c.id]) := by
      intro x hx hm
      obtain ⟨rest, hr⟩ := places_ext q _ _ hm
      have := congrArg List.length hr
      have h1 := (hp x hx).1
      simp only [List.length_take, List.length_append, List.length_cons, List.length_nil, idsOf, List.length_map] at this
      omega
    refine conj_apart (fun g hg => ?_) ?_
    · obtain ⟨i, p, -, rfl⟩ := mem_iters.1 hg
      refine ih Γ _ _ lex (by simpa using lexical_iter hl i) hc ?_ ?_ hb hΓ (hs' i p) ?_
      · rw [hids]; simpa using g3
      · rw [hids]; exact hnd
      · intro x hx
        rw [hids]
        have := (hp x hx).1
        exact ⟨by simp; omega, hfree x hx⟩
    · rw [List.pairwise_iff_getElem]
      intro i j hi hj hij n
      have hn : ∀ i (hi : i < (scopesOf d T c.id).length), ∃ p, (scopesOf d T c.id)[i] = scopeAt d c.id i p := by
        intro i hi
        simp only [scopesOf, List.getElem_map, List.getElem_zipIdx, Nat.zero_add]
        exact ⟨_, rfl⟩
      simp only [List.length_mapIdx] at hi hj
      simp only [List.getElem_mapIdx]
      obtain ⟨p, ep⟩ := hn i hi
      obtain ⟨p', ep'⟩ := hn j hj
      rw [ep, ep']
      have hne : (scopeAt d c.id i p).vIdx ≠ (scopeAt d c.id j p').vIdx := by
        simp only [scopeAt, ne_eq, Int.ofNat_inj]; omega
      have hlex : ∀ i p, q.Lexical (stack ++ [scopeAt d c.id i p]).length (times (fun lv => q.levels (stack.length + 1) lv) i lv) lex := by
        intro i p; simpa using lexical_iter hl i
      have hd : ∀ i p, ∀ x ∈ Γ, lex x ≤ (stack ++ [scopeAt d c.id i p]).length := by
        intro i p x hx; have := (hp x hx).1; simp; omega
      have o := fun i p => ground_names_own (d := d) (T := T) q _ _ lex _ (hlex i p) g3 n
      have oc := fun i p => ground_occ_own (d := d) (T := T) q Γ _ _ lex _ (hlex i p) hc g3 (hd i p) n
      have fr : ∀ i p j p', ∀ x ∈ Γ, n = nmOf lex (stack ++ [scopeAt d c.id i p]) x → ¬ Own q (stack ++ [scopeAt d c.id j p']) n := by
        intro i p j p' x hx e
        rw [nmOf_append (hp x hx).1] at e
        rw [e, ← nmOf_append (l' := [scopeAt d c.id j p']) (hp x hx).1]
        exact free_not_own (hΓ x hx) hb (hs' j p') (by rw [hids]; exact hfree x hx)
      have ap : Own q (stack ++ [scopeAt d c.id i p]) n → ¬ Own q (stack ++ [scopeAt d c.id j p']) n := own_iter_apart hb hs g2 g2 hne
      refine ⟨fun h => ⟨fun h' => ap (o i p h) (o j p' h'), fun h' => ?_⟩, fun h h' => ?_⟩
      · rcases oc j p' h' with ⟨x, hx, e⟩ | h''
        · exact fr j p' i p x hx e (o i p h)
        · exact ap (o i p h) h''
      · rcases oc i p h with ⟨x, hx, e⟩ | h''
        · exact fr i p j p' x hx e (o j p' h')
        · exact ap h'' (o j p' h')

/-- The two semantics agree on closed queries. -/
theorem exists_ground_iff_fo {q : Query} {Δ : List QVar} (hf : (q.flat d T).Fits d nodes T Δ) (hq : q.WellScoped) :
    (∃ σ, (q.flat d T).sem d T σ) ↔ q.fo d T (fun _ => bot) (fun _ => none) := by
  have key : ∀ σ, q.fo d T (fun _ => bot) (fun _ => none) ↔ (q.flat d T).ex d T σ := fun σ =>
    fo_iff_ex q [] [] _ _ _ _ σ hq.lexical hq.closed ⟨Δ, hf⟩ hq.names (by simp) (by simpa using hq.guards) (by simp) .nil
  have hpos : (q.flat d T).Positive := ground_positive q [] _ hq.positive
  constructor
  · rintro ⟨σ, h⟩
    exact (key σ).2 (sem_ex _ σ hpos h)
  · intro h
    obtain ⟨σ, -, hs⟩ := ex_sem _ (fun _ => bot) hpos (ground_apart q [] [] _ _ hq.lexical hq.closed (by simpa using hq.guards)
      hq.distinct hq.names (by simp) (by simp) (by simp)) ((key _).1 h)
    exact ⟨σ, hs⟩

end Goexpdt

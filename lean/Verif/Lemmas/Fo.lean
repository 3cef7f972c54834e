import Verif.Lemmas.Closed
import Verif.Lemmas.Scope
import Verif.Spec.Fo
/- First-order semantics and assignments to scoped names. -/
namespace Goexpdt
open Spec

/-! ### predicates only look at the features below the dimension -/

section
variable {d : Nat} {T : DTree} {e e1 e2 e3 f f1 f2 f3 : PInst}

theorem Same.symm (h : Same d e f) : Same d f e := fun i hi => (h i hi).symm

theorem subsumes_same (h1 : Same d e1 f1) (h2 : Same d e2 f2) : Subsumes d e1 e2 ↔ Subsumes d f1 f2 := by
  unfold Subsumes
  refine forall_congr' fun i => forall_congr' fun hi => ?_
  rw [h1 i hi, h2 i hi]

theorem cons_same (h1 : Same d e1 f1) (h2 : Same d e2 f2) : Cons d e1 e2 ↔ Cons d f1 f2 := by
  unfold Cons
  refine forall_congr' fun i => forall_congr' fun hi => ?_
  rw [h1 i hi, h2 i hi]

theorem full_same (h : Same d e f) : Full d e ↔ Full d f := by
  unfold Full
  refine forall_congr' fun i => forall_congr' fun hi => ?_
  rw [h i hi]

theorem numBot_same (h : Same d e f) : numBot d e = numBot d f :=
  countFeats_congr fun i hi => by rw [h i hi]

theorem hamming_same (h1 : Same d e1 f1) (h2 : Same d e2 f2) : hamming d e1 e2 = hamming d f1 f2 :=
  countFeats_congr fun i hi => by rw [h1 i hi, h2 i hi]

theorem isNode_same (h : Same d e f) : IsNode d T e ↔ IsNode d T f := by
  unfold IsNode
  refine exists_congr fun p => and_congr_right fun _ => ?_
  unfold Same
  refine forall_congr' fun i => forall_congr' fun hi => ?_
  rw [h i hi]

theorem allComp_same {b : Bool} (h : Same d e f) : AllComp d T b e ↔ AllComp d T b f := by
  unfold AllComp
  refine forall_congr' fun x => imp_congr ?_ Iff.rfl
  unfold Completes
  refine forall_congr' fun i => forall_congr' fun hi => ?_
  rw [h i hi]

theorem dfs_same (h : Same d e f) : DFS d T e ↔ DFS d T f := by
  unfold DFS
  refine forall_congr' fun x => imp_congr ?_ Iff.rfl
  refine forall_congr' fun i => forall_congr' fun hi => ?_
  rw [h i hi]

theorem hepr_same {pref : List Nat} (hp : ∀ i ∈ pref, i < d) (h1 : Same d e1 f1) (h2 : Same d e2 f2) :
    HEPR pref e1 e2 ↔ HEPR pref f1 f2 := by
  unfold HEPR
  refine forall_congr' fun pre => forall_congr' fun k => forall_congr' fun post => forall_congr' fun he => ?_
  have hk : k < d := hp k (by rw [he]; simp)
  rw [h1 k hk, h2 k hk]
  refine imp_congr ?_ Iff.rfl
  refine forall_congr' fun g => forall_congr' fun hg => ?_
  have hg' : g < d := hp g (by rw [he]; simp [hg])
  rw [h1 g hg', h2 g hg']

theorem leh_same (h1 : Same d e1 f1) (h2 : Same d e2 f2) (h3 : Same d e3 f3) :
    LEH d e1 e2 e3 ↔ LEH d f1 f2 f3 := by
  unfold LEH
  rw [full_same h1, full_same h2, full_same h3, hamming_same h1 h2, hamming_same h1 h3]

end

/-- The terms of a predicate. -/
def Atom.terms : Atom → List Term
  | .subs t1 t2 => [t1, t2]
  | .lel t1 t2 _ => [t1, t2]
  | .isnode t _ => [t]
  | .full t => [t]
  | .cons t1 t2 => [t1, t2]
  | .allcomp t _ _ => [t]
  | .dfs t => [t]
  | .hepr t1 t2 _ _ => [t1, t2]
  | .leh t1 t2 t3 _ _ => [t1, t2, t3]

theorem mem_terms_var {a : Atom} {x : QVar} (h : Term.var x ∈ a.terms) : x ∈ a.vars := by
  have hv : x ∈ (Term.var x).vars := by simp [Term.vars]
  cases a <;> simp only [Atom.terms, List.mem_cons, List.not_mem_nil, or_false] at h <;>
    simp only [Atom.vars, List.mem_append] <;> grind

theorem says_congr {d : Nat} {T : DTree} {a : Atom} (hp : a.PrefOk d) {ρ ρ' : Term → PInst}
    (h : ∀ t ∈ a.terms, Same d (ρ t) (ρ' t)) : a.says d T ρ ↔ a.says d T ρ' := by
  cases a <;> simp only [Atom.terms, List.mem_cons, List.not_mem_nil, or_false, forall_eq_or_imp, forall_eq] at h <;>
    simp only [Atom.says]
  · exact subsumes_same h.1 h.2
  · unfold LEL; rw [numBot_same h.1, numBot_same h.2]
  · exact isNode_same h
  · exact full_same h
  · exact cons_same h.1 h.2
  · exact allComp_same h
  · exact dfs_same h
  · refine hepr_same ?_ h.1 h.2
    intro i hi
    obtain ⟨k, hk, rfl⟩ := List.mem_map.1 hi
    have := hp.1 k hk
    omega
  · exact leh_same h.1 h.2.1 h.2.2

/-! ### the environments -/

variable {d : Nat} {nodes : List Node} {T : DTree} {depth : QVar → Nat}

/-- The name of a variable where the open scopes are `stack`. -/
def nmOf (depth : QVar → Nat) (stack : List Scope) (x : QVar) : QVar := x ++ suffix (stack.take (depth x))

theorem nmOf_append {x : QVar} {l l' : List Scope} (h : depth x ≤ l.length) :
    nmOf depth (l ++ l') x = nmOf depth l x := by
  unfold nmOf; rw [List.take_append_of_le_length h]

/-- The values of the bound constants are those of the open scopes. -/
def GRel (d : Nat) (stack : List Scope) (guards : List Char → Option PInst) : Prop :=
  ∀ id, match stack.find? (fun g => g.target == id) with
    | some g => ∃ e, guards id = some e ∧ Same d (den g.value) e
    | none => guards id = none

theorem GRel.nil : GRel d [] (fun _ => none) := fun _ => rfl

theorem GRel.push {stack : List Scope} {guards : List Char → Option PInst} (h : GRel d stack guards)
    {g : Scope} {e : PInst} (hn : g.target ∉ stack.map (·.target)) (hs : Same d (den g.value) e) :
    GRel d (stack ++ [g]) (upd guards g.target (some e)) := by
  intro id
  rw [List.find?_append]
  have := h id
  by_cases hid : id = g.target
  · subst hid
    have hnone : stack.find? (fun g' => g'.target == g.target) = none := by
      rw [List.find?_eq_none]
      intro g' hg' he
      exact hn (List.mem_map.2 ⟨g', hg', by simpa using he⟩)
    simp [hnone, upd, hs]
  · have hb : (g.target == id) = false := by simp [Ne.symm hid]
    simp only [upd, if_neg hid]
    cases hf : stack.find? (fun g' => g'.target == id) with
    | some g' => rw [hf] at this; simpa using this
    | none => rw [hf] at this; simp [hb, this]

theorem res_val {stack : List Scope} {guards : List Char → Option PInst} {env : QVar → PInst} {σ : Asg}
    (hg : GRel d stack guards) {t : Term} (hv : ∀ x, t = .var x → env x = σ (nmOf depth stack x)) :
    Same d ((t.res depth stack).den σ) (t.val env guards) := by
  cases t with
  | var x =>
    have := hv x rfl
    intro i _
    show σ (nmOf depth stack x) i = env x i
    rw [this]
  | const c =>
    intro i hi
    show den (resolve stack c) i = ((guards c.id).getD (den c.val)) i
    have := hg c.id
    unfold resolve
    cases hf : stack.find? (fun g => g.target == c.id) with
    | some g =>
      rw [hf] at this
      obtain ⟨e, h1, h2⟩ := this
      rw [h1]
      exact h2 i hi
    | none =>
      rw [hf] at this
      rw [this]
      rfl

/-- The state of the induction: environments and scopes. -/
structure Rel (d : Nat) (T : DTree) (depth : QVar → Nat) (Γ : List QVar) (stack : List Scope) (env : QVar → PInst)
    (guards : List Char → Option PInst) (σ : Asg) : Prop where
  grel : GRel d stack guards
  vars : ∀ x ∈ Γ, env x = σ (nmOf depth stack x)
  depth : ∀ x ∈ Γ, depth x ≤ stack.length

variable {Γ : List QVar} {stack : List Scope} {env : QVar → PInst} {guards : List Char → Option PInst} {σ σ' : Asg}

theorem Rel.push (h : Rel d T depth Γ stack env guards σ) {id : List Char} (hn : id ∉ stack.map (·.target))
    (i : Nat) (p : Nat × PInst) :
    Rel d T depth Γ (stack ++ [scopeAt d id i p]) env (upd guards id (some p.2)) σ := by
  refine ⟨h.grel.push (g := scopeAt d id i p) hn (den_valsOf d p.2), ?_, ?_⟩
  · intro x hx; rw [nmOf_append (h.depth x hx)]; exact h.vars x hx
  · intro x hx; have := h.depth x hx; simp; omega

theorem Rel.atom (h : Rel d T depth Γ stack env guards σ) {a : Atom} (hf : a.Fits d nodes T Γ stack) :
    (a.says d T fun t => (t.res depth stack).den σ) ↔ a.says d T (Term.val env guards) := by
  refine says_congr hf.pref fun t ht => res_val h.grel fun x hx => ?_
  subst hx
  exact h.vars x (hf.vars x (mem_terms_var ht))

/-- Without declarations the two semantics agree. -/
theorem sem_iff_fo (q : Query) : ∀ (Γ : List QVar) (stack : List Scope) (env : QVar → PInst)
    (guards : List Char → Option PInst) (σ : Asg), q.binders = [] → q.Fits d nodes T depth Γ stack →
    q.GuardsApart (stack.map (·.target)).reverse → Rel d T depth Γ stack env guards σ →
    (q.sem d T depth σ stack ↔ q.fo d T env guards) := by
  induction q with
  | nil => intro _ _ _ _ _ _ h; exact h.elim
  | atom a => intro Γ stack env guards σ _ hf _ hr; exact hr.atom hf
  | and q1 q2 ih1 ih2 =>
    intro Γ stack env guards σ hb hf hg hr
    simp only [Query.binders, List.append_eq_nil_iff] at hb
    exact and_congr (ih1 _ _ _ _ _ hb.1 hf.1 hg.1 hr) (ih2 _ _ _ _ _ hb.2 hf.2 hg.2 hr)
  | or q1 q2 ih1 ih2 =>
    intro Γ stack env guards σ hb hf hg hr
    simp only [Query.binders, List.append_eq_nil_iff] at hb
    exact or_congr (ih1 _ _ _ _ _ hb.1 hf.1 hg.1 hr) (ih2 _ _ _ _ _ hb.2 hf.2 hg.2 hr)
  | not q ih =>
    intro Γ stack env guards σ hb hf hg hr
    exact not_congr (ih _ _ _ _ _ hb hf hg hr)
  | withVar x q ih => intro Γ stack env guards σ hb; simp [Query.binders] at hb
  | forallG c q ih =>
    intro Γ stack env guards σ hb hf hg hr
    obtain ⟨h1, h2, h3⟩ := hg
    have hn : c.id ∉ stack.map (·.target) := by simpa using h1
    have key : ∀ i p, (T.nodeInsts bot)[i]? = some p →
        (q.sem d T depth σ (stack ++ [scopeAt d c.id i p]) ↔ q.fo d T env (upd guards c.id (some p.2))) := by
      intro i p hp
      refine ih _ _ _ _ _ hb (hf.2.2 _ (mem_scopesOf.2 ⟨i, p, hp, rfl⟩)) ?_ (hr.push hn i p)
      simpa [scopeAt] using h3
    show (∀ g ∈ scopesOf d T c.id, q.sem d T depth σ (stack ++ [g])) ↔ ∀ p ∈ T.nodeInsts bot, _
    constructor
    · intro h p hp
      obtain ⟨i, hi⟩ := List.mem_iff_getElem?.1 hp
      exact (key i p hi).1 (h _ (mem_scopesOf.2 ⟨i, p, hi, rfl⟩))
    · intro h g hg
      obtain ⟨i, p, hp, rfl⟩ := mem_scopesOf.1 hg
      exact (key i p hp).2 (h p (List.mem_of_getElem? hp))

/-- An assignment gives witnesses. -/
theorem sem_fo (q : Query) : ∀ (Γ : List QVar) (stack : List Scope) (env : QVar → PInst)
    (guards : List Char → Option PInst) (σ : Asg), q.Positive → q.binders.Nodup → (∀ x ∈ Γ, x ∉ q.binders) →
    q.Fits d nodes T depth Γ stack → q.GuardsApart (stack.map (·.target)).reverse →
    Rel d T depth Γ stack env guards σ → q.sem d T depth σ stack → q.fo d T env guards := by
  induction q with
  | nil => intro _ _ _ _ _ _ _ _ h; exact h.elim
  | atom a => intro Γ stack env guards σ _ _ _ hf _ hr; exact (hr.atom hf).1
  | and q1 q2 ih1 ih2 =>
    intro Γ stack env guards σ hp hb hΓ hf hg hr hs
    simp only [Query.binders, List.nodup_append, List.mem_append, not_or] at hb hΓ
    exact ⟨ih1 _ _ _ _ _ hp.1 hb.1 (fun x hx => (hΓ x hx).1) hf.1 hg.1 hr hs.1,
      ih2 _ _ _ _ _ hp.2 hb.2.1 (fun x hx => (hΓ x hx).2) hf.2 hg.2 hr hs.2⟩
  | or q1 q2 ih1 ih2 =>
    intro Γ stack env guards σ hp hb hΓ hf hg hr hs
    simp only [Query.binders, List.nodup_append, List.mem_append, not_or] at hb hΓ
    exact hs.imp (ih1 _ _ _ _ _ hp.1 hb.1 (fun x hx => (hΓ x hx).1) hf.1 hg.1 hr)
      (ih2 _ _ _ _ _ hp.2 hb.2.1 (fun x hx => (hΓ x hx).2) hf.2 hg.2 hr)
  | not q ih =>
    intro Γ stack env guards σ hp hb hΓ hf hg hr hs
    exact fun h => hs ((sem_iff_fo q _ _ _ _ _ hp hf hg hr).2 h)
  | withVar x q ih =>
    intro Γ stack env guards σ hp hb hΓ hf hg hr hs
    simp only [Query.binders, List.nodup_cons, List.mem_cons, not_or] at hb hΓ
    refine ⟨σ (nmOf depth stack x), ih (x :: Γ) stack _ guards σ hp hb.2 ?_ hf.2 hg ⟨hr.grel, ?_, ?_⟩ hs⟩
    · intro y hy
      rcases List.mem_cons.1 hy with rfl | hy
      · exact hb.1
      · exact (hΓ y hy).2
    · intro y hy
      by_cases hyx : y = x
      · subst hyx; simp [upd]
      · simp only [upd, if_neg hyx]
        exact hr.vars y (by simpa [hyx] using hy)
    · intro y hy
      rcases List.mem_cons.1 hy with rfl | hy
      · exact Nat.le_of_eq hf.1
      · exact hr.depth y hy
  | forallG c q ih =>
    intro Γ stack env guards σ hp hb hΓ hf hg hr hs p hpm
    obtain ⟨h1, h2, h3⟩ := hg
    have hn : c.id ∉ stack.map (·.target) := by simpa using h1
    obtain ⟨i, hi⟩ := List.mem_iff_getElem?.1 hpm
    have hm := mem_scopesOf (d := d) (id := c.id).2 ⟨i, p, hi, rfl⟩
    exact ih _ _ _ _ σ hp hb hΓ (hf.2.2 _ hm) (by simpa [scopeAt] using h3) (hr.push hn i p) (hs _ hm)

/-! ### witnesses give an assignment -/

/-- What a query says depends on the names of its variables only. -/
theorem sem_congr (q : Query) : ∀ (Γ : List QVar) (stack : List Scope), q.Fits d nodes T depth Γ stack →
    (∀ x ∈ Γ, depth x ≤ stack.length) → (∀ x ∈ Γ, σ (nmOf depth stack x) = σ' (nmOf depth stack x)) →
    (∀ n ∈ q.names d T stack, σ n = σ' n) → (q.sem d T depth σ stack ↔ q.sem d T depth σ' stack) := by
  induction q with
  | nil => intro _ _ h; exact h.elim
  | atom a =>
    intro Γ stack hf _ hv _
    refine says_congr hf.pref fun t ht => ?_
    cases t with
    | const c => intro i _; rfl
    | var x =>
      intro i _
      show σ (nmOf depth stack x) i = σ' (nmOf depth stack x) i
      rw [hv x (hf.vars x (mem_terms_var ht))]
  | and q1 q2 ih1 ih2 =>
    intro Γ stack hf hd hv hn
    simp only [Query.names, List.mem_append] at hn
    exact and_congr (ih1 Γ stack hf.1 hd hv fun n h => hn n (.inl h)) (ih2 Γ stack hf.2 hd hv fun n h => hn n (.inr h))
  | or q1 q2 ih1 ih2 =>
    intro Γ stack hf hd hv hn
    simp only [Query.names, List.mem_append] at hn
    exact or_congr (ih1 Γ stack hf.1 hd hv fun n h => hn n (.inl h)) (ih2 Γ stack hf.2 hd hv fun n h => hn n (.inr h))
  | not q ih => intro Γ stack hf hd hv hn; exact not_congr (ih Γ stack hf hd hv hn)
  | withVar x q ih =>
    intro Γ stack hf hd hv hn
    simp only [Query.names, List.mem_cons] at hn
    refine ih (x :: Γ) stack hf.2 ?_ ?_ fun n h => hn n (.inr h)
    · intro y hy
      rcases List.mem_cons.1 hy with rfl | hy
      · exact Nat.le_of_eq hf.1
      · exact hd y hy
    · intro y hy
      rcases List.mem_cons.1 hy with rfl | hy
      · refine hn _ (.inl ?_)
        unfold nmOf; rw [hf.1, List.take_length]
      · exact hv y hy
  | forallG c q ih =>
    intro Γ stack hf hd hv hn
    simp only [Query.names, List.mem_flatMap] at hn
    refine forall_congr' fun g => forall_congr' fun hg => ?_
    refine ih Γ _ (hf.2.2 g hg) ?_ ?_ fun n h => hn n ⟨g, hg, h⟩
    · intro x hx; have := hd x hx; simp; omega
    · intro x hx; rw [nmOf_append (hd x hx)]; exact hv x hx

/-- The shape of declared names. -/
theorem names_shape (q : Query) : ∀ (stack : List Scope) (ids : List (List Char)), q.GuardsApart ids → ∀ n ∈ q.names d T stack,
    ∃ x ∈ q.binders, ∃ more : List Scope, n = x ++ suffix (stack ++ more) ∧ ∀ g ∈ more, sep ∉ g.target := by
  induction q with
  | nil => intro _ _ _ n hn; simp [Query.names] at hn
  | atom a => intro _ _ _ n hn; simp [Query.names] at hn
  | and q1 q2 ih1 ih2 =>
    intro stack ids hg n hn
    simp only [Query.names, List.mem_append] at hn
    simp only [Query.binders, List.mem_append]
    rcases hn with hn | hn
    · obtain ⟨x, h1, h2⟩ := ih1 stack ids hg.1 n hn; exact ⟨x, .inl h1, h2⟩
    · obtain ⟨x, h1, h2⟩ := ih2 stack ids hg.2 n hn; exact ⟨x, .inr h1, h2⟩
  | or q1 q2 ih1 ih2 =>
    intro stack ids hg n hn
    simp only [Query.names, List.mem_append] at hn
    simp only [Query.binders, List.mem_append]
    rcases hn with hn | hn
    · obtain ⟨x, h1, h2⟩ := ih1 stack ids hg.1 n hn; exact ⟨x, .inl h1, h2⟩
    · obtain ⟨x, h1, h2⟩ := ih2 stack ids hg.2 n hn; exact ⟨x, .inr h1, h2⟩
  | not q ih => intro stack ids hg n hn; exact ih stack ids hg n hn
  | withVar x q ih =>
    intro stack ids hg n hn
    simp only [Query.names, List.mem_cons] at hn
    rcases hn with rfl | hn
    · exact ⟨x, by simp [Query.binders], [], by simp, by simp⟩
    · obtain ⟨y, h1, h2⟩ := ih stack ids hg n hn
      exact ⟨y, by simp [Query.binders, h1], h2⟩
  | forallG c q ih =>
    intro stack ids hg n hn
    simp only [Query.names, List.mem_flatMap] at hn
    obtain ⟨g, hgm, hn⟩ := hn
    obtain ⟨x, h1, more, h2, h3⟩ := ih _ _ hg.2.2 n hn
    refine ⟨x, h1, g :: more, by rw [h2]; simp, ?_⟩
    intro g' hg'
    rcases List.mem_cons.1 hg' with rfl | hg'
    · obtain ⟨i, p, -, rfl⟩ := mem_scopesOf.1 hgm
      exact hg.2.1
    · exact h3 g' hg'

theorem name_inj {x y : QVar} {l l' : List Scope} (hx : sep ∉ x) (hy : sep ∉ y)
    (h : x ++ suffix l = y ++ suffix l') : x = y ∧ suffix l = suffix l' :=
  split_US hx hy (suffix_shape _) (suffix_shape _) h

/-- The conditions of the induction. -/
structure Inv (q : Query) (Γ : List QVar) (stack : List Scope) (depth : QVar → Nat) : Prop where
  nodup : q.binders.Nodup
  apart : ∀ x ∈ Γ, x ∉ q.binders
  us : ∀ x ∈ q.binders, sep ∉ x
  usΓ : ∀ x ∈ Γ, sep ∉ x
  usS : ∀ g ∈ stack, sep ∉ g.target
  guards : q.GuardsApart (stack.map (·.target)).reverse
  depth : ∀ x ∈ Γ, depth x ≤ stack.length

/-- Names of free variables are not declared in the query. -/
theorem Inv.free_apart {q : Query} (h : Inv q Γ stack depth) : ∀ x ∈ Γ, nmOf depth stack x ∉ q.names d T stack := by
  intro x hx hn
  obtain ⟨y, hy, more, he, -⟩ := names_shape q stack _ h.guards _ hn
  obtain ⟨rfl, -⟩ := name_inj (h.usΓ x hx) (h.us y hy) he
  exact h.apart x hx hy

theorem names_apart {q1 q2 : Query} {ids1 ids2 : List (List Char)} {st1 st2 : List Scope} (hd : ∀ x ∈ q1.binders, x ∉ q2.binders)
    (h1 : q1.GuardsApart ids1) (h2 : q2.GuardsApart ids2) (u1 : ∀ x ∈ q1.binders, sep ∉ x)
    (u2 : ∀ x ∈ q2.binders, sep ∉ x) : ∀ n ∈ q1.names d T st1, n ∉ q2.names d T st2 := by
  intro n hn hn'
  obtain ⟨x, hx, _, he, -⟩ := names_shape q1 st1 _ h1 _ hn
  obtain ⟨y, hy, _, he', -⟩ := names_shape q2 st2 _ h2 _ hn'
  rw [he] at he'
  obtain ⟨rfl, -⟩ := name_inj (u1 x hx) (u2 y hy) he'
  exact hd x hx hy

theorem iter_apart {q : Query} {ids : List (List Char)} {g g' : Scope} (hg : q.GuardsApart ids) (hu : ∀ x ∈ q.binders, sep ∉ x)
    (hst : ∀ g ∈ stack, sep ∉ g.target) (h1 : sep ∉ g.target) (h2 : sep ∉ g'.target) (hne : g.vIdx ≠ g'.vIdx) :
    ∀ n ∈ q.names d T (stack ++ [g]), n ∉ q.names d T (stack ++ [g']) := by
  intro n hn hn'
  obtain ⟨x, hx, m1, he, u1⟩ := names_shape q _ _ hg _ hn
  obtain ⟨y, hy, m2, he', u2⟩ := names_shape q _ _ hg _ hn'
  rw [he] at he'
  obtain ⟨-, hs⟩ := name_inj (hu x hx) (hu y hy) he'
  have := suffix_inj (by
      intro k hk
      simp only [List.mem_append, List.mem_singleton] at hk
      rcases hk with (hk | rfl) | hk
      · exact hst k hk
      · exact h1
      · exact u1 k hk) (by
      intro k hk
      simp only [List.mem_append, List.mem_singleton] at hk
      rcases hk with (hk | rfl) | hk
      · exact hst k hk
      · exact h2
      · exact u2 k hk) hs
  simp only [List.append_assoc, List.singleton_append, List.map_append, List.map_cons, List.append_cancel_left_eq,
    List.cons.injEq, Prod.mk.injEq] at this
  exact hne this.1.2

theorem fo_sem (q : Query) : ∀ (Γ : List QVar) (stack : List Scope) (env : QVar → PInst)
    (guards : List Char → Option PInst) (σ : Asg), q.Positive → Inv q Γ stack depth →
    q.Fits d nodes T depth Γ stack → Rel d T depth Γ stack env guards σ → q.fo d T env guards →
    ∃ σ', (∀ n, n ∉ q.names d T stack → σ' n = σ n) ∧ q.sem d T depth σ' stack := by
  induction q with
  | nil => intro _ _ _ _ _ _ _ h; exact h.elim
  | atom a => intro Γ stack env guards σ _ _ hf hr h; exact ⟨σ, fun _ _ => rfl, (hr.atom hf).2 h⟩
  | and q1 q2 ih1 ih2 =>
    intro Γ stack env guards σ hp hi hf hr h
    have hnd := hi.nodup
    simp only [Query.binders, List.nodup_append] at hnd
    have i1 : Inv q1 Γ stack depth := ⟨hnd.1, fun x hx hb => hi.apart x hx (by simp [Query.binders, hb]),
      fun x hx => hi.us x (by simp [Query.binders, hx]), hi.usΓ, hi.usS, hi.guards.1, hi.depth⟩
    have i2 : Inv q2 Γ stack depth := ⟨hnd.2.1, fun x hx hb => hi.apart x hx (by simp [Query.binders, hb]),
      fun x hx => hi.us x (by simp [Query.binders, hx]), hi.usΓ, hi.usS, hi.guards.2, hi.depth⟩
    obtain ⟨σ1, a1, b1⟩ := ih1 Γ stack env guards σ hp.1 i1 hf.1 hr h.1
    have hr1 : Rel d T depth Γ stack env guards σ1 :=
      ⟨hr.grel, fun x hx => by rw [a1 _ (i1.free_apart x hx)]; exact hr.vars x hx, hr.depth⟩
    obtain ⟨σ2, a2, b2⟩ := ih2 Γ stack env guards σ1 hp.2 i2 hf.2 hr1 h.2
    refine ⟨σ2, ?_, ?_, b2⟩
    · intro n hn
      simp only [Query.names, List.mem_append, not_or] at hn
      rw [a2 n hn.2, a1 n hn.1]
    · refine (sem_congr q1 Γ stack hf.1 hi.depth ?_ ?_).1 b1
      · intro x hx; exact (a2 _ (i2.free_apart x hx)).symm
      · intro n hn
        refine (a2 n ?_).symm
        exact names_apart (fun x hx hx' => hnd.2.2 x hx x hx' rfl) i1.guards i2.guards i1.us i2.us n hn
  | or q1 q2 ih1 ih2 =>
    intro Γ stack env guards σ hp hi hf hr h
    have hnd := hi.nodup
    simp only [Query.binders, List.nodup_append] at hnd
    have i1 : Inv q1 Γ stack depth := ⟨hnd.1, fun x hx hb => hi.apart x hx (by simp [Query.binders, hb]),
      fun x hx => hi.us x (by simp [Query.binders, hx]), hi.usΓ, hi.usS, hi.guards.1, hi.depth⟩
    have i2 : Inv q2 Γ stack depth := ⟨hnd.2.1, fun x hx hb => hi.apart x hx (by simp [Query.binders, hb]),
      fun x hx => hi.us x (by simp [Query.binders, hx]), hi.usΓ, hi.usS, hi.guards.2, hi.depth⟩
    rcases h with h | h
    · obtain ⟨σ1, a1, b1⟩ := ih1 Γ stack env guards σ hp.1 i1 hf.1 hr h
      refine ⟨σ1, fun n hn => a1 n fun h => hn ?_, .inl b1⟩
      simp [Query.names, h]
    · obtain ⟨σ1, a1, b1⟩ := ih2 Γ stack env guards σ hp.2 i2 hf.2 hr h
      refine ⟨σ1, fun n hn => a1 n fun h => hn ?_, .inr b1⟩
      simp [Query.names, h]
  | not q ih =>
    intro Γ stack env guards σ hp hi hf hr h
    exact ⟨σ, fun _ _ => rfl, fun hs => h ((sem_iff_fo q _ _ _ _ _ hp hf hi.guards hr).1 hs)⟩
  | withVar x q ih =>
    intro Γ stack env guards σ hp hi hf hr ⟨e, h⟩
    have hnd := hi.nodup
    simp only [Query.binders, List.nodup_cons] at hnd
    have hus : sep ∉ x := hi.us x (by simp [Query.binders])
    have hxΓ : x ∉ Γ := fun hx => hi.apart x hx (by simp [Query.binders])
    have hnx : nmOf depth stack x = x ++ suffix stack := by unfold nmOf; rw [hf.1, List.take_length]
    have i1 : Inv q (x :: Γ) stack depth := by
      refine ⟨hnd.2, ?_, fun y hy => hi.us y (by simp [Query.binders, hy]), ?_, hi.usS, hi.guards, ?_⟩
      · intro y hy
        rcases List.mem_cons.1 hy with rfl | hy
        · exact hnd.1
        · exact fun hb => hi.apart y hy (by simp [Query.binders, hb])
      · intro y hy
        rcases List.mem_cons.1 hy with rfl | hy
        · exact hus
        · exact hi.usΓ y hy
      · intro y hy
        rcases List.mem_cons.1 hy with rfl | hy
        · exact Nat.le_of_eq hf.1
        · exact hi.depth y hy
    have hr1 : Rel d T depth (x :: Γ) stack (upd env x e) guards (upd σ (x ++ suffix stack) e) := by
      refine ⟨hr.grel, ?_, i1.depth⟩
      intro y hy
      by_cases hyx : y = x
      · subst hyx; rw [hnx]; simp [upd]
      · have hy' : y ∈ Γ := by simpa [hyx] using hy
        simp only [upd, if_neg hyx]
        rw [if_neg]
        · exact hr.vars y hy'
        · intro he
          exact hyx (name_inj (hi.usΓ y hy') hus he).1
    obtain ⟨σ1, a1, b1⟩ := ih (x :: Γ) stack _ guards _ hp i1 hf.2 hr1 h
    refine ⟨σ1, fun n hn => ?_, b1⟩
    simp only [Query.names, List.mem_cons, not_or] at hn
    rw [a1 n hn.2]
    simp [upd, hn.1]
  | forallG c q ih =>
    intro Γ stack env guards σ hp hi hf hr h
    obtain ⟨g1, g2, g3⟩ := hi.guards
    have hn : c.id ∉ stack.map (·.target) := by simpa using g1
    -- one iteration after the other
    have key : ∀ gs : List Scope, (∀ g ∈ gs, g ∈ scopesOf d T c.id) → (gs.map (·.vIdx)).Nodup →
        ∃ σ', (∀ n, (∀ g ∈ gs, n ∉ q.names d T (stack ++ [g])) → σ' n = σ n) ∧
          ∀ g ∈ gs, q.sem d T depth σ' (stack ++ [g]) := by
      intro gs
      induction gs with
      | nil => intro _ _; exact ⟨σ, fun _ _ => rfl, by simp⟩
      | cons g gs ihg =>
        intro hm hd
        simp only [List.map_cons, List.nodup_cons] at hd
        obtain ⟨σ1, a1, b1⟩ := ihg (fun g' hg' => hm g' (by simp [hg'])) hd.2
        obtain ⟨i, p, hp', hge⟩ := mem_scopesOf.1 (hm g (by simp))
        have htg : ∀ g' ∈ scopesOf d T c.id, sep ∉ g'.target := by
          intro g' hg'
          obtain ⟨_, _, _, rfl⟩ := mem_scopesOf.1 hg'
          exact g2
        have hinv : ∀ g' ∈ scopesOf d T c.id, Inv q Γ (stack ++ [g']) depth := by
          intro g' hg'
          refine ⟨hi.nodup, hi.apart, hi.us, hi.usΓ, ?_, ?_, ?_⟩
          · intro k hk
            simp only [List.mem_append, List.mem_singleton] at hk
            rcases hk with hk | rfl
            · exact hi.usS k hk
            · exact htg k hg'
          · obtain ⟨_, _, _, rfl⟩ := mem_scopesOf.1 hg'
            simpa [scopeAt] using g3
          · intro x hx; have := hi.depth x hx; simp; omega
        have hfree : ∀ g' ∈ scopesOf d T c.id, ∀ x ∈ Γ, nmOf depth stack x ∉ q.names d T (stack ++ [g']) := by
          intro g' hg' x hx
          have := (hinv g' hg').free_apart (d := d) (T := T) x hx
          rwa [nmOf_append (hi.depth x hx)] at this
        have hr1 : Rel d T depth Γ (stack ++ [g]) env (upd guards c.id (some p.2)) σ1 := by
          rw [hge]
          refine Rel.push ⟨hr.grel, fun x hx => ?_, hr.depth⟩ hn i p
          rw [a1 _ fun g' hg' => hfree g' (hm g' (by simp [hg'])) x hx]
          exact hr.vars x hx
        obtain ⟨σ2, a2, b2⟩ := ih Γ (stack ++ [g]) env _ σ1 hp (hinv g (hm g (by simp)))
          (hf.2.2 g (hm g (by simp))) hr1 (h p (List.mem_of_getElem? hp'))
        refine ⟨σ2, ?_, ?_⟩
        · intro n hnn
          rw [a2 n (hnn g (by simp)), a1 n fun g' hg' => hnn g' (by simp [hg'])]
        · intro g' hg'
          rcases List.mem_cons.1 hg' with rfl | hg'
          · exact b2
          · have hm' := hm g' (by simp [hg'])
            refine (sem_congr q Γ _ (hf.2.2 g' hm') (hinv g' hm').depth ?_ ?_).1 (b1 g' hg')
            · intro x hx
              rw [nmOf_append (hi.depth x hx)]
              exact (a2 _ (hfree g (hm g (by simp)) x hx)).symm
            · intro n hn'
              refine (a2 n ?_).symm
              refine iter_apart (hinv g' hm').guards hi.us hi.usS (htg g' hm') (htg g (hm g (by simp))) ?_ n hn'
              intro he
              exact hd.1 (List.mem_map.2 ⟨g', hg', he⟩)
    obtain ⟨σ', a, b⟩ := key (scopesOf d T c.id) (fun _ h => h) (by
      have : (scopesOf d T c.id).map (·.vIdx) = (List.range (T.nodeInsts bot).length).map (fun (i : Nat) => (i : Int)) := by
        apply List.ext_getElem
        · simp [scopesOf]
        · intro i h1 h2
          simp [scopesOf, scopeAt]
      rw [this]
      exact List.Pairwise.map _ (fun a b h => by simpa [Int.ofNat_inj] using h) List.nodup_range)
    refine ⟨σ', fun n hn' => a n fun g hg hmem => hn' ?_, b⟩
    simp only [Query.names, List.mem_flatMap]
    exact ⟨g, hg, hmem⟩

/-- The two semantics agree on closed queries. -/
theorem exists_sem_iff_fo {q : Query} (hf : q.Fits d nodes T depth [] []) (hq : q.Plain) :
    (∃ σ, q.sem d T depth σ []) ↔ q.fo d T (fun _ => bot) (fun _ => none) := by
  have hr : ∀ σ, Rel d T depth [] [] (fun _ => bot) (fun _ => none) σ :=
    fun σ => ⟨.nil, by simp, by simp⟩
  constructor
  · rintro ⟨σ, hs⟩
    exact sem_fo q [] [] _ _ σ hq.positive hq.distinct (by simp) hf (by simpa using hq.guards) (hr σ) hs
  · intro h
    obtain ⟨σ, -, hs⟩ := fo_sem q [] [] _ _ (fun _ => bot) hq.positive
      ⟨hq.distinct, by simp, hq.names, by simp, by simp, by simpa using hq.guards, by simp⟩ hf (hr _) h
    exact ⟨σ, hs⟩

end Goexpdt

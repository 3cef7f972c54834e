import Verif.Spec.Tidy
import Verif.Lemmas.CaptureQuery
import Verif.Lemmas.Itoa
import Verif.Props.Query
/- Lemmas for C54: names with tags and separators. -/
namespace Goexpdt
open Spec

theorem RS_toNat : recSep.toNat = 30 := by decide

/-- A text is split at its first separator in one way. -/
theorem split_RS {a a' b b' : List Char} (ha : recSep ∉ a) (ha' : recSep ∉ a') (h : a ++ recSep :: b = a' ++ recSep :: b') :
    a = a' ∧ b = b' := by
  induction a generalizing a' with
  | nil =>
    cases a' with
    | nil => simpa using h
    | cons x a' =>
      simp only [List.nil_append, List.cons_append, List.cons.injEq] at h
      exact absurd (h.1 ▸ List.mem_cons_self) ha'
  | cons y a ih =>
    cases a' with
    | nil =>
      simp only [List.nil_append, List.cons_append, List.cons.injEq] at h
      exact absurd (h.1 ▸ List.mem_cons_self) ha
    | cons x a' =>
      simp only [List.cons_append, List.cons.injEq] at h
      obtain ⟨rfl, rfl⟩ := ih (fun hm => ha (List.mem_cons_of_mem _ hm)) (fun hm => ha' (List.mem_cons_of_mem _ hm)) h.2
      exact ⟨by rw [h.1], rfl⟩

theorem tagged1_inj (ht : recSep ∉ t) (ht' : recSep ∉ t') (h : tagged1 t v = tagged1 t' v') : t = t' ∧ v = v' :=
  split_RS ht ht' h

/-- The tag of a name. -/
def HasTag (t : List Char) (n : QVar) : Prop := ∃ r, n = t ++ recSep :: r

theorem hasTag_unique (ht : recSep ∉ t) (ht' : recSep ∉ t') (h : HasTag t n) (h' : HasTag t' n) : t = t' := by
  obtain ⟨r, rfl⟩ := h
  obtain ⟨r', e⟩ := h'
  exact (split_RS ht ht' e).1

theorem hasTag1 : HasTag t (tagged1 t v) := ⟨_, rfl⟩
theorem hasTag2 : HasTag t (tagged2 t v w) := by unfold tagged2; split <;> exact ⟨_, rfl⟩
theorem hasTag3 : HasTag t (tagged3 t p v w) := ⟨_, rfl⟩

theorem hasTag_mem (h : HasTag t n) : recSep ∈ n := by
  obtain ⟨r, rfl⟩ := h; simp

theorem tagged2_inj (ht : recSep ∉ t) (hv : recSep ∉ v) (hw : recSep ∉ w) (hv' : recSep ∉ v') (hw' : recSep ∉ w')
    (h : tagged2 t v w = tagged2 t v' w') : (v = v' ∧ w = w') ∨ (v = w' ∧ w = v') := by
  unfold tagged2 at h
  split at h <;> split at h
  all_goals
    have h1 := (split_RS ht ht h).2
  · have := split_RS hv hv' h1; exact .inl this
  · have := split_RS hv hw' h1; exact .inr ⟨this.1, this.2⟩
  · have := split_RS hw hv' h1; exact .inr ⟨this.2, this.1⟩
  · have := split_RS hw hw' h1; exact .inl ⟨this.2, this.1⟩

theorem tagged3_inj (ht : recSep ∉ t) (hp : recSep ∉ p) (hp' : recSep ∉ p') (hv : recSep ∉ v) (hv' : recSep ∉ v')
    (h : tagged3 t p v w = tagged3 t p' v' w') : p = p' ∧ v = v' ∧ w = w' := by
  have h1 := (split_RS ht ht h).2
  have h2 := split_RS hp hp' h1
  exact ⟨h2.1, split_RS hv hv' h2.2⟩

theorem itoa_no_RS (v : Int) : recSep ∉ itoa v := by
  intro h
  have := itoa_chars v _ h
  rw [RS_toNat] at this
  omega

theorem prefVar_no_RS (p : List Int) : recSep ∉ prefVar p := by
  intro h
  obtain ⟨i, -, hi⟩ := List.mem_flatMap.mp h
  exact itoa_no_RS i hi

theorem suffix_no_RS {gs : List Scope} (h : ∀ g ∈ gs, recSep ∉ g.target) : recSep ∉ suffix gs := by
  intro hm
  obtain ⟨g, hg, hm⟩ := List.mem_flatMap.mp hm
  simp only [List.mem_append, List.mem_singleton] at hm
  have : recSep ≠ sep := by decide
  rcases hm with ((h1 | h1) | h1) | h1
  · exact this h1
  · exact h g hg h1
  · exact this h1
  · exact itoa_no_RS _ h1

theorem asString_no_RS (c : QConst) : recSep ∉ c.asString := by
  intro h
  obtain ⟨f, -, hf⟩ := List.mem_flatMap.mp h
  have h1 : recSep ≠ '_' ∧ recSep ≠ '0' ∧ recSep ≠ '1' := by decide
  split at hf
  · exact h1.1 (by simpa using hf)
  · split at hf
    · exact h1.2.1 (by simpa using hf)
    · split at hf
      · exact h1.2.2 (by simpa using hf)
      · simp at hf

theorem asString_chars (c : QConst) : ∀ x ∈ c.asString, x ∈ ['_', '0', '1'] := by
  intro x h
  obtain ⟨f, -, hf⟩ := List.mem_flatMap.mp h
  split at hf
  · simp_all
  · split at hf
    · simp_all
    · split at hf
      · simp_all
      · simp at hf

theorem NameOk.append (h : NameOk x) (hs : recSep ∉ s) : NameOk (x ++ s) := by
  obtain ⟨h1, c, l, rfl, hc⟩ := h
  refine ⟨?_, c, l ++ s, rfl, hc⟩
  simp only [List.mem_append, not_or]
  exact ⟨h1, hs⟩

/-- `k` is the key of the term in names of auxiliary variables. -/
inductive KeyFor (d : Nat) : QVar → RTerm → Prop
  | name {n} : NameOk n → KeyFor d n (.name n)
  | vals {vs} (id) : GoodVals d vs → KeyFor d (⟨id, vs⟩ : QConst).asString (.vals vs)

theorem KeyFor.no_RS (h : KeyFor d k t) : recSep ∉ k := by
  cases h with
  | name h => exact h.1
  | vals id h => exact asString_no_RS _

theorem key_unique_aux (hn : NameOk n) (c : QConst) : n ≠ c.asString := by
  obtain ⟨-, x, l, rfl, hx⟩ := hn
  intro h
  exact hx (asString_chars c x (h ▸ List.mem_cons_self))

theorem KeyFor.unique (h : KeyFor d k t) (h' : KeyFor d k' t') (e : k = k') : t = t' := by
  cases h with
  | name hn =>
    cases h' with
    | name => rw [e]
    | vals id hv => exact absurd e (key_unique_aux hn _)
  | vals id hv =>
    cases h' with
    | name hn => exact absurd e.symm (key_unique_aux hn _)
    | vals id' hv' => exact congrArg RTerm.vals ((Props.C16_asString_injective ⟨id, _⟩ ⟨id', _⟩ hv.2 hv'.2).1 e)

/-- The auxiliary variables of tidy queries. -/
inductive TUse (d : Nat) (t : Tags) (prefs : List (List Int)) (nodeU compU : Bool) : QVar × Role → Prop
  | bots {n} : NameOk n → TUse d t prefs nodeU compU (tagged1 t.count n, .bots n)
  | onPath {n} : nodeU = true → NameOk n → TUse d t prefs nodeU compU (tagged1 t.node n, .onPath n)
  | reach {n} : compU = true → NameOk n → TUse d t prefs nodeU compU (tagged1 t.comp n, .reach n)
  | rank {p k1 k2 t1 t2} : p ∈ prefs → KeyFor d k1 t1 → KeyFor d k2 t2 →
      TUse d t prefs nodeU compU (tagged3 t.pref (prefVar p) k1 k2, .rank (p.map Int.toNat) t1 t2)
  | dist {k1 k2 t1 t2} : KeyFor d k1 t1 → KeyFor d k2 t2 → TUse d t prefs nodeU compU (tagged2 t.dist k1 k2, .dist t1 t2)
  | same {n1 n2} : NameOk n1 → NameOk n2 → TUse d t prefs nodeU compU (tagged2 t.same n1 n2, .same n1 n2)

theorem TUse.mono (h : TUse d t prefs a b u) (hp : ∀ p ∈ prefs, p ∈ prefs') (ha : a = true → a' = true)
    (hb : b = true → b' = true) : TUse d t prefs' a' b' u := by
  cases h with
  | bots h => exact .bots h
  | onPath h1 h => exact .onPath (ha h1) h
  | reach h1 h => exact .reach (hb h1) h
  | rank h1 h2 h3 => exact .rank (hp _ h1) h2 h3
  | dist h1 h2 => exact .dist h1 h2
  | same h1 h2 => exact .same h1 h2

/-- The tag of the names for a role. -/
def Role.tag (t : Tags) : Role → List Char
  | .bots _ => t.count
  | .onPath _ => t.node
  | .reach _ => t.comp
  | .rank _ _ _ => t.pref
  | .dist _ _ => t.dist
  | .same _ _ => t.same

theorem TUse.tag (h : TUse d t prefs a b u) : HasTag (u.2.tag t) u.1 := by
  cases h with
  | bots h => exact hasTag1
  | onPath h1 h => exact hasTag1
  | reach h1 h => exact hasTag1
  | rank h1 h2 h3 => exact hasTag3
  | dist h1 h2 => exact hasTag2
  | same h1 h2 => exact hasTag2

theorem Tags.Ok.no_RS (ht : Tags.Ok t) (r : Role) : recSep ∉ r.tag t := by
  have hs := ht.sep
  simp only [List.mem_cons, List.not_mem_nil, or_false, forall_eq_or_imp, forall_eq] at hs
  cases r <;> simp only [Role.tag, hs, not_false_iff]

theorem TUse.no_tag (h : TUse d t prefs a b u) : recSep ∈ u.1 := hasTag_mem h.tag

theorem TUse.mean (ht : t.Ok) (hp : ∀ p ∈ prefs, ∀ p' ∈ prefs, prefVar p = prefVar p' → p = p')
    (hr : t.node ≠ t.comp ∨ a = false ∨ b = false) (h : TUse d t prefs a b u) (h' : TUse d t prefs a b u')
    (e : u'.1 = u.1) (σ : Asg) (i v : Int) : u'.2.mean d T σ i v = u.2.mean d T σ i v := by
  have tg := hasTag_unique (ht.no_RS _) (ht.no_RS _) h.tag (e ▸ h'.tag)
  have hn := ht.node
  have hc := ht.comp
  simp only [List.nodup_cons, List.mem_cons, List.not_mem_nil, or_false, not_or, not_false_iff, List.nodup_nil, and_true] at hn hc
  obtain ⟨⟨n1, n2, n3, n4⟩, ⟨n5, n6, n7⟩, ⟨n8, n9⟩, n10⟩ := hn
  obtain ⟨⟨c1, c2, c3, c4⟩, ⟨c5, c6, c7⟩, -, -⟩ := hc
  cases h with
  | bots h1 =>
    cases h' with
    | bots h2 => obtain ⟨-, rfl⟩ := tagged1_inj (ht.no_RS (.bots [])) (ht.no_RS (.bots [])) e; rfl
    | _ => simp_all [Role.tag]
  | onPath h0 h1 =>
    cases h' with
    | onPath h2 => obtain ⟨-, rfl⟩ := tagged1_inj (ht.no_RS (.onPath [])) (ht.no_RS (.onPath [])) e; rfl
    | _ => simp_all [Role.tag]
  | reach h0 h1 =>
    cases h' with
    | reach h2 => obtain ⟨-, rfl⟩ := tagged1_inj (ht.no_RS (.reach [])) (ht.no_RS (.reach [])) e; rfl
    | _ => simp_all [Role.tag]
  | rank h0 h1 h2 =>
    cases h' with
    | rank h0' h1' h2' =>
      obtain ⟨e1, e2, e3⟩ := tagged3_inj (ht.no_RS (.rank [] (.name []) (.name []))) (prefVar_no_RS _) (prefVar_no_RS _)
        h1'.no_RS h1.no_RS e
      rw [hp _ h0' _ h0 e1, h1'.unique h1 e2, h2'.unique h2 e3]
    | _ => simp_all [Role.tag]
  | dist h1 h2 =>
    cases h' with
    | dist h1' h2' =>
      rcases tagged2_inj (ht.no_RS (.dist (.name []) (.name []))) h1'.no_RS h2'.no_RS h1.no_RS h2.no_RS e with ⟨e1, e2⟩ | ⟨e1, e2⟩
      · rw [h1'.unique h1 e1, h2'.unique h2 e2]
      · rw [h1'.unique h2 e1, h2'.unique h1 e2]
        simp only [Role.mean]
        simp only [bne_comm]
    | _ => simp_all [Role.tag]
  | same h1 h2 =>
    cases h' with
    | same h1' h2' =>
      rcases tagged2_inj (ht.no_RS (.same [] [])) h1'.1 h2'.1 h1.1 h2.1 e with ⟨rfl, rfl⟩ | ⟨rfl, rfl⟩
      · rfl
      · simp only [Role.mean]
        simp only [eq_comm]
    | _ => simp_all [Role.tag]

theorem atom_uses {a : Atom} {stack : List Scope} (ht : a.Tidy t)
    (hv : ∀ x ∈ a.vars, NameOk (x ++ suffix (stack.take (depth x))))
    (hc : ∀ c ∈ Spec.Atom.consts a, GoodVals d (resolve stack c)) :
    ∀ u ∈ a.uses depth stack, TUse d t a.prefs a.isNodeVar a.isCompVar u := by
  have kv : ∀ x ∈ a.vars, KeyFor d (x ++ suffix (stack.take (depth x))) (.name (x ++ suffix (stack.take (depth x)))) :=
    fun x hx => .name (hv x hx)
  have kc : ∀ c ∈ Spec.Atom.consts a, KeyFor d (keyOf stack c) (.vals (resolve stack c)) := fun c h => .vals c.id (hc c h)
  intro u hu
  cases a with
  | subs t1 t2 => simp [Atom.uses] at hu
  | full t1 => simp [Atom.uses] at hu
  | cons t1 t2 => simp [Atom.uses] at hu
  | dfs t1 => simp [Atom.uses] at hu
  | lel t1 t2 g =>
    cases t1 <;> cases t2 <;> simp only [Atom.Tidy] at ht <;> (try subst ht) <;>
      simp only [Atom.vars, Term.vars, List.mem_append, List.mem_cons, List.not_mem_nil, or_false, false_or,
        forall_eq_or_imp, forall_eq] at hv
    · cases g <;> simp [Atom.uses, Term.res] at hu
    · simp only [Atom.uses, Term.res, List.flatMap_cons, List.flatMap_nil, List.nil_append, List.append_nil,
        List.mem_singleton] at hu
      subst hu; exact .bots hv
    · simp only [Atom.uses, Term.res, List.flatMap_cons, List.flatMap_nil, List.append_nil,
        List.mem_singleton] at hu
      subst hu; exact .bots hv
    · simp only [Atom.uses, Term.res, List.flatMap_cons, List.flatMap_nil, List.append_nil,
        List.mem_singleton, List.mem_append] at hu
      rcases hu with rfl | rfl
      · exact .bots hv.1
      · exact .bots hv.2
  | isnode t1 g =>
    cases t1 with
    | const c => simp [Atom.uses] at hu
    | var x =>
      simp only [Atom.Tidy] at ht
      subst ht
      simp only [Atom.uses, List.mem_singleton] at hu
      subst hu
      exact .onPath rfl (hv x (by simp [Atom.vars, Term.vars]))
  | allcomp t1 b g =>
    cases t1 with
    | const c => simp [Atom.uses] at hu
    | var x =>
      simp only [Atom.Tidy] at ht
      subst ht
      simp only [Atom.uses, List.mem_singleton] at hu
      subst hu
      exact .reach rfl (hv x (by simp [Atom.vars, Term.vars]))
  | hepr t1 t2 p g =>
    have hk : ∀ t0 ∈ [t1, t2], KeyFor d (Term.key depth stack t0) (Term.res depth stack t0) := by
      intro t0 h0
      cases t0 with
      | const c => exact kc c (by
          simp only [List.mem_cons, List.not_mem_nil, or_false] at h0
          rcases h0 with rfl | rfl <;> simp [Spec.Atom.consts, Spec.Term.consts])
      | var x => exact kv x (by
          simp only [List.mem_cons, List.not_mem_nil, or_false] at h0
          rcases h0 with rfl | rfl <;> simp [Atom.vars, Term.vars])
    have k1 := hk t1 (by simp)
    have k2 := hk t2 (by simp)
    cases t1 <;> cases t2 <;> simp only [Atom.Tidy] at ht <;> (try subst ht) <;> simp only [Atom.uses, List.mem_singleton, List.not_mem_nil] at hu
    all_goals
      subst hu
      exact .rank (by simp [Atom.prefs]) k1 k2
  | leh t1 t2 t3 g e =>
    have hk : ∀ t0 ∈ [t1, t2, t3], KeyFor d (Term.key depth stack t0) (Term.res depth stack t0) := by
      intro t0 h0
      cases t0 with
      | const c => exact kc c (by
          simp only [List.mem_cons, List.not_mem_nil, or_false] at h0
          rcases h0 with rfl | rfl | rfl <;> simp [Spec.Atom.consts, Spec.Term.consts])
      | var x => exact kv x (by
          simp only [List.mem_cons, List.not_mem_nil, or_false] at h0
          rcases h0 with rfl | rfl | rfl <;> simp [Atom.vars, Term.vars])
    have k1 := hk t1 (by simp)
    have k2 := hk t2 (by simp)
    have k3 := hk t3 (by simp)
    cases t1 <;> cases t2 <;> cases t3 <;> simp only [Atom.Tidy] at ht <;> (try (obtain ⟨rfl, rfl⟩ := ht)) <;> (try subst ht) <;>
      simp only [Atom.uses, Term.res, Term.key, List.map_cons, List.map_nil, List.flatMap_cons, List.flatMap_nil, List.nil_append,
        List.append_nil, List.cons_append, List.mem_cons, List.not_mem_nil, or_false] at hu k1 k2 k3 <;>
      simp only [Atom.vars, Term.vars, List.mem_append, List.mem_cons, List.not_mem_nil, or_false, false_or,
        forall_eq_or_imp, forall_eq] at hv
    · subst hu; exact .dist k3 k1
    · rcases hu with rfl | rfl
      · exact .dist k2 k1
      · exact .dist k3 k1
    · rcases hu with rfl | rfl
      · exact .dist k1 k2
      · exact .dist k1 k3
    · rcases hu with rfl | rfl | rfl
      · exact .dist k1 k2
      · exact .dist k1 k3
      · exact .same hv.1 hv.2
    · rcases hu with rfl | rfl | rfl
      · exact .dist k1 k2
      · exact .same hv.1 hv.2
      · exact .dist k1 k3
    · rcases hu with rfl | rfl | rfl | rfl
      · exact .dist k1 k2
      · exact .same (hv _ (by simp)) (hv _ (by simp))
      · exact .dist k1 k3
      · exact .same (hv _ (by simp)) (hv _ (by simp))

/-- The scopes that queries open. -/
def StackOk (d : Nat) (stack : List Scope) : Prop := ∀ g ∈ stack, recSep ∉ g.target ∧ GoodVals d g.value

theorem StackOk.append {id : List Char} (h : StackOk d stack) (hid : recSep ∉ id) (hg : g ∈ scopesOf d T id) : StackOk d (stack ++ [g]) := by
  intro g' hg'
  rcases List.mem_append.mp hg' with h1 | h1
  · exact h g' h1
  · simp only [List.mem_singleton] at h1
    subst h1
    obtain ⟨i, p, -, rfl⟩ := mem_scopesOf.mp hg
    exact ⟨hid, valsOf_good d p.2⟩

theorem StackOk.resolve (h : StackOk d stack) {c : QConst} (hc : GoodVals d c.val) : GoodVals d (resolve stack c) := by
  unfold Goexpdt.resolve
  split
  · rename_i g hg
    exact (h g (List.mem_of_find?_eq_some hg)).2
  · exact hc

theorem StackOk.name (h : StackOk d stack) (hx : NameOk x) (n : Nat) : NameOk (x ++ suffix (stack.take n)) :=
  hx.append (suffix_no_RS fun g hg => (h g (List.mem_of_mem_take hg)).1)

theorem query_uses {q : Query} : ∀ {Γ ids stack}, q.Tidy t → q.Scoped d depth Γ ids → (∀ x ∈ Γ, NameOk x) → StackOk d stack →
    ∀ u ∈ q.uses d T depth stack,
      TUse d t (q.atoms.flatMap Atom.prefs) (q.atoms.any Atom.isNodeVar) (q.atoms.any Atom.isCompVar) u := by
  induction q with
  | nil => intro Γ ids stack _ hs; exact hs.elim
  | atom a =>
    intro Γ ids stack ht hs hΓ hst u hu
    refine (atom_uses ht (fun x hx => hst.name (hΓ x (hs.vars x hx)) _) (fun c hc => hst.resolve (hs.consts c hc)) u hu).mono ?_ ?_ ?_
    · simp [Query.atoms]
    · simp [Query.atoms]
    · simp [Query.atoms]
  | and q1 q2 ih1 ih2 =>
    intro Γ ids stack ht hs hΓ hst u hu
    simp only [Query.uses, List.mem_append] at hu
    rcases hu with hu | hu
    · exact (ih1 ht.1 hs.1 hΓ hst u hu).mono (by simp only [Query.atoms, List.flatMap_append, List.mem_append]; exact fun p h => .inl h)
        (by simp only [Query.atoms, List.any_append, Bool.or_eq_true]; exact .inl)
        (by simp only [Query.atoms, List.any_append, Bool.or_eq_true]; exact .inl)
    · exact (ih2 ht.2 hs.2 hΓ hst u hu).mono (by simp only [Query.atoms, List.flatMap_append, List.mem_append]; exact fun p h => .inr h)
        (by simp only [Query.atoms, List.any_append, Bool.or_eq_true]; exact .inr)
        (by simp only [Query.atoms, List.any_append, Bool.or_eq_true]; exact .inr)
  | or q1 q2 ih1 ih2 =>
    intro Γ ids stack ht hs hΓ hst u hu
    simp only [Query.uses, List.mem_append] at hu
    rcases hu with hu | hu
    · exact (ih1 ht.1 hs.1 hΓ hst u hu).mono (by simp only [Query.atoms, List.flatMap_append, List.mem_append]; exact fun p h => .inl h)
        (by simp only [Query.atoms, List.any_append, Bool.or_eq_true]; exact .inl)
        (by simp only [Query.atoms, List.any_append, Bool.or_eq_true]; exact .inl)
    · exact (ih2 ht.2 hs.2 hΓ hst u hu).mono (by simp only [Query.atoms, List.flatMap_append, List.mem_append]; exact fun p h => .inr h)
        (by simp only [Query.atoms, List.any_append, Bool.or_eq_true]; exact .inr)
        (by simp only [Query.atoms, List.any_append, Bool.or_eq_true]; exact .inr)
  | not q ih => intro Γ ids stack ht hs hΓ hst u hu; exact ih ht hs hΓ hst u hu
  | withVar x q ih =>
    intro Γ ids stack ht hs hΓ hst u hu
    exact ih ht.2 hs.2 (by
      intro y hy
      rcases List.mem_cons.mp hy with rfl | hy
      · exact ht.1
      · exact hΓ y hy) hst u hu
  | forallG c q ih =>
    intro Γ ids stack ht hs hΓ hst u hu
    obtain ⟨g, hg, hu⟩ := List.mem_flatMap.mp hu
    exact ih ht.2 hs hΓ (hst.append ht.1 hg) u hu

theorem query_names {q : Query} : ∀ {stack}, q.Tidy t → StackOk d stack → ∀ n ∈ q.names d T stack, recSep ∉ n := by
  induction q with
  | nil => intro stack _ _ n hn; simp [Query.names] at hn
  | atom a => intro stack _ _ n hn; simp [Query.names] at hn
  | and q1 q2 ih1 ih2 =>
    intro stack ht hst n hn
    rcases List.mem_append.mp hn with h | h
    · exact ih1 ht.1 hst n h
    · exact ih2 ht.2 hst n h
  | or q1 q2 ih1 ih2 =>
    intro stack ht hst n hn
    rcases List.mem_append.mp hn with h | h
    · exact ih1 ht.1 hst n h
    · exact ih2 ht.2 hst n h
  | not q ih => intro stack ht hst n hn; exact ih ht hst n hn
  | withVar x q ih =>
    intro stack ht hst n hn
    rcases List.mem_cons.mp hn with rfl | h
    · exact (ht.1.append (suffix_no_RS fun g hg => (hst g hg).1)).1
    · exact ih ht.2 hst n h
  | forallG c q ih =>
    intro stack ht hst n hn
    obtain ⟨g, hg, hn⟩ := List.mem_flatMap.mp hn
    exact ih ht.2 (hst.append ht.1 hg) n hn

theorem resolve_of_not_mem {stack : List Scope} {c : QConst} (h : c.id ∉ stack.map Scope.target) : resolve stack c = c.val := by
  unfold Goexpdt.resolve
  split
  · rename_i g hg
    have h1 := List.find?_some hg
    have h2 := List.mem_of_find?_eq_some hg
    exact absurd (List.mem_map.mpr ⟨g, h2, by simpa using h1⟩) h
  · rfl

theorem tidy_gens {a : Atom} (h : a.Tidy t) : Spec.Atom.nilGen a = false := by
  cases a with
  | lel t1 t2 g => cases t1 <;> cases t2 <;> simp_all [Atom.Tidy, Spec.Atom.nilGen, Spec.Term.isVar]
  | isnode t1 g => cases t1 <;> simp_all [Atom.Tidy, Spec.Atom.nilGen, Spec.Term.isVar]
  | allcomp t1 b g => cases t1 <;> simp_all [Atom.Tidy, Spec.Atom.nilGen, Spec.Term.isVar]
  | hepr t1 t2 p g => cases t1 <;> cases t2 <;> simp_all [Atom.Tidy, Spec.Atom.nilGen, Spec.Term.isVar]
  | leh t1 t2 t3 g e => cases t1 <;> cases t2 <;> cases t3 <;> simp_all [Atom.Tidy, Spec.Atom.nilGen, Spec.Term.isVar]
  | _ => rfl

theorem query_fits {q : Query} (hT : IsTree d nodes T) (hC : Covers nodes T) : ∀ {Γ ids stack}, q.Tidy t →
    q.Scoped d depth Γ ids → StackOk d stack → stack.map Scope.target = ids → q.Fits d nodes T depth Γ stack := by
  induction q with
  | nil => intro Γ ids stack _ hs; exact hs.elim
  | atom a =>
    intro Γ ids stack ht hs hst hids
    refine ⟨hs.vars, fun c hc => hst.resolve (hs.consts c hc), tidy_gens ht, hs.pref, hs.prefne, ?_, fun _ => ⟨hT, hC⟩⟩
    have h1 := hs.regular
    have h2 := hs.uncaptured
    cases a with
    | leh t1 t2 t3 g e =>
      cases t1 <;> cases t2 <;> cases t3 <;> try trivial
      simp only [Atom.Uncaptured, ← hids] at h2
      simp only [Atom.Regular]
      rw [resolve_of_not_mem h2.1, resolve_of_not_mem h2.2]
      exact h1
    | _ => trivial
  | and q1 q2 ih1 ih2 => intro Γ ids stack ht hs hst hids; exact ⟨ih1 ht.1 hs.1 hst hids, ih2 ht.2 hs.2 hst hids⟩
  | or q1 q2 ih1 ih2 => intro Γ ids stack ht hs hst hids; exact ⟨ih1 ht.1 hs.1 hst hids, ih2 ht.2 hs.2 hst hids⟩
  | not q ih => intro Γ ids stack ht hs hst hids; exact ih ht hs hst hids
  | withVar x q ih =>
    intro Γ ids stack ht hs hst hids
    refine ⟨?_, ih ht.2 hs.2 hst hids⟩
    rw [hs.1, ← hids, List.length_map]
  | forallG c q ih =>
    intro Γ ids stack ht hs hst hids
    refine ⟨hT, hC, fun g hg => ih ht.2 hs (hst.append ht.1 hg) ?_⟩
    obtain ⟨i, p, -, rfl⟩ := mem_scopesOf.mp hg
    simp [hids, scopeAt]

theorem query_good {q : Query} (hd : 0 < d) (hT : IsTree d nodes T) (hC : Covers nodes T) (hok : t.Ok) (ht : q.Tidy t)
    (hsep : q.Separate t) (hs : q.Scoped d depth [] []) : q.Good d nodes T depth where
  dim := hd
  fits := query_fits hT hC ht hs (fun _ h => by simp at h) rfl
  clean := by
    intro u hu
    have h1 := query_uses (T := T) (stack := []) ht hs (by simp) (fun _ h => by simp at h) u hu
    refine ⟨fun hn => query_names ht (fun _ h => by simp at h) u.1 hn h1.no_tag, ?_⟩
    intro u' hu' e σ i v
    have h2 := query_uses (T := T) (stack := []) ht hs (by simp) (fun _ h => by simp at h) u' hu'
    exact TUse.mean hok hsep.prefs hsep.reach h1 h2 e σ i v

end Goexpdt

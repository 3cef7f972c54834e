import Verif.Props.Reuse
import Verif.Props.Ground
import Verif.Lemmas.Reuse
/-
Property C68: evaluating queries on a context that has been used before.
-/
namespace Goexpdt.Props
open Goexpdt Spec

variable {S : Type} {sv : Solver S} {d : Nat} {nodes : List Node} {T : DTree} {q : Query} {names : List QVar} {s : Ctx}

/-! ### the CNF -/

/-- C68: a query is also encoded without error in a context in which some of its names, or all of them, have been declared before. The CNF
still allows every assignment that makes the query true. It can only allow too much, if a name from before does not stand for an instance.
Afterwards the context can be used again. -/
theorem C68_permits (hg : q.Sound d nodes T) (hw : q.Within d T names) (hs : Reused d nodes names s) :
    ∃ c s', q.encode s = (.ok c, s') ∧ WF c ∧ Reused d nodes names s' ∧
      Permits d (q.flat d T).names (fun σ => (q.flat d T).sem d T σ) s s' c := by
  obtain ⟨c, s', e, w, -, r, -, -, p⟩ := sound_query_reused hg hw hs
  exact ⟨c, s', e, w, r, p⟩

/-- C68: what is missing when a query is encoded twice are the consistency clauses of the first CNF. With them, the second CNF says what
the query says. -/
theorem C68_missing (hg : q.Sound d nodes T) (hs : Ready d nodes (q.flat d T).names s) :
    ∃ c1 s1 c2 s2, q.encode s = (.ok c1, s1) ∧ q.encode s1 = (.ok c2, s2) ∧
      ((∃ β, ConTrue β c1 ∧ Models β c2) ↔ Satisfiable c1) ∧ ((∃ β, ConTrue β c1 ∧ Models β c2) ↔ ∃ σ, (q.flat d T).sem d T σ) ∧
      (Satisfiable c1 → Satisfiable c2) := by
  obtain ⟨c1, s1, c2, s2, e1, e2, -, -, h1, h2⟩ := sound_query_twice hg hs
  obtain ⟨c, s', e, -, f⟩ := (C65_dynamic hg).2 s hs
  obtain ⟨rfl, rfl⟩ : c1 = c ∧ s1 = s' := by
    rw [e1] at e
    exact ⟨Except.ok.inj (Prod.mk.inj e).1, (Prod.mk.inj e).2⟩
  have h3 : (∃ β, ConTrue β c1 ∧ Models β c2) ↔ ∃ σ, (q.flat d T).sem d T σ :=
    ⟨fun ⟨β, a, b⟩ => (h1 β a b).imp fun _ h => h.1, fun ⟨σ, a⟩ => (h2 σ a).imp fun _ h => ⟨h.1, h.2.1⟩⟩
  exact ⟨c1, s1, c2, s2, e1, e2, h3.trans f.sat.symm, h3, fun h => by
    obtain ⟨β, -, hm⟩ := h3.2 (f.sat.1 h)
    exact ⟨β, hm⟩⟩

theorem contra_good : contra.Good 1 [] T (fun _ => 0) :=
  ⟨by omega, ⟨rfl, subs_fits (by simp [GoodVals, ValidVals]) (.inr ⟨rfl, rfl⟩), subs_fits (by simp [GoodVals, ValidVals]) (.inr ⟨rfl, rfl⟩)⟩,
    .of_eq (by simp [contra, Query.uses, Atom.uses])⟩

theorem contra_plain : contra.Plain := ⟨⟨trivial, trivial⟩, by decide, by decide, ⟨trivial, trivial⟩⟩

/-- Concrete case: the second CNF of `contra` is satisfiable, but not together with the consistency clauses of the first. -/
example : ∃ c1 s1 c2 s2, contra.encode (BasicQContext 1 []) = (.ok c1, s1) ∧ contra.encode s1 = (.ok c2, s2) ∧
    Satisfiable c2 ∧ ¬ ∃ β, ConTrue β c1 ∧ Models β c2 := by
  obtain ⟨c1, s1, c2, s2, e1, e2, -, h, -⟩ := C68_missing (T := .leaf 0 true) (C66_generalises contra_good contra_plain).1 (Ready.fresh_ctx _ _ _)
  obtain ⟨rfl, rfl⟩ : c1 = _ ∧ s1 = _ := by
    rw [contra_first] at e1
    exact ⟨(Except.ok.inj (Prod.mk.inj e1).1).symm, (Prod.mk.inj e1).2.symm⟩
  obtain ⟨rfl, rfl⟩ : c2 = _ ∧ s2 = _ := by
    rw [contra_again] at e2
    exact ⟨(Except.ok.inj (Prod.mk.inj e2).1).symm, (Prod.mk.inj e2).2.symm⟩
  refine ⟨_, _, _, _, e1, e2, ⟨fun _ => true, ?_, ?_⟩, ?_⟩
  · simp [SemTrue, clausesTrue, clauseTrue, litTrue]
  · simp [ConTrue, clausesTrue, clauseTrue, litTrue]
  · obtain ⟨h1, h2⟩ := C66_generalises (T := .leaf 0 true) contra_good contra_plain
    rw [h, exists_ground_iff_fo h1.fits h2]
    exact contra_false

/-! ### evaluations -/

theorem Sound.comp_eq (hg : q.Sound d nodes T) : q.comp = some q.encode := by
  refine Query.comp_eq ?_
  rintro rfl
  exact hg.fits

/-- C68: on a context that has been used before, `Sat` returns no error, and the answer that comes from an unsatisfiable formula is right: this is
"false", or "true" for a negated query. Of the other answer this cannot be said (`C51_same_query_twice`). -/
theorem C68_atom (hc : Correct sv) (hr : Reliable sv) (hg : q.Sound d nodes T) (hq : q.WellScoped) (hw : q.Within d T names)
    (negated : Bool) : Leans d nodes names negated (atomSat sv q.comp negated) (q.fo d T (fun _ => bot) (fun _ => none) ↔ negated = false) := by
  intro st s hs
  obtain ⟨c, s', e, w, r, p⟩ := C68_permits hg hw hs
  have hfo := exists_ground_iff_fo hg.fits hq
  have h := hc q.encode st s s' c e w r.vm
  have hrel := hr q.encode st s s' c e w r.vm
  rw [Sound.comp_eq hg]
  unfold atomSat
  rcases hst : sv.step (some q.encode) st s with ⟨(_ | _) | ⟨⟩, st1, s1⟩ <;> rw [hst] at h hrel
  · refine ⟨negated, st1, s1, rfl, fun _ => ?_, by rw [h.1]; exact r⟩
    have hn : ¬ q.fo d T (fun _ => bot) (fun _ => none) := by
      intro x
      obtain ⟨σ, hσ⟩ := hfo.2 x
      obtain ⟨β, hβ, -⟩ := p.encode σ hσ
      exact h.2 ⟨β, hβ⟩
    cases negated <;> simp [hn]
  · exact absurd rfl (hrel _)
  · exact ⟨!negated, st1, s1, rfl, fun h => by cases negated <;> simp at h, by rw [h.1]; exact r⟩

/-- C68 for conjunctions and … -/
theorem C68_and (b : Bool) (es : List (Elem S)) (h : ∀ e ∈ es, Leans d nodes names b e.sat e.holds) :
    Leans d nodes names b (Elem.and es).sat (Elem.and es).holds := by
  induction es with
  | nil => intro st s hs; exact ⟨true, st, s, rfl, by rintro rfl; simp [Elem.and], hs⟩
  | cons e es ih =>
    have ih := ih fun x hx => h x (by simp [hx])
    intro st s hs
    obtain ⟨a, st1, s1, e1, h1, hs1⟩ := h e (by simp) st s hs
    simp only [Elem.and, List.map_cons, andSat, e1, List.forall_mem_cons]
    cases a with
    | false => exact ⟨false, st1, s1, rfl, by rintro rfl; simp at h1; simp [h1], hs1⟩
    | true =>
      obtain ⟨a2, st2, s2, e2, h2, hs2⟩ := ih st1 s1 hs1
      refine ⟨a2, st2, s2, e2, ?_, hs2⟩
      rintro rfl
      simp only [Elem.and, forall_const] at h2
      cases a2 with
      | true => simp at h1 h2; simp [h1]; exact h2
      | false => simp at h2 ⊢; exact fun _ => h2

/-- … disjunctions, which can be nested: if all queries in them are negated then the answer "true" is right, if none of them is then the
answer "false" is right. -/
theorem C68_or (b : Bool) (es : List (Elem S)) (h : ∀ e ∈ es, Leans d nodes names b e.sat e.holds) :
    Leans d nodes names b (Elem.or es).sat (Elem.or es).holds := by
  induction es with
  | nil => intro st s hs; exact ⟨false, st, s, rfl, by rintro rfl; simp [Elem.or], hs⟩
  | cons e es ih =>
    have ih := ih fun x hx => h x (by simp [hx])
    intro st s hs
    obtain ⟨a, st1, s1, e1, h1, hs1⟩ := h e (by simp) st s hs
    simp only [Elem.or, List.map_cons, orSat, e1, List.mem_cons, exists_eq_or_imp]
    cases a with
    | true => exact ⟨true, st1, s1, rfl, by rintro rfl; simp at h1; simp [h1], hs1⟩
    | false =>
      obtain ⟨a2, st2, s2, e2, h2, hs2⟩ := ih st1 s1 hs1
      refine ⟨a2, st2, s2, e2, ?_, hs2⟩
      rintro rfl
      simp only [Elem.or, forall_const] at h2
      cases a2 with
      | false => simp at h1 h2; simp [h1]; exact h2
      | true => simp at h2 ⊢; exact .inr h2

/-- Concrete case: two conjuncts over the same variable `x`, and one over `z`, in any context in which the names have been declared, or not.
If the answer is "false", then one of them is false; as both are true, the answer is "true". -/
example (hc : Correct sv) (hr : Reliable sv) (st : S) (hs : Reused 2 exNodes ((shadowQuery.flat 2 exTree).names ++ [['z']]) s) : ∃ st' s',
    andSat [some (atomSat sv shadowQuery.comp false), some (atomSat sv fullQuery.comp false), some (atomSat sv shadowQuery.comp false)] st s =
      (.ok true, st', s') := by
  have h1 := C68_atom (names := (shadowQuery.flat 2 exTree).names ++ [['z']]) hc hr shadowQuery_sound shadowQuery_scoped
    ⟨fun n hn => List.mem_append_left _ hn, by decide +kernel⟩ false
  obtain ⟨g1, g2⟩ := C66_generalises fullQuery_good fullQuery_plain
  have h2 := C68_atom (names := (shadowQuery.flat 2 exTree).names ++ [['z']]) hc hr g1 g2 ⟨by decide +kernel, by decide +kernel⟩ false
  have h := C68_and false [⟨atomSat sv shadowQuery.comp false, [], [], _⟩, ⟨atomSat sv fullQuery.comp false, [], [], _⟩,
    ⟨atomSat sv shadowQuery.comp false, [], [], _⟩] (by
      simp only [List.mem_cons, List.not_mem_nil, or_false, forall_eq_or_imp, forall_eq]
      exact ⟨h1, h2, h1⟩)
  obtain ⟨a, st', s', e, ha, -⟩ := h st s hs
  refine ⟨st', s', ?_⟩
  cases a with
  | true => exact e
  | false =>
    exfalso
    have hf : Full 2 (fun _ => some true) := fun i _ => by simp
    have t1 : shadowQuery.fo 2 exTree (fun _ => bot) (fun _ => none) :=
      ⟨fun _ => some true, ⟨fun _ _ => ⟨bot, fun h => h 0 (by omega) rfl⟩, fun _ _ => ⟨fun _ => some true, hf⟩⟩, hf⟩
    have t2 : fullQuery.fo 2 exTree (fun _ => bot) (fun _ => none) := ⟨fun _ => some true, hf⟩
    simp [Elem.and, t1, t2] at ha

/-- C68 for `ComputeOptim`: also on a context that has been used before, `Found = false` is only returned if no instance satisfies the formula,
provided the temporary file can be created. Nothing is required of the order. -/
theorem C68_optim {v : QVar} {f : Query} {og : QVar → QConst → Comp} {fuel : Nat} {st st' : S} {s' : Ctx} {o : OptOutput}
    (hc : Correct sv) (hg : (Query.withVar v f).Sound d nodes T) (hq : (Query.withVar v f).WellScoped)
    (hs : Reused d nodes ((Query.withVar v f).flat d T).names s)
    (he : computeOptim sv (fun _ => f.comp) og v true fuel st s = (.ok o, st', s')) (hf : o.found = false) :
    ∀ e, ¬ f.about d T v e := by
  obtain ⟨c, s1, e, w, r, p⟩ := C68_permits hg ⟨fun _ => id, fun u hu => (hg.clean u hu).1⟩ hs
  have h := hc (Query.withVar v f).encode st s s1 c e w r.vm
  unfold computeOptim at he
  simp only [Bool.not_true, Bool.false_eq_true, if_false] at he
  rw [show encWithVar v f.comp = (Query.withVar v f).encode from rfl] at he
  rcases hst : sv.step (some (Query.withVar v f).encode) st s with ⟨(_ | _) | ⟨⟩, st1, s1⟩ <;> rw [hst] at h he
  · intro x hx
    obtain ⟨σ, hσ⟩ := (exists_ground_iff_fo hg.fits hq).2 ⟨x, hx⟩
    obtain ⟨β, hβ, -⟩ := p.encode σ hσ
    exact h.2 ⟨β, hβ⟩
  · simp at he
  · rw [optimLoop_found he] at hf; simp at hf

/-- Concrete case: there is a full instance, so `ComputeOptim` does not say that there is none, however often its context has been used. -/
example {og : QVar → QConst → Comp} {fuel : Nat} {st st' : S} {s' : Ctx} {o : OptOutput} (hc : Correct sv) (hs : Reused 2 exNodes [['z']] s)
    (he : computeOptim sv (fun _ => (Query.atom (.full (.var ['z']))).comp) og ['z'] true fuel st s = (.ok o, st', s')) : o.found = true := by
  obtain ⟨g1, g2⟩ := C66_generalises fullQuery_good fullQuery_plain
  cases hf : o.found with
  | true => rfl
  | false => exact absurd (fun i _ => by simp [Term.val, upd]) (C68_optim hc g1 g2 hs he hf fun _ => some true)

end Goexpdt.Props

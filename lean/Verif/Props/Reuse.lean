import Verif.Props.Compute
/-
Property C51: evaluating queries one after the other on the same context.
-/
namespace Goexpdt.Props
open Goexpdt Spec

variable {S : Type} {sv : Solver S} {d : Nat} {nodes : List Node} {T : DTree} {depth : QVar → Nat} {q : Query}

/-! ### the claim is false -/

/-- "The only feature of `x` has the value zero, and it has the value one": the query is false. -/
def contra : Query :=
  .withVar ['x'] (.and (.atom (.subs (.const ⟨[], [ZERO]⟩) (.var ['x']))) (.atom (.subs (.const ⟨[], [ONE]⟩) (.var ['x']))))

/-- The context after the evaluation of `contra` on a new context. -/
def contraCtx : Ctx := (contra.encode (BasicQContext 1 [])).2

theorem contra_first : contra.encode (BasicQContext 1 []) =
    (.ok ⟨3, [[1], [2]], [[1, 2, 3], [-1, -2], [-1, -3], [-2, -3]]⟩, contraCtx) := by decide +kernel

theorem contra_again : contra.encode contraCtx = (.ok ⟨2, [[1], [2]], []⟩, contraCtx) := by decide +kernel

theorem contra_comp : contra.comp = some contra.encode := rfl

theorem contra_wf {s s' : Ctx} {c : CNF} (hs : VMok s) (e : contra.encode s = (.ok c, s')) : WF c ∧ VMok s' := by
  have h1 := contra.tame.res s c hs (by rw [e])
  have h2 := contra.tame.vm s hs
  rw [e] at h2
  exact ⟨h1.1, h2.1⟩

theorem contra_false : ¬ contra.fo 1 T (fun _ => bot) (fun _ => none) := by
  rintro ⟨e, h1, h2⟩
  have a := h1 0 (by omega) (by simp [Term.val, den, featDen, ZERO, BOT])
  have b := h2 0 (by omega) (by simp [Term.val, den, featDen, ONE, ZERO, BOT])
  rw [← a] at b
  simp [Term.val, den, featDen, ZERO, ONE, BOT] at b

theorem contra_step1 (hc : Correct sv) (hr : Reliable sv) (st : S) :
    ∃ st1, sv.step contra.comp st (BasicQContext 1 []) = (.error .unsat, st1, contraCtx) := by
  have hvm := (Ready.fresh_ctx 1 [] []).vm
  obtain ⟨hw, hv⟩ := contra_wf hvm contra_first
  have h := hc contra.encode st _ _ _ contra_first hw hv
  have hrel := hr contra.encode st _ _ _ contra_first hw hv
  rw [contra_comp]
  rcases hq : sv.step (some contra.encode) st (BasicQContext 1 []) with ⟨(_ | _) | ⟨⟩, st1, s1⟩ <;> rw [hq] at h hrel
  · exact ⟨st1, by rw [h.1]⟩
  · exact absurd rfl (hrel _)
  · obtain ⟨-, β, ⟨h1, h2⟩, -⟩ := h
    exfalso
    simp [SemTrue, ConTrue, clausesTrue, clauseTrue, litTrue] at h1 h2
    simp [h1] at h2

theorem contra_step2 (hc : Correct sv) (hr : Reliable sv) (st : S) :
    ∃ st1, sv.step contra.comp st contraCtx = (.ok (), st1, contraCtx) := by
  have hvm := (contra_wf (Ready.fresh_ctx 1 [] []).vm contra_first).2
  obtain ⟨hw, hv⟩ := contra_wf hvm contra_again
  have h := hc contra.encode st _ _ _ contra_again hw hv
  have hrel := hr contra.encode st _ _ _ contra_again hw hv
  rw [contra_comp]
  rcases hq : sv.step (some contra.encode) st contraCtx with ⟨(_ | _) | ⟨⟩, st1, s1⟩ <;> rw [hq] at h hrel
  · exfalso
    refine h.2 ⟨fun _ => true, ?_, ?_⟩ <;> simp [SemTrue, ConTrue, clausesTrue, clauseTrue, litTrue]
  · exact absurd rfl (hrel _)
  · exact ⟨st1, by rw [h.1]⟩

/-- C51 fails: with every correct and reliable solver, a query that is false is found false when it is
evaluated on a new context, and true when it is evaluated again on the same context. The reason is that
`WithVar` leaves out the clauses that make `x` an instance if `x` is already in the context. -/
theorem C51_same_query_twice (hc : Correct sv) (hr : Reliable sv) (st : S) :
    ¬ contra.fo 1 T (fun _ => bot) (fun _ => none) ∧
    ∃ st1 s1 st2 s2, atomSat sv contra.comp false st (BasicQContext 1 []) = (.ok false, st1, s1) ∧
      atomSat sv contra.comp false st1 s1 = (.ok true, st2, s2) := by
  obtain ⟨st1, e1⟩ := contra_step1 hc hr st
  obtain ⟨st2, e2⟩ := contra_step2 hc hr st1
  refine ⟨contra_false, st1, contraCtx, st2, contraCtx, ?_, ?_⟩
  · unfold atomSat; rw [e1]
  · unfold atomSat; rw [e2]; rfl

/-- C51 fails: the disjunction of a false query with itself is found true. -/
theorem C51_or_refuted (hc : Correct sv) (hr : Reliable sv) (st : S) :
    ∃ st1 s1, orSat [some (atomSat sv contra.comp false), some (atomSat sv contra.comp false)] st (BasicQContext 1 []) =
      (.ok true, st1, s1) := by
  obtain ⟨-, st1, s1, st2, s2, e1, e2⟩ := C51_same_query_twice (T := .leaf 0 true) hc hr st
  exact ⟨st2, s2, by simp [orSat, e1, e2]⟩

theorem optimLoop_found {fg : QVar → Comp} {og : QVar → QConst → Comp} {v : QVar} {fuel n : Nat} {st st' : S} {s s' : Ctx}
    {o : OptOutput} (h : optimLoop sv fg og v fuel n st s = (.ok o, st', s')) : o.found = true := by
  induction fuel generalizing n st s with
  | zero => simp [optimLoop] at h
  | succ fuel ih =>
    unfold optimLoop at h
    simp only at h
    rcases hv : sv.values [v] st s with ⟨_ | (_ | ⟨b, bs⟩), st1, s1⟩ <;> rw [hv] at h <;> simp only [Prod.mk.injEq, reduceCtorEq, false_and] at h
    rcases hq : sv.step (some (encWithVar v (some (encAnd (fg v) (og v b))))) st1 s1.reset with ⟨(_ | _) | ⟨⟩, st2, s2⟩ <;>
      rw [hq] at h <;> simp only [Prod.mk.injEq, reduceCtorEq, false_and, Except.ok.injEq] at h
    · rw [← h.1]
    · exact ih h

/-- C51 fails: the first call of `ComputeOptim` reports that there is no instance, rightly. A second call
with the same arguments never does, whatever the order. -/
theorem C51_optim_refuted (hc : Correct sv) (hr : Reliable sv) (st : S) (og : QVar → QConst → Comp) (fuel fuel' : Nat) :
    let f : QVar → Comp := fun x => (Query.and (.atom (.subs (.const ⟨[], [ZERO]⟩) (.var x)))
      (.atom (.subs (.const ⟨[], [ONE]⟩) (.var x)))).comp
    ∃ st1 s1, computeOptim sv f og ['x'] true fuel st (BasicQContext 1 []) = (.ok ⟨false, {}, 1⟩, st1, s1) ∧
      ∀ o st2 s2, computeOptim sv f og ['x'] true fuel' st1 s1 = (.ok o, st2, s2) → o.found = true := by
  intro f
  obtain ⟨st1, e1⟩ := contra_step1 hc hr st
  obtain ⟨st2, e2⟩ := contra_step2 hc hr st1
  have hf : contra.comp = some (encWithVar ['x'] (f ['x'])) := rfl
  rw [hf] at e1 e2
  refine ⟨st1, contraCtx, ?_, ?_⟩
  · unfold computeOptim; simp [e1]
  · intro o st3 s3 h
    unfold computeOptim at h
    simp only [Bool.not_true, Bool.false_eq_true, if_false, e2] at h
    exact optimLoop_found h

/-- Concrete case: the solver that tries all valuations. -/
example : ∃ st1 s1 st2 s2, atomSat bruteSolver contra.comp false {} (BasicQContext 1 []) = (.ok false, st1, s1) ∧
    atomSat bruteSolver contra.comp false st1 s1 = (.ok true, st2, s2) :=
  (C51_same_query_twice (T := .leaf 0 true) bruteSolver_correct bruteSolver_reliable {}).2

/-! ### what does hold -/

/-- C51 with a Reset between the evaluations: after any evaluation of a query, and then `Reset`, every
query is evaluated correctly. Missing from the claim: the evaluation without a Reset, which is wrong in
general (see above). -/
theorem C51_reset_partial (hc : Correct sv) (hr : Reliable sv) (hg : q.Good d nodes T depth) {s : Ctx}
    (hs : Ready d nodes (q.names d T []) s) (negated : Bool) (st : S)
    {T' : DTree} {depth' : QVar → Nat} {q' : Query} (hg' : q'.Good d nodes T' depth') (hp' : q'.Plain) (negated' : Bool) :
    ∃ b st1 s1 b' st2 s2, atomSat sv q.comp negated st s = (.ok b, st1, s1) ∧
      atomSat sv q'.comp negated' st1 s1.reset = (.ok b', st2, s2) ∧
      (b' = true ↔ (q'.fo d T' (fun _ => bot) (fun _ => none) ↔ negated' = false)) := by
  obtain ⟨b, st1, s1, e1, hr1, -⟩ := C42_atom hc hr hg hs negated st
  obtain ⟨b', st2, s2, e2, h2⟩ := C42_first_order hc hr hg' hp' (hr1.reset (q'.names d T' [])) negated' st1
  exact ⟨b, st1, s1, b', st2, s2, e1, e2, h2⟩

/-- Concrete case: the same query twice. -/
example (negated negated' : Bool) : ∃ b st1 s1 b' st2 s2,
    atomSat bruteSolver nodeQuery.comp negated {} (BasicQContext 2 exNodes) = (.ok b, st1, s1) ∧
      atomSat bruteSolver nodeQuery.comp negated' st1 s1.reset = (.ok b', st2, s2) ∧
      (b' = true ↔ (nodeQuery.fo 2 exTree (fun _ => bot) (fun _ => none) ↔ negated' = false)) :=
  C51_reset_partial bruteSolver_correct bruteSolver_reliable nodeQuery_good (Ready.fresh_ctx _ _ _) negated {}
    nodeQuery_good nodeQuery_plain negated'

/-- An evaluated query computes its truth value and declares only its own names. -/
theorem C51_atom_partial (hc : Correct sv) (hr : Reliable sv) (hg : q.Good d nodes T depth) (hp : q.Plain)
    (negated : Bool) : (Elem.query sv d T depth q negated).Right d nodes := by
  intro others ho st s hs
  obtain ⟨c, s', e, hw, -, -, -, hrd, hnd, hf⟩ := good_query_apart hg (others := others) (by
    intro u hu hn
    exact ho _ hn (List.mem_append_right _ (List.mem_map.2 ⟨u, hu, rfl⟩))) hs
  have hr' : Ready d nodes others s' := { hrd with
    fresh := fun n hn => hnd n hn fun h => ho n hn (List.mem_append_left _ h) }
  simp only [Elem.query]
  rw [Query.comp_eq hg.ne_nil]
  have h := hc q.encode st s s' c e hw hrd.vm
  have hrel := hr q.encode st s s' c e hw hrd.vm
  have hfo := exists_sem_iff_fo hg.fits hp
  unfold atomSat
  rcases hq : sv.step (some q.encode) st s with ⟨(_ | _) | ⟨⟩, st1, s1⟩ <;> rw [hq] at h hrel
  · refine ⟨negated, st1, s1, rfl, ?_, by rw [h.1]; exact hr'⟩
    have hn : ¬ q.fo d T (fun _ => bot) (fun _ => none) := fun x => h.2 (hf.sat.2 (hfo.2 x))
    cases negated <;> simp [hn]
  · exact absurd rfl (hrel _)
  · refine ⟨!negated, st1, s1, rfl, ?_, by rw [h.1]; exact hr'⟩
    obtain ⟨-, β, hm, -⟩ := h
    have hn := hfo.1 (hf.sat.1 ⟨β, hm⟩)
    cases negated <;> simp [hn]

/-- C51 for combinations whose elements have different variables: the conjunction, … -/
theorem C51_and_partial (es : List (Elem S)) (h : ∀ e ∈ es, e.Right d nodes) (ha : Apart es) :
    (Elem.and es).Right d nodes := by
  induction es with
  | nil =>
    intro others _ st s hs
    exact ⟨true, st, s, rfl, by simp [Elem.and], by simpa [Elem.and] using hs⟩
  | cons e es ih =>
    have ih := ih (fun x hx => h x (by simp [hx])) (List.pairwise_cons.1 ha).2
    intro others ho st s hs
    simp only [Elem.and, List.flatMap_cons, List.append_assoc, List.mem_append, not_or] at hs ho
    obtain ⟨b, st1, s1, e1, hb, hr1⟩ := h e (by simp) (es.flatMap Elem.need ++ others) (by
      intro n hn
      rcases List.mem_append.1 hn with hn | hn
      · obtain ⟨e', he', hn⟩ := List.mem_flatMap.1 hn
        exact (List.pairwise_cons.1 ha).1 e' he' n hn
      · exact (ho n hn).1) st s hs
    simp only [Elem.and, List.map_cons, andSat, e1, List.forall_mem_cons]
    cases b with
    | false => exact ⟨false, st1, s1, rfl, by simp at hb; simp [hb],
        { hr1 with fresh := fun n hn => hr1.fresh n (by simp [hn]) }⟩
    | true =>
      obtain ⟨b2, st2, s2, e2, hb2, hr2⟩ := ih others (fun n hn => (ho n hn).2) st1 s1 hr1
      exact ⟨b2, st2, s2, e2, by simp at hb; simp [hb, hb2, Elem.and], hr2⟩

/-- … and the disjunction. The combinations can be nested. Missing from the claim: elements that share a
variable, for which it is false (see above). -/
theorem C51_or_partial (es : List (Elem S)) (h : ∀ e ∈ es, e.Right d nodes) (ha : Apart es) :
    (Elem.or es).Right d nodes := by
  induction es with
  | nil =>
    intro others _ st s hs
    exact ⟨false, st, s, rfl, by simp [Elem.or], by simpa [Elem.or] using hs⟩
  | cons e es ih =>
    have ih := ih (fun x hx => h x (by simp [hx])) (List.pairwise_cons.1 ha).2
    intro others ho st s hs
    simp only [Elem.or, List.flatMap_cons, List.append_assoc, List.mem_append, not_or] at hs ho
    obtain ⟨b, st1, s1, e1, hb, hr1⟩ := h e (by simp) (es.flatMap Elem.need ++ others) (by
      intro n hn
      rcases List.mem_append.1 hn with hn | hn
      · obtain ⟨e', he', hn⟩ := List.mem_flatMap.1 hn
        exact (List.pairwise_cons.1 ha).1 e' he' n hn
      · exact (ho n hn).1) st s hs
    simp only [Elem.or, List.map_cons, orSat, e1, List.mem_cons, exists_eq_or_imp]
    cases b with
    | true => exact ⟨true, st1, s1, rfl, by simp at hb; simp [hb],
        { hr1 with fresh := fun n hn => hr1.fresh n (by simp [hn]) }⟩
    | false =>
      obtain ⟨b2, st2, s2, e2, hb2, hr2⟩ := ih others (fun n hn => (ho n hn).2) st1 s1 hr1
      exact ⟨b2, st2, s2, e2, by simp at hb; simp [hb, hb2, Elem.or], hr2⟩

/-- "There is a full instance." -/
def fullQuery : Query := .withVar ['z'] (.atom (.full (.var ['z'])))

theorem fullQuery_good : fullQuery.Good 2 exNodes exTree (fun _ => 0) :=
  ⟨by omega, ⟨rfl, by simp [Atom.vars, Term.vars], by simp [Spec.Atom.consts, Spec.Term.consts], rfl, trivial, trivial,
    trivial, by simp [Atom.onModel]⟩, .of_eq (by simp [fullQuery, Query.uses, Atom.uses])⟩

theorem fullQuery_plain : fullQuery.Plain := ⟨trivial, by decide, by decide, trivial⟩

/-- Concrete case: a nested combination of two queries over different variables, evaluated on one
context. -/
example (hc : Correct sv) (hr : Reliable sv) (st : S) : ∃ b st' s',
    orSat [some (atomSat sv nodeQuery.comp true), some (andSat [some (atomSat sv fullQuery.comp false)])] st
      (BasicQContext 2 exNodes) = (.ok b, st', s') ∧
    (b = true ↔ ¬ nodeQuery.fo 2 exTree (fun _ => bot) (fun _ => none) ∨
      fullQuery.fo 2 exTree (fun _ => bot) (fun _ => none)) := by
  let e1 := Elem.query sv 2 exTree nodeDepth nodeQuery true
  let e2 := Elem.query sv 2 exTree (fun _ => 0) fullQuery false
  have h1 : e1.Right 2 exNodes := C51_atom_partial hc hr nodeQuery_good nodeQuery_plain true
  have h2 : e2.Right 2 exNodes := C51_atom_partial hc hr fullQuery_good fullQuery_plain false
  have h3 : (Elem.and [e2]).Right 2 exNodes := C51_and_partial [e2] (by simpa using h2) (by simp [Apart])
  have h := C51_or_partial (d := 2) (nodes := exNodes) [e1, Elem.and [e2]] (by simp [h1, h3]) (by
    have : ∀ n ∈ fullQuery.names 2 exTree [] ++ [], n ∉ nodeQuery.touches 2 exTree nodeDepth := by decide +kernel
    simpa [Apart, Elem.and, e1, e2, Elem.query] using this)
  obtain ⟨b, st', s', e, hb, -⟩ := h [] (by simp) st (BasicQContext 2 exNodes) (Ready.fresh_ctx _ _ _)
  refine ⟨b, st', s', e, hb.trans ?_⟩
  simp [e1, e2, Elem.and, Elem.or, Elem.query]

end Goexpdt.Props

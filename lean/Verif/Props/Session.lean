import Verif.Props.Again
import Verif.Props.Scoped
import Verif.Lemmas.Session
/-
Property C76: programs that make several calls on one context.
-/
namespace Goexpdt.Props
open Goexpdt Spec Session

variable {S : Type} {sv : Solver S} {d : Nat} {nodes : List Node} {T : DTree} {q : Query} {v : QVar} {f : Query} {ord : QConst → Query}

/-- C76 for the evaluation of one query, … -/
theorem C76_query (hc : Correct sv) (hg : q.Sound d nodes T) (hq : q.WellScoped) (negated : Bool) :
    (Elem.scoped sv d T q negated).Safe d nodes sv := by
  intro st s hs
  have hfo := exists_ground_iff_fo hg.fits hq
  simp only [Elem.scoped, Sound.comp_eq hg, atomSat]
  rcases sound_step hc hg hs st with ⟨r, st', s', e, hr, hm, ⟨rfl, h⟩ | ⟨rfl, h⟩⟩ | ⟨⟨err, st', s', e⟩, hn⟩
  · refine .inl ⟨!negated, st', s', by rw [e], ?_, hr, hm⟩
    have := hfo.1 h
    cases negated <;> simp [this]
  · refine .inl ⟨negated, st', s', by rw [e], ?_, hr, hm⟩
    have : ¬ q.fo d T (fun _ => bot) (fun _ => none) := fun x => h (hfo.2 x)
    cases negated <;> simp [this]
  · exact .inr ⟨⟨err, by rw [e]⟩, hn⟩

theorem ready_rest {e : Elem S} {es : List (Elem S)} {s s1 : Ctx} (ha : Apart (e :: es)) (hs : Ready d nodes ((e :: es).flatMap Elem.need) s)
    (h1 : Ready d nodes [] s1) (h2 : ∀ n, Declared s1 n → Declared s n ∨ n ∈ e.touch) : Ready d nodes (es.flatMap Elem.need) s1 := by
  refine { h1 with fresh := fun n hn hd => ?_ }
  rcases h2 n hd with h | h
  · exact hs.fresh n (by simp only [List.flatMap_cons, List.mem_append]; exact .inr hn) h
  · obtain ⟨e', he', hn⟩ := List.mem_flatMap.1 hn
    exact (List.pairwise_cons.1 ha).1 e' he' n hn h

/-- … the conjunction … -/
theorem C76_and (es : List (Elem S)) (h : ∀ e ∈ es, e.Safe d nodes sv) (ha : Apart es) : (Elem.and es).Safe d nodes sv := by
  induction es with
  | nil =>
    intro st s hs
    exact .inl ⟨true, st, s, rfl, by simp [Elem.and], { hs with fresh := by simp }, fun n hn => .inl hn⟩
  | cons e es ih =>
    intro st s hs
    have ih := ih (fun x hx => h x (by simp [hx])) (List.pairwise_cons.1 ha).2
    rcases h e (by simp) st s { hs with fresh := fun n hn => hs.fresh n (by simp [Elem.and, hn]) } with
      ⟨b, st1, s1, e1, hb, hr1, hm1⟩ | ⟨⟨err, e1⟩, hn⟩
    · cases b with
      | false =>
        refine .inl ⟨false, st1, s1, by simp [Elem.and, andSat, e1], ?_, hr1, fun n hn => ?_⟩
        · simp at hb; simp [Elem.and, hb]
        · rcases hm1 n hn with h | h
          · exact .inl h
          · exact .inr (by simp [Elem.and, h])
      | true =>
        have hk : (Elem.and (e :: es)).sat st s = (Elem.and es).sat st1 s1 := by simp [Elem.and, andSat, e1]
        rw [hk]
        rcases ih st1 s1 (ready_rest ha hs hr1 hm1) with ⟨b2, st2, s2, e2, hb2, hr2, hm2⟩ | h
        · refine .inl ⟨b2, st2, s2, e2, ?_, hr2, fun n hn => ?_⟩
          · simp at hb; simp [Elem.and] at hb2 ⊢; simp [hb2, hb]
          · rcases hm2 n hn with h | h
            · rcases hm1 n h with h | h
              · exact .inl h
              · exact .inr (by simp [Elem.and, h])
            · exact .inr (by simp only [Elem.and, List.flatMap_cons, List.mem_append] at h ⊢; exact .inr h)
        · exact .inr h
    · refine .inr ⟨⟨err, ?_⟩, hn⟩
      rcases he : e.sat st s with ⟨r, st1, s1⟩
      rw [he] at e1
      obtain rfl : r = .error err := e1
      simp [Elem.and, andSat, he]

/-- … and the disjunction of elements that need no names of earlier ones, … -/
theorem C76_or (es : List (Elem S)) (h : ∀ e ∈ es, e.Safe d nodes sv) (ha : Apart es) : (Elem.or es).Safe d nodes sv := by
  induction es with
  | nil =>
    intro st s hs
    exact .inl ⟨false, st, s, rfl, by simp [Elem.or], { hs with fresh := by simp }, fun n hn => .inl hn⟩
  | cons e es ih =>
    intro st s hs
    have ih := ih (fun x hx => h x (by simp [hx])) (List.pairwise_cons.1 ha).2
    rcases h e (by simp) st s { hs with fresh := fun n hn => hs.fresh n (by simp [Elem.or, hn]) } with
      ⟨b, st1, s1, e1, hb, hr1, hm1⟩ | ⟨⟨err, e1⟩, hn⟩
    · cases b with
      | true =>
        refine .inl ⟨true, st1, s1, by simp [Elem.or, orSat, e1], ?_, hr1, fun n hn => ?_⟩
        · simp at hb; simp [Elem.or, hb]
        · rcases hm1 n hn with h | h
          · exact .inl h
          · exact .inr (by simp [Elem.or, h])
      | false =>
        have hk : (Elem.or (e :: es)).sat st s = (Elem.or es).sat st1 s1 := by simp [Elem.or, orSat, e1]
        rw [hk]
        rcases ih st1 s1 (ready_rest ha hs hr1 hm1) with ⟨b2, st2, s2, e2, hb2, hr2, hm2⟩ | h
        · refine .inl ⟨b2, st2, s2, e2, ?_, hr2, fun n hn => ?_⟩
          · simp at hb; simp [Elem.or] at hb2 ⊢; simp [hb2, hb]
          · rcases hm2 n hn with h | h
            · rcases hm1 n h with h | h
              · exact .inl h
              · exact .inr (by simp [Elem.or, h])
            · exact .inr (by simp only [Elem.or, List.flatMap_cons, List.mem_append] at h ⊢; exact .inr h)
        · exact .inr h
    · refine .inr ⟨⟨err, ?_⟩, hn⟩
      rcases he : e.sat st s with ⟨r, st1, s1⟩
      rw [he] at e1
      obtain rfl : r = .error err := e1
      simp [Elem.or, orSat, he]

/-- … as calls of a program, … -/
theorem C76_sat {e : Elem S} (h : e.Safe d nodes sv) : (Call.sat e).Safe d nodes sv := by
  intro st s hs
  rcases h st s hs with ⟨b, st', s', e1, hb, hr, hm⟩ | ⟨⟨err, e1⟩, hn⟩
  · exact .inl ⟨.sat b, st', s', by simp [Call.sat, e1], ⟨b, rfl, hb⟩, hr, hm⟩
  · refine .inr ⟨⟨err, ?_⟩, hn⟩
    rcases he : e.sat st s with ⟨r, st1, s1⟩
    rw [he] at e1
    obtain rfl : r = .error err := e1
    simp [Call.sat, he]

/-- … the search for an instance by `Step` and `Values`, … -/
theorem C76_find (hc : Correct sv) (hg : (Query.withVar v f).Sound d nodes T) (hq : (Query.withVar v f).WellScoped) :
    (Call.find sv d T v f).Safe d nodes sv := by
  intro st s hs
  have hcomp : (Query.withVar v f).comp = some (Query.withVar v f).encode := rfl
  have hcomp' : (Query.withVar v f).encode = encWithVar v f.comp := rfl
  simp only [Call.find, hcomp]
  rcases sound_step hc hg hs st with ⟨x, st1, s1, e1, hr1, hm1, -⟩ | ⟨⟨err, st1, s1, e1⟩, hn⟩
  · rcases asks_step (st := st) hc (hg.asks hq) hs with ⟨st2, s2, b, e2, hH, hb⟩ | ⟨st2, s2, e2, hu⟩ | ⟨err, st2, s2, e2, hn⟩
    · rw [← hcomp', e1] at e2
      simp only [Prod.mk.injEq] at e2
      obtain ⟨rfl, rfl, rfl⟩ := e2
      obtain ⟨hgv, hr2, st3, e3, -⟩ := hH
      refine .inl ⟨.found (some { val := b }), st3, s1, ?_, .inr ⟨_, rfl, hgv, hb⟩, hr1, hm1⟩
      rw [e1]
      simp only [e3, List.head?_cons]
    · rw [← hcomp', e1] at e2
      simp only [Prod.mk.injEq] at e2
      obtain ⟨rfl, rfl, rfl⟩ := e2
      exact .inl ⟨.found none, st1, s1, by rw [e1], .inl ⟨rfl, hu⟩, hr1, hm1⟩
    · rw [← hcomp', e1] at e2
      simp only [Prod.mk.injEq] at e2
      obtain ⟨rfl, rfl, rfl⟩ := e2
      exact .inr ⟨⟨err, by rw [e1]⟩, hn⟩
  · exact .inr ⟨⟨err, by rw [e1]⟩, hn⟩

/-- … and `ComputeOptim` with a strict order. -/
theorem C76_optim (hc : Correct sv) (h : Explores d nodes T v f ord)
    (hR : StrictOn (f.about d T v) (fun e p => (ord { val := valsOf d p }).about d T v e) d) {fuel : Nat} (hfuel : 3 ^ d ≤ fuel) :
    (Call.optim sv d T v f ord fuel).Safe d nodes sv := by
  intro st s hs
  rcases he : computeOptim sv (fun _ => f.comp) (fun _ k => (ord k).comp) v true fuel st s with ⟨err | r, st', s'⟩
  · refine .inr ⟨⟨err, by simp [Call.optim, he]⟩, fun hr => ?_⟩
    obtain ⟨o, st1, s1, e1, -⟩ := C48_strict (st := st) hc hr h.poses hs hR hfuel
    rw [he] at e1
    simp at e1
  · refine .inl ⟨.optim r, st', s', by simp [Call.optim, he], ?_⟩
    have hcomp : (Query.withVar v f).encode = encWithVar v f.comp := rfl
    have hfo := about_iff h.sound h.wellScoped
    have hun := he
    unfold computeOptim at hun
    simp only [Bool.not_true, Bool.false_eq_true, if_false, ← hcomp] at hun
    rcases sound_step hc h.sound hs st with ⟨x, st1, s1, e1, hr1, hm1, ⟨rfl, h1⟩ | ⟨rfl, h1⟩⟩ | ⟨⟨err, st1, s1, e1⟩, -⟩
    · rw [e1] at hun
      simp only at hun
      have hfound := optimLoop_found hun
      obtain ⟨g1, g2, g3, g4⟩ := C46_scoped hc h hs he hfound
      obtain ⟨σ, hσ⟩ := h1
      refine ⟨⟨r, rfl, ⟨fun _ => ⟨_, (hfo (σ v)).2 ⟨σ, hσ, same_refl _⟩⟩, fun _ => hfound⟩, fun _ => ⟨⟨g1, g2⟩, g3, g4⟩⟩, ?_⟩
      rcases asks_step (st := st) hc (h.sound.asks h.wellScoped) hs with ⟨st2, s2, b, e2, hH, -⟩ | ⟨st2, s2, e2, -⟩ | ⟨err, st2, s2, e2, -⟩ <;>
        rw [← hcomp, e1] at e2 <;> simp only [Prod.mk.injEq, reduceCtorEq, false_and] at e2
      obtain ⟨-, rfl, rfl⟩ := e2
      obtain ⟨hr2, hm2⟩ := optimLoop_marks hc h fuel _ _ _ _ hH _ _ _ hun
      exact ⟨hr2, fun n hn => .inr (.inr (hm2 n hn))⟩
    · rw [e1] at hun
      simp only [Prod.mk.injEq, Except.ok.injEq] at hun
      obtain ⟨rfl, rfl, rfl⟩ := hun
      refine ⟨⟨_, rfl, ⟨fun h => by simp at h, fun ⟨x, hx⟩ => ?_⟩, fun h => by simp at h⟩, hr1, fun n hn => (hm1 n hn).imp_right .inl⟩
      obtain ⟨σ, hσ, -⟩ := (hfo x).1 hx
      exact absurd ⟨σ, hσ⟩ h1
    · rw [e1] at hun
      simp at hun

/-- C76: a program that makes any number of calls on one context and one solver, in any order and with a `Reset` wherever it likes, gets only
right answers, up to the first error, if no call needs a name that has been declared since the last `Reset`. With a solver that does not fail there is
no error, so all calls are answered. -/
theorem C76_session (ps : List (Move S)) (st : S) (s : Ctx) (hs : Ready d nodes [] s) (h : ∀ c ∈ calls ps, c.Safe d nodes sv)
    (hd : Distinct (Declared s) ps) :
    (∀ r ∈ (answers ps st s).1, r.1.right r.2) ∧ (answers ps st s).1.map Prod.fst <+: calls ps ∧
    (Reliable sv → (answers ps st s).2 = none ∧ (answers ps st s).1.map Prod.fst = calls ps) := by
  suffices H : ∀ (old : QVar → Prop), (∀ n, Declared s n → old n) → Distinct old ps →
      (∀ r ∈ (answers ps st s).1, r.1.right r.2) ∧ (answers ps st s).1.map Prod.fst <+: calls ps ∧
      (Reliable sv → (answers ps st s).2 = none ∧ (answers ps st s).1.map Prod.fst = calls ps) from H _ (fun _ => id) hd
  clear hd
  induction ps generalizing st s with
  | nil => intro old _ _; simp [answers, calls]
  | cons p ps ih =>
    intro old ho hd
    cases p with
    | reset => exact ih st s.reset (hs.reset []) h _ (fun n hn => absurd hn not_declared_reset) hd
    | call c =>
      have hs' : Ready d nodes c.need s := { hs with fresh := fun n hn hx => hd.1 n hn (ho n hx) }
      rcases h c (by simp [calls]) st s hs' with ⟨a, st', s', e, ha, hr, hm⟩ | ⟨⟨err, e⟩, hn⟩
      · obtain ⟨h1, h2, h3⟩ := ih st' s' hr (fun c' hc' => h c' (by simp [calls, hc'])) _ (fun n hn => (hm n hn).imp_left (ho n)) hd.2
        simp only [answers, e, calls, List.map_cons, List.mem_cons]
        refine ⟨?_, List.prefix_cons_inj _ |>.2 h2, fun hrel => ⟨(h3 hrel).1, by rw [(h3 hrel).2]⟩⟩
        rintro r (rfl | hr)
        · exact ha
        · exact h1 r hr
      · rcases he : c.act st s with ⟨r, st1, s1⟩
        rw [he] at e
        obtain rfl : r = .error err := e
        simp only [answers, he]
        exact ⟨by simp, by simp, fun hrel => absurd hrel hn⟩

/-! ### a concrete program -/

theorem marks_strictSubs (b : List FeatV) :
    (Query.withVar v (.and f (strictSubs v { val := b }))).marks d T = (Query.withVar v f).marks d T := by
  have h0 : Levels.declare (fun _ => 0) 0 v = fun _ => 0 := by funext x; simp [Levels.declare]
  simp [Query.marks, Query.flat, Query.ground, h0, suffix, strictSubs, Ground.names, Ground.uses, Atom.uses]

theorem strictOn_subs {F : PInst → Prop} : StrictOn F (fun e p => (strictSubs v { val := valsOf d p }).about d T v e) d := by
  refine ⟨fun b hb _ h => ?_, fun a b c ha hb hc _ _ _ h1 h2 => ?_⟩
  · rw [about_strictSubs, valsOf_den hb] at h
    exact h.2 h.1
  · rw [about_strictSubs] at h1 h2 ⊢
    rw [valsOf_den hb] at h1
    rw [valsOf_den hc] at h2 ⊢
    refine ⟨fun i hi hn => (h1.1 i hi hn).trans (h2.1 i hi ?_), fun h => h2.2 fun i hi hn => ?_⟩
    · rw [← h1.1 i hi hn]; exact hn
    · have := h i hi hn
      rw [this] at hn ⊢
      exact h1.1 i hi hn

/-- The formula below the first declaration of `shadowQuery`. -/
def shadowFormula : Query :=
  .and (.and (.forallG { id := ['c'] } (.withVar ['x'] (.not (.atom (.full (.var ['x']))))))
    (.forallG { id := ['e'] } (.withVar ['x'] (.atom (.full (.var ['x'])))))) (.atom (.full (.var ['x'])))

/-- A program: find a minimal instance, evaluate a combination of queries with another variable, reset the context, evaluate a query
with the first variable, and find an instance with the other. -/
def program (sv : Solver S) : List (Move S) :=
  [.call (.optim sv 2 exTree ['x'] shadowFormula (strictSubs ['x']) 9),
   .call (.sat (Elem.or [Elem.scoped sv 2 exTree fullQuery true, Elem.and []])),
   .reset,
   .call (.sat (Elem.scoped sv 2 exTree shadowQuery false)),
   .call (.find sv 2 exTree ['z'] (.atom (.full (.var ['z']))))]

/-- Concrete case of C76: all calls are answered, the instances found are full, and the queries are true. -/
example (hc : Correct sv) (hr : Reliable sv) (st : S) : ∃ r k, (answers (program sv) st (BasicQContext 2 exNodes)).1.map Prod.snd =
    [.optim r, .sat true, .sat true, .found (some k)] ∧ r.found = true ∧ Full 2 (den r.value.val) ∧ Full 2 (den k.val) := by
  have hf := C66_generalises fullQuery_good fullQuery_plain
  obtain ⟨h1, -, h2⟩ := C76_session (sv := sv) (program sv) st (BasicQContext 2 exNodes) (Ready.fresh_ctx 2 exNodes []) (by
    intro c hc'
    simp only [program, calls, List.mem_cons, List.not_mem_nil, or_false] at hc'
    rcases hc' with rfl | rfl | rfl | rfl
    · exact C76_optim hc (explores_subs shadowQuery_sound shadowQuery_scoped) strictOn_subs (by decide)
    · refine C76_sat (C76_or _ ?_ (by simp [Apart, Elem.and]))
      simp only [List.forall_mem_cons]
      exact ⟨C76_query hc hf.1 hf.2 true, C76_and [] (by simp) (by simp [Apart]), by simp⟩
    · exact C76_sat (C76_query hc shadowQuery_sound shadowQuery_scoped false)
    · exact C76_find hc hf.1 hf.2) (by
    have hn : ∀ n, ¬ Declared (BasicQContext 2 exNodes) n := by rintro n ⟨k, hk⟩; simp [BasicQContext] at hk
    refine ⟨fun n _ => hn n, fun n h => ?_, fun _ _ => id, fun n h => ?_, trivial⟩
    rotate_left
    · obtain rfl : n = ['z'] := by simpa [Call.find, Query.flat, Query.ground, Ground.names, suffix] using h
      rintro (h | h)
      · exact h
      · change ['z'] ∈ shadowQuery.marks 2 exTree at h
        revert h; decide +kernel
    obtain rfl : n = ['z'] := by simpa [Call.sat, Elem.or, Elem.and, Elem.scoped, fullQuery, Query.flat, Query.ground, Ground.names, suffix] using h
    rintro (h | h | ⟨b, -, h⟩)
    · exact hn _ h
    · revert h; decide +kernel
    · rw [marks_strictSubs] at h
      revert h; decide +kernel)
  obtain ⟨-, h2⟩ := h2 hr
  revert h1 h2
  rcases (answers (program sv) st (BasicQContext 2 exNodes)).1 with _ | ⟨⟨c1, a1⟩, _ | ⟨⟨c2, a2⟩, _ | ⟨⟨c3, a3⟩, _ | ⟨⟨c4, a4⟩, _ | _⟩⟩⟩⟩ <;> intro h1 h2 <;>
    simp only [program, calls, List.map_cons, List.map_nil, List.cons.injEq, reduceCtorEq, and_false, and_true] at h2
  obtain ⟨rfl, rfl, rfl, rfl⟩ := h2
  simp only [List.forall_mem_cons] at h1
  obtain ⟨⟨r, rfl, hr1, hr2⟩, ⟨b2, rfl, hb2⟩, ⟨b3, rfl, hb3⟩, ha4, -⟩ := h1
  have hfull : Full 2 (fun _ => some true) := fun i _ => by simp
  have hfound := hr1.2 ⟨fun _ => some true, ⟨fun _ _ => ⟨bot, fun h => h 0 (by omega) rfl⟩, fun _ _ => ⟨fun _ => some true, hfull⟩⟩, hfull⟩
  have e2 : b2 = true := hb2.2 ⟨Elem.and [], by simp, by simp [Elem.and]⟩
  have e3 : b3 = true := hb3.2 ⟨fun _ => rfl, fun _ =>
    ⟨fun _ => some true, ⟨fun _ _ => ⟨bot, fun h => h 0 (by omega) rfl⟩, fun _ _ => ⟨fun _ => some true, hfull⟩⟩, hfull⟩⟩
  rcases ha4 with ⟨rfl, ha4⟩ | ⟨k, rfl, -, hk⟩
  · exact absurd hfull (ha4 fun _ => some true)
  · exact ⟨r, k, by simp [e2, e3], hfound, (hr2 hfound).2.1.2, hk⟩

end Goexpdt.Props

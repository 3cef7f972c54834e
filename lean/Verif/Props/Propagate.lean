import Verif.Spec.Propagate
import Verif.Lemmas.Propagate
import Verif.Lemmas.Once
import Verif.Props.Sole
/-
Property C95: checking an instance needs no search.

A SAT solver alternates between decisions and unit propagation. Once the instances of the query variables are fixed, unit propagation alone
tells whether they are an answer.
-/
namespace Goexpdt.Props
open Goexpdt Spec

variable {d : Nat} {nodes : List Node} {T : DTree} {q : Query}

/-- C95, negation: from the truth values of the variables of a CNF, unit propagation with the consistency clauses of its negation finds those
of the variables `Negate` adds. -/
theorem C95_negate {c : CNF} (hw : WF c) (o : Option Int) {cls : List Clause} (h : ∀ cl ∈ (c.negate o).cClauses, cl ∈ cls)
    (hd : ∀ cl ∈ c.sClauses ++ c.cClauses, ∀ l ∈ cl, Forced cls l ∨ Forced cls (-l)) :
    ∀ cl ∈ (c.negate o).sClauses ++ (c.negate o).cClauses, ∀ l ∈ cl, Forced cls l ∨ Forced cls (-l) := by
  have := Force.negate (L := Force.found cls) o hw.tv_nonneg hw.sNonZero (Force.LS_found h)
    (fun cl hcl l hl => by rw [Force.TL_found, Force.FL_found]; exact hd cl hcl l hl)
  intro cl hcl l hl
  have := this cl hcl l hl
  rwa [Force.TL_found, Force.FL_found] at this

/-- Concrete case: the negation of "(1 or 2) and 3", where 1 is true and 2 and 3 are false. The variables 4 and 5 stand for what
is not true. -/
example : ∀ l ∈ [4, 5], Forced ((({ sClauses := [[1, 2], [3]], tv := 3 } : CNF).negate none).cClauses ++ [[1], [-2], [-3]]) l ∨
    Forced ((({ sClauses := [[1, 2], [3]], tv := 3 } : CNF).negate none).cClauses ++ [[1], [-2], [-3]]) (-l) := by
  have hu : ∀ l ∈ [1, -2, -3], Forced ((({ sClauses := [[1, 2], [3]], tv := 3 } : CNF).negate none).cClauses ++ [[1], [-2], [-3]]) l :=
    fun l hl => .unit [l] l (List.mem_append_right _ (by simpa using hl)) (by simp) fun k hk hne => absurd (by simpa using hk) hne
  have := C95_negate (c := { sClauses := [[1, 2], [3]], tv := 3 }) ⟨by decide, by decide, by decide, by decide, by decide⟩ none
    (cls := (({ sClauses := [[1, 2], [3]], tv := 3 } : CNF).negate none).cClauses ++ [[1], [-2], [-3]])
    (fun cl h => List.mem_append_left _ h) (by
    intro cl hcl l hl
    simp only [List.append_nil, List.mem_cons, List.not_mem_nil, or_false] at hcl
    rcases hcl with rfl | rfl <;> simp only [List.mem_cons, List.not_mem_nil, or_false] at hl
    · rcases hl with rfl | rfl
      · exact .inl (hu 1 (by simp))
      · exact .inr (hu (-2) (by simp))
    · subst hl; exact .inr (hu (-3) (by simp)))
  intro l hl
  simp only [List.mem_cons, List.not_mem_nil, or_false] at hl
  rcases hl with rfl | rfl
  · exact this [4, -3, -5] (by decide) 4 (by decide)
  · exact this [-4, 5] (by decide) 5 (by decide)

/-- C95, all truth values are found: from the features of the instances, unit propagation with the consistency clauses finds the truth value
of every variable of the CNF, if all features that are compared are defined. -/
theorem C95_finds (hg : q.Encodable d nodes T) {s : Ctx} (hr : Ready d nodes (q.flat d T).names s) {c : CNF} {s' : Ctx}
    (e : q.encode s = (.ok c, s')) {σ : Asg} (hk : ∀ u ∈ (q.flat d T).emits d, u.2.clear d σ) :
    ∀ cl ∈ c.sClauses ++ c.cClauses, ∀ l ∈ cl, Forced (c.cClauses ++ given d (q.flat d T).names s' σ) l ∨
      Forced (c.cClauses ++ given d (q.flat d T).names s' σ) (-l) := by
  have hv := (Sole.encodable_clear hg hr e).1
  intro cl hcl l hl
  have := Sole.encodable_dec (L := Force.found (c.cClauses ++ given d (q.flat d T).names s' σ)) hg hr e hk
    (Force.LS_found fun cl h => List.mem_append_left _ h)
    (fun n hn => Force.rd_given hv (fun cl h => List.mem_append_right _ h) hn) cl hcl l hl
  rwa [Force.TL_found, Force.FL_found] at this

/-- The clauses of the CNF and the literals that fix the instances. -/
def fixedTo (c : CNF) (d : Nat) (names : List QVar) (s : Ctx) (σ : Asg) : List Clause := c.sClauses ++ c.cClauses ++ given d names s σ

/-- C95, the answer is found: unit propagation with all clauses ends in a conflict exactly if the instances are not an answer. If they are, it
finds exactly the literals that are true in the model of the answer. -/
theorem C95_decides (hg : q.Encodable d nodes T) {s : Ctx} (hr : Ready d nodes (q.flat d T).names s) {c : CNF} {s' : Ctx}
    (e : q.encode s = (.ok c, s')) {σ : Asg} (hk : ∀ u ∈ (q.flat d T).emits d, u.2.clear d σ) :
    (Refuted (fixedTo c d (q.flat d T).names s' σ) ↔ ¬ q.Answer d nodes T σ) ∧
    (q.Answer d nodes T σ → ∃ β, Models β c ∧ (∀ n ∈ (q.flat d T).names, Reads d s' β n (σ n)) ∧
      ∀ cl ∈ c.sClauses ++ c.cClauses, ∀ l ∈ cl, (Forced (fixedTo c d (q.flat d T).names s' σ) l ↔ litTrue β l) ∧
        (Forced (fixedTo c d (q.flat d T).names s' σ) (-l) ↔ ¬ litTrue β l)) := by
  obtain ⟨c0, s0, e0, w, -, h⟩ := encodable_query hg hr
  obtain ⟨rfl, rfl⟩ := ok_inj e0 e
  have hset := Sole.encodable_sets hg hr e
  have hv := (Sole.encodable_clear hg hr e).1
  have hfind := C95_finds hg hr e hk
  generalize hcls : fixedTo c d (q.flat d T).names s' σ = cls
  have hsub : ∀ cl ∈ c.cClauses ++ given d (q.flat d T).names s' σ, cl ∈ cls := by
    intro cl hcl
    rw [← hcls]
    simp only [fixedTo, List.mem_append] at hcl ⊢
    exact hcl.elim (fun h => .inl (.inr h)) .inr
  have hgiv : ∀ n ∈ (q.flat d T).names, ∀ i < d, ∀ v ∈ featVals,
      Forced cls (if valOf (σ n i) = v then num s' ⟨n, (i : Nat), v⟩ else -num s' ⟨n, (i : Nat), v⟩) := fun n hn i hi v hvv =>
    .unit _ _ (hsub _ (List.mem_append_right _ (Force.mem_given.2 ⟨n, hn, i, hi, v, hvv, rfl⟩))) (by simp)
      fun k hk hne => absurd (by simpa using hk) hne
  -- the numbers of the features are not 0
  have hpos : (∃ β, ConTrue β c) → ∀ n ∈ (q.flat d T).names, ∀ i < d, ∀ v ∈ featVals, 0 < num s' ⟨n, (i : Nat), v⟩ := by
    rintro ⟨β, hβ⟩ n hn i hi v hvv
    obtain ⟨cl, hcl, l, hl, hln⟩ := Sole.reads_occur (n := n) (fun β hβ => by
      obtain ⟨σ, hσ⟩ := h.reads β hβ
      exact ⟨σ n, hσ n hn⟩) hβ hi hvv
    have hl0 := w.cNonZero cl hcl l hl
    cases e : mapGet s'.vmap ⟨n, (i : Nat), v⟩ with
    | none =>
      rw [show num s' ⟨n, (i : Nat), v⟩ = 0 by simp [num, e]] at hln
      omega
    | some k => rw [num_eq e]; have := hv.range _ _ e; omega
  have hmodel : q.Answer d nodes T σ → ∃ β, Models β c ∧ (∀ n ∈ (q.flat d T).names, Reads d s' β n (σ n)) ∧ NonZero cls ∧ clausesTrue β cls := by
    rintro ⟨hP, hC⟩
    obtain ⟨β, hc, hσ⟩ := h.con σ hC
    have hs := (h.sem β σ hc hσ).2 hP
    have hp := hpos ⟨β, hc⟩
    refine ⟨β, ⟨hs, hc⟩, hσ, ?_, ?_⟩
    · rw [← hcls]
      intro cl hcl l hl
      simp only [fixedTo, List.mem_append] at hcl
      rcases hcl with (hcl | hcl) | hcl
      · exact w.sNonZero cl hcl l hl
      · exact w.cNonZero cl hcl l hl
      · obtain ⟨n, hn, i, hi, v, hvv, rfl⟩ := Force.mem_given.1 hcl
        have := hp n hn i hi v hvv
        simp only [List.mem_singleton] at hl
        split at hl <;> omega
    · rw [← hcls]
      unfold fixedTo
      rw [clausesTrue_append, clausesTrue_append]
      refine ⟨⟨hs, hc⟩, fun cl hcl => ?_⟩
      obtain ⟨n, hn, i, hi, v, hvv, rfl⟩ := Force.mem_given.1 hcl
      have hp := hp n hn i hi v hvv
      refine ⟨_, List.mem_singleton_self _, ?_⟩
      have hrd : β (num s' ⟨n, (i : Nat), v⟩).natAbs = decide (valOf (σ n i) = v) := hσ n hn i hi v hvv
      split
      · next hh => unfold litTrue; rw [if_pos hp, hrd]; simpa using hh
      · next hh =>
        unfold litTrue
        rw [if_neg (by omega), Int.natAbs_neg, hrd]
        simpa using hh
  have hall : ¬ Refuted cls → q.Answer d nodes T σ := by
    intro hn
    have hsub' : ∀ cl ∈ c.sClauses ++ c.cClauses, cl ∈ cls := by
      intro cl hcl
      rw [← hcls]
      exact List.mem_append_left _ hcl
    obtain ⟨β, hβ, hb⟩ := Force.model_of hsub'
      (fun cl hcl => (List.mem_append.1 hcl).elim (w.sNonZero cl) (w.cNonZero cl)) hn
      (fun cl hcl l hl => (hfind cl hcl l hl).imp (Force.forced_mono hsub) (Force.forced_mono hsub))
    rw [clausesTrue_append] at hβ
    have hp := hpos ⟨β, hβ.2⟩
    have hσ : ∀ n ∈ (q.flat d T).names, Reads d s' β n (σ n) := by
      intro n hn' i hi v hvv
      have hf := hgiv n hn' i hi v hvv
      have hp := hp n hn' i hi v hvv
      have e : (((num s' ⟨n, (i : Nat), v⟩).natAbs : Nat) : Int) = num s' ⟨n, (i : Nat), v⟩ := by omega
      have hb := hb (num s' ⟨n, (i : Nat), v⟩).natAbs
      rw [e] at hb
      split at hf
      · next hh => exact (hb.2 hf).trans (decide_eq_true hh).symm
      · next hh =>
        have : ¬ β (num s' ⟨n, (i : Nat), v⟩).natAbs = true := fun h => hn (Force.refuted_of (hb.1 h) hf)
        exact (Bool.not_eq_true _ ▸ this : β (num s' ⟨n, (i : Nat), v⟩).natAbs = false).trans (decide_eq_false hh).symm
    refine ⟨(h.sem β σ hβ.2 hσ).1 hβ.1, fun u hu u' hu' hn i v hi hi' => ?_⟩
    have k1 := hset β σ hβ.2 hσ u hu (hk u hu) i v hi
    have k2 := hset β σ hβ.2 hσ u' hu' (hk u' hu') i v hi'
    rw [hn] at k2
    exact k2.symm.trans k1
  refine ⟨⟨fun href hans => ?_, fun hno => Classical.byContradiction fun hn => hno (hall hn)⟩, fun hans => ?_⟩
  · obtain ⟨β, -, -, hz, hβ⟩ := hmodel hans
    exact Force.not_refuted hz hβ href
  · obtain ⟨β, hm, hσ, hz, hβ⟩ := hmodel hans
    refine ⟨β, hm, hσ, fun cl hcl l hl => ?_⟩
    have hl0 : l ≠ 0 := (List.mem_append.1 hcl).elim (fun h => w.sNonZero cl h l hl) (fun h => w.cNonZero cl h l hl)
    have hd := (hfind cl hcl l hl).imp (Force.forced_mono hsub) (Force.forced_mono hsub)
    have h1 : Forced cls l → litTrue β l := Force.forced_true hz hβ
    have h2 : Forced cls (-l) → ¬ litTrue β l := fun h => (litTrue_neg hl0).1 (Force.forced_true hz hβ h)
    exact ⟨⟨h1, fun ht => hd.resolve_right fun h => h2 h ht⟩, ⟨h2, fun ht => hd.resolve_left fun h => ht (h1 h)⟩⟩

/-- C95, one literal per feature is enough: unit propagation finds the literals that say which values the features do not have, whatever the
instances are. So adding them changes nothing of what it finds, nor whether it ends in a conflict. -/
theorem C95_chosen (hg : q.Encodable d nodes T) {s : Ctx} (hr : Ready d nodes (q.flat d T).names s) {c : CNF} {s' : Ctx}
    (e : q.encode s = (.ok c, s')) (σ : Asg) :
    (∀ l, Forced (c.sClauses ++ c.cClauses ++ chosen d (q.flat d T).names s' σ) l ↔ Forced (fixedTo c d (q.flat d T).names s' σ) l) ∧
    (Refuted (c.sClauses ++ c.cClauses ++ chosen d (q.flat d T).names s' σ) ↔ Refuted (fixedTo c d (q.flat d T).names s' σ)) ∧
    (chosen d (q.flat d T).names s' σ).length = (q.flat d T).names.length * d := by
  obtain ⟨hv, hx⟩ := Once.encodable_excl hg hr e
  generalize hcls : c.sClauses ++ c.cClauses ++ chosen d (q.flat d T).names s' σ = cls
  have hgiv := Once.forced_given (σ := σ) (cls := cls) hv hx
    (fun cl h => hcls ▸ List.mem_append_left _ (List.mem_append_right _ h)) (fun cl h => hcls ▸ List.mem_append_right _ h)
  have hup : ∀ cl ∈ cls, cl ∈ fixedTo c d (q.flat d T).names s' σ := by
    intro cl hcl
    rw [← hcls] at hcl
    rcases List.mem_append.1 hcl with h | h
    · exact List.mem_append_left _ h
    · exact List.mem_append_right _ (Once.chosen_sub cl h)
  have hdown : ∀ cl ∈ fixedTo c d (q.flat d T).names s' σ, cl ∈ cls ++ given d (q.flat d T).names s' σ := by
    intro cl hcl
    rcases List.mem_append.1 hcl with h | h
    · exact List.mem_append_left _ (hcls ▸ List.mem_append_left _ h)
    · exact List.mem_append_right _ h
  have hf : ∀ l, Forced cls l ↔ Forced (fixedTo c d (q.flat d T).names s' σ) l := fun l =>
    ⟨Force.forced_mono hup, fun h => Once.forced_cut hgiv (Force.forced_mono hdown h)⟩
  refine ⟨hf, ⟨fun ⟨cl, hcl, h⟩ => ⟨cl, hup cl hcl, fun l hl => (hf _).1 (h l hl)⟩, fun ⟨cl, hcl, h⟩ => ?_⟩, ?_⟩
  · rcases List.mem_append.1 (hdown cl hcl) with hcl | hcl
    · exact ⟨cl, hcl, fun l hl => (hf _).2 (h l hl)⟩
    · obtain ⟨n, hn, i, hi, v, hvv, rfl⟩ := Force.mem_given.1 hcl
      exact Force.refuted_of (hgiv _ hcl _ (List.mem_singleton_self _)) ((hf _).2 (h _ (List.mem_singleton_self _)))
  · simp [chosen, List.length_flatMap, List.map_const', List.sum_replicate_nat]

/-- C95, checking an instance with one decision per feature: unit propagation ends in a conflict exactly if the instances are not an answer. -/
theorem C95_decides_chosen (hg : q.Encodable d nodes T) {s : Ctx} (hr : Ready d nodes (q.flat d T).names s) {c : CNF} {s' : Ctx}
    (e : q.encode s = (.ok c, s')) {σ : Asg} (hk : ∀ u ∈ (q.flat d T).emits d, u.2.clear d σ) :
    Refuted (c.sClauses ++ c.cClauses ++ chosen d (q.flat d T).names s' σ) ↔ ¬ q.Answer d nodes T σ :=
  (C95_chosen hg hr e σ).2.1.trans (C95_decides hg hr e hk).1

/-- C95, where the condition holds: for all instances, if no predicate `leh` of the query compares the distance of two variables. -/
theorem C95_measures (h : q.measures = false) (hg : q.Encodable d nodes T) {s : Ctx} (hr : Ready d nodes (q.flat d T).names s) :
    ∃ c s', q.encode s = (.ok c, s') ∧ ∀ σ, Refuted (fixedTo c d (q.flat d T).names s' σ) ↔ ¬ q.Answer d nodes T σ := by
  obtain ⟨c, s', e, -⟩ := encodable_query hg hr
  exact ⟨c, s', e, fun σ => (C95_decides hg hr e fun u hu => Role.settled.clear (query_measures q [] (fun _ => 0) h u hu)).1⟩

theorem ground_emits {P : QVar × Role → Prop} (h : ∀ (a : Atom) lv stack, ∀ u ∈ a.emits d lv stack, P u) (q : Query) :
    ∀ (stack : List Scope) (lv : Levels), ∀ u ∈ (q.ground d T stack lv).emits d, P u := by
  induction q with
  | nil => intro stack lv u hu; simp [Query.ground, Ground.emits] at hu
  | atom a => intro stack lv u hu; exact h a _ _ u hu
  | and q1 q2 ih1 ih2 =>
    intro stack lv u hu
    simp only [Query.ground, Ground.emits, List.mem_append] at hu
    exact hu.elim (ih1 _ _ u) (ih2 _ _ u)
  | or q1 q2 ih1 ih2 =>
    intro stack lv u hu
    simp only [Query.ground, Ground.emits, List.mem_append] at hu
    exact hu.elim (ih1 _ _ u) (ih2 _ _ u)
  | not q ih => intro stack lv u hu; exact ih _ _ u hu
  | withVar x q ih => intro stack lv u hu; exact ih _ _ u hu
  | forallG k q ih =>
    intro stack lv u hu
    simp only [Query.ground] at hu
    obtain ⟨g, hg, hu⟩ := (conj_emits _).1 hu
    obtain ⟨i, hi, rfl⟩ := List.mem_mapIdx.1 hg
    exact ih _ _ u hu

theorem atom_clear {σ : Asg} (hσ : ∀ n, Full d (σ n)) (a : Atom) (lv : Levels) (stack : List Scope) : ∀ u ∈ a.emits d lv stack,
    u.2.clear d σ := by
  intro u hu
  cases a with
  | leh t1 t2 t3 g e =>
    simp only [Atom.emits] at hu
    split at hu
    · have hd : ∀ n r, (Role.dist (.name n) r).clear d σ := by
        intro n r
        cases r with
        | name m => exact ⟨hσ n, hσ m⟩
        | vals _ => trivial
      have hs : ∀ n m, (Role.same n m).clear d σ := fun n m => ⟨hσ n, hσ m⟩
      cases t1 <;> cases t2 <;> cases t3 <;> cases g <;> (try cases e) <;> simp [Atom.uses, Term.res] at hu <;>
        (try rcases hu with hu | hu) <;> (try rcases hu with hu | hu) <;> (try rcases hu with hu | hu) <;>
        (try subst hu) <;> first | exact hd _ _ | exact hs _ _ | skip
    · simp at hu
  | subs t1 t2 => exact Role.settled.clear (atom_measures (a := .subs t1 t2) rfl hu)
  | lel t1 t2 g => exact Role.settled.clear (atom_measures (a := .lel t1 t2 g) rfl hu)
  | isnode t g => exact Role.settled.clear (atom_measures (a := .isnode t g) rfl hu)
  | full t => exact Role.settled.clear (atom_measures (a := .full t) rfl hu)
  | cons t1 t2 => exact Role.settled.clear (atom_measures (a := .cons t1 t2) rfl hu)
  | allcomp t b g => exact Role.settled.clear (atom_measures (a := .allcomp t b g) rfl hu)
  | dfs t => exact Role.settled.clear (atom_measures (a := .dfs t) rfl hu)
  | hepr t1 t2 p g => exact Role.settled.clear (atom_measures (a := .hepr t1 t2 p g) rfl hu)

/-- C95, full instances: for them unit propagation decides every query. -/
theorem C95_full (hg : q.Encodable d nodes T) {s : Ctx} (hr : Ready d nodes (q.flat d T).names s) :
    ∃ c s', q.encode s = (.ok c, s') ∧
      ∀ σ, (∀ n, Full d (σ n)) → (Refuted (fixedTo c d (q.flat d T).names s' σ) ↔ ¬ q.Answer d nodes T σ) := by
  obtain ⟨c, s', e, -⟩ := encodable_query hg hr
  exact ⟨c, s', e, fun σ hσ => (C95_decides hg hr e (ground_emits (atom_clear hσ) q [] (fun _ => 0))).1⟩

/-- C95, queries without variables: unit propagation alone tells whether there is a model. -/
theorem C95_closed (hg : q.Encodable d nodes T) {s : Ctx} (hr : Ready d nodes (q.flat d T).names s) (hn : (q.flat d T).names = []) :
    ∃ c s', q.encode s = (.ok c, s') ∧ (Refuted (c.sClauses ++ c.cClauses) ↔ ¬ ∃ β, Models β c) := by
  obtain ⟨c, s', e, w, -, h⟩ := encodable_query hg hr
  have hz : NonZero (c.sClauses ++ c.cClauses) := fun cl hcl => (List.mem_append.1 hcl).elim (w.sNonZero cl) (w.cNonZero cl)
  have hall : ∀ n, Full d ((fun _ _ => some true : Asg) n) := fun n i _ => by simp
  have hk := ground_emits (T := T) (atom_clear hall) q [] (fun _ => 0)
  have hdec := C95_decides hg hr e hk
  have hfix : fixedTo c d (q.flat d T).names s' (fun _ _ => some true) = c.sClauses ++ c.cClauses := by
    simp [fixedTo, given, hn]
  rw [hfix] at hdec
  refine ⟨c, s', e, ⟨fun hr ⟨β, hβ⟩ => Force.not_refuted hz (clausesTrue_append.2 hβ) hr, fun hno => hdec.1.2 fun ha => ?_⟩⟩
  obtain ⟨β, hβ, -⟩ := hdec.2 ha
  exact hno ⟨β, hβ⟩

theorem fullOne_encodable : fullOneQuery.Encodable 1 [] (.leaf 0 false) := by
  have hx : ['x'] ++ suffix (List.take ((Levels.declare (fun _ => 0) 0 ['x']) ['x']) []) ∈ [['x']] := by simp [suffix]
  exact ⟨by omega, by simp [fullOneQuery, Query.loops],
    ⟨⟨by simp, by simp [Spec.Atom.consts, Spec.Term.consts], rfl, trivial, trivial, by simp [Atom.onModel]⟩,
      fun y hy => by simp only [Atom.vars, Term.vars, List.mem_singleton] at hy; subst hy; exact hx⟩,
    by simp [fullOneQuery, Query.flat, Query.ground, Ground.emits, Atom.emits, Atom.uses]⟩

/-- Concrete case: full instances of one feature. Unit propagation rejects the undefined instance and no other. -/
example : ∃ c s', fullOneQuery.encode (BasicQContext 1 []) = (.ok c, s') ∧ Refuted (fixedTo c 1 [['x']] s' fun _ => bot) ∧
    ∀ b, ¬ Refuted (fixedTo c 1 [['x']] s' fun _ _ => some b) := by
  have hA : ∀ σ, fullOneQuery.Answer 1 [] (.leaf 0 false) σ ↔ Full 1 (σ ['x']) := fun σ => by
    have he : (fullOneQuery.flat 1 (.leaf 0 false)).emits 1 = [] := rfl
    unfold Query.Answer
    rw [ground_sighted _ rfl, he]
    exact ⟨fun h => h.1, fun h => ⟨h, fun u hu => by simp at hu⟩⟩
  obtain ⟨c, s', e, h⟩ := C95_measures rfl fullOne_encodable (Ready.fresh_ctx 1 [] _)
  refine ⟨c, s', e, (h _).2 fun ha => ?_, fun b hr => (h _).1 hr ((hA _).2 fun i _ => by simp)⟩
  exact (hA _).1 ha 0 (by omega) rfl

/-- Concrete case: the same with one literal, the one that says what value the feature has. -/
example : ∃ c s', fullOneQuery.encode (BasicQContext 1 []) = (.ok c, s') ∧
    Refuted (c.sClauses ++ c.cClauses ++ [[num s' ⟨['x'], 0, BOT⟩]]) ∧ ¬ Refuted (c.sClauses ++ c.cClauses ++ [[num s' ⟨['x'], 0, ONE⟩]]) := by
  have hA : ∀ σ, fullOneQuery.Answer 1 [] (.leaf 0 false) σ ↔ Full 1 (σ ['x']) := fun σ => by
    have he : (fullOneQuery.flat 1 (.leaf 0 false)).emits 1 = [] := rfl
    unfold Query.Answer
    rw [ground_sighted _ rfl, he]
    exact ⟨fun h => h.1, fun h => ⟨h, fun u hu => by simp at hu⟩⟩
  obtain ⟨c, s', e, -⟩ := encodable_query fullOne_encodable (Ready.fresh_ctx 1 [] _)
  have h := fun σ => C95_decides_chosen (σ := σ) fullOne_encodable (Ready.fresh_ctx 1 [] _) e
    fun u hu => Role.settled.clear (query_measures fullOneQuery [] (fun _ => 0) rfl u hu)
  exact ⟨c, s', e, (h fun _ => bot).2 fun ha => (hA _).1 ha 0 (by omega) rfl,
    fun hr => (h fun _ _ => some true).1 hr ((hA _).2 fun i _ => by simp)⟩

/-- Concrete case: a query without variables that is false, "the instance (1, undefined) is full". -/
example : ∃ c s', (Query.atom (.full (.const { val := [ONE, BOT] }))).encode (BasicQContext 2 []) = (.ok c, s') ∧
    Refuted (c.sClauses ++ c.cClauses) := by
  obtain ⟨c, s', e, h⟩ := C95_closed (q := .atom (.full (.const { val := [ONE, BOT] }))) (d := 2) (nodes := []) (T := .leaf 0 false)
    ⟨by omega, by simp [Query.loops], ⟨⟨by simp, by simp [Spec.Atom.consts, Spec.Term.consts, resolve, ValidVals, ONE, ZERO, BOT], rfl,
      trivial, trivial, by simp [Atom.onModel]⟩, fun y hy => by simp [Atom.vars, Term.vars] at hy⟩, by decide +kernel⟩
    (Ready.fresh_ctx 2 [] _) rfl
  refine ⟨c, s', e, h.2 ?_⟩
  obtain ⟨rfl, rfl⟩ := ok_inj e (rfl : (Query.atom (.full (.const { val := [ONE, BOT] }))).encode (BasicQContext 2 []) = (.ok _, _))
  rintro ⟨β, hβ, -⟩
  obtain ⟨l, hl, -⟩ := hβ [] (by decide +kernel)
  simp at hl

/-- Concrete case: the query `farQuery` for full instances. Those that differ are answers, and unit propagation does not reject them. -/
example : ∃ c s', farQuery.encode (BasicQContext 1 []) = (.ok c, s') ∧ ∀ σ, (∀ n, Full 1 (σ n)) →
    (Refuted (fixedTo c 1 [['x'], ['y']] s' σ) ↔ ¬ farQuery.Answer 1 [] (.leaf 0 false) σ) :=
  C95_full C94_not.1 (Ready.fresh_ctx 1 [] _)

/-- C95, where it fails: in the CNF of `farQuery`, with both instances undefined, there is a variable of which unit propagation does not find
the truth value, in no way: both literals are compatible with the clauses. -/
theorem C95_not : ∃ c s', farQuery.encode (BasicQContext 1 []) = (.ok c, s') ∧ ∃ cl ∈ c.sClauses ++ c.cClauses, ∃ l ∈ cl,
    ¬ Forced (fixedTo c 1 [['x'], ['y']] s' fun _ => bot) l ∧ ¬ Forced (fixedTo c 1 [['x'], ['y']] s' fun _ => bot) (-l) := by
  obtain ⟨c, s', e, hz, h1, h2, cl, hcl, l, hl, hl1, hl2⟩ : ∃ c s', farQuery.encode (BasicQContext 1 []) = (.ok c, s') ∧
      NonZero (fixedTo c 1 [['x'], ['y']] s' fun _ => bot) ∧
      clausesTrue (fun n => decide (n ∈ [3, 6, 8, 9, 10, 13])) (fixedTo c 1 [['x'], ['y']] s' fun _ => bot) ∧
      clausesTrue (fun n => decide (n ∈ [3, 6, 8, 11, 13])) (fixedTo c 1 [['x'], ['y']] s' fun _ => bot) ∧
      ∃ cl ∈ c.sClauses ++ c.cClauses, ∃ l ∈ cl, litTrue (fun n => decide (n ∈ [3, 6, 8, 9, 10, 13])) l ∧
        litTrue (fun n => decide (n ∈ [3, 6, 8, 11, 13])) (-l) :=
    ⟨_, _, rfl, by unfold NonZero; decide +kernel, by decide +kernel, by decide +kernel, by decide +kernel⟩
  have hl0 : l ≠ 0 := hz cl (List.mem_append_left _ hcl) l hl
  exact ⟨c, s', e, cl, hcl, l, hl, fun h => (litTrue_neg hl0).1 hl2 (Force.forced_true hz h2 h),
    fun h => (litTrue_neg hl0).1 (Force.forced_true hz h1 h) hl1⟩

end Goexpdt.Props

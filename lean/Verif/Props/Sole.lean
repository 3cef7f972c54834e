import Verif.Spec.Sole
import Verif.Lemmas.Sole
import Verif.Props.Settle
/-
Property C94: one model for every solution.

A solver that is asked for another model of a CNF, with the last one excluded, gets another solution of the query, not the same solution
with other truth values of auxiliary variables. This is what enumerating or counting solutions with the CNFs of the library relies on.
-/
namespace Goexpdt.Props
open Goexpdt Spec

variable {d : Nat} {nodes : List Node} {T : DTree} {q : Query}

/-- C94, negation: for the variables `Negate` adds, the clauses it adds leave no choice. Two valuations that satisfy the consistency clauses
of the negation and agree on the variables of the CNF agree on the variables of the negation. -/
theorem C94_negate {c : CNF} (hw : WF c) (o : Option Int) {β β' : Val} (h : ConTrue β (c.negate o)) (h' : ConTrue β' (c.negate o))
    (hs : SameOn β β' c) : SameOn β β' (c.negate o) :=
  Sole.negate_det o hw.tv_nonneg hw.sNonZero h h' hs

/-- Concrete case: the negation of "(1 or 2) and 3" with two further variables. -/
example {β β' : Val} (h : ConTrue β (({ sClauses := [[1, 2], [3]], tv := 3 } : CNF).negate none))
    (h' : ConTrue β' (({ sClauses := [[1, 2], [3]], tv := 3 } : CNF).negate none)) (h1 : β 1 = β' 1) (h2 : β 2 = β' 2) (h3 : β 3 = β' 3) :
    β 4 = β' 4 := by
  have := C94_negate (c := { sClauses := [[1, 2], [3]], tv := 3 }) ⟨by decide, by decide, by decide, by decide, by decide⟩ none h h' (by
    intro cl hcl l hl
    simp only [List.append_nil, List.mem_cons, List.not_mem_nil, or_false] at hcl
    rcases hcl with rfl | rfl <;> simp only [List.mem_cons, List.not_mem_nil, or_false] at hl
    · rcases hl with rfl | rfl <;> assumption
    · rw [hl]; exact h3)
  exact this [-1, -4] (by decide) (-4) (by decide)

/-- C94, at most one model: valuations that satisfy the consistency clauses and read the same instances agree on all variables of the CNF,
if all features that are compared are defined. -/
theorem C94_unique (hg : q.Encodable d nodes T) {s : Ctx} (hr : Ready d nodes (q.flat d T).names s) {c : CNF} {s' : Ctx}
    (e : q.encode s = (.ok c, s')) {β β' : Val} {σ : Asg} (hk : ∀ u ∈ (q.flat d T).emits d, u.2.clear d σ)
    (h : ConTrue β c) (h' : ConTrue β' c) (hσ : ∀ n ∈ (q.flat d T).names, Reads d s' β n (σ n))
    (hσ' : ∀ n ∈ (q.flat d T).names, Reads d s' β' n (σ n)) : SameOn β β' c :=
  Sole.encodable_sole hg hr e hk h h' hσ hσ'

/-- C94, the converse: valuations that satisfy the consistency clauses and agree on the variables of the CNF read the same instances. The
features of all query variables occur in the CNF. -/
theorem C94_reads (hg : q.Encodable d nodes T) {s : Ctx} (hr : Ready d nodes (q.flat d T).names s) {c : CNF} {s' : Ctx}
    (e : q.encode s = (.ok c, s')) {β β' : Val} (h : ConTrue β c) (hs : SameOn β β' c) :
    ConTrue β' c ∧ ∀ n ∈ (q.flat d T).names, ∀ e, Reads d s' β n e → Reads d s' β' n e := by
  obtain ⟨c0, s0, e0, -, -, hsh⟩ := encodable_query hg hr
  obtain ⟨rfl, rfl⟩ := ok_inj e0 e
  refine ⟨(Sole.clausesTrue_on (Sole.on_append.1 hs).2).1 h, fun n hn x hx i hi v hv => ?_⟩
  obtain ⟨cl, hcl, l, hl, hln⟩ := Sole.reads_occur (n := n) (fun β hβ => by
    obtain ⟨σ, hσ⟩ := hsh.reads β hβ
    exact ⟨σ n, hσ n hn⟩) h hi hv
  rw [← hx i hi v hv]
  unfold symVal
  rw [← hln]
  exact (hs cl (List.mem_append_right _ hcl) l hl).symm

theorem reads_same {s : Ctx} {β : Val} {n : QVar} {e e' : PInst} (h : Reads d s β n e) (h' : Reads d s β n e') : Same d e e' := by
  intro i hi
  have hm : valOf (e i) ∈ featVals := by rcases opt3 (e i) with h | h | h <;> rw [h] <;> simp [featVals, valOf]
  have h1 := h i hi _ hm
  rw [h' i hi _ hm] at h1
  simp only [decide_true, decide_eq_true_eq] at h1
  exact (valOf_inj.1 h1).symm

theorem reads_of_same {s : Ctx} {β : Val} {n : QVar} {e e' : PInst} (h : Reads d s β n e) (h' : Same d e e') : Reads d s β n e' := by
  intro i hi v hv
  rw [h i hi v hv, h' i hi]

/-- C94, one model for every solution: if instances are full wherever the query is true and their distance matters, every model of the CNF
is an answer, every answer has a model, and two models are the same on the variables of the CNF exactly if they are the same answer. -/
theorem C94_models (hg : q.Encodable d nodes T) (hf : q.FullWhere d T) {s : Ctx} (hr : Ready d nodes (q.flat d T).names s) :
    ∃ c s', q.encode s = (.ok c, s') ∧ Says d (q.flat d T).names (q.Answer d nodes T) s' c ∧
      ∀ β β' σ σ', Models β c → Models β' c → (∀ n ∈ (q.flat d T).names, Reads d s' β n (σ n)) →
        (∀ n ∈ (q.flat d T).names, Reads d s' β' n (σ' n)) → (SameOn β β' c ↔ SameInsts d (q.flat d T).names σ σ') := by
  obtain ⟨c, s', e, w, -, h⟩ := encodable_query hg hr
  have hset := Sole.encodable_sets hg hr e
  refine ⟨c, s', e, ?_, fun β β' σ σ' hm hm' hσ hσ' => ⟨fun hs n hn => ?_, fun hs => ?_⟩⟩
  · have hdec : ∀ β, Models β c → ∃ σ, q.Answer d nodes T σ ∧ ∀ n ∈ (q.flat d T).names, Reads d s' β n (σ n) := by
      rintro β ⟨hs, hc⟩
      obtain ⟨σ, hσ⟩ := h.reads β hc
      have hP := (h.sem β σ hc hσ).1 hs
      refine ⟨σ, ⟨hP, fun u hu u' hu' hn i v hi hi' => ?_⟩, hσ⟩
      have k1 := hset β σ hc hσ u hu (hf σ hP u hu) i v hi
      have k2 := hset β σ hc hσ u' hu' (hf σ hP u' hu') i v hi'
      rw [hn] at k2
      exact k2.symm.trans k1
    have henc : ∀ σ, q.Answer d nodes T σ → ∃ β, Models β c ∧ ∀ n ∈ (q.flat d T).names, Reads d s' β n (σ n) := by
      rintro σ ⟨hP, hC⟩
      obtain ⟨β, hc, hσ⟩ := h.con σ hC
      exact ⟨β, ⟨(h.sem β σ hc hσ).2 hP, hc⟩, hσ⟩
    refine ⟨⟨?_, ?_⟩, hdec, henc⟩
    · rintro ⟨β, hβ⟩
      obtain ⟨σ, hσ, -⟩ := hdec β hβ
      exact ⟨σ, hσ⟩
    · rintro ⟨σ, hσ⟩
      obtain ⟨β, hβ, -⟩ := henc σ hσ
      exact ⟨β, hβ⟩
  · exact reads_same ((C94_reads hg hr e hm.2 hs).2 n hn _ (hσ n hn)) (hσ' n hn)
  · have hP := (h.sem β σ hm.2 hσ).1 hm.1
    exact C94_unique hg hr e (hf σ hP) hm.2 hm'.2 hσ fun n hn => reads_of_same (hσ' n hn) fun i hi => (hs n hn i hi).symm

theorem atLeast_of {α γ : Type} {R : α → α → Prop} {P : α → Prop} {S : γ → γ → Prop} {Q : γ → Prop} {L : α → γ → Prop} {k : Nat}
    (h1 : ∀ a, P a → ∃ b, Q b ∧ L a b) (h2 : ∀ a b a' b', P a → P a' → L a b → L a' b' → S b b' → R a a') (h : AtLeast R P k) :
    AtLeast S Q k := by
  obtain ⟨l, hl, hP, hR⟩ := h
  obtain ⟨ps, h3, h4⟩ : ∃ ps : List (α × γ), ps.map (·.1) = l ∧ ∀ p ∈ ps, P p.1 ∧ Q p.2 ∧ L p.1 p.2 := by
    clear hl hR
    induction l with
    | nil => exact ⟨[], rfl, by simp⟩
    | cons a l ih =>
      obtain ⟨ps, h3, h4⟩ := ih fun a ha => hP a (by simp [ha])
      obtain ⟨b, hb, hb'⟩ := h1 a (hP a (by simp))
      refine ⟨(a, b) :: ps, by simp [h3], ?_⟩
      intro p hp
      rcases List.mem_cons.1 hp with rfl | hp
      · exact ⟨hP _ (by simp), hb, hb'⟩
      · exact h4 p hp
  refine ⟨ps.map (·.2), by rw [← hl, ← h3]; simp, ?_, ?_⟩
  · intro b hb
    obtain ⟨p, hp, rfl⟩ := List.mem_map.1 hb
    exact (h4 p hp).2.1
  · subst h3
    rw [List.pairwise_map] at hR ⊢
    refine hR.imp_of_mem fun {p p'} hp hp' hn hS => hn ?_
    exact h2 p.1 p.2 p'.1 p'.2 (h4 p hp).1 (h4 p' hp').1 (h4 p hp).2.2 (h4 p' hp').2.2 hS

/-- C94, counting: there are `k` models that differ on the variables of the CNF exactly if there are `k` different answers. -/
theorem C94_count (hg : q.Encodable d nodes T) (hf : q.FullWhere d T) {s : Ctx} (hr : Ready d nodes (q.flat d T).names s) :
    ∃ c s', q.encode s = (.ok c, s') ∧
      ∀ k, AtLeast (fun β β' => SameOn β β' c) (fun β => Models β c) k ↔ AtLeast (SameInsts d (q.flat d T).names) (q.Answer d nodes T) k := by
  obtain ⟨c, s', e, h, hu⟩ := C94_models hg hf hr
  refine ⟨c, s', e, fun k => ⟨?_, ?_⟩⟩
  · refine atLeast_of (L := fun β σ => ∀ n ∈ (q.flat d T).names, Reads d s' β n (σ n)) h.decode ?_
    intro β σ β' σ' hm hm' hσ hσ' hs
    exact (hu β β' σ σ' hm hm' hσ hσ').2 hs
  · refine atLeast_of (L := fun σ β => Models β c ∧ ∀ n ∈ (q.flat d T).names, Reads d s' β n (σ n)) ?_ ?_
    · intro σ hσ
      obtain ⟨β, h1, h2⟩ := h.encode σ hσ
      exact ⟨β, h1, h1, h2⟩
    · intro σ β σ' β' _ _ hσ hσ' hs
      exact (hu β β' σ σ' hσ.1 hσ'.1 hσ.2 hσ'.2).1 hs

/-- C94, for the queries of C65: the answers are the assignments that make the query true. -/
theorem C94_sound (hg : q.Sound d nodes T) (σ : Asg) : q.Answer d nodes T σ ↔ (q.flat d T).sem d T σ := by
  obtain ⟨h1, h2⟩ := (C75_generalises.2 hg) σ
  exact ⟨fun h => h1.1 h.1, fun h => ⟨h1.2 h, h2⟩⟩

theorem atom_measures {a : Atom} (h : a.measures = false) {lv : Levels} {stack : List Scope} {u : QVar × Role}
    (hu : u ∈ a.emits d lv stack) : u.2.settled = true := by
  cases a with
  | leh t1 t2 t3 g e =>
    simp only [Atom.emits] at hu
    split at hu
    · cases t1 <;> cases t2 <;> cases t3 <;> cases g <;> (try cases e) <;> simp [Atom.measures] at h <;>
        simp [Atom.uses] at hu <;> grind [Role.settled]
    · simp at hu
  | subs t1 t2 => exact settles_settled (d := d) (lv := lv) (a := .subs t1 t2) (stk := stack) hu
  | lel t1 t2 g => exact settles_settled (d := d) (lv := lv) (a := .lel t1 t2 g) (stk := stack) hu
  | isnode t g => exact settles_settled (d := d) (lv := lv) (a := .isnode t g) (stk := stack) hu
  | full t => exact settles_settled (d := d) (lv := lv) (a := .full t) (stk := stack) hu
  | cons t1 t2 => exact settles_settled (d := d) (lv := lv) (a := .cons t1 t2) (stk := stack) hu
  | allcomp t b g => exact settles_settled (d := d) (lv := lv) (a := .allcomp t b g) (stk := stack) hu
  | dfs t => exact settles_settled (d := d) (lv := lv) (a := .dfs t) (stk := stack) hu
  | hepr t1 t2 p g => exact settles_settled (d := d) (lv := lv) (a := .hepr t1 t2 p g) (stk := stack) hu

theorem query_measures (q : Query) : ∀ (stack : List Scope) (lv : Levels), q.measures = false →
    ∀ u ∈ (q.ground d T stack lv).emits d, u.2.settled = true := by
  induction q with
  | nil => intro stack lv _ u hu; simp [Query.ground, Ground.emits] at hu
  | atom a => intro stack lv h u hu; exact atom_measures h hu
  | and q1 q2 ih1 ih2 =>
    intro stack lv h u hu
    simp only [Query.measures, Bool.or_eq_false_iff] at h
    simp only [Query.ground, Ground.emits, List.mem_append] at hu
    exact hu.elim (ih1 _ _ h.1 u) (ih2 _ _ h.2 u)
  | or q1 q2 ih1 ih2 =>
    intro stack lv h u hu
    simp only [Query.measures, Bool.or_eq_false_iff] at h
    simp only [Query.ground, Ground.emits, List.mem_append] at hu
    exact hu.elim (ih1 _ _ h.1 u) (ih2 _ _ h.2 u)
  | not q ih => intro stack lv h u hu; exact ih _ _ h u hu
  | withVar x q ih => intro stack lv h u hu; exact ih _ _ h u hu
  | forallG k q ih =>
    intro stack lv h u hu
    simp only [Query.ground] at hu
    obtain ⟨g, hg, hu⟩ := (conj_emits _).1 hu
    obtain ⟨i, hi, rfl⟩ := List.mem_mapIdx.1 hg
    exact ih _ _ h u hu

/-- C94, where the condition holds: in all queries in which no predicate `leh` compares the distance of two variables. -/
theorem C94_measures (h : q.measures = false) : q.FullWhere d T :=
  fun _ _ u hu => Role.settled.clear (query_measures q [] (fun _ => 0) h u hu)

/-- Concrete case: the query of `C75_full`, with alternatives, negations and shared auxiliary variables. -/
example : fullSharedQuery.FullWhere 2 exTree := C94_measures rfl

/-- Concrete case: the distance of two variables in a predicate that is not negated. -/
def nearQuery : Query :=
  .withVar ['x'] (.withVar ['y'] (.atom (.leh (.var ['x']) (.var ['y']) (.const { val := [ZERO] }) (some VarGenHammingDistance)
    (some VarGenEqualFeat))))

example : nearQuery.measures = true ∧ nearQuery.FullWhere 1 (.leaf 0 false) := by
  refine ⟨rfl, fun σ hσ u hu => ?_⟩
  have hu' : (nearQuery.flat 1 (.leaf 0 false)).emits 1 = [(VarGenHammingDistance ['x'] ['y'], .dist (.name ['x']) (.name ['y'])),
      (VarGenEqualFeat ['x'] ['y'], .same ['x'] ['y']),
      (VarGenHammingDistance ['x'] ['0'], .dist (.name ['x']) (.vals [ZERO]))] := rfl
  rw [hu'] at hu
  rw [ground_sighted _ rfl] at hσ
  obtain ⟨h1, h2, -⟩ : LEH 1 (σ ['x']) (σ ['y']) (den [ZERO]) := hσ
  simp only [List.mem_cons, List.not_mem_nil, or_false] at hu
  rcases hu with rfl | rfl | rfl
  · exact ⟨h1, h2⟩
  · exact ⟨h1, h2⟩
  · trivial

/-- Concrete case of counting: full instances of one feature. There are two, and two models. -/
def fullOneQuery : Query := .withVar ['x'] (.atom (.full (.var ['x'])))

example : ∃ c s', fullOneQuery.encode (BasicQContext 1 []) = (.ok c, s') ∧ AtLeast (fun β β' => SameOn β β' c) (fun β => Models β c) 2 ∧
    ¬ AtLeast (fun β β' => SameOn β β' c) (fun β => Models β c) 3 := by
  have hx : ['x'] ++ suffix (List.take ((Levels.declare (fun _ => 0) 0 ['x']) ['x']) []) ∈ [['x']] := by simp [suffix]
  have hg : fullOneQuery.Encodable 1 [] (.leaf 0 false) := ⟨by omega, by simp [fullOneQuery, Query.loops],
    ⟨⟨by simp, by simp [Spec.Atom.consts, Spec.Term.consts], rfl, trivial, trivial, by simp [Atom.onModel]⟩,
      fun y hy => by simp only [Atom.vars, Term.vars, List.mem_singleton] at hy; subst hy; exact hx⟩,
    by simp [fullOneQuery, Query.flat, Query.ground, Ground.emits, Atom.emits, Atom.uses]⟩
  have hA : ∀ σ, fullOneQuery.Answer 1 [] (.leaf 0 false) σ ↔ Full 1 (σ ['x']) := fun σ => by
    have he : (fullOneQuery.flat 1 (.leaf 0 false)).emits 1 = [] := rfl
    unfold Query.Answer
    rw [ground_sighted _ rfl, he]
    exact ⟨fun h => h.1, fun h => ⟨h, fun u hu => by simp at hu⟩⟩
  obtain ⟨c, s', e, h⟩ := C94_count hg (C94_measures rfl) (Ready.fresh_ctx 1 [] _)
  have hn : (fullOneQuery.flat 1 (.leaf 0 false)).names = [['x']] := rfl
  refine ⟨c, s', e, (h 2).2 ⟨[fun _ _ => some false, fun _ _ => some true], rfl, ?_, ?_⟩, fun h3 => ?_⟩
  · intro σ hσ
    rw [hA]
    simp only [List.mem_cons, List.not_mem_nil, or_false] at hσ
    rcases hσ with rfl | rfl <;> intro i _ <;> simp
  · rw [hn]
    simp [SameInsts, Same]
  · obtain ⟨l, hl, hP, hR⟩ := (h 3).1 h3
    match l, hl with
    | [a, b, c], _ =>
      simp only [List.pairwise_cons, List.mem_cons, List.not_mem_nil, or_false, hn] at hR
      have key : ∀ σ σ' : Asg, ¬ SameInsts 1 [['x']] σ σ' → σ ['x'] 0 ≠ σ' ['x'] 0 := fun σ σ' hs he => hs fun n hn i hi => by
        simp only [List.mem_singleton] at hn
        obtain rfl : i = 0 := by omega
        rw [hn]; exact he
      have k1 := key _ _ (hR.1 b (.inl rfl))
      have k2 := key _ _ (hR.1 c (.inr rfl))
      have k3 := key _ _ (hR.2.1 c rfl)
      have f1 := (hA a).1 (hP a (by simp)) 0 (by omega)
      have f2 := (hA b).1 (hP b (by simp)) 0 (by omega)
      have f3 := (hA c).1 (hP c (by simp)) 0 (by omega)
      rcases opt3 (a ['x'] 0) with h1 | h1 | h1 <;> rcases opt3 (b ['x'] 0) with h2 | h2 | h2 <;>
        rcases opt3 (c ['x'] 0) with h3 | h3 | h3 <;> simp_all

/-- The negation of `nearQuery`. -/
def farQuery : Query :=
  .withVar ['x'] (.withVar ['y'] (.not (.atom (.leh (.var ['x']) (.var ['y']) (.const { val := [ZERO] }) (some VarGenHammingDistance)
    (some VarGenEqualFeat)))))

/-- C94, where it fails: the CNF of `farQuery` has two models that read the same instances (both undefined) and differ in auxiliary
variables. Counting models does not count solutions. -/
theorem C94_not : farQuery.Encodable 1 [] (.leaf 0 false) ∧ ∃ c s' β β', farQuery.encode (BasicQContext 1 []) = (.ok c, s') ∧
    Models β c ∧ Models β' c ∧ (∀ n ∈ [['x'], ['y']], Reads 1 s' β n bot ∧ Reads 1 s' β' n bot) ∧ ¬ SameOn β β' c := by
  have hx : ['x'] ++ suffix (List.take ((Levels.declare (Levels.declare (fun _ => 0) 0 ['x']) 0 ['y']) ['x']) []) ∈ [['y'], ['x']] := by
    simp [suffix]
  have hy : ['y'] ++ suffix (List.take ((Levels.declare (Levels.declare (fun _ => 0) 0 ['x']) 0 ['y']) ['y']) []) ∈ [['y'], ['x']] := by
    simp [suffix]
  refine ⟨⟨by omega, by simp [farQuery, Query.loops], ⟨⟨by simp, ?_, rfl, trivial, trivial, by simp [Atom.onModel]⟩, fun y hy' => ?_⟩,
    by decide +kernel⟩, _, _, fun n => decide (n ∈ [3, 6, 8, 9, 10, 13]), fun n => decide (n ∈ [3, 6, 8, 11, 13]), rfl, by decide +kernel,
    by decide +kernel, ?_, ?_⟩
  · simp [Spec.Atom.consts, Spec.Term.consts, resolve, ValidVals, ZERO, BOT]
  · simp only [Atom.vars, Term.vars, List.append_nil, List.singleton_append, List.mem_cons, List.not_mem_nil, or_false] at hy'
    rcases hy' with rfl | rfl
    · exact hx
    · exact hy
  · unfold Reads; decide +kernel
  · unfold SameOn; decide +kernel

end Goexpdt.Props

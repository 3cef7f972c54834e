import Verif.Props.Marking
import Verif.Props.Examples
/-
Property C98: computations on decision diagrams and other models.
-/
namespace Goexpdt.Props
open Spec Examples

variable {S : Type} {sv : Solver S} {d : Nat} {nodes : List Node} {T : DTree} {xs : List QVar} {role : QVar → Option Role} {w0 : WalkSt} {st st' : S} {s s' : Ctx} {v : QVar}

/-! ### lemmas -/

theorem marks_said_congr (hv : Valid d nodes) {q : Query} (hq : q.Marks d xs role) {σ σ' : Asg} (h : ∀ x ∈ xs, Same d (σ x) (σ' x)) (μ : QVar → Nat → Prop) :
    (q.marked nodes σ μ ↔ q.marked nodes σ' μ) ∧ (q.tells d nodes σ μ ↔ q.tells d nodes σ' μ) := by
  have hA : ∀ {A A' : Nat → Bool → Prop} {R : Nat → Prop}, (∀ f < d, ∀ b, A f b ↔ A' f b) → (Marking nodes A R ↔ Marking nodes A' R) := by
    intro A A' R h
    refine ⟨fun m => ⟨m.root, fun i f b j he => ?_⟩, fun m => ⟨m.root, fun i f b j he => ?_⟩⟩
    · rw [m.edge i f b j he, h f (edge_of hv he).2.1]
    · rw [m.edge i f b j he, h f (edge_of hv he).2.1]
  have ht : ∀ {t : Term}, t.Ok d xs → Same d (t.under σ) (t.under σ') := by
    intro t ht
    cases t with
    | const c => exact same_refl _
    | var x => exact h x ht
  have hs : ∀ t : Term, (∀ x ∈ t.vars, x ∈ xs) → Same d (t.under σ) (t.under σ') := by
    intro t ht
    cases t with
    | const c => exact same_refl _
    | var x => exact h x (ht x (by simp [Term.vars]))
  induction q with
  | nil => exact absurd hq nofun
  | forallG c q _ => exact absurd hq nofun
  | withVar x q ih => exact ih hq.2
  | and q1 q2 ih1 ih2 => exact ⟨and_congr (ih1 hq.1).1 (ih2 hq.2).1, and_congr (ih1 hq.1).2 (ih2 hq.2).2⟩
  | or q1 q2 ih1 ih2 => exact ⟨and_congr (ih1 hq.1).1 (ih2 hq.2).1, or_congr (ih1 hq.1).2 (ih2 hq.2).2⟩
  | not q ih => exact ⟨(ih hq).1, not_congr (ih hq).2⟩
  | atom a =>
    cases a with
    | subs t1 t2 => exact ⟨Iff.rfl, subsumes_congr (ht hq.1) (ht hq.2)⟩
    | full t =>
      refine ⟨Iff.rfl, forall_congr' fun i => forall_congr' fun hi => ?_⟩
      have := ht (t := t) hq i hi
      rw [this]
    | cons t1 t2 => exact ⟨Iff.rfl, cons_same (ht hq.1) (ht hq.2)⟩
    | isnode t g =>
      cases t with
      | const c => exact absurd hq nofun
      | var x =>
      cases g with
      | none => exact absurd hq nofun
      | some g =>
      have hx := h x hq.1
      refine ⟨hA fun f hf b => by unfold HasVal; rw [hx f hf], forall_congr' fun f => forall_congr' fun hf => ?_⟩
      rw [hx f hf]
    | allcomp t b g =>
      cases t with
      | const c => exact ⟨Iff.rfl, Iff.rfl⟩
      | var x =>
      cases g with
      | none => exact absurd hq nofun
      | some g =>
      have hx := h x hq.1
      exact ⟨hA fun f hf b => by unfold MayHave; rw [hx f hf], Iff.rfl⟩
    | lel t1 t2 g =>
      exact ⟨Iff.rfl, by unfold Query.tells LEL; rw [numBot_same (hs t1 fun x hx => hq.1.vars x (by simp [Atom.vars, hx])),
        numBot_same (hs t2 fun x hx => hq.1.vars x (by simp [Atom.vars, hx]))]⟩
    | dfs => exact absurd hq nofun
    | hepr t1 t2 p g =>
      exact ⟨Iff.rfl, hepr_same (fun i hi => by obtain ⟨k, hk, rfl⟩ := List.mem_map.1 hi; have := hq.1.pref.1 k hk; omega)
        (hs t1 fun x hx => hq.1.vars x (by simp [Atom.vars, hx]))
        (hs t2 fun x hx => hq.1.vars x (by simp [Atom.vars, hx]))⟩
    | leh t1 t2 t3 g eg =>
      exact ⟨Iff.rfl, leh_same (hs t1 fun x hx => hq.1.vars x (by simp [Atom.vars, hx])) (hs t2 fun x hx => hq.1.vars x (by simp [Atom.vars, hx]))
        (hs t3 fun x hx => hq.1.vars x (by simp [Atom.vars, hx]))⟩

/-! ### any model -/

/-- What a query says on any model about the instance of its only variable. -/
def Marks.says (d : Nat) (nodes : List Node) (q : Query) (e : PInst) : Prop :=
  ∃ μ, q.marked nodes (fun _ => e) μ ∧ q.tells d nodes (fun _ => e) μ

theorem C98_decides (hd : 0 < d) (hv : newNodeAsValuesIter d nodes = .ok w0) {q : Query} (hq : q.Marks d xs role) :
    Decides d nodes xs (declare xs q).encode (fun σ => ∃ μ, q.marked nodes σ μ ∧ q.tells d nodes σ μ) := by
  obtain ⟨hne, hv, -⟩ := newIter_ok hv
  intro s hs
  obtain ⟨c, s', e, w, h, ho, hn⟩ := marks_said hd hv hne hq (outer_of_ready hs) hs.fresh
  exact ⟨c, s', e, w, h, ⟨ho.vm, ho.dim, ho.nodes, ho.scopes, ho.vars, by simp⟩, hn⟩

/-- C98: on every model that passes validation, `Sat` answers whether there are instances and marked nodes as the query says. -/
theorem C98_sat (hc : Correct sv) (hr : Reliable sv) (hd : 0 < d) (hv : newNodeAsValuesIter d nodes = .ok w0) {q : Query} (hq : q.Marks d xs role)
    (hs : Ready d nodes xs s) (negated : Bool) :
    ∃ b st' s', atomSat sv (declare xs q).comp negated st s = (.ok b, st', s') ∧
      (b = true ↔ ((∃ σ μ, q.marked nodes σ μ ∧ q.tells d nodes σ μ) ↔ negated = false)) := by
  have hne : (declare xs q).comp = some (declare xs q).encode := Query.comp_eq (by
    cases xs with
    | nil => rintro (rfl : q = .nil); exact hq
    | cons x xs => exact nofun)
  rw [hne]
  unfold atomSat
  rcases decides_step (st := st) hc (C98_decides hd hv hq) hs with ⟨st1, s1, e, hr, β, σ, hP, -⟩ | ⟨st1, s1, e, hr, hn⟩ | ⟨_, _, _, _, hn⟩
  · rw [e]
    refine ⟨!negated, st1, s1, by cases negated <;> rfl, ?_⟩
    have : ∃ σ μ, q.marked nodes σ μ ∧ q.tells d nodes σ μ := ⟨σ, hP⟩
    simp [this]
  · rw [e]
    refine ⟨negated, st1, s1, by cases negated <;> rfl, ?_⟩
    have : ¬ ∃ σ μ, q.marked nodes σ μ ∧ q.tells d nodes σ μ := hn
    simp [this]
  · exact absurd hr hn

theorem marks_asks (hd : 0 < d) (hv : newNodeAsValuesIter d nodes = .ok w0) {q : Query} (hq : q.Marks d [v] role) :
    Asks d nodes [v] v (encWithVar v q.comp) (Marks.says d nodes q) := by
  refine ⟨by simp, _, C98_decides (xs := [v]) hd hv hq, fun e => ⟨fun h => ⟨fun _ => e, h, same_refl e⟩, ?_⟩⟩
  rintro ⟨σ, ⟨μ, h1, h2⟩, h⟩
  obtain ⟨k1, k2⟩ := marks_said_congr (newIter_ok hv).2.1 hq (σ := σ) (σ' := fun _ => e) (by simpa using h) μ
  exact ⟨μ, k1.1 h1, k2.1 h2⟩

theorem marks_poses (hd : 0 < d) (hv : newNodeAsValuesIter d nodes = .ok w0) {f : QVar → Query} {o : QVar → QConst → Query}
    (hf : (f v).Marks d [v] role)
    (ho : ∀ k : QConst, GoodVals d k.val → ∃ role, (Query.and (f v) (o v k)).Marks d [v] role) :
    Poses d nodes v (fun v => (f v).comp) (fun v k => (o v k).comp) (Marks.says d nodes (f v))
      (fun e p => Marks.says d nodes (.and (f v) (o v { val := valsOf d p })) e) [v] := by
  refine ⟨marks_asks hd hv hf, fun k hk hid => ⟨[v], ?_⟩⟩
  have hk' : k = { val := valsOf d (den k.val) } := by rw [valsOf_den hk]; cases k; simp_all
  obtain ⟨_, hk2⟩ := ho k hk
  obtain ⟨h1, P, h2, h3⟩ := marks_asks (v := v) hd hv (q := .and (f v) (o v k)) hk2
  refine ⟨h1, P, h2, fun e => Iff.trans ?_ (h3 e)⟩
  rw [← hk']
  exact ⟨fun h => h.2, fun ⟨μ, a, b⟩ => ⟨⟨μ, a.1, b.1⟩, μ, a, b⟩⟩

/-- C98: on every model that passes validation, a value that `ComputeOptim` returns is as the formula says, for some marked nodes, and no
instance is better, for any marked nodes; if it returns no value, no instance is as the formula says. -/
theorem C98_optimum (hc : Correct sv) (hd : 0 < d) (hv : newNodeAsValuesIter d nodes = .ok w0) {f : QVar → Query} {o : QVar → QConst → Query}
    (hf : (f v).Marks d [v] role)
    (ho : ∀ k : QConst, GoodVals d k.val → ∃ role, (Query.and (f v) (o v k)).Marks d [v] role) (hs : Ready d nodes [v] s) {fuel : Nat} :
    (∀ out st' s' tmp, computeOptim sv (fun v => (f v).comp) (fun v k => (o v k).comp) v tmp fuel st s = (.ok out, st', s') → out.found = true →
      GoodVals d out.value.val ∧ Marks.says d nodes (f v) (den out.value.val) ∧
      ∀ e, ¬ Marks.says d nodes (.and (f v) (o v { val := out.value.val })) e) ∧
    (Reliable sv → ((∃ out st' s', computeOptim sv (fun v => (f v).comp) (fun v k => (o v k).comp) v true fuel st s = (.ok out, st', s') ∧
      out.found = false) ↔ ∀ e, ¬ Marks.says d nodes (f v) e)) := by
  have hp := marks_poses hd hv hf ho
  refine ⟨fun out st' s' tmp he hfd => ?_, fun hr => C47_absent_partial hc hr hp hs fuel⟩
  obtain ⟨h1, h2, h3, h4⟩ := C46_optimum hc hp hs he hfd
  refine ⟨⟨h1, h2⟩, h3, fun e h => ?_⟩
  have := h4 e (by obtain ⟨μ, a, b⟩ := h; exact ⟨μ, a.1, b.1⟩)
  rw [valsOf_den ⟨h1, h2⟩] at this
  exact this h

theorem lel_aux {t1 t2 : Term} {g : QVar → QVar} (hg : role (g v) = some (.bots v)) (hv : g v ≠ v) {k : QConst} (hk : GoodVals d k.val)
    (h : (t1 = .var v ∧ t2 = .const k) ∨ (t1 = .const k ∧ t2 = .var v)) : (Atom.lel t1 t2 (some g)).Aux d [v] role := by
  rcases h with ⟨rfl, rfl⟩ | ⟨rfl, rfl⟩ <;>
  exact ⟨⟨by simp [Atom.vars, Term.vars], by simpa [Spec.Atom.consts, Spec.Term.consts, resolve, GoodVals] using hk, rfl, trivial, trivial,
    trivial, by simp [Atom.onModel]⟩, by simpa [Atom.uses, Term.res, suffix] using ⟨hg, hv⟩⟩

theorem level_says {f : Query} {g : QVar → QVar} {k : QConst} {e : PInst} :
    Marks.says d nodes (.and f (strictLel g v k)) e ↔ Marks.says d nodes f e ∧ numBot d (den k.val) < numBot d e := by
  have h : ∀ μ, (strictLel g v k).tells d nodes (fun _ => e) μ ↔ numBot d (den k.val) < numBot d e := by
    intro μ
    simp only [strictLel, Query.tells, LEL, Term.under]
    omega
  constructor
  · rintro ⟨μ, ⟨h1, -⟩, h2, h3⟩
    exact ⟨⟨μ, h1, h2⟩, (h μ).1 h3⟩
  · rintro ⟨⟨μ, h1, h2⟩, h3⟩
    exact ⟨μ, ⟨h1, trivial, trivial⟩, h2, (h μ).2 h3⟩

/-- C98: with the order of the number of undefined features, as in compute/optimum_test.go:31-38, `ComputeOptim` ends on every model that passes
validation. Of the instances that are as the formula says, for some marked nodes, it returns one with the most undefined features, and it
returns none only if there are no such instances. -/
theorem C98_level (hc : Correct sv) (hr : Reliable sv) (hd : 0 < d) (hv : newNodeAsValuesIter d nodes = .ok w0) {f : QVar → Query}
    {g : QVar → QVar} (hf : (f v).Marks d [v] role) (hg : role (g v) = some (.bots v)) (hgv : g v ≠ v) (hs : Ready d nodes [v] s) {fuel : Nat}
    (hfuel : d < fuel) :
    ∃ o st' s', computeOptim sv (fun v => (f v).comp) (fun v k => (strictLel g v k).comp) v true fuel st s = (.ok o, st', s') ∧ o.calls ≤ d + 2 ∧
      (o.found = true → GoodVals d o.value.val ∧ Marks.says d nodes (f v) (den o.value.val) ∧
        ∀ e, Marks.says d nodes (f v) e → numBot d e ≤ numBot d (den o.value.val)) ∧
      (o.found = false ↔ ∀ e, ¬ Marks.says d nodes (f v) e) := by
  have ho : ∀ k : QConst, GoodVals d k.val → ∃ role, (Query.and (f v) (strictLel g v k)).Marks d [v] role := fun k hk =>
    ⟨role, hf, lel_aux hg hgv hk (.inl ⟨rfl, rfl⟩), lel_aux hg hgv hk (.inr ⟨rfl, rfl⟩)⟩
  have hp := marks_poses (o := fun v k => strictLel g v k) hd hv hf ho
  obtain ⟨o, st', s', e, hcalls⟩ := C48_rank (st := st) hc hr hp hs (fun b => d - numBot d (den b)) d (fun _ _ _ => by omega)
    (by
      intro b b' hb hb' _ _ hR
      rw [valsOf_den hb] at hR
      have hR : numBot d (den b) < numBot d (den b') := (level_says.1 hR).2
      have := countFeats_le' d fun i => (den b' i).isNone
      unfold numBot at *
      omega) hfuel
  obtain ⟨h1, h2⟩ := C98_optimum (st := st) (fuel := fuel) (o := fun v k => strictLel g v k) hc hd hv hf ho hs
  refine ⟨o, st', s', e, hcalls, fun hfd => ?_, fun hfd => (h2 hr).1 ⟨o, st', s', e, hfd⟩, fun hn => ?_⟩
  · obtain ⟨a, b, k⟩ := h1 o st' s' true e hfd
    exact ⟨a, b, fun y hy => Nat.not_lt.1 fun hlt => k y (level_says.2 ⟨hy, hlt⟩)⟩
  · cases hfd : o.found with
    | false => rfl
    | true => exact absurd (h1 o st' s' true e hfd).2.1 (hn _)

/-! ### decision diagrams -/

theorem diagram_validated (hD : IsDiagram d nodes T) (hC : Covers nodes T) : newNodeAsValuesIter d nodes = .ok (WalkSt.init d nodes.length) := by
  have hne := diagram_ne hD
  unfold newNodeAsValuesIter
  rw [if_neg (by simpa using hne), validate_of_valid (diagram_valid hD hC)]

/-- C98: on decision diagrams without nodes that cannot be reached, the value satisfies the formula, and no instance whose nodes can be marked
is better. -/
theorem C98_diagram (hc : Correct sv) (hd : 0 < d) (hD : IsDiagram d nodes T) (hC : Covers nodes T) {f : QVar → Query} {o : QVar → QConst → Query}
    (hf : (f v).Marks d [v] role)
    (ho : ∀ k : QConst, GoodVals d k.val → ∃ role, (Query.and (f v) (o v k)).Marks d [v] role) (hs : Ready d nodes [v] s) {fuel : Nat} {tmp : Bool}
    {out : OptOutput} (he : computeOptim sv (fun v => (f v).comp) (fun v k => (o v k).comp) v tmp fuel st s = (.ok out, st', s'))
    (hfd : out.found = true) :
    GoodVals d out.value.val ∧ (f v).sem d T (fun _ => 0) (fun _ => den out.value.val) [] ∧
      ∀ e, (∃ μ, (Query.and (f v) (o v { val := out.value.val })).marked nodes (fun _ => e) μ) → (f v).sem d T (fun _ => 0) (fun _ => e) [] →
        ¬ (o v { val := out.value.val }).sem d T (fun _ => 0) (fun _ => e) [] := by
  have hva := diagram_validated hD hC
  obtain ⟨h1, ⟨μ, h2, h3⟩, h4⟩ := (C98_optimum hc hd hva hf ho hs).1 out st' s' tmp he hfd
  refine ⟨h1, (tells_diagram hD hC hf _ μ h2).1 h3, fun e ⟨μ, hm⟩ h5 h6 => h4 e ⟨μ, hm, ?_⟩⟩
  obtain ⟨_, ho⟩ := ho { val := out.value.val } h1
  exact (tells_diagram hD hC (q := .and (f v) (o v { val := out.value.val })) ho _ μ hm).2 ⟨h5, h6⟩

section
variable {c : QConst}

theorem reason_marks (hc : GoodVals d c.val) (hn : role (reachableVarGen v) = none) : (sufficientReason c v).Marks d [v] role := by
  have hg : v ≠ reachableVarGen v := fun h => by simpa [reachableVarGen] using congrArg List.length h
  refine ⟨by simp, ⟨by simp [Term.Ok], hc⟩, ⟨hc, by simp, ?_, hn⟩, hc, by simp, ?_, hn⟩ <;> simpa using hg.symm

theorem strict_marks {k : QConst} (hk : GoodVals d k.val) : (strictSubsumption v k).Marks d [v] role :=
  ⟨⟨by simp [Term.Ok], hk⟩, hk, by simp [Term.Ok]⟩

theorem reason_marked {e : PInst} : (∃ μ, (sufficientReason c v).marked nodes (fun _ => e) μ) ↔ Free nodes (MayHave e) 0 := by
  constructor
  · rintro ⟨μ, -, ⟨-, h⟩, -⟩
    replace h : Marking nodes (MayHave e) (μ (reachableVarGen v)) := h
    exact h.free h.root
  · intro h
    have hm := marking_of (S := fun _ => False) h (fun _ h => h.elim)
    exact ⟨fun _ => _, trivial, ⟨trivial, hm⟩, trivial, hm⟩

theorem reason_says (hD : IsDiagram d nodes T) (hC : Covers nodes T) (hc : GoodVals d c.val) {e : PInst} :
    Marks.says d nodes (sufficientReason c v) e ↔ ReasonFormula d T (den c.val) e ∧ Free nodes (MayHave e) 0 := by
  have ht := tells_diagram hD hC (reason_marks (v := v) (role := fun _ => none) hc rfl) (fun _ => e)
  constructor
  · rintro ⟨μ, h1, h2⟩
    exact ⟨sufficientReason_sem.1 ((ht μ h1).1 h2), reason_marked.1 ⟨μ, h1⟩⟩
  · rintro ⟨h1, h2⟩
    obtain ⟨μ, h⟩ := reason_marked.2 h2
    exact ⟨μ, h, (ht μ h).2 (sufficientReason_sem.2 h1)⟩

theorem better_says (hD : IsDiagram d nodes T) (hC : Covers nodes T) (hc : GoodVals d c.val) {k : QConst} {e : PInst} :
    Marks.says d nodes (.and (sufficientReason c v) (strictSubsumption v k)) e ↔
      (ReasonFormula d T (den c.val) e ∧ Free nodes (MayHave e) 0) ∧ Subsumes d e (den k.val) ∧ ¬ Subsumes d (den k.val) e := by
  rw [← reason_says (v := v) hD hC hc]
  constructor
  · rintro ⟨μ, ⟨h1, -⟩, h2, h3⟩
    exact ⟨⟨μ, h1, h2⟩, h3⟩
  · rintro ⟨⟨μ, h1, h2⟩, h3⟩
    exact ⟨μ, ⟨h1, trivial, trivial⟩, h2, h3⟩

/-- C98: on decision diagrams without nodes that cannot be reached, the program of examples/computation.go ends. What it finds is a sufficient
reason, if the constant is full, and minimal among those for which the nodes can be marked; it finds nothing exactly if there are no such. -/
theorem C98_computation (hcr : Correct sv) (hr : Reliable sv) (hd : 0 < d) (hD : IsDiagram d nodes T) (hC : Covers nodes T)
    (hc : GoodVals d c.val) (hf : Full d (den c.val)) (hs : Ready d nodes [v] s) {fuel : Nat} (hfuel : d < fuel) :
    ∃ o st' s', computation sv c v true fuel st s = (.ok o, st', s') ∧ o.calls ≤ d + 2 ∧
      (o.found = true → GoodVals d o.value.val ∧ SufficientReason d T (den c.val) (den o.value.val) ∧ Free nodes (MayHave (den o.value.val)) 0 ∧
        ∀ y, SufficientReason d T (den c.val) y → Free nodes (MayHave y) 0 → Subsumes d y (den o.value.val) → Same d y (den o.value.val)) ∧
      (o.found = false ↔ ∀ y, SufficientReason d T (den c.val) y → ¬ Free nodes (MayHave y) 0) := by
  have hva := diagram_validated hD hC
  have hp := marks_poses (v := v) hd hva (f := fun v => sufficientReason c v) (o := fun v k => strictSubsumption v k) (reason_marks hc (role := fun _ => none) rfl)
    (fun k hk => ⟨_, reason_marks hc (role := fun _ => none) rfl, strict_marks hk⟩)
  obtain ⟨o, st', s', e, hcalls⟩ := C48_rank (st := st) hcr hr hp hs (fun b => d - numBot d (den b)) d (fun _ _ _ => by omega)
    (by
      intro b b' hb hb' _ _ hR
      rw [valsOf_den hb] at hR
      have hR : Subsumes d (den b') (den b) ∧ ¬ Subsumes d (den b) (den b') := ((better_says hD hC hc (k := { val := b })).1 hR).2
      have := numBot_lt hR.1 hR.2
      have := countFeats_le' d fun i => (den b' i).isNone
      unfold numBot at *
      omega) hfuel
  have hiff := fun e => reasonFormula_iff (e := e) hf hD.range
  refine ⟨o, st', s', e, hcalls, fun hfd => ?_, ?_⟩
  · obtain ⟨h1, h2, h3, h4⟩ := C46_optimum hcr hp hs e hfd
    obtain ⟨h2', h2''⟩ := (reason_says hD hC hc).1 h3
    refine ⟨⟨h1, h2⟩, (hiff _).1 h2', h2'', fun y hy hyf hsub => subsumes_antisymm hsub (Classical.not_not.1 fun hn => ?_)⟩
    refine h4 y ((reason_says hD hC hc).2 ⟨(hiff _).2 hy, hyf⟩) ?_
    rw [valsOf_den ⟨h1, h2⟩]
    exact (better_says hD hC hc (k := { val := o.value.val })).2 ⟨⟨(hiff _).2 hy, hyf⟩, hsub, hn⟩
  · have habs := C47_absent_partial (st := st) hcr hr hp hs fuel
    constructor
    · intro hfd y hy hyf
      exact habs.1 ⟨o, st', s', e, hfd⟩ y ((reason_says hD hC hc).2 ⟨(hiff _).2 hy, hyf⟩)
    · intro h
      obtain ⟨o2, st2, s2, e2, h2⟩ := habs.2 fun y hy => by
        obtain ⟨a, b⟩ := (reason_says hD hC hc).1 hy
        exact h y ((hiff _).1 a) b
      have : o = o2 := by
        have := e.symm.trans e2
        injection this with h1 _; injection h1
      rw [this, h2]

/-- C98: with that order the program finds, on decision diagrams without nodes that cannot be reached, a sufficient reason with the fewest
features, among those for which the nodes can be marked. -/
theorem C98_minimum (hcr : Correct sv) (hr : Reliable sv) (hd : 0 < d) (hD : IsDiagram d nodes T) (hC : Covers nodes T)
    (hc : GoodVals d c.val) (hf : Full d (den c.val)) (hs : Ready d nodes [v] s) {fuel : Nat} (hfuel : d < fuel) :
    ∃ o st' s', computeOptim sv (fun v => (sufficientReason c v).comp) (fun v k => (strictLel botCountVarGen v k).comp) v true fuel st s =
        (.ok o, st', s') ∧ o.calls ≤ d + 2 ∧
      (o.found = true → GoodVals d o.value.val ∧ SufficientReason d T (den c.val) (den o.value.val) ∧ Free nodes (MayHave (den o.value.val)) 0 ∧
        ∀ y, SufficientReason d T (den c.val) y → Free nodes (MayHave y) 0 → numBot d y ≤ numBot d (den o.value.val)) ∧
      (o.found = false ↔ ∀ y, SufficientReason d T (den c.val) y → ¬ Free nodes (MayHave y) 0) := by
  have hne : reachableVarGen v ≠ botCountVarGen v := fun h => by simpa [reachableVarGen, botCountVarGen] using congrArg List.length h
  have hnv : botCountVarGen v ≠ v := fun h => by
    have := congrArg List.length h
    simp [botCountVarGen] at this
    omega
  obtain ⟨o, st', s', e, h1, h2, h3⟩ := C98_level (st := st) (f := fun v => sufficientReason c v) (g := botCountVarGen)
    (role := fun a => if a = botCountVarGen v then some (.bots v) else none) hcr hr hd (diagram_validated hD hC)
    (reason_marks hc (if_neg hne)) (if_pos rfl) hnv hs hfuel
  have hiff := fun e => (reason_says (v := v) hD hC hc (e := e)).trans (and_congr_left' (reasonFormula_iff (e := e) hf hD.range))
  refine ⟨o, st', s', e, h1, fun hfd => ?_, ?_⟩
  · obtain ⟨a, b, k⟩ := h2 hfd
    obtain ⟨b1, b2⟩ := (hiff _).1 b
    exact ⟨a, b1, b2, fun y h4 h5 => k y ((hiff y).2 ⟨h4, h5⟩)⟩
  · rw [h3]
    exact ⟨fun h y h4 h5 => h y ((hiff y).2 ⟨h4, h5⟩), fun h y hy => h y ((hiff y).1 hy).1 ((hiff y).1 hy).2⟩

end

/-- C98: the program can miss all reasons. On the diagram of two equal features, (0, 0) is a sufficient reason of itself, but the program finds
nothing, whatever the solver. -/
theorem C98_missed (hcr : Correct sv) (hr : Reliable sv) (hs : Ready 2 exEqual [v] s) {fuel : Nat} (hfuel : 2 < fuel) :
    MinimalSufficientReason 2 exEqualPaths (den [ZERO, ZERO]) (den [ZERO, ZERO]) ∧
    ∃ o st' s', computation sv { val := [ZERO, ZERO] } v true fuel st s = (.ok o, st', s') ∧ o.found = false := by
  have hdef : ∀ y, SufficientReason 2 exEqualPaths (den [ZERO, ZERO]) y → y 0 = some false ∧ y 1 = some false := by
    rintro y ⟨h1, h2⟩
    have hz : Completes 2 (fun _ => false) (den [ZERO, ZERO]) := by
      intro i hi b hb
      rcases i with - | - | i
      · cases hb; rfl
      · cases hb; rfl
      · omega
    have key : ∀ k < 2, y k = some false := by
      intro k hk
      cases hy : y k with
      | some b =>
        have := h1 k hk (by simp [hy])
        rw [← hy, this]
        rcases k with - | - | k <;> first | rfl | omega
      | none =>
        have := h2 (fun i => i == k) _ (by
          intro i hi b hb
          have hik : i ≠ k := by rintro rfl; simp [hy] at hb
          have := h1 i hi (by simp [hb])
          rw [hb] at this
          have h0 : den [ZERO, ZERO] i = some false := by rcases i with - | - | i <;> first | rfl | omega
          rw [h0] at this
          have hbf : b = false := by simpa using this
          simp [hbf, hik]) hz
        exfalso
        rcases k with - | - | k
        · revert this; decide
        · revert this; decide
        · omega
    exact ⟨key 0 (by omega), key 1 (by omega)⟩
  have hfull : Full 2 (den [ZERO, ZERO]) := by unfold Full; decide
  have hsr : SufficientReason 2 exEqualPaths (den [ZERO, ZERO]) (den [ZERO, ZERO]) := by
    refine ⟨fun _ _ _ => rfl, fun y z hy hz => ?_⟩
    have h0 := (hy 0 (by omega) false rfl).trans (hz 0 (by omega) false rfl).symm
    have h1 := (hy 1 (by omega) false rfl).trans (hz 1 (by omega) false rfl).symm
    simp [exEqualPaths, DTree.classify, h0, h1]
  refine ⟨⟨hsr, fun y hy _ i hi => ?_⟩, ?_⟩
  · obtain ⟨h0, h1⟩ := hdef y hy
    rcases i with - | - | i
    · exact h0
    · exact h1
    · omega
  obtain ⟨o, st', s', e, -, -, h⟩ := C98_computation (st := st) (c := { val := [ZERO, ZERO] }) hcr hr (by omega) exEqual_diagram exEqual_covers
    (by decide) hfull hs hfuel
  refine ⟨o, st', s', e, h.2 fun y hy hf => ?_⟩
  obtain ⟨h0, h1⟩ := hdef y hy
  have l1 : Linked exEqual (MayHave y) 0 1 := .down (f := 0) (b := false) .refl ⟨_, rfl, rfl, rfl, rfl⟩ (by simp [MayHave, h0])
  have l2 : Linked exEqual (MayHave y) 0 3 := .down (f := 1) (b := false) l1 ⟨_, rfl, rfl, rfl, rfl⟩ (by simp [MayHave, h1])
  exact absurd (hf 2 1 true 3 l2 ⟨_, rfl, rfl, rfl, rfl⟩) (by simp [MayHave, h1])

/-- A diagram of the implication from the second feature to the first one, in which one leaf is shared. -/
def exImplied : List Node :=
  [⟨false, 0, 1, 2⟩, ⟨false, 1, 3, 4⟩, ⟨false, 1, 5, 3⟩, ⟨true, 0, -1, -1⟩, ⟨false, 0, -1, -1⟩, ⟨true, 0, -1, -1⟩]

/-- Its paths. -/
def exImpliedPaths : DTree :=
  .node 0 0 (.node 1 1 (.leaf 3 true) (.leaf 4 false)) (.node 2 1 (.leaf 5 true) (.leaf 3 true))

theorem exImplied_diagram : IsDiagram 2 exImplied exImpliedPaths :=
  ⟨by simp [LaysOut, exImplied, exImpliedPaths, Node.childless, DTree.root], rfl, by decide, by simp [exImpliedPaths, DTree.ReadOnce, DTree.feats]⟩

theorem exImplied_covers : Covers exImplied exImpliedPaths := by unfold Covers; decide

/-- C98: what the program finds need not be minimal. For (1, 0) on this diagram it finds (1, 0) itself, whatever the solver, although (1, _) is a
sufficient reason. -/
theorem C98_not_minimal (hcr : Correct sv) (hr : Reliable sv) (hs : Ready 2 exImplied [v] s) {fuel : Nat} (hfuel : 2 < fuel) :
    SufficientReason 2 exImpliedPaths (den [ONE, ZERO]) (den [ONE, BOT]) ∧
    ∃ o st' s', computation sv { val := [ONE, ZERO] } v true fuel st s = (.ok o, st', s') ∧ o.found = true ∧ o.value.val = [ONE, ZERO] := by
  have hz : Completes 2 (fun i => i == 0) (den [ONE, ZERO]) := by
    intro i hi b hb
    rcases i with - | - | i
    · cases hb; rfl
    · cases hb; rfl
    · omega
  have hpos : ∀ z, Completes 2 z (den [ONE, BOT]) → exImpliedPaths.classify z = true := by
    intro z h
    have h0 := h 0 (by omega) true rfl
    cases h1 : z 1 <;> simp [exImpliedPaths, DTree.classify, h0, h1]
  have hto : ∀ z, Completes 2 z (den [ONE, ZERO]) → Completes 2 z (den [ONE, BOT]) := by
    intro z h i hi b hb
    rcases i with - | - | i
    · exact h 0 hi b hb
    · cases hb
    · omega
  refine ⟨⟨?_, fun y z hy hz => (hpos y hy).trans (hpos z (hto z hz)).symm⟩, ?_⟩
  · intro i hi h
    rcases i with - | - | i
    · rfl
    · exact absurd rfl h
    · omega
  have hfull : Full 2 (den [ONE, ZERO]) := by unfold Full; decide
  obtain ⟨o, st', s', e, -, h, h'⟩ := C98_computation (st := st) (c := { val := [ONE, ZERO] }) hcr hr (by omega) exImplied_diagram exImplied_covers
    (by decide) hfull hs hfuel
  have hsr : SufficientReason 2 exImpliedPaths (den [ONE, ZERO]) (den [ONE, ZERO]) :=
    ⟨fun _ _ _ => rfl, fun y z hy hz => (hpos y (hto y hy)).trans (hpos z (hto z hz)).symm⟩
  have hfree : Free exImplied (MayHave (den [ONE, ZERO])) 0 := by
    have hE : ∀ {i f : Nat} {b : Bool} {j : Nat}, Edge exImplied i f b j → (i, f, b, j) ∈
        [(0, 0, false, 1), (0, 0, true, 2), (1, 1, false, 3), (1, 1, true, 4), (2, 1, false, 5), (2, 1, true, 3)] := by
      rintro i f b j ⟨n, hn, hl, hf, hj⟩
      rcases i with - | - | - | - | - | - | i <;> simp [exImplied] at hn <;> subst hn <;> simp [Node.isLeaf] at hl hf hj <;>
        cases b <;> simp at hj ⊢ <;> omega
    have hL : ∀ u, Linked exImplied (MayHave (den [ONE, ZERO])) 0 u → u = 0 ∨ u = 2 ∨ u = 5 := by
      intro u hu
      induction hu with
      | refl => exact .inl rfl
      | down _ he ha ih =>
        have := hE he
        simp only [List.mem_cons, List.not_mem_nil, or_false, Prod.mk.injEq] at this
        rcases this with ⟨rfl, rfl, rfl, rfl⟩ | ⟨rfl, rfl, rfl, rfl⟩ | ⟨rfl, rfl, rfl, rfl⟩ | ⟨rfl, rfl, rfl, rfl⟩ | ⟨rfl, rfl, rfl, rfl⟩ |
          ⟨rfl, rfl, rfl, rfl⟩ <;> first | omega | (revert ha; unfold MayHave; decide)
      | up _ he ih =>
        have := hE he
        simp only [List.mem_cons, List.not_mem_nil, or_false, Prod.mk.injEq] at this
        omega
    intro i f b j hl he
    have h1 := hE he
    have h2 := hL j hl
    simp only [List.mem_cons, List.not_mem_nil, or_false, Prod.mk.injEq] at h1
    rcases h1 with ⟨rfl, rfl, rfl, rfl⟩ | ⟨rfl, rfl, rfl, rfl⟩ | ⟨rfl, rfl, rfl, rfl⟩ | ⟨rfl, rfl, rfl, rfl⟩ | ⟨rfl, rfl, rfl, rfl⟩ |
      ⟨rfl, rfl, rfl, rfl⟩ <;> first | omega | (unfold MayHave; decide)
  have hfd : o.found = true := by
    cases hc : o.found with
    | true => rfl
    | false => exact absurd hfree (h'.1 hc _ hsr)
  refine ⟨o, st', s', e, hfd, ?_⟩
  obtain ⟨hg, ⟨hsub, hcl⟩, hf, -⟩ := h hfd
  generalize hy : den o.value.val = y at *
  have h0 : y 0 = none ∨ y 0 = some true := by
    cases hk : y 0 with
    | none => exact .inl rfl
    | some b => exact .inr ((hk.symm.trans (hsub 0 (by omega) (by simp [hk]))).trans rfl)
  have h1 : y 1 = none ∨ y 1 = some false := by
    cases hk : y 1 with
    | none => exact .inl rfl
    | some b => exact .inr ((hk.symm.trans (hsub 1 (by omega) (by simp [hk]))).trans rfl)
  have hnot : ¬ (y 0 = none ∧ y 1 = none) := by
    rintro ⟨k0, k1⟩
    have := hcl (fun i => i == 1) _ (by
      intro i hi b hb
      rcases i with - | - | i
      · simp [k0] at hb
      · simp [k1] at hb
      · omega) hz
    revert this; decide
  have k0 : y 0 = some true := h0.resolve_left fun k0 => by
    have k1 := h1.resolve_left fun k1 => hnot ⟨k0, k1⟩
    have l1 : Linked exImplied (MayHave y) 0 1 := .down (f := 0) (b := false) .refl ⟨_, rfl, rfl, rfl, rfl⟩ (by simp [MayHave, k0])
    have l2 : Linked exImplied (MayHave y) 0 3 := .down (f := 1) (b := false) l1 ⟨_, rfl, rfl, rfl, rfl⟩ (by simp [MayHave, k1])
    exact absurd (hf 2 1 true 3 l2 ⟨_, rfl, rfl, rfl, rfl⟩) (by simp [MayHave, k1])
  have k1 : y 1 = some false := h1.resolve_left fun k1 => by
    have l1 : Linked exImplied (MayHave y) 0 2 := .down (f := 0) (b := true) .refl ⟨_, rfl, rfl, rfl, rfl⟩ (by simp [MayHave, k0])
    have l2 : Linked exImplied (MayHave y) 0 3 := .down (f := 1) (b := true) l1 ⟨_, rfl, rfl, rfl, rfl⟩ (by simp [MayHave, k1])
    have l3 : Linked exImplied (MayHave y) 0 1 := .up (f := 1) (b := false) l2 ⟨_, rfl, rfl, rfl, rfl⟩
    exact absurd (hf 0 0 false 1 l3 ⟨_, rfl, rfl, rfl, rfl⟩) (by simp [MayHave, k0])
  rw [← valsOf_den hg, hy]
  simp [valsOf, List.range_succ, k0, k1, valOf]

/-- "All completions are positive and all are negative." -/
def exBoth (x : QVar) : Query :=
  .and (.atom (.allcomp (.var x) true (some VarGenNodeReach))) (.atom (.allcomp (.var x) false (some VarGenNodeReach)))

theorem exBoth_marks : (exBoth ['x']).Marks 1 [['x']] fun _ => none := ⟨⟨by simp, by decide, rfl⟩, by simp, by decide, rfl⟩

theorem exBoth_says {e : PInst} : Marks.says 1 exCircle (exBoth ['x']) e ↔ e 0 = some false := by
  constructor
  · rintro ⟨μ, ⟨h, -⟩, h1, h2⟩
    replace h : Marking exCircle (MayHave e) (μ (VarGenNodeReach ['x'])) := h
    cases he : e 0 with
    | some b =>
      cases b with
      | false => rfl
      | true => exact absurd ((h.edge 0 0 false 0 ⟨_, rfl, rfl, rfl, rfl⟩).1 h.root).2 (by simp [MayHave, he])
    | none =>
      have := (h.edge 0 0 true 1 ⟨_, rfl, rfl, rfl, rfl⟩).2 ⟨h.root, by simp [MayHave, he]⟩
      exact absurd ((h1 1 _ rfl rfl this).symm.trans (h2 1 _ rfl rfl this)) nofun
  · intro h
    have hm : Marking exCircle (MayHave e) (fun u => u = 0) := by
      refine ⟨rfl, fun i f b j he => ?_⟩
      obtain ⟨rfl, rfl, rfl⟩ := exCircle_edge he
      cases b <;> simp [MayHave, h]
    have hl : ∀ u n, exCircle[u]? = some n → n.isLeaf = true → u ≠ 0 := by
      rintro u n hn hl rfl
      cases hn
      cases hl
    exact ⟨fun _ u => u = 0, ⟨hm, hm⟩, fun u n h1 h2 h3 => absurd h3 (hl u n h1 h2), fun u n h1 h2 h3 => absurd h3 (hl u n h1 h2)⟩

/-- Concrete case of C98_sat: on a model with a cycle there is an instance all of whose completions are positive and negative. -/
example (hc : Correct sv) (hr : Reliable sv) : ∃ st' s', atomSat sv (declare [['x']] (exBoth ['x'])).comp false st (BasicQContext 1 exCircle) =
    (.ok true, st', s') := by
  obtain ⟨b, st', s', e, h⟩ := C98_sat (st := st) (w0 := WalkSt.init 1 2) hc hr (by omega) (by decide) exBoth_marks (Ready.fresh_ctx 1 exCircle _) false
  have : b = true := h.2 ⟨fun _ => rfl, fun _ => ⟨fun _ => den [ZERO], exBoth_says.2 rfl⟩⟩
  exact ⟨st', s', by rw [e, this]⟩

/-- Concrete case of C98_optimum: the only value that a computation can return for this formula on this model is (0), whatever the order, and if
it ends it returns one. -/
example (hc : Correct sv) (hr : Reliable sv) {fuel : Nat} :
    ∀ out st' s', computeOptim sv (fun x => (exBoth x).comp) (fun x k => (strictSubsumption x k).comp) ['x'] true fuel st (BasicQContext 1 exCircle) =
      (.ok out, st', s') → out.found = true ∧ out.value.val = [ZERO] := by
  intro out st' s' he
  obtain ⟨h1, h2⟩ := C98_optimum (st := st) (w0 := WalkSt.init 1 2) (fuel := fuel) hc (by omega) (by decide) (f := exBoth)
    (o := fun x k => strictSubsumption x k) exBoth_marks (fun k hk => ⟨_, exBoth_marks, strict_marks hk⟩) (Ready.fresh_ctx 1 exCircle _)
  have hf : out.found = true := by
    cases hf : out.found with
    | true => rfl
    | false => exact absurd (exBoth_says.2 rfl) ((h2 hr).1 ⟨out, st', s', he, hf⟩ (den [ZERO]))
  obtain ⟨hg, hs, -⟩ := h1 out st' s' true he hf
  have := exBoth_says.1 hs
  refine ⟨hf, ?_⟩
  rw [← valsOf_den hg]
  simp [valsOf, List.range_succ, this, valOf]

/-- "`x` is not full, and not all its completions are positive." -/
def exMixed (x : QVar) : Query :=
  .and (.not (.atom (.full (.var x)))) (.not (.atom (.allcomp (.var x) true (some VarGenNodeReach))))

theorem exMixed_marks : (exMixed ['x']).Marks 2 [['x']] fun _ => none := ⟨by simp [Query.Marks, Term.Ok], by simp [Query.Marks]; decide⟩

/-- Concrete case of C98_diagram: on the diagram of two equal features the smallest such instance is the one without values, and its nodes can
be marked, so that no other value is returned. -/
example (hc : Correct sv) {fuel : Nat} {tmp : Bool} {out : OptOutput}
    (he : computeOptim sv (fun x => (exMixed x).comp) (fun x k => (strictSubsumption x k).comp) ['x'] tmp fuel st (BasicQContext 2 exEqual) =
      (.ok out, st', s')) (hf : out.found = true) : out.value.val = [BOT, BOT] := by
  obtain ⟨hg, -, h⟩ := C98_diagram hc (by omega) exEqual_diagram exEqual_covers (f := exMixed) (o := fun x k => strictSubsumption x k)
    exMixed_marks (fun k hk => ⟨_, exMixed_marks, strict_marks hk⟩) (Ready.fresh_ctx 2 exEqual _) he hf
  have hA : ¬ AllComp 2 exEqualPaths true bot := by
    rw [← leafsAre_iff exEqual_diagram.once exEqual_diagram.range]
    simp [exEqualPaths, LeafsAre, bot]
  have h := h bot ⟨fun _ _ => True, ⟨trivial, ⟨trivial, fun i f b j _ => by simp [MayHave, bot]⟩⟩, trivial, trivial⟩ ⟨fun hf => hf 0 (by omega) rfl, hA⟩
  rw [strictSubsumption_sem] at h
  have hsub : Subsumes 2 (den out.value.val) bot := Classical.not_not.1 fun hn => h ⟨fun _ _ h => absurd rfl h, hn⟩
  have hn : ∀ i < 2, den out.value.val i = none := fun i hi => by
    cases hk : den out.value.val i with
    | none => rfl
    | some b => have := hsub i hi (by simp [hk]); rw [hk] at this; cases this
  rw [← valsOf_den hg]
  simp [valsOf, List.range_succ, hn, valOf]

/-- Concrete case of C98_level: for "`x` is not full, and not all its completions are positive" on the diagram of two equal features, the program
finds the instance without values. -/
example (hc : Correct sv) (hr : Reliable sv) :
    ∃ o st' s', computeOptim sv (fun x => (exMixed x).comp) (fun x k => (strictLel VarGenBotCount x k).comp) ['x'] true 3 st (BasicQContext 2 exEqual) =
      (.ok o, st', s') ∧ o.calls ≤ 4 ∧ o.found = true ∧ o.value.val = [BOT, BOT] := by
  have hm : (exMixed ['x']).Marks 2 [['x']] fun a => if a = VarGenBotCount ['x'] then some (.bots ['x']) else none :=
    ⟨by simp [Query.Marks, Term.Ok], by simp [Query.Marks]; decide⟩
  obtain ⟨o, st', s', e, h1, h2, h3⟩ := C98_level (st := st) hc hr (by omega) (diagram_validated exEqual_diagram exEqual_covers) (f := exMixed)
    (g := VarGenBotCount) hm (by decide) (by decide) (Ready.fresh_ctx 2 exEqual _) (fuel := 3) (by omega)
  have hb : Marks.says 2 exEqual (exMixed ['x']) bot := by
    refine ⟨fun _ _ => True, ⟨trivial, ⟨trivial, fun i f b j _ => by simp [MayHave, bot]⟩⟩, fun hf => hf 0 (by omega) rfl, fun ha => ?_⟩
    exact absurd (ha 4 _ rfl rfl trivial) nofun
  have hfd : o.found = true := by
    cases hk : o.found with
    | true => rfl
    | false => exact absurd hb (h3.1 hk _)
  obtain ⟨hg, -, hn⟩ := h2 hfd
  refine ⟨o, st', s', e, h1, hfd, ?_⟩
  have h0 := hn bot hb
  have : den o.value.val 0 = none ∧ den o.value.val 1 = none := by
    simp only [numBot, countFeats, List.range_succ, List.range_zero, bot] at h0
    cases k0 : den o.value.val 0 <;> cases k1 : den o.value.val 1 <;> simp [k0, k1] at h0 ⊢
  rw [← valsOf_den hg]
  simp [valsOf, List.range_succ, this.1, this.2, valOf]

/-- Concrete case of C98_minimum: on a diagram in which both children of a node are the same leaf, the program finds for (0, 1) the sufficient
reason (0, _), which has the fewest features. -/
example (hc : Correct sv) (hr : Reliable sv) :
    ∃ o st' s', computeOptim sv (fun x => (sufficientReason { val := [ZERO, ONE] } x).comp) (fun x k => (strictLel botCountVarGen x k).comp) ['x'] true 3 st
      (BasicQContext 2 exTwin) = (.ok o, st', s') ∧ o.found = true ∧ numBot 2 (den o.value.val) ≥ 1 := by
  obtain ⟨o, st', s', e, -, h2, h3⟩ := C98_minimum (st := st) (c := { val := [ZERO, ONE] }) (v := ['x']) hc hr (by omega) exTwin_diagram exTwin_covers
    (by decide) (by unfold Full; decide) (Ready.fresh_ctx 2 exTwin _) (fuel := 3) (by omega)
  have hneg : ∀ z, Completes 2 z (den [ZERO, BOT]) → exTwinPaths.classify z = false := by
    intro z h
    have h0 := h 0 (by omega) false rfl
    cases h1 : z 1 <;> simp [exTwinPaths, DTree.classify, h0, h1]
  have hsr : SufficientReason 2 exTwinPaths (den [ZERO, ONE]) (den [ZERO, BOT]) := by
    refine ⟨fun i hi h => ?_, fun y z hy hz => (hneg y hy).trans (hneg z fun i hi b hb => ?_).symm⟩
    · rcases i with - | - | i
      · rfl
      · exact absurd rfl h
      · omega
    · rcases i with - | - | i
      · exact hz 0 hi b hb
      · cases hb
      · omega
  have hfr : Free exTwin (MayHave (den [ZERO, BOT])) 0 := exTwin_marking.free exTwin_marking.root
  have hfd : o.found = true := by
    cases hk : o.found with
    | true => rfl
    | false => exact absurd hfr (h3.1 hk _ hsr)
  refine ⟨o, st', s', e, hfd, ?_⟩
  have := (h2 hfd).2.2.2 _ hsr hfr
  have hb : numBot 2 (den [ZERO, BOT]) = 1 := by decide
  omega

/-- Concrete case of C98_missed and C98_not_minimal: new contexts. -/
example (hcr : Correct sv) (hr : Reliable sv) :
    (∃ o st' s', computation sv { val := [ZERO, ZERO] } ['x'] true 3 st (BasicQContext 2 exEqual) = (.ok o, st', s') ∧ o.found = false) ∧
    ∃ o st' s', computation sv { val := [ONE, ZERO] } ['x'] true 3 st (BasicQContext 2 exImplied) = (.ok o, st', s') ∧ o.found = true ∧
      o.value.val = [ONE, ZERO] :=
  ⟨(C98_missed hcr hr (Ready.fresh_ctx 2 exEqual _) (by omega)).2, (C98_not_minimal hcr hr (Ready.fresh_ctx 2 exImplied _) (by omega)).2⟩

end Goexpdt.Props

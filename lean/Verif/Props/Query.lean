import Verif.Lemmas.Leaves
/-
Properties C09–C16: variable numbering, scoped names, scope stack, reset, constants.
-/
namespace Goexpdt.Props
open Goexpdt Spec

/-! ### C09, C10: variable numbering -/

/-- C09 (stable): after any history `h` (with resets) a triple is numbered; whatever is called next
(other than `Reset`), the same triple gets the same number again. -/
theorem C09_stable (d : Nat) (nodes : List Node) (h ops : List Op) (hr : .reset ∉ ops)
    (vr : VarRep) :
    let r := (run h (BasicQContext d nodes)).cnfVar vr
    ((run ops r.2).cnfVar vr).1 = r.1 := by
  intro r
  have hs := (run_vm h _ (VMok.basic d nodes)).1
  obtain ⟨h1, -, h3, -⟩ := cnfVar_spec hs vr
  have := ((run_vm ops _ h1).2 hr).keep _ _ h3
  rw [cnfVar_of_some this]

/-- C09 (injective): a different triple gets a different number, whatever is called in between
(other than `Reset`). -/
theorem C09_injective (d : Nat) (nodes : List Node) (h ops : List Op) (hr : .reset ∉ ops)
    (vr vr' : VarRep) (hne : vr ≠ vr') :
    let r := (run h (BasicQContext d nodes)).cnfVar vr
    ((run ops r.2).cnfVar vr').1 ≠ r.1 := by
  intro r heq
  have hs := (run_vm h _ (VMok.basic d nodes)).1
  obtain ⟨h1, -, h3, -⟩ := cnfVar_spec hs vr
  obtain ⟨h4, h5⟩ := run_vm ops _ h1
  obtain ⟨h6, h7, h8, -⟩ := cnfVar_spec h4 vr'
  have h9 := h7.keep _ _ ((h5 hr).keep _ _ h3)
  exact hne (h6.inj vr vr' r.1 h9 (by rw [h8, heq]))

/-- C09 (range): numbers lie between 1 and `TopV()`. -/
theorem C09_range (d : Nat) (nodes : List Node) (h : List Op) (vr : VarRep) :
    let r := (run h (BasicQContext d nodes)).cnfVar vr
    1 ≤ r.1 ∧ r.1 ≤ r.2.topV := by
  intro r
  obtain ⟨h1, -, h3, -⟩ := cnfVar_spec (run_vm h _ (VMok.basic d nodes)).1 vr
  exact h1.range _ _ h3

/-- C09 (exists): `CNFVarExists` is true exactly for the triples numbered in the history since the
context was built or last reset. -/
theorem C09_exists (d : Nat) (nodes : List Node) (h ops : List Op) (hr : .reset ∉ ops)
    (vr : VarRep) :
    ((run ops (BasicQContext d nodes)).cnfVarExists vr = true ↔ .cnfVar vr ∈ ops) ∧
    ((run (h ++ .reset :: ops) (BasicQContext d nodes)).cnfVarExists vr = true ↔
      .cnfVar vr ∈ ops) := by
  constructor
  · rw [run_exists _ _ hr]; simp [BasicQContext, Ctx.cnfVarExists]
  · rw [run_append, run_cons, run_exists _ _ hr]; simp [Op.exec, Ctx.reset, Ctx.cnfVarExists]

/-- Concrete case: two triples and a reservation in between get 1 and 11. -/
example : ((BasicQContext 2 []).cnfVar ⟨['x'], 0, 1⟩).1 = 1 ∧
    ((run [.cnfVar ⟨['x'], 0, 1⟩, .updateTopV 10] (BasicQContext 2 [])).cnfVar ⟨['y'], 0, 1⟩).1 = 11 ∧
    ((run [.cnfVar ⟨['x'], 0, 1⟩, .updateTopV 10] (BasicQContext 2 [])).cnfVar ⟨['x'], 0, 1⟩).1 = 1 := by
  decide

/-- C10: `UpdateTopV(v)` returns true iff `v ≥ TopV()`; the new top variable is the larger of the
two. -/
theorem C10_updateTopV (s : Ctx) (v : Int) :
    ((s.updateTopV v).1 = true ↔ s.topV ≤ v) ∧ (s.updateTopV v).2.topV = max s.topV v ∧
    ∀ vr, (s.updateTopV v).2.cnfVarExists vr = s.cnfVarExists vr := by
  unfold Ctx.updateTopV
  split
  · simp only [Ctx.topV, Ctx.cnfVarExists]; exact ⟨by simp; omega, by omega, fun _ => trivial⟩
  · simp only [Ctx.topV, Ctx.cnfVarExists]; exact ⟨by simp; omega, by omega, fun _ => trivial⟩

/-- C10: the top variable never decreases without a `Reset`. -/
theorem C10_topV_monotone (d : Nat) (nodes : List Node) (h ops : List Op) (hr : .reset ∉ ops) :
    (run h (BasicQContext d nodes)).topV ≤ (run (h ++ ops) (BasicQContext d nodes)).topV := by
  rw [run_append]
  exact ((run_vm ops _ (run_vm h _ (VMok.basic d nodes)).1).2 hr).topv_le

/-- C10 (reservation): after `UpdateTopV(v)` every triple that was not numbered before gets a number
larger than `v`, and every triple numbered before the reservation `v ≥ TopV()` has a number that is
at most the old top variable. So the numbers in `(old TopV, v]` are never handed out. -/
theorem C10_reserved (d : Nat) (nodes : List Node) (h ops : List Op) (hr : .reset ∉ ops) (v : Int)
    (vr : VarRep) :
    let s := run h (BasicQContext d nodes)
    let n := ((run ops (s.updateTopV v).2).cnfVar vr).1
    (s.cnfVarExists vr = false → v < n) ∧ (s.cnfVarExists vr = true → n ≤ s.topV) := by
  intro s n
  have hs : VMok s := (run_vm h _ (VMok.basic d nodes)).1
  obtain ⟨h1, h2, h3, h4, -⟩ := updateTopV_spec hs v
  obtain ⟨h5, h6⟩ := run_vm ops _ h1
  obtain ⟨h7, h8, h9, -⟩ := cnfVar_spec h5 vr
  have hext := (h6 hr).trans h8
  constructor
  · intro hne
    have hnone : mapGet (s.updateTopV v).2.vmap vr = none := by
      rw [h3]; simpa [Ctx.cnfVarExists] using hne
    have := hext.fresh vr n hnone h9
    omega
  · intro he
    obtain ⟨m, hm⟩ := Option.isSome_iff_exists.1 he
    have := (h2.trans hext).keep vr m hm
    rw [h9] at this
    simp only [Option.some.injEq] at this
    have := (hs.range vr m hm).2
    show n ≤ s.topv
    omega

/-! ### C11, C12, C13: scoped names and the scope stack -/

/-- C11: different variables (without the separator character) have different scoped names, in any
two reachable scoper states, whatever the targets and indexes of the scopes are. -/
theorem C11_distinct_vars (d d' : Nat) (nodes nodes' : List Node) (h h' : List Op)
    (hr : .reset ∉ h) (hr' : .reset ∉ h') (u v : QVar) (hu : sep ∉ u) (hv : sep ∉ v)
    (hne : u ≠ v) :
    (run h (BasicQContext d nodes)).scopeVar u ≠ (run h' (BasicQContext d' nodes')).scopeVar v := by
  rw [scopeVar_eq (reachable_ok d nodes hr).2, scopeVar_eq (reachable_ok d' nodes' hr').2]
  intro e
  simp only [Except.ok.injEq] at e
  exact hne (split_US hu hv (suffix_shape _) (suffix_shape _) e).1

/-- The condition on the separator cannot be dropped: `"x"` declared in iteration 0 of a scope `"c"`
has the same name as the free variable written `"x␟c␟0"`. -/
theorem C11_separator_needed : ∃ (h : List Op) (u v : QVar), .reset ∉ h ∧ u ≠ v ∧
    (run h (BasicQContext 1 [])).scopeVar u = (run h (BasicQContext 1 [])).scopeVar v :=
  ⟨[.addScope ['c'], .addVar ['x']], ['x'], ['x', sep, 'c', sep, '0'], by decide, by decide,
    by decide⟩

/-- C12 (names): in two reachable states in which `v` has been declared at depth `k` below scopes
with the same targets, the scoped names are equal iff the first `k` value indexes are equal. -/
theorem C12_names_iff (d d' : Nat) (nodes nodes' : List Node) (h h' : List Op)
    (hr : .reset ∉ h) (hr' : .reset ∉ h') (v : QVar) (k : Nat) :
    let s := run h (BasicQContext d nodes)
    let s' := run h' (BasicQContext d' nodes')
    mapGet s.vars v = some k → mapGet s'.vars v = some k →
    (s.scopes.take k).map (·.target) = (s'.scopes.take k).map (·.target) →
    (s.scopeVar v = s'.scopeVar v ↔
      (s.scopes.take k).map (·.vIdx) = (s'.scopes.take k).map (·.vIdx)) := by
  intro s s' hk hk' ht
  rw [scopeVar_eq (reachable_ok d nodes hr).2, scopeVar_eq (reachable_ok d' nodes' hr').2, hk, hk']
  simp only [Option.getD_some, Except.ok.injEq, List.append_cancel_left_eq]
  constructor
  · exact suffix_inj_sameTargets ht
  · intro hi
    clear hk hk' hr hr'
    have key : ∀ gs gs' : List Scope, gs.map (·.target) = gs'.map (·.target) →
        gs.map (·.vIdx) = gs'.map (·.vIdx) → suffix gs = suffix gs' := by
      intro gs
      induction gs with
      | nil => intro gs' h _; cases gs' <;> simp_all
      | cons g gs ih =>
        intro gs' h1 h2
        cases gs' with
        | nil => simp at h1
        | cons g' gs' =>
          simp only [List.map_cons, List.cons.injEq] at h1 h2
          simp [h1.1, h2.1, ih gs' h1.2 h2.2]
    exact key _ _ ht hi

/-- C12 (iterations): a variable declared in iteration `i` of the innermost quantifier and in
iteration `j ≠ i` of it has different names in the two, also in the middle of any nested
quantifiers. -/
theorem C12_iterations (d : Nat) (nodes : List Node) (h : List Op) (hr : .reset ∉ h) (v : QVar)
    (i j : Int) (x y : List FeatV) (ops ops' rest rest' : List Op)
    (hb : balanced 0 (ops ++ rest)) (hb' : balanced 0 (ops' ++ rest')) (hij : i ≠ j) :
    let s := run h (BasicQContext d nodes)
    s.scopes ≠ [] → mapGet s.vars v = none →
    (run (.setScope i x :: .addVar v :: ops) s).scopeVar v ≠
      (run (.setScope j y :: .addVar v :: ops') s).scopeVar v := by
  intro s hne hnone
  obtain ⟨hf, hs⟩ := reachable_ok d nodes hr
  have key : ∀ (i : Int) (x : List FeatV) (ops rest : List Op), balanced 0 (ops ++ rest) →
      (run (.setScope i x :: .addVar v :: ops) s).scopeVar v =
        .ok (v ++ suffix (s.scopes.dropLast ++
          [{ s.scopes.getLast hne with vIdx := i, value := x }])) := by
    intro i x ops rest hb
    rw [run_cons, run_cons]
    have hf1 := exec_varsFun (.setScope i x) s hf
    have hs1 := exec_scopeOk (.setScope i x) s (by simp) hf hs
    have hf2 := exec_varsFun (.addVar v) _ hf1
    have hs2 := exec_scopeOk (.addVar v) _ (by simp) hf1 hs1
    have hsc : ((Op.setScope i x).exec s).scopes =
        s.scopes.dropLast ++ [{ s.scopes.getLast hne with vIdx := i, value := x }] := by
      simp only [Op.exec, setScope_scopes]
      conv => lhs; rw [← List.dropLast_concat_getLast hne]
      rw [setLast_append]
    have hv : mapGet ((Op.addVar v).exec ((Op.setScope i x).exec s)).vars v =
        some s.scopes.length := by
      have hlen : 0 < s.scopes.length := List.length_pos_iff.2 hne
      simp only [Op.exec]
      rw [addVar_vars]
      have h1 : (s.setScope i x).2.scopes ≠ [] := by
        rw [setScope_scopes]; intro e
        have := congrArg List.length e
        simp only [setLast_length, List.length_nil] at this
        omega
      have h2 : mapGet (s.setScope i x).2.vars v = none := by
        have := exec_vars_other (s := s) (op := .setScope i x) (by simp) (by simp)
        simp only [Op.exec] at this
        rw [this, hnone]
      rw [if_pos ⟨h1, h2, rfl⟩, setScope_scopes, setLast_length]
    rw [scopeVar_prefix hf2 hs2 hb hv, scopeVar_eq hs2, hv]
    simp only [Option.getD_some]
    rw [show ((Op.addVar v).exec ((Op.setScope i x).exec s)).scopes =
      ((Op.setScope i x).exec s).scopes from addVar_scopes _ _, hsc, List.take_of_length_le]
    have := List.length_pos_iff.2 hne
    simp; omega
  rw [key i x ops rest hb, key j y ops' rest' hb']
  intro e
  simp only [Except.ok.injEq, List.append_cancel_left_eq] at e
  have := suffix_inj_sameTargets (by simp) e
  simp only [List.map_append, List.map_cons, List.map_nil, List.append_cancel_left_eq,
    List.cons.injEq, and_true] at this
  exact hij this

/-- C12 (sharing): once declared, a variable has the same name throughout all quantifiers nested
below its declaration: in the middle of any balanced history. -/
theorem C12_shared_below (d : Nat) (nodes : List Node) (h : List Op) (hr : .reset ∉ h) (v : QVar)
    (ops rest : List Op) (hb : balanced 0 (ops ++ rest)) (hd : mapGet
      (run h (BasicQContext d nodes)).vars v ≠ none) :
    (run (h ++ ops) (BasicQContext d nodes)).scopeVar v =
      (run h (BasicQContext d nodes)).scopeVar v := by
  obtain ⟨hf, hs⟩ := reachable_ok d nodes hr
  rw [run_append]
  cases hv : mapGet (run h (BasicQContext d nodes)).vars v with
  | none => exact absurd hv hd
  | some k => exact scopeVar_prefix hf hs hb hv

/-- Concrete case: `x` declared in two iterations of `c`, and used inside a nested quantifier. -/
example : (run [.addScope ['c'], .setScope 0 [BOT], .addVar ['x'], .addScope ['e'], .setScope 7 [ONE]]
      (BasicQContext 1 [])).scopeVar ['x'] = .ok (['x', sep, 'c', sep, '0']) ∧
    (run [.addScope ['c'], .setScope 1 [BOT], .addVar ['x']] (BasicQContext 1 [])).scopeVar ['x'] =
      .ok (['x', sep, 'c', sep, '1']) := by decide

/-- C13 (balanced): a balanced history leaves the scope stack as it was, keeps every declared
variable's level, and the only new entries are variables the history declares at the outer level. -/
theorem C13_balanced (d : Nat) (nodes : List Node) (h ops : List Op) (hr : .reset ∉ h)
    (hb : balanced 0 ops) :
    let s := run h (BasicQContext d nodes)
    let s' := run ops s
    s'.scopes = s.scopes ∧
    (∀ v k, mapGet s.vars v = some k → mapGet s'.vars v = some k) ∧
    (∀ v k, mapGet s.vars v = none → mapGet s'.vars v = some k →
      k = s.scopes.length ∧ 0 < k ∧ .addVar v ∈ ops) := by
  intro s s'
  obtain ⟨hf, hs⟩ := reachable_ok d nodes hr
  have := BalInv.run (s0 := s) (D := fun v => .addVar v ∈ ops) (n := 0) (s := s) (ops := ops)
    ⟨⟨[], by simp, rfl⟩, hf, hs, fun _ _ h => h, fun v k h h' => by rw [h] at h'; simp at h'⟩ hs
    (fun _ h => h) hb
  obtain ⟨extra, h1, h2⟩ := this.sc
  rw [List.length_eq_zero_iff] at h2
  subst h2
  have hsc : s'.scopes = s.scopes := by simpa using h1
  refine ⟨hsc, this.old, fun v k hv hk => ?_⟩
  have h3 := this.so v k hk
  rw [hsc] at h3
  rcases this.new v k hv hk with h | ⟨h, h'⟩
  · omega
  · exact ⟨h, h3.1, h'⟩

/-- C13 (no panic): `ScopeVar` never indexes out of range in a state reachable without `Reset`. -/
theorem C13_scopeVar_total (d : Nat) (nodes : List Node) (h : List Op) (hr : .reset ∉ h) (v : QVar) :
    ∃ n, (run h (BasicQContext d nodes)).scopeVar v = .ok n :=
  ⟨_, scopeVar_eq (reachable_ok d nodes hr).2 v⟩

/-- C13 (errors): `PopScope` and `SetScope` fail exactly on the empty stack, and then change
nothing. -/
theorem C13_errors (s : Ctx) (i : Int) (val : List FeatV) :
    ((∃ e, s.popScope.1 = .error e) ↔ s.scopes = []) ∧
    ((∃ e, (s.setScope i val).1 = .error e) ↔ s.scopes = []) ∧
    (s.scopes = [] → s.popScope.2 = s ∧ (s.setScope i val).2 = s) := by
  unfold Ctx.popScope Ctx.setScope
  cases hs : s.scopes with
  | nil => simp
  | cons g gs => simp

/-- query/scoper.go:98-102: the loop over the map, which Go may go through in any order; the map is a function here. -/
def prune (k : Nat) : List QVar → (QVar → Option Nat) → QVar → Option Nat
  | [], m => m
  | v :: vs, m => prune k vs (if m v = some k then fun u => if u = v then none else m u else m)

/-- C13 (order): in all contexts, `PopScope` leaves the same map whatever order the loop takes. -/
theorem C13_map_order (d : Nat) (nodes : List Node) (h : List Op) (order : List QVar)
    (ho : ∀ v, mapGet (run h (BasicQContext d nodes)).vars v ≠ none → v ∈ order) :
    let s := run h (BasicQContext d nodes)
    s.scopes ≠ [] → prune s.scopes.length order (mapGet s.vars) = mapGet s.popScope.2.vars := by
  intro s hne
  have hf : ∀ (ops : List Op) (s : Ctx), VarsFun s → VarsFun (run ops s) := by
    intro ops
    induction ops with
    | nil => exact fun _ => id
    | cons op ops ih => exact fun s hs => ih _ (exec_varsFun op s hs)
  have key : ∀ (k : Nat) (order : List QVar) (m : QVar → Option Nat) (v : QVar),
      prune k order m v = if m v = some k ∧ v ∈ order then none else m v := by
    intro k order
    induction order with
    | nil => intro m v; simp [prune]
    | cons u us ih =>
      intro m v
      rw [prune, ih]
      by_cases hu : m u = some k
      · by_cases hv : v = u
        · subst hv; simp [hu]
        · simp [hu, hv]
      · by_cases hv : v = u
        · subst hv; simp [hu]
        · simp [hu, hv]
  funext v
  rw [key, popScope_vars (hf h _ (basic_scoper d nodes).1) hne]
  have := ho v
  change mapGet s.vars v ≠ none → _ at this
  cases hv : mapGet s.vars v with
  | none => simp
  | some k =>
    rw [hv] at this
    simp [this (by simp)]
    rfl

/-- Concrete case: two orders for three variables, of which two are removed. -/
example : let s := run [.addScope ['b'], .addVar ['a'], .addScope ['c'], .addVar ['x'], .addVar ['y'], .addScope ['e'], .addVar ['u'], .popScope] (BasicQContext 1 [])
    prune s.scopes.length [['x'], ['a'], ['y']] (mapGet s.vars) ['y'] = none ∧
    prune s.scopes.length [['y'], ['x'], ['a']] (mapGet s.vars) = mapGet s.popScope.2.vars := by
  refine ⟨by decide, C13_map_order 1 [] _ _ (fun v hv => ?_) (by decide)⟩
  have : (run [.addScope ['b'], .addVar ['a'], .addScope ['c'], .addVar ['x'], .addVar ['y'], .addScope ['e'], .addVar ['u'],
      .popScope] (BasicQContext 1 [])).vars = [(['y'], 2), (['x'], 2), (['a'], 1)] := by decide
  rw [this] at hv
  simp only [mapGet] at hv
  grind

/-- Concrete balanced history with two nested scopes, inner and outer declarations. -/
example : balanced 0 [.addVar ['a'], .addScope ['c'], .setScope 0 [BOT], .addVar ['b'],
    .addScope ['e'], .setScope 3 [ONE], .popScope, .setScope 1 [ZERO], .popScope] := by
  simp [balanced]

/-! ### C14: Reset -/

/-- C14 fails: `Reset` keeps the variable levels. After a history that leaves two scopes open (for
instance because a component panicked or the caller never popped them), `Reset` does not return the
context to its original state: the same later calls panic on it and not on a new context. -/
theorem C14_reset_refuted : ∃ (h later : List Op) (v : QVar),
    .reset ∉ h ∧ .reset ∉ later ∧
    (run later (run h (BasicQContext 1 [])).reset).scopeVar v =
      .error (.panic "index out of range") ∧
    (run later (BasicQContext 1 [])).scopeVar v = .ok v :=
  ⟨[.addScope ['a'], .addScope ['b'], .addVar ['v']], [.addScope ['c']], ['v'],
    by decide, by decide, by decide, by decide⟩

/-- C14 also fails silently: no panic, but a variable gets another name than on a new context. -/
theorem C14_reset_refuted_name : ∃ (h later : List Op) (v n n' : QVar),
    (run later (run h (BasicQContext 1 [])).reset).scopeVar v = .ok n ∧
    (run later (BasicQContext 1 [])).scopeVar v = .ok n' ∧ n ≠ n' :=
  ⟨[.addScope ['a'], .addVar ['v']], [.addScope ['c']], ['v'],
    ['v', sep, 'c', sep, '0'], ['v'], by decide, by decide, by decide⟩

/-- C14 (partial). Full claim: for every history before it, `Reset` makes the context equal to a new
one. What holds: it does when the history before it was balanced (every opened scope was closed);
for other histories only the numbering and the stack are reset, not the variable levels. -/
theorem C14_reset_partial (d : Nat) (nodes : List Node) (h : List Op) :
    (balanced 0 h → (run h (BasicQContext d nodes)).reset = BasicQContext d nodes) ∧
    (let s := (run h (BasicQContext d nodes)).reset
     s.scopes = [] ∧ s.topv = 0 ∧ s.vmap = [] ∧ s.dim = d ∧ s.nodes = nodes ∧
     s.vars = (run h (BasicQContext d nodes)).vars) := by
  have hdim : ∀ (h : List Op) (s : Ctx), (run h s).dim = s.dim ∧ (run h s).nodes = s.nodes := by
    intro h
    induction h with
    | nil => exact fun _ => ⟨rfl, rfl⟩
    | cons op h ih =>
      intro s
      rw [run_cons, (ih _).1, (ih _).2]
      cases op with
      | cnfVar vr => simp only [Op.exec, Ctx.cnfVar]; split <;> exact ⟨rfl, rfl⟩
      | updateTopV v => simp only [Op.exec, Ctx.updateTopV]; split <;> exact ⟨rfl, rfl⟩
      | addVar v =>
        simp only [Op.exec, Ctx.addVar]
        split
        · exact ⟨rfl, rfl⟩
        · split <;> exact ⟨rfl, rfl⟩
      | addScope t => exact ⟨rfl, rfl⟩
      | popScope => simp only [Op.exec, Ctx.popScope]; split <;> exact ⟨rfl, rfl⟩
      | setScope i v => simp only [Op.exec, Ctx.setScope]; split <;> exact ⟨rfl, rfl⟩
      | reset => exact ⟨rfl, rfl⟩
  refine ⟨fun hb => ?_, rfl, rfl, rfl, (hdim h _).1, (hdim h _).2, rfl⟩
  have hvars : (run h (BasicQContext d nodes)).vars = [] := by
    obtain ⟨-, -, h3⟩ := C13_balanced d nodes [] h (by simp) hb
    cases hv : (run h (BasicQContext d nodes)).vars with
    | nil => rfl
    | cons p m =>
      exfalso
      obtain ⟨v, k⟩ := p
      have := h3 v k rfl (by
        show mapGet (run h (BasicQContext d nodes)).vars v = some k
        rw [hv]; simp [mapGet_cons])
      simp [run, BasicQContext] at this
      omega
  unfold Ctx.reset
  rw [hvars, (hdim h _).1, (hdim h _).2]
  rfl

/-- C14, exactly when it holds: `Reset` after a history makes the context equal to a new one, and makes
`ScopeVar` answer as on a new one whatever is called later, if and only if the history left no variable
declared in a scope that it did not close. -/
theorem C14_reset_iff (d : Nat) (nodes : List Node) (h : List Op) (hr : .reset ∉ h) :
    ((run h (BasicQContext d nodes)).reset = BasicQContext d nodes ↔ ∀ v, ¬ Leaves h v) ∧
    ((∀ later v, (run later (run h (BasicQContext d nodes)).reset).scopeVar v =
      (run later (BasicQContext d nodes)).scopeVar v) ↔ ∀ v, ¬ Leaves h v) := by
  obtain ⟨-, -, -, -, hdim, hnodes, -⟩ := C14_reset_partial d nodes h
  have back : (∀ v, ¬ Leaves h v) → (run h (BasicQContext d nodes)).reset = BasicQContext d nodes := by
    intro hn
    have hv : (run h (BasicQContext d nodes)).vars = [] := by
      cases e : (run h (BasicQContext d nodes)).vars with
      | nil => rfl
      | cons p m =>
        refine absurd ((leaves_iff d nodes h hr p.1).2 ?_) (hn p.1)
        rw [e, mapGet_cons]
        simp
    show Ctx.mk _ _ _ _ _ _ = _
    rw [hv]
    simp only [Ctx.reset] at hdim hnodes
    rw [hdim, hnodes]
    rfl
  have forth : (∀ later v, (run later (run h (BasicQContext d nodes)).reset).scopeVar v =
      (run later (BasicQContext d nodes)).scopeVar v) → ∀ v, ¬ Leaves h v := by
    intro hl v hv
    obtain ⟨k, hk⟩ := Option.ne_none_iff_exists'.1 ((leaves_iff d nodes h hr v).1 hv)
    have hpos := ((reachable_ok d nodes hr).2 v k hk).1
    have := hl [.addScope ['c']] v
    obtain ⟨k, rfl⟩ : ∃ j, k = j + 1 := ⟨k - 1, by omega⟩
    cases k with
    | zero =>
      simp [run, Op.exec, Ctx.addScope, Ctx.reset, Ctx.scopeVar, BasicQContext, Ctx.scopeSuffix] at this hk
      rw [hk] at this
      simp [Ctx.scopeSuffix] at this
    | succ k =>
      simp [run, Op.exec, Ctx.addScope, Ctx.reset, Ctx.scopeVar, BasicQContext, Ctx.scopeSuffix] at this hk
      rw [hk] at this
      simp [Ctx.scopeSuffix] at this
  exact ⟨⟨fun e => forth fun later v => by rw [e], back⟩, ⟨forth, fun hn later v => by rw [back hn]⟩⟩

/-- Concrete cases: the variable of a scope that is closed is not left, that of the open one is. -/
example : (∀ v, ¬ Leaves [.addScope ['a'], .addVar ['v'], .popScope] v) ∧
    Leaves [.addScope ['a'], .addScope ['b'], .addVar ['v'], .popScope, .addVar ['w']] ['w'] := by
  refine ⟨fun v h => ?_, ?_⟩
  · rw [leaves_iff 1 [] _ (by decide)] at h
    exact h rfl
  · rw [leaves_iff 1 [] _ (by decide)]
    decide

/-! ### C15: ScopeConst -/

/-- C15: if some scope targets the constant's identifier the result carries that identifier and the
value of the outermost such scope, with ok = true; otherwise the constant is returned unchanged with
ok = false. -/
theorem C15_scopeConst (s : Ctx) (c : QConst) :
    (∃ pre g post, s.scopes = pre ++ g :: post ∧ (∀ g' ∈ pre, g'.target ≠ c.id) ∧
      g.target = c.id ∧ s.scopeConst c = ({ id := c.id, val := g.value }, true)) ∨
    ((∀ g ∈ s.scopes, g.target ≠ c.id) ∧ s.scopeConst c = (c, false)) :=
  scopeConstLoop_spec c s.scopes

/-- C15 (distinct targets): if the innermost scope is the only one with target `c.ID`, then after
`SetScope(i, val)` the constant resolves to `val`, also inside nested quantifiers over other
targets. -/
theorem C15_current_value (s : Ctx) (pre inner : List Scope) (g : Scope) (c : QConst) (i : Int)
    (val : List FeatV) (hs : s.scopes = pre ++ [g]) (ht : g.target = c.id)
    (hpre : ∀ g' ∈ pre, g'.target ≠ c.id) :
    (s.setScope i val).2.scopeConst c = ({ id := c.id, val := val }, true) ∧
    ({ (s.setScope i val).2 with scopes := (s.setScope i val).2.scopes ++ inner } : Ctx).scopeConst c =
      ({ id := c.id, val := val }, true) := by
  have key : ∀ (pre post : List Scope) (g : Scope), (∀ g' ∈ pre, g'.target ≠ c.id) →
      g.target = c.id → Ctx.scopeConstLoop c (pre ++ g :: post) =
        ({ id := c.id, val := g.value }, true) := by
    intro pre
    induction pre with
    | nil => intro post g _ h; simp [Ctx.scopeConstLoop, h]
    | cons a pre ih =>
      intro post g hp h
      simp only [List.mem_cons, forall_eq_or_imp] at hp
      simp only [List.cons_append, Ctx.scopeConstLoop]
      rw [if_neg hp.1, ih post g hp.2 h]
  have hsc : (s.setScope i val).2.scopes = pre ++ [{ g with vIdx := i, value := val }] := by
    rw [setScope_scopes, hs, setLast_append]
  unfold Ctx.scopeConst
  constructor
  · rw [hsc]; exact key pre [] _ hpre ht
  · show Ctx.scopeConstLoop c ((s.setScope i val).2.scopes ++ inner) = _
    rw [hsc, List.append_assoc]
    exact key pre inner _ hpre ht

/-- Concrete case: the quantifier over `e` is at its third node, below a quantifier over `a`. -/
example : let s := run [.addScope ['a'], .setScope 0 [BOT], .addScope ['e'], .setScope 1 [ZERO]] (BasicQContext 1 [])
    (s.setScope 2 [ONE]).2.scopeConst { id := ['e'] } = ({ id := ['e'], val := [ONE] }, true) :=
  (C15_current_value _ [⟨['a'], [BOT], 0⟩] [] ⟨['e'], [ZERO], 1⟩ { id := ['e'] } 2 [ONE] (by decide) rfl (by decide)).1

/-- C15 (no shadowing): with the same target at two levels the outer value wins, so the inner
quantifier's current value is not seen. -/
theorem C15_no_shadowing : ∃ (h : List Op) (c : QConst), .reset ∉ h ∧
    ∃ pre i val, h = pre ++ [.setScope i val] ∧
    (run h (BasicQContext 1 [])).scopeConst c ≠ ({ id := c.id, val := val }, true) ∧
    (run h (BasicQContext 1 [])).scopeConst c = ({ id := c.id, val := [ZERO] }, true) ∧
    (run h (BasicQContext 1 [])).scopes.map (·.target) = [c.id, c.id] :=
  ⟨[.addScope ['e'], .setScope 0 [ZERO], .addScope ['e'], .setScope 0 [ONE]], ⟨['e'], []⟩, by decide,
    [.addScope ['e'], .setScope 0 [ZERO], .addScope ['e']], 0, [ONE], by decide, by decide, by decide,
    by decide⟩

/-- C15 (capture): a constant written as a literal value without identifier is captured by a scope
with the empty target, which loses the literal's value. -/
theorem C15_anonymous_capture : ∃ (h : List Op), .reset ∉ h ∧
    (run h (BasicQContext 1 [])).scopeConst { val := [ONE] } = ({ val := [ZERO] }, true) :=
  ⟨[.addScope [], .setScope 0 [ZERO]], by decide, by decide⟩

/-! ### C16: constants -/

/-- A valid feature value. -/
def ValidFeat (f : FeatV) : Prop := f = BOT ∨ f = ZERO ∨ f = ONE

theorem C16_isFull (c : QConst) : c.isFull = true ↔ ∀ f ∈ c.val, f ≠ BOT := by
  have : ∀ l : List FeatV, QConst.isFull.go l = true ↔ ∀ f ∈ l, f ≠ BOT := by
    intro l
    induction l with
    | nil => simp [QConst.isFull.go]
    | cons a l ih =>
      simp only [QConst.isFull.go, List.mem_cons, forall_eq_or_imp]
      split
      · simp_all
      · simp_all
  exact this c.val

theorem C16_botCount (c : QConst) : c.botCount = (c.val.filter (fun f => f == BOT)).length := by
  have : ∀ (l : List FeatV) (n : Nat),
      l.foldl (fun count ft => if ft = BOT then count + 1 else count) n =
        n + (l.filter (fun f => f == BOT)).length := by
    intro l
    induction l with
    | nil => simp
    | cons a l ih =>
      intro n
      simp only [List.foldl_cons, List.filter_cons]
      rw [ih]
      by_cases h : a = BOT
      · simp [h]; omega
      · simp [h]
  have h := this c.val 0
  simpa [QConst.botCount] using h

/-- C16: full iff no bottom is counted. -/
theorem C16_isFull_iff_botCount (c : QConst) : c.isFull = true ↔ c.botCount = 0 := by
  rw [C16_isFull, C16_botCount, List.length_eq_zero_iff, List.filter_eq_nil_iff]
  simp

theorem C16_equalValue (c t : QConst) : c.equalValue t = true ↔ c.val = t.val := by
  have : ∀ (l m : List FeatV), l.length = m.length → (QConst.equalValue.go l m = true ↔ l = m) := by
    intro l
    induction l with
    | nil => intro m h; cases m <;> simp_all [QConst.equalValue.go]
    | cons a l ih =>
      intro m h
      cases m with
      | nil => simp at h
      | cons b m =>
        simp only [List.length_cons, Nat.add_right_cancel_iff] at h
        simp only [QConst.equalValue.go, List.cons.injEq]
        split
        · next e => simp only [Bool.false_eq_true, false_iff, not_and]; exact fun e' => absurd e' e
        · next e => rw [ih m h]; simp only [Decidable.not_not] at e; simp [e]
  unfold QConst.equalValue
  split
  · next h => simp only [Bool.false_eq_true, false_iff]; exact fun e => h (by rw [e])
  · next h => exact this _ _ (Decidable.not_not.1 h)

/-- C16: `AsString` separates constants with valid values (so it is usable in variable names). -/
theorem C16_asString_injective (c t : QConst) (hc : ∀ f ∈ c.val, ValidFeat f)
    (ht : ∀ f ∈ t.val, ValidFeat f) : c.asString = t.asString ↔ c.val = t.val := by
  have : ∀ (l m : List FeatV), (∀ f ∈ l, ValidFeat f) → (∀ f ∈ m, ValidFeat f) →
      (QConst.asString ⟨[], l⟩ = QConst.asString ⟨[], m⟩ → l = m) := by
    intro l
    induction l with
    | nil =>
      intro m _ hm h
      cases m with
      | nil => rfl
      | cons b m =>
        rcases hm b (by simp) with rfl | rfl | rfl <;> simp [QConst.asString, BOT, ZERO, ONE] at h
    | cons a l ih =>
      intro m hl hm h
      cases m with
      | nil =>
        rcases hl a (by simp) with rfl | rfl | rfl <;> simp [QConst.asString, BOT, ZERO, ONE] at h
      | cons b m =>
        have := ih m (fun f hf => hl f (by simp [hf])) (fun f hf => hm f (by simp [hf]))
        simp only [QConst.asString, BOT, ZERO, ONE] at this
        rcases hl a (by simp) with rfl | rfl | rfl <;> rcases hm b (by simp) with rfl | rfl | rfl <;>
          simp [QConst.asString, BOT, ZERO, ONE] at h <;> exact congrArg _ (this h)
  exact ⟨this c.val t.val hc ht, fun h => by simp only [QConst.asString, h]⟩

/-- Outside the valid values `AsString` is not injective (other integers are dropped). -/
theorem C16_asString_invalid : ∃ c t : QConst, c.asString = t.asString ∧ c.val ≠ t.val :=
  ⟨⟨[], [3, ONE]⟩, ⟨[], [ONE]⟩, by decide, by decide⟩

theorem C16_allBotConst (d : Nat) : (AllBotConst d).val = List.replicate d BOT ∧
    (AllBotConst d).id = [] := by
  refine ⟨?_, rfl⟩
  have : ∀ (l : List Nat) (d : Nat), l.foldl (fun fs _ => fs.set 0 BOT) (List.replicate d (0 : FeatV)) =
      List.replicate d BOT := by
    intro l
    induction l with
    | nil => intro d; rfl
    | cons a l ih =>
      intro d
      rw [List.foldl_cons]
      have : (List.replicate d (0 : FeatV)).set 0 BOT = List.replicate d 0 := by
        cases d <;> simp [List.replicate, BOT]
      rw [this, ih]
  exact this _ d

/-- C16: `ValidateConstsDim` accepts iff all lengths are the dimension, and otherwise names the
first constant with another length (counting from 1). -/
theorem C16_validate (d : Nat) (cs : List QConst) :
    (ValidateConstsDim d cs = .ok () ↔ ∀ c ∈ cs, c.val.length = d) ∧
    (∀ pre c post, cs = pre ++ c :: post → (∀ c' ∈ pre, c'.val.length = d) → c.val.length ≠ d →
      ValidateConstsDim d cs = .error (.msg
        s!"constant{pre.length + 1}: wrong dim {c.val.length} ({d} feats in context)")) := by
  have key : ∀ (cs : List QConst) (i : Nat),
      (validateConstsDimFrom d i cs = .ok () ↔ ∀ c ∈ cs, c.val.length = d) ∧
      (∀ pre c post, cs = pre ++ c :: post → (∀ c' ∈ pre, c'.val.length = d) → c.val.length ≠ d →
        validateConstsDimFrom d i cs = .error (.msg
          s!"constant{i + pre.length + 1}: wrong dim {c.val.length} ({d} feats in context)")) := by
    intro cs
    induction cs with
    | nil => intro i; simp [validateConstsDimFrom]
    | cons a cs ih =>
      intro i
      constructor
      · simp only [validateConstsDimFrom]
        split
        · next h => simp [h]
        · next h => rw [(ih (i + 1)).1]; simp at h; simp [h]
      · intro pre c post he hp hc
        cases pre with
        | nil =>
          simp only [List.nil_append, List.cons.injEq] at he
          obtain ⟨rfl, rfl⟩ := he
          simp [validateConstsDimFrom, hc]
        | cons b pre =>
          simp only [List.cons_append, List.cons.injEq] at he
          obtain ⟨rfl, rfl⟩ := he
          simp only [List.mem_cons, forall_eq_or_imp] at hp
          simp only [validateConstsDimFrom, hp.1, ne_eq, not_true_eq_false, if_false]
          rw [(ih (i + 1)).2 pre c post rfl hp.2 hc]
          simp only [List.length_cons]
          rw [show i + 1 + pre.length + 1 = i + (pre.length + 1) + 1 from by omega]
  refine ⟨(key cs 0).1, fun pre c post he hp hc => ?_⟩
  have := (key cs 0).2 pre c post he hp hc
  rwa [Nat.zero_add] at this

example : ValidateConstsDim 2 [⟨[], [0, 1]⟩, ⟨[], [0]⟩] =
    .error (.msg "constant2: wrong dim 1 (2 feats in context)") := by decide
example : (⟨[], [BOT, ONE, ZERO]⟩ : QConst).asString = ['_', '1', '0'] ∧
    (⟨[], [BOT, ONE, BOT]⟩ : QConst).botCount = 2 := by decide

end Goexpdt.Props

import Verif.Lemmas.Notions
/-
C86: notions of explanation of the literature, computed by `ComputeOptim` with the predicates and orders of the library.
-/
namespace Goexpdt.Props
open Goexpdt Spec

variable {S : Type} {sv : Solver S} {d : Nat} {nodes : List Node} {T : DTree} {v : QVar} {c : QConst} {gr gb : QVar → QVar}
  {gh : QVar → QVar → QVar} {st : S} {s : Ctx}

/-- C86, minimum sufficient reasons: for every decision tree and every full constant, the formula of examples/computation.go with the order by
the number of features gives a sufficient reason with the fewest features, with at most `dim + 2` calls, whatever solutions the solver
chooses. -/
theorem C86_minimum_reason (hc : Correct sv) (hr : Reliable sv) (hd : 0 < d) (hT : IsTree d nodes T) (hC : Covers nodes T)
    (hk : GoodVals d c.val) (hf : Full d (den c.val)) (hv : sep ∉ v) (h1 : gr v ≠ v) (h2 : gb v ≠ v) (h3 : gb v ≠ gr v)
    (hs : Ready d nodes [v] s) {fuel : Nat} (hfuel : d < fuel) :
    ∃ o st' s', computeOptim sv (fun _ => (reasonQuery gr c v).comp) (fun _ k => (strictLel gb v k).comp) v true fuel st s = (.ok o, st', s') ∧
      o.found = true ∧ o.calls ≤ d + 2 ∧ GoodVals d o.value.val ∧ MinimumSufficientReason d T (den c.val) (den o.value.val) := by
  have hg := reasonQuery_good (gr := gr) hd hT hC hk h1
  have hp := reasonQuery_plain (gr := gr) (c := c) hv
  have hh : Hygienic d T ((Query.withVar v (reasonQuery gr c v)).names d T [])
      ((gb v, .bots v) :: (Query.withVar v (reasonQuery gr c v)).uses d T (fun _ => 0) []) := by
    refine .of_eq ?_
    simp [reasonQuery, Query.uses, Query.names, Atom.uses, suffix, h1, h2, h3, h3.symm]
  have hs' : Ready d nodes ((Query.withVar v (reasonQuery gr c v)).names d T []) s := by
    simpa [reasonQuery, Query.names, suffix] using hs
  obtain ⟨o, st', s', e, hcalls⟩ := C48_lel (st := st) hc hr hg hp hh hs' hfuel
  have hab := fun e => about_reasonQuery (gr := gr) (v := v) (e := e) hf hT.range
  have hfound : o.found = true := by
    cases hf' : o.found with
    | true => rfl
    | false =>
      refine absurd ((hab _).2 ?_) ((C47_absent_partial (st := st) hc hr (optimises_lel hg hp hh).poses hs' fuel).1 ⟨o, st', s', e, hf'⟩ (den c.val))
      obtain ⟨b, hb, -⟩ := full_class hf hT.range
      exact ⟨fun _ _ _ => rfl, fun y z hy hz => (hb y hy).trans (hb z hz).symm⟩
  obtain ⟨k1, k2, k3, k4⟩ := C46_queries hc (optimises_lel hg hp hh) hs' e hfound
  refine ⟨o, st', s', e, hfound, hcalls, ⟨k1, k2⟩, (hab _).1 k3, fun y hy => ?_⟩
  have := k4 y ((hab y).2 hy)
  rw [about_strictLel] at this
  have e1 := numDef_add_numBot d y
  have e2 := numDef_add_numBot d (den o.value.val)
  unfold numDef
  omega

/-- C86, determinant feature sets with the fewest features (the notion of examples/evaluation.go, there only decided for a constant). -/
theorem C86_least_dfs (hc : Correct sv) (hr : Reliable sv) (hd : 0 < d) (hT : IsTree d nodes T) (hC : Covers nodes T)
    (hv : sep ∉ v) (h2 : gb v ≠ v) (hs : Ready d nodes [v] s) {fuel : Nat} (hfuel : d < fuel) :
    ∃ o st' s', computeOptim sv (fun _ => (dfsQuery v).comp) (fun _ k => (strictLel gb v k).comp) v true fuel st s = (.ok o, st', s') ∧
      o.found = true ∧ o.calls ≤ d + 2 ∧ GoodVals d o.value.val ∧ LeastDFS d T (den o.value.val) := by
  have hg := dfsQuery_good (v := v) hd hT hC
  have hp := dfsQuery_plain hv
  have hh : Hygienic d T ((Query.withVar v (dfsQuery v)).names d T [])
      ((gb v, .bots v) :: (Query.withVar v (dfsQuery v)).uses d T (fun _ => 0) []) := by
    refine .of_eq ?_
    simp [dfsQuery, Query.uses, Query.names, Atom.uses, suffix, h2]
  have hs' : Ready d nodes ((Query.withVar v (dfsQuery v)).names d T []) s := by
    simpa [dfsQuery, Query.names, suffix] using hs
  obtain ⟨o, st', s', e, hcalls⟩ := C48_lel (st := st) hc hr hg hp hh hs' hfuel
  have hfound : o.found = true := by
    cases hf' : o.found with
    | true => rfl
    | false =>
      refine absurd ((about_dfsQuery _).2 ?_) ((C47_absent_partial (st := st) hc hr (optimises_lel hg hp hh).poses hs' fuel).1
        ⟨o, st', s', e, hf'⟩ (fun _ => some true))
      exact full_dfs hT.range fun _ _ h => by simp at h
  obtain ⟨k1, k2, k3, k4⟩ := C46_queries hc (optimises_lel hg hp hh) hs' e hfound
  refine ⟨o, st', s', e, hfound, hcalls, ⟨k1, k2⟩, (about_dfsQuery _).1 k3, fun y hy hD => ?_⟩
  have := k4 y ((about_dfsQuery y).2 hD)
  rw [about_strictLel] at this
  have e1 := numDef_add_numBot d y
  have e2 := numDef_add_numBot d (den o.value.val)
  omega

/-- C86, minimal determinant feature sets, with the order of examples/computation.go. -/
theorem C86_minimal_dfs (hc : Correct sv) (hr : Reliable sv) (hd : 0 < d) (hT : IsTree d nodes T) (hC : Covers nodes T)
    (hv : sep ∉ v) (hs : Ready d nodes [v] s) {fuel : Nat} (hfuel : d < fuel) :
    ∃ o st' s', computeOptim sv (fun _ => (dfsQuery v).comp) (fun _ k => (strictSubs v k).comp) v true fuel st s = (.ok o, st', s') ∧
      o.found = true ∧ o.calls ≤ d + 2 ∧ GoodVals d o.value.val ∧ MinimalDFS d T (den o.value.val) := by
  have hg := dfsQuery_good (v := v) hd hT hC
  have hp := dfsQuery_plain hv
  have hs' : Ready d nodes ((Query.withVar v (dfsQuery v)).names d T []) s := by
    simpa [dfsQuery, Query.names, suffix] using hs
  obtain ⟨o, st', s', e, hcalls⟩ := C48_subsumption (st := st) hc hr hg hp hs' hfuel
  have hfound : o.found = true := by
    cases hf' : o.found with
    | true => rfl
    | false =>
      refine absurd ((about_dfsQuery _).2 ?_) ((C47_absent_partial (st := st) hc hr (optimises_subs hg hp).poses hs' fuel).1
        ⟨o, st', s', e, hf'⟩ (fun _ => some true))
      exact full_dfs hT.range fun _ _ h => by simp at h
  obtain ⟨k1, k2, k3, k4⟩ := C46_queries hc (optimises_subs hg hp) hs' e hfound
  refine ⟨o, st', s', e, hfound, hcalls, ⟨k1, k2⟩, (about_dfsQuery _).1 k3, fun y hy hsub => subsumes_antisymm hsub ?_⟩
  have := k4 y ((about_dfsQuery y).2 hy)
  rw [about_strictSubs] at this
  exact Classical.not_not.1 fun hn => this ⟨hsub, hn⟩

theorem contrast_in (hd : 0 < d) (hT : IsTree d nodes T) (hC : Covers nodes T) (hk : GoodVals d c.val) (hv : sep ∉ v) (h1 : gr v ≠ v)
    (h2 : ∀ key, gh v key ≠ v) (h3 : ∀ key, gh v key ≠ gr v) :
    ClosestIn d nodes T (fun _ => 0) v (contrastQuery gr c v) c gh :=
  ⟨contrastQuery_good hd hT hC hk h1, contrastQuery_plain hv, hk, fun key =>
    ⟨by simpa [contrastQuery, Query.names, suffix] using h2 key, by
      simpa [contrastQuery, Query.uses, Atom.uses, suffix] using (h3 key).symm⟩⟩

theorem alike_in (hd : 0 < d) (hT : IsTree d nodes T) (hC : Covers nodes T) (hk : GoodVals d c.val) (hv : sep ∉ v) (h1 : gr v ≠ v)
    (h2 : ∀ key, gh v key ≠ v) (h3 : ∀ key, gh v key ≠ gr v) :
    ClosestIn d nodes T (fun _ => 0) v (alikeQuery gr c v) c gh :=
  ⟨alikeQuery_good hd hT hC hk h1, alikeQuery_plain hv, hk, fun key =>
    ⟨by simpa [alikeQuery, Query.names, suffix] using h2 key, by
      simpa [alikeQuery, Query.uses, Atom.uses, suffix] using (h3 key).symm⟩⟩

/-- C86, minimum change required: for every decision tree and every full constant, the formula that says "full and of the other class" with the
order by distance gives an instance of the other class at the least distance, or says that there is none exactly if all instances have
the same class; with at most `dim + 2` calls. -/
theorem C86_minimum_change (hc : Correct sv) (hr : Reliable sv) (hd : 0 < d) (hT : IsTree d nodes T) (hC : Covers nodes T)
    (hk : GoodVals d c.val) (hf : Full d (den c.val)) (hv : sep ∉ v) (h1 : gr v ≠ v) (h2 : ∀ key, gh v key ≠ v)
    (h3 : ∀ key, gh v key ≠ gr v) (hs : Ready d nodes [v] s) {fuel : Nat} (hfuel : d + 1 < fuel) :
    ∃ o st' s', computeOptim sv (fun _ => (contrastQuery gr c v).comp) (fun _ k => (strictLeh c gh v k).comp) v true fuel st s =
        (.ok o, st', s') ∧ o.calls ≤ d + 2 ∧
      (o.found = true → GoodVals d o.value.val ∧ MinimumChangeRequired d T (den c.val) (den o.value.val)) ∧
      (o.found = false ↔ ∀ x y, T.classify x = T.classify y) := by
  have hin := contrast_in (gr := gr) (gh := gh) hd hT hC hk hv h1 h2 h3
  have hs' : Ready d nodes ((Query.withVar v (contrastQuery gr c v)).names d T []) s := by
    simpa [contrastQuery, Query.names, suffix] using hs
  have hab := fun e => about_contrastQuery (gr := gr) (v := v) (e := e) hf hT.range
  have hfull : ∀ e, (contrastQuery gr c v).about d T v e → Full d e := fun e h => ((hab e).1 h).1
  obtain ⟨o, st', s', e, -, hcalls⟩ := C61_ends_partial (st := st) hc hr hin hs' hfuel
  refine ⟨o, st', s', e, hcalls hfull, fun hfound => ?_, ?_⟩
  · obtain ⟨k1, -, -⟩ := C61_closest_partial hc hin hs' e hfound
    obtain ⟨k2, k3⟩ := C61_minimal_distance_partial hc hin hf hfull hs' e hfound
    exact ⟨k1, (hab _).1 k2, fun y hy => k3 y ((hab y).2 hy)⟩
  · have hn := C47_absent_partial (st := st) hc hr (poses_leh hin) hs' fuel
    rw [e] at hn
    have hn' : o.found = false ↔ ∀ e, ¬ (contrastQuery gr c v).about d T v e := by
      rw [← hn]
      exact ⟨fun h => ⟨o, st', s', rfl, h⟩, fun ⟨o', _, _, h, h'⟩ => by
        simp only [Prod.mk.injEq, Except.ok.injEq] at h
        rw [h.1]; exact h'⟩
    rw [hn']
    simp only [hab]
    obtain ⟨b, hb, -⟩ := full_class hf hT.range
    obtain ⟨w, hw⟩ := exists_completes d (den c.val)
    constructor
    · intro h
      have key : ∀ x, T.classify x = b := by
        intro x
        refine Classical.byContradiction fun hx => h (fun i => some (x i)) ⟨fun _ _ h => by simp at h, fun y z hy hz => ?_⟩
        rw [hb z hz]
        obtain ⟨a, ha, -⟩ := full_class (d := d) (k := fun i => some (x i)) (T := T) (fun _ _ h => by simp at h) hT.range
        rw [ha y hy, ← ha x (fun i _ b h => by simpa using h)]
        exact hx
      exact fun x y => (key x).trans (key y).symm
    · intro h e he
      obtain ⟨x, hx⟩ := exists_completes d e
      exact he.2 x w hx hw (h x w)

/-- C86, maximum change allowed: in the same way, the farthest instance of the class of the constant. It always exists. -/
theorem C86_maximum_change (hc : Correct sv) (hr : Reliable sv) (hd : 0 < d) (hT : IsTree d nodes T) (hC : Covers nodes T)
    (hk : GoodVals d c.val) (hf : Full d (den c.val)) (hv : sep ∉ v) (h1 : gr v ≠ v) (h2 : ∀ key, gh v key ≠ v)
    (h3 : ∀ key, gh v key ≠ gr v) (hs : Ready d nodes [v] s) {fuel : Nat} (hfuel : d < fuel) :
    ∃ o st' s', computeOptim sv (fun _ => (alikeQuery gr c v).comp) (fun _ k => (strictFar c gh v k).comp) v true fuel st s =
        (.ok o, st', s') ∧ o.found = true ∧ o.calls ≤ d + 2 ∧ GoodVals d o.value.val ∧
      MaximumChangeAllowed d T (den c.val) (den o.value.val) := by
  have hin := alike_in (gr := gr) (gh := gh) hd hT hC hk hv h1 h2 h3
  have hs' : Ready d nodes ((Query.withVar v (alikeQuery gr c v)).names d T []) s := by
    simpa [alikeQuery, Query.names, suffix] using hs
  have hab := fun e => about_alikeQuery (gr := gr) (v := v) (e := e) hf hT.range
  have hfull : ∀ e, (alikeQuery gr c v).about d T v e → Full d e := fun e h => ((hab e).1 h).1
  have hle : ∀ e, hamming d (den c.val) e ≤ d := fun e => countFeats_le' _ _
  obtain ⟨o, st', s', e, hcalls⟩ := C48_rank (st := st) hc hr (poses_far hin) hs' (fun b => d - hamming d (den c.val) (den b)) d
    (fun _ _ _ => by omega)
    (fun b b' _ _ hF hF' hR => by
      have := hle (den b'); have := hle (den b)
      have : hamming d (den c.val) (den b) < hamming d (den c.val) (den b') :=
        Nat.lt_of_not_le fun hh => hR.2 (.inl ⟨hf, hfull _ hF', hfull _ hF, hh⟩)
      omega) hfuel
  have hfound : o.found = true := by
    cases hf' : o.found with
    | true => rfl
    | false =>
      refine absurd ((hab _).2 ?_) ((C47_absent_partial (st := st) hc hr (poses_far hin) hs' fuel).1 ⟨o, st', s', e, hf'⟩ (den c.val))
      obtain ⟨b, hb, -⟩ := full_class hf hT.range
      exact ⟨hf, fun y z hy hz => (hb y hy).trans (hb z hz).symm⟩
  obtain ⟨k1, k2, k3, k4⟩ := C46_optimum hc (poses_far hin) hs' e hfound
  refine ⟨o, st', s', e, hfound, hcalls, ⟨k1, k2⟩, (hab _).1 k3, fun y hy => Nat.le_of_not_lt fun hlt => k4 y ((hab y).2 hy) ?_⟩
  refine ⟨.inl ⟨hf, hfull _ k3, hy.1, by omega⟩, ?_⟩
  rintro (hl | ⟨-, -, h0⟩)
  · have := hl.2.2.2; omega
  · have := hle y; omega

/-- The generators of query/internal/test/auxvar.go are fine for C86, with every variable. -/
theorem C86_generators (v : QVar) :
    VarGenNodeReach v ≠ v ∧ VarGenBotCount v ≠ v ∧ VarGenBotCount v ≠ VarGenNodeReach v ∧
      (∀ key, VarGenHammingDistance v key ≠ v) ∧ ∀ key, VarGenHammingDistance v key ≠ VarGenNodeReach v := by
  refine ⟨fun h => ?_, fun h => ?_, by simp [VarGenBotCount, VarGenNodeReach], fun key h => ?_, fun key => ?_⟩
  · have := congrArg List.length h
    simp only [VarGenNodeReach, List.length_append, List.length_cons, List.length_nil] at this
    omega
  · have := congrArg List.length h
    simp only [VarGenBotCount, List.length_append, List.length_cons, List.length_nil] at this
    omega
  · have := congrArg List.length h
    unfold VarGenHammingDistance at this
    split at this <;> simp only [List.length_append, List.length_cons, List.length_nil] at this <;> omega
  · unfold VarGenHammingDistance VarGenNodeReach
    split <;> simp

/-- Concrete case: for the tree of examples/computation.go and the instance 101, with every solver. The reason that is found has at most two
features (_01 is one), the change required is of one feature (100 has the other class), and 000 has the same class, so the change
allowed is of at least two. -/
example (hc : Correct sv) (hr : Reliable sv) :
    (∃ o st' s', computeOptim sv (fun _ => (reasonQuery VarGenNodeReach { val := [ONE, ZERO, ONE] } ['x']).comp)
        (fun _ k => (strictLel VarGenBotCount ['x'] k).comp) ['x'] true 4 st (BasicQContext 3 Examples.compNodes) = (.ok o, st', s') ∧
      o.found = true ∧ o.calls ≤ 5 ∧ SufficientReason 3 compTree (den [ONE, ZERO, ONE]) (den o.value.val) ∧ numDef 3 (den o.value.val) ≤ 2) ∧
    (∃ o st' s', computeOptim sv (fun _ => (contrastQuery VarGenNodeReach { val := [ONE, ZERO, ONE] } ['x']).comp)
        (fun _ k => (strictLeh { val := [ONE, ZERO, ONE] } VarGenHammingDistance ['x'] k).comp) ['x'] true 5 st
        (BasicQContext 3 Examples.compNodes) = (.ok o, st', s') ∧
      o.found = true ∧ Contrast 3 compTree (den [ONE, ZERO, ONE]) (den o.value.val) ∧
      hamming 3 (den [ONE, ZERO, ONE]) (den o.value.val) ≤ 1) ∧
    (∃ o st' s', computeOptim sv (fun _ => (alikeQuery VarGenNodeReach { val := [ONE, ZERO, ONE] } ['x']).comp)
        (fun _ k => (strictFar { val := [ONE, ZERO, ONE] } VarGenHammingDistance ['x'] k).comp) ['x'] true 4 st
        (BasicQContext 3 Examples.compNodes) = (.ok o, st', s') ∧
      o.found = true ∧ Alike 3 compTree (den [ONE, ZERO, ONE]) (den o.value.val) ∧
      2 ≤ hamming 3 (den [ONE, ZERO, ONE]) (den o.value.val)) := by
  obtain ⟨g1, g2, g3, g4, g5⟩ := C86_generators ['x']
  have hk : GoodVals 3 [ONE, ZERO, ONE] := by decide
  have hf : Full 3 (den [ONE, ZERO, ONE]) := by unfold Full; decide
  have hs := Ready.fresh_ctx 3 Examples.compNodes [['x']]
  have hz : ∀ z, Completes 3 z (den [ONE, ZERO, ONE]) → compTree.classify z = true := by
    intro z hz
    have h0 := hz 0 (by omega) true (by decide)
    have h1 := hz 1 (by omega) false (by decide)
    have h2 := hz 2 (by omega) true (by decide)
    simp [compTree, DTree.classify, h0, h1, h2]
  refine ⟨?_, ?_, ?_⟩
  · obtain ⟨o, st', s', e, h1, h2, -, h3⟩ := C86_minimum_reason (st := st) (c := { val := [ONE, ZERO, ONE] }) hc hr (by omega) compNodes_isTree compNodes_covers hk hf (by decide)
      g1 g2 g3 hs (fuel := 4) (by omega)
    refine ⟨o, st', s', e, h1, h2, h3.1, h3.2 (den [BOT, ZERO, ONE]) ⟨by unfold Subsumes; decide, fun y z hy hz' => ?_⟩⟩
    rw [hz z hz']
    have h1 := hy 1 (by omega) false (by decide)
    have h2 := hy 2 (by omega) true (by decide)
    simp [compTree, DTree.classify, h1, h2]
  · obtain ⟨o, st', s', e, -, h1, h2⟩ := C86_minimum_change (st := st) (c := { val := [ONE, ZERO, ONE] }) hc hr (by omega) compNodes_isTree compNodes_covers hk hf (by decide)
      g1 g4 g5 hs (fuel := 5) (by omega)
    have hfound : o.found = true := by
      cases h : o.found with
      | true => rfl
      | false =>
        have := h2.1 h (fun i => i == 0) (fun _ => false)
        simp [compTree, DTree.classify] at this
    refine ⟨o, st', s', e, hfound, (h1 hfound).2.1, (h1 hfound).2.2 (den [ONE, ZERO, ZERO]) ⟨by unfold Full; decide, fun y z hy hz' => ?_⟩⟩
    rw [hz z hz']
    have h0 := hy 0 (by omega) true (by decide)
    have h2 := hy 2 (by omega) false (by decide)
    simp [compTree, DTree.classify, h0, h2]
  · obtain ⟨o, st', s', e, h1, -, -, h2⟩ := C86_maximum_change (st := st) (c := { val := [ONE, ZERO, ONE] }) hc hr (by omega) compNodes_isTree compNodes_covers hk hf (by decide)
      g1 g4 g5 hs (fuel := 4) (by omega)
    refine ⟨o, st', s', e, h1, h2.1, h2.2 (den [ZERO, ZERO, ZERO]) ⟨by unfold Full; decide, fun y z hy hz' => ?_⟩⟩
    rw [hz z hz']
    have h0 := hy 0 (by omega) false (by decide)
    have h1 := hy 1 (by omega) false (by decide)
    have h2 := hy 2 (by omega) false (by decide)
    simp [compTree, DTree.classify, h0, h1, h2]

/-- Concrete case: for the tree of examples/evaluation.go, a determinant feature set with one feature. -/
example (hc : Correct sv) (hr : Reliable sv) :
    (∃ o st' s', computeOptim sv (fun _ => (dfsQuery ['x']).comp) (fun _ k => (strictLel VarGenBotCount ['x'] k).comp) ['x'] true 4 st
        (BasicQContext 3 Examples.evalNodes) = (.ok o, st', s') ∧
      o.found = true ∧ DFS 3 evalTree (den o.value.val) ∧ numDef 3 (den o.value.val) ≤ 1) ∧
    ∃ o st' s', computeOptim sv (fun _ => (dfsQuery ['x']).comp) (fun _ k => (strictSubs ['x'] k).comp) ['x'] true 4 st
        (BasicQContext 3 Examples.evalNodes) = (.ok o, st', s') ∧
      o.found = true ∧ MinimalDFS 3 evalTree (den o.value.val) := by
  have hs := Ready.fresh_ctx 3 Examples.evalNodes [['x']]
  obtain ⟨-, g2, -⟩ := C86_generators ['x']
  obtain ⟨o, st', s', e, h1, -, -, h2⟩ := C86_least_dfs (st := st) hc hr (by omega) evalNodes_isTree evalNodes_covers (by decide) g2 hs (fuel := 4) (by omega)
  obtain ⟨o', st'', s'', e', h1', -, -, h2'⟩ := C86_minimal_dfs (st := st) hc hr (by omega) evalNodes_isTree evalNodes_covers (by decide) hs (fuel := 4) (by omega)
  refine ⟨⟨o, st', s', e, h1, h2.1, Nat.le_of_not_lt fun h => h2.2 (den [BOT, ZERO, BOT]) h fun e' he' => ?_⟩, o', st'', s'', e', h1', h2'⟩
  cases hb : e' 1 with
  | none => exact absurd ((he' 1 (by omega)).1 hb) (by decide)
  | some b =>
    refine ⟨b, fun x hx => ?_⟩
    have := hx 1 (by omega) b hb
    cases b <;> simp [evalTree, DTree.classify, this]

end Goexpdt.Props

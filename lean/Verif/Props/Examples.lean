import Verif.Props.Compute
import Verif.Model.Examples
import Verif.Spec.Examples
/-
Properties C55 and C56: the programs in /repo/examples and the query of /repo/README.md give the answers
their comments promise, for every model, and not only for the ones they contain.
-/
namespace Goexpdt.Props
open Goexpdt Spec Examples

variable {S : Type} {sv : Solver S} {d : Nat} {nodes : List Node} {T : DTree}

/-! ### C55 -/

section
variable {v : QVar} {c : QConst} {st : S} {s : Ctx}

/-- What the formula of the program says about the instance `e`. -/
def ReasonFormula (d : Nat) (T : DTree) (c e : PInst) : Prop :=
  Subsumes d e c ∧ (¬ AllComp d T true c ∨ AllComp d T true e) ∧ (¬ AllComp d T false c ∨ AllComp d T false e)

theorem completes_congr {e e' : PInst} (h : Same d e e') {x : Nat → Bool} : Completes d x e ↔ Completes d x e' :=
  forall_congr' fun i => forall_congr' fun hi => by rw [h i hi]

theorem allComp_congr {e e' : PInst} (h : Same d e e') {b : Bool} : AllComp d T b e ↔ AllComp d T b e' :=
  forall_congr' fun _ => by rw [completes_congr h]

theorem subsumes_congr {e e' f f' : PInst} (h : Same d e e') (h' : Same d f f') : Subsumes d e f ↔ Subsumes d e' f' :=
  forall_congr' fun i => forall_congr' fun hi => by rw [h i hi, h' i hi]

theorem reasonFormula_congr {k e e' : PInst} (h : Same d e e') : ReasonFormula d T k e ↔ ReasonFormula d T k e' := by
  unfold ReasonFormula
  rw [subsumes_congr h (same_refl k), allComp_congr h, allComp_congr h]

/-- For a full instance the formula defines the sufficient reasons. -/
theorem reasonFormula_iff {k e : PInst} (hf : Full d k) (hT : ∀ f ∈ T.feats, f < d) :
    ReasonFormula d T k e ↔ SufficientReason d T k e := by
  have hx : Completes d (fun i => (k i).getD false) k := fun i _ b h => by simp [h]
  have hall : ∀ z, Completes d z k → T.classify z = T.classify fun i => (k i).getD false := by
    intro z hz
    have hzx : ∀ i < d, z i = (k i).getD false := by
      intro i hi
      cases h : k i with
      | none => exact absurd h (hf i hi)
      | some b => simpa using hz i hi b h
    clear hz hx
    induction T with
    | leaf => rfl
    | node i f z' o ihz iho =>
      have := hzx f (hT f (by simp [DTree.feats]))
      have := ihz fun g hg => hT g (by simp [DTree.feats, hg])
      have := iho fun g hg => hT g (by simp [DTree.feats, hg])
      simp only [DTree.classify, *]
  unfold ReasonFormula SufficientReason
  refine and_congr_right fun _ => ?_
  have h1 : ∀ b, AllComp d T b k ↔ T.classify (fun i => (k i).getD false) = b :=
    fun b => ⟨fun h => h _ hx, fun h z hz => (hall z hz).trans h⟩
  rw [h1, h1]
  constructor
  · rintro ⟨h2, h3⟩ y z hy hz
    rw [hall z hz]
    cases hb : T.classify fun i => (k i).getD false with
    | true => exact (h2.resolve_left (by simp [hb])) y hy
    | false => exact (h3.resolve_left (by simp [hb])) y hy
  · intro h
    have h2 := fun y hy => h y _ hy hx
    cases hb : T.classify fun i => (k i).getD false with
    | true => exact ⟨.inr fun y hy => (h2 y hy).trans hb, .inl (by simp)⟩
    | false => exact ⟨.inl (by simp), .inr fun y hy => (h2 y hy).trans hb⟩

theorem sufficientReason_sem {σ : Asg} : (sufficientReason c v).sem d T (fun _ => 0) σ [] ↔ ReasonFormula d T (den c.val) (σ v) := by
  simp [sufficientReason, Query.sem, Atom.says, Term.res, suffix, resolve, ReasonFormula, RTerm.den]

theorem strictSubsumption_sem {σ : Asg} {k : QConst} : (strictSubsumption v k).sem d T (fun _ => 0) σ [] ↔
    Subsumes d (σ v) (den k.val) ∧ ¬ Subsumes d (den k.val) (σ v) := by
  simp [strictSubsumption, Query.sem, Atom.says, Term.res, suffix, resolve, RTerm.den]

theorem sufficientReason_good (hd : 0 < d) (hT : IsTree d nodes T) (hC : Covers nodes T) (hc : GoodVals d c.val) :
    (Query.withVar v (sufficientReason c v)).Good d nodes T (fun _ => 0) := by
  have hc' : (resolve [] c).length = d ∧ ValidVals (resolve [] c) := hc
  refine ⟨hd, ⟨rfl, rfl, ?_, ⟨?_, ?_⟩, ?_, ?_⟩, ?_⟩
  iterate 5
    exact ⟨by simp [Atom.vars, Term.vars], by simp [Spec.Atom.consts, Spec.Term.consts, hc'], rfl, trivial, trivial, trivial,
      fun _ => ⟨hT, hC⟩⟩
  · refine .of_eq ?_
    simp [sufficientReason, Query.uses, Query.names, Atom.uses, suffix, reachableVarGen]

theorem computation_poses (hd : 0 < d) (hT : IsTree d nodes T) (hC : Covers nodes T) (hc : GoodVals d c.val) :
    Poses d nodes v (fun v => (sufficientReason c v).comp) (fun v u => (strictSubsumption v u).comp)
      (ReasonFormula d T (den c.val)) (fun e e' => Subsumes d e e' ∧ ¬ Subsumes d e' e) [v, v] := by
  have hg := sufficientReason_good (v := v) hd hT hC hc
  refine ⟨⟨by simp, fun σ => ReasonFormula d T (den c.val) (σ v), ?_, ?_⟩, fun k hk hid => ⟨[v, v], by simp,
    fun σ => ReasonFormula d T (den c.val) (σ v) ∧ Subsumes d (σ v) (den k.val) ∧ ¬ Subsumes d (den k.val) (σ v), ?_, ?_⟩⟩
  · have h := hg.decides
    have hn : (Query.withVar v (sufficientReason c v)).names d T [] = [v, v] := by simp [Query.names, sufficientReason, suffix]
    have hP : (fun σ => (Query.withVar v (sufficientReason c v)).sem d T (fun _ => 0) σ []) =
        fun σ => ReasonFormula d T (den c.val) (σ v) := funext fun σ => propext sufficientReason_sem
    rw [hn, hP] at h
    exact h
  · exact fun e => ⟨fun h => ⟨fun _ => e, h, same_refl e⟩, fun ⟨σ, h, hs⟩ => (reasonFormula_congr hs).1 h⟩
  · have hk' : (resolve [] k).length = d ∧ ValidVals (resolve [] k) := hk
    have hg2 : (Query.withVar v (.and (sufficientReason c v) (strictSubsumption v k))).Good d nodes T (fun _ => 0) := by
      refine ⟨hd, ⟨rfl, hg.fits.2, ?_, ?_⟩, ?_⟩
      iterate 2
        exact ⟨by simp [Atom.vars, Term.vars], by simpa [Spec.Atom.consts, Spec.Term.consts] using hk', rfl, trivial, trivial, trivial,
          by simp [Atom.onModel]⟩
      · simpa [Query.names, Query.uses, strictSubsumption, Atom.uses] using hg.clean
    have h := hg2.decides
    have hn : (Query.withVar v (.and (sufficientReason c v) (strictSubsumption v k))).names d T [] = [v, v] := by
      simp [Query.names, sufficientReason, strictSubsumption, suffix]
    have hP : (fun σ => (Query.withVar v (.and (sufficientReason c v) (strictSubsumption v k))).sem d T (fun _ => 0) σ []) =
        fun σ => ReasonFormula d T (den c.val) (σ v) ∧ Subsumes d (σ v) (den k.val) ∧ ¬ Subsumes d (den k.val) (σ v) :=
      funext fun σ => propext (and_congr sufficientReason_sem strictSubsumption_sem)
    rw [hn, hP] at h
    exact h
  · refine fun e => ⟨fun h => ⟨fun _ => e, h, same_refl e⟩, fun ⟨σ, h, hs⟩ => ?_⟩
    simp only at h
    rwa [reasonFormula_congr hs, subsumes_congr hs (same_refl _), subsumes_congr (same_refl _) hs] at h

theorem subsumes_antisymm {e e' : PInst} (h : Subsumes d e e') (h' : Subsumes d e' e) : Same d e e' := by
  intro i hi
  cases he : e i with
  | some b => rw [← he]; exact h i hi (by simp [he])
  | none =>
    cases he' : e' i with
    | none => rfl
    | some b => have := h' i hi (by simp [he']); simp [he, he'] at this

/-- The program of examples/computation.go on any constant, full or not: it returns a minimal instance with
the property of the formula. -/
theorem computation_ends (hcr : Correct sv) (hr : Reliable sv) (hd : 0 < d) (hT : IsTree d nodes T) (hC : Covers nodes T)
    (hc : GoodVals d c.val) (hs : Ready d nodes [v, v] s) {fuel : Nat} (hfuel : d < fuel) :
    ∃ o st' s', computation sv c v true fuel st s = (.ok o, st', s') ∧ o.found = true ∧ o.calls ≤ d + 2 ∧
      GoodVals d o.value.val ∧ ReasonFormula d T (den c.val) (den o.value.val) ∧
      ∀ y, ReasonFormula d T (den c.val) y → Subsumes d y (den o.value.val) → Same d y (den o.value.val) := by
  have hp := computation_poses (v := v) hd hT hC hc
  obtain ⟨o, st', s', e, hcalls⟩ := C48_rank (st := st) hcr hr hp hs (fun b => d - numBot d (den b)) d (fun _ _ _ => by omega)
    (by
      intro b b' hb hb' _ _ hR
      have := numBot_lt hR.1 hR.2
      have := countFeats_le' d fun i => (den b' i).isNone
      unfold numBot at *
      omega) hfuel
  have hfound : o.found = true := by
    cases hf : o.found with
    | true => rfl
    | false =>
      refine absurd ?_ ((C47_absent_partial (st := st) hcr hr hp hs fuel).1 ⟨o, st', s', e, hf⟩ (den c.val))
      exact ⟨fun _ _ _ => rfl, (Classical.em _).symm, (Classical.em _).symm⟩
  obtain ⟨h1, h2, h3, h4⟩ := C46_optimum hcr hp hs e hfound
  refine ⟨o, st', s', e, hfound, hcalls, ⟨h1, h2⟩, h3, fun y hy hsub => subsumes_antisymm hsub ?_⟩
  exact Classical.not_not.1 fun hn => h4 y hy ⟨hsub, hn⟩

/-- C55: for every decision tree, every full constant and every variable, with a correct solver that does
not fail, the program of examples/computation.go finds a minimal sufficient reason of the constant, after
at most `dim + 2` calls of the solver and whatever solutions the solver chooses. -/
theorem C55_computation (hcr : Correct sv) (hr : Reliable sv) (hd : 0 < d) (hT : IsTree d nodes T) (hC : Covers nodes T)
    (hc : GoodVals d c.val) (hf : Full d (den c.val)) (hs : Ready d nodes [v, v] s) {fuel : Nat} (hfuel : d < fuel) :
    ∃ o st' s', computation sv c v true fuel st s = (.ok o, st', s') ∧ o.found = true ∧ o.calls ≤ d + 2 ∧
      GoodVals d o.value.val ∧ MinimalSufficientReason d T (den c.val) (den o.value.val) := by
  obtain ⟨o, st', s', e, h1, h2, h3, h4, h5⟩ := computation_ends (st := st) hcr hr hd hT hC hc hs hfuel
  have hiff := fun e => reasonFormula_iff (e := e) hf hT.range
  exact ⟨o, st', s', e, h1, h2, h3, (hiff _).1 h4, fun y hy => h5 y ((hiff y).2 hy)⟩

/-- C55 does not extend to constants that are not full: if the completions of the constant have different
classes then the program finds the instance without any feature. -/
theorem C55_undetermined (hcr : Correct sv) (hr : Reliable sv) (hd : 0 < d) (hT : IsTree d nodes T) (hC : Covers nodes T)
    (hc : GoodVals d c.val) (hu : ∀ b, ¬ AllComp d T b (den c.val)) (hs : Ready d nodes [v, v] s) {fuel : Nat} (hfuel : d < fuel) :
    ∃ o st' s', computation sv c v true fuel st s = (.ok o, st', s') ∧ o.found = true ∧
      Same d (den o.value.val) bot := by
  obtain ⟨o, st', s', e, h1, -, -, -, h5⟩ := computation_ends (st := st) hcr hr hd hT hC hc hs hfuel
  exact ⟨o, st', s', e, h1, Same.symm (h5 bot ⟨fun _ _ h => absurd rfl h, .inl (hu _), .inl (hu _)⟩ fun _ _ h => absurd rfl h)⟩

/-- The tree drawn in examples/computation.go:6-16. -/
def compTree : DTree :=
  .node 0 0 (.node 1 1 (.node 2 2 (.leaf 3 true) (.leaf 4 true)) (.leaf 5 true))
    (.node 6 2 (.leaf 7 false) (.node 8 1 (.leaf 9 true) (.leaf 10 false)))

theorem compNodes_isTree : IsTree 3 compNodes compTree := by
  refine ⟨?_, rfl, by decide, by decide, ?_⟩
  · simp [compTree, LaysOut, compNodes, DTree.root, Node.childless, NoChild]
  · simp [compTree, DTree.ReadOnce, DTree.feats]

theorem compNodes_covers : Covers compNodes compTree := by unfold Covers; decide

/-- Concrete case of C55: `ComputationExample` prints (0, _, _), with every solver. -/
theorem C55_example (hcr : Correct sv) (hr : Reliable sv) :
    ∃ o st' s', computationExample sv true 4 st = (.ok o, st', s') ∧ o.found = true ∧ o.value.val = [ZERO, BOT, BOT] := by
  obtain ⟨o, st', s', e, h1, -, h3, h4, h5⟩ := computation_ends (st := st) (v := ['x']) (c := { val := [ZERO, ONE, ONE] }) hcr hr (by omega)
    compNodes_isTree compNodes_covers (by decide) (Ready.fresh_ctx 3 compNodes _) (fuel := 4) (by omega)
  refine ⟨o, st', s', e, h1, ?_⟩
  have hz : ∀ e : PInst, e 0 = some false → AllComp 3 compTree true e := by
    intro e he x hx
    have h0 := hx 0 (by omega) _ he
    simp [compTree, DTree.classify, h0]
  have hb : den o.value.val 0 = some false := by
    cases h0 : den o.value.val 0 with
    | some b => rw [← h0, h4.1 0 (by omega) (by simp [h0])]; rfl
    | none =>
      have := h4.2.1.resolve_left (fun h => h (hz _ rfl)) (fun _ => true) (by
        intro i hi b hb
        have hs := h4.1 i hi (by simp [hb])
        match i with
        | 0 => simp [h0] at hb
        | 1 => exact (Option.some.inj (hb.symm.trans hs)).symm
        | 2 => exact (Option.some.inj (hb.symm.trans hs)).symm)
      simp [compTree, DTree.classify] at this
  have hm := mem_allVals h3
  have h6 := h5 (den [ZERO, BOT, BOT]) ⟨by decide, .inr (hz _ rfl), .inl fun h => by
    have hx : Completes 3 (fun i => i != 0) (den [ZERO, ONE, ONE]) := by unfold Completes; decide
    simpa using (hz _ rfl _ hx).symm.trans (h _ hx)⟩
  revert hb hm h6
  generalize o.value.val = b
  intro hb hm h6
  exact (by unfold Same; decide +kernel : ∀ b ∈ allVals 3, den b 0 = some false → (Subsumes 3 (den [ZERO, BOT, BOT]) (den b) →
    Same 3 (den [ZERO, BOT, BOT]) (den b)) → b = [ZERO, BOT, BOT]) b hm hb h6

/-! ### what is printed -/

theorem intercalate_chars (l : List Char) : List.intercalate [' '] (splitChars l) = spaced l := by
  induction l with
  | nil => rfl
  | cons c l ih =>
    cases l with
    | nil => rfl
    | cons b l =>
      show [c] ++ ([' '] ++ List.intercalate [' '] (splitChars (b :: l))) = _
      rw [ih]
      rfl

theorem asString_shown {b : QConst} (h : GoodVals d b.val) : b.asString = (List.range d).map fun i => featText (den b.val i) := by
  obtain ⟨h1, h2⟩ := h
  unfold QConst.asString
  have hone : ∀ ft ∈ b.val, (if ft = BOT then ['_'] else if ft = ZERO then ['0'] else if ft = ONE then ['1'] else []) = [featText (featDen ft)] := by
    intro ft hft
    rcases h2 ft hft with rfl | rfl | rfl <;> decide
  have hmap : ∀ l : List FeatV, (∀ ft ∈ l, ft ∈ b.val) → (l.flatMap fun ft =>
      if ft = BOT then ['_'] else if ft = ZERO then ['0'] else if ft = ONE then ['1'] else []) = l.map fun ft => featText (featDen ft) := by
    intro l
    induction l with
    | nil => intro _; rfl
    | cons a l ih =>
      intro hl
      rw [List.flatMap_cons, hone a (hl a (by simp)), ih fun ft hft => hl ft (by simp [hft])]
      rfl
  rw [hmap b.val fun _ h => h]
  refine List.ext_getElem (by simp [h1]) fun i hi hi' => ?_
  have hi2 : i < b.val.length := by simpa using hi
  simp [den, List.getElem?_eq_getElem hi2]

variable {env : Nat → Env}

/-- C55, what is printed: for every decision tree, every full constant and every variable, with an executable that is a SAT solver, the
program prints the line of a minimal sufficient reason of the constant. -/
theorem C55_prints (hsol : ∀ k, Solves (env k).run) (ht : ∀ k, (env k).temp = none) (hcr : ∀ k, (env k).create = some none)
    (hd : 0 < d) (hT : IsTree d nodes T) (hC : Covers nodes T) (hc : GoodVals d c.val) (hf : Full d (den c.val))
    {fuel : Nat} (hfuel : d < fuel) :
    ∃ e, MinimalSufficientReason d T (den c.val) e ∧
      computationMain none env c v true fuel (BasicQContext d nodes) = .ok (foundText d e) := by
  obtain ⟨o, st', s', h1, h2, -, h3, h4⟩ := C55_computation (st := ({} : BinSt)) (v := v) (C44_binSolver hsol) (C44_reliable hsol ht hcr) hd hT hC hc hf
    (Ready.fresh_ctx d nodes _) hfuel
  refine ⟨den o.value.val, h4, ?_⟩
  unfold computationMain newBinSolver
  simp only [h1, h2, if_true]
  unfold formatStrings foundText
  rw [intercalate_chars, asString_shown h3]
  have e1 : "Value found: [".toList = "Value found: ".toList ++ ['['] := by decide
  have e2 : "]\n".toList = [']', '\n'] := by decide
  rw [e1, e2]
  simp

/-- C55, without an executable: the program panics with the error of the operating system and prints nothing. -/
theorem C55_no_solver (msg : String) (tmp : Bool) (fuel : Nat) :
    computationMain (some msg) env c v tmp fuel s = .error (.panic msg) := rfl

/-- C55, when the first temporary file cannot be created: the program says that there is no such instance, whatever the constant and the
model (C47). -/
theorem C55_prints_no_file (fuel : Nat) : computationMain none env c v false fuel s = .ok "No value exists.\n".toList := rfl

/-- C55, when the temporary file of the first call of the solver cannot be created: the program panics with the error. -/
theorem C55_panics {msg : String} (ht : (env 0).temp = some msg) (fuel : Nat) :
    computationMain none env c v true fuel s = .error (.panic msg) := by
  simp [computationMain, newBinSolver, computation, computeOptim, binSolver, binStep, ht, panicWith]

/-- Concrete case: a full disk, on the example's model. -/
example : computationMain none (fun _ => ⟨some "no space left on device", some none, bruteRun⟩) { val := [ZERO, ONE, ONE] } ['x'] true 4
    (BasicQContext 3 compNodes) = .error (.panic "no space left on device") := C55_panics rfl 4

/-- C55 for the program as it is: it prints this line, with every executable that is a SAT solver. -/
theorem C55_example_prints (hsol : ∀ k, Solves (env k).run) (ht : ∀ k, (env k).temp = none) (hcr : ∀ k, (env k).create = some none) :
    computationMain none env { val := [ZERO, ONE, ONE] } ['x'] true 4 (BasicQContext 3 compNodes) = .ok "Value found: [0 _ _]\n".toList := by
  obtain ⟨o, st', s', h1, h2, h3⟩ := C55_example (st := ({} : BinSt)) (C44_binSolver hsol) (C44_reliable hsol ht hcr)
  unfold computationExample at h1
  unfold computationMain newBinSolver
  simp only [h1, h2, if_true]
  have : o.value = { id := o.value.id, val := [ZERO, BOT, BOT] } := by rw [← h3]
  rw [this]
  rfl

/-- Concrete case: such an executable exists; if the temporary file of compute/optimum.go:48 cannot be created, the program prints instead
that there is no such instance (C47). -/
example : computationMain none (fun _ => ⟨none, some none, bruteRun⟩) { val := [ZERO, ONE, ONE] } ['x'] true 4 (BasicQContext 3 compNodes) =
      .ok "Value found: [0 _ _]\n".toList ∧
    computationMain none (fun _ => ⟨none, some none, bruteRun⟩) { val := [ZERO, ONE, ONE] } ['x'] false 4 (BasicQContext 3 compNodes) =
      .ok "No value exists.\n".toList ∧
    ∃ e, MinimalSufficientReason 3 compTree (den [ONE, ZERO, ONE]) e ∧
      computationMain none (fun _ => ⟨none, some none, bruteRun⟩) { val := [ONE, ZERO, ONE] } ['v'] true 4 (BasicQContext 3 compNodes) =
        .ok (foundText 3 e) :=
  ⟨C55_example_prints (fun _ => bruteRun_solves) (fun _ => rfl) fun _ => rfl, rfl,
    C55_prints (c := { val := [ONE, ZERO, ONE] }) (fun _ => bruteRun_solves) (fun _ => rfl) (fun _ => rfl) (by omega) compNodes_isTree
      compNodes_covers (by decide) (by unfold Full; decide) (by omega : 3 < 4)⟩

end

/-! ### C56 -/

section
variable {y : QVar} {c : QConst} {st : S} {s : Ctx}

theorem evalQuery_good (hd : 0 < d) (hT : IsTree d nodes T) (hC : Covers nodes T) (hc : GoodVals d c.val) :
    (evalQuery c y).Good d nodes T (fun _ => 0) := by
  have hc' : (resolve [] c).length = d ∧ ValidVals (resolve [] c) := hc
  refine ⟨hd, ⟨?_, rfl, ?_, ?_, ?_⟩, .of_eq ?_⟩
  iterate 4
    exact ⟨by simp [Atom.vars, Term.vars], by simp [Spec.Atom.consts, Spec.Term.consts, hc'], rfl, trivial, trivial, trivial,
      fun _ => ⟨hT, hC⟩⟩
  · have : botCountVarGen y ≠ y := fun h => by
      have := congrArg List.length h
      simp only [botCountVarGen, List.length_cons] at this
      omega
    simp [evalQuery, Query.uses, Query.names, Atom.uses, Term.res, suffix, this]

theorem numDef_add_numBot (d : Nat) (e : PInst) : (countFeats d fun i => (e i).isSome) + numBot d e = d := by
  have h := List.length_eq_countP_add_countP (fun i => (e i).isSome) (l := List.range d)
  have : (fun a => decide (¬ (e a).isSome = true)) = fun i => (e i).isNone := by
    funext a
    cases e a <;> rfl
  rw [this, List.length_range] at h
  exact h.symm

/-- C56: for every decision tree, constant and variable, with a correct solver that does not fail, the
program of examples/evaluation.go returns whether the constant is a determinant feature set with the
least number of defined features. -/
theorem C56_evaluation (hcr : Correct sv) (hr : Reliable sv) (hd : 0 < d) (hT : IsTree d nodes T) (hC : Covers nodes T)
    (hc : GoodVals d c.val) (hs : Ready d nodes [y] s) :
    ∃ b st' s', evaluation sv c y st s = (.ok b, st', s') ∧ (b = true ↔ LeastDFS d T (den c.val)) := by
  have hg := evalQuery_good (y := y) hd hT hC hc
  have hn : (evalQuery c y).names d T [] = [y] := by simp [Query.names, evalQuery, suffix]
  obtain ⟨b, st', s', e, -, h⟩ := C42_atom hcr hr hg (hn ▸ hs) true st
  refine ⟨b, st', s', e, h.trans ?_⟩
  simp only [Bool.true_eq_false, iff_false, not_exists]
  have hsem : ∀ σ, (evalQuery c y).sem d T (fun _ => 0) σ [] ↔ ¬ DFS d T (den c.val) ∨
      (DFS d T (σ y) ∧ LEL d (σ y) (den c.val) ∧ ¬ LEL d (den c.val) (σ y)) := by
    intro σ
    simp [evalQuery, Query.sem, Atom.says, Term.res, suffix, resolve, RTerm.den]
  simp only [hsem, not_or, Classical.not_not, LeastDFS]
  have h1 := numDef_add_numBot d (den c.val)
  constructor
  · refine fun h => ⟨(h fun _ => bot).1, fun f hf hD => (h fun _ => f).2 ⟨hD, ?_⟩⟩
    have h2 := numDef_add_numBot d f
    unfold LEL
    omega
  · refine fun ⟨h, hl⟩ σ => ⟨h, fun ⟨hD, hL, hN⟩ => hl (σ y) ?_ hD⟩
    have h2 := numDef_add_numBot d (σ y)
    unfold LEL at hL hN
    omega

/-- The tree drawn in examples/evaluation.go:8-22. -/
def evalTree : DTree :=
  .node 0 0
    (.node 1 1 (.node 2 2 (.leaf 3 false) (.leaf 4 false)) (.node 5 2 (.leaf 6 true) (.leaf 7 true)))
    (.node 8 2 (.node 9 1 (.leaf 10 false) (.leaf 11 true)) (.node 12 1 (.leaf 13 false) (.leaf 14 true)))

theorem evalNodes_isTree : IsTree 3 evalNodes evalTree := by
  refine ⟨?_, rfl, by decide, by decide, ?_⟩
  · simp [evalTree, LaysOut, evalNodes, DTree.root, Node.childless, NoChild]
  · simp [evalTree, DTree.ReadOnce, DTree.feats]

theorem evalNodes_covers : Covers evalNodes evalTree := by unfold Covers; decide

/-- Concrete case of C56: `EvaluationExample` prints true, with every solver. -/
theorem C56_example (hcr : Correct sv) (hr : Reliable sv) :
    ∃ st' s', evaluationExample sv st = (.ok true, st', s') := by
  obtain ⟨b, st', s', e, h⟩ := C56_evaluation (st := st) (y := ['y']) (c := { val := [BOT, ZERO, BOT] }) hcr hr (by omega)
    evalNodes_isTree evalNodes_covers (by decide) (Ready.fresh_ctx 3 evalNodes _)
  have hcl : ∀ x, evalTree.classify x = x 1 := by
    intro x
    simp only [evalTree, DTree.classify]
    cases x 0 <;> cases x 1 <;> cases x 2 <;> rfl
  have : b = true := by
    refine h.2 ⟨fun e' he' => ?_, fun f hf hD => ?_⟩
    · cases h1 : e' 1 with
      | none => exact absurd ((he' 1 (by omega)).1 h1) (by decide)
      | some b => exact ⟨b, fun x hx => (hcl x).trans (hx 1 (by omega) b h1)⟩
    · have hf0 : (countFeats 3 fun i => (f i).isSome) = 0 := by
        have : (countFeats 3 fun i => (den [BOT, ZERO, BOT] i).isSome) = 1 := by decide
        simp only [this] at hf
        omega
      have h1 : f 1 = none := by
        have := List.countP_eq_zero.1 hf0 1 (by decide)
        simpa using this
      obtain ⟨b, hb⟩ := hD f fun _ _ => Iff.rfl
      have h2 := fun v => hb (fun i => if i = 1 then v else (f i).getD false) (by
        intro i _ b hb
        by_cases hi : i = 1
        · rw [hi, h1] at hb; simp at hb
        · simp [hi, hb])
      simp only [hcl, if_true] at h2
      have := (h2 true).trans (h2 false).symm
      simp at this
  subst this
  exact ⟨st', s', e⟩

/-- C56, what is printed: `true` or `false`, and `true` exactly for the determinant feature sets with the least number of features. -/
theorem C56_prints {env : Nat → Env} (hsol : ∀ k, Solves (env k).run) (ht : ∀ k, (env k).temp = none) (hcr : ∀ k, (env k).create = some none)
    (hd : 0 < d) (hT : IsTree d nodes T) (hC : Covers nodes T) (hc : GoodVals d c.val) :
    (LeastDFS d T (den c.val) → evaluationMain none env c y (BasicQContext d nodes) = .ok "true\n".toList) ∧
    (¬ LeastDFS d T (den c.val) → evaluationMain none env c y (BasicQContext d nodes) = .ok "false\n".toList) ∧
    ∀ msg, evaluationMain (some msg) env c y (BasicQContext d nodes) = .error (.panic msg) := by
  obtain ⟨b, st', s', h1, h2⟩ := C56_evaluation (st := ({} : BinSt)) (y := y) (C44_binSolver hsol) (C44_reliable hsol ht hcr) hd hT hC hc
    (Ready.fresh_ctx d nodes _)
  refine ⟨fun h => ?_, fun h => ?_, fun msg => rfl⟩
  · unfold evaluationMain newBinSolver
    simp only [h1, h2.2 h, if_true]
    rfl
  · have hb : b = false := by
      cases b with
      | false => rfl
      | true => exact absurd (h2.1 rfl) h
    unfold evaluationMain newBinSolver
    simp only [h1, hb]
    rfl

/-- C56, when the temporary file of the call of the solver cannot be created: the program panics with the error and prints nothing. -/
theorem C56_panics {env : Nat → Env} {msg : String} (ht : (env 0).temp = some msg) :
    evaluationMain none env c y s = .error (.panic msg) := by
  simp [evaluationMain, newBinSolver, evaluation, atomSat, binSolver, binStep, ht, panicWith]

/-- Concrete case: a full disk, on the example's model. -/
example : evaluationMain none (fun _ => ⟨some "no space left on device", some none, bruteRun⟩) { val := [BOT, ZERO, BOT] } ['y']
    (BasicQContext 3 evalNodes) = .error (.panic "no space left on device") := C56_panics rfl

/-- C56 for the program as it is: it prints `true`, with every executable that is a SAT solver. -/
theorem C56_example_prints {env : Nat → Env} (hsol : ∀ k, Solves (env k).run) (ht : ∀ k, (env k).temp = none) (hcr : ∀ k, (env k).create = some none) :
    evaluationMain none env { val := [BOT, ZERO, BOT] } ['y'] (BasicQContext 3 evalNodes) = .ok "true\n".toList := by
  obtain ⟨st', s', h1⟩ := C56_example (st := ({} : BinSt)) (C44_binSolver hsol) (C44_reliable hsol ht hcr)
  unfold evaluationExample at h1
  unfold evaluationMain newBinSolver
  simp only [h1, if_true]
  rfl

/-- Concrete case. -/
example : evaluationMain none (fun _ => ⟨none, some none, bruteRun⟩) { val := [BOT, ZERO, BOT] } ['y'] (BasicQContext 3 evalNodes) =
    .ok "true\n".toList := C56_example_prints (fun _ => bruteRun_solves) (fun _ => rfl) fun _ => rfl

/-- The comment in examples/evaluation.go:24-25 explains "DFS" as: all completions have the same class. This
is not what the predicate says (nor the definition in the paper): over the tree below the instance (0, _)
has that property and no instance without features has it, but the program returns false for every
solver. -/
theorem C56_comment_differs (hcr : Correct sv) (hr : Reliable sv) :
    ∃ T : DTree, ∃ nodes : List Node, IsTree 2 nodes T ∧ Covers nodes T ∧
      (∃ b, AllComp 2 T b (den [ZERO, BOT])) ∧ (∀ b, ¬ AllComp 2 T b bot) ∧
      ∃ st' s', evaluation sv { val := [ZERO, BOT] } ['y'] st (BasicQContext 2 nodes) = (.ok false, st', s') := by
  let T : DTree := .node 0 0 (.leaf 1 true) (.node 2 1 (.leaf 3 false) (.leaf 4 true))
  let nodes : List Node := [{ feat := 0, zChild := 1, oChild := 2 }, { value := true, zChild := NoChild, oChild := NoChild },
    { feat := 1, zChild := 3, oChild := 4 }, { value := false, zChild := NoChild, oChild := NoChild },
    { value := true, zChild := NoChild, oChild := NoChild }]
  have hT : IsTree 2 nodes T := by
    refine ⟨?_, rfl, by decide, by decide, ?_⟩
    · simp [T, LaysOut, nodes, DTree.root, Node.childless, NoChild]
    · simp [T, DTree.ReadOnce, DTree.feats]
  have hC : Covers nodes T := by unfold Covers; decide
  have hb : ∀ b, ¬ AllComp 2 T b bot := by
    intro b h
    have h1 := h (fun _ => true) (by intro i _ b hb; simp [bot] at hb)
    have h2 := h (fun i => i == 0) (by intro i _ b hb; simp [bot] at hb)
    exact absurd (h1.trans h2.symm) (by decide)
  refine ⟨T, nodes, hT, hC, ⟨true, fun x hx => ?_⟩, hb, ?_⟩
  · have := hx 0 (by omega) false rfl
    simp [T, DTree.classify, this]
  · obtain ⟨b, st', s', e, h⟩ := C56_evaluation (st := st) (y := ['y']) (c := { val := [ZERO, BOT] }) hcr hr (by omega)
      hT hC (by decide) (Ready.fresh_ctx 2 nodes _)
    have : b = false := by
      cases hb' : b with
      | false => rfl
      | true =>
        obtain ⟨b, hb⟩ := (h.1 hb').1 (den [ONE, BOT]) (by decide)
        have hx : ∀ v, Completes 2 (fun i => if i = 0 then true else v) (den [ONE, BOT]) := by
          intro v i hi b hb
          match i with
          | 0 => simpa [den, featDen, BOT, ZERO, ONE] using hb
          | 1 => simp [den, featDen] at hb
        have h1 := hb _ (hx true)
        have h2 := hb _ (hx false)
        exact absurd (h1.trans h2.symm) (by decide)
    subst this
    exact ⟨st', s', e⟩

/-- C56 for README.md: the evaluation returns whether there is a partial instance that is not full and
all of whose completions are negative. (The text above the query says "positive", README.md:67.) -/
theorem C56_readme (hcr : Correct sv) (hr : Reliable sv) (hd : 0 < d) (hT : IsTree d nodes T) (hC : Covers nodes T)
    (hs : Ready d nodes [['x']] s) :
    ∃ b st' s', readme sv st s = (.ok b, st', s') ∧ (b = true ↔ ∃ e, ¬ Full d e ∧ AllComp d T false e) := by
  have hg : readmeQuery.Good d nodes T (fun _ => 0) := by
    refine ⟨hd, ⟨rfl, ?_, ?_⟩, .of_eq ?_⟩
    iterate 2
      exact ⟨by simp [Atom.vars, Term.vars], by simp [Spec.Atom.consts, Spec.Term.consts], rfl, trivial, trivial, trivial,
        fun _ => ⟨hT, hC⟩⟩
    · simp [readmeQuery, Query.uses, Query.names, Atom.uses, suffix, reachableVarGen]
  have hn : readmeQuery.names d T [] = [['x']] := by simp [Query.names, readmeQuery, suffix]
  obtain ⟨b, st', s', e, -, h⟩ := C42_atom hcr hr hg (hn ▸ hs) false st
  refine ⟨b, st', s', e, h.trans ?_⟩
  simp only [iff_true]
  have hsem : ∀ σ, readmeQuery.sem d T (fun _ => 0) σ [] ↔ ¬ Full d (σ ['x']) ∧ AllComp d T false (σ ['x']) := by
    intro σ
    simp [readmeQuery, Query.sem, Atom.says, Term.res, suffix, RTerm.den]
  simp only [hsem]
  exact ⟨fun ⟨σ, h⟩ => ⟨_, h⟩, fun ⟨e, h⟩ => ⟨fun _ => e, h⟩⟩

end

end Goexpdt.Props

import Verif.Lemmas.IfaceCompute
import Verif.Lemmas.Brute
import Verif.Props.Iface
import Verif.Props.Compute
import Verif.Props.Reuse
/-
C89: the package compute with an implementation of the interface `QContext` of the user's own.
-/
namespace Goexpdt.Props
open Goexpdt Spec

variable {S σ : Type} {d : Nat} {nodes : List Node} {T : DTree} {depth : QVar → Nat} {name : QVar → ScopePath → QVar} {ids : List (List Char)}
  {R : QVar → QVar → Prop} {I : QContext σ} {inv : σ → Prop} {view : σ → View} {q : Query} {sv : Over.SolverG S σ} {us : List QVar} {st st' : S}
  {t t' : σ} {v : QVar} {f : Query} {o : QConst → Query} {r : OptOutput}

/-! ### The basic context -/

theorem comp_basic (q : Query) : Over.comp basicI q = q.comp := by
  have h := Over.same_comp q
  revert h
  rcases q.comp with _ | m1 <;> rcases Over.comp basicI q with _ | n1 <;> intro h
  · rfl
  · exact h.elim
  · exact h.elim
  · exact congrArg some h.eq

theorem encWithVar_basic (v : QVar) (q : Comp) : Over.encWithVar basicI v q = encWithVar v q := by
  refine Over.Same.eq (Over.same_wrapErr _ ?_)
  cases q with
  | none => exact Over.same_throw _
  | some m => exact Over.same_bind (Over.same_addVar _) fun _ => Over.same_bind (Over.same_encodeI _) fun _ => Over.same_bind (fun _ => rfl) fun _ => Over.same_pure _

theorem encAnd_basic (q1 q2 : Comp) : (Over.encAnd q1 q2 : MG Ctx CNF) = encAnd q1 q2 := by
  refine Over.Same.eq (Over.same_wrapErr _ ?_)
  cases q1 with
  | none => exact Over.same_throw _
  | some m1 =>
    cases q2 with
    | none => exact Over.same_throw _
    | some m2 => exact Over.same_bind (Over.same_wrapErr _ fun _ => rfl) fun _ => Over.same_bind (Over.same_wrapErr _ fun _ => rfl) fun _ => Over.same_pure _

theorem same_variableFilter (v : QVar) (is : List Nat) : Over.Same (variableFilter v is) (Over.variableFilter basicI v is) := by
  induction is with
  | nil => exact Over.same_pure _
  | cons i is ih =>
    exact Over.same_bind (Over.same_cnfVar _) fun _ => Over.same_bind (Over.same_cnfVar _) fun _ => Over.same_bind (Over.same_cnfVar _) fun _ =>
      Over.same_bind ih fun _ => Over.same_pure _

theorem same_readFeats (v : QVar) (vval : List (Int × Bool)) (is : List Nat) : Over.Same (readFeats v vval is) (Over.readFeats basicI v vval is) := by
  induction is with
  | nil => exact Over.same_pure _
  | cons i is ih =>
    have h : ∀ x : FeatV, Over.Same (readFeats v vval is >>= fun rest => pure (x :: rest)) (Over.readFeats basicI v vval is >>= fun rest => pure (x :: rest)) :=
      fun x => Over.same_bind ih fun _ => Over.same_pure _
    exact Over.same_bind (Over.same_cnfVar _) fun _ => Over.same_ite (h _) (Over.same_bind (Over.same_cnfVar _) fun _ => Over.same_ite (h _)
      (Over.same_bind (Over.same_cnfVar _) fun _ => Over.same_ite (h _) ih))

theorem same_binValuesLoop (out : List Char) (vs : List QVar) : Over.Same (binValuesLoop out vs) (Over.binValuesLoop basicI out vs) := by
  induction vs with
  | nil => exact Over.same_pure _
  | cons v vs ih =>
    refine Over.same_bind ?_ fun _ => Over.same_bind ih fun _ => Over.same_pure _
    exact Over.same_bind Over.same_dim fun _ => Over.same_bind (same_variableFilter _ _) fun _ => Over.same_bind (Over.same_lift _) fun _ =>
      Over.same_bind (same_readFeats _ _ _) fun _ => Over.same_pure _

theorem binSolver_basic (env : Nat → Env) : Over.binSolver basicI env = (binSolver env).over := by
  have h1 : (Over.binSolver basicI env).values = (binSolver env).over.values := by
    funext vs st s
    show Over.binValues basicI vs st s = binValues vs st s
    unfold Over.binValues binValues
    rw [same_binValuesLoop]
  have h2 : (Over.binSolver basicI env).step = (binSolver env).over.step := by
    funext q st s
    show Over.binStep (env st.calls) q st s = binStep (env st.calls) q st s
    unfold Over.binStep binStep
    cases (env st.calls).temp with
    | some msg => rfl
    | none =>
      cases q with
      | none => rfl
      | some act =>
        rcases h : act s with ⟨r | c, s1⟩
        · simp only [h]
        · simp only [h]
          rcases c.toFile (env st.calls).create with ⟨ok, f⟩
          match ok, f with
          | false, _ => rfl
          | true, none => rfl
          | true, some f =>
            simp only
            cases runSolver ((env st.calls).run f.content) with
            | error e => rfl
            | ok p => rfl
  show (⟨(Over.binSolver basicI env).values, (Over.binSolver basicI env).step⟩ : Over.SolverG BinSt Ctx) = _
  rw [h1, h2]

theorem andSat_basic : ∀ (es : List (Option (SatM S))), Over.andSat es = andSat es
  | [] => rfl
  | none :: _ => rfl
  | some e :: es => by
    funext st s
    unfold Over.andSat andSat
    rw [andSat_basic es]
    rcases e st s with ⟨_ | _, _, _⟩ <;> rfl

theorem orSat_basic : ∀ (es : List (Option (SatM S))), Over.orSat es = orSat es
  | [] => rfl
  | none :: _ => rfl
  | some e :: es => by
    funext st s
    unfold Over.orSat orSat
    rw [orSat_basic es]
    rcases e st s with ⟨_ | _, _, _⟩ <;> rfl

theorem optimLoop_basic (sv : Solver S) (fg : QVar → Comp) (og : QVar → QConst → Comp) (v : QVar) (fuel : Nat) : ∀ (steps : Nat) (st : S) (s : Ctx),
    Over.optimLoop basicI sv.over fg og v fuel steps st s = optimLoop sv fg og v fuel steps st s := by
  induction fuel with
  | zero => exact fun _ _ _ => rfl
  | succ fuel ih =>
    intro steps st s
    have u1 := Over.optimLoop.eq_def basicI sv.over fg og v (fuel + 1) steps st s
    have u2 := optimLoop.eq_def sv fg og v (fuel + 1) steps st s
    refine u1.trans (Eq.trans ?_ u2.symm)
    dsimp only
    have e0 : sv.over.values [v] st s = sv.values [v] st s := rfl
    rw [e0]
    rcases sv.values [v] st s with ⟨_ | bm, st1, s1⟩
    · rfl
    · have e1 : basicI.reset s1 = (.ok (), s1.reset) := rfl
      dsimp only
      rw [e1]
      dsimp only
      cases bm with
      | nil => rfl
      | cons b bs =>
        have e2 : sv.over.step (some (Over.encWithVar basicI v (some (Over.encAnd (fg v) (og v b))))) st1 s1.reset =
            sv.step (some (encWithVar v (some (encAnd (fg v) (og v b))))) st1 s1.reset := by
          have := (encWithVar_basic v (some (Over.encAnd (fg v) (og v b)))).trans (congrArg (fun m => encWithVar v (some m)) (encAnd_basic (fg v) (og v b)))
          exact congrArg (fun m => sv.step (some m) st1 s1.reset) this
        dsimp only
        rw [e2]
        rcases sv.step (some (encWithVar v (some (encAnd (fg v) (og v b))))) st1 s1.reset with ⟨(_ | _) | _, st2, s2⟩
        · rfl
        · rfl
        · exact ih _ _ _

/-- C89: used with the basic context, the functions of Model/IfaceCompute.lean are those of Model/Compute.lean, for all solvers, queries (also
Go functions that are not queries) and states. -/
theorem C89_basic : (∀ env, Over.binSolver basicI env = (binSolver env).over) ∧
    (∀ (sv : Solver S) q negated, Over.atomSat sv.over q negated = atomSat sv q negated) ∧
    (∀ es : List (Option (SatM S)), Over.andSat es = andSat es) ∧ (∀ es : List (Option (SatM S)), Over.orSat es = orSat es) ∧
    ∀ (sv : Solver S) fg og v tmp fuel st s, Over.computeOptim basicI sv.over fg og v tmp fuel st s = computeOptim sv fg og v tmp fuel st s := by
  refine ⟨binSolver_basic, ?_, andSat_basic, orSat_basic, ?_⟩
  · intro sv q negated
    funext st s
    unfold Over.atomSat atomSat
    have e : sv.over.step q st s = sv.step q st s := rfl
    rw [e]
    rcases sv.step q st s with ⟨(_ | _) | _, _, _⟩ <;> rfl
  · intro sv fg og v tmp fuel st s
    unfold Over.computeOptim computeOptim
    cases tmp with
    | false => rfl
    | true =>
      have e : sv.over.step (some (Over.encWithVar basicI v (fg v))) st s = sv.step (some (encWithVar v (fg v))) st s :=
        congrArg (fun m => sv.step (some m) st s) (encWithVar_basic v (fg v))
      rw [e]
      rcases sv.step (some (encWithVar v (fg v))) st s with ⟨(_ | _) | _, st1, s1⟩
      · rfl
      · rfl
      · exact optimLoop_basic sv fg og v fuel 1 st1 s1

/-- C89: `Reset` of the basic context does what is asked of it; so does that of the contexts of `C87_other`. -/
theorem C89_resets (d : Nat) (nodes : List Node) (pre : List Char) (k : Nat) : Resets basicI (CtxInv d nodes) ctxView ∧
    Resets (spacedI pre k) (CtxInv d nodes) ctxView := by
  have h : ∀ s, CtxInv d nodes s → (ctxView s).scopes = [] → (∀ x, (ctxView s).level x = 0) → Unused (CtxInv d nodes) ctxView s.reset := by
    intro s hs _ h2
    have hv : ∀ x, mapGet s.vars x = none := by
      intro x
      cases hx : mapGet s.vars x with
      | none => rfl
      | some n =>
        have h3 := hs.scope x n hx
        have h4 : (mapGet s.vars x).getD 0 = 0 := h2 x
        rw [hx] at h4
        have h4 : n = 0 := h4
        omega
    refine ⟨⟨hs.dim, hs.nodes, fun x n hx => ?_, hs.fn⟩, rfl, h2, fun _ => rfl, Int.le_refl 0⟩
    have hx : mapGet s.vars x = some n := hx
    rw [hv] at hx
    cases hx
  exact ⟨fun s h0 h1 h2 => ⟨_, rfl, h s h0 h1 h2⟩, fun s h0 h1 h2 => ⟨_, rfl, h s h0 h1 h2⟩⟩

/-! ### Solvers -/

/-- C89: `binSolver`, with an executable that solves DIMACS texts, is a correct solver for every context that keeps the contract, … -/
theorem C89_binSolver (hk : CtxContract d nodes I inv view name) {env : Nat → Env} (h : ∀ k, Solves (env k).run) :
    CorrectIn (Over.binSolver I env) inv view d := Over.binSolver_correctIn hk h

/-- … and it does not fail if temporary files can be created and written. -/
theorem C89_reliable {env : Nat → Env} (h : ∀ k, Solves (env k).run) (ht : ∀ k, (env k).temp = none) (hc : ∀ k, (env k).create = some none) :
    ReliableIn (Over.binSolver I env) inv ∧ CountsIn (Over.binSolver I env) BinSt.calls :=
  ⟨Over.binSolver_reliableIn h ht hc, Over.binSolver_countsIn I env⟩

/-- C89: if `Step` returns nil on a query then some assignment makes the query true, and `Values`, called with the names that the context gives
to variables of the query, returns the instances of these variables. -/
theorem C89_values (hk : CtxContract d nodes I inv view name) (hR : OneOne R) (hc : CorrectIn sv inv view d)
    (ha : After d nodes T name ids R I inv view us t) (hq : q.UsableIn d nodes T depth name ids R) (hnew : ∀ n ∈ q.names d T [], n ∉ us)
    (h : sv.step (Over.comp I q) st t = (.ok (), st', t')) :
    ∃ τ, q.sem d T depth τ [] ∧ ∀ ps : List (QVar × QVar), (∀ p ∈ ps, p.1 ∈ q.names d T [] ∧ R p.1 p.2) →
      ∃ ks st'' t'', sv.values (ps.map Prod.snd) st' t' = (.ok ks, st'', t'') ∧ ks.map (·.val) = ps.map fun p => valsOf d (τ p.1) := by
  rcases Over.step_query (st := st) hk hR hc ha hq hnew with ⟨st1, t1, e, -, β, τ, hP, hrec, hn⟩ | ⟨_, _, e, _⟩ | ⟨_, _, _, e, _⟩
  · rw [e] at h
    simp only [Prod.mk.injEq, true_and] at h
    obtain ⟨rfl, rfl⟩ := h
    refine ⟨τ, hP, fun ps hps => ?_⟩
    have hex : ∃ es : QVar → PInst, ∀ p ∈ ps, es p.2 = τ p.1 := by
      refine ⟨fun y => (Option.map (fun p : QVar × QVar => τ p.1) (ps.find? fun p => p.2 == y)).getD bot, fun p hp => ?_⟩
      cases hf : ps.find? fun p' => p'.2 == p.2 with
      | none => have := List.find?_eq_none.1 hf p hp; simp at this
      | some p' =>
        have h1 := List.find?_some hf
        have h2 := List.mem_of_find?_eq_some hf
        simp only [beq_iff_eq] at h1
        have : p'.1 = p.1 := hR.left (hps p' h2).2 (h1 ▸ (hps p hp).2)
        dsimp only
        rw [hf]
        simp [this]
    obtain ⟨es, hes⟩ := hex
    obtain ⟨st2, t2, h2, -⟩ := hrec (ps.map Prod.snd) es (by
      intro w hw
      obtain ⟨p, hp, rfl⟩ := List.mem_map.1 hw
      rw [hes p hp]
      exact hn p.1 (hps p hp).1 p.2 (hps p hp).2)
    refine ⟨_, st2, t2, h2, ?_⟩
    rw [List.map_map, List.map_map]
    apply List.map_congr_left
    intro p hp
    simp [hes p hp]
  · rw [e] at h; simp at h
  · rw [e] at h; simp at h

/-! ### Boolean combinations -/

/-- C89: the atom of a combination gives the truth value of the query (or its negation), … -/
theorem C89_query (hk : CtxContract d nodes I inv view name) (hR : OneOne R) (hc : CorrectIn sv inv view d) (hr : ReliableIn sv inv)
    (hq : q.UsableIn d nodes T depth name ids R) (hp : q.Plain) (negated : Bool) :
    (ElemG.query I sv d T depth q negated).Right d nodes T name ids R I inv view := by
  intro us st t ha hnew
  have hfo := exists_sem_iff_fo hq.good.fits hp
  have hus : ∀ n ∈ us ++ q.touches d T depth, n ∈ us ∨ n ∈ q.touches d T depth := fun n hn => List.mem_append.1 hn
  rcases Over.step_query (st := st) hk hR hc ha hq hnew with ⟨st1, t1, e, ha1, β, τ, hP, -⟩ | ⟨st1, t1, e, ha1, hu⟩ | ⟨_, _, _, _, hn⟩
  · refine ⟨!negated, st1, _, t1, by simp only [ElemG.query, Over.atomSat, e], ?_, ha1, hus⟩
    have := hfo.1 ⟨τ, hP⟩
    cases negated <;> simp [ElemG.query, this]
  · refine ⟨negated, st1, _, t1, by simp only [ElemG.query, Over.atomSat, e], ?_, ha1, hus⟩
    have : ¬ q.fo d T (fun _ => bot) (fun _ => none) := fun x => hu (hfo.2 x)
    cases negated <;> simp [ElemG.query, this]
  · exact absurd hr hn

/-- … a conjunction that of its elements, … -/
theorem C89_and (es : List (ElemG S σ)) (h : ∀ e ∈ es, e.Right d nodes T name ids R I inv view) (ha : ApartG es) :
    (ElemG.and es).Right d nodes T name ids R I inv view := by
  induction es with
  | nil => exact fun us st t hs _ => ⟨true, st, us, t, rfl, by simp [ElemG.and], hs, fun n hn => .inl hn⟩
  | cons e es ih =>
    intro us st t hs hnew
    have ih := ih (fun x hx => h x (by simp [hx])) (List.pairwise_cons.1 ha).2
    obtain ⟨b, st1, us1, t1, e1, hb, hr1, hm1⟩ := h e (by simp) us st t hs fun n hn => hnew n (by simp [ElemG.and, hn])
    cases b with
    | false =>
      refine ⟨false, st1, us1, t1, by simp [ElemG.and, Over.andSat, e1], ?_, hr1, fun n hn => ?_⟩
      · simp at hb; simp [ElemG.and, hb]
      · rcases hm1 n hn with h | h
        · exact .inl h
        · exact .inr (by simp [ElemG.and, h])
    | true =>
      have hk : (ElemG.and (e :: es)).sat st t = (ElemG.and es).sat st1 t1 := by simp [ElemG.and, Over.andSat, e1]
      rw [hk]
      obtain ⟨b2, st2, us2, t2, e2, hb2, hr2, hm2⟩ := ih us1 st1 t1 hr1 (by
        intro n hn hu
        rcases hm1 n hu with h | h
        · exact hnew n (by simp only [ElemG.and, List.flatMap_cons, List.mem_append] at hn ⊢; exact .inr hn) h
        · obtain ⟨e', he', hn'⟩ := List.mem_flatMap.1 hn
          exact (List.pairwise_cons.1 ha).1 e' he' n hn' h)
      refine ⟨b2, st2, us2, t2, e2, ?_, hr2, fun n hn => ?_⟩
      · simp at hb; simp [ElemG.and] at hb2 ⊢; simp [hb2, hb]
      · rcases hm2 n hn with h | h
        · rcases hm1 n h with h | h
          · exact .inl h
          · exact .inr (by simp [ElemG.and, h])
        · exact .inr (by simp only [ElemG.and, List.flatMap_cons, List.mem_append] at h ⊢; exact .inr h)

/-- … and so does a disjunction. -/
theorem C89_or (es : List (ElemG S σ)) (h : ∀ e ∈ es, e.Right d nodes T name ids R I inv view) (ha : ApartG es) :
    (ElemG.or es).Right d nodes T name ids R I inv view := by
  induction es with
  | nil => exact fun us st t hs _ => ⟨false, st, us, t, rfl, by simp [ElemG.or], hs, fun n hn => .inl hn⟩
  | cons e es ih =>
    intro us st t hs hnew
    have ih := ih (fun x hx => h x (by simp [hx])) (List.pairwise_cons.1 ha).2
    obtain ⟨b, st1, us1, t1, e1, hb, hr1, hm1⟩ := h e (by simp) us st t hs fun n hn => hnew n (by simp [ElemG.or, hn])
    cases b with
    | true =>
      refine ⟨true, st1, us1, t1, by simp [ElemG.or, Over.orSat, e1], ?_, hr1, fun n hn => ?_⟩
      · simp at hb; simp [ElemG.or, hb]
      · rcases hm1 n hn with h | h
        · exact .inl h
        · exact .inr (by simp [ElemG.or, h])
    | false =>
      have hk : (ElemG.or (e :: es)).sat st t = (ElemG.or es).sat st1 t1 := by simp [ElemG.or, Over.orSat, e1]
      rw [hk]
      obtain ⟨b2, st2, us2, t2, e2, hb2, hr2, hm2⟩ := ih us1 st1 t1 hr1 (by
        intro n hn hu
        rcases hm1 n hu with h | h
        · exact hnew n (by simp only [ElemG.or, List.flatMap_cons, List.mem_append] at hn ⊢; exact .inr hn) h
        · obtain ⟨e', he', hn'⟩ := List.mem_flatMap.1 hn
          exact (List.pairwise_cons.1 ha).1 e' he' n hn' h)
      refine ⟨b2, st2, us2, t2, e2, ?_, hr2, fun n hn => ?_⟩
      · simp at hb; simp [ElemG.or] at hb2 ⊢; simp [hb2, hb]
      · rcases hm2 n hn with h | h
        · rcases hm1 n h with h | h
          · exact .inl h
          · exact .inr (by simp [ElemG.or, h])
        · exact .inr (by simp only [ElemG.or, List.flatMap_cons, List.mem_append] at h ⊢; exact .inr h)

/-! ### ComputeOptim -/

/-- C89: if `ComputeOptim` returns `Found = true`, then the value satisfies the formula and no instance that satisfies the formula is below it in
the order; and the number of calls that it reports is right. -/
theorem C89_optimum (hk : CtxContract d nodes I inv view name) (hR : OneOne R) (hz : Resets I inv view) (hc : CorrectIn sv inv view d)
    (h : OptimisesIn d nodes T depth name ids R v f o) (ha : After d nodes T name ids R I inv view us t)
    (hnew : ∀ n ∈ (Query.withVar v f).names d T [], n ∉ us) {tmp : Bool} {fuel : Nat}
    (he : Over.computeOptim I sv (fun _ => Over.comp I f) (fun _ k => Over.comp I (o k)) v tmp fuel st t = (.ok r, st', t')) (hf : r.found = true) :
    r.value.val.length = d ∧ ValidVals r.value.val ∧ f.about d T v (den r.value.val) ∧
      (∀ e, f.about d T v e → ¬ (o { val := r.value.val }).about d T v e) ∧ ∀ cnt, CountsIn sv cnt → cnt st' = cnt st + r.calls := by
  unfold Over.computeOptim at he
  cases tmp with
  | false =>
    simp only [Bool.not_false, if_true, Prod.mk.injEq, Except.ok.injEq] at he
    rw [← he.1] at hf
    simp at hf
  | true =>
    simp only [Bool.not_true, Bool.false_eq_true, if_false] at he
    rcases Over.step_asks (st := st) hk hR hc ha h.first h.plain h.self hnew with ⟨st1, s1, b, e, hH, hF⟩ | ⟨st1, s1, e, hu⟩ | ⟨err, st1, s1, e, -⟩
    · rw [e] at he
      obtain ⟨⟨b', -, h2, h3, h4, h5⟩, h6⟩ := Over.optimIn_sound hk hR hz hc h fuel 1 st1 s1 b hH hF r st' t' he
      rw [h2]
      refine ⟨h3.1, h3.2, h4, h5, fun cnt hcnt => ?_⟩
      have h7 := h6 cnt hcnt
      have h8 := hcnt.step (some (Over.encWithVar I v (Over.comp I f))) st t
      rw [e] at h8
      simp only at h8
      omega
    · rw [e] at he
      simp only [Prod.mk.injEq, Except.ok.injEq] at he
      rw [← he.1] at hf
      simp at hf
    · rw [e] at he; simp at he

/-- C89: in executions in which the temporary file can be created, `ComputeOptim` returns `Found = false` without error iff no instance satisfies
the formula. -/
theorem C89_absent (hk : CtxContract d nodes I inv view name) (hR : OneOne R) (hz : Resets I inv view) (hc : CorrectIn sv inv view d)
    (hr : ReliableIn sv inv) (h : OptimisesIn d nodes T depth name ids R v f o) (ha : After d nodes T name ids R I inv view us t)
    (hnew : ∀ n ∈ (Query.withVar v f).names d T [], n ∉ us) (fuel : Nat) :
    (∃ r st' t', Over.computeOptim I sv (fun _ => Over.comp I f) (fun _ k => Over.comp I (o k)) v true fuel st t = (.ok r, st', t') ∧
      r.found = false) ↔ ∀ e, ¬ f.about d T v e := by
  unfold Over.computeOptim
  simp only [Bool.not_true, Bool.false_eq_true, if_false]
  rcases Over.step_asks (st := st) hk hR hc ha h.first h.plain h.self hnew with ⟨st1, s1, b, e, hH, hF⟩ | ⟨st1, s1, e, hu⟩ | ⟨err, st1, s1, e, hn⟩
  · rw [e]
    constructor
    · rintro ⟨r, st', s', he, hf⟩
      obtain ⟨⟨b', h1, -⟩, -⟩ := Over.optimIn_sound hk hR hz hc h fuel 1 st1 s1 b hH hF r st' s' he
      rw [h1] at hf; simp at hf
    · intro hn; exact absurd hF (hn _)
  · rw [e]
    exact ⟨fun _ => hu, fun _ => ⟨_, _, _, rfl, rfl⟩⟩
  · exact absurd hr hn

/-- C89: if among the instances that satisfy the formula every step down the order lowers a rank of at most `B`, then `ComputeOptim` returns,
without error and after at most `B + 2` calls. -/
theorem C89_rank (hk : CtxContract d nodes I inv view name) (hR : OneOne R) (hz : Resets I inv view) (hc : CorrectIn sv inv view d)
    (hr : ReliableIn sv inv) (h : OptimisesIn d nodes T depth name ids R v f o) (ha : After d nodes T name ids R I inv view us t)
    (hnew : ∀ n ∈ (Query.withVar v f).names d T [], n ∉ us) (rk : List FeatV → Nat) (B : Nat)
    (hB : ∀ b, GoodVals d b → f.about d T v (den b) → rk b ≤ B)
    (hrk : ∀ b b', GoodVals d b → GoodVals d b' → f.about d T v (den b) → f.about d T v (den b') → (o { val := b }).about d T v (den b') →
      rk b' < rk b) {fuel : Nat} (hfuel : B < fuel) :
    ∃ r st' t', Over.computeOptim I sv (fun _ => Over.comp I f) (fun _ k => Over.comp I (o k)) v true fuel st t = (.ok r, st', t') ∧
      r.calls ≤ B + 2 := by
  unfold Over.computeOptim
  simp only [Bool.not_true, Bool.false_eq_true, if_false]
  rcases Over.step_asks (st := st) hk hR hc ha h.first h.plain h.self hnew with ⟨st1, s1, b, e, hH, hF⟩ | ⟨st1, s1, e, hu⟩ | ⟨err, st1, s1, e, hn⟩
  · rw [e]
    have hb := hB b hH.1 hF
    obtain ⟨r, st', s', h1, h2⟩ := Over.optimIn_ends hk hR hz hc hr h rk hrk fuel 1 st1 s1 b hH hF (by omega)
    exact ⟨r, st', s', h1, by omega⟩
  · rw [e]
    exact ⟨_, _, _, rfl, by simp⟩
  · exact absurd hr hn

/-- C89: for strict orders `ComputeOptim` returns, without error and after at most `3 ^ dim + 1` calls. -/
theorem C89_strict (hk : CtxContract d nodes I inv view name) (hR : OneOne R) (hz : Resets I inv view) (hc : CorrectIn sv inv view d)
    (hr : ReliableIn sv inv) (h : OptimisesIn d nodes T depth name ids R v f o) (ha : After d nodes T name ids R I inv view us t)
    (hnew : ∀ n ∈ (Query.withVar v f).names d T [], n ∉ us)
    (ho : StrictOn (f.about d T v) (fun e e' => (o { val := valsOf d e' }).about d T v e) d) {fuel : Nat} (hfuel : 3 ^ d ≤ fuel) :
    ∃ r st' t', Over.computeOptim I sv (fun _ => Over.comp I f) (fun _ k => Over.comp I (o k)) v true fuel st t = (.ok r, st', t') ∧
      r.calls ≤ 3 ^ d + 1 := by
  have hpos : 0 < 3 ^ d := Nat.pow_pos (by omega)
  obtain ⟨r, st', s', h1, h2⟩ := C89_rank (st := st) hk hR hz hc hr h ha hnew
    (rankOf (f.about d T v) (fun e e' => (o { val := valsOf d e' }).about d T v e) d) (3 ^ d - 1)
    (fun b hb hF => by have := rankOf_bound ho hb hF; omega)
    (fun b b' hb hb' hF hF' hRR => rankOf_lt ho hb hb' hF hF' (by
      show (o { val := valsOf d (den b) }).about d T v (den b')
      rw [valsOf_den hb]; exact hRR)) (fuel := fuel) (by omega)
  exact ⟨r, st', s', h1, by omega⟩

/-! ### Contexts with the names of the basic one -/

/-- C89: with a context that gives variables the names that the basic one gives them (the numbers may differ), no more is asked of queries than
with the basic one. -/
theorem C89_usable (hname : ∀ x gs, name x (pathOf gs) = x ++ suffix gs) (hg : q.Good d nodes T depth) (hi : ∀ i ∈ q.idNames, i ∈ ids) :
    q.UsableIn d nodes T depth name ids Eq :=
  ⟨hg, hi, fun _ _ _ _ h => nameR_basic hname h, fun a _ => gens_basic hname a⟩

theorem C89_optimises (hname : ∀ x gs, name x (pathOf gs) = x ++ suffix gs) (h : Optimises d nodes T depth v f o)
    (hi : ∀ i ∈ f.idNames, i ∈ ids) (hi2 : ∀ b, ∀ i ∈ (o { val := b }).idNames, i ∈ ids) : OptimisesIn d nodes T depth name ids Eq v f o where
  first := C89_usable hname h.good hi
  plain := h.plain
  next b hb := C89_usable hname (h.goodNext b hb) fun i hm => (List.mem_append.1 hm).elim (hi i) (hi2 b i)
  plainNext := h.plainNext
  self := by
    have := hname v []
    simpa [pathOf, suffix] using this

theorem oneOne_eq : OneOne (@Eq QVar) := ⟨fun h h' => h.symm.trans h', fun h h' => h.trans h'.symm⟩

/-- An environment whose executable tries all valuations. -/
def bruteEnv : Nat → Env := fun _ => ⟨none, some none, bruteRun⟩

theorem C89_solver_exists (hk : CtxContract d nodes I inv view name) : CorrectIn (Over.binSolver I bruteEnv) inv view d ∧
    ReliableIn (Over.binSolver I bruteEnv) inv ∧ CountsIn (Over.binSolver I bruteEnv) BinSt.calls :=
  have h := C89_reliable (I := I) (inv := inv) (env := bruteEnv) (fun _ => bruteRun_solves) (fun _ => rfl) fun _ => rfl
  ⟨C89_binSolver hk fun _ => bruteRun_solves, h.1, h.2⟩

/-- Concrete case of C89: the test of compute/optimum_test.go with a context that leaves out three numbers after each. -/
theorem C89_test {sv : Over.SolverG S Ctx} (hc : CorrectIn sv (CtxInv 3 []) ctxView 3) (hr : ReliableIn sv (CtxInv 3 [])) :
    ∃ o st' s', Over.computeOptim (spacedI [] 3) sv (fun _ => Over.comp (spacedI [] 3) (testFormula ['x']))
        (fun _ k => Over.comp (spacedI [] 3) (strictLel VarGenBotCount ['x'] k)) ['x'] true 4 st (BasicQContext 3 []) = (.ok o, st', s') ∧
      o.found = true ∧ o.calls ≤ 5 ∧
      (o.value.val = [BOT, BOT, ONE] ∨ o.value.val = [BOT, ONE, BOT] ∨ o.value.val = [ONE, BOT, BOT]) := by
  have hh : Hygienic 3 exTree ((Query.withVar ['x'] (testFormula ['x'])).names 3 exTree [])
      ((VarGenBotCount ['x'], .bots ['x']) :: (Query.withVar ['x'] (testFormula ['x'])).uses 3 exTree (fun _ => 0) []) :=
    .of_eq (by decide)
  have hO := C89_optimises (ids := [[]]) (spacedName_path []) (optimises_lel testFormula_good testFormula_plain hh)
    (by decide) (by simp [strictLel, Query.idNames, Atom.args, Term.idNames])
  have hk := spaced_contract 3 [] [] 3
  have hz := (C89_resets 3 [] [] 3).2
  have hA : After 3 [] exTree (spacedName []) [[]] Eq (spacedI [] 3) (CtxInv 3 []) ctxView [] (BasicQContext 3 []) :=
    .new (unused_start 3 [] (Int.le_refl 0))
  have hn : ∀ n ∈ (Query.withVar ['x'] (testFormula ['x'])).names 3 exTree [], n ∉ ([] : List QVar) := by simp
  have hab : ∀ e : PInst, (testFormula ['x']).about 3 exTree ['x'] e ↔
      Subsumes 3 e (den [ONE, ONE, ONE]) ∧ ¬ Subsumes 3 e (den [BOT, BOT, BOT]) := by
    intro e; simp [testFormula, Query.about, Query.fo, Atom.says, Term.val, upd]
  obtain ⟨r, st', s', e, hcalls⟩ := C89_rank (st := st) hk oneOne_eq hz hc hr hO hA hn (fun b => 3 - numBot 3 (den b)) 3 (fun _ _ _ => by omega) (by
    intro b b' _ _ _ _ hR
    rw [about_strictLel] at hR
    have := countFeats_le' 3 fun i => (den b' i).isNone
    unfold numBot at *
    omega) (fuel := 4) (by omega)
  have hfound : r.found = true := by
    cases hf : r.found with
    | true => rfl
    | false =>
      have := (C89_absent (st := st) hk oneOne_eq hz hc hr hO hA hn 4).1 ⟨r, st', s', e, hf⟩ (den [ONE, BOT, BOT])
      exact absurd ((hab _).2 (by decide)) this
  refine ⟨r, st', s', e, hfound, by omega, ?_⟩
  obtain ⟨h1, h2, h3, h4, -⟩ := C89_optimum hk oneOne_eq hz hc hO hA hn e hfound
  rw [hab] at h3
  have h5 := h4 (den [ONE, BOT, BOT]) ((hab _).2 (by decide))
  rw [about_strictLel] at h5
  have hm := mem_allVals (d := 3) ⟨h1, h2⟩
  revert h3 h5 hm
  generalize r.value.val = b
  intro h3 h5 hm
  exact (by decide +kernel : ∀ b ∈ allVals 3, (Subsumes 3 (den b) (den [ONE, ONE, ONE]) ∧ ¬ Subsumes 3 (den b) (den [BOT, BOT, BOT])) →
    ¬ numBot 3 (den b) < numBot 3 (den [ONE, BOT, BOT]) →
    (b = [BOT, BOT, ONE] ∨ b = [BOT, ONE, BOT] ∨ b = [ONE, BOT, BOT])) b hm h3 h5

/-- Its assumptions can be met. -/
example : ∃ o st' s', Over.computeOptim (spacedI [] 3) (Over.binSolver (spacedI [] 3) bruteEnv) (fun _ => Over.comp (spacedI [] 3) (testFormula ['x']))
        (fun _ k => Over.comp (spacedI [] 3) (strictLel VarGenBotCount ['x'] k)) ['x'] true 4 {} (BasicQContext 3 []) = (.ok o, st', s') ∧
      o.found = true ∧ o.calls ≤ 5 ∧
      (o.value.val = [BOT, BOT, ONE] ∨ o.value.val = [BOT, ONE, BOT] ∨ o.value.val = [ONE, BOT, BOT]) :=
  C89_test (C89_solver_exists (spaced_contract 3 [] [] 3)).1 (C89_solver_exists (spaced_contract 3 [] [] 3)).2.1

/-- Concrete case of the combinations: two queries, with the same context, of which one is negated. -/
example (st : BinSt) : ∃ b st' t', Over.andSat [some (Over.atomSat (Over.binSolver (spacedI [] 3) bruteEnv) (Over.comp (spacedI [] 3) nodeQuery) true),
    some (Over.atomSat (Over.binSolver (spacedI [] 3) bruteEnv) (Over.comp (spacedI [] 3) fullQuery) false)] st (BasicQContext 2 exNodes) =
      (.ok b, st', t') ∧
    (b = true ↔ (¬ ∃ x, ¬ IsNode 2 exTree x ∧ ∀ p ∈ exTree.nodeInsts bot, ∃ y, Subsumes 2 p.2 y ∧ LEL 2 y x) ∧
      ∃ z, Full 2 z) := by
  have hk := spaced_contract 2 exNodes [] 3
  obtain ⟨hc, hr, -⟩ := C89_solver_exists hk
  have h1 := C89_query hk oneOne_eq hc hr (C89_usable (ids := nodeQuery.idNames ++ fullQuery.idNames) (spacedName_path []) nodeQuery_good fun _ h => List.mem_append.2 (.inl h))
    nodeQuery_plain true
  have h2 := C89_query hk oneOne_eq hc hr (C89_usable (ids := nodeQuery.idNames ++ fullQuery.idNames) (spacedName_path []) fullQuery_good fun _ h => List.mem_append.2 (.inr h))
    fullQuery_plain false
  obtain ⟨b, st', us', t', e, hb, -⟩ := C89_and [ElemG.query (spacedI [] 3) (Over.binSolver (spacedI [] 3) bruteEnv) 2 exTree nodeDepth nodeQuery true,
    ElemG.query (spacedI [] 3) (Over.binSolver (spacedI [] 3) bruteEnv) 2 exTree (fun _ => 0) fullQuery false] (by
    intro e he
    simp only [List.mem_cons, List.not_mem_nil, or_false] at he
    rcases he with rfl | rfl
    · exact h1
    · exact h2) (by
    refine List.pairwise_cons.2 ⟨?_, List.pairwise_cons.2 ⟨by simp, .nil⟩⟩
    intro e he
    rw [List.mem_singleton.1 he]
    show ∀ n ∈ fullQuery.names 2 exTree [], n ∉ nodeQuery.touches 2 exTree nodeDepth
    decide +kernel) [] st (BasicQContext 2 exNodes) (.new (unused_start 2 exNodes (Int.le_refl 0))) (by simp)
  simp only [ElemG.and, List.map_cons, List.map_nil, ElemG.query] at e
  refine ⟨b, st', t', e, hb.trans ?_⟩
  simp only [ElemG.and, List.mem_cons, List.not_mem_nil, or_false, forall_eq_or_imp, forall_eq, ElemG.query, reduceCtorEq, iff_false, iff_true]
  exact Iff.rfl

/-- C89: queries whose names fit (C87) can be used, whatever names the context gives. -/
theorem C89_usable_fit (hn : q.NamesFit name R) (hg : q.Good d nodes T depth) : q.UsableIn d nodes T depth name q.idNames R :=
  ⟨hg, fun _ h => h, hn.var, hn.gens⟩

theorem bigQuery_plain : bigQuery.Plain :=
  ⟨⟨trivial, ⟨trivial, rfl⟩, trivial, trivial⟩, by decide, by decide, trivial, by simp, by decide, ⟨trivial, trivial⟩, trivial, trivial⟩

/-- Concrete case with other names: a query with a quantifier and several predicates, with the context of `C87_other`. -/
example (negated : Bool) (st : BinSt) : ∃ b st' t', Over.atomSat (Over.binSolver (spacedI ['q', '.'] 3) bruteEnv) (Over.comp (spacedI ['q', '.'] 3) bigQuery) negated st
      { BasicQContext 2 exNodes with topv := 100 } = (.ok b, st', t') ∧
    (b = true ↔ (bigQuery.fo 2 exTree (fun _ => bot) (fun _ => none) ↔ negated = false)) := by
  obtain ⟨hk, hu⟩ := C87_other 2 exNodes
  obtain ⟨hc, hr, -⟩ := C89_solver_exists hk
  have hn := namesFit_tagged (name := spacedName ['q', '.']) C54_test_generators.1 (fun a h => tidy_tagged (tidy_atoms bigQuery_tidy.1 a h)) bigQuery_plainly
    (spaced_apart bigQuery_plainly)
  have hg := query_good (depth := nodeDepth) (by omega) exNodes_isTree exNodes_covers C54_test_generators.1 bigQuery_tidy.1 bigQuery_tidy.2.1 bigQuery_tidy.2.2
  obtain ⟨b, st', us, t', e, hb, -⟩ := C89_query hk hn.oneOne hc hr (C89_usable_fit hn hg) bigQuery_plain negated [] st _ (.new hu) (by simp)
  simp only [ElemG.query] at e
  exact ⟨b, st', t', e, hb⟩

/-- Concrete case of `C89_values`: the names of the variables in that context. -/
example (st st' : BinSt) (t' : Ctx) (h : (Over.binSolver (spacedI ['q', '.'] 3) bruteEnv).step (Over.comp (spacedI ['q', '.'] 3) fullQuery) st
      { BasicQContext 2 exNodes with topv := 100 } = (.ok (), st', t')) :
    ∃ k st'' t'', (Over.binSolver (spacedI ['q', '.'] 3) bruteEnv).values [['q', '.', 'z']] st' t' = (.ok [k], st'', t'') ∧
      (k.val = [ZERO, ZERO] ∨ k.val = [ZERO, ONE] ∨ k.val = [ONE, ZERO] ∨ k.val = [ONE, ONE]) := by
  obtain ⟨hk, hu⟩ := C87_other 2 exNodes
  have hp : fullQuery.Plainly := by
    constructor
    · have : ∀ x ∈ fullQuery.varNames, x = ['z'] := by decide
      intro x hx
      rw [this x hx]
      exact ⟨⟨by decide, _, _, rfl, by decide⟩, by decide⟩
    · have : ∀ x ∈ fullQuery.idNames, recSep ∉ x ∧ sep ∉ x := by decide
      exact this
  have hn := namesFit_tagged (name := spacedName ['q', '.']) C54_test_generators.1 (q := fullQuery) (fun a h => by
    rw [show a = .full (.var ['z']) by simpa [fullQuery, Query.atoms] using h]; trivial) hp (spaced_apart hp)
  obtain ⟨τ, hτ, hv⟩ := C89_values hk hn.oneOne (C89_solver_exists hk).1 (.new hu) (C89_usable_fit hn fullQuery_good) (by simp) h
  obtain ⟨ks, st'', t'', e, hks⟩ := hv [(['z'], ['q', '.', 'z'])] (by
    intro p hp
    rw [List.mem_singleton.1 hp]
    exact ⟨by simp [fullQuery, Query.names, suffix], hn.var ['z'] (by decide) _ _ ⟨[], by simp, rfl, rfl⟩⟩)
  match ks, hks with
  | [], hks => simp at hks
  | _ :: _ :: _, hks => simp at hks
  | [k], hks =>
    refine ⟨k, st'', t'', e, ?_⟩
    have hks : k.val = valsOf 2 (τ ['z']) := by simpa using hks
    have hfull : Full 2 (τ ['z']) := by simpa [fullQuery, Query.sem, Atom.says, RTerm.den, Term.res, suffix] using hτ
    have h0 := hfull 0 (by omega)
    have h1 := hfull 1 (by omega)
    rw [hks]
    revert h0 h1
    simp only [valsOf, List.range, List.range.loop, List.map_cons, List.map_nil]
    cases τ ['z'] 0 with
    | none => simp
    | some a => cases τ ['z'] 1 with
      | none => simp
      | some b => cases a <;> cases b <;> simp [valOf]

/-! ### `ComputeOptim` asks for the variable under its own name -/

/-- C89: a context may not give a variable another name where no scope is open, although query/scoper.go:11-15 does not say so: `ComputeOptim`
calls `Values` with the variable itself and not with the result of `ScopeVar` (compute/optimum.go:71). With a context that puts `q.` before all
names and keeps the contract otherwise, and with a correct solver, the query "x is full" is satisfiable and the call fails, because the instance that
it gets has no features; with the basic context it succeeds. -/
theorem C89_own_name : CtxContract 1 [] (spacedI ['q', '.'] 0) (CtxInv 1 []) ctxView (spacedName ['q', '.']) ∧
    Resets (spacedI ['q', '.'] 0) (CtxInv 1 []) ctxView ∧
    CorrectIn (Over.binSolver (spacedI ['q', '.'] 0) bruteEnv) (CtxInv 1 []) ctxView 1 ∧
    ReliableIn (Over.binSolver (spacedI ['q', '.'] 0) bruteEnv) (CtxInv 1 []) ∧
    (Over.computeOptim (spacedI ['q', '.'] 0) (Over.binSolver (spacedI ['q', '.'] 0) bruteEnv)
      (fun _ => Over.comp (spacedI ['q', '.'] 0) (.atom (.full (.var ['x']))))
      (fun _ k => Over.comp (spacedI ['q', '.'] 0) (strictSubs ['x'] k)) ['x'] true 3 {} (BasicQContext 1 [])).1.toOption = none ∧
    ((Over.computeOptim basicI (Over.binSolver basicI bruteEnv)
      (fun _ => Over.comp basicI (.atom (.full (.var ['x']))))
      (fun _ k => Over.comp basicI (strictSubs ['x'] k)) ['x'] true 3 {} (BasicQContext 1 [])).1.toOption.map OptOutput.found) = some true := by
  obtain ⟨hc, hr, -⟩ := C89_solver_exists (spaced_contract 1 [] ['q', '.'] 0)
  exact ⟨spaced_contract 1 [] _ _, (C89_resets 1 [] _ _).2, hc, hr, by decide +kernel, by decide +kernel⟩

end Goexpdt.Props

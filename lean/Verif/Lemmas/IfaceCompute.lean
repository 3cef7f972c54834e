import Verif.Spec.IfaceCompute
import Verif.Lemmas.IfaceEnd
import Verif.Lemmas.IfaceBasic
import Verif.Lemmas.Optim
/- Solvers and computations with a context of the user's own. -/
namespace Goexpdt
open Spec

namespace Over

variable {S σ : Type} {d : Nat} {nodes : List Node} {T : DTree} {depth : QVar → Nat} {name : QVar → ScopePath → QVar} {ids : List (List Char)}
  {R : QVar → QVar → Prop} {I : QContext σ} {inv : σ → Prop} {view : σ → View} {q : Query}

theorem MG_bind_ok {α β : Type} {m : MG σ α} {f : α → MG σ β} {s s' : σ} {a : α} (h : m s = (.ok a, s')) : (m >>= f) s = f a s' := by
  show MG.bind' m f s = _
  unfold MG.bind'
  rw [h]

/-! ### The solver that runs an executable -/

section
variable {v : QVar} {t : σ}

/-- The number of a triple, and a context that hides no changes from the view. -/
theorem cnfVar_known (hk : CtxContract d nodes I inv view name) (hi : inv t) {vr : VarRep} {n : Int} (h : (view t).num vr = some n) :
    ∃ t', cnfVar I vr t = (.ok n, t') ∧ inv t' ∧ view t' = view t := by
  obtain ⟨a, t', e, h1, rfl, h2⟩ := hk.known t vr n hi h
  exact ⟨t', e, h1, h2⟩

theorem variableFilter_known (hk : CtxContract d nodes I inv view name) (is : List Nat) : ∀ {t : σ}, inv t →
    (∀ i ∈ is, ∀ k ∈ featVals, ∃ n, (view t).num ⟨v, (i : Nat), k⟩ = some n) →
    ∃ fs t', variableFilter I v is t = (.ok fs, t') ∧ inv t' ∧ view t' = view t ∧
      ∀ i ∈ is, ∀ k ∈ featVals, ∀ n, (view t).num ⟨v, (i : Nat), k⟩ = some n → n ∈ fs := by
  induction is with
  | nil => intro t hi _; exact ⟨[], t, rfl, hi, rfl, by simp⟩
  | cons i is ih =>
    intro t hi h
    obtain ⟨a, ha⟩ := h i (by simp) BOT (by simp [featVals])
    obtain ⟨b, hb⟩ := h i (by simp) ZERO (by simp [featVals])
    obtain ⟨c, hc⟩ := h i (by simp) ONE (by simp [featVals])
    obtain ⟨t1, e1, i1, v1⟩ := cnfVar_known hk hi ha
    obtain ⟨t2, e2, i2, v2⟩ := cnfVar_known hk i1 (v1 ▸ hb)
    obtain ⟨t3, e3, i3, v3⟩ := cnfVar_known hk i2 (v2 ▸ v1 ▸ hc)
    have hv : view t3 = view t := v3.trans (v2.trans v1)
    obtain ⟨fs, t4, e4, i4, v4, h4⟩ := ih i3 (by rw [hv]; exact fun j hj => h j (by simp [hj]))
    rw [hv] at v4 h4
    refine ⟨a :: b :: c :: fs, t4, ?_, i4, v4, ?_⟩
    · unfold variableFilter
      rw [MG_bind_ok e1, MG_bind_ok e2, MG_bind_ok e3, MG_bind_ok e4]
      rfl
    · intro j hj k hkk n hn
      rcases List.mem_cons.1 hj with rfl | hj
      · simp only [featVals, List.mem_cons, List.not_mem_nil, or_false] at hkk
        rcases hkk with rfl | rfl | rfl
        · rw [ha] at hn; cases hn; simp
        · rw [hb] at hn; cases hn; simp
        · rw [hc] at hn; cases hn; simp
      · simp [h4 j hj k hkk n hn]

theorem readFeats_known (hk : CtxContract d nodes I inv view name) {vval : List (Int × Bool)} {e : PInst} (is : List Nat) : ∀ {t : σ}, inv t →
    (∀ i ∈ is, ∀ k ∈ featVals, ∃ n, (view t).num ⟨v, (i : Nat), k⟩ = some n ∧ (mapGet vval n).getD false = decide (valOf (e i) = k)) →
    ∃ t', readFeats I v vval is t = (.ok (is.map fun i => valOf (e i)), t') ∧ inv t' ∧ view t' = view t := by
  induction is with
  | nil => intro t hi _; exact ⟨t, rfl, hi, rfl⟩
  | cons i is ih =>
    intro t hi h
    obtain ⟨a, ha, ra⟩ := h i (by simp) BOT (by simp [featVals])
    obtain ⟨b, hb, rb⟩ := h i (by simp) ZERO (by simp [featVals])
    obtain ⟨c, hc, rc⟩ := h i (by simp) ONE (by simp [featVals])
    obtain ⟨t1, e1, i1, v1⟩ := cnfVar_known hk hi ha
    unfold readFeats
    rw [MG_bind_ok e1, ra]
    cases hv : e i with
    | none =>
      obtain ⟨t2, e2, i2, v2⟩ := ih i1 (by rw [v1]; exact fun j hj => h j (by simp [hj]))
      simp only [valOf, decide_true, if_true]
      rw [MG_bind_ok e2]
      exact ⟨t2, by simp only [List.map_cons, hv, valOf]; rfl, i2, v2.trans v1⟩
    | some x =>
      have n0 : ¬ valOf (some x) = BOT := by cases x <;> decide
      simp only [n0, decide_false, Bool.false_eq_true, if_false]
      obtain ⟨t2, e2, i2, v2⟩ := cnfVar_known hk i1 (v1 ▸ hc)
      rw [MG_bind_ok e2, rc, hv]
      have v2 := v2.trans v1
      cases x with
      | true =>
        obtain ⟨t3, e3, i3, v3⟩ := ih i2 (by rw [v2]; exact fun j hj => h j (by simp [hj]))
        simp only [valOf, decide_true, if_true]
        rw [MG_bind_ok e3]
        exact ⟨t3, by simp only [List.map_cons, hv, valOf]; rfl, i3, v3.trans v2⟩
      | false =>
        have n1 : ¬ valOf (some false) = ONE := by decide
        simp only [n1, decide_false, Bool.false_eq_true, if_false]
        obtain ⟨t3, e3, i3, v3⟩ := cnfVar_known hk i2 (v2 ▸ hb)
        rw [MG_bind_ok e3, rb, hv]
        have v3 := v3.trans v2
        obtain ⟨t4, e4, i4, v4⟩ := ih i3 (by rw [v3]; exact fun j hj => h j (by simp [hj]))
        simp only [valOf, decide_true, if_true]
        rw [MG_bind_ok e4]
        exact ⟨t4, by simp only [List.map_cons, hv, valOf]; rfl, i4, v4.trans v3⟩

theorem varValue_known (hk : CtxContract d nodes I inv view name) (hi : inv t) {n : Int} {β : Val} {out : List Char} (hp : Prints n β out)
    (hn : ∀ k : Int, n < k → β k.natAbs = false) {e : PInst}
    (hpos : ∀ i < d, ∀ k ∈ featVals, ∀ n, (view t).num ⟨v, (i : Nat), k⟩ = some n → 0 < n) (hr : ReadsIn d (view t) β v e) :
    ∃ t', varValueFromBytes I out v t = (.ok { val := valsOf d e }, t') ∧ inv t' ∧ view t' = view t := by
  obtain ⟨ls, rfl, hok, hall, htrue⟩ := hp
  obtain ⟨a, t0, e0, i0, rfl, v0⟩ := hk.dim t hi
  have e0 : dim I t = (.ok a, t0) := e0
  obtain ⟨fs, t1, e1, i1, v1, h1⟩ := variableFilter_known (v := v) hk (List.range a) i0 (by
    intro i hi k hk
    obtain ⟨m, hm, -⟩ := hr i (List.mem_range.1 hi) k hk
    exact ⟨m, v0 ▸ hm⟩)
  rw [v0] at v1 h1
  have e2 : (MG.lift (scanLines fs [] (splitOn '\n' (joinLines (ls.map OutLine.text)))) : MG σ _) t1 =
      (.ok (record fs [] (ls.flatMap OutLine.lits)), t1) := by
    rw [scan_out _ _ hok]; rfl
  obtain ⟨t3, e3, i3, v3⟩ := readFeats_known (v := v) (vval := record fs [] (ls.flatMap OutLine.lits)) (e := e) hk (List.range a) i1 (by
    intro i hi k hk
    have hi' := List.mem_range.1 hi
    obtain ⟨m, hm, hb⟩ := hr i hi' k hk
    refine ⟨m, v1 ▸ hm, ?_⟩
    rw [← hb]
    have hm1 := hpos i hi' k hk m hm
    rw [show m.toNat = m.natAbs by omega]
    rw [record_get (by omega) (h1 i hi k hk m hm) _ fun l hl h0 => (htrue l hl h0).2]
    by_cases hmn : m ≤ n
    · rw [if_pos (hall m (by omega) hmn)]; rfl
    · split
      · rfl
      · simp [mapGet, hn m (by omega)])
  refine ⟨t3, ?_, i3, v3.trans v1⟩
  unfold varValueFromBytes
  rw [MG_bind_ok e0, MG_bind_ok e1, MG_bind_ok e2, MG_bind_ok e3]
  rfl

theorem binValues_known (hk : CtxContract d nodes I inv view name) {n : Int} {β : Val} {st : BinSt} (hp : Prints n β st.output)
    (hn : ∀ k : Int, n < k → β k.natAbs = false) (vs : List QVar) (es : QVar → PInst) (hi : inv t)
    (h : ∀ v ∈ vs, (∀ i < d, ∀ k ∈ featVals, ∀ n, (view t).num ⟨v, (i : Nat), k⟩ = some n → 0 < n) ∧ ReadsIn d (view t) β v (es v)) :
    ∃ t', binValues I vs st t = (.ok (vs.map fun v => { val := valsOf d (es v) }), st, t') ∧ inv t' ∧ view t' = view t := by
  have : ∃ t', binValuesLoop I st.output vs t = (.ok (vs.map fun v => { val := valsOf d (es v) }), t') ∧ inv t' ∧ view t' = view t := by
    induction vs generalizing t with
    | nil => exact ⟨t, rfl, hi, rfl⟩
    | cons v vs ih =>
      have hh := h v (by simp)
      obtain ⟨t1, e1, i1, v1⟩ := varValue_known hk hi hp hn hh.1 hh.2
      obtain ⟨t2, e2, i2, v2⟩ := ih i1 (by rw [v1]; exact fun w hw => h w (by simp [hw]))
      refine ⟨t2, ?_, i2, v2.trans v1⟩
      unfold binValuesLoop
      rw [MG_bind_ok e1, MG_bind_ok e2]
      rfl
  obtain ⟨t', e, h1⟩ := this
  refine ⟨t', ?_, h1⟩
  unfold binValues
  rw [e]

end

theorem binSolver_correctIn (hk : CtxContract d nodes I inv view name) {env : Nat → Env} (h : ∀ k, Solves (env k).run) :
    CorrectIn (binSolver I env) inv view d := by
  intro act st t t' c e hw hi
  rw [show (binSolver I env).step (some act) st t = binStep (env st.calls) (some act) st t from rfl]
  unfold binStep
  cases (env st.calls).temp with
  | some msg => trivial
  | none =>
    simp only [e]
    rcases ht : c.toFile (env st.calls).create with ⟨ok, f⟩
    match ok, f with
    | false, _ => trivial
    | true, none => trivial
    | true, some f =>
      simp only
      rw [toFile_content ht]
      rcases solves_bytes (h st.calls) hw with ⟨out, err, β, h1, h2, h3, h4⟩ | ⟨out, err, h1, h2⟩
      · rw [h1]
        refine ⟨⟨hi, rfl⟩, β, h2, fun vs es hr => ?_⟩
        obtain ⟨t2, h5⟩ := binValues_known hk (st := ⟨out, st.calls + 1⟩) h3 h4 vs es hi hr
        exact ⟨_, t2, h5⟩
      · rw [h1]
        exact ⟨⟨hi, rfl⟩, h2⟩

theorem binSolver_reliableIn {env : Nat → Env} (h : ∀ k, Solves (env k).run) (ht : ∀ k, (env k).temp = none)
    (hc : ∀ k, (env k).create = some none) : ReliableIn (binSolver I env) inv := by
  intro act st t t' c e hw _ err he
  revert he
  show (binStep (env st.calls) (some act) st t).1 ≠ _
  unfold binStep
  obtain ⟨_, -, -, -, -, ⟨f, hf, hf'⟩, -⟩ := Props.C07_toFile c
  simp only [e, ht, hc, hf, hf']
  rcases solves_bytes (h st.calls) hw with ⟨out, err, β, h1, -⟩ | ⟨out, err, h1, -⟩ <;> rw [h1] <;>
    simp [runSolver]

theorem binStep_callsIn (env : Env) (q : CompG σ) (st : BinSt) (s : σ) : (binStep env q st s).2.1.calls = st.calls + 1 := by
  unfold binStep
  cases env.temp with
  | some msg => rfl
  | none =>
    cases q with
    | none => rfl
    | some act =>
      rcases h : act s with ⟨r | c, s1⟩
      · simp [h]
      · simp only [h]
        rcases c.toFile env.create with ⟨ok, f⟩
        match ok, f with
        | false, _ => rfl
        | true, none => rfl
        | true, some f =>
          simp only
          cases runSolver (env.run f.content) with
          | error e => rfl
          | ok p => simp only; split <;> rfl

theorem binSolver_countsIn (I : QContext σ) (env : Nat → Env) : CountsIn (binSolver I env) BinSt.calls where
  step q st s := binStep_callsIn _ q st s
  values vs st s := by
    show (binValues I vs st s).2.1.calls = _
    unfold binValues
    rfl

/-! ### Queries after queries -/

/-- The parameters of the simulation. -/
abbrev parOf (hk : CtxContract d nodes I inv view name) (hR : OneOne R) (ids : List (List Char)) : Par σ :=
  ⟨d, nodes, I, inv, view, name, ids, R, hk, hR⟩

theorem query_sim (J : Par σ) {n : Nat} {w : Pairing} (hu : q.UsableIn J.d J.nodes T depth J.name J.ids J.R) :
    SimG J n w CnfR q.encode (encode J.I q) := by
  unfold Query.encode encode
  rcases comp_G q n hu.var hu.inside hu.gens with ⟨e1, e2⟩ | ⟨x, x', e1, e2, h1⟩
  · rw [e1, e2]; exact simG_throw _
  · rw [e1, e2]; exact h1 w

/-- A state of the basic context that corresponds to a state after queries. -/
theorem After.ghost (hk : CtxContract d nodes I inv view name) (hR : OneOne R) {us : List QVar} {t : σ}
    (h : After d nodes T name ids R I inv view us t) :
    ∃ w s, At (parOf hk hR ids) w s t ∧ ∀ names : List QVar, (∀ n ∈ names, n ∉ us) → Ready d nodes names s := by
  induction h with
  | new hu => exact ⟨_, _, at_start (parOf hk hR ids) hu, fun names _ => Ready.fresh_ctx d nodes names⟩
  | @query us t depth c t' q _ hq hnew he ih =>
    obtain ⟨w, s, ha, hr⟩ := ih
    have h0 := hr [] (by simp)
    obtain ⟨w2, -, ha2, -, -⟩ := query_sim (parOf hk hR ids) (n := 0) (w := w) hq w (.refl w) s t ha (by rw [h0.scopes]; rfl)
    change At _ w2 (q.encode s).2 (encode I q t).2 at ha2
    rw [he] at ha2
    refine ⟨w2, _, ha2, fun names hn => ?_⟩
    obtain ⟨c1, s1, e1, -, -, -, -, hr1, hd1, -⟩ := good_query_apart hq.good (others := names)
      (fun u hu hm => hn u.1 hm (List.mem_append_right _ (List.mem_append_right _ (List.mem_map_of_mem hu))))
      (hr (q.names d T [] ++ names) (by
        intro n hm
        rcases List.mem_append.1 hm with hm | hm
        · exact hnew n hm
        · exact fun hc => hn n hm (List.mem_append_left _ hc)))
    rw [e1]
    exact ⟨hr1.vm, hr1.dim, hr1.nodes, hr1.scopes, hr1.vars, fun n hm =>
      hd1 n hm fun hc => hn n hm (List.mem_append_right _ (List.mem_append_left _ hc))⟩
  | same _ hi hv ih =>
    obtain ⟨w, s, ha, hr⟩ := ih
    exact ⟨w, s, ha.hidden hi hv, hr⟩

/-- The next query. -/
theorem After.next (hk : CtxContract d nodes I inv view name) (hR : OneOne R) {us : List QVar} {t : σ}
    (h : After d nodes T name ids R I inv view us t) (hq : q.UsableIn d nodes T depth name ids R) (hnew : ∀ n ∈ q.names d T [], n ∉ us) :
    ∃ c t', encode I q t = (.ok c, t') ∧ WF c ∧ inv t' ∧ FaithfulIn d R (q.names d T []) (fun σ => q.sem d T depth σ []) (view t') c ∧
      ∀ n ∈ q.names d T [], ∀ n', R n n' → ∀ i < d, ∀ k ∈ featVals, ∀ m, (view t').num ⟨n', (i : Nat), k⟩ = some m → 0 < m := by
  obtain ⟨w, s, ha, hr⟩ := After.ghost hk hR h
  have h0 := hr [] (by simp)
  obtain ⟨w2, -, ha2, -, hres⟩ := query_sim (parOf hk hR ids) (n := 0) (w := w) hq w (.refl w) s t ha (by rw [h0.scopes]; rfl)
  obtain ⟨c, s', e, -, -, -, hnm, -, hf⟩ := good_query hq.good (hr _ hnew)
  change At _ w2 (q.encode s).2 (encode I q t).2 at ha2
  change ResR _ (q.encode s).1 (encode I q t).1 at hres
  rcases e' : encode I q t with ⟨r', t'⟩
  rw [e, e'] at ha2 hres
  cases r' with
  | error err' => exact hres.elim
  | ok c' =>
    have hres : CnfR w2 c c' := hres
    refine ⟨c', t', rfl, hres.wf', ha2.inv, faithful_transfer ha2 hres ?_ hnm hf, ?_⟩
    · intro n hnn
      obtain ⟨x, hx, gs, h1, rfl⟩ := names_form (ids := ids) (by simp) hq.inside n hnn
      exact ⟨_, hq.var x hx _ _ ⟨gs, h1, rfl, rfl⟩⟩
    · intro n hnn n' hRn i hi k hkk m hm
      have := ha2.nums n n' i k hRn
      obtain ⟨j, hj⟩ := hnm n hnn i hi k hkk
      rw [hj] at this
      change NumR w2 _ ((view t').num _) at this
      rw [hm] at this
      exact (ha2.ok.rel this).2.1

/-- Between queries no scope is open and no variable belongs to one. -/
theorem After.idle (hk : CtxContract d nodes I inv view name) (hR : OneOne R) {us : List QVar} {t : σ}
    (h : After d nodes T name ids R I inv view us t) : inv t ∧ (view t).scopes = [] ∧ ∀ x, (view t).level x = 0 := by
  obtain ⟨w, s, ha, hr⟩ := After.ghost hk hR h
  have h0 := hr [] (by simp)
  refine ⟨ha.inv, ha.scopes.trans h0.scopes, fun x => ?_⟩
  have := ha.level x
  rw [h0.vars] at this
  exact this

theorem comp_good (I : QContext σ) (hg : q.Good d nodes T depth) : comp I q = some (encode I q) := by
  have : ∃ x, comp I q = some x := by
    cases q with
    | nil => exact hg.fits.elim
    | _ => exact ⟨_, rfl⟩
  obtain ⟨x, hx⟩ := this
  unfold encode
  rw [hx]

/-! ### Steps -/

section
variable {sv : SolverG S σ} {us : List QVar} {st : S} {t : σ} {v : QVar} {f : Query}

theorem step_query (hk : CtxContract d nodes I inv view name) (hR : OneOne R) (hc : CorrectIn sv inv view d)
    (h : After d nodes T name ids R I inv view us t) (hq : q.UsableIn d nodes T depth name ids R) (hnew : ∀ n ∈ q.names d T [], n ∉ us) :
    (∃ st' t', sv.step (comp I q) st t = (.ok (), st', t') ∧ After d nodes T name ids R I inv view (us ++ q.touches d T depth) t' ∧
      ∃ β τ, q.sem d T depth τ [] ∧ RecallsIn sv inv view d st' t' β ∧ ∀ n ∈ q.names d T [], ∀ n', R n n' →
        (∀ i < d, ∀ k ∈ featVals, ∀ m, (view t').num ⟨n', (i : Nat), k⟩ = some m → 0 < m) ∧ ReadsIn d (view t') β n' (τ n)) ∨
    (∃ st' t', sv.step (comp I q) st t = (.error .unsat, st', t') ∧ After d nodes T name ids R I inv view (us ++ q.touches d T depth) t' ∧
      ¬ ∃ τ, q.sem d T depth τ []) ∨
    (∃ err st' t', sv.step (comp I q) st t = (.error (.other err), st', t') ∧ ¬ ReliableIn sv inv) := by
  rw [comp_good I hq.good]
  obtain ⟨c, t1, e, hw, hi, hf, hpos⟩ := After.next hk hR h hq hnew
  have ha := After.query h hq hnew e
  have hh := hc (encode I q) st t t1 c e hw hi
  rcases hs : sv.step (some (encode I q)) st t with ⟨r, st', t'⟩
  rw [hs] at hh
  match r with
  | .ok () =>
    obtain ⟨⟨h1, h2⟩, β, hm, hv⟩ := hh
    obtain ⟨τ, hP, hr⟩ := hf.decode β hm
    refine .inl ⟨st', t', rfl, ha.same h1 h2, β, τ, hP, hv, fun n hn n' hRn => ?_⟩
    rw [h2]
    exact ⟨hpos n hn n' hRn, hr n hn n' hRn⟩
  | .error .unsat =>
    obtain ⟨⟨h1, h2⟩, hu⟩ := hh
    exact .inr (.inl ⟨st', t', rfl, ha.same h1 h2, fun h => hu (hf.sat.2 h)⟩)
  | .error (.other err) =>
    refine .inr (.inr ⟨err, st', t', rfl, fun hrel => ?_⟩)
    have := hrel (encode I q) st t t1 c e hw hi err
    rw [hs] at this
    exact this rfl

/-- The solver has a solution in which `v` is the instance with values `b`. -/
def HoldsIn (sv : SolverG S σ) (d : Nat) (inv : σ → Prop) (view : σ → View) (v : QVar) (st : S) (t : σ) (b : List FeatV) : Prop :=
  GoodVals d b ∧ (view t).scopes = [] ∧ (∀ x, (view t).level x = 0) ∧
    ∃ st' t', sv.values [v] st t = (.ok [{ val := b }], st', t') ∧ inv t' ∧ view t' = view t ∧ ∀ cnt, CountsIn sv cnt → cnt st' = cnt st

theorem step_asks (hk : CtxContract d nodes I inv view name) (hR : OneOne R) (hc : CorrectIn sv inv view d)
    (h : After d nodes T name ids R I inv view us t) (hq : (Query.withVar v f).UsableIn d nodes T depth name ids R)
    (hp : (Query.withVar v f).Plain) (hv : name v [] = v) (hnew : ∀ n ∈ (Query.withVar v f).names d T [], n ∉ us) :
    (∃ st' t' b, sv.step (some (encWithVar I v (comp I f))) st t = (.ok (), st', t') ∧ HoldsIn sv d inv view v st' t' b ∧
      f.about d T v (den b)) ∨
    (∃ st' t', sv.step (some (encWithVar I v (comp I f))) st t = (.error .unsat, st', t') ∧ ∀ e, ¬ f.about d T v e) ∨
    (∃ err st' t', sv.step (some (encWithVar I v (comp I f))) st t = (.error (.other err), st', t') ∧ ¬ ReliableIn sv inv) := by
  have hab : ∀ e, f.about d T v e ↔ ∃ τ, (Query.withVar v f).sem d T depth τ [] ∧ Spec.Same d (τ v) e := hq.good.about_iff hp
  have hvn : v ∈ (Query.withVar v f).names d T [] := by simp [Query.names, suffix]
  have hRv : R v v := hq.var v (by simp [Query.varNames]) _ _ ⟨[], by simp, by simp [suffix], hv.symm⟩
  rcases step_query (st := st) hk hR hc h hq hnew with ⟨st', t', e, ha, β, τ, hP, hrec, hn⟩ | ⟨st', t', e, ha, hu⟩ | h
  · refine .inl ⟨st', t', valsOf d (τ v), e, ⟨valsOf_good _ _, (After.idle hk hR ha).2.1, (After.idle hk hR ha).2.2, ?_⟩, ?_⟩
    · obtain ⟨st2, t2, h1, h2, h3⟩ := hrec [v] (fun _ => τ v) (by
        intro w hw
        rw [List.mem_singleton.1 hw]
        exact hn v hvn v hRv)
      refine ⟨st2, t2, h1, h2, h3, fun cnt hcnt => ?_⟩
      have := hcnt.values [v] st' t'
      rw [h1] at this
      exact this
    · rw [hab]
      exact ⟨τ, hP, fun i hi => (den_valsOf d (τ v) i hi).symm⟩
  · refine .inr (.inl ⟨st', t', e, fun x hx => hu ?_⟩)
    obtain ⟨τ, h1, -⟩ := (hab x).1 hx
    exact ⟨τ, h1⟩
  · exact .inr (.inr h)

end

/-! ### The loop -/

section
variable {sv : SolverG S σ} {st : S} {t : σ} {v : QVar} {f : Query} {o : QConst → Query} {b : List FeatV}

theorem optimIn_round (hk : CtxContract d nodes I inv view name) (hR : OneOne R) (hz : Resets I inv view) (hc : CorrectIn sv inv view d)
    (h : OptimisesIn d nodes T depth name ids R v f o) (hh : HoldsIn sv d inv view v st t b) (fuel steps : Nat) :
    (∃ st' t', optimLoop I sv (fun _ => comp I f) (fun _ k => comp I (o k)) v (fuel + 1) steps st t =
        (.ok ⟨true, { val := b }, steps + 1⟩, st', t') ∧
      (∀ e, f.about d T v e → ¬ (o { val := b }).about d T v e) ∧ ∀ cnt, CountsIn sv cnt → cnt st' = cnt st + 1) ∨
    (∃ st' t' b', optimLoop I sv (fun _ => comp I f) (fun _ k => comp I (o k)) v (fuel + 1) steps st t =
        optimLoop I sv (fun _ => comp I f) (fun _ k => comp I (o k)) v fuel (steps + 1) st' t' ∧
      HoldsIn sv d inv view v st' t' b' ∧ f.about d T v (den b') ∧ (o { val := b }).about d T v (den b') ∧
      ∀ cnt, CountsIn sv cnt → cnt st' = cnt st + 1) ∨
    (∃ err st' t', optimLoop I sv (fun _ => comp I f) (fun _ k => comp I (o k)) v (fuel + 1) steps st t = (.error err, st', t') ∧
      ¬ ReliableIn sv inv) := by
  obtain ⟨hg, hsc, hlv, st1, t1, h1, hi1, hv1, hcnt⟩ := hh
  obtain ⟨t2, hz2, hu2⟩ := hz t1 hi1 (by rw [hv1]; exact hsc) (by rw [hv1]; exact hlv)
  have hcount : ∀ cnt, CountsIn sv cnt →
      cnt (sv.step (some (encWithVar I v (some (encAnd (comp I f) (comp I (o { val := b })))))) st1 t2).2.1 = cnt st + 1 := by
    intro cnt hC
    rw [hC.step, hcnt cnt hC]
  have hl : optimLoop I sv (fun _ => comp I f) (fun _ k => comp I (o k)) v (fuel + 1) steps st t =
      match sv.step (some (encWithVar I v (some (encAnd (comp I f) (comp I (o { val := b })))))) st1 t2 with
      | (.error .unsat, st, s) => (.ok ⟨true, { val := b }, steps + 1⟩, st, s)
      | (.error (.other e), st, s) => (.error e, st, s)
      | (.ok (), st, s) => optimLoop I sv (fun _ => comp I f) (fun _ k => comp I (o k)) v fuel (steps + 1) st s := by
    rw [optimLoop]
    simp only [h1, hz2]
    rcases sv.step (some (encWithVar I v (some (encAnd (comp I f) (comp I (o { val := b })))))) st1 t2 with
      ⟨(_ | _) | ⟨⟩, _, _⟩ <;> rfl
  rw [hl]
  have hab : ∀ e, (Query.and f (o { val := b })).about d T v e ↔ f.about d T v e ∧ (o { val := b }).about d T v e := fun e => Iff.rfl
  rcases step_asks (st := st1) hk hR hc (.new hu2) (h.next b hg) (h.plainNext b hg) h.self (by simp) with
    ⟨st', t', b', e, hH, hF⟩ | ⟨st', t', e, hu⟩ | ⟨err, st', t', e, hrel⟩
  · change sv.step (some (encWithVar I v (some (encAnd (comp I f) (comp I (o { val := b })))))) st1 t2 = _ at e
    rw [e] at hcount ⊢
    exact .inr (.inl ⟨st', t', b', rfl, hH, ((hab _).1 hF).1, ((hab _).1 hF).2, hcount⟩)
  · change sv.step (some (encWithVar I v (some (encAnd (comp I f) (comp I (o { val := b })))))) st1 t2 = _ at e
    rw [e] at hcount ⊢
    exact .inl ⟨st', t', rfl, fun x hx hy => hu x ((hab x).2 ⟨hx, hy⟩), hcount⟩
  · change sv.step (some (encWithVar I v (some (encAnd (comp I f) (comp I (o { val := b })))))) st1 t2 = _ at e
    rw [e]
    exact .inr (.inr ⟨err, st', t', rfl, hrel⟩)

/-- What the loop returns is optimal. -/
theorem optimIn_sound (hk : CtxContract d nodes I inv view name) (hR : OneOne R) (hz : Resets I inv view) (hc : CorrectIn sv inv view d)
    (h : OptimisesIn d nodes T depth name ids R v f o) (fuel : Nat) : ∀ (steps : Nat) (st : S) (t : σ) (b : List FeatV),
    HoldsIn sv d inv view v st t b → f.about d T v (den b) → ∀ r st' t',
    optimLoop I sv (fun _ => comp I f) (fun _ k => comp I (o k)) v fuel steps st t = (.ok r, st', t') →
    (∃ b', r.found = true ∧ r.value = { val := b' } ∧ GoodVals d b' ∧ f.about d T v (den b') ∧
      ∀ e, f.about d T v e → ¬ (o { val := b' }).about d T v e) ∧
    ∀ cnt, CountsIn sv cnt → cnt st' + steps = cnt st + r.calls := by
  induction fuel with
  | zero => intro steps st t b _ _ r st' t' he; simp [optimLoop] at he
  | succ fuel ih =>
    intro steps st t b hh hF r st' t' he
    rcases optimIn_round hk hR hz hc h hh fuel steps with ⟨st1, t1, e, hu, hcnt⟩ | ⟨st1, t1, b1, e, hH, hF1, -, hcnt⟩ | ⟨err, st1, t1, e, -⟩
    · rw [e] at he
      simp only [Prod.mk.injEq, Except.ok.injEq] at he
      obtain ⟨rfl, rfl, rfl⟩ := he
      refine ⟨⟨b, rfl, rfl, hh.1, hF, hu⟩, fun cnt hC => ?_⟩
      have := hcnt cnt hC
      simp only; omega
    · rw [e] at he
      obtain ⟨h1, h2⟩ := ih _ _ _ _ hH hF1 r st' t' he
      refine ⟨h1, fun cnt hC => ?_⟩
      have := hcnt cnt hC
      have := h2 cnt hC
      omega
    · rw [e] at he; simp at he

/-- The loop ends if every better instance has a smaller rank. -/
theorem optimIn_ends (hk : CtxContract d nodes I inv view name) (hR : OneOne R) (hz : Resets I inv view) (hc : CorrectIn sv inv view d)
    (hrel : ReliableIn sv inv) (h : OptimisesIn d nodes T depth name ids R v f o) (rk : List FeatV → Nat)
    (hrk : ∀ b b', GoodVals d b → GoodVals d b' → f.about d T v (den b) → f.about d T v (den b') → (o { val := b }).about d T v (den b') →
      rk b' < rk b) (fuel : Nat) :
    ∀ (steps : Nat) (st : S) (t : σ) (b : List FeatV), HoldsIn sv d inv view v st t b → f.about d T v (den b) → rk b < fuel →
    ∃ r st' t', optimLoop I sv (fun _ => comp I f) (fun _ k => comp I (o k)) v fuel steps st t = (.ok r, st', t') ∧
      r.calls ≤ steps + 1 + rk b := by
  induction fuel with
  | zero => intro _ _ _ _ _ _ hb; omega
  | succ fuel ih =>
    intro steps st t b hh hF hb
    rcases optimIn_round hk hR hz hc h hh fuel steps with ⟨st1, t1, e, hu, hcnt⟩ | ⟨st1, t1, b1, e, hH, hF1, hR1, hcnt⟩ | ⟨err, st1, t1, e, hn⟩
    · exact ⟨_, st1, t1, e, by simp⟩
    · have := hrk b b1 hh.1 hH.1 hF hF1 hR1
      obtain ⟨r, st', t', h1, h2⟩ := ih (steps + 1) st1 t1 b1 hH hF1 (by omega)
      exact ⟨r, st', t', by rw [e, h1], by omega⟩
    · exact absurd hrel hn

end

end Over

end Goexpdt

import Verif.Lemmas.Word
import Verif.Lemmas.Output
import Verif.Lemmas.SizeAtoms
import Verif.Props.IfaceCompute
import Verif.Spec.Word
/- The package compute with integers of 64 bits. -/
namespace Goexpdt
namespace Word
open Spec Props

variable {d : Nat} {nodes : List Node} {T : DTree} {depth : QVar → Nat} {v : QVar} {s : Ctx} {st : BinSt} {env : Nat → Env} {q f : Query}
  {o : QConst → Query}

/-! ### queries -/

theorem encode_eq (q : Query) (s : Ctx) (h1 : -2 ^ 63 ≤ s.topv) (h2 : (q.encode s).2.topv < 2 ^ 63) : encode q s = q.encode s := by
  have h := fits_encode q s h1
  rw [(Over.same_encode q).eq] at h
  exact h.2 h2

/-- A query with integers of 64 bits is a component iff it is one with exact integers. -/
theorem comp_cases (q : Query) : (comp q = none ∧ q.comp = none) ∨ (comp q = some (encode q) ∧ q.comp = some q.encode) := by
  have h := fits_comp q
  rw [comp_basic] at h
  unfold encode Query.encode
  revert h
  rcases comp q with _ | m1 <;> rcases q.comp with _ | n1 <;> intro h
  · exact .inl ⟨rfl, rfl⟩
  · exact h.elim
  · exact h.elim
  · exact .inr ⟨rfl, rfl⟩

theorem step_eq (q : Query) (st : BinSt) (s : Ctx) (h1 : -2 ^ 63 ≤ s.topv) (h2 : (q.encode s).2.topv < 2 ^ 63) :
    (binSolver env).step (comp q) st s = (Goexpdt.binSolver env).step q.comp st s := by
  have e : (binSolver env).step = (Over.binSolver basicI env).step := rfl
  rw [e, binSolver_basic]
  show Goexpdt.binStep (env st.calls) (comp q) st s = Goexpdt.binStep (env st.calls) q.comp st s
  rcases comp_cases q with ⟨h3, h4⟩ | ⟨h3, h4⟩
  · rw [h3, h4]; rfl
  · rw [h3, h4]
    unfold Goexpdt.binStep
    simp only [encode_eq q s h1 h2]

theorem topv_bound (hv : VMok s) (hd : s.dim = d) (hn : s.nodes = nodes) {c : CNF} {s' : Ctx} (h : q.encode s = (.ok c, s')) :
    s'.topv ≤ s.topv + (1500 * q.size * (d + nodes.length + 1) ^ (q.rank + 3) : Nat) := by
  obtain ⟨x, hx⟩ : ∃ x, q.comp = some x := by
    cases hq : q.comp with
    | none => simp [Query.encode, hq, M.throw] at h
    | some x => exact ⟨x, rfl⟩
  have e : q.encode = x := by simp [Query.encode, hx]
  rw [e] at h
  have := q.cost (d := d) (n := nodes.length) x hx s c hv hd (by rw [hn]) (by rw [h])
  rw [h] at this
  simp only [sizeBound] at *
  omega

/-! ### numbers in outputs -/

theorem atoi_cases (w : List Char) (n : Int) (h : Goexpdt.atoi w = .ok n) :
    atoi w = if -2 ^ 63 ≤ n ∧ n < 2 ^ 63 then .ok n else .error (.msg "strconv.Atoi: value out of range") := by
  unfold atoi
  rw [h]

theorem iAbs_eq {n : Int} (h : Fits64 n) : iAbs n = Goexpdt.iAbs n := by
  unfold iAbs Goexpdt.iAbs
  obtain ⟨h1, h2⟩ := h
  rw [wrap_id (v := -n)]
  all_goals omega

theorem scanLits_eq (vf : List Int) (ws : List (List Char × Int)) (h : ∀ w ∈ ws, Numeral w.1 w.2 ∧ Fits64 w.2) : ∀ vval,
    scanLits vf vval (ws.map (·.1)) = .ok (record vf vval (ws.map (·.2))) := by
  induction ws with
  | nil => intro vval; rfl
  | cons w ws ih =>
    intro vval
    have ih := ih fun k hk => h k (by simp [hk])
    obtain ⟨h1, h2⟩ := h w (by simp)
    simp only [List.map_cons, scanLits, atoi_cases _ _ ((atoi_iff w.1 w.2).2 h1), record]
    rw [if_pos (by unfold Fits64 at h2; omega)]
    simp only [iAbs_eq h2]
    split <;> exact ih _

/-- A numeral that does not fit is an error. -/
theorem scanLits_large (vf : List Int) (ws : List (List Char × Int)) (h : ∀ w ∈ ws, Numeral w.1 w.2)
    (hl : ∃ w ∈ ws, ¬ (-2 ^ 63 ≤ w.2 ∧ w.2 < 2 ^ 63)) : ∀ vval,
    scanLits vf vval (ws.map (·.1)) = .error (.msg "strconv.Atoi: value out of range") := by
  induction ws with
  | nil => obtain ⟨w, hw, -⟩ := hl; cases hw
  | cons w ws ih =>
    intro vval
    have h1 := h w (by simp)
    simp only [List.map_cons, scanLits, atoi_cases _ _ ((atoi_iff w.1 w.2).2 h1)]
    by_cases hf : -2 ^ 63 ≤ w.2 ∧ w.2 < 2 ^ 63
    · rw [if_pos hf]
      have ih := ih (fun k hk => h k (by simp [hk])) (by
        obtain ⟨x, hx, hx'⟩ := hl
        rcases List.mem_cons.1 hx with rfl | hx
        · exact absurd hf hx'
        · exact ⟨x, hx, hx'⟩)
      dsimp only
      split <;> exact ih _
    · rw [if_neg hf]

theorem scanLits_any (vf : List Int) (ws : List (List Char × Int)) (h : ∀ w ∈ ws, Numeral w.1 w.2)
    (hl : ∀ w ∈ ws, -2 ^ 63 ≤ w.2 ∧ w.2 < 2 ^ 63) : ∀ vval, ∃ r, scanLits vf vval (ws.map (·.1)) = .ok r := by
  induction ws with
  | nil => intro vval; exact ⟨_, rfl⟩
  | cons w ws ih =>
    intro vval
    have ih := ih (fun k hk => h k (by simp [hk])) (fun k hk => hl k (by simp [hk]))
    simp only [List.map_cons, scanLits, atoi_cases _ _ ((atoi_iff w.1 w.2).2 (h w (by simp)))]
    rw [if_pos (hl w (by simp))]
    dsimp only
    split <;> exact ih _

theorem line_words {c : Char} {ws : List (List Char × Int)} (h : (AnyLine.vals c ws).Ok) : splitOn ' ' (joinWords (ws.map (·.1))) = ws.map (·.1) := by
  obtain ⟨-, h2, h3⟩ := h
  refine splitOn_joinWords (fun w hw => ?_) (by simpa using h2)
  obtain ⟨x, hx, rfl⟩ := List.mem_map.1 hw
  exact (numeral_chars (h3 x hx)).1

theorem scanLines_fit (vf : List Int) (ls : List AnyLine) (h : ∀ l ∈ ls, l.Ok) (hl : ∀ l ∈ ls.flatMap AnyLine.lits, Fits64 l) : ∀ vval,
    scanLines vf vval (ls.map AnyLine.text) = .ok (record vf vval (ls.flatMap AnyLine.lits)) := by
  induction ls with
  | nil => intro vval; rfl
  | cons l ls ih =>
    intro vval
    have ih := ih (fun k hk => h k (by simp [hk])) (fun k hk => hl k (by rw [List.flatMap_cons]; exact List.mem_append_right _ hk))
    have hok := h l (by simp)
    simp only [List.map_cons, List.flatMap_cons]
    rw [record_append]
    cases l with
    | other t =>
      cases t with
      | nil => exact ih vval
      | cons c cs =>
        have hc : c ≠ 'v' := fun e => hok.2 (by simp [e])
        simp only [AnyLine.text, scanLines, if_pos hc]
        exact ih vval
    | vals c ws =>
      simp only [AnyLine.text, scanLines, ne_eq, not_true_eq_false, if_false]
      rw [line_words hok, scanLits_eq _ _ fun w hw => ⟨hok.2.2 w hw, hl _ (by
        rw [List.flatMap_cons]
        exact List.mem_append_left _ (List.mem_map.2 ⟨w, hw, rfl⟩))⟩]
      exact ih _

theorem scanLines_large (vf : List Int) (ls : List AnyLine) (h : ∀ l ∈ ls, l.Ok)
    (hl : ∃ l ∈ ls.flatMap AnyLine.lits, ¬ (-2 ^ 63 ≤ l ∧ l < 2 ^ 63)) : ∀ vval,
    scanLines vf vval (ls.map AnyLine.text) = .error (.msg "strconv.Atoi: value out of range") := by
  induction ls with
  | nil => obtain ⟨l, hl, -⟩ := hl; cases hl
  | cons l ls ih =>
    intro vval
    have ih := ih fun k hk => h k (by simp [hk])
    have hok := h l (by simp)
    obtain ⟨x, hx, hx'⟩ := hl
    rw [List.flatMap_cons] at hx
    simp only [List.map_cons]
    cases l with
    | other t =>
      have ih := ih ⟨x, by simpa [AnyLine.lits] using hx, hx'⟩ vval
      cases t with
      | nil => exact ih
      | cons c cs =>
        have hc : c ≠ 'v' := fun e => hok.2 (by simp [e])
        simp only [AnyLine.text, scanLines, if_pos hc]
        exact ih
    | vals c ws =>
      simp only [AnyLine.text, scanLines, ne_eq, not_true_eq_false, if_false]
      rw [line_words hok]
      by_cases hb : ∃ w ∈ ws, ¬ (-2 ^ 63 ≤ w.2 ∧ w.2 < 2 ^ 63)
      · rw [scanLits_large vf ws hok.2.2 hb]
      · obtain ⟨r, e⟩ := scanLits_any vf ws hok.2.2 (fun w hw => Decidable.byContradiction fun h => hb ⟨w, hw, h⟩) vval
        rw [e]
        refine ih ⟨x, ?_, hx'⟩ r
        rcases List.mem_append.1 hx with hx | hx
        · obtain ⟨w, hw, rfl⟩ := List.mem_map.1 hx
          exact absurd ⟨w, hw, hx'⟩ hb
        · exact hx

theorem scan_fit (vf : List Int) {lits : List Int} {out : List Char} (h : Reports lits out) (hl : ∀ l ∈ lits, Fits64 l) :
    scanLines vf [] (splitOn '\n' out) = Goexpdt.scanLines vf [] (splitOn '\n' out) := by
  rw [scan_reports vf h]
  obtain ⟨ls, e, hok, rfl⟩ := h
  rcases out_lines (map_text_newline hok) e with e1 | ⟨e1, e2⟩
  · rw [e1, scanLines_fit vf ls hok hl]
  · rw [e2]
    obtain rfl := List.map_eq_nil_iff.1 e1
    rfl

theorem scan_large (vf : List Int) {lits : List Int} {out : List Char} (h : Reports lits out)
    (hl : ∃ l ∈ lits, ¬ (-2 ^ 63 ≤ l ∧ l < 2 ^ 63)) :
    scanLines vf [] (splitOn '\n' out) = .error (.msg "strconv.Atoi: value out of range") := by
  obtain ⟨ls, e, hok, rfl⟩ := h
  rcases out_lines (map_text_newline hok) e with e1 | ⟨e1, e2⟩
  · rw [e1, scanLines_large vf ls hok hl]
  · obtain rfl := List.map_eq_nil_iff.1 e1
    obtain ⟨l, hl, -⟩ := hl
    cases hl

/-! ### Values -/

theorem fits_variableFilter (v : QVar) (is : List Nat) : Fits (Over.variableFilter wordI v is) (Over.variableFilter basicI v is) := by
  induction is with
  | nil => exact fits_pure _
  | cons i is ih =>
    exact fits_bind (fits_cnfVar _) fun _ => fits_bind (fits_cnfVar _) fun _ => fits_bind (fits_cnfVar _) fun _ =>
      fits_bind ih fun _ => fits_pure _

theorem fits_readFeats (v : QVar) (vval : List (Int × Bool)) (is : List Nat) :
    Fits (Over.readFeats wordI v vval is) (Over.readFeats basicI v vval is) := by
  induction is with
  | nil => exact fits_pure _
  | cons i is ih =>
    have h : ∀ x : FeatV, Fits (Over.readFeats wordI v vval is >>= fun rest => pure (x :: rest))
        (Over.readFeats basicI v vval is >>= fun rest => pure (x :: rest)) := fun x => fits_bind ih fun _ => fits_pure _
    exact fits_bind (fits_cnfVar _) fun _ => fits_ite (h _) (fits_bind (fits_cnfVar _) fun _ => fits_ite (h _)
      (fits_bind (fits_cnfVar _) fun _ => fits_ite (h _) ih))

theorem fits_varValue {lits : List Int} {out : List Char} (h : Reports lits out) (hl : ∀ l ∈ lits, Fits64 l) (v : QVar) :
    Fits (varValueFromBytes out v) (Over.varValueFromBytes basicI out v) := by
  unfold varValueFromBytes Over.varValueFromBytes
  refine fits_bind fits_dim fun _ => fits_bind (fits_variableFilter _ _) fun vf => ?_
  rw [scan_fit vf h hl]
  exact fits_bind (fits_lift _) fun _ => fits_bind (fits_readFeats _ _ _) fun _ => fits_pure _

theorem fits_binValuesLoop {lits : List Int} {out : List Char} (h : Reports lits out) (hl : ∀ l ∈ lits, Fits64 l) (vs : List QVar) :
    Fits (binValuesLoop out vs) (Over.binValuesLoop basicI out vs) := by
  induction vs with
  | nil => exact fits_pure _
  | cons v vs ih => exact fits_bind (fits_varValue h hl v) fun _ => fits_bind ih fun _ => fits_pure _

theorem values_eq {lits : List Int} (h : Reports lits st.output) (hl : ∀ l ∈ lits, Fits64 l) (vs : List QVar) (h1 : -2 ^ 63 ≤ s.topv)
    (h2 : (Goexpdt.binValues vs st s).2.2.topv < 2 ^ 63) : (binSolver env).values vs st s = (Goexpdt.binSolver env).values vs st s := by
  show binValues vs st s = Goexpdt.binValues vs st s
  have hf := fits_binValuesLoop h hl vs s h1
  rw [(same_binValuesLoop st.output vs).eq] at hf
  unfold Goexpdt.binValues at h2
  unfold binValues Goexpdt.binValues
  rw [hf.2 h2]

/-! ### ComputeOptim -/

/-- The output of the last successful step has no number that does not fit. -/
def SmallOutput (st : BinSt) : Prop := ∃ lits, Reports lits st.output ∧ ∀ l ∈ lits, Fits64 l

theorem small_prints {n : Int} {β : Val} {out : List Char} (h : Prints n β out) (hn : n < 2 ^ 63) :
    ∃ lits, Reports lits out ∧ ∀ l ∈ lits, Fits64 l := by
  obtain ⟨ls, rfl, hok, -, hl⟩ := h
  refine ⟨_, reports_of_lines hok, fun l hm => ?_⟩
  unfold Fits64
  by_cases h0 : l = 0
  · omega
  · have := (hl l hm h0).1
    omega

/-- After a step that succeeds, the output is small. -/
theorem step_small (h : ∀ k, Solves (env k).run) {act : M CNF} {s' : Ctx} {c : CNF} (e : act s = (.ok c, s')) (hw : WF c) (hc : c.tv < 2 ^ 63)
    {st' : BinSt} {s'' : Ctx} (hs : (Goexpdt.binSolver env).step (some act) st s = (.ok (), st', s'')) : SmallOutput st' := by
  revert hs
  rw [show (Goexpdt.binSolver env).step (some act) st s = binStep (env st.calls) (some act) st s from rfl]
  unfold binStep
  cases (env st.calls).temp with
  | some msg => intro hs; simp at hs
  | none =>
    simp only [e]
    rcases ht : c.toFile (env st.calls).create with ⟨ok, f⟩
    match ok, f with
    | false, _ => intro hs; simp at hs
    | true, none => intro hs; simp at hs
    | true, some f =>
      simp only
      rw [toFile_content ht]
      rcases solves_bytes (h st.calls) hw with ⟨out, err, β, h1, h2, h3, h4⟩ | ⟨out, err, h1, h2⟩
      · rw [h1]
        intro hs
        simp only [runSolver] at hs
        injection hs with _ hs
        injection hs with hs _
        subst hs
        exact small_prints h3 hc
      · rw [h1]
        intro hs
        simp [runSolver] at hs

/-- What a step does with a query of `ComputeOptim`. -/
theorem query_step (h : ∀ k, Solves (env k).run) (hg : (Query.withVar v f).Good d nodes T depth)
    (hs : Ready d nodes ((Query.withVar v f).names d T []) s)
    (hb : s.topv + (1500 * (Query.withVar v f).size * (d + nodes.length + 1) ^ ((Query.withVar v f).rank + 3) : Nat) < 2 ^ 63) :
    (binSolver env).step (some (Over.encWithVar wordI v (comp f))) st s = (Goexpdt.binSolver env).step (some (encWithVar v f.comp)) st s ∧
    ∀ st' s', (Goexpdt.binSolver env).step (some (encWithVar v f.comp)) st s = (.ok (), st', s') → SmallOutput st' ∧ s'.topv < 2 ^ 63 := by
  obtain ⟨c, s1, e, hw, ht, -, -, hr, -⟩ := good_query hg hs
  have h0 := hs.vm.topv_nonneg
  have h1 := topv_bound hs.vm hs.dim hs.nodes e
  have h2 : s1.topv < 2 ^ 63 := by omega
  refine ⟨step_eq (.withVar v f) st s (by omega) (by rw [e]; exact h2), fun st' s' hq => ⟨step_small h e hw (by omega) hq, ?_⟩⟩
  have hcor := binSolver_correct h _ st s s1 c e hw hr.vm
  have hq' : (Goexpdt.binSolver env).step (some (Query.withVar v f).encode) st s = (.ok (), st', s') := hq
  rw [hq'] at hcor
  rw [hcor.1]
  exact h2

theorem optimLoop_eq (h : ∀ k, Solves (env k).run) (ho : Optimises d nodes T depth v f o)
    (hb : ∀ b, GoodVals d b → (1500 * (Query.withVar v (.and f (o { val := b }))).size *
      (d + nodes.length + 1) ^ ((Query.withVar v (.and f (o { val := b }))).rank + 3) : Nat) < 2 ^ 63) (fuel : Nat) :
    ∀ (steps : Nat) (st : BinSt) (s : Ctx) (b : List FeatV), Holds (Goexpdt.binSolver env) d nodes v st s b → SmallOutput st → s.topv < 2 ^ 63 →
    Over.optimLoop wordI (binSolver env) (fun _ => comp f) (fun _ k => comp (o k)) v fuel steps st s =
      Goexpdt.optimLoop (Goexpdt.binSolver env) (fun _ => f.comp) (fun _ k => (o k).comp) v fuel steps st s := by
  induction fuel with
  | zero => intro steps st s b _ _ _; rfl
  | succ fuel ih =>
    intro steps st s b hh ⟨lits, hr, hl⟩ ht
    obtain ⟨hgv, hready, st1, h1, -⟩ := hh
    have hst : st1 = st := by
      have := congrArg (fun x => x.2.1) h1
      exact this.symm
    subst hst
    have h0 := hready.vm.topv_nonneg
    have hval : (binSolver env).values [v] st1 s = (Goexpdt.binSolver env).values [v] st1 s := by
      refine values_eq hr hl [v] (by omega) ?_
      have := congrArg (fun x => x.2.2.topv) h1
      have : (Goexpdt.binValues [v] st1 s).2.2.topv = s.topv := this
      omega
    obtain ⟨hq1, hq2⟩ := query_step (st := st1) h (ho.goodNext b hgv) (hready.reset _) (by
      have := hb b hgv
      show (0 : Int) + _ < _
      omega)
    have hasks := asks_step (st := st1) (binSolver_correct h) ((ho.goodNext b hgv).asks (ho.plainNext b hgv)) (hready.reset _)
    have hq1' : (binSolver env).step (some (Over.encWithVar wordI v (some (Over.encAnd (comp f) (comp (o { val := b })))))) st1 s.reset =
      (Goexpdt.binSolver env).step (some (encWithVar v (some (encAnd f.comp (o { val := b }).comp)))) st1 s.reset := hq1
    have hres : wordI.reset s = (.ok (), s.reset) := rfl
    rw [Over.optimLoop, Goexpdt.optimLoop]
    simp only [hval, h1, hres, hq1']
    rcases hasks with ⟨st', s', b', e, hH, -⟩ | ⟨st', s', e, -⟩ | ⟨err, st', s', e, -⟩
    · have e' : (Goexpdt.binSolver env).step (some (encWithVar v (some (encAnd f.comp (o { val := b }).comp)))) st1 s.reset =
        (.ok (), st', s') := e
      obtain ⟨h3, h4⟩ := hq2 st' s' e'
      rw [e']
      exact ih _ _ _ _ hH h3 h4
    · have e' : (Goexpdt.binSolver env).step (some (encWithVar v (some (encAnd f.comp (o { val := b }).comp)))) st1 s.reset =
        (.error .unsat, st', s') := e
      rw [e']
    · have e' : (Goexpdt.binSolver env).step (some (encWithVar v (some (encAnd f.comp (o { val := b }).comp)))) st1 s.reset =
        (.error (.other err), st', s') := e
      rw [e']

theorem computeOptim_eq (h : ∀ k, Solves (env k).run) (ho : Optimises d nodes T depth v f o)
    (hs : Ready d nodes ((Query.withVar v f).names d T []) s)
    (hb0 : s.topv + (1500 * (Query.withVar v f).size * (d + nodes.length + 1) ^ ((Query.withVar v f).rank + 3) : Nat) < 2 ^ 63)
    (hb : ∀ b, GoodVals d b → (1500 * (Query.withVar v (.and f (o { val := b }))).size *
      (d + nodes.length + 1) ^ ((Query.withVar v (.and f (o { val := b }))).rank + 3) : Nat) < 2 ^ 63) (tmp : Bool) (fuel : Nat) (st : BinSt) :
    computeOptim env f o v tmp fuel st s =
      Goexpdt.computeOptim (Goexpdt.binSolver env) (fun _ => f.comp) (fun _ k => (o k).comp) v tmp fuel st s := by
  unfold computeOptim Over.computeOptim Goexpdt.computeOptim
  cases tmp with
  | false => rfl
  | true =>
    obtain ⟨hq1, hq2⟩ := query_step (st := st) h ho.good hs hb0
    simp only [hq1]
    rcases asks_step (st := st) (binSolver_correct h) (ho.good.asks ho.plain) hs with
      ⟨st', s', b', e, hH, -⟩ | ⟨st', s', e, -⟩ | ⟨err, st', s', e, -⟩
    · obtain ⟨h3, h4⟩ := hq2 st' s' e
      rw [e]
      exact optimLoop_eq h ho hb fuel 1 st' s' b' hH h3 h4
    · rw [e]
    · rw [e]

end Word
end Goexpdt

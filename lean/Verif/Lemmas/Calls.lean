import Verif.Lemmas.Plan
import Verif.Props.Alias
import Verif.Lemmas.CNF
/-
Lemmas for C58: the encodings make linear sequences of calls, and the results of the calls are the CNFs of the
model with immutable values.
-/
namespace Goexpdt.Alias
open Goexpdt Spec HM

/-- Operands are results of earlier calls, and none is used twice. -/
structure Sane (ops : List Op) : Prop where
  linear : Linear ops
  earlier : ∀ k (h : k < ops.length), ∀ u ∈ Op.uses ops[k], u < k

/-- The CNFs `H` are results of the calls, and no call has used them as operand. -/
structure Held (ops : List Op) (H : List (Nat × CNF)) : Prop where
  sane : Sane ops
  nodup : (H.map Prod.fst).Nodup
  free : ∀ p ∈ H, p.1 ∉ ops.flatMap Op.uses
  val : ∀ p ∈ H, (pureRun ops)[p.1]? = some p.2

theorem Sane.nil : Sane [] := ⟨by simp [Linear], by simp⟩

theorem Held.nil : Held [] [] := ⟨Sane.nil, by simp, by simp, by simp⟩

theorem Sane.init {ops : List Op} {op : Op} (h : Sane (ops ++ [op])) : Sane ops := by
  refine ⟨?_, ?_⟩
  · have := h.linear
    unfold Linear at this ⊢
    rw [List.flatMap_append] at this
    exact (List.nodup_append.mp this).1
  · intro k hk u hu
    have := h.earlier k (by simp; omega) u
    rw [List.getElem_append_left hk] at this
    exact this hu

theorem pureRun_snoc (ops : List Op) (op : Op) : pureRun (ops ++ [op]) = pureStep (pureRun ops) op := by
  simp [pureRun, List.foldl_append]

theorem Sane.last {ops : List Op} {op : Op} (h : Sane (ops ++ [op])) : ∀ u ∈ Op.uses op, u < ops.length := by
  intro u hu
  have := h.earlier ops.length (by simp) u
  simp only [List.getElem_concat_length] at this
  exact this hu

theorem pureStep_length {vals : List CNF} {op : Op} (h : ∀ u ∈ Op.uses op, u < vals.length) :
    ∃ c, pureStep vals op = vals ++ [c] := by
  cases op with
  | zero => exact ⟨_, rfl⟩
  | falseCNF => exact ⟨_, rfl⟩
  | fromClauses cls sp => exact ⟨_, rfl⟩
  | appendSemantics i cls =>
    have : i < vals.length := h i (by simp [Op.uses])
    simp only [pureStep, List.getElem?_eq_getElem this]; exact ⟨_, rfl⟩
  | appendConsistency i cls =>
    have : i < vals.length := h i (by simp [Op.uses])
    simp only [pureStep, List.getElem?_eq_getElem this]; exact ⟨_, rfl⟩
  | negate i cls =>
    have : i < vals.length := h i (by simp [Op.uses])
    simp only [pureStep, List.getElem?_eq_getElem this]; exact ⟨_, rfl⟩
  | conjunction i j =>
    have h1 : i < vals.length := h i (by simp [Op.uses])
    have h2 : j < vals.length := h j (by simp [Op.uses])
    simp only [pureStep, List.getElem?_eq_getElem h1, List.getElem?_eq_getElem h2]; exact ⟨_, rfl⟩

theorem Sane.length {ops : List Op} (h : Sane ops) : (pureRun ops).length = ops.length := by
  generalize hn : ops.length = n
  induction n generalizing ops with
  | zero => rw [List.length_eq_zero_iff.mp hn]; rfl
  | succ n ih =>
    rcases List.eq_nil_or_concat ops with rfl | ⟨ops, op, rfl⟩
    · simp at hn
    · rw [List.concat_eq_append] at h hn ⊢
      have hl : ops.length = n := by simpa using hn
      have := ih h.init hl
      rw [pureRun_snoc]
      obtain ⟨c, e⟩ := pureStep_length (vals := pureRun ops) (op := op) (by rw [this, ← hl]; exact h.last)
      rw [e]; simp [this]

/-- One more call: its operands `used` were held, its result is `c`. -/
theorem Held.call {ops : List Op} {used H : List (Nat × CNF)} {op : Op} {c : CNF} (h : Held ops (used ++ H))
    (hu : Op.uses op = used.map Prod.fst) (hc : pureStep (pureRun ops) op = pureRun ops ++ [c]) :
    Held (ops ++ [op]) ((ops.length, c) :: H) := by
  have hlen := h.sane.length
  have hlt : ∀ p ∈ used ++ H, p.1 < ops.length := by
    intro p hp
    have := (List.getElem?_eq_some_iff.mp (h.val p hp)).1
    omega
  have hold : ∀ u ∈ ops.flatMap Op.uses, u < ops.length := by
    intro u hm
    obtain ⟨o, ho, hm⟩ := List.mem_flatMap.mp hm
    obtain ⟨k, hk, rfl⟩ := List.getElem_of_mem ho
    have := h.sane.earlier k hk u hm
    omega
  have hnd := h.nodup
  rw [List.map_append] at hnd
  obtain ⟨n1, n2, n3⟩ := List.nodup_append.mp hnd
  refine ⟨⟨?_, ?_⟩, ?_, ?_, ?_⟩
  · unfold Linear
    rw [List.flatMap_append]
    simp only [List.flatMap_cons, List.flatMap_nil, List.append_nil]
    refine List.nodup_append.mpr ⟨h.sane.linear, hu ▸ n1, ?_⟩
    intro a ha b hb e
    subst e
    rw [hu] at hb
    obtain ⟨p, hp, rfl⟩ := List.mem_map.mp hb
    exact h.free p (List.mem_append_left _ hp) ha
  · intro k hk u hm
    rcases Nat.lt_or_ge k ops.length with hlt' | hge
    · rw [List.getElem_append_left hlt'] at hm
      exact h.sane.earlier k hlt' u hm
    · have : k = ops.length := by simp at hk; omega
      subst this
      simp only [List.getElem_concat_length] at hm
      rw [hu] at hm
      obtain ⟨p, hp, rfl⟩ := List.mem_map.mp hm
      exact hlt p (List.mem_append_left _ hp)
  · simp only [List.map_cons]
    refine List.nodup_cons.mpr ⟨?_, n2⟩
    intro hm
    obtain ⟨p, hp, e⟩ := List.mem_map.mp hm
    have := hlt p (List.mem_append_right _ hp)
    omega
  · intro p hp
    rw [List.flatMap_append]
    simp only [List.flatMap_cons, List.flatMap_nil, List.append_nil, List.mem_append, not_or, hu]
    rcases List.mem_cons.mp hp with rfl | hp
    · refine ⟨fun hm => Nat.lt_irrefl _ (hold _ hm), fun hm => ?_⟩
      obtain ⟨p, hp, e⟩ := List.mem_map.mp hm
      have := hlt p (List.mem_append_left _ hp)
      simp only at e
      omega
    · refine ⟨h.free p (List.mem_append_right _ hp), fun hm => ?_⟩
      exact n3 _ hm _ (List.mem_map.mpr ⟨p, hp, rfl⟩) rfl
  · intro p hp
    rw [pureRun_snoc, hc]
    rcases List.mem_cons.mp hp with rfl | hp
    · rw [← hlen, List.getElem?_concat_length]
    · have := hlt p (List.mem_append_right _ hp)
      rw [List.getElem?_append_left (by omega)]
      exact h.val p (List.mem_append_right _ hp)

theorem Held.getElem {ops : List Op} {p : Nat × CNF} {H : List (Nat × CNF)} (h : Held ops H) (hp : p ∈ H) :
    (pureRun ops)[p.1]? = some p.2 := h.val p hp

section
variable {ops : List Op} {H : List (Nat × CNF)} {i j : Nat} {c c' : CNF}

theorem Held.zero (h : Held ops H) : Held (ops ++ [.zero]) ((ops.length, {}) :: H) :=
  Held.call (used := []) h rfl rfl

theorem Held.falseCNF (h : Held ops H) : Held (ops ++ [.falseCNF]) ((ops.length, FalseCNF) :: H) :=
  Held.call (used := []) h rfl rfl

theorem Held.fromClauses {cls : List (Clause × Nat)} {sp : Nat} (h : Held ops H) :
    Held (ops ++ [.fromClauses cls sp]) ((ops.length, FromClauses (cls.map (·.1))) :: H) :=
  Held.call (used := []) h rfl rfl

theorem Held.appendSemantics {cls : List (Clause × Nat)} (h : Held ops ((i, c) :: H)) :
    Held (ops ++ [.appendSemantics i cls]) ((ops.length, c.appendSemantics (cls.map (·.1))) :: H) :=
  Held.call (used := [(i, c)]) h rfl (by simp only [pureStep, h.getElem (p := (i, c)) List.mem_cons_self])

theorem Held.appendConsistency {cls : List (Clause × Nat)} (h : Held ops ((i, c) :: H)) :
    Held (ops ++ [.appendConsistency i cls]) ((ops.length, c.appendConsistency (cls.map (·.1))) :: H) :=
  Held.call (used := [(i, c)]) h rfl (by simp only [pureStep, h.getElem (p := (i, c)) List.mem_cons_self])

theorem Held.negate {o : Option Int} (h : Held ops ((i, c) :: H)) :
    Held (ops ++ [.negate i o]) ((ops.length, c.negate o) :: H) :=
  Held.call (used := [(i, c)]) h rfl (by simp only [pureStep, h.getElem (p := (i, c)) List.mem_cons_self])

theorem Held.perm {H' : List (Nat × CNF)} (h : Held ops H) (p : H.Perm H') : Held ops H' :=
  ⟨h.sane, (p.map _).nodup_iff.mp h.nodup, fun q hq => h.free q (p.mem_iff.mpr hq), fun q hq => h.val q (p.mem_iff.mpr hq)⟩

theorem Held.sub {H' : List (Nat × CNF)} (h : Held ops H) (p : H'.Sublist H) : Held ops H' :=
  ⟨h.sane, h.nodup.sublist (p.map _), fun q hq => h.free q (p.subset hq), fun q hq => h.val q (p.subset hq)⟩

/-- Both operands are held; the one encoded last is first. -/
theorem Held.conjunction (h : Held ops ((j, c') :: (i, c) :: H)) :
    Held (ops ++ [.conjunction i j]) ((ops.length, c.conjunction c') :: H) := by
  have h' := h.perm (List.Perm.swap (i, c) (j, c') H)
  exact Held.call (used := [(i, c), (j, c')]) h' rfl (by
    simp only [pureStep, h'.getElem (p := (i, c)) List.mem_cons_self,
      h'.getElem (p := (j, c')) (List.mem_cons_of_mem _ List.mem_cons_self)])

end

/-- What is in memory is what is held. -/
theorem Held.memory {ops : List Op} {H : List (Nat × CNF)} (h : Held ops H) (g : Grow) {p : Nat × CNF} (hp : p ∈ H) :
    ∃ v, (run g ops).vals[p.1]? = some v ∧ (run g ops).h.cnf v = p.2 := by
  have e := Props.C08_linear_partial g ops h.sane.linear
  have := h.val p hp
  rw [← e, List.getElem?_map] at this
  obtain ⟨v, h1, h2⟩ := Option.map_eq_some_iff.mp this
  exact ⟨v, h1, h2⟩

/-! ### refinement -/

/-- The action makes calls whose results are what the model with immutable values computes; the contexts and the
errors are the same. -/
def Refines (a : HM Nat) (m : M CNF) : Prop :=
  ∀ s ops H, Held ops H →
    (∃ c s' i ops', m s = (.ok c, s') ∧ a s ops = (.ok i, s', ops') ∧ Held ops' ((i, c) :: H)) ∨
    (∃ e s' ops', m s = (.error e, s') ∧ a s ops = (.error e, s', ops') ∧ Held ops' H)

/-- The same for an action that continues with a CNF that is held. -/
def RefinesFrom (a : Nat → HM Nat) (m : CNF → M CNF) : Prop :=
  ∀ s ops H i c, Held ops ((i, c) :: H) →
    (∃ c' s' i' ops', m c s = (.ok c', s') ∧ a i s ops = (.ok i', s', ops') ∧ Held ops' ((i', c') :: H)) ∨
    (∃ e s' ops', m c s = (.error e, s') ∧ a i s ops = (.error e, s', ops') ∧ Held ops' H)

theorem HM_bind_ok {α β : Type} {x : HM α} {f : α → HM β} {s s' : Ctx} {ops ops' : List Op} {a : α}
    (h : x s ops = (.ok a, s', ops')) : (x >>= f) s ops = f a s' ops' := by
  show bind' x f s ops = _
  unfold bind'; rw [h]

theorem HM_bind_error {α β : Type} {x : HM α} {f : α → HM β} {s s' : Ctx} {ops ops' : List Op} {e : Err}
    (h : x s ops = (.error e, s', ops')) : (x >>= f) s ops = (.error e, s', ops') := by
  show bind' x f s ops = _
  unfold bind'; rw [h]

theorem M_bind_ok' {α β : Type} {x : M α} {f : α → M β} {s s' : Ctx} {a : α}
    (h : x s = (.ok a, s')) : (x >>= f) s = f a s' := by
  show M.bind' x f s = _
  unfold M.bind'; rw [h]

theorem M_bind_error' {α β : Type} {x : M α} {f : α → M β} {s s' : Ctx} {e : Err}
    (h : x s = (.error e, s')) : (x >>= f) s = (.error e, s') := by
  show M.bind' x f s = _
  unfold M.bind'; rw [h]

theorem ofM_ok {α : Type} {x : M α} {s s' : Ctx} {a : α} (h : x s = (.ok a, s')) (ops : List Op) :
    ofM x s ops = (.ok a, s', ops) := by unfold ofM; rw [h]

theorem ofM_error {α : Type} {x : M α} {s s' : Ctx} {e : Err} (h : x s = (.error e, s')) (ops : List Op) :
    ofM x s ops = (.error e, s', ops) := by unfold ofM; rw [h]

/-- An action on the context first. -/
theorem Refines.ofM_bind {α : Type} {x : M α} {a : α → HM Nat} {m : α → M CNF} (h : ∀ r, Refines (a r) (m r)) :
    Refines (ofM x >>= a) (x >>= m) := by
  intro s ops H hh
  rcases e : x s with ⟨r, s'⟩
  cases r with
  | error er => exact .inr ⟨_, _, _, M_bind_error' e, HM_bind_error (ofM_error e ops), hh⟩
  | ok r =>
    rcases h r s' _ _ hh with ⟨c, s2, i, ops', h1, h2, h3⟩ | ⟨er, s2, ops', h1, h2, h3⟩
    · exact .inl ⟨_, _, _, _, (M_bind_ok' e).trans h1, (HM_bind_ok (ofM_ok e ops)).trans h2, h3⟩
    · exact .inr ⟨_, _, _, (M_bind_ok' e).trans h1, (HM_bind_ok (ofM_ok e ops)).trans h2, h3⟩

/-- A component first, then an action that continues with its result. -/
theorem Refines.bind {x : HM Nat} {y : M CNF} {a : Nat → HM Nat} {m : CNF → M CNF} (h1 : Refines x y)
    (h2 : RefinesFrom a m) : Refines (x >>= a) (y >>= m) := by
  intro s ops H hh
  rcases h1 s _ _ hh with ⟨c, s2, i, ops', e1, e2, e3⟩ | ⟨er, s2, ops', e1, e2, e3⟩
  · rcases h2 s2 _ _ _ _ e3 with ⟨c', s3, i', ops'', e4, e5, e6⟩ | ⟨er, s3, ops'', e4, e5, e6⟩
    · exact .inl ⟨_, _, _, _, (M_bind_ok' e1).trans e4, (HM_bind_ok e2).trans e5, e6⟩
    · exact .inr ⟨_, _, _, (M_bind_ok' e1).trans e4, (HM_bind_ok e2).trans e5, e6⟩
  · exact .inr ⟨_, _, _, M_bind_error' e1, HM_bind_error e2, e3⟩

theorem RefinesFrom.id : RefinesFrom (fun i => (pure i : HM Nat)) (fun c => (pure c : M CNF)) :=
  fun s ops _ i c hh => .inl ⟨c, s, i, ops, rfl, rfl, hh⟩

theorem RefinesFrom.ofM_bind {α : Type} {x : M α} {a : α → Nat → HM Nat} {m : α → CNF → M CNF}
    (h : ∀ r, RefinesFrom (a r) (m r)) :
    RefinesFrom (fun i => ofM x >>= fun r => a r i) (fun c => x >>= fun r => m r c) := by
  intro s ops H i c hh
  rcases e : x s with ⟨r, s'⟩
  cases r with
  | error er =>
    exact .inr ⟨er, s', ops, M_bind_error' e, HM_bind_error (ofM_error e ops), hh.sub (List.sublist_cons_self _ _)⟩
  | ok r =>
    rcases h r s' _ _ _ _ hh with ⟨c', s2, i', ops', h1, h2, h3⟩ | ⟨er, s2, ops', h1, h2, h3⟩
    · exact .inl ⟨c', s2, i', ops', (M_bind_ok' e).trans h1, (HM_bind_ok (ofM_ok e ops)).trans h2, h3⟩
    · exact .inr ⟨er, s2, ops', (M_bind_ok' e).trans h1, (HM_bind_ok (ofM_ok e ops)).trans h2, h3⟩

theorem RefinesFrom.bind {a a' : Nat → HM Nat} {m m' : CNF → M CNF} (h1 : RefinesFrom a m)
    (h2 : RefinesFrom a' m') : RefinesFrom (fun i => a i >>= a') (fun c => m c >>= m') := by
  intro s ops H i c hh
  rcases h1 s _ _ _ _ hh with ⟨c', s2, i', ops', e1, e2, e3⟩ | ⟨er, s2, ops', e1, e2, e3⟩
  · rcases h2 s2 _ _ _ _ e3 with ⟨c'', s3, i'', ops'', e4, e5, e6⟩ | ⟨er, s3, ops'', e4, e5, e6⟩
    · exact .inl ⟨c'', s3, i'', ops'', (M_bind_ok' e1).trans e4, (HM_bind_ok e2).trans e5, e6⟩
    · exact .inr ⟨er, s3, ops'', (M_bind_ok' e1).trans e4, (HM_bind_ok e2).trans e5, e6⟩
  · exact .inr ⟨er, s2, ops', M_bind_error' e1, HM_bind_error e2, e3⟩

theorem Refines.throw (e : Err) : Refines (ofM (M.throw e)) (M.throw e) :=
  fun _ _ _ hh => .inr ⟨_, _, _, rfl, rfl, hh⟩

theorem Refines.zero : Refines (call .zero) (pure {}) := fun _ _ _ hh => .inl ⟨_, _, _, _, rfl, rfl, hh.zero⟩

theorem Refines.no : Refines (call .falseCNF) (pure FalseCNF) :=
  fun _ _ _ hh => .inl ⟨_, _, _, _, rfl, rfl, hh.falseCNF⟩

variable {A : Policy}

theorem fresh_fst (n : Nat) (cls : List Clause) : (A.fresh n cls).map (·.1) = cls := by
  unfold Policy.fresh
  apply List.ext_getElem
  · simp
  · intro k h1 h2; simp

theorem RefinesFrom.sem (n : Nat → Nat) (cls : List Clause) :
    RefinesFrom (fun i => call (.appendSemantics i (A.fresh (n i) cls))) (fun c => pure (c.appendSemantics cls)) := by
  refine fun s ops H i c hh => .inl ⟨_, s, _, _, rfl, rfl, ?_⟩
  have := hh.appendSemantics (cls := A.fresh (n i) cls)
  rwa [fresh_fst] at this

theorem RefinesFrom.con (n : Nat → Nat) (cls : List Clause) :
    RefinesFrom (fun i => call (.appendConsistency i (A.fresh (n i) cls))) (fun c => pure (c.appendConsistency cls)) := by
  refine fun s ops H i c hh => .inl ⟨_, s, _, _, rfl, rfl, ?_⟩
  have := hh.appendConsistency (cls := A.fresh (n i) cls)
  rwa [fresh_fst] at this


/-! ### predicates -/

theorem maxVarClause_max {t : Int} (ht : 0 ≤ t) (cl : Clause) : maxVarClause t cl = max t (maxVarClause 0 cl) := by
  induction cl generalizing t with
  | nil => simp [maxVarClause]; omega
  | cons v cl ih =>
    have h0 : 0 ≤ absInt v := by unfold absInt; split <;> omega
    simp only [maxVarClause]
    rw [ih (t := if absInt v > t then absInt v else t) (by split <;> omega),
      ih (t := if absInt v > 0 then absInt v else 0) (by split <;> omega)]
    split <;> split <;> omega

theorem maxVarLoop_max {t : Int} (ht : 0 ≤ t) (cls : List Clause) : maxVarLoop t cls = max t (maxVarLoop 0 cls) := by
  induction cls generalizing t with
  | nil => simp [maxVarLoop]; omega
  | cons cl cls ih =>
    simp only [maxVarLoop]
    have h1 := maxVarClause_max ht cl
    have h2 := maxVarClause_max (Int.le_refl 0) cl
    rw [ih (t := maxVarClause t cl) (by omega), ih (t := maxVarClause 0 cl) (by omega)]
    omega

theorem maxVarLoop_append (t : Int) (a b : List Clause) : maxVarLoop t (a ++ b) = maxVarLoop (maxVarLoop t a) b := by
  induction a generalizing t with
  | nil => rfl
  | cons cl cls ih => simp only [List.cons_append, maxVarLoop, ih]

theorem maxVar_append (a b : List Clause) : maxVar (a ++ b) = max (maxVar a) (maxVar b) := by
  rw [maxVar, maxVarLoop_append]
  exact maxVarLoop_max (maxVar_nonneg a) b

theorem append_chunks_sem (css : List (List Clause)) {c : CNF} (h : 0 ≤ c.tv) :
    css.foldl CNF.appendSemantics c = c.appendSemantics css.flatten := by
  induction css generalizing c with
  | nil => cases c; simp [CNF.appendSemantics, maxVar, maxVarLoop, maxInt] at h ⊢; omega
  | cons cls css ih =>
    have := maxVar_nonneg cls
    rw [List.foldl_cons, ih (by simp only [CNF.appendSemantics, maxInt]; split <;> omega), List.flatten_cons]
    simp only [CNF.appendSemantics, maxVar_append, maxInt, List.append_assoc, CNF.mk.injEq, and_true]
    split <;> split <;> split <;> omega

theorem append_chunks_con (css : List (List Clause)) {c : CNF} (h : 0 ≤ c.tv) :
    css.foldl CNF.appendConsistency c = c.appendConsistency css.flatten := by
  induction css generalizing c with
  | nil => cases c; simp [CNF.appendConsistency, maxVar, maxVarLoop, maxInt] at h ⊢; omega
  | cons cls css ih =>
    have := maxVar_nonneg cls
    rw [List.foldl_cons, ih (by simp only [CNF.appendConsistency, maxInt]; split <;> omega), List.flatten_cons]
    simp only [CNF.appendConsistency, maxVar_append, maxInt, List.append_assoc, CNF.mk.injEq, and_true]
    split <;> split <;> split <;> omega

theorem semCalls_refines (css : List (List Clause)) :
    RefinesFrom (fun i => semCalls A i css) (fun c => (pure (css.foldl CNF.appendSemantics c) : M CNF)) := by
  induction css with
  | nil => exact RefinesFrom.id
  | cons cls css ih => exact (RefinesFrom.sem (fun i => i) cls).bind ih

theorem conCalls_refines (css : List (List Clause)) :
    RefinesFrom (fun i => conCalls A i css) (fun c => (pure (css.foldl CNF.appendConsistency c) : M CNF)) := by
  induction css with
  | nil => exact RefinesFrom.id
  | cons cls css ih => exact (RefinesFrom.con (fun i => i) cls).bind ih

/-- An action that does not touch the context and does not fail. -/
theorem RefinesFrom.run {a : Nat → HM Nat} {f : CNF → CNF} (h : RefinesFrom a (fun c => pure (f c))) {s : Ctx} {ops : List Op}
    {H : List (Nat × CNF)} {i : Nat} {c : CNF} (hh : Held ops ((i, c) :: H)) :
    ∃ i' ops', a i s ops = (.ok i', s, ops') ∧ Held ops' ((i', f c) :: H) := by
  rcases h s _ _ _ _ hh with ⟨c', s2, i', ops', h1, h2, h3⟩ | ⟨er, s2, ops', h1, h2, h3⟩
  · have h1 : (Except.ok (f c), s) = ((.ok c', s2) : Except Err CNF × Ctx) := h1
    simp only [Prod.mk.injEq, Except.ok.injEq] at h1
    obtain ⟨rfl, rfl⟩ := h1
    exact ⟨i', ops', h2, h3⟩
  · have h1 : (Except.ok (f c), s) = ((.error er, s2) : Except Err CNF × Ctx) := h1
    simp at h1

theorem stepCalls_refines (st : List Step) : ∀ {s : Ctx} {ops : List Op} {H : List (Nat × CNF)} {i : Nat} {c : CNF},
    0 ≤ c.tv → Held ops ((i, c) :: H) →
    (∃ c' s' i' ops', emitFrom c st s = (.ok c', s') ∧ stepCalls A i st s ops = (.ok i', s', ops') ∧
      Held ops' ((i', c') :: H)) ∨
    (∃ e s' ops', emitFrom c st s = (.error e, s') ∧ stepCalls A i st s ops = (.error e, s', ops') ∧ Held ops' H) := by
  induction st with
  | nil => intro s ops H i c _ hh; exact .inl ⟨_, _, _, _, rfl, rfl, hh⟩
  | cons st sts ih =>
    intro s ops H i c hc hh
    have key : ∀ (cls : List SClause) (a : List Clause → HM Nat) (f : List Clause → CNF),
        (∀ ks s, ∃ i' ops', a ks s ops = (.ok i', s, ops') ∧ Held ops' ((i', f ks) :: H)) → (∀ ks, 0 ≤ (f ks).tv) →
        (∃ c' s' i' ops', (allocClauses cls >>= fun ks => emitFrom (f ks) sts) s = (.ok c', s') ∧
          (ofM (allocClauses cls) >>= fun ks => a ks >>= fun n => stepCalls A n sts) s ops = (.ok i', s', ops') ∧
          Held ops' ((i', c') :: H)) ∨
        (∃ e s' ops', (allocClauses cls >>= fun ks => emitFrom (f ks) sts) s = (.error e, s') ∧
          (ofM (allocClauses cls) >>= fun ks => a ks >>= fun n => stepCalls A n sts) s ops = (.error e, s', ops') ∧
          Held ops' H) := by
      intro cls a f ha hf
      rcases e : allocClauses cls s with ⟨r, s'⟩
      cases r with
      | error er =>
        exact .inr ⟨_, _, _, M_bind_error' e, HM_bind_error (ofM_error e ops), hh.sub (List.sublist_cons_self _ _)⟩
      | ok ks =>
        rw [M_bind_ok' e, HM_bind_ok (ofM_ok e ops)]
        obtain ⟨i', ops', h2, h3⟩ := ha ks s'
        rw [HM_bind_ok h2]
        exact ih (hf ks) h3
    cases st with
    | touch cls => exact key cls (fun _ => pure i) (fun _ => c) (fun _ s => ⟨i, ops, rfl, hh⟩) (fun _ => hc)
    | sem cls =>
      refine key cls (fun ks => semCalls A i (A.cut i ks)) (fun ks => c.appendSemantics ks) (fun ks s => ?_) ?_
      · obtain ⟨i', ops', h1, h2⟩ := (semCalls_refines (A := A) (A.cut i ks)).run (s := s) hh
        rw [append_chunks_sem _ hc, A.cut_all] at h2
        exact ⟨i', ops', h1, h2⟩
      · intro ks; simp only [CNF.appendSemantics, maxInt]; split <;> omega
    | con cls =>
      refine key cls (fun ks => conCalls A i (A.cut i ks)) (fun ks => c.appendConsistency ks) (fun ks s => ?_) ?_
      · obtain ⟨i', ops', h1, h2⟩ := (conCalls_refines (A := A) (A.cut i ks)).run (s := s) hh
        rw [append_chunks_con _ hc, A.cut_all] at h2
        exact ⟨i', ops', h1, h2⟩
      · intro ks; simp only [CNF.appendConsistency, maxInt]; split <;> omega

theorem planCalls_refines (p : Plan) : Refines (planCalls A p) p.exec := by
  cases p with
  | zero => exact Refines.zero
  | no => exact Refines.no
  | steps st => intro s ops H hh; exact stepCalls_refines (c := {}) st (by simp) hh.zero
  | start cls st =>
    refine Refines.ofM_bind fun ks s ops H hh => ?_
    have h1 := hh.fromClauses (cls := A.fresh ops.length ks) (sp := A.room ops.length)
    rw [fresh_fst] at h1
    exact stepCalls_refines (c := FromClauses ks) st (maxVar_nonneg ks) h1

theorem atomCalls_refines (a : Atom) : Refines (atomCalls A a) a.encode := by
  rw [Atom.encode_plan]
  exact Refines.ofM_bind planCalls_refines

/-! ### logical operators -/

theorem wrapErr_eq {α : Type} (pre : String) (x : M α) (s : Ctx) :
    M.wrapErr pre x s = ((M.wrapErr pre (fun _ => x s) s).1, (x s).2) := by
  unfold M.wrapErr
  rcases x s with ⟨r, s'⟩
  cases r <;> rfl

theorem Refines.wrapErr {a : HM Nat} {m : M CNF} (pre : String) (h : Refines a m) :
    Refines (HM.wrapErr pre a) (M.wrapErr pre m) := by
  intro s ops H hh
  rcases h s ops H hh with ⟨c, s', i, ops', e1, e2, e3⟩ | ⟨e, s', ops', e1, e2, e3⟩
  · refine .inl ⟨c, s', i, ops', ?_, ?_, e3⟩
    · rw [wrapErr_eq, e1]; rfl
    · unfold HM.wrapErr; rw [e2]; rfl
  · refine .inr ⟨(match M.wrapErr pre (fun _ => (.error e, s') : M CNF) s with | (.error e, _) => e | _ => e), s', ops', ?_, ?_, e3⟩
    · rw [wrapErr_eq, e1]; rfl
    · unfold HM.wrapErr; rw [e2]; rfl

/-- Two components one after the other. -/
theorem Refines.both {x y : HM Nat} {x' y' : M CNF} {a : Nat → Nat → HM Nat} {m : CNF → CNF → M CNF}
    (hx : Refines x x') (hy : Refines y y')
    (h : ∀ s ops H i c j c', Held ops ((j, c') :: (i, c) :: H) →
      (∃ c2 s' i2 ops', m c c' s = (.ok c2, s') ∧ a i j s ops = (.ok i2, s', ops') ∧ Held ops' ((i2, c2) :: H)) ∨
      (∃ e s' ops', m c c' s = (.error e, s') ∧ a i j s ops = (.error e, s', ops') ∧ Held ops' H)) :
    Refines (x >>= fun i => y >>= fun j => a i j) (x' >>= fun c => y' >>= fun c' => m c c') := by
  intro s ops H hh
  rcases hx s ops H hh with ⟨c, s1, i, ops1, e1, e2, e3⟩ | ⟨e, s1, ops1, e1, e2, e3⟩
  · rw [M_bind_ok' e1, HM_bind_ok e2]
    rcases hy s1 ops1 _ e3 with ⟨c', s2, j, ops2, f1, f2, f3⟩ | ⟨e, s2, ops2, f1, f2, f3⟩
    · rw [M_bind_ok' f1, HM_bind_ok f2]
      exact h _ _ _ _ _ _ _ f3
    · exact .inr ⟨_, _, _, M_bind_error' f1, HM_bind_error f2, f3.sub (List.sublist_cons_self _ _)⟩
  · exact .inr ⟨_, _, _, M_bind_error' e1, HM_bind_error e2, e3⟩

theorem andCalls_refines {x y : HM Nat} {x' y' : M CNF} (hx : Refines x x') (hy : Refines y y') :
    Refines (andCalls x y) (andBuild x' y') :=
  (hx.wrapErr "Q1").both (hy.wrapErr "Q2") fun _ _ _ _ _ _ _ hh => .inl ⟨_, _, _, _, rfl, rfl, hh.conjunction⟩

/-- The action `negStep` of the proofs about LogOp: negation with the top variable of the context. -/
def negM (c : CNF) : M CNF := do
  let top ← M.topV
  let c := c.negate (some top)
  M.updateTopV c.topV
  pure c

theorem negCalls_refines : RefinesFrom (negCalls A) negM := by
  intro s ops H i c hh
  have h1 := hh.negate (o := some s.topV)
  obtain ⟨v, e1, e2⟩ := h1.memory A.grow (p := (ops.length, c.negate (some s.topV))) List.mem_cons_self
  refine .inl ⟨_, _, _, _, rfl, ?_, h1⟩
  have : ((run A.grow (ops ++ [.negate i (some s.topV)])).vals.getD ops.length {}).tv = (c.negate (some s.topV)).tv := by
    have e2 : (run A.grow (ops ++ [.negate i (some s.topV)])).h.cnf v = c.negate (some s.topV) := e2
    rw [List.getD_eq_getElem?_getD, e1, Option.getD_some, ← e2]; rfl
  show (Except.ok ops.length, (s.updateTopV _).2, _) = _
  rw [this]; rfl

theorem notCalls_refines {x : HM Nat} {x' : M CNF} (hx : Refines x x') : Refines (notCalls A x) (notBuild x') :=
  hx.bind negCalls_refines

theorem negCalls_run {s : Ctx} {ops : List Op} {H : List (Nat × CNF)} {i : Nat} {c : CNF} (hh : Held ops ((i, c) :: H)) :
    ∃ c' s' i' ops', negM c s = (.ok c', s') ∧ negCalls A i s ops = (.ok i', s', ops') ∧ Held ops' ((i', c') :: H) := by
  rcases negCalls_refines (A := A) s ops H i c hh with h | ⟨e, s', ops', h, _⟩
  · exact h
  · exact absurd h (by simp [negM, M.topV, M.updateTopV, bind, M.bind', pure])

theorem orBuild_eq (x y : M CNF) : orBuild x y = M.wrapErr "Q1" x >>= fun c => M.wrapErr "Q2" y >>= fun c' =>
    negM c >>= fun c => negM c' >>= fun c' => negM (c.conjunction c') := by
  simp only [orBuild, negM, bind_assoc, pure_bind]

theorem orCalls_refines {x y : HM Nat} {x' y' : M CNF} (hx : Refines x x') (hy : Refines y y') :
    Refines (orCalls A x y) (orBuild x' y') := by
  rw [orBuild_eq]
  refine (hx.wrapErr "Q1").both (hy.wrapErr "Q2") fun s ops H i c j c' hh => .inl ?_
  obtain ⟨c2, s2, i2, ops2, e1, e2, e3⟩ := negCalls_run (A := A) (s := s) (hh.perm (List.Perm.swap _ _ _))
  obtain ⟨c3, s3, i3, ops3, f1, f2, f3⟩ := negCalls_run (A := A) (s := s2) (e3.perm (List.Perm.swap _ _ _))
  obtain ⟨c4, s4, i4, ops4, g1, g2, g3⟩ := negCalls_run (A := A) (s := s3) f3.conjunction
  refine ⟨c4, s4, i4, ops4, ?_, ?_, g3⟩
  · rw [M_bind_ok' e1, M_bind_ok' f1]; exact g1
  · rw [HM_bind_ok e2, HM_bind_ok f2]
    exact g2

theorem onePerFeat_refines (v : QVar) : ∀ (n i : Nat),
    RefinesFrom (onePerFeatCalls A v i n) (reqOnePerFeat v i n) := by
  intro n
  induction n with
  | zero => intro i; exact RefinesFrom.id
  | succ n ih =>
    intro i
    refine RefinesFrom.ofM_bind fun z1 => RefinesFrom.ofM_bind fun o1 => RefinesFrom.ofM_bind fun z2 =>
      RefinesFrom.ofM_bind fun b2 => RefinesFrom.ofM_bind fun o3 => RefinesFrom.ofM_bind fun b3 => ?_
    exact (RefinesFrom.con (fun i => i) [[-z1, -o1], [-z2, -b2], [-o3, -b3]]).bind (ih (i + 1))

theorem encodeI_refines (x : QVar) : Refines (encodeICalls A x) (encodeI x) := by
  refine Refines.ofM_bind fun v => Refines.ofM_bind fun ex => ?_
  cases ex with
  | true => exact Refines.zero
  | false =>
    refine Refines.ofM_bind fun d => Refines.ofM_bind fun cls => ?_
    exact Refines.zero.bind ((RefinesFrom.con (fun i => i) cls).bind (onePerFeat_refines v d 0))

theorem withVar_refines (x : QVar) {q : HM Nat} {q' : M CNF} (h : Refines q q') :
    Refines (withVarCalls A x q) (withVarBuild x q') :=
  (encodeI_refines x).both h fun _ _ _ _ _ _ _ hh => .inl ⟨_, _, _, _, rfl, rfl, hh.conjunction⟩

theorem forallCalls_refines {q : HM Nat} {q' : M CNF} (h : Refines q q') (nodes : List Node) :
    ∀ (fuel : Nat) (w : WalkSt) (i : Int), RefinesFrom (forallCalls q nodes fuel w i) (forallLoop q' nodes fuel w i) := by
  intro fuel
  induction fuel with
  | zero =>
    intro w i s ops H n c hh
    exact .inr ⟨_, _, _, rfl, rfl, hh.sub (List.sublist_cons_self _ _)⟩
  | succ fuel ih =>
    intro w i s ops H n c hh
    simp only [forallCalls, forallLoop]
    cases e : walkNext nodes (nextFuel nodes) w with
    | error er => exact .inr ⟨_, _, _, rfl, rfl, hh.sub (List.sublist_cons_self _ _)⟩
    | ok r =>
      cases r with
      | none => exact .inl ⟨_, _, _, _, rfl, rfl, hh⟩
      | some w' =>
        simp only
        rcases e1 : M.setScope i w'.t s with ⟨r, s1⟩
        cases r with
        | error er =>
          rw [M_bind_error' e1, HM_bind_error (ofM_error e1 ops)]
          exact .inr ⟨_, _, _, rfl, rfl, hh.sub (List.sublist_cons_self _ _)⟩
        | ok u =>
          rw [M_bind_ok' e1, HM_bind_ok (ofM_ok e1 ops)]
          rcases h s1 ops _ hh with ⟨c', s2, j, ops2, f1, f2, f3⟩ | ⟨e, s2, ops2, f1, f2, f3⟩
          · rw [M_bind_ok' f1, HM_bind_ok f2]
            exact ih w' (i + 1) s2 _ _ _ _ f3.conjunction
          · exact .inr ⟨_, _, _, M_bind_error' f1, HM_bind_error f2, f3.sub (List.sublist_cons_self _ _)⟩

theorem forallBody_refines {q : HM Nat} {q' : M CNF} (h : Refines q q') :
    Refines (forallBodyCalls q) (forallBody q') := by
  refine Refines.ofM_bind fun d => Refines.ofM_bind fun nodes => Refines.ofM_bind fun iter => ?_
  exact Refines.zero.bind (forallCalls_refines h nodes _ iter 0)

theorem forallBuild_refines (c : QConst) {q : HM Nat} {q' : M CNF} (h : Refines q q') :
    Refines (forallBuildCalls c q) (forallBuild c q') := by
  intro s ops H hh
  unfold forallBuildCalls forallBuild
  rcases forallBody_refines h (s.addScope c.id) ops H hh with ⟨c', s2, j, ops2, f1, f2, f3⟩ | ⟨e, s2, ops2, f1, f2, f3⟩
  · simp only [f1, f2]
    rcases e : s2.popScope with ⟨r, s3⟩
    cases r with
    | ok u => exact .inl ⟨_, _, _, _, rfl, rfl, f3⟩
    | error er => exact .inr ⟨_, _, _, rfl, rfl, f3.sub (List.sublist_cons_self _ _)⟩
  · simp only [f1, f2]
    rcases e' : s2.popScope with ⟨r, s3⟩
    cases r with
    | ok u => exact .inr ⟨_, _, _, rfl, rfl, f3⟩
    | error er =>
      cases e <;> cases er <;> exact .inr ⟨_, _, _, rfl, rfl, f3⟩

/-- The same for values of the interface type. -/
def RefinesComp : HComp → Comp → Prop
  | none, none => True
  | some a, some m => Refines a m
  | _, _ => False

theorem hcomp_refines (q : Query) : RefinesComp (hcomp A q) q.comp := by
  induction q with
  | nil => exact trivial
  | atom a => exact atomCalls_refines a
  | and q1 q2 ih1 ih2 =>
    refine Refines.wrapErr "And" ?_
    generalize hcomp A q1 = a1 at ih1 ⊢
    generalize hcomp A q2 = a2 at ih2 ⊢
    cases e1 : q1.comp <;> cases a1 <;> rw [e1] at ih1 <;> first | exact ih1.elim | skip
    · exact Refines.throw _
    · cases e2 : q2.comp <;> cases a2 <;> rw [e2] at ih2 <;> first | exact ih2.elim | skip
      · exact Refines.throw _
      · exact andCalls_refines ih1 ih2
  | or q1 q2 ih1 ih2 =>
    refine Refines.wrapErr "Or" ?_
    generalize hcomp A q1 = a1 at ih1 ⊢
    generalize hcomp A q2 = a2 at ih2 ⊢
    cases e1 : q1.comp <;> cases a1 <;> rw [e1] at ih1 <;> first | exact ih1.elim | skip
    · exact Refines.throw _
    · cases e2 : q2.comp <;> cases a2 <;> rw [e2] at ih2 <;> first | exact ih2.elim | skip
      · exact Refines.throw _
      · exact orCalls_refines ih1 ih2
  | not q ih =>
    refine Refines.wrapErr "Not" ?_
    generalize hcomp A q = a at ih ⊢
    cases e : q.comp <;> cases a <;> rw [e] at ih <;> first | exact ih.elim | skip
    · exact Refines.throw _
    · exact notCalls_refines ih
  | withVar x q ih =>
    refine Refines.wrapErr "WithVar" ?_
    generalize hcomp A q = a at ih ⊢
    cases e : q.comp <;> cases a <;> rw [e] at ih <;> first | exact ih.elim | skip
    · exact Refines.throw _
    · exact Refines.ofM_bind fun _ => withVar_refines x ih
  | forallG c q ih =>
    refine Refines.wrapErr "ForAllGuarded" ?_
    generalize hcomp A q = a at ih ⊢
    cases e : q.comp <;> cases a <;> rw [e] at ih <;> first | exact ih.elim | skip
    · exact Refines.throw _
    · exact forallBuild_refines c ih

theorem encodeCalls_refines (q : Query) : Refines (encodeCalls A q) q.encode := by
  have h := hcomp_refines (A := A) q
  unfold encodeCalls Query.encode
  generalize hcomp A q = a at h ⊢
  cases e : q.comp <;> cases a <;> rw [e] at h <;> first | exact h.elim | skip
  · exact Refines.throw _
  · exact h

/-- The results of the encodings, and the CNFs that they are held to be. -/
def AllHeld : List (Ctx × Query) → List (Except Err Nat × Ctx) → List (Nat × CNF) → Prop
  | [], [], H => H = []
  | (s, q) :: jobs, (.ok i, s') :: rs, H => ∃ c H', q.encode s = (.ok c, s') ∧ H = (i, c) :: H' ∧ AllHeld jobs rs H'
  | (s, q) :: jobs, (.error e, s') :: rs, H => q.encode s = (.error e, s') ∧ AllHeld jobs rs H
  | _, _, _ => False

theorem encodeAll_held (jobs : List (Ctx × Query)) : ∀ {ops : List Op} {H : List (Nat × CNF)}, Held ops H →
    ∃ H', AllHeld jobs (encodeAll A jobs ops).1 H' ∧ Held (encodeAll A jobs ops).2 (H' ++ H) := by
  induction jobs with
  | nil => intro ops H hh; exact ⟨[], rfl, hh⟩
  | cons job jobs ih =>
    obtain ⟨s, q⟩ := job
    intro ops H hh
    rcases encodeCalls_refines (A := A) q s ops H hh with ⟨c, s', i, ops', e1, e2, e3⟩ | ⟨e, s', ops', e1, e2, e3⟩
    · obtain ⟨H', h1, h2⟩ := ih e3
      refine ⟨(i, c) :: H', ?_, ?_⟩
      · simp only [encodeAll, e2]; exact ⟨c, H', e1, rfl, h1⟩
      · simp only [encodeAll, e2]; exact h2.perm List.perm_middle
    · obtain ⟨H', h1, h2⟩ := ih e3
      refine ⟨H', ?_, ?_⟩
      · simp only [encodeAll, e2]; exact ⟨e1, h1⟩
      · simp only [encodeAll, e2]; exact h2

theorem AllHeld.results {f : Nat → Option CNF} : ∀ {jobs : List (Ctx × Query)} {rs : List (Except Err Nat × Ctx)}
    {H : List (Nat × CNF)}, AllHeld jobs rs H → (∀ p ∈ H, f p.1 = some p.2) →
    rs.map (fun r => (r.1.map f, r.2)) = jobs.map (fun j => ((j.2.encode j.1).1.map some, (j.2.encode j.1).2)) := by
  intro jobs
  induction jobs with
  | nil => intro rs H h _; cases rs with | nil => rfl | cons r rs => exact h.elim
  | cons job jobs ih =>
    obtain ⟨s, q⟩ := job
    intro rs H h hf
    cases rs with
    | nil => exact h.elim
    | cons r rs =>
      obtain ⟨r, s'⟩ := r
      cases r with
      | ok i =>
        obtain ⟨c, H', e, rfl, h⟩ := h
        have h1 := hf (i, c) List.mem_cons_self
        rw [List.map_cons, List.map_cons, ih h fun p hp => hf p (List.mem_cons_of_mem _ hp)]
        simp only [e, Except.map, h1]
      | error er =>
        obtain ⟨e, h⟩ := h
        rw [List.map_cons, List.map_cons, ih h hf]
        simp only [e, Except.map]

end Goexpdt.Alias

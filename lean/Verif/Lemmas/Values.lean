import Verif.Lemmas.SolverBin
/-
What `Values` does to the context.
-/
namespace Goexpdt
open Spec

variable {s : Ctx} {v : QVar}

theorem M_cnfVar_spec (h : VMok s) (vr : VarRep) :
    ∃ n s', M.cnfVar vr s = (.ok n, s') ∧ Alloc (fun x => x = vr) s s' :=
  ⟨_, _, rfl, (cnfVar_alloc h vr).1⟩

theorem variableFilter_spec (is : List Nat) : ∀ {s : Ctx}, VMok s →
    ∃ fs s', variableFilter v is s = (.ok fs, s') ∧
      Alloc (fun x => ∃ i ∈ is, ∃ k ∈ featVals, x = ⟨v, (i : Nat), k⟩) s s' := by
  induction is with
  | nil => intro s h; exact ⟨[], s, rfl, (Alloc.refl h).congr (by simp)⟩
  | cons i is ih =>
    intro s h
    obtain ⟨a, s1, e1, h1⟩ := M_cnfVar_spec h ⟨v, i, BOT⟩
    obtain ⟨b, s2, e2, h2⟩ := M_cnfVar_spec h1.ok ⟨v, i, ZERO⟩
    obtain ⟨c, s3, e3, h3⟩ := M_cnfVar_spec h2.ok ⟨v, i, ONE⟩
    obtain ⟨fs, s4, e4, h4⟩ := ih h3.ok
    refine ⟨a :: b :: c :: fs, s4, ?_, (((h1.trans h2).trans h3).trans h4).congr ?_⟩
    · unfold variableFilter
      rw [M_bind_ok e1, M_bind_ok e2, M_bind_ok e3, M_bind_ok e4]; rfl
    · intro vr
      simp only [featVals, List.mem_cons, List.not_mem_nil, or_false, exists_eq_or_imp, exists_eq_left]
      grind

/-- Reading the features of a variable all of whose triples are named does not change the context. -/
theorem readFeats_state {vval : List (Int × Bool)} (is : List Nat)
    (h : ∀ i ∈ is, ∀ k ∈ featVals, Named s ⟨v, (i : Nat), k⟩) :
    ∃ fs, readFeats v vval is s = (.ok fs, s) := by
  induction is with
  | nil => exact ⟨[], rfl⟩
  | cons i is ih =>
    obtain ⟨fs, e⟩ := ih fun j hj => h j (by simp [hj])
    have hi := h i (by simp)
    unfold readFeats
    rw [M_bind_ok (cnfVar_named (hi BOT (by simp [featVals])))]
    split
    · exact ⟨_, by rw [M_bind_ok e]; rfl⟩
    · rw [M_bind_ok (cnfVar_named (hi ONE (by simp [featVals])))]
      split
      · exact ⟨_, by rw [M_bind_ok e]; rfl⟩
      · rw [M_bind_ok (cnfVar_named (hi ZERO (by simp [featVals])))]
        split
        · exact ⟨_, by rw [M_bind_ok e]; rfl⟩
        · exact ⟨fs, e⟩

/-- If none of the numbers is true then no feature is read. -/
theorem readFeats_none {vval : List (Int × Bool)} (is : List Nat)
    (h : ∀ i ∈ is, ∀ k ∈ featVals, Named s ⟨v, (i : Nat), k⟩)
    (hr : ∀ i ∈ is, ∀ k ∈ featVals, mapGet vval (num s ⟨v, (i : Nat), k⟩) = none) :
    readFeats v vval is s = (.ok [], s) := by
  induction is with
  | nil => rfl
  | cons i is ih =>
    have ih := ih (fun j hj => h j (by simp [hj])) (fun j hj => hr j (by simp [hj]))
    have hi := h i (by simp)
    have hri := hr i (by simp)
    unfold readFeats
    rw [M_bind_ok (cnfVar_named (hi BOT (by simp [featVals]))), hri BOT (by simp [featVals]),
      if_neg (by simp), M_bind_ok (cnfVar_named (hi ONE (by simp [featVals]))), hri ONE (by simp [featVals]),
      if_neg (by simp), M_bind_ok (cnfVar_named (hi ZERO (by simp [featVals]))), hri ZERO (by simp [featVals]),
      if_neg (by simp)]
    exact ih

/-- The context after reading one variable does not depend on the output. -/
theorem varValue_ctx (hv : VMok s) (out : List Char) (v : QVar) :
    (varValueFromBytes out v s).2 = (variableFilter v (List.range s.dim) s).2 := by
  obtain ⟨fs, s1, e1, h1⟩ := variableFilter_spec (v := v) (List.range s.dim) hv
  have e0 : M.dim s = (.ok s.dim, s) := rfl
  unfold varValueFromBytes
  rw [M_bind_ok e0, M_bind_ok e1, e1]
  cases hsc : scanLines fs [] (splitOn '\n' out) with
  | error e => rfl
  | ok vval =>
    obtain ⟨gs, e2⟩ := readFeats_state (s := s1) (v := v) (vval := vval) (List.range s.dim) fun i hi k hk =>
      (h1.named _).2 (.inr ⟨i, hi, k, hk, rfl⟩)
    have e3 : (M.lift (.ok vval) : M _) s1 = (.ok vval, s1) := rfl
    rw [M_bind_ok e3, M_bind_ok e2]
    rfl

theorem varValue_alloc (hv : VMok s) (out : List Char) (v : QVar) :
    Alloc (fun x => ∃ i < s.dim, ∃ k ∈ featVals, x = ⟨v, (i : Nat), k⟩) s (varValueFromBytes out v s).2 := by
  obtain ⟨fs, s1, e1, h1⟩ := variableFilter_spec (v := v) (List.range s.dim) hv
  rw [varValue_ctx hv, e1]
  exact h1.congr (by simp [List.mem_range])

theorem record_other {fs : List Int} {k : Int} (ls : List Int) (h : k ∉ ls) (h' : -k ∉ ls) : ∀ vval,
    mapGet (record fs vval ls) k = mapGet vval k := by
  induction ls with
  | nil => intro vval; rfl
  | cons l ls ih =>
    intro vval
    simp only [List.mem_cons, not_or] at h h'
    simp only [record]
    rw [ih h.2 h'.2]
    split
    · have : ¬ iAbs l = k := by unfold iAbs; split <;> omega
      simp [mapGet, this]
    · rfl

/-- Reading a variable whose triples have no numbers. -/
theorem varValue_undeclared (hv : VMok s) {n : Int} {β : Val} {out : List Char} (hp : Prints n β out) (hn : n ≤ s.topv)
    (hno : ∀ i < s.dim, ∀ k ∈ featVals, ¬ Named s ⟨v, (i : Nat), k⟩) :
    (varValueFromBytes out v s).1 = .ok { val := [] } := by
  obtain ⟨ls, rfl, hok, -, htrue⟩ := hp
  obtain ⟨fs, s1, e1, h1⟩ := variableFilter_spec (v := v) (List.range s.dim) hv
  have e0 : M.dim s = (.ok s.dim, s) := rfl
  have e2 : (M.lift (scanLines fs [] (splitOn '\n' (joinLines (ls.map OutLine.text)))) : M _) s1 =
      (.ok (record fs [] (ls.flatMap OutLine.lits)), s1) := by
    rw [scan_out _ _ hok]; rfl
  have hnm : ∀ i ∈ List.range s.dim, ∀ k ∈ featVals, Named s1 ⟨v, (i : Nat), k⟩ := fun i hi k hk =>
    (h1.named _).2 (.inr ⟨i, hi, k, hk, rfl⟩)
  have e3 := readFeats_none (s := s1) (v := v) (vval := record fs [] (ls.flatMap OutLine.lits)) (List.range s.dim) hnm (by
    intro i hi k hk
    obtain ⟨m, hm⟩ := hnm i hi k hk
    have hm0 : mapGet s.vmap ⟨v, (i : Nat), k⟩ = none := by
      cases h : mapGet s.vmap ⟨v, (i : Nat), k⟩ with
      | none => rfl
      | some m' => exact absurd ⟨m', h⟩ (hno i (List.mem_range.1 hi) k hk)
    have hlt := h1.ext.fresh _ _ hm0 hm
    have h0 := hv.topv_nonneg
    rw [num_eq hm, record_other]
    · rfl
    · intro hmem; have := (htrue _ hmem (by omega)).1; omega
    · intro hmem; have := (htrue _ hmem (by omega)).1; omega)
  unfold varValueFromBytes
  rw [M_bind_ok e0, M_bind_ok e1, M_bind_ok e2, M_bind_ok e3]
  rfl

/-- The context after `Values`, whatever the output. -/
theorem binValuesLoop_alloc (out : List Char) (vs : List QVar) : ∀ {s : Ctx}, VMok s →
    ∃ p : VarRep → Prop, Alloc p s (binValuesLoop out vs s).2 ∧
      (∀ vr, p vr → ∃ v ∈ vs, ∃ i < s.dim, ∃ k ∈ featVals, vr = ⟨v, (i : Nat), k⟩) ∧
      ∀ cs, (binValuesLoop out vs s).1 = .ok cs → ∀ v ∈ vs, ∀ i < s.dim, ∀ k ∈ featVals, p ⟨v, (i : Nat), k⟩ := by
  induction vs with
  | nil => intro s h; exact ⟨fun _ => False, (Alloc.refl h), by simp, by simp⟩
  | cons v vs ih =>
    intro s h
    have h1 := varValue_alloc h out v
    unfold binValuesLoop
    rcases hq : varValueFromBytes out v s with ⟨e | c, s1⟩ <;> rw [hq] at h1
    · rw [M_bind_error hq]
      exact ⟨_, h1, fun vr ⟨i, hi, k, hk, e⟩ => ⟨v, by simp, i, hi, k, hk, e⟩, fun cs hcs => by cases hcs⟩
    · rw [M_bind_ok hq]
      obtain ⟨p, h2, hp, hp'⟩ := ih h1.ok
      have hd : s1.dim = s.dim := h1.keeps.dim
      rcases hr : binValuesLoop out vs s1 with ⟨e | cs, s2⟩ <;> simp only [hr] at h2 hp'
      · rw [M_bind_error hr]
        refine ⟨_, h1.trans h2, ?_, fun cs hcs => by cases hcs⟩
        rintro vr (⟨i, hi, k, hk, e⟩ | hvr)
        · exact ⟨v, by simp, i, hi, k, hk, e⟩
        · obtain ⟨w, hw, i, hi, r⟩ := hp vr hvr
          exact ⟨w, by simp [hw], i, hd ▸ hi, r⟩
      · rw [M_bind_ok hr]
        refine ⟨_, h1.trans h2, ?_, ?_⟩
        · rintro vr (⟨i, hi, k, hk, e⟩ | hvr)
          · exact ⟨v, by simp, i, hi, k, hk, e⟩
          · obtain ⟨w, hw, i, hi, r⟩ := hp vr hvr
            exact ⟨w, by simp [hw], i, hd ▸ hi, r⟩
        · intro _ _ w hw i hi k hk
          rcases List.mem_cons.1 hw with rfl | hw
          · exact .inl ⟨i, hi, k, hk, rfl⟩
          · exact .inr (hp' cs rfl w hw i (hd ▸ hi) k hk)

/-- Variables all of whose triples are named: the context does not change, whatever the output. -/
theorem varValue_state (out : List Char) (h : ∀ i < s.dim, ∀ k ∈ featVals, Named s ⟨v, (i : Nat), k⟩) :
    (varValueFromBytes out v s).2 = s := by
  obtain ⟨fs, e1, -⟩ := variableFilter_named (v := v) (List.range s.dim) (fun i hi => h i (List.mem_range.1 hi))
  have e0 : M.dim s = (.ok s.dim, s) := rfl
  unfold varValueFromBytes
  rw [M_bind_ok e0, M_bind_ok e1]
  cases hsc : scanLines fs [] (splitOn '\n' out) with
  | error e => rfl
  | ok vval =>
    obtain ⟨gs, e2⟩ := readFeats_state (s := s) (v := v) (vval := vval) (List.range s.dim) fun i hi => h i (List.mem_range.1 hi)
    have e3 : (M.lift (.ok vval) : M _) s = (.ok vval, s) := rfl
    rw [M_bind_ok e3, M_bind_ok e2]
    rfl

theorem binValuesLoop_state (out : List Char) (vs : List QVar)
    (h : ∀ v ∈ vs, ∀ i < s.dim, ∀ k ∈ featVals, Named s ⟨v, (i : Nat), k⟩) : (binValuesLoop out vs s).2 = s := by
  induction vs with
  | nil => rfl
  | cons v vs ih =>
    have h1 := varValue_state out (h v (by simp))
    have ih := ih fun w hw => h w (by simp [hw])
    unfold binValuesLoop
    rcases hq : varValueFromBytes out v s with ⟨e | c, s1⟩ <;> rw [hq] at h1 <;> replace h1 : s1 = s := h1
    · rw [M_bind_error hq]; exact h1
    · rw [h1] at hq
      rw [M_bind_ok hq]
      rcases hr : binValuesLoop out vs s with ⟨e | cs, s2⟩ <;> rw [hr] at ih <;> replace ih : s2 = s := ih
      · rw [M_bind_error hr]; exact ih
      · rw [M_bind_ok hr]; exact ih

/-- What a successful `Step` records. -/
theorem binStep_prints {env : Env} (h : Solves env.run) {act : M CNF} {st st' : BinSt} {s s' : Ctx} {c : CNF}
    (e : act s = (.ok c, s')) (hw : WF c) {s'' : Ctx} (hs : binStep env (some act) st s = (.ok (), st', s'')) :
    s'' = s' ∧ ∃ β, Prints c.tv β st'.output := by
  revert hs
  unfold binStep
  cases env.temp with
  | some msg => intro hs; simp at hs
  | none =>
    simp only [e]
    rcases ht : c.toFile env.create with ⟨ok, f⟩
    match ok, f with
    | false, _ => intro hs; simp at hs
    | true, none => intro hs; simp at hs
    | true, some f =>
      simp only
      rw [toFile_content ht]
      rcases solves_bytes h hw with ⟨out, err, β, h1, h2, h3, h4⟩ | ⟨out, err, h1, h2⟩
      · rw [h1]
        intro hs
        simp [runSolver] at hs
        obtain ⟨rfl, rfl⟩ := hs
        exact ⟨rfl, β, h3⟩
      · rw [h1]
        intro hs
        simp [runSolver] at hs

end Goexpdt

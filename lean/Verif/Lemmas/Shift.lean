import Verif.Lemmas.TameOp
import Verif.Spec.Shift
namespace Goexpdt
open Spec

/-! ### Clauses and CNFs -/

/-- Two top variables that differ by `k`, or are both 0. -/
def TvR (k a a' : Int) : Prop := 0 ≤ a ∧ (a' = a + k ∨ a = 0 ∧ a' = 0)

/-- Two CNFs that differ by `k`. -/
structure CNFR (k : Int) (c c' : CNF) : Prop where
  sem : c'.sClauses = shiftClauses k c.sClauses
  con : c'.cClauses = shiftClauses k c.cClauses
  tv : TvR k c.tv c'.tv

theorem TvR.max {k a a' b b' : Int} (hk : 0 ≤ k) (ha : TvR k a a') (hb : TvR k b b') : TvR k (maxInt a b) (maxInt a' b') := by
  unfold TvR at *
  unfold maxInt
  split <;> split <;> omega

theorem shiftLit_abs {k : Int} (l : Int) (hk : 0 ≤ k) : TvR k (absInt l) (absInt (shiftLit k l)) := by
  unfold TvR absInt shiftLit
  (repeat' split) <;> omega

theorem shiftLit_neg (k l : Int) : shiftLit k (-l) = -shiftLit k l := by
  unfold shiftLit
  (repeat' split) <;> omega

theorem shiftLit_pos {k l : Int} (h : 0 < l) : shiftLit k l = l + k := by
  unfold shiftLit; rw [if_pos h]

theorem shiftClauses_append (k : Int) (a b : List Clause) : shiftClauses k (a ++ b) = shiftClauses k a ++ shiftClauses k b := by
  simp [shiftClauses]

theorem maxVarClause_shift {k : Int} (hk : 0 ≤ k) (cl : Clause) : ∀ {a a' : Int}, TvR k a a' →
    TvR k (maxVarClause a cl) (maxVarClause a' (cl.map (shiftLit k))) := by
  induction cl with
  | nil => exact fun h => h
  | cons l cl ih =>
    intro a a' h
    simp only [List.map_cons, maxVarClause]
    exact ih ((shiftLit_abs l hk).max hk h)

theorem maxVarLoop_shift {k : Int} (hk : 0 ≤ k) (cls : List Clause) : ∀ {a a' : Int}, TvR k a a' →
    TvR k (maxVarLoop a cls) (maxVarLoop a' (shiftClauses k cls)) := by
  induction cls with
  | nil => exact fun h => h
  | cons l cl ih => exact fun h => ih (maxVarClause_shift hk l h)

theorem TvR.zero (k : Int) : TvR k 0 0 := ⟨Int.le_refl 0, .inr ⟨rfl, rfl⟩⟩

theorem maxVar_shift {k : Int} (hk : 0 ≤ k) (cls : List Clause) : TvR k (maxVar cls) (maxVar (shiftClauses k cls)) :=
  maxVarLoop_shift hk cls (TvR.zero k)

theorem CNFR.empty (k : Int) : CNFR k {} {} := ⟨rfl, rfl, TvR.zero k⟩
theorem CNFR.false (k : Int) : CNFR k FalseCNF FalseCNF := ⟨rfl, rfl, TvR.zero k⟩

theorem CNFR.appendSemantics {k : Int} (hk : 0 ≤ k) {c c' : CNF} (h : CNFR k c c') (cls : List Clause) :
    CNFR k (c.appendSemantics cls) (c'.appendSemantics (shiftClauses k cls)) :=
  ⟨by simp only [CNF.appendSemantics, h.sem, shiftClauses_append], h.con, h.tv.max hk (maxVar_shift hk cls)⟩

theorem CNFR.appendConsistency {k : Int} (hk : 0 ≤ k) {c c' : CNF} (h : CNFR k c c') (cls : List Clause) :
    CNFR k (c.appendConsistency cls) (c'.appendConsistency (shiftClauses k cls)) :=
  ⟨h.sem, by simp only [CNF.appendConsistency, h.con, shiftClauses_append], h.tv.max hk (maxVar_shift hk cls)⟩

theorem CNFR.conjunction {k : Int} (hk : 0 ≤ k) {c c' o o' : CNF} (h : CNFR k c c') (ho : CNFR k o o') :
    CNFR k (c.conjunction o) (c'.conjunction o') := by
  unfold CNF.conjunction
  dsimp only
  rw [ho.sem, ho.con]
  have h1 := h.appendSemantics hk o.sClauses
  exact CNFR.appendConsistency hk ⟨h1.sem, h.con, h1.tv⟩ _

theorem CNFR.fromClauses {k : Int} (hk : 0 ≤ k) (cls : List Clause) : CNFR k (FromClauses cls) (FromClauses (shiftClauses k cls)) :=
  ⟨rfl, rfl, maxVar_shift hk cls⟩

/-- Two results of the loop of `tseytinNegation`. -/
def LoopR (k : Int) : Except Int (Int × List Clause × Clause) → Except Int (Int × List Clause × Clause) → Prop
  | .ok (tv, cls, lits), .ok (tv', cls', lits') => 0 ≤ tv ∧ tv' = tv + k ∧ cls' = shiftClauses k cls ∧ lits' = lits.map (shiftLit k)
  | .error tv, .error tv' => 0 ≤ tv ∧ tv' = tv + k
  | _, _ => False

theorem tseytinLoop_shift (k : Int) (cls : List Clause) : ∀ (tv : Int) (acc : List Clause) (lits : Clause), 0 ≤ tv →
    LoopR k (CNF.tseytinLoop tv acc lits cls)
      (CNF.tseytinLoop (tv + k) (shiftClauses k acc) (lits.map (shiftLit k)) (shiftClauses k cls)) := by
  induction cls with
  | nil => exact fun tv acc lits h => ⟨h, rfl, rfl, rfl⟩
  | cons cl cls ih =>
    intro tv acc lits h
    match cl with
    | [] => exact ⟨h, rfl⟩
    | [l] =>
      have := ih tv acc (lits ++ [-l]) h
      rw [List.map_append, List.map_singleton, shiftLit_neg] at this
      exact this
    | l :: l' :: ls =>
      have := ih (tv + 1) (acc ++ (l :: l' :: ls).map (fun lit => [-lit, -(tv + 1)]) ++ [(l :: l' :: ls) ++ [tv + 1]])
        (lits ++ [tv + 1]) (by omega)
      rw [shiftClauses_append, shiftClauses_append, List.map_append] at this
      simp only [shiftClauses, List.map_cons, List.map_map, List.map_nil, List.map_append, Function.comp_def, shiftLit_neg,
        shiftLit_pos (show 0 < tv + 1 by omega)] at this
      simp only [shiftClauses, List.map_cons, CNF.tseytinLoop]
      simp only [List.map_map, Function.comp_def]
      rw [show tv + k + 1 = tv + 1 + k by omega]
      exact this

theorem hasEmpty_shift (k : Int) (cls : List Clause) :
    (shiftClauses k cls).any (fun cl => cl.length == 0) = cls.any (fun cl => cl.length == 0) := by
  simp [shiftClauses, List.any_map, Function.comp_def]

/-- Negation with the top variable of the context. -/
theorem CNFR.negate {k : Int} (hk : 0 ≤ k) {c c' : CNF} (h : CNFR k c c') {t : Int} (ht : 0 ≤ t) :
    CNFR k (c.negate (some t)) (c'.negate (some (t + k))) ∧ (c'.negate (some (t + k))).tv = (c.negate (some t)).tv + k := by
  have hm : maxInt c'.tv (t + k) = maxInt c.tv t + k ∧ 0 ≤ maxInt c.tv t := by
    have := h.tv
    unfold TvR at this
    unfold maxInt
    split <;> split <;> omega
  suffices H : (c'.negate (some (t + k))).sClauses = shiftClauses k (c.negate (some t)).sClauses ∧
      (c'.negate (some (t + k))).cClauses = shiftClauses k (c.negate (some t)).cClauses ∧
      0 ≤ (c.negate (some t)).tv ∧ (c'.negate (some (t + k))).tv = (c.negate (some t)).tv + k from
    ⟨⟨H.1, H.2.1, H.2.2.1, .inl H.2.2.2⟩, H.2.2.2⟩
  unfold CNF.negate CNF.hasEmptySemanticClause
  dsimp only
  rw [h.sem, h.con, hasEmpty_shift, hm.1]
  by_cases h0 : c.sClauses.length = 0
  · rw [if_pos h0, if_pos (by simpa [shiftClauses] using h0)]
    refine ⟨?_, ?_, hm.2, rfl⟩
    · simp only [CNF.appendSemantics, h.sem, shiftClauses_append]; rfl
    · simp only [CNF.appendSemantics, h.con]
  · rw [if_neg h0, if_neg (by simpa [shiftClauses] using h0)]
    split
    · exact ⟨rfl, rfl, hm.2, rfl⟩
    · have hl := tseytinLoop_shift k c.sClauses (maxInt c.tv t) [] [] hm.2
      unfold CNF.tseytinNegation
      dsimp only
      rw [show shiftClauses k [] = [] from rfl, show List.map (shiftLit k) [] = [] from rfl] at hl
      cases e1 : CNF.tseytinLoop (maxInt c.tv t) [] [] c.sClauses with
      | error v =>
        rw [e1] at hl
        cases e2 : CNF.tseytinLoop (maxInt c.tv t + k) [] [] (shiftClauses k c.sClauses) with
        | error v' => rw [e2] at hl; exact ⟨rfl, rfl, hl.1, hl.2⟩
        | ok r => rw [e2] at hl; exact hl.elim
      | ok r =>
        rw [e1] at hl
        cases e2 : CNF.tseytinLoop (maxInt c.tv t + k) [] [] (shiftClauses k c.sClauses) with
        | error v' => rw [e2] at hl; exact hl.elim
        | ok r' =>
          rw [e2] at hl
          obtain ⟨tv, cls, lits⟩ := r
          obtain ⟨tv', cls', lits'⟩ := r'
          obtain ⟨hl0, rfl, rfl, rfl⟩ := hl
          dsimp only
          by_cases h1 : lits.length = 1
          · rw [if_pos h1, if_pos (by simpa using h1)]
            exact ⟨rfl, by simp only [shiftClauses_append], hl0, rfl⟩
          · rw [if_neg h1, if_neg (by simpa using h1)]
            unfold CNF.addNegationIFFClauses
            dsimp only
            refine ⟨?_, ?_, by omega, by omega⟩
            · simp only [shiftClauses, List.map_cons, List.map_nil, shiftLit_pos (show 0 < tv + 1 by omega)]
              rw [show tv + k + 1 = tv + 1 + k by omega]
            · simp only [shiftClauses, List.map_cons, List.map_nil, List.map_append, List.map_map, Function.comp_def,
                shiftLit_neg, shiftLit_pos (show 0 < tv + 1 by omega)]
              rw [show tv + k + 1 = tv + 1 + k by omega]

/-! ### Computations -/

/-- The context `t` is `s` with all numbers larger by `k`, and the numbers `V` as well. -/
structure Moved (k : Int) (V : List (VarRep × Int)) (s t : Ctx) : Prop where
  top : 0 ≤ s.topv
  pos : ∀ p ∈ s.vmap, 0 < p.2
  eq : t = { s with topv := s.topv + k, vmap := s.vmap.map (fun p => (p.1, p.2 + k)) ++ V }

/-- No triple of `V` is numbered in the context. -/
def Clear (V : List (VarRep × Int)) (s : Ctx) : Prop := ∀ vr, mapGet V vr = none ∨ mapGet s.vmap vr = none

/-- Numbered triples stay numbered. -/
def Grow {α : Type} (m : M α) : Prop := ∀ s vr, mapGet (m s).2.vmap vr = none → mapGet s.vmap vr = none

theorem Clear.before {V : List (VarRep × Int)} {α : Type} {m : M α} (hg : Grow m) {s : Ctx} (h : Clear V (m s).2) : Clear V s :=
  fun vr => (h vr).imp id (hg s vr)

/-- Related results. -/
def OutR {α : Type} (R : α → α → Prop) : Except Err α → Except Err α → Prop
  | .ok a, .ok b => R a b
  | .error e, .error e' => e' = e
  | _, _ => False

/-- Two computations that do the same up to the numbers. -/
def Shifts {α : Type} (k : Int) (V : List (VarRep × Int)) (R : α → α → Prop) (m m' : M α) : Prop :=
  ∀ s t, Moved k V s t → Clear V (m s).2 → Moved k V (m s).2 (m' t).2 ∧ OutR R (m s).1 (m' t).1

section
variable {α β : Type} {k : Int} {V : List (VarRep × Int)}

theorem grow_of_vmap {m : M α} (h : ∀ s, (m s).2.vmap = s.vmap) : Grow m := fun s vr hv => by rwa [h s] at hv

theorem grow_readOnly {m : M α} (h : ReadOnly m) : Grow m := grow_of_vmap fun s => by rw [h s]

theorem grow_pure (a : α) : Grow (pure a : M α) := fun _ _ h => h
theorem grow_throw (e : Err) : Grow (M.throw e : M α) := fun _ _ h => h

theorem grow_bind {m : M α} {f : α → M β} (hm : Grow m) (hf : ∀ a, Grow (f a)) : Grow (m >>= f) := by
  intro s vr
  show mapGet (M.bind' m f s).2.vmap vr = none → _
  unfold M.bind'
  cases hr : m s with
  | mk r s1 =>
    have h1 := hm s vr
    rw [hr] at h1
    cases r with
    | error e => exact h1
    | ok a => exact fun h => h1 (hf a s1 vr h)

theorem grow_wrapErr (pre : String) {m : M α} (hm : Grow m) : Grow (M.wrapErr pre m) := by
  intro s vr
  rw [wrapErr_snd]
  exact hm s vr

theorem grow_cnfVar (vr : VarRep) : Grow (M.cnfVar vr) := by
  intro s vr' h
  simp only [M.cnfVar, Ctx.cnfVar] at h
  split at h
  · exact h
  · simp only [mapGet] at h
    split at h
    · cases h
    · exact h

theorem grow_updateTopV (v : Int) : Grow (M.updateTopV v) := by
  apply grow_of_vmap
  intro s
  simp only [M.updateTopV, Ctx.updateTopV]
  split <;> rfl

theorem grow_addVar (x : QVar) : Grow (M.addVar x) := grow_of_vmap fun s => (addVar_other s x).2.2

theorem grow_setScope (i : Int) (val : List FeatV) : Grow (M.setScope i val) := by
  apply grow_of_vmap
  intro s
  simp only [M.setScope, Ctx.setScope]
  split <;> rfl

theorem shifts_pure {R : α → α → Prop} {a b : α} (h : R a b) : Shifts k V R (pure a) (pure b) :=
  fun _ _ hm _ => ⟨hm, h⟩

theorem shifts_throw {R : α → α → Prop} (e : Err) : Shifts k V R (M.throw e) (M.throw e) := fun _ _ hm _ => ⟨hm, rfl⟩

theorem shifts_bind {R : α → α → Prop} {S : β → β → Prop} {m m' : M α} {f f' : α → M β} (hm : Shifts k V R m m')
    (hg : ∀ a, Grow (f a)) (hf : ∀ a b, R a b → Shifts k V S (f a) (f' b)) : Shifts k V S (m >>= f) (m' >>= f') := by
  intro s t hst
  have h0 := hm s t hst
  show Clear V (M.bind' m f s).2 → Moved k V (M.bind' m f s).2 (M.bind' m' f' t).2 ∧ OutR S (M.bind' m f s).1 (M.bind' m' f' t).1
  unfold M.bind'
  cases hr : m s with
  | mk r s1 =>
    cases hr' : m' t with
    | mk r' t1 =>
      rw [hr, hr'] at h0
      cases r with
      | error e =>
        intro hc
        obtain ⟨h1, h2⟩ := h0 hc
        cases r' with
        | error e' => exact ⟨h1, h2⟩
        | ok b => exact h2.elim
      | ok a =>
        intro hc
        obtain ⟨h1, h2⟩ := h0 (hc.before (hg a))
        cases r' with
        | error e' => exact h2.elim
        | ok b => exact hf a b h2 s1 t1 h1 hc

theorem shifts_wrapErr {R : α → α → Prop} (pre : String) {m m' : M α} (hm : Shifts k V R m m') :
    Shifts k V R (M.wrapErr pre m) (M.wrapErr pre m') := by
  intro s t hst hc
  rw [wrapErr_snd] at hc
  rw [wrapErr_snd, wrapErr_snd]
  obtain ⟨h1, h2⟩ := hm s t hst hc
  refine ⟨h1, ?_⟩
  unfold M.wrapErr
  cases hr : m s with
  | mk r s1 =>
    cases hr' : m' t with
    | mk r' t1 =>
      rw [hr, hr'] at h2
      cases r <;> cases r'
      · have : _ = _ := h2; subst this; exact rfl
      · exact h2.elim
      · exact h2.elim
      · exact h2

/-- A computation that does not look at the numbers. -/
theorem shifts_reads {m : M α} (h : ∀ s T W, m { s with topv := T, vmap := W } = ((m s).1, { (m s).2 with topv := T, vmap := W }))
    (h2 : ∀ s, (m s).2.topv = s.topv ∧ (m s).2.vmap = s.vmap) : Shifts k V Eq m m := by
  intro s t hst _
  rw [hst.eq, h s (s.topv + k) (s.vmap.map (fun p => (p.1, p.2 + k)) ++ V)]
  refine ⟨⟨by rw [(h2 s).1]; exact hst.top, by rw [(h2 s).2]; exact hst.pos, by rw [(h2 s).1, (h2 s).2]⟩, ?_⟩
  cases (m s).1 <;> exact rfl

theorem shifts_dim : Shifts k V Eq M.dim M.dim := shifts_reads (fun _ _ _ => rfl) fun _ => ⟨rfl, rfl⟩
theorem shifts_nodes : Shifts k V Eq M.nodes M.nodes := shifts_reads (fun _ _ _ => rfl) fun _ => ⟨rfl, rfl⟩
theorem shifts_lift (r : Except Err α) : Shifts k V Eq (M.lift r) (M.lift r) := shifts_reads (fun _ _ _ => rfl) fun _ => ⟨rfl, rfl⟩
theorem shifts_scopeVar (v : QVar) : Shifts k V Eq (M.scopeVar v) (M.scopeVar v) := shifts_reads (fun _ _ _ => rfl) fun _ => ⟨rfl, rfl⟩
theorem shifts_scopeConst (v : QConst) : Shifts k V Eq (M.scopeConst v) (M.scopeConst v) :=
  shifts_reads (fun _ _ _ => rfl) fun _ => ⟨rfl, rfl⟩
theorem shifts_validateM (cs : List QConst) : Shifts k V Eq (validateM cs) (validateM cs) :=
  shifts_reads (fun _ _ _ => rfl) fun _ => ⟨rfl, rfl⟩

theorem shifts_addVar (x : QVar) : Shifts k V Eq (M.addVar x) (M.addVar x) := by
  refine shifts_reads (fun s T W => ?_) fun s => ⟨(addVar_other s x).2.1, (addVar_other s x).2.2⟩
  simp only [M.addVar, Ctx.addVar]
  split
  · rfl
  · split <;> rfl

theorem shifts_setScope (i : Int) (val : List FeatV) : Shifts k V Eq (M.setScope i val) (M.setScope i val) := by
  refine shifts_reads (fun s T W => ?_) fun s => ?_ <;> simp only [M.setScope, Ctx.setScope] <;> split <;>
    first | rfl | exact ⟨rfl, rfl⟩

theorem shifts_topV : Shifts k V (fun a b => 0 ≤ a ∧ b = a + k) M.topV M.topV := by
  intro s t hst _
  obtain ⟨h1, h2, rfl⟩ := hst
  exact ⟨⟨h1, h2, rfl⟩, h1, rfl⟩

theorem shifts_updateTopV {v v' : Int} (hk : 0 ≤ k) (h : TvR k v v') : Shifts k V Eq (M.updateTopV v) (M.updateTopV v') := by
  intro s t hst _
  obtain ⟨h1, h2, rfl⟩ := hst
  refine ⟨?_, rfl⟩
  unfold TvR at h
  simp only [M.updateTopV, Ctx.updateTopV]
  split <;> split
  · exact ⟨h1, h2, rfl⟩
  · omega
  · refine ⟨h.1, h2, ?_⟩
    have hv : v = s.topv := by omega
    subst hv
    rfl
  · refine ⟨h.1, h2, ?_⟩
    have : v' = v + k := by omega
    subst this
    rfl

theorem mapGet_map_add (vm : List (VarRep × Int)) (vr : VarRep) :
    mapGet (vm.map fun p => (p.1, p.2 + k)) vr = (mapGet vm vr).map (· + k) := by
  induction vm with
  | nil => rfl
  | cons p vm ih =>
    obtain ⟨a, b⟩ := p
    simp only [List.map_cons, mapGet]
    split
    · rfl
    · exact ih

theorem mapGet_append' (a b : List (VarRep × Int)) (vr : VarRep) :
    mapGet (a ++ b) vr = (mapGet a vr).or (mapGet b vr) := by
  induction a with
  | nil => rfl
  | cons p a ih =>
    obtain ⟨x, y⟩ := p
    simp only [List.cons_append, mapGet]
    split
    · rfl
    · exact ih

theorem mapGet_mem' {vm : List (VarRep × Int)} {vr : VarRep} {n : Int} (h : mapGet vm vr = some n) : (vr, n) ∈ vm := by
  induction vm with
  | nil => cases h
  | cons p vm ih =>
    obtain ⟨x, y⟩ := p
    simp only [mapGet] at h
    split at h
    · next e => subst e; cases h; exact .head _
    · exact .tail _ (ih h)

theorem shifts_cnfVar (vr : VarRep) : Shifts k V (fun a b => b = a + k ∧ 0 < a) (M.cnfVar vr) (M.cnfVar vr) := by
  intro s t hst hc
  obtain ⟨h1, h2, rfl⟩ := hst
  simp only [M.cnfVar] at hc ⊢
  unfold Ctx.cnfVar at hc ⊢
  dsimp only at hc ⊢
  rw [mapGet_append', mapGet_map_add]
  cases hv : mapGet s.vmap vr with
  | some n => exact ⟨⟨h1, h2, rfl⟩, rfl, h2 _ (mapGet_mem' hv)⟩
  | none =>
    rw [hv] at hc
    have hV : mapGet V vr = none := by
      rcases hc vr with h | h
      · exact h
      · simp [mapGet] at h
    simp only [Option.map_none, Option.none_or, hV]
    refine ⟨⟨?_, ?_, ?_⟩, ?_, ?_⟩
    · show 0 ≤ s.topv + 1; omega
    · simp only [List.mem_cons]
      rintro p (rfl | hp)
      · simp only; omega
      · exact h2 p hp
    · simp only [List.map_cons, List.cons_append]
      rw [show s.topv + k + 1 = s.topv + 1 + k by omega]
    · show s.topv + k + 1 = s.topv + 1 + k; omega
    · show 0 < s.topv + 1; omega

theorem shifts_allocLit (l : SLit) : Shifts k V (fun a b => b = shiftLit k a) (allocLit l) (allocLit l) := by
  refine shifts_bind (shifts_cnfVar _) (fun _ => grow_pure _) fun a b h => shifts_pure ?_
  split
  · rw [shiftLit_pos h.2, h.1]
  · rw [shiftLit_neg, shiftLit_pos h.2, h.1]

theorem grow_allocLit (l : SLit) : Grow (allocLit l) := grow_bind (grow_cnfVar _) fun _ => grow_pure _

theorem grow_allocClause : ∀ c : SClause, Grow (allocClause c)
  | [] => grow_pure _
  | l :: ls => grow_bind (grow_allocLit l) fun _ => grow_bind (grow_allocClause ls) fun _ => grow_pure _

theorem grow_allocClauses : ∀ cs : List SClause, Grow (allocClauses cs)
  | [] => grow_pure _
  | c :: cs => grow_bind (grow_allocClause c) fun _ => grow_bind (grow_allocClauses cs) fun _ => grow_pure _

theorem grow_emitFrom : ∀ (st : List Step) (c : CNF), Grow (emitFrom c st)
  | [], _ => grow_pure _
  | .touch cls :: st, _ => grow_bind (grow_allocClauses cls) fun _ => grow_emitFrom st _
  | .sem cls :: st, _ => grow_bind (grow_allocClauses cls) fun _ => grow_emitFrom st _
  | .con cls :: st, _ => grow_bind (grow_allocClauses cls) fun _ => grow_emitFrom st _

theorem shifts_allocClause : ∀ c : SClause, Shifts k V (fun a b => b = a.map (shiftLit k)) (allocClause c) (allocClause c)
  | [] => shifts_pure rfl
  | l :: ls => by
    refine shifts_bind (shifts_allocLit l) (fun _ => grow_bind (grow_allocClause ls) fun _ => grow_pure _) fun a b h => ?_
    refine shifts_bind (shifts_allocClause ls) (fun _ => grow_pure _) fun a' b' h' => shifts_pure ?_
    rw [h, h']; rfl

theorem shifts_allocClauses : ∀ cs : List SClause, Shifts k V (fun a b => b = shiftClauses k a) (allocClauses cs) (allocClauses cs)
  | [] => shifts_pure rfl
  | c :: cs => by
    refine shifts_bind (shifts_allocClause c) (fun _ => grow_bind (grow_allocClauses cs) fun _ => grow_pure _) fun a b h => ?_
    refine shifts_bind (shifts_allocClauses cs) (fun _ => grow_pure _) fun a' b' h' => shifts_pure ?_
    rw [h, h']; rfl

theorem shifts_emitFrom (hk : 0 ≤ k) : ∀ (st : List Step) {c c' : CNF}, CNFR k c c' →
    Shifts k V (CNFR k) (emitFrom c st) (emitFrom c' st)
  | [], _, _, h => shifts_pure h
  | .touch cls :: st, _, _, h =>
    shifts_bind (shifts_allocClauses cls) (fun _ => grow_emitFrom st _) fun _ _ _ => shifts_emitFrom hk st h
  | .sem cls :: st, _, _, h =>
    shifts_bind (shifts_allocClauses cls) (fun _ => grow_emitFrom st _) fun a b e => shifts_emitFrom hk st (by
      rw [e]; exact h.appendSemantics hk a)
  | .con cls :: st, _, _, h =>
    shifts_bind (shifts_allocClauses cls) (fun _ => grow_emitFrom st _) fun a b e => shifts_emitFrom hk st (by
      rw [e]; exact h.appendConsistency hk a)

/-- A component whose encoding only depends on the numbers by a shift. -/
def ShC (k : Int) (V : List (VarRep × Int)) (x : M CNF) : Prop := Grow x ∧ Shifts k V (CNFR k) x x

/-- A computation that changes nothing but scopes and declared variables. -/
def ShR (k : Int) (V : List (VarRep × Int)) (x : M α) : Prop := Grow x ∧ Shifts k V Eq x x

theorem shR_dim : ShR k V M.dim := ⟨grow_readOnly readOnly_dim, shifts_dim⟩
theorem shR_nodes : ShR k V M.nodes := ⟨grow_readOnly readOnly_nodes, shifts_nodes⟩
theorem shR_lift (r : Except Err α) : ShR k V (M.lift r) := ⟨grow_readOnly (readOnly_lift r), shifts_lift r⟩
theorem shR_scopeVar (v : QVar) : ShR k V (M.scopeVar v) := ⟨grow_readOnly (readOnly_scopeVar v), shifts_scopeVar v⟩
theorem shR_scopeConst (c : QConst) : ShR k V (M.scopeConst c) := ⟨grow_readOnly (readOnly_scopeConst c), shifts_scopeConst c⟩
theorem shR_validateM (cs : List QConst) : ShR k V (validateM cs) := ⟨grow_readOnly (readOnly_validateM cs), shifts_validateM cs⟩

theorem shC_bind {x : M α} {f : α → M CNF} (hx : ShR k V x) (hf : ∀ a, ShC k V (f a)) : ShC k V (x >>= f) :=
  ⟨grow_bind hx.1 fun a => (hf a).1, shifts_bind hx.2 (fun a => (hf a).1) fun a _ e => e ▸ (hf a).2⟩

theorem shC_throw (e : Err) : ShC k V (M.throw e) := ⟨grow_throw e, shifts_throw e⟩
theorem shC_pure {c : CNF} (h : CNFR k c c) : ShC k V (pure c) := ⟨grow_pure c, shifts_pure h⟩
theorem shC_retTrue : ShC k V retTrue := shC_pure (CNFR.empty k)
theorem shC_retFalse : ShC k V retFalse := shC_pure (CNFR.false k)
theorem shC_emit (hk : 0 ≤ k) (st : List Step) : ShC k V (emit st) := ⟨grow_emitFrom st _, shifts_emitFrom hk st (CNFR.empty k)⟩
theorem shC_emitF (hk : 0 ≤ k) (cls : List SClause) (st : List Step) : ShC k V (emitF cls st) :=
  ⟨grow_bind (grow_allocClauses cls) fun _ => grow_emitFrom st _,
    shifts_bind (shifts_allocClauses cls) (fun _ => grow_emitFrom st _) fun a b e => shifts_emitFrom hk st (by
      rw [e]; exact CNFR.fromClauses hk a)⟩
theorem shC_ite {p : Prop} [Decidable p] {x y : M CNF} (hx : ShC k V x) (hy : ShC k V y) :
    ShC k V (if p then x else y) := by split <;> assumption
theorem shC_wrapErr (pre : String) {x : M CNF} (h : ShC k V x) : ShC k V (M.wrapErr pre x) :=
  ⟨grow_wrapErr pre h.1, shifts_wrapErr pre h.2⟩

end

/-- Decomposes a component built from operations that do not look at the numbers and a final evaluation of clauses. -/
macro "shifts" hk:term : tactic => `(tactic| repeat' (first
  | with_reducible exact shC_throw _
  | with_reducible exact shC_retTrue
  | with_reducible exact shC_retFalse
  | with_reducible exact shC_pure (CNFR.empty _)
  | with_reducible exact shC_emit $hk _
  | with_reducible exact shC_emitF $hk _ _
  | with_reducible exact shR_scopeVar _
  | with_reducible exact shR_scopeConst _
  | with_reducible exact shR_dim
  | with_reducible exact shR_nodes
  | with_reducible exact shR_lift _
  | with_reducible exact shR_validateM _
  | with_reducible refine shC_ite ?_ ?_
  | with_reducible refine shC_bind ?_ (fun _ => ?_)
  | split))

section
variable {k : Int} {V : List (VarRep × Int)}

theorem Atom.shC (hk : 0 ≤ k) (a : Atom) : ShC k V a.encode := by
  unfold Atom.encode
  split
  · unfold subsConstConst; shifts hk
  · unfold subsConstVar; shifts hk
  · unfold subsVarConst; shifts hk
  · unfold subsVarVar; shifts hk
  · unfold lelConstConst; shifts hk
  · unfold lelConstVar; shifts hk
  · unfold lelVarConst; shifts hk
  · unfold lelVarVar; shifts hk
  · unfold isnodeConst; shifts hk
  · unfold isnodeVar; shifts hk
  · unfold fullConst; shifts hk
  · unfold fullVar; shifts hk
  · unfold consConstConst; shifts hk
  · unfold consConstVar consConstRet; shifts hk
  · unfold consVarConst consConstRet; shifts hk
  · unfold consVarVar; shifts hk
  · unfold allcompConst; shifts hk
  · unfold allcompVar; shifts hk
  · unfold dfsConst; shifts hk
  · unfold dfsVar; shifts hk
  · unfold heprConstConst; shifts hk
  · unfold heprConstVar; shifts hk
  · unfold heprVarConst; shifts hk
  · unfold heprVarVar; shifts hk
  · unfold lehConstConstConst; shifts hk
  · unfold lehConstConstVar; shifts hk
  · unfold lehConstVarConst; shifts hk
  · unfold lehConstVarVar; shifts hk
  · unfold lehVarConstConst; shifts hk
  · unfold lehVarConstVar; shifts hk
  · unfold lehVarVarConst; shifts hk
  · unfold lehVarVarVar; shifts hk

/-! ### Operators -/

theorem grow_negStep (c : CNF) : Grow (negStep c) :=
  grow_bind (grow_of_vmap fun _ => rfl) fun _ => grow_bind (grow_updateTopV _) fun _ => grow_pure _

theorem shifts_negStep (hk : 0 ≤ k) {c c' : CNF} (h : CNFR k c c') : Shifts k V (CNFR k) (negStep c) (negStep c') := by
  unfold negStep
  refine shifts_bind shifts_topV (fun _ => grow_bind (grow_updateTopV _) fun _ => grow_pure _) fun a b e => ?_
  obtain ⟨h0, rfl⟩ := e
  have := (h.negate hk h0).1
  exact shifts_bind (shifts_updateTopV hk this.tv) (fun _ => grow_pure _) fun _ _ _ => shifts_pure this

theorem shC_andBuild (hk : 0 ≤ k) {x y : M CNF} (hx : ShC k V x) (hy : ShC k V y) : ShC k V (andBuild x y) := by
  have h1 := shC_wrapErr "Q1" hx
  have h2 := shC_wrapErr "Q2" hy
  refine ⟨grow_bind h1.1 fun _ => grow_bind h2.1 fun _ => grow_pure _, ?_⟩
  refine shifts_bind h1.2 (fun _ => grow_bind h2.1 fun _ => grow_pure _) fun a b e => ?_
  exact shifts_bind h2.2 (fun _ => grow_pure _) fun a' b' e' => shifts_pure (e.conjunction hk e')

theorem shC_orBuild (hk : 0 ≤ k) {x y : M CNF} (hx : ShC k V x) (hy : ShC k V y) : ShC k V (orBuild x y) := by
  have h1 := shC_wrapErr "Q1" hx
  have h2 := shC_wrapErr "Q2" hy
  rw [orBuild_eq]
  have g3 : ∀ c : CNF, Grow (negStep c) := grow_negStep
  have G2 : ∀ a b : CNF, Grow (negStep a >>= fun n1 => negStep b >>= fun n2 => negStep (n1.conjunction n2)) :=
    fun a b => grow_bind (g3 _) fun _ => grow_bind (g3 _) fun _ => g3 _
  refine ⟨grow_bind h1.1 fun _ => grow_bind h2.1 fun _ => G2 _ _, ?_⟩
  refine shifts_bind h1.2 (fun _ => grow_bind h2.1 fun _ => G2 _ _) fun a b e => ?_
  refine shifts_bind h2.2 (fun _ => G2 _ _) fun a' b' e' => ?_
  refine shifts_bind (shifts_negStep hk e) (fun _ => grow_bind (g3 _) fun _ => g3 _) fun n1 n1' f1 => ?_
  exact shifts_bind (shifts_negStep hk e') (fun _ => g3 _) fun n2 n2' f2 => shifts_negStep hk (f1.conjunction hk f2)

theorem shC_notBuild (hk : 0 ≤ k) {x : M CNF} (hx : ShC k V x) : ShC k V (notBuild x) := by
  rw [notBuild_eq]
  exact ⟨grow_bind hx.1 grow_negStep, shifts_bind hx.2 grow_negStep fun _ _ h => shifts_negStep hk h⟩

theorem encodeI_zero (x : QVar) (s : Ctx) (h : s.dim = 0) (v : QVar) (hv : s.scopeVar x = .ok v) : encodeI x s = (.ok {}, s) := by
  unfold encodeI
  simp only [M_bind, M.scopeVar, hv, M.cnfVarExists]
  split
  · rfl
  · simp only [M_bind, M.dim, h]
    rfl

theorem grow_encodeI (x : QVar) : Grow (encodeI x) := by
  unfold encodeI
  refine grow_bind (grow_readOnly (readOnly_scopeVar x)) fun v => grow_bind (grow_readOnly (readOnly_exists _)) fun ex => ?_
  split
  · exact grow_pure _
  · refine grow_bind (grow_readOnly readOnly_dim) fun d => ?_
    rw [show (reqAllFeats v 0 d >>= fun cls => reqOnePerFeat v 0 d (({} : CNF).appendConsistency cls)) =
      emit (instSteps d v) from funext fun s => encodeI_new d v s]
    exact grow_emitFrom _ _

theorem allocClause_names (c : SClause) : ∀ (s : Ctx), ∀ l ∈ c, mapGet (allocClause c s).2.vmap l.vr ≠ none := by
  induction c with
  | nil => exact fun _ _ h => nomatch h
  | cons a c ih =>
    intro s l hl
    have e : allocClause (a :: c) s = (allocClause c >>= fun ns => pure ((if a.pos then (s.cnfVar a.vr).1 else -(s.cnfVar a.vr).1) :: ns))
        (s.cnfVar a.vr).2 := rfl
    rw [e]
    have e2 : ∀ n : Int, ∀ u, ((allocClause c >>= fun ns => pure (n :: ns) : M Clause) u).2 = (allocClause c u).2 := by
      intro n u
      simp only [M_bind]
      cases allocClause c u with
      | mk r u' => cases r <;> rfl
    rw [e2]
    rcases List.mem_cons.1 hl with rfl | h
    · intro h0
      have h1 := grow_allocClause c _ _ h0
      unfold Ctx.cnfVar at h1
      split at h1
      · next h2 => rw [h2] at h1; cases h1
      · simp [mapGet] at h1
    · exact ih _ l h

/-- A new variable has a number after `encodeI`. -/
theorem encodeI_names {x : QVar} {s : Ctx} {v : QVar} (hv : s.scopeVar x = .ok v) (hd : s.dim ≠ 0) :
    mapGet (encodeI x s).2.vmap ⟨v, 0, BOT⟩ ≠ none := by
  intro h0
  have hn : mapGet s.vmap ⟨v, 0, BOT⟩ = none := grow_encodeI x s _ h0
  obtain ⟨n, hn'⟩ : ∃ n, s.dim = n + 1 := ⟨s.dim - 1, by omega⟩
  have e : encodeI x s = emit (instSteps s.dim v) s := by
    rw [← encodeI_new]
    unfold encodeI
    simp only [M_bind, M.scopeVar, hv, M.cnfVarExists, Ctx.cnfVarExists, hn, Option.isSome_none, Bool.false_eq_true, if_false, M.dim]
  rw [e, hn'] at h0
  have e1 : reqAllS v 0 (n + 1) = [P v (0 : Nat) ZERO, P v (0 : Nat) ONE, P v (0 : Nat) BOT] :: reqAllS v (0 + 1) n := by
    unfold reqAllS
    rw [rng_succ]; rfl
  simp only [emit, instSteps, emitFrom, e1, allocClauses] at h0
  obtain ⟨c1, s1, h1, -⟩ := allocClause_keeps [P v (0 : Nat) ZERO, P v (0 : Nat) ONE, P v (0 : Nat) BOT] s
  have hb := allocClause_names [P v (0 : Nat) ZERO, P v (0 : Nat) ONE, P v (0 : Nat) BOT] s (P v (0 : Nat) BOT) (by simp)
  rw [h1] at hb
  obtain ⟨c2, s2, h2, -⟩ := allocClauses_keeps (reqAllS v (0 + 1) n) s1
  have hb2 : mapGet s2.vmap ⟨v, 0, BOT⟩ ≠ none := by
    intro h
    have := grow_allocClauses (reqAllS v (0 + 1) n) s1 ⟨v, 0, BOT⟩
    rw [h2] at this
    exact hb (this h)
  simp only [M_bind, h1, h2] at h0
  exact hb2 (grow_emitFrom _ _ _ _ h0)

theorem shC_encodeI (hk : 0 ≤ k) (x : QVar) : ShC k V (encodeI x) := by
  refine ⟨grow_encodeI x, fun s t hst hc => ?_⟩
  cases hv : s.scopeVar x with
  | error e =>
    have hv' : t.scopeVar x = .error e := by rw [hst.eq]; exact hv
    have h1 : encodeI x s = (.error e, s) := by unfold encodeI; simp only [M_bind, M.scopeVar, hv]
    have h2 : encodeI x t = (.error e, t) := by unfold encodeI; simp only [M_bind, M.scopeVar, hv']
    rw [h1, h2]
    exact ⟨hst, rfl⟩
  | ok v =>
    have hv' : t.scopeVar x = .ok v := by rw [hst.eq]; exact hv
    by_cases hd : s.dim = 0
    · have hd' : t.dim = 0 := by rw [hst.eq]; exact hd
      rw [encodeI_zero x s hd v hv, encodeI_zero x t hd' v hv']
      exact ⟨hst, CNFR.empty k⟩
    · have hV : mapGet V ⟨v, 0, BOT⟩ = none := by
        rcases hc ⟨v, 0, BOT⟩ with h | h
        · exact h
        · exact absurd h (encodeI_names hv hd)
      have hex : t.cnfVarExists ⟨v, 0, BOT⟩ = s.cnfVarExists ⟨v, 0, BOT⟩ := by
        rw [hst.eq]
        simp only [Ctx.cnfVarExists, mapGet_append', mapGet_map_add, hV, Option.or_none, Option.isSome_map]
      have hdt : t.dim = s.dim := by rw [hst.eq]
      have hn : (reqAllFeats v 0 s.dim >>= fun cls => reqOnePerFeat v 0 s.dim (({} : CNF).appendConsistency cls)) =
        emit (instSteps s.dim v) := funext fun u => encodeI_new s.dim v u
      have h1 : ∀ u : Ctx, u.scopeVar x = .ok v → u.cnfVarExists ⟨v, 0, BOT⟩ = s.cnfVarExists ⟨v, 0, BOT⟩ → u.dim = s.dim →
          encodeI x u = if s.cnfVarExists ⟨v, 0, BOT⟩ then (.ok {}, u) else emit (instSteps s.dim v) u := by
        intro u a b c
        unfold encodeI
        rw [← hn]
        simp only [M_bind, M.scopeVar, a, M.cnfVarExists, b]
        split
        · rfl
        · simp only [M_bind, M.dim, c]
      rw [h1 s hv rfl rfl] at hc
      rw [h1 s hv rfl rfl, h1 t hv' hex hdt]
      by_cases he : s.cnfVarExists ⟨v, 0, BOT⟩ = true
      · rw [if_pos he, if_pos he]
        exact ⟨hst, CNFR.empty k⟩
      · rw [if_neg he] at hc
        rw [if_neg he, if_neg he]
        exact (shC_emit hk _).2 s t hst hc

theorem shC_withVarBuild (hk : 0 ≤ k) (v : QVar) {x : M CNF} (hx : ShC k V x) : ShC k V (withVarBuild v x) := by
  have h1 := shC_encodeI (V := V) hk v
  refine ⟨grow_bind h1.1 fun _ => grow_bind hx.1 fun _ => grow_pure _, ?_⟩
  refine shifts_bind h1.2 (fun _ => grow_bind hx.1 fun _ => grow_pure _) fun a b e => ?_
  exact shifts_bind hx.2 (fun _ => grow_pure _) fun a' b' e' => shifts_pure (e.conjunction hk e')

theorem grow_forallLoop {x : M CNF} (hx : Grow x) (nodes : List Node) : ∀ (n : Nat) (w : WalkSt) (i : Int) (c : CNF),
    Grow (forallLoop x nodes n w i c) := by
  intro n
  induction n with
  | zero => exact fun _ _ _ => grow_throw _
  | succ n ih =>
    intro w i c
    simp only [forallLoop]
    split
    · exact grow_throw _
    · exact grow_pure _
    · exact grow_bind (grow_setScope _ _) fun _ => grow_bind hx fun _ => ih _ _ _

theorem shifts_forallLoop (hk : 0 ≤ k) {x : M CNF} (hx : ShC k V x) (nodes : List Node) : ∀ (n : Nat) (w : WalkSt) (i : Int) (c c' : CNF),
    CNFR k c c' → Shifts k V (CNFR k) (forallLoop x nodes n w i c) (forallLoop x nodes n w i c') := by
  intro n
  induction n with
  | zero => exact fun _ _ _ _ _ => shifts_throw _
  | succ n ih =>
    intro w i c c' h
    simp only [forallLoop]
    split
    · exact shifts_throw _
    · exact shifts_pure h
    · refine shifts_bind (shifts_setScope _ _) (fun _ => grow_bind hx.1 fun _ => grow_forallLoop hx.1 _ _ _ _ _) fun _ _ _ => ?_
      exact shifts_bind hx.2 (fun _ => grow_forallLoop hx.1 _ _ _ _ _) fun a b e => ih _ _ _ _ (h.conjunction hk e)

theorem shC_forallBody (hk : 0 ≤ k) {x : M CNF} (hx : ShC k V x) : ShC k V (forallBody x) :=
  shC_bind shR_dim fun _ => shC_bind shR_nodes fun _ => shC_bind (shR_lift _) fun _ =>
    ⟨grow_forallLoop hx.1 _ _ _ _ _, shifts_forallLoop hk hx _ _ _ _ _ _ (CNFR.empty k)⟩

theorem popScope_vmap (s : Ctx) : s.popScope.2.vmap = s.vmap := by unfold Ctx.popScope; split <;> rfl

theorem Moved.popScope {s t : Ctx} (h : Moved k V s t) : Moved k V s.popScope.2 t.popScope.2 ∧ t.popScope.1 = s.popScope.1 := by
  obtain ⟨h1, h2, rfl⟩ := h
  unfold Ctx.popScope
  dsimp only
  by_cases h0 : s.scopes.length = 0
  · rw [if_pos h0, if_pos h0]; exact ⟨⟨h1, h2, rfl⟩, rfl⟩
  · rw [if_neg h0, if_neg h0]; exact ⟨⟨h1, h2, rfl⟩, rfl⟩

theorem OutR.joinErr {r r' : Except Err CNF} (h : OutR (CNFR k) r r') (e : Err) : OutR (CNFR k) (joinErr r e) (joinErr r' e) := by
  cases r with
  | ok c =>
    cases r' with
    | ok c' => exact rfl
    | error e' => exact h.elim
  | error e1 =>
    cases r' with
    | ok c' => exact h.elim
    | error e' =>
      have : e' = e1 := h
      subst this
      cases e' <;> cases e <;> exact rfl

theorem shC_forallBuild (hk : 0 ≤ k) (c : QConst) {x : M CNF} (hx : ShC k V x) : ShC k V (forallBuild c x) := by
  have hb := shC_forallBody hk hx
  have e2 : ∀ s, (forallBuild c x s).2 = (forallBody x (s.addScope c.id)).2.popScope.2 := by
    intro s
    unfold forallBuild
    dsimp only
    split <;> next h => rw [h]
  refine ⟨fun s vr h => ?_, fun s t hst hc => ?_⟩
  · rw [e2, popScope_vmap] at h
    exact hb.1 (s.addScope c.id) vr h
  · have hst' : Moved k V (s.addScope c.id) (t.addScope c.id) := by
      obtain ⟨h1, h2, rfl⟩ := hst
      exact ⟨h1, h2, rfl⟩
    have hc' : Clear V (forallBody x (s.addScope c.id)).2 := by
      intro vr
      have := hc vr
      rwa [e2, popScope_vmap] at this
    obtain ⟨h1, h2⟩ := hb.2 _ _ hst' hc'
    obtain ⟨h3, h4⟩ := h1.popScope
    refine ⟨by rw [e2, e2]; exact h3, ?_⟩
    unfold forallBuild
    dsimp only
    generalize (forallBody x (s.addScope c.id)).2.popScope = p at h4
    generalize (forallBody x (t.addScope c.id)).2.popScope = p' at h4
    obtain ⟨r, p⟩ := p
    obtain ⟨r', p'⟩ := p'
    have : r' = r := h4
    subst this
    cases r' with
    | ok u => exact h2
    | error e => exact h2.joinErr e

theorem Query.comp_shC (hk : 0 ≤ k) (q : Query) : ∀ x, q.comp = some x → ShC k V x := by
  induction q with
  | nil => intro x h; simp [Query.comp] at h
  | atom a => intro x h; simp only [Query.comp, Option.some.injEq] at h; subst h; exact a.shC hk
  | and q1 q2 h1 h2 =>
    intro x h; simp only [Query.comp, Option.some.injEq] at h; subst h
    refine shC_wrapErr _ ?_
    split
    · exact shC_throw _
    · exact shC_throw _
    · next a b => exact shC_andBuild hk (h1 _ (by assumption)) (h2 _ (by assumption))
  | or q1 q2 h1 h2 =>
    intro x h; simp only [Query.comp, Option.some.injEq] at h; subst h
    refine shC_wrapErr _ ?_
    split
    · exact shC_throw _
    · exact shC_throw _
    · exact shC_orBuild hk (h1 _ (by assumption)) (h2 _ (by assumption))
  | not q h1 =>
    intro x h; simp only [Query.comp, Option.some.injEq] at h; subst h
    refine shC_wrapErr _ ?_
    split
    · exact shC_throw _
    · exact shC_notBuild hk (h1 _ (by assumption))
  | withVar v q h1 =>
    intro x h; simp only [Query.comp, Option.some.injEq] at h; subst h
    refine shC_wrapErr _ ?_
    split
    · exact shC_throw _
    · exact shC_bind ⟨grow_addVar v, shifts_addVar v⟩ fun _ => shC_withVarBuild hk v (h1 _ (by assumption))
  | forallG c q h1 =>
    intro x h; simp only [Query.comp, Option.some.injEq] at h; subst h
    refine shC_wrapErr _ ?_
    split
    · exact shC_throw _
    · exact shC_forallBuild hk c (h1 _ (by assumption))

theorem apartFrom_of {t s : Ctx} (h : ∀ p ∈ t.vmap, mapGet s.vmap p.1 = none) : ApartFrom t s := by
  intro vr
  cases e : mapGet t.vmap vr with
  | none => exact .inl rfl
  | some n => exact .inr (h _ (mapGet_mem' e))

theorem unnumbered_moved (t : Ctx) : Moved t.topv t.vmap (unnumbered t) t := by
  refine ⟨Int.le_refl 0, fun _ h => (List.not_mem_nil h).elim, ?_⟩
  simp [unnumbered]

theorem shiftClauses_true {k : Int} (hk : 0 ≤ k) {cls : List Clause} (h : NonZero cls) (β : Val) :
    clausesTrue β (shiftClauses k cls) ↔ clausesTrue (fun v => β (v + k.toNat)) cls := by
  have hl : ∀ l : Int, l ≠ 0 → (litTrue β (shiftLit k l) ↔ litTrue (fun v => β (v + k.toNat)) l) := by
    intro l h0
    unfold litTrue shiftLit
    by_cases hp : 0 < l
    · rw [if_pos hp, if_pos (show l + k > 0 by omega), if_pos hp, show (l + k).natAbs = l.natAbs + k.toNat by omega]
    · rw [if_neg hp, if_pos (show l < 0 by omega), if_neg (show ¬ l - k > 0 by omega), if_neg hp,
        show (l - k).natAbs = l.natAbs + k.toNat by omega]
  constructor
  · intro H cl hcl
    obtain ⟨l', hl', hb⟩ := H _ (List.mem_map_of_mem hcl)
    obtain ⟨l, hm, rfl⟩ := List.mem_map.1 hl'
    exact ⟨l, hm, (hl l (h cl hcl l hm)).1 hb⟩
  · intro H cl hcl
    obtain ⟨cl, hm, rfl⟩ := List.mem_map.1 hcl
    obtain ⟨l, hlm, hb⟩ := H _ hm
    exact ⟨_, List.mem_map_of_mem hlm, (hl l (h cl hm l hlm)).2 hb⟩

theorem Query.shC (hk : 0 ≤ k) (q : Query) : ShC k V q.encode := by
  unfold Query.encode
  split
  · exact shC_throw _
  · next act h => exact q.comp_shC hk _ h

end

end Goexpdt

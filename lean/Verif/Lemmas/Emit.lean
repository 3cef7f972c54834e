import Verif.Lemmas.Built
import Verif.Lemmas.Ctx
import Verif.Spec.Symb
/- From clauses over triples to clauses over integers. -/
namespace Goexpdt
open Spec

/-! ### the monad -/

@[simp] theorem M_pure {α : Type} (a : α) (s : Ctx) : (pure a : M α) s = (.ok a, s) := rfl

theorem M_bind {α β : Type} (x : M α) (f : α → M β) (s : Ctx) :
    (x >>= f) s = match x s with
      | (.ok a, s') => f a s'
      | (.error e, s') => (.error e, s') := rfl

theorem M_bind_ok {α β : Type} {x : M α} {f : α → M β} {s s' : Ctx} {a : α}
    (h : x s = (.ok a, s')) : (x >>= f) s = f a s' := by rw [M_bind, h]

theorem M_bind_error {α β : Type} {x : M α} {f : α → M β} {s s' : Ctx} {e : Err}
    (h : x s = (.error e, s')) : (x >>= f) s = (.error e, s') := by rw [M_bind, h]

/-! ### truth of symbolic clauses -/

@[simp] theorem slTrue_P {ν : VarRep → Bool} {v : QVar} {i k : Int} :
    slTrue ν (P v i k) ↔ ν ⟨v, i, k⟩ = true := by simp [slTrue, P]
@[simp] theorem slTrue_N {ν : VarRep → Bool} {v : QVar} {i k : Int} :
    slTrue ν (N v i k) ↔ ν ⟨v, i, k⟩ = false := by simp [slTrue, N]
@[simp] theorem slTrue_mk {ν : VarRep → Bool} {b : Bool} {vr : VarRep} :
    slTrue ν ⟨b, vr⟩ ↔ ν vr = b := by simp [slTrue]
@[simp] theorem scTrue_nil {ν : VarRep → Bool} : ¬ scTrue ν [] := by simp [scTrue]
@[simp] theorem scTrue_cons {ν : VarRep → Bool} {l : SLit} {c : SClause} :
    scTrue ν (l :: c) ↔ slTrue ν l ∨ scTrue ν c := by simp [scTrue]
@[simp] theorem ssTrue_nil {ν : VarRep → Bool} : ssTrue ν [] := by simp [ssTrue]
@[simp] theorem ssTrue_cons {ν : VarRep → Bool} {c : SClause} {cls : List SClause} :
    ssTrue ν (c :: cls) ↔ scTrue ν c ∧ ssTrue ν cls := by simp [ssTrue]
@[simp] theorem ssTrue_append {ν : VarRep → Bool} {a b : List SClause} :
    ssTrue ν (a ++ b) ↔ ssTrue ν a ∧ ssTrue ν b := by
  simp only [ssTrue, List.forall_mem_append]
theorem ssTrue_flatMap {ν : VarRep → Bool} {α : Type} {l : List α} {f : α → List SClause} :
    ssTrue ν (l.flatMap f) ↔ ∀ a ∈ l, ssTrue ν (f a) := by
  simp only [ssTrue, List.mem_flatMap]
  exact ⟨fun h a ha c hc => h c ⟨a, ha, hc⟩, fun h c ⟨a, ha, hc⟩ => h a ha c hc⟩
theorem ssTrue_map {ν : VarRep → Bool} {α : Type} {l : List α} {f : α → SClause} :
    ssTrue ν (l.map f) ↔ ∀ a ∈ l, scTrue ν (f a) := by
  simp only [ssTrue, List.mem_map]
  exact ⟨fun h a ha => h _ ⟨a, ha, rfl⟩, fun h c ⟨a, ha, e⟩ => e ▸ h a ha⟩
theorem scTrue_map {ν : VarRep → Bool} {α : Type} {l : List α} {f : α → SLit} :
    scTrue ν (l.map f) ↔ ∃ a ∈ l, slTrue ν (f a) := by
  simp only [scTrue, List.mem_map]
  exact ⟨fun ⟨_, ⟨a, ha, e⟩, h⟩ => ⟨a, ha, e ▸ h⟩, fun ⟨a, ha, h⟩ => ⟨_, ⟨a, ha, rfl⟩, h⟩⟩

theorem mem_rng {a b i : Nat} : i ∈ rng a b ↔ a ≤ i ∧ i < b := by
  simp only [rng, List.mem_map, List.mem_range]
  constructor
  · rintro ⟨j, hj, rfl⟩; omega
  · intro h; exact ⟨i - a, by omega, by omega⟩

@[simp] theorem usedIn_nil {vr : VarRep} : ¬ usedIn [] vr := by simp [usedIn]
@[simp] theorem usedIn_cons {c : SClause} {cls : List SClause} {vr : VarRep} :
    usedIn (c :: cls) vr ↔ (∃ l ∈ c, l.vr = vr) ∨ usedIn cls vr := by simp [usedIn]
@[simp] theorem usedIn_append {a b : List SClause} {vr : VarRep} :
    usedIn (a ++ b) vr ↔ usedIn a vr ∨ usedIn b vr := by
  simp only [usedIn, List.mem_append]
  constructor
  · rintro ⟨c, h | h, r⟩
    · exact .inl ⟨c, h, r⟩
    · exact .inr ⟨c, h, r⟩
  · rintro (⟨c, h, r⟩ | ⟨c, h, r⟩)
    · exact ⟨c, .inl h, r⟩
    · exact ⟨c, .inr h, r⟩
theorem usedIn_flatMap {α : Type} {l : List α} {f : α → List SClause} {vr : VarRep} :
    usedIn (l.flatMap f) vr ↔ ∃ a ∈ l, usedIn (f a) vr := by
  simp only [usedIn, List.mem_flatMap]
  constructor
  · rintro ⟨c, ⟨a, ha, hc⟩, r⟩; exact ⟨a, ha, c, hc, r⟩
  · rintro ⟨a, ha, c, hc, r⟩; exact ⟨c, ⟨a, ha, hc⟩, r⟩
theorem usedIn_map {α : Type} {l : List α} {f : α → SClause} {vr : VarRep} :
    usedIn (l.map f) vr ↔ ∃ a ∈ l, ∃ x ∈ f a, x.vr = vr := by
  simp only [usedIn, List.mem_map]
  constructor
  · rintro ⟨c, ⟨a, ha, rfl⟩, r⟩; exact ⟨a, ha, r⟩
  · rintro ⟨a, ha, r⟩; exact ⟨_, ⟨a, ha, rfl⟩, r⟩

theorem usedIn_semOf {st : List Step} {vr : VarRep} (h : usedIn (semOf st) vr) :
    usedIn (allOf st) vr := by
  induction st with
  | nil => exact h
  | cons a st ih => cases a <;> simp_all [semOf, allOf] <;> grind

theorem usedIn_conOf {st : List Step} {vr : VarRep} (h : usedIn (conOf st) vr) :
    usedIn (allOf st) vr := by
  induction st with
  | nil => exact h
  | cons a st ih => cases a <;> simp_all [conOf, allOf] <;> grind

/-! ### images under the numbering -/

/-- A literal as an integer. -/
def imgL (s : Ctx) (l : SLit) : Int := if l.pos then num s l.vr else -num s l.vr
/-- A clause as a list of integers. -/
def imgC (s : Ctx) (c : SClause) : Clause := c.map (imgL s)
/-- Clauses as lists of integers. -/
def imgS (s : Ctx) (cls : List SClause) : List Clause := cls.map (imgC s)

theorem num_eq {s : Ctx} {vr : VarRep} {n : Int} (h : mapGet s.vmap vr = some n) : num s vr = n := by
  simp [num, h]

theorem Ext.named {s s' : Ctx} (h : Ext s s') {vr : VarRep} (hn : Named s vr) : Named s' vr := by
  obtain ⟨n, hn⟩ := hn; exact ⟨n, h.keep _ _ hn⟩

theorem Ext.num {s s' : Ctx} (h : Ext s s') {vr : VarRep} (hn : Named s vr) :
    Goexpdt.num s' vr = Goexpdt.num s vr := by
  obtain ⟨n, hn⟩ := hn; rw [num_eq hn, num_eq (h.keep _ _ hn)]

theorem Ext.imgS {s s' : Ctx} (h : Ext s s') {cls : List SClause} (hn : ∀ vr, usedIn cls vr → Named s vr) :
    Goexpdt.imgS s' cls = Goexpdt.imgS s cls := by
  apply List.map_congr_left
  intro c hc
  apply List.map_congr_left
  intro l hl
  simp only [imgL, h.num (hn l.vr ⟨c, hc, l, hl, rfl⟩)]

theorem litTrue_imgL {s : Ctx} (hv : VMok s) {β : Val} {l : SLit} (h : Named s l.vr) :
    litTrue β (imgL s l) ↔ slTrue (symVal s β) l := by
  obtain ⟨n, hn⟩ := h
  have hr := hv.range _ _ hn
  simp only [imgL, slTrue, symVal, num_eq hn]
  cases hp : l.pos
  · rw [if_neg (by simp), litTrue_neg (by omega)]
    simp only [litTrue]
    rw [if_pos (by omega)]
    simp
  · rw [if_pos rfl]
    simp only [litTrue]
    rw [if_pos (by omega)]

theorem clausesTrue_imgS {s : Ctx} (hv : VMok s) {β : Val} {cls : List SClause}
    (h : ∀ vr, usedIn cls vr → Named s vr) :
    clausesTrue β (imgS s cls) ↔ ssTrue (symVal s β) cls := by
  have key : ∀ c ∈ cls, (clauseTrue β (imgC s c) ↔ scTrue (symVal s β) c) := by
    intro c hc
    have hl : ∀ l ∈ c, (litTrue β (imgL s l) ↔ slTrue (symVal s β) l) :=
      fun l hl => litTrue_imgL hv (h l.vr ⟨c, hc, l, hl, rfl⟩)
    simp only [clauseTrue, imgC, List.mem_map, scTrue]
    constructor
    · rintro ⟨_, ⟨l, hl', rfl⟩, ht⟩; exact ⟨l, hl', (hl l hl').1 ht⟩
    · rintro ⟨l, hl', ht⟩; exact ⟨_, ⟨l, hl', rfl⟩, (hl l hl').2 ht⟩
  simp only [clausesTrue, imgS, List.mem_map, forall_exists_index, and_imp,
    forall_apply_eq_imp_iff₂, ssTrue]
  exact ⟨fun H c hc => (key c hc).1 (H c hc), fun H c hc => (key c hc).2 (H c hc)⟩

theorem nonZero_imgS {s : Ctx} (hv : VMok s) {cls : List SClause}
    (h : ∀ vr, usedIn cls vr → Named s vr) : NonZero (imgS s cls) ∧ BoundedBy s.topv (imgS s cls) := by
  have key : ∀ cl ∈ imgS s cls, ∀ k ∈ cl, k ≠ 0 ∧ (k.natAbs : Int) ≤ s.topv := by
    intro cl hcl k hk
    simp only [imgS, imgC, List.mem_map] at hcl
    obtain ⟨c, hc, rfl⟩ := hcl
    simp only [List.mem_map] at hk
    obtain ⟨l, hl, rfl⟩ := hk
    obtain ⟨n, hn⟩ := h l.vr ⟨c, hc, l, hl, rfl⟩
    have := hv.range _ _ hn
    simp only [imgL, num_eq hn]
    split <;> omega
  exact ⟨fun cl hcl k hk => (key cl hcl k hk).1, fun cl hcl k hk => (key cl hcl k hk).2⟩

/-! ### evaluation of clauses -/

/-- The part of the context other than the variable manager is unchanged. -/
structure Keeps (s s' : Ctx) : Prop where
  scopes : s'.scopes = s.scopes
  vars : s'.vars = s.vars
  dim : s'.dim = s.dim
  nodes : s'.nodes = s.nodes

theorem Keeps.refl (s : Ctx) : Keeps s s := ⟨rfl, rfl, rfl, rfl⟩
theorem Keeps.trans {a b c : Ctx} (h : Keeps a b) (h' : Keeps b c) : Keeps a c :=
  ⟨h'.scopes.trans h.scopes, h'.vars.trans h.vars, h'.dim.trans h.dim, h'.nodes.trans h.nodes⟩

/-- What the evaluation of clauses (or single literals) does to the context. -/
structure Alloc (used : VarRep → Prop) (s s' : Ctx) : Prop where
  ok : VMok s'
  ext : Ext s s'
  keeps : Keeps s s'
  named : ∀ vr, Named s' vr ↔ Named s vr ∨ used vr

theorem Alloc.refl {s : Ctx} (h : VMok s) : Alloc (fun _ => False) s s :=
  ⟨h, .refl s, .refl s, by simp⟩

theorem Alloc.trans {p q : VarRep → Prop} {a b c : Ctx} (h : Alloc p a b) (h' : Alloc q b c) :
    Alloc (fun vr => p vr ∨ q vr) a c :=
  ⟨h'.ok, h.ext.trans h'.ext, h.keeps.trans h'.keeps, fun vr => by
    rw [h'.named, h.named, or_assoc]⟩

theorem Alloc.congr {p q : VarRep → Prop} {a b : Ctx} (h : Alloc p a b) (e : ∀ vr, p vr ↔ q vr) :
    Alloc q a b := ⟨h.ok, h.ext, h.keeps, fun vr => by rw [h.named, e]⟩

theorem cnfVar_alloc {s : Ctx} (h : VMok s) (vr : VarRep) :
    Alloc (fun x => x = vr) s (s.cnfVar vr).2 ∧ num (s.cnfVar vr).2 vr = (s.cnfVar vr).1 := by
  obtain ⟨h1, h2, h3, h4, h5, h6, h7, h8⟩ := cnfVar_spec h vr
  refine ⟨⟨h1, h2, ⟨h5, h6, h7, h8⟩, fun x => ?_⟩, num_eq h3⟩
  by_cases e : x = vr
  · subst e; simp only [or_true, iff_true]; exact ⟨_, h3⟩
  · simp only [Named, h4 x e, e, or_false]

theorem allocLit_spec {s : Ctx} (h : VMok s) (l : SLit) :
    ∃ s', allocLit l s = (.ok (imgL s' l), s') ∧ Alloc (fun x => x = l.vr) s s' := by
  obtain ⟨h1, h2⟩ := cnfVar_alloc h l.vr
  refine ⟨_, ?_, h1⟩
  simp only [allocLit, imgL, h2]
  rfl

theorem allocClause_spec {s : Ctx} (h : VMok s) (c : SClause) :
    ∃ s', allocClause c s = (.ok (imgC s' c), s') ∧ Alloc (fun x => ∃ l ∈ c, l.vr = x) s s' := by
  induction c generalizing s with
  | nil => exact ⟨s, rfl, (Alloc.refl h).congr (by simp)⟩
  | cons l c ih =>
    obtain ⟨s1, e1, h1⟩ := allocLit_spec h l
    obtain ⟨s2, e2, h2⟩ := ih h1.ok
    refine ⟨s2, ?_, (h1.trans h2).congr (by simp [eq_comm])⟩
    simp only [allocClause]
    rw [M_bind_ok e1, M_bind_ok e2]
    have : imgL s1 l = imgL s2 l := by
      simp only [imgL, h2.ext.num ((h1.named l.vr).2 (.inr rfl))]
    simp [imgC, this]

theorem allocClauses_spec {s : Ctx} (h : VMok s) (cls : List SClause) :
    ∃ s', allocClauses cls s = (.ok (imgS s' cls), s') ∧ Alloc (usedIn cls) s s' := by
  induction cls generalizing s with
  | nil => exact ⟨s, rfl, (Alloc.refl h).congr (by simp)⟩
  | cons c cls ih =>
    obtain ⟨s1, e1, h1⟩ := allocClause_spec h c
    obtain ⟨s2, e2, h2⟩ := ih h1.ok
    refine ⟨s2, ?_, (h1.trans h2).congr (by simp)⟩
    simp only [allocClauses]
    rw [M_bind_ok e1, M_bind_ok e2]
    have : imgC s1 c = imgC s2 c := by
      apply List.map_congr_left
      intro l hl
      simp only [imgL, h2.ext.num ((h1.named l.vr).2 (.inr ⟨l, hl, rfl⟩))]
    simp [imgS, this]

/-- What `emitFrom` returns. -/
structure Emitted (c0 : CNF) (st : List Step) (s s' : Ctx) (c : CNF) : Prop where
  alloc : Alloc (usedIn (allOf st)) s s'
  sem : c.sClauses = c0.sClauses ++ imgS s' (semOf st)
  con : c.cClauses = c0.cClauses ++ imgS s' (conOf st)
  wf : WF c0 → WF c
  top : c0.tv ≤ s.topv → c.tv ≤ s'.topv

theorem emitFrom_spec (st : List Step) : ∀ (c0 : CNF) (s : Ctx), VMok s →
    ∃ c s', emitFrom c0 st s = (.ok c, s') ∧ Emitted c0 st s s' c := by
  induction st with
  | nil =>
    intro c0 s h
    exact ⟨c0, s, rfl, (Alloc.refl h).congr (by simp [allOf]), by simp [semOf, imgS],
      by simp [conOf, imgS], id, id⟩
  | cons a st ih =>
    intro c0 s h
    cases a with
    | touch cls =>
      obtain ⟨s1, e1, h1⟩ := allocClauses_spec h cls
      obtain ⟨c, s2, e2, h2⟩ := ih c0 s1 h1.ok
      refine ⟨c, s2, ?_, (h1.trans h2.alloc).congr (by simp [allOf]), h2.sem, h2.con, h2.wf,
        fun ht => h2.top (Int.le_trans ht h1.ext.topv_le)⟩
      simp only [emitFrom]; rw [M_bind_ok e1, e2]
    | sem cls =>
      obtain ⟨s1, e1, h1⟩ := allocClauses_spec h cls
      have hn : ∀ vr, usedIn cls vr → Named s1 vr := fun vr hu => (h1.named vr).2 (.inr hu)
      have hz := nonZero_imgS h1.ok hn
      obtain ⟨c, s2, e2, h2⟩ := ih (c0.appendSemantics (imgS s1 cls)) s1 h1.ok
      refine ⟨c, s2, ?_, (h1.trans h2.alloc).congr (by simp [allOf]), ?_, h2.con,
        fun hw => h2.wf (hw.appendSemantics hz.1), fun ht => h2.top ?_⟩
      · simp only [emitFrom]; rw [M_bind_ok e1, e2]
      · rw [h2.sem, ← h2.alloc.ext.imgS hn]; simp [CNF.appendSemantics, semOf, imgS]
      · have := maxVar_le h1.ok.topv_nonneg hz.2
        have := h1.ext.topv_le
        simp only [CNF.appendSemantics, maxInt_eq]; omega
    | con cls =>
      obtain ⟨s1, e1, h1⟩ := allocClauses_spec h cls
      have hn : ∀ vr, usedIn cls vr → Named s1 vr := fun vr hu => (h1.named vr).2 (.inr hu)
      have hz := nonZero_imgS h1.ok hn
      obtain ⟨c, s2, e2, h2⟩ := ih (c0.appendConsistency (imgS s1 cls)) s1 h1.ok
      refine ⟨c, s2, ?_, (h1.trans h2.alloc).congr (by simp [allOf]), h2.sem, ?_,
        fun hw => h2.wf (hw.appendConsistency hz.1), fun ht => h2.top ?_⟩
      · simp only [emitFrom]; rw [M_bind_ok e1, e2]
      · rw [h2.con, ← h2.alloc.ext.imgS hn]; simp [CNF.appendConsistency, conOf, imgS]
      · have := maxVar_le h1.ok.topv_nonneg hz.2
        have := h1.ext.topv_le
        simp only [CNF.appendConsistency, maxInt_eq]; omega

theorem emit_spec (st : List Step) (s : Ctx) (h : VMok s) :
    ∃ c s', emit st s = (.ok c, s') ∧ Emitted {} st s s' c := emitFrom_spec st {} s h

theorem emitF_eq (cls : List SClause) (st : List Step) : emitF cls st = emit (.sem cls :: st) := by
  have : ∀ ks, FromClauses ks = ({} : CNF).appendSemantics ks := by
    intro ks
    simp only [FromClauses, CNF.appendSemantics, List.nil_append, maxInt_eq]
    have := maxVar_nonneg ks
    congr 1
    omega
  simp only [emitF, emit, emitFrom, this]

end Goexpdt

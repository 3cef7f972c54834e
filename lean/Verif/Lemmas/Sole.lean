import Verif.Lemmas.Settle
import Verif.Lemmas.SizeAtoms
import Verif.Lemmas.RenamingCompute
namespace Goexpdt
open Spec Props
namespace Sole

/-- The valuations agree on the variables of the clauses. -/
def On (β β' : Val) (cls : List Clause) : Prop := ∀ cl ∈ cls, ∀ l ∈ cl, β l.natAbs = β' l.natAbs

variable {β β' : Val}

theorem on_nil : On β β' [] := by intro cl h; simp at h
theorem on_append {a b : List Clause} : On β β' (a ++ b) ↔ On β β' a ∧ On β β' b := by
  unfold On; simp only [List.mem_append]; grind
theorem on_cons {c : Clause} {b : List Clause} : On β β' (c :: b) ↔ (∀ l ∈ c, β l.natAbs = β' l.natAbs) ∧ On β β' b := by
  unfold On; simp

theorem clauseTrue_on {cl : Clause} (h : ∀ l ∈ cl, β l.natAbs = β' l.natAbs) : clauseTrue β cl ↔ clauseTrue β' cl :=
  clauseTrue_congr fun l hl => h l hl

theorem clausesTrue_on {cls : List Clause} (h : On β β' cls) : clausesTrue β cls ↔ clausesTrue β' cls :=
  ⟨fun k cl hcl => (clauseTrue_on (h cl hcl)).1 (k cl hcl), fun k cl hcl => (clauseTrue_on (h cl hcl)).2 (k cl hcl)⟩

/-- What both valuations make true. -/
def both (β β' : Val) : Force.Found := fun n b => β n = b ∧ β' n = b

theorem LS_both {cls : List Clause} (h : clausesTrue β cls) (h' : clausesTrue β' cls) : Force.LS (both β β') cls :=
  Force.LS_and (Force.LS_of h) (Force.LS_of h')

theorem dec_both {cls : List Clause} : Force.Dec (both β β') cls ↔ On β β' cls := by
  unfold Force.Dec On
  refine forall_congr' fun cl => forall_congr' fun _ => forall_congr' fun l => forall_congr' fun _ => ?_
  rw [Force.dec_iff]
  unfold both
  cases β l.natAbs <;> cases β' l.natAbs <;> simp

theorem negate_det {c : CNF} (o : Option Int) (h0 : 0 ≤ c.tv) (hnz : NonZero c.sClauses)
    (h : clausesTrue β (c.negate o).cClauses) (h' : clausesTrue β' (c.negate o).cClauses) (hon : On β β' (c.sClauses ++ c.cClauses)) :
    On β β' ((c.negate o).sClauses ++ (c.negate o).cClauses) :=
  dec_both.1 (Force.negate o h0 hnz (LS_both h h') (dec_both.2 hon))

/-! ### triples of clauses -/

/-- All triples of the clauses are in `D`. -/
def Cov (D : VarRep → Prop) (cls : List SClause) : Prop := ∀ vr, usedIn cls vr → D vr

/-- The triples of an instance are in `D`. -/
def InstIn (d : Nat) (D : VarRep → Prop) (n : QVar) : Prop := ∀ i : Nat, i < d → ∀ v ∈ featVals, D ⟨n, (i : Nat), v⟩

/-- The triples of an auxiliary variable are in `D`. -/
def AuxIn (d : Nat) (nodes : List Node) (D : VarRep → Prop) (a : QVar) (ρ : Role) : Prop := ∀ i v, ρ.range d nodes i v → D ⟨a, i, v⟩

section
variable {D : VarRep → Prop} {d : Nat} {n n1 n2 cv r q : QVar}

theorem cov_nil : Cov D [] := by intro vr h; simp at h
theorem cov_cons {c : SClause} {cls : List SClause} : Cov D (c :: cls) ↔ (∀ l ∈ c, D l.vr) ∧ Cov D cls := by
  unfold Cov
  simp only [usedIn_cons]
  constructor
  · intro h; exact ⟨fun l hl => h _ (.inl ⟨l, hl, rfl⟩), fun vr hv => h vr (.inr hv)⟩
  · rintro ⟨h1, h2⟩ vr (⟨l, hl, rfl⟩ | h)
    · exact h1 l hl
    · exact h2 vr h
theorem cov_append {a b : List SClause} : Cov D (a ++ b) ↔ Cov D a ∧ Cov D b := by
  unfold Cov
  simp only [usedIn_append]
  exact ⟨fun h => ⟨fun vr hv => h vr (.inl hv), fun vr hv => h vr (.inr hv)⟩,
    fun ⟨h1, h2⟩ vr hv => hv.elim (h1 vr) (h2 vr)⟩
theorem cov_flatMap {α : Type} {l : List α} {f : α → List SClause} : Cov D (l.flatMap f) ↔ ∀ a ∈ l, Cov D (f a) := by
  unfold Cov
  simp only [usedIn_flatMap]
  exact ⟨fun h a ha vr hv => h vr ⟨a, ha, hv⟩, fun h vr ⟨a, ha, hv⟩ => h a ha vr hv⟩
theorem cov_map {α : Type} {l : List α} {f : α → SClause} : Cov D (l.map f) ↔ ∀ a ∈ l, ∀ x ∈ f a, D x.vr := by
  unfold Cov
  simp only [usedIn_map]
  exact ⟨fun h a ha x hx => h _ ⟨a, ha, x, hx, rfl⟩, fun h vr ⟨a, ha, x, hx, e⟩ => e ▸ h a ha x hx⟩

/-- From the triples of an instance only. -/
theorem cov_inst {I : QVar → Prop} {cls : List SClause} (h : UsedOk d I (fun _ => False) cls) (hI : ∀ n, I n → InstIn d D n) : Cov D cls := by
  intro vr hvr
  rcases h vr hvr with ⟨h1, ⟨i, hi, h2⟩, h3⟩ | h
  · have := hI _ h1 i hi _ h3
    rw [← h2] at this
    exact this
  · exact h.elim

def CountIn (d : Nat) (D : VarRep → Prop) (cv : QVar) : Prop := ∀ i v : Int, 0 ≤ i → i < d → 0 ≤ v → v ≤ d → D ⟨cv, i, v⟩

def MarkIn (k : Nat) (D : VarRep → Prop) (r : QVar) : Prop := ∀ v : Int, 0 ≤ v → v < k → D ⟨r, 0, v⟩

theorem countTooBig_cov (h : CountIn d D cv) : Cov D (countTooBig d cv) := by
  simp only [countTooBig, cov_flatMap, cov_map, List.mem_singleton, forall_eq, mem_rng]
  intro i hi j hj
  exact h _ _ (by omega) (by omega) (by omega) (by omega)

theorem varBotCount_cov (hd : 0 < d) (hn : InstIn d D n) (h : CountIn d D cv) : Cov D (varBotCountClauses d n cv) := by
  have a0 : D ⟨n, 0, BOT⟩ := hn 0 hd _ bot_mem
  simp only [varBotCountClauses, cov_append, cov_flatMap, mem_rng]
  refine ⟨⟨?_, countTooBig_cov h⟩, ?_⟩
  · intro i hi
    have a : D ⟨n, (i : Nat), BOT⟩ := hn i hi.2 _ bot_mem
    simp only [botCountStep, cov_flatMap, cov_append, cov_cons, cov_nil, mem_rng, N, P, List.mem_cons, List.not_mem_nil, or_false,
      forall_eq_or_imp, forall_eq, and_true]
    refine ⟨?_, ?_⟩
    · simp only [a, true_and, and_true]
      refine ⟨?_, ⟨?_, ?_⟩, ?_, ?_⟩ <;> (apply h <;> omega)
    · intro j hj
      simp only [a, and_true]
      refine ⟨⟨?_, ?_⟩, ⟨?_, ?_⟩, ⟨?_, ?_⟩, ?_, ?_⟩ <;> (apply h <;> omega)
  · simp only [cov_cons, cov_nil, N, P, List.mem_cons, List.not_mem_nil, or_false, forall_eq_or_imp, forall_eq, and_true, a0, true_and]
    refine ⟨?_, ?_, ?_, ?_⟩ <;> (apply h <;> omega)

theorem hdClauses_cov (hd : 0 < d) {eq : Nat → VarRep} (he : ∀ i < d, D (eq i)) (h : CountIn d D cv) : Cov D (hdClauses d cv eq) := by
  have a0 := he 0 hd
  simp only [hdClauses, cov_append, cov_flatMap, mem_rng]
  refine ⟨⟨?_, ?_⟩, countTooBig_cov h⟩
  · simp only [cov_cons, cov_nil, N, P, List.mem_cons, List.not_mem_nil, or_false, forall_eq_or_imp, forall_eq, and_true, a0, true_and]
    refine ⟨?_, ?_, ?_, ?_⟩ <;> (apply h <;> omega)
  · intro i hi
    have a := he i hi.2
    simp only [cov_cons, cov_nil, N, P, List.mem_cons, List.not_mem_nil, or_false,
      forall_eq_or_imp, forall_eq, and_true, a, true_and]
    refine ⟨?_, ?_⟩
    · refine ⟨⟨?_, ?_⟩, ?_, ?_, ?_⟩ <;> (apply h <;> omega)
    · intro j hj
      refine ⟨⟨?_, ?_⟩, ⟨?_, ?_⟩, ⟨?_, ?_⟩, ?_, ?_⟩ <;> (apply h <;> omega)

theorem last_cov (hd : 0 < d) (h : CountIn d D cv) {l u : Nat} (hu : u ≤ d + 1) :
    Cov D ((rng l u).map fun (i : Nat) => [N cv (d - 1) i]) := by
  simp only [cov_map, List.mem_singleton, forall_eq, mem_rng]
  intro i hi
  exact h _ _ (by omega) (by omega) (by omega) (by omega)

theorem hdLeSem_cov (hd : 0 < d) {a b : QVar} (ha : CountIn d D a) (hb : CountIn d D b) : Cov D (hdLeSem d a b) := by
  simp only [hdLeSem, cov_flatMap, cov_map, mem_rng, List.mem_cons, List.not_mem_nil, or_false, forall_eq_or_imp, forall_eq]
  intro i hi j hj
  exact ⟨ha _ _ (by omega) (by omega) (by omega) (by omega), hb _ _ (by omega) (by omega) (by omega) (by omega)⟩

theorem fullVarEqual_cov (h1 : InstIn d D n1) (h2 : InstIn d D n2) (h : ∀ i : Nat, i < d → D ⟨q, (i : Nat), 0⟩) :
    Cov D (fullVarEqualClauses d n1 n2 q) := by
  simp only [fullVarEqualClauses, cov_flatMap, mem_rng]
  intro i hi
  have a := h1 i hi.2 _ one_mem
  have b := h2 i hi.2 _ one_mem
  have c := h1 i hi.2 _ zero_mem
  have e := h2 i hi.2 _ zero_mem
  have f := h i hi.2
  simp [cov_cons, cov_nil, a, b, c, e, f, N, P]

section
variable {pref : List Int} (hp : ∀ i ∈ pref, 0 ≤ i ∧ i < d)
include hp

theorem pref_in (hn : InstIn d D n) {k : Nat} (hk : k < pref.length) : D ⟨n, prefAt pref k, BOT⟩ := by
  obtain ⟨h1, h2⟩ := prefAt_lt hp hk
  rw [h2]
  exact hn _ h1 _ bot_mem

theorem heprConstVar_cov {c : QConst} (hn : InstIn d D n) (h : MarkIn pref.length D r) (hne : pref ≠ []) :
    Cov D (heprConstVarCon c n r pref) := by
  have hpos := List.length_pos_iff.2 hne
  have a0 := pref_in hp hn (k := pref.length - 1) (by omega)
  simp only [heprConstVarCon, cov_append, cov_flatMap, mem_downFrom]
  refine ⟨?_, ?_⟩
  · have := h (pref.length - 1) (by omega) (by omega)
    split <;> simp [cov_cons, cov_nil, a0, N, P, this]
  · intro k hk
    have a := pref_in hp hn (k := k) (by omega)
    have b := h k (by omega) (by omega)
    have c := h (k + 1) (by omega) (by omega)
    split <;> simp [cov_cons, cov_nil, a, b, c, N, P]

theorem heprVarConst_cov {c : QConst} (hn : InstIn d D n) (h : MarkIn pref.length D r) (hne : pref ≠ []) :
    Cov D (heprVarConstCon n c r pref) := by
  have hpos := List.length_pos_iff.2 hne
  have a0 := pref_in hp hn (k := pref.length - 1) (by omega)
  simp only [heprVarConstCon, cov_append, cov_flatMap, mem_downFrom]
  refine ⟨?_, ?_⟩
  · have := h (pref.length - 1) (by omega) (by omega)
    split <;> simp [cov_cons, cov_nil, a0, N, P, this]
  · intro k hk
    have a := pref_in hp hn (k := k) (by omega)
    have b := h k (by omega) (by omega)
    have c := h (k + 1) (by omega) (by omega)
    split <;> simp [cov_cons, cov_nil, a, b, c, N, P]

theorem heprVarVar_cov (h1 : InstIn d D n1) (h2 : InstIn d D n2) (h : MarkIn pref.length D r) (hne : pref ≠ []) :
    Cov D (heprVarVarCon n1 n2 r pref) := by
  have hpos := List.length_pos_iff.2 hne
  have a0 := pref_in hp h1 (k := pref.length - 1) (by omega)
  have a1 := pref_in hp h2 (k := pref.length - 1) (by omega)
  simp only [heprVarVarCon, cov_append, cov_flatMap, mem_downFrom]
  refine ⟨?_, ?_⟩
  · have := h (pref.length - 1) (by omega) (by omega)
    simp [cov_cons, cov_nil, a0, a1, N, P, this]
  · intro k hk
    have a := pref_in hp h1 (k := k) (by omega)
    have a' := pref_in hp h2 (k := k) (by omega)
    have b := h k (by omega) (by omega)
    have c := h (k + 1) (by omega) (by omega)
    simp [cov_cons, cov_nil, a, a', b, c, N, P]

end

variable {nodes : List Node}

theorem node_in (hv : Valid d nodes) (hn : InstIn d D n) (h : MarkIn nodes.length D r) {i : Nat} (hi : i < nodes.length)
    (hl : (nodeAt nodes i).isLeaf = false) :
    (∀ v ∈ featVals, D ⟨n, (nodeAt nodes i).feat, v⟩) ∧ D ⟨r, 0, (nodeAt nodes i).zChild⟩ ∧ D ⟨r, 0, (nodeAt nodes i).oChild⟩ := by
  obtain ⟨f, z, o, hf, hz, ho, h1, h2, h3⟩ := valid_node hv hi hl
  rw [h1, h2, h3]
  exact ⟨hn f hf, h _ (by omega) (by omega), h _ (by omega) (by omega)⟩

theorem isnodeProp_cov (hv : Valid d nodes) (hn : InstIn d D n) (h : MarkIn nodes.length D r) : Cov D (isnodeProp nodes n r) := by
  simp only [isnodeProp, cov_flatMap, mem_rng]
  intro i hi
  cases hl : (nodeAt nodes i).isLeaf
  · obtain ⟨a, b, c⟩ := node_in hv hn h hi.2 hl
    have a0 := a _ zero_mem
    have a1 := a _ one_mem
    have e := h i (by omega) (by omega)
    simp [cov_cons, cov_nil, a0, a1, b, c, e, N, P]
  · simp [cov_nil]

theorem isnodeFcl_cov (hn : InstIn d D n) (h : MarkIn nodes.length D r) : Cov D (isnodeFcl d nodes n r) := by
  simp only [isnodeFcl, cov_map, mem_rng, List.mem_cons, forall_eq_or_imp, List.mem_map, List.mem_filter]
  intro f hf
  refine ⟨hn f hf.2 _ bot_mem, ?_⟩
  rintro x ⟨i, hi, rfl⟩
  exact h i (by omega) (by omega)

theorem isnodeFclOrder_cov (hn : InstIn d D n) (h : MarkIn nodes.length D r) : Cov D (isnodeFclOrder d nodes n r) := by
  simp only [isnodeFclOrder, cov_append, cov_map, mem_rng, List.mem_singleton, forall_eq, List.mem_filter]
  exact ⟨fun f hf => hn f hf.2 _ bot_mem, fun i hi => h i (by omega) (by omega)⟩

theorem cov_allOf_map {l : List Nat} {f : Nat → Step} : Cov D (allOf (l.map f)) ↔ ∀ i ∈ l, Cov D (allOf [f i]) := by
  induction l with
  | nil => simp [allOf, cov_nil]
  | cons i l ih =>
    simp only [List.map_cons, List.mem_cons, forall_eq_or_imp, ← ih]
    cases f i <;> simp [allOf, cov_append]

theorem allcomp_cov (hv : Valid d nodes) (hne : nodes ≠ []) (hn : InstIn d D n) (h : MarkIn nodes.length D r) (leaf : Bool) :
    Cov D (allOf (.con [[P r 0 0]] :: (rng 0 nodes.length).map (allcompStep leaf nodes n r))) := by
  have hpos := List.length_pos_iff.2 hne
  simp only [allOf, List.cons_append, List.nil_append, cov_cons, List.mem_singleton, forall_eq]
  refine ⟨h 0 (by omega) (by omega), ?_⟩
  rw [cov_allOf_map]
  intro i hi
  rw [mem_rng] at hi
  cases hl : (nodeAt nodes i).isLeaf
  · obtain ⟨a, b, c⟩ := node_in hv hn h hi.2 hl
    have a0 := a _ zero_mem
    have a1 := a _ one_mem
    have a2 := a _ bot_mem
    have e := h i (by omega) (by omega)
    simp [allcompStep, hl, allOf, cov_cons, cov_nil, a0, a1, a2, b, c, e, N, P]
  · simp only [allcompStep, hl, if_true, allOf, List.append_nil]
    have e := h i (by omega) (by omega)
    split
    · simp [cov_cons, cov_nil, e, N]
    · exact cov_nil

end
/-! ### predicates -/

/-- If the values of the triples in `D` have been found, unit propagation finds those of all variables of the CNF, also in later contexts. -/
def Occ (D : VarRep → Prop) (s : Ctx) (c : CNF) : Prop :=
  ∀ s'', VMok s'' → Ext s s'' → ∀ L, Force.LS L c.cClauses →
    (∀ vr, D vr → Named s'' vr → Force.known s'' L vr true ∨ Force.known s'' L vr false) → Force.Dec L (c.sClauses ++ c.cClauses)

def Gives (W : World) (Γ : List QVar) (stack : List Scope) (act : M CNF) (R : Ctx → CNF → Prop) : Prop :=
  ∀ s, Pre W Γ s → s.scopes = stack → ∀ c s', act s = (.ok c, s') → R s' c

section
variable {W : World} {T : DTree} {Γ : List QVar} {stack : List Scope} {R : Ctx → CNF → Prop} {D : VarRep → Prop} {s s' : Ctx} {c c1 c2 : CNF}

theorem Occ.ext (h : Occ D s c) (he : Ext s s') : Occ D s' c := fun s'' hv he' => h s'' hv (he.trans he')

theorem Occ.conj (h1 : Occ D s c1) (h2 : Occ D s c2) : Occ D s (c1.conjunction c2) := by
  intro s'' hv he L hc ha
  simp only [CNF.conjunction, CNF.appendSemantics, CNF.appendConsistency, Force.LS_append] at hc
  obtain ⟨a1, a2⟩ := Force.dec_append.1 (h1 s'' hv he L hc.1 ha)
  obtain ⟨b1, b2⟩ := Force.dec_append.1 (h2 s'' hv he L hc.2 ha)
  simp only [CNF.conjunction, CNF.appendSemantics, CNF.appendConsistency, Force.dec_append]
  exact ⟨⟨a1, b1⟩, a2, b2⟩

theorem Occ.neg (h : Occ D s c) (hw : WF c) (tv : Option Int) : Occ D s (c.negate tv) := by
  intro s'' hv he L hc ha
  obtain ⟨new, h1, -⟩ := negate_spec c tv hw.tv_nonneg hw.sNonZero
  refine Force.negate tv hw.tv_nonneg hw.sNonZero hc (h s'' hv he L ?_ ha)
  rw [h1, Force.LS_append] at hc
  exact hc.1

theorem Occ.of_emit {st : List Step} (hc : Cov D (allOf st)) (hv : VMok s) (e : Goexpdt.emit st s = (.ok c, s')) : Occ D s' c := by
  obtain ⟨c', s1, e', h⟩ := emit_spec st s hv
  rw [e] at e'
  obtain ⟨e1, rfl⟩ := Prod.mk.inj e'
  obtain rfl := Except.ok.inj e1
  intro s'' _ he L _ ha
  have hn : ∀ vr, usedIn (allOf st) vr → Named s' vr := fun vr hvr => (h.alloc.named vr).2 (.inr hvr)
  have key : ∀ cls, (∀ vr, usedIn cls vr → usedIn (allOf st) vr) → Force.Dec L (imgS s' cls) := by
    intro cls hcls cl hcl l hl
    obtain ⟨sc, hsc, rfl⟩ := List.mem_map.1 hcl
    obtain ⟨sl, hsl, rfl⟩ := List.mem_map.1 hl
    have hu := hcls sl.vr ⟨sc, hsc, sl, hsl, rfl⟩
    have := ha sl.vr (hc _ hu) (he.named (hn _ hu))
    unfold Force.known at this
    rw [he.num (hn _ hu)] at this
    rw [Force.dec_iff]
    unfold imgL
    split
    · exact this
    · rw [Int.natAbs_neg]; exact this
  rw [h.sem, h.con]
  simp only [Force.dec_append]
  exact ⟨⟨Force.dec_nil, key _ fun vr hvr => usedIn_semOf hvr⟩, Force.dec_nil, key _ fun vr hvr => usedIn_conOf hvr⟩

theorem Occ.plain (h1 : ∀ cl ∈ c.sClauses, cl = []) (h2 : c.cClauses = []) : Occ D s c := by
  intro s'' _ _ L _ _
  rw [h2, List.append_nil]
  intro cl hcl l hl
  rw [h1 cl hcl] at hl
  simp at hl

theorem Gives.step {α : Type} {x : M α} {f : α → M CNF} (h : ∀ s, Pre W Γ s → s.scopes = stack → (x s).2 = s)
    (hc : ∀ a, (∃ s, Pre W Γ s ∧ s.scopes = stack ∧ x s = (.ok a, s)) → Gives W Γ stack (f a) R) : Gives W Γ stack (x >>= f) R := by
  intro s hp hs c s' e
  obtain ⟨a, s1, e1, e2⟩ := M_bind_inv e
  have := h s hp hs
  rw [e1] at this
  simp only at this
  subst this
  exact hc a ⟨_, hp, hs, e1⟩ _ hp hs _ _ e2

theorem Gives.dim {f : Nat → M CNF} (hc : Gives W Γ stack (f W.dim) R) : Gives W Γ stack (M.dim >>= f) R :=
  .step (fun _ _ _ => rfl) fun a ⟨s, hp, _, e⟩ => by
    have : (Except.ok s.dim, s) = (.ok a, s) := e
    simp only [Prod.mk.injEq, Except.ok.injEq, and_true] at this
    rw [← this, hp.dim]; exact hc

theorem Gives.nodes {f : List Node → M CNF} (hc : Gives W Γ stack (f W.nodes) R) : Gives W Γ stack (M.nodes >>= f) R :=
  .step (fun _ _ _ => rfl) fun a ⟨s, hp, _, e⟩ => by
    have : (Except.ok s.nodes, s) = (.ok a, s) := e
    simp only [Prod.mk.injEq, Except.ok.injEq, and_true] at this
    rw [← this, hp.nodes]; exact hc

theorem Gives.lift {α : Type} {r : Except Err α} {f : α → M CNF} (hc : ∀ a, r = .ok a → Gives W Γ stack (f a) R) :
    Gives W Γ stack (M.lift r >>= f) R :=
  .step (fun _ _ _ => rfl) fun a ⟨s, _, _, e⟩ => hc a (Prod.mk.inj (show (r, s) = (.ok a, s) from e)).1

theorem Gives.scopeVar {x : QVar} (hx : x ∈ Γ) {f : QVar → M CNF} (hc : Gives W Γ stack (f (W.nm stack x)) R) :
    Gives W Γ stack (M.scopeVar x >>= f) R :=
  .step (fun _ _ _ => rfl) fun a ⟨s, hp, hs, e⟩ => by
    have : (s.scopeVar x, s) = (.ok a, s) := e
    rw [hp.scopeVar hx, hs] at this
    simp only [Prod.mk.injEq, Except.ok.injEq, and_true] at this
    rw [← this]; exact hc

theorem Gives.scopeConst (c : QConst) {f : QConst → M CNF} (hc : Gives W Γ stack (f { id := c.id, val := resolve stack c }) R) :
    Gives W Γ stack (M.scopeConst c >>= f) R :=
  .step (fun _ _ _ => rfl) fun a ⟨s, hp, hs, e⟩ => by
    have : (Except.ok (s.scopeConst c).1, s) = (.ok a, s) := e
    rw [scopeConst_eq, hs] at this
    simp only [Prod.mk.injEq, Except.ok.injEq, and_true] at this
    rw [← this]; exact hc

theorem Gives.validate {cs : List QConst} {f : Unit → M CNF} (hc : Gives W Γ stack (f ()) R) : Gives W Γ stack (validateM cs >>= f) R :=
  .step (fun _ _ _ => rfl) fun _ _ => hc

theorem Gives.throw {e : Err} : Gives W Γ stack (M.throw e) R := by
  intro s _ _ c s' h
  have : (Except.error e, s) = (.ok c, s') := h
  simp at this

theorem Gives.emit {st : List Step} (hc : Cov D (allOf st)) : Gives W Γ stack (Goexpdt.emit st) (Occ D) :=
  fun _ hp _ _ _ e => .of_emit hc hp.vm e

theorem Gives.emitF {cls : List SClause} (hc : Cov D cls) : Gives W Γ stack (Goexpdt.emitF cls []) (Occ D) := by
  rw [emitF_eq]
  exact .emit (by simpa [allOf] using hc)

theorem Gives.true : Gives W Γ stack retTrue (Occ D) := by
  intro s _ _ c s' e
  have : (Except.ok ({} : CNF), s) = (.ok c, s') := e
  obtain ⟨h, rfl⟩ := Prod.mk.inj this
  obtain rfl := Except.ok.inj h
  exact .plain (by simp) rfl

theorem Gives.false : Gives W Γ stack retFalse (Occ D) := by
  intro s _ _ c s' e
  have : (Except.ok FalseCNF, s) = (.ok c, s') := e
  obtain ⟨h, rfl⟩ := Prod.mk.inj this
  obtain rfl := Except.ok.inj h
  exact .plain (by simp [FalseCNF, NegClauses]) rfl

theorem Gives.empty : Gives W Γ stack (pure {}) (Occ D) := Gives.true

theorem Gives.ite {p : Prop} [Decidable p] {x y : M CNF} (h1 : p → Gives W Γ stack x R) (h2 : ¬ p → Gives W Γ stack y R) :
    Gives W Γ stack (if p then x else y) R := by
  split
  · next h => exact h1 h
  · next h => exact h2 h

variable (hI : ∀ x ∈ Γ, InstIn W.dim D (W.nm stack x))
include hI

theorem inst_of : ∀ n, instNames W Γ stack n → InstIn W.dim D n := by rintro n ⟨x, hx, rfl⟩; exact hI x hx

omit hI in
theorem count_of_bots {a n : QVar} (h : AuxIn W.dim W.nodes D a (.bots n)) : CountIn W.dim D a :=
  fun i v h1 h2 h3 h4 => h i v ⟨h1, h2, h3, h4⟩

omit hI in
theorem count_of_dist {a : QVar} {t1 t2 : RTerm} (h : AuxIn W.dim W.nodes D a (.dist t1 t2)) : CountIn W.dim D a :=
  fun i v h1 h2 h3 h4 => h i v ⟨h1, h2, h3, h4⟩

omit hI in
theorem same_in {a n1 n2 : QVar} (h : AuxIn W.dim W.nodes D a (.same n1 n2)) (i : Nat) (hi : i < W.dim) : D ⟨a, (i : Nat), 0⟩ :=
  h _ _ ⟨by omega, by omega, rfl⟩

theorem subs_occ {t1 t2 : Term} (h : (Atom.subs t1 t2).Loose W.dim W.nodes T Γ stack) : Gives W Γ stack (Atom.subs t1 t2).encode (Occ D) := by
  have hx := h.vars
  cases t1 with
  | const c1 =>
    have h1 := good_res (h.consts c1 (by simp [Spec.Atom.consts, Spec.Term.consts]))
    cases t2 with
    | const c2 => exact .scopeConst c1 (.scopeConst c2 (.validate (.lift fun _ _ => .ite (fun _ => .true) fun _ => .false)))
    | var x =>
      have hx := hx x (by simp [Atom.vars, Term.vars])
      exact .scopeVar hx (.scopeConst c1 (.validate (.dim (.emitF (cov_inst (subsConstVar_used h1 (instNames_of hx)) (inst_of hI))))))
  | var x =>
    have hx1 := hx x (by simp [Atom.vars, Term.vars])
    cases t2 with
    | const c2 => exact .scopeVar hx1 (.scopeConst c2 (.validate (.dim (.emitF (cov_inst (subsVarConst_used (instNames_of hx1)) (inst_of hI))))))
    | var y =>
      have hy := hx y (by simp [Atom.vars, Term.vars])
      exact .scopeVar hx1 (.scopeVar hy (.dim (.emitF (cov_inst (subsVarVar_used (instNames_of hx1) (instNames_of hy)) (inst_of hI)))))

theorem lel_occ {t1 t2 : Term} {g : Option (QVar → QVar)} (h : (Atom.lel t1 t2 g).Loose W.dim W.nodes T Γ stack)
    (hA : ∀ u ∈ (Atom.lel t1 t2 g).emits W.dim W.depth stack, AuxIn W.dim W.nodes D u.1 u.2) :
    Gives W Γ stack (Atom.lel t1 t2 g).encode (Occ D) := by
  have hx := h.vars
  have hg := h.gens
  have hd := W.dim_pos
  cases t1 with
  | const c1 =>
    cases t2 with
    | const c2 => cases g <;> exact .scopeConst c1 (.scopeConst c2 (.validate (.ite (fun _ => .false) fun _ => .true)))
    | var x =>
      cases g with
      | none => simp [Spec.Atom.nilGen, Spec.Term.isVar] at hg
      | some g =>
      have hx := hx x (by simp [Atom.vars, Term.vars])
      have ha := count_of_bots (hA (g (W.nm stack x), .bots (W.nm stack x)) (by simp [Atom.emits, Atom.uses, Term.res, World.nm]))
      refine .scopeVar hx (.scopeConst c1 (.validate (.dim (.emit ?_))))
      simp only [allOf, List.append_nil, cov_append]
      exact ⟨varBotCount_cov hd (hI x hx) ha, last_cov hd ha (Nat.le_refl _)⟩
  | var x =>
    have hx1 := hx x (by simp [Atom.vars, Term.vars])
    cases g with
    | none => simp [Spec.Atom.nilGen, Spec.Term.isVar] at hg
    | some g =>
    have ha := count_of_bots (hA (g (W.nm stack x), .bots (W.nm stack x)) (by simp [Atom.emits, Atom.uses, Term.res, World.nm]))
    cases t2 with
    | const c2 =>
      have h2 := good_res (h.consts c2 (by simp [Spec.Atom.consts, Spec.Term.consts]))
      refine .scopeVar hx1 (.scopeConst c2 (.validate (.dim (.emit ?_))))
      simp only [allOf, List.append_nil, cov_append]
      refine ⟨varBotCount_cov hd (hI x hx1) ha, last_cov hd ha ?_⟩
      have := botCount_le ({ id := c2.id, val := resolve stack c2 } : QConst)
      have := h2.1
      omega
    | var y =>
      have hy := hx y (by simp [Atom.vars, Term.vars])
      have hb := count_of_bots (hA (g (W.nm stack y), .bots (W.nm stack y)) (by simp [Atom.emits, Atom.uses, Term.res, World.nm]))
      refine .scopeVar hx1 (.scopeVar hy (.dim (.emit ?_)))
      simp only [allOf, List.append_nil, cov_append]
      refine ⟨varBotCount_cov hd (hI x hx1) ha, varBotCount_cov hd (hI y hy) hb, ?_⟩
      simp only [lelVarVarSem, cov_map, mem_rng, List.mem_cons, forall_eq_or_imp, List.mem_map]
      refine fun i hi => ⟨ha _ _ (by omega) (by omega) (by omega) (by omega), ?_⟩
      rintro l ⟨j, hj, rfl⟩
      exact hb _ _ (by omega) (by omega) (by omega) (by omega)

theorem isnode_occ {t : Term} {g : Option (QVar → QVar)} (h : (Atom.isnode t g).Loose W.dim W.nodes T Γ stack)
    (hA : ∀ u ∈ (Atom.isnode t g).emits W.dim W.depth stack, AuxIn W.dim W.nodes D u.1 u.2) :
    Gives W Γ stack (Atom.isnode t g).encode (Occ D) := by
  obtain ⟨hT, hC⟩ := h.tree rfl
  have hv := tree_valid hT hC
  have hpos := List.length_pos_iff.2 (tree_ne hT)
  cases t with
  | const c =>
    cases g <;> exact .scopeConst c (.validate (.dim (.nodes (.ite (fun _ => .throw) fun _ => .lift fun _ _ => .ite (fun _ => .true) fun _ => .false))))
  | var x =>
    have hx := h.vars x (by simp [Atom.vars, Term.vars])
    cases g with
    | none => exact .throw
    | some g =>
    have ha : MarkIn W.nodes.length D (g (W.nm stack x)) := fun v h1 h2 =>
      hA (g (W.nm stack x), .onPath (W.nm stack x)) (by simp [Atom.emits, Atom.uses, World.nm]) 0 v ⟨rfl, h1, h2⟩
    refine .nodes (.ite (fun _ => .throw) fun _ => .dim (.scopeVar hx (.ite (fun _ => .throw) fun _ => .emit ?_)))
    simp only [allOf, List.append_nil, cov_append, cov_cons, List.mem_singleton, forall_eq]
    exact ⟨isnodeFclOrder_cov (hI x hx) ha, isnodeFcl_cov (hI x hx) ha, ⟨ha 0 (by omega) (by omega), cov_nil⟩, isnodeProp_cov hv (hI x hx) ha⟩

theorem full_occ {t : Term} (h : (Atom.full t).Loose W.dim W.nodes T Γ stack) : Gives W Γ stack (Atom.full t).encode (Occ D) := by
  cases t with
  | const c => exact .scopeConst c (.validate (.ite (fun _ => .true) fun _ => .false))
  | var x =>
    have hx := h.vars x (by simp [Atom.vars, Term.vars])
    exact .scopeVar hx (.dim (.emitF (cov_inst (varFull_used (instNames_of hx)) (inst_of hI))))

theorem cons_occ {t1 t2 : Term} (h : (Atom.cons t1 t2).Loose W.dim W.nodes T Γ stack) : Gives W Γ stack (Atom.cons t1 t2).encode (Occ D) := by
  have hx := h.vars
  cases t1 with
  | const c1 =>
    cases t2 with
    | const c2 => exact .scopeConst c1 (.scopeConst c2 (.validate (.dim (.lift fun _ _ => .ite (fun _ => .true) fun _ => .false))))
    | var x =>
      have hx := hx x (by simp [Atom.vars, Term.vars])
      exact .scopeConst c1 (.scopeVar hx (.validate (.dim (.ite (fun _ => .true) fun _ =>
        .emitF (cov_inst (consConst_used (instNames_of hx)) (inst_of hI))))))
  | var x =>
    have hx1 := hx x (by simp [Atom.vars, Term.vars])
    cases t2 with
    | const c2 =>
      exact .scopeVar hx1 (.scopeConst c2 (.validate (.dim (.ite (fun _ => .true) fun _ =>
        .emitF (cov_inst (consConst_used (instNames_of hx1)) (inst_of hI))))))
    | var y =>
      have hy := hx y (by simp [Atom.vars, Term.vars])
      exact .scopeVar hx1 (.scopeVar hy (.dim (.emitF (cov_inst (consVarVar_used (instNames_of hx1) (instNames_of hy)) (inst_of hI)))))

theorem allcomp_occ {t : Term} {b : Bool} {g : Option (QVar → QVar)} (h : (Atom.allcomp t b g).Loose W.dim W.nodes T Γ stack)
    (hA : ∀ u ∈ (Atom.allcomp t b g).emits W.dim W.depth stack, AuxIn W.dim W.nodes D u.1 u.2) :
    Gives W Γ stack (Atom.allcomp t b g).encode (Occ D) := by
  obtain ⟨hT, hC⟩ := h.tree rfl
  have hv := tree_valid hT hC
  cases t with
  | const c =>
    cases g <;> exact .scopeConst c (.validate (.dim (.nodes (.ite (fun _ => .throw) fun _ => .lift fun _ _ => .ite (fun _ => .true) fun _ => .false))))
  | var x =>
    have hx := h.vars x (by simp [Atom.vars, Term.vars])
    cases g with
    | none => exact .throw
    | some g =>
    have ha : MarkIn W.nodes.length D (g (W.nm stack x)) := fun v h1 h2 =>
      hA (g (W.nm stack x), .reach (W.nm stack x)) (by simp [Atom.emits, Atom.uses, World.nm]) 0 v ⟨rfl, h1, h2⟩
    exact .nodes (.ite (fun _ => .throw) fun _ => .scopeVar hx (.emit (allcomp_cov hv (tree_ne hT) (hI x hx) ha b)))

theorem dfs_occ {t : Term} (h : (Atom.dfs t).Loose W.dim W.nodes T Γ stack) : Gives W Γ stack (Atom.dfs t).encode (Occ D) := by
  obtain ⟨hT, hC⟩ := h.tree rfl
  obtain ⟨ps, ns, e1, e2, e3, -, -⟩ := leafs_tree hT hC
  cases t with
  | const c =>
    exact .scopeConst c (.validate (.dim (.nodes (.lift fun _ _ => .ite (fun _ => .throw) fun _ => .lift fun _ _ =>
      .ite (fun _ => .true) fun _ => .false))))
  | var x =>
    have hx := h.vars x (by simp [Atom.vars, Term.vars])
    refine .scopeVar hx (.dim (.nodes (.lift fun a ha => .ite (fun _ => .throw) fun _ => .lift fun cls hcls => .emitF ?_)))
    rw [e1] at ha
    obtain rfl := Except.ok.inj ha
    obtain ⟨cls', f1, f2, -⟩ := dfsClauses_good (d := W.dim) (W.nm stack x)
      (ps.flatMap fun p => ns.map fun n => (p, n)) (by
        intro l hl
        simp only [List.mem_flatMap, List.mem_map] at hl
        obtain ⟨p, hp, n, hn, rfl⟩ := hl
        exact ⟨e3 p (by simp [hp]), e3 n (by simp [hn])⟩)
    rw [f1] at hcls
    obtain rfl := Except.ok.inj hcls
    intro vr hvr
    obtain ⟨i, hi, rfl⟩ := f2 vr hvr
    exact hI x hx i hi _ bot_mem

theorem hepr_occ {t1 t2 : Term} {p : List Int} {g : Option (QVar → QVar → QVar → QVar)}
    (h : (Atom.hepr t1 t2 p g).Loose W.dim W.nodes T Γ stack)
    (hA : ∀ u ∈ (Atom.hepr t1 t2 p g).emits W.dim W.depth stack, AuxIn W.dim W.nodes D u.1 u.2) :
    Gives W Γ stack (Atom.hepr t1 t2 p g).encode (Occ D) := by
  have hx := h.vars
  have hg := h.gens
  have hpr := h.pref.1
  have hpne := h.prefne
  have mark : ∀ {a : QVar} {r1 r2 : RTerm}, AuxIn W.dim W.nodes D a (.rank (p.map Int.toNat) r1 r2) → MarkIn p.length D a :=
    fun ha v h1 h2 => ha 0 v ⟨rfl, h1, by simpa using h2⟩
  have h0 : ∀ {a : QVar}, p ≠ [] → MarkIn p.length D a → D ⟨a, 0, 0⟩ := fun hne ha => ha 0 (by omega) (by
    have := List.length_pos_iff.2 hne; omega)
  cases t1 with
  | const c1 =>
    cases t2 with
    | const c2 =>
      cases g <;> exact .dim (.lift fun _ _ => .scopeConst c1 (.scopeConst c2 (.validate (.lift fun _ _ =>
        .ite (fun _ => .true) fun _ => .ite (fun _ => .true) fun _ => .false))))
    | var x =>
      cases g with
      | none => simp [Spec.Atom.nilGen, Spec.Term.isVar] at hg
      | some g =>
      have hne : p ≠ [] := hpne
      have hx := hx x (by simp [Atom.vars, Term.vars])
      have ha := mark (hA (g (prefVar p) (keyOf stack c1) (W.nm stack x),
          .rank (p.map Int.toNat) (.vals (resolve stack c1)) (.name (W.nm stack x))) (by
        simp [Atom.emits, Atom.uses, Term.key, Term.res, World.nm]))
      refine .dim (.lift fun _ _ => .scopeConst c1 (.scopeVar hx (.validate (.lift fun _ _ => .ite (fun _ => .throw) fun _ => .emit ?_))))
      simp only [allOf, List.append_nil, cov_append, cov_cons, List.mem_singleton, forall_eq]
      exact ⟨heprConstVar_cov hpr (hI x hx) ha hne, h0 hne ha, cov_nil⟩
  | var x =>
    have hx1 := hx x (by simp [Atom.vars, Term.vars])
    cases g with
    | none => simp [Spec.Atom.nilGen, Spec.Term.isVar] at hg
    | some g =>
    have hne : p ≠ [] := hpne
    cases t2 with
    | const c2 =>
      have ha := mark (hA (g (prefVar p) (W.nm stack x) (keyOf stack c2),
          .rank (p.map Int.toNat) (.name (W.nm stack x)) (.vals (resolve stack c2))) (by
        simp [Atom.emits, Atom.uses, Term.key, Term.res, World.nm]))
      refine .dim (.lift fun _ _ => .scopeVar hx1 (.scopeConst c2 (.validate (.lift fun _ _ => .ite (fun _ => .throw) fun _ => .emit ?_))))
      simp only [allOf, List.append_nil, cov_append, cov_cons, List.mem_singleton, forall_eq]
      exact ⟨heprVarConst_cov hpr (hI x hx1) ha hne, h0 hne ha, cov_nil⟩
    | var y =>
      have hy := hx y (by simp [Atom.vars, Term.vars])
      have ha := mark (hA (g (prefVar p) (W.nm stack x) (W.nm stack y),
          .rank (p.map Int.toNat) (.name (W.nm stack x)) (.name (W.nm stack y))) (by
        simp [Atom.emits, Atom.uses, Term.key, Term.res, World.nm]))
      refine .dim (.lift fun _ _ => .scopeVar hx1 (.scopeVar hy (.ite (fun _ => .throw) fun _ => .emit ?_)))
      simp only [allOf, List.append_nil, cov_append, cov_cons, List.mem_singleton, forall_eq]
      exact ⟨heprVarVar_cov hpr (hI x hx1) (hI y hy) ha hne, h0 hne ha, cov_nil⟩

theorem hdVC_cov {cst : QConst} (hc : GoodVals W.dim cst.val) {x cv : QVar} (hx : x ∈ Γ) (h : CountIn W.dim D cv) :
    Cov D (hdClauses W.dim cv fun i => ⟨W.nm stack x, i, cst.at i⟩) :=
  hdClauses_cov W.dim_pos (fun i hi => hI x hx i hi _ (at_mem hc hi)) h

theorem varFull_cov {x : QVar} (hx : x ∈ Γ) : Cov D (varFullClauses W.dim (W.nm stack x)) :=
  cov_inst (varFull_used (instNames_of hx)) (inst_of hI)

theorem leh_occ {t1 t2 t3 : Term} {g eg : Option (QVar → QVar → QVar)} (h : (Atom.leh t1 t2 t3 g eg).Loose W.dim W.nodes T Γ stack)
    (hA : ∀ u ∈ (Atom.leh t1 t2 t3 g eg).emits W.dim W.depth stack, AuxIn W.dim W.nodes D u.1 u.2) :
    Gives W Γ stack (Atom.leh t1 t2 t3 g eg).encode (Occ D) := by
  have hc := h.consts
  have hx := h.vars
  have hg := h.gens
  have hd := W.dim_pos
  have hA' : (∀ c ∈ Spec.Atom.consts (Atom.leh t1 t2 t3 g eg), Total stack c = true) → (Atom.leh t1 t2 t3 g eg).blind W.dim stack = false →
      ∀ u ∈ (Atom.leh t1 t2 t3 g eg).uses W.depth stack, AuxIn W.dim W.nodes D u.1 u.2 := by
    intro a b u hu
    refine hA u ?_
    simp only [Atom.emits]
    rw [if_pos (by simp [b]; exact a)]
    exact hu
  cases t1 with
  | const c1 =>
    have m1 : c1 ∈ Spec.Atom.consts (Atom.leh (.const c1) t2 t3 g eg) := by simp [Spec.Atom.consts, Spec.Term.consts]
    have h1 := good_res (hc c1 m1)
    cases t2 with
    | const c2 =>
      have m2 : c2 ∈ Spec.Atom.consts (Atom.leh (.const c1) (.const c2) t3 g eg) := by simp [Spec.Atom.consts, Spec.Term.consts]
      have h2 := good_res (hc c2 m2)
      cases t3 with
      | const c3 =>
        have h3 := good_res (hc c3 (by simp [Spec.Atom.consts, Spec.Term.consts]))
        refine .scopeConst c1 (.scopeConst c2 (.scopeConst c3 (.validate (.ite (fun _ => .false) fun _ => ?_))))
        rw [hdCC_ok h1 h2, hdCC_ok h1 h3]
        exact .ite (fun _ => .false) fun _ => .true
      | var x =>
        have hx1 := hx x (by simp [Atom.vars, Term.vars])
        cases g with
        | none => simp [Spec.Atom.nilGen, Spec.Term.isVar] at hg
        | some g =>
        refine .dim (.scopeConst c1 (.scopeConst c2 (.scopeVar hx1 (.validate (.ite (fun _ => .false) fun hf => .lift fun k hk =>
          .ite (fun _ => .true) fun h0 => ?_)))))
        rw [hdCC_ok h1 h2] at hk
        obtain rfl := Except.ok.inj hk
        simp only [← total_iff, Bool.or_eq_true, Bool.not_eq_true', not_or, Bool.not_eq_false] at hf
        have ha := count_of_dist (hA' (by simp [Spec.Atom.consts, Spec.Term.consts, hf]) (by
            simp only [Atom.blind, hf, Bool.and_self, Bool.true_and, beq_eq_false_iff_ne]; exact h0)
          (g (W.nm stack x) (keyOf stack c1), .dist (.name (W.nm stack x)) (.vals (resolve stack c1))) (by simp [Atom.uses, World.nm]))
        refine .lift fun hd' hk => ?_
        rw [hdVC_ok hd h1] at hk
        obtain rfl := Except.ok.inj hk
        rw [emitF_eq]
        refine .emit ?_
        simp only [allOf, List.append_nil, cov_append]
        have := hamming_le W.dim (den (resolve stack c1)) (den (resolve stack c2))
        exact ⟨varFull_cov hI hx1, hdVC_cov hI h1 hx1 ha, last_cov hd ha (by omega)⟩
    | var x =>
      have hx1 := hx x (by simp [Atom.vars, Term.vars])
      cases g with
      | none => simp [Spec.Atom.nilGen, Spec.Term.isVar] at hg
      | some g =>
      cases t3 with
      | const c3 =>
        have m3 : c3 ∈ Spec.Atom.consts (Atom.leh (.const c1) (.var x) (.const c3) (some g) eg) := by
          simp [Spec.Atom.consts, Spec.Term.consts]
        have h3 := good_res (hc c3 m3)
        refine .dim (.scopeConst c1 (.scopeConst c3 (.scopeVar hx1 (.validate (.ite (fun _ => .false) fun hf => .lift fun k hk =>
          .ite (fun _ => .true) fun h0 => ?_)))))
        rw [hdCC_ok h1 h3] at hk
        obtain rfl := Except.ok.inj hk
        simp only [← total_iff, Bool.or_eq_true, Bool.not_eq_true', not_or, Bool.not_eq_false] at hf
        have ha := count_of_dist (hA' (by simp [Spec.Atom.consts, Spec.Term.consts, hf]) (by
            simp only [Atom.blind, hf, Bool.and_self, Bool.true_and, beq_eq_false_iff_ne]; exact h0)
          (g (W.nm stack x) (keyOf stack c3), .dist (.name (W.nm stack x)) (.vals (resolve stack c1))) (by simp [Atom.uses, World.nm]))
        refine .lift fun hd' hk => ?_
        rw [hdVC_ok hd h1] at hk
        obtain rfl := Except.ok.inj hk
        rw [emitF_eq]
        refine .emit ?_
        simp only [allOf, List.append_nil, cov_append]
        exact ⟨varFull_cov hI hx1, hdVC_cov hI h1 hx1 ha, last_cov hd ha (by omega)⟩
      | var y =>
        have hy := hx y (by simp [Atom.vars, Term.vars])
        refine .dim (.scopeConst c1 (.scopeVar hx1 (.scopeVar hy (.validate (.ite (fun _ => .false) fun hf => .lift fun k hk =>
          .lift fun k' hk' => ?_)))))
        rw [hdVC_ok hd h1] at hk hk'
        obtain rfl := Except.ok.inj hk
        obtain rfl := Except.ok.inj hk'
        simp only [← total_iff, Bool.not_eq_true', Bool.not_eq_false] at hf
        have hu := hA' (by simp [Spec.Atom.consts, Spec.Term.consts, hf]) rfl
        have ha := count_of_dist (hu (g (W.nm stack x) (keyOf stack c1), .dist (.name (W.nm stack x)) (.vals (resolve stack c1)))
          (by simp [Atom.uses, World.nm]))
        have hb := count_of_dist (hu (g (W.nm stack y) (keyOf stack c1), .dist (.name (W.nm stack y)) (.vals (resolve stack c1)))
          (by simp [Atom.uses, World.nm]))
        refine .emit ?_
        simp only [allOf, List.append_nil, cov_append]
        exact ⟨varFull_cov hI hx1, varFull_cov hI hy, hdVC_cov hI h1 hx1 ha, hdVC_cov hI h1 hy hb, hdLeSem_cov hd ha hb⟩
  | var x =>
    have hx1 := hx x (by simp [Atom.vars, Term.vars])
    cases g with
    | none => simp [Spec.Atom.nilGen, Spec.Term.isVar] at hg
    | some g =>
    cases t2 with
    | const c2 =>
      have m2 : c2 ∈ Spec.Atom.consts (Atom.leh (.var x) (.const c2) t3 (some g) eg) := by simp [Spec.Atom.consts, Spec.Term.consts]
      have h2 := good_res (hc c2 m2)
      cases t3 with
      | const c3 =>
        have m3 : c3 ∈ Spec.Atom.consts (Atom.leh (.var x) (.const c2) (.const c3) (some g) eg) := by
          simp [Spec.Atom.consts, Spec.Term.consts]
        have h3 := good_res (hc c3 m3)
        refine .dim (.scopeConst c2 (.scopeConst c3 (.scopeVar hx1 (.validate (.ite (fun _ => .false) fun hf => .lift fun k hk =>
          .lift fun k' hk' => ?_)))))
        rw [hdVC_ok hd h2] at hk
        rw [hdVC_ok hd h3] at hk'
        obtain rfl := Except.ok.inj hk
        obtain rfl := Except.ok.inj hk'
        simp only [← total_iff, Bool.or_eq_true, Bool.not_eq_true', not_or, Bool.not_eq_false] at hf
        have hu := hA' (by simp [Spec.Atom.consts, Spec.Term.consts, hf]) rfl
        have ha := count_of_dist (hu (g (W.nm stack x) (keyOf stack c2), .dist (.name (W.nm stack x)) (.vals (resolve stack c2)))
          (by simp [Atom.uses, World.nm]))
        have hb := count_of_dist (hu (g (W.nm stack x) (keyOf stack c3), .dist (.name (W.nm stack x)) (.vals (resolve stack c3)))
          (by simp [Atom.uses, World.nm]))
        rw [emitF_eq]
        refine .emit ?_
        simp only [allOf, List.append_nil, cov_append]
        exact ⟨varFull_cov hI hx1, hdVC_cov hI h2 hx1 ha, hdVC_cov hI h3 hx1 hb, hdLeSem_cov hd ha hb⟩
      | var y =>
        have hy := hx y (by simp [Atom.vars, Term.vars])
        cases eg with
        | none => simp [Spec.Atom.nilGen, Spec.Term.isVar] at hg
        | some eg =>
        refine .dim (.scopeConst c2 (.scopeVar hx1 (.scopeVar hy (.validate (.ite (fun _ => .false) fun hf => .lift fun k hk => ?_)))))
        rw [hdVC_ok hd h2] at hk
        obtain rfl := Except.ok.inj hk
        simp only [← total_iff, Bool.not_eq_true', Bool.not_eq_false] at hf
        have hu := hA' (by simp [Spec.Atom.consts, Spec.Term.consts, hf]) rfl
        have ha := count_of_dist (hu (g (W.nm stack x) (keyOf stack c2), .dist (.name (W.nm stack x)) (.vals (resolve stack c2)))
          (by simp [Atom.uses, World.nm, Term.res, Term.key]))
        have hb := count_of_dist (hu (g (W.nm stack x) (W.nm stack y), .dist (.name (W.nm stack x)) (.name (W.nm stack y)))
          (by simp [Atom.uses, World.nm, Term.res, Term.key]))
        have hq := same_in (hu (eg (W.nm stack x) (W.nm stack y), .same (W.nm stack x) (W.nm stack y))
          (by simp [Atom.uses, World.nm, Term.res, Term.key]))
        refine .emit ?_
        simp only [allOf, List.append_nil, cov_append]
        exact ⟨varFull_cov hI hx1, varFull_cov hI hy, hdVC_cov hI h2 hx1 ha, fullVarEqual_cov (hI x hx1) (hI y hy) hq,
          hdClauses_cov hd hq hb, hdVC_cov hI h2 hx1 ha, hdLeSem_cov hd ha hb⟩
    | var y =>
      have hy := hx y (by simp [Atom.vars, Term.vars])
      cases eg with
      | none => cases t3 <;> simp [Spec.Atom.nilGen, Spec.Term.isVar] at hg
      | some eg =>
      cases t3 with
      | const c3 =>
        have m3 : c3 ∈ Spec.Atom.consts (Atom.leh (.var x) (.var y) (.const c3) (some g) (some eg)) := by
          simp [Spec.Atom.consts, Spec.Term.consts]
        have h3 := good_res (hc c3 m3)
        refine .dim (.scopeVar hx1 (.scopeVar hy (.scopeConst c3 (.validate (.ite (fun _ => .false) fun hf => .lift fun k hk => ?_)))))
        rw [hdVC_ok hd h3] at hk
        obtain rfl := Except.ok.inj hk
        simp only [← total_iff, Bool.not_eq_true', Bool.not_eq_false] at hf
        have hu := hA' (by simp [Spec.Atom.consts, Spec.Term.consts, hf]) rfl
        have ha := count_of_dist (hu (g (W.nm stack x) (keyOf stack c3), .dist (.name (W.nm stack x)) (.vals (resolve stack c3)))
          (by simp [Atom.uses, World.nm, Term.res, Term.key]))
        have hb := count_of_dist (hu (g (W.nm stack x) (W.nm stack y), .dist (.name (W.nm stack x)) (.name (W.nm stack y)))
          (by simp [Atom.uses, World.nm, Term.res, Term.key]))
        have hq := same_in (hu (eg (W.nm stack x) (W.nm stack y), .same (W.nm stack x) (W.nm stack y))
          (by simp [Atom.uses, World.nm, Term.res, Term.key]))
        refine .emit ?_
        simp only [allOf, List.append_nil, cov_append]
        exact ⟨varFull_cov hI hx1, varFull_cov hI hy, hdVC_cov hI h3 hx1 ha, fullVarEqual_cov (hI x hx1) (hI y hy) hq,
          hdClauses_cov hd hq hb, hdVC_cov hI h3 hx1 ha, hdLeSem_cov hd hb ha⟩
      | var z =>
        have hz := hx z (by simp [Atom.vars, Term.vars])
        have hu := hA' (by simp [Spec.Atom.consts, Spec.Term.consts]) rfl
        have ha := count_of_dist (hu (g (W.nm stack x) (W.nm stack y), .dist (.name (W.nm stack x)) (.name (W.nm stack y)))
          (by simp [Atom.uses, World.nm, Term.res, Term.key]))
        have hb := count_of_dist (hu (g (W.nm stack x) (W.nm stack z), .dist (.name (W.nm stack x)) (.name (W.nm stack z)))
          (by simp [Atom.uses, World.nm, Term.res, Term.key]))
        have hq := same_in (hu (eg (W.nm stack x) (W.nm stack y), .same (W.nm stack x) (W.nm stack y))
          (by simp [Atom.uses, World.nm, Term.res, Term.key]))
        have hr := same_in (hu (eg (W.nm stack x) (W.nm stack z), .same (W.nm stack x) (W.nm stack z))
          (by simp [Atom.uses, World.nm, Term.res, Term.key]))
        refine .dim (.scopeVar hx1 (.scopeVar hy (.scopeVar hz (.emit ?_))))
        simp only [allOf, List.append_nil, cov_append]
        exact ⟨varFull_cov hI hx1, varFull_cov hI hy, varFull_cov hI hz, fullVarEqual_cov (hI x hx1) (hI y hy) hq,
          fullVarEqual_cov (hI x hx1) (hI z hz) hr, hdClauses_cov hd hq ha, hdClauses_cov hd hr hb, hdLeSem_cov hd ha hb⟩

theorem atom_occ {a : Atom} (h : a.Loose W.dim W.nodes T Γ stack)
    (hA : ∀ u ∈ a.emits W.dim W.depth stack, AuxIn W.dim W.nodes D u.1 u.2) : Gives W Γ stack a.encode (Occ D) := by
  cases a with
  | subs t1 t2 => exact subs_occ hI h
  | lel t1 t2 g => exact lel_occ hI h hA
  | isnode t g => exact isnode_occ hI h hA
  | full t => exact full_occ hI h
  | cons t1 t2 => exact cons_occ hI h
  | allcomp t b g => exact allcomp_occ hI h hA
  | dfs t => exact dfs_occ hI h
  | hepr t1 t2 p g => exact hepr_occ hI h hA
  | leh t1 t2 t3 g e => exact leh_occ hI h hA

end

/-! ### queries -/

/-- Like `Gives`, for components that declare variables of any depth. -/
def Finds (D : VarRep → Prop) (W : World) (Γ : List QVar) (lv : Levels) (stack : List Scope) (act : M CNF) : Prop :=
  ∀ s, Pre (W.at lv) [] s → Lv s lv → Has W s Γ → s.scopes = stack → ∀ c s', act s = (.ok c, s') → Occ D s' c

section
variable {W : World} {T : DTree} {Γ Γ' Γ1 Γ2 : List QVar} {stack : List Scope} {lv lv' lv1 lv2 : Levels} {P P1 P2 : Asg → Prop}
  {q q1 q2 : M CNF} {D : VarRep → Prop}

theorem Finds.wrapErr (pre : String) (h : Finds D W Γ lv stack q) : Finds D W Γ lv stack (M.wrapErr pre q) :=
  fun s hp hl hh hs c s' e => h s hp hl hh hs c s' (wrapErr_inv e)

theorem Finds.atom {a : Atom} (hf : a.Loose W.dim W.nodes T a.vars stack)
    (hΓ : ∀ x ∈ a.vars, x ++ suffix (stack.take (lv x)) ∈ Γ) (hI : ∀ n ∈ Γ, InstIn W.dim D n)
    (hA : ∀ u ∈ a.emits W.dim lv stack, AuxIn W.dim W.nodes D u.1 u.2) : Finds D W Γ lv stack a.encode := by
  intro s hp hl hh hs
  subst hs
  have hpre : Pre (W.at lv) a.vars s := by
    refine { hp with free := fun x hx => ?_ }
    obtain ⟨h1, h2⟩ := hh _ (hΓ x hx)
    refine ⟨?_, ?_, h1, h2⟩
    · cases h : mapGet s.vars x with
      | none => left; have := hl x; rw [h] at this; exact this.symm
      | some k => right; rw [hl.some h]; rfl
    · have := hl x
      cases h : mapGet s.vars x with
      | none => rw [h] at this; simp only [World.at]; simp at this; omega
      | some k => have h1 := hp.scope x k h; rw [hl.some h] at h1; exact h1.2
  exact atom_occ (W := W.at lv) (T := T) (fun x hx => hI _ (hΓ x hx)) hf hA s hpre rfl

theorem Finds.encAnd (h1 : Shows W Γ Γ1 lv lv1 stack q1 P1) (h2 : Shows W Γ1 Γ2 lv1 lv2 stack q2 P2)
    (b1 : Finds D W Γ lv stack q1) (b2 : Finds D W Γ1 lv1 stack q2) : Finds D W Γ lv stack (encAnd (some q1) (some q2)) := by
  refine Finds.wrapErr _ fun s hp hl hh hs c s' e => ?_
  obtain ⟨c1, s1, e1, p1, l1, g1⟩ := h1 s hp hl hh hs
  have hs1 := p1.moves.scopes.trans hs
  obtain ⟨c2, s2, e2, p2, l2, g2⟩ := h2 s1 p1.moves.pre l1 g1 hs1
  have e' : andBuild q1 q2 s = (.ok (c1.conjunction c2), s2) := by
    unfold andBuild
    rw [M_bind_ok (wrapErr_ok e1), M_bind_ok (wrapErr_ok e2)]; rfl
  obtain ⟨rfl, rfl⟩ := ok_inj e' e
  exact ((b1 s hp hl hh hs _ _ e1).ext p2.moves.ext).conj (b2 s1 p1.moves.pre l1 g1 hs1 _ _ e2)

theorem Finds.encNot (h : Shows W Γ Γ' lv lv' stack q P) (b : Finds D W Γ lv stack q) : Finds D W Γ lv stack (encNot (some q)) := by
  refine Finds.wrapErr _ fun s hp hl hh hs c s' e => ?_
  obtain ⟨c1, s1, e1, p1, l1, g1⟩ := h s hp hl hh hs
  have e' : notBuild q s = (.ok (c1.negate (some s1.topv)), (s1.updateTopV (c1.negate (some s1.topv)).tv).2) := by
    simp only [notBuild_eq]
    rw [M_bind_ok e1, negStep_eq]
  obtain ⟨rfl, rfl⟩ := ok_inj e' e
  exact ((b s hp hl hh hs _ _ e1).neg p1.wf _).ext (p1.moves.pre.updateTopV _).1.ext

theorem Finds.encOr (h1 : Shows W Γ Γ1 lv lv1 stack q1 P1) (h2 : Shows W Γ1 Γ2 lv1 lv2 stack q2 P2)
    (b1 : Finds D W Γ lv stack q1) (b2 : Finds D W Γ1 lv1 stack q2) : Finds D W Γ lv stack (encOr (some q1) (some q2)) := by
  refine Finds.wrapErr _ fun s hp hl hh hs c s' e => ?_
  obtain ⟨c1, s1, e1, p1, l1, g1⟩ := h1 s hp hl hh hs
  have hs1 := p1.moves.scopes.trans hs
  obtain ⟨c2, s2, e2, p2, l2, g2⟩ := h2 s1 p1.moves.pre l1 g1 hs1
  have f1 := (b1 s hp hl hh hs _ _ e1).ext p2.moves.ext
  have f2 := b2 s1 p1.moves.pre l1 g1 hs1 _ _ e2
  generalize hN1 : c1.negate (some s2.topv) = N1 at *
  have hx1 := (p2.moves.pre.updateTopV N1.tv).1
  generalize hS1 : (s2.updateTopV N1.tv).2 = S1 at *
  generalize hN2 : c2.negate (some S1.topv) = N2 at *
  have hx2 := (hx1.pre.updateTopV N2.tv).1
  generalize hS2 : (S1.updateTopV N2.tv).2 = S2 at *
  have hw1 : WF N1 := hN1 ▸ p1.wf.negate _
  have hw2 : WF N2 := hN2 ▸ p2.wf.negate _
  have e' : orBuild q1 q2 s = (.ok ((N1.conjunction N2).negate (some S2.topv)),
      (S2.updateTopV ((N1.conjunction N2).negate (some S2.topv)).tv).2) := by
    simp only [orBuild_eq]
    rw [M_bind_ok (wrapErr_ok e1), M_bind_ok (wrapErr_ok e2), M_bind_ok (negStep_eq c1 s2), hN1, hS1,
      M_bind_ok (negStep_eq c2 _), hN2, hS2, negStep_eq]
  obtain ⟨rfl, rfl⟩ := ok_inj e' e
  have g1 : Occ D S1 N1 := by rw [← hN1]; exact (f1.neg p1.wf _).ext hx1.ext
  have g2 : Occ D S2 N2 := by rw [← hN2]; exact (f2.neg p2.wf _).ext (hx1.ext.trans hx2.ext)
  exact (((g1.ext hx2.ext).conj g2).neg (hw1.conjunction hw2) _).ext (hx2.pre.updateTopV _).1.ext

theorem Finds.encWithVar {x n : QVar} (hn : n = x ++ suffix (stack.take ((lv.declare stack.length x) x)))
    (hin : W.isInst n) (hmay : W.may n) (hI : InstIn W.dim D n)
    (h : Shows W (n :: Γ) Γ' (lv.declare stack.length x) lv' stack q P)
    (b : Finds D W (n :: Γ) (lv.declare stack.length x) stack q) : Finds D W Γ lv stack (encWithVar x (some q)) := by
  refine Finds.wrapErr _ fun s hp hl hh hs c s' e => ?_
  subst hs
  obtain ⟨a, b', c'⟩ := addVar_other s x
  have hx := addVar_varsExt x hp.fn
  have hso := hx.scopeOk hp.scope a.scopes
  have hl1 := addVar_lv (x := x) hp.scope hl
  have hp1 : Pre (W.at (lv.declare s.scopes.length x)) [] (s.addVar x) := by
    refine ⟨hp.vm.of_vm_eq b' c', a.dim.trans hp.dim, a.nodes.trans hp.nodes, hso, hx.fn, ?_, fun y k hk => hl1.some hk, by simp⟩
    intro n hn hd i hi v hv
    exact (Named.of_vm c').2 (hp.inst n hn ((Named.of_vm c').1 hd) i hi v hv)
  have hv : (s.addVar x).scopeVar x = .ok n := by rw [scopeVar_eq hso, a.scopes, hl1 x, hn]
  obtain ⟨c1, s1, e1, p1, v1, d1⟩ := encodeI_named hp1 hv hin hmay
  have hocc : Occ D s1 c1 := by
    cases he : (s.addVar x).cnfVarExists ⟨n, 0, BOT⟩ with
    | true =>
      obtain ⟨rfl, rfl⟩ := ok_inj (encodeI_declared hv he) e1
      exact .plain (by simp) rfl
    | false =>
      rw [encodeI_fresh hv he] at e1
      refine .of_emit ?_ hp1.vm e1
      intro vr hvr
      obtain ⟨h1, ⟨i, hi, h2⟩, h3⟩ := instSteps_used.1 hvr
      rw [hp1.dim] at hi
      obtain ⟨v, j, k⟩ := vr
      simp only at h1 h2 h3
      subst h1 h2
      exact hI i hi k h3
  have hh1 : Has W s1 (n :: Γ) := by
    intro m hm
    rcases List.mem_cons.1 hm with rfl | hm
    · exact ⟨hin, d1⟩
    · exact ((hh.of_vm c').ext p1.moves.ext) m hm
  have hs1 := p1.moves.scopes.trans a.scopes
  obtain ⟨c2, s2, e2, p2, l2, g2⟩ := h s1 p1.moves.pre (hl1.of_vars v1) hh1 hs1
  have e' : (M.addVar x >>= fun _ => withVarBuild x q) s = (.ok (c1.conjunction c2), s2) := by
    have e0 : M.addVar x s = (.ok (), s.addVar x) := rfl
    rw [M_bind_ok e0, withVarBuild_eq, M_bind_ok e1, M_bind_ok e2]; rfl
  obtain ⟨rfl, rfl⟩ := ok_inj e' e
  exact (hocc.ext p2.moves.ext).conj (b s1 p1.moves.pre (hl1.of_vars v1) hh1 hs1 _ _ e2)

theorem forallFold_finds {Γs : Nat → List QVar} {lvs : Nat → Levels} {Ps : Nat → Asg → Prop} {tgt : List Char} (ts : List (List FeatV)) :
    ∀ (i : Nat) (ncnf : CNF) (s : Ctx) (g : Scope),
      (∀ j t, ts[j]? = some t → Shows W (Γs (i + j)) (Γs (i + j + 1)) (lvs (i + j)) (lvs (i + j + 1))
          (stack ++ [⟨tgt, t, ((i + j : Nat) : Int)⟩]) q (Ps (i + j)) ∧
        Finds D W (Γs (i + j)) (lvs (i + j)) (stack ++ [⟨tgt, t, ((i + j : Nat) : Int)⟩]) q) →
      s.scopes = stack ++ [g] → g.target = tgt → Pre (W.at (lvs i)) [] s → Lv s (lvs i) → Has W s (Γs i) → Occ D s ncnf →
      ∀ c s', forallFold q ts i ncnf s = (.ok c, s') → Occ D s' c := by
  induction ts with
  | nil =>
    intro i ncnf s g _ _ _ _ _ _ hf c s' e
    obtain ⟨rfl, rfl⟩ := ok_inj (show forallFold q [] i ncnf s = (.ok ncnf, s) from rfl) e
    exact hf
  | cons t ts ih =>
    intro i ncnf s g hch hs hg hp hl hh hf c s' e
    have hp1 := hp.rescope (g' := { g with vIdx := (i : Nat), value := t }) hs (by simp)
    obtain ⟨hsh, hb⟩ := hch 0 t (by simp)
    have hsc : (⟨tgt, t, ((i + 0 : Nat) : Int)⟩ : Scope) = { g with vIdx := (i : Nat), value := t } := by rw [← hg]; rfl
    rw [hsc] at hsh hb
    obtain ⟨c2, s2, e2, p2, l2, g2⟩ := hsh _ hp1 hl hh rfl
    have f2 := hb _ hp1 hl hh rfl _ _ e2
    have f1 : Occ D s2 ncnf := hf.ext
      ((Ext.of_vm_eq rfl rfl : Ext s { s with scopes := stack ++ [{ g with vIdx := (i : Nat), value := t }] }).trans p2.moves.ext)
    simp only [forallFold] at e
    rw [M_bind_ok (setScope_append hs (i : Nat) t), M_bind_ok e2] at e
    refine ih (i + 1) (ncnf.conjunction c2) s2 { g with vIdx := (i : Nat), value := t } (by
        intro j t' hj
        have := hch (j + 1) t' (by simpa using hj)
        rw [show i + 1 + j = i + (j + 1) by omega]
        exact this) p2.moves.scopes hg p2.moves.pre l2 g2 (f1.conj f2) c s' e

theorem Finds.encForall {k : QConst} {Γs : Nat → List QVar} {lvs : Nat → Levels} {Ps : Nat → Asg → Prop} {ws : List WalkSt}
    (hok : newNodeAsValuesIter W.dim W.nodes = .ok (WalkSt.init W.dim W.nodes.length))
    (hws : Iterates W.nodes (WalkSt.init W.dim W.nodes.length) ws)
    (hch : ∀ i w, ws[i]? = some w → Shows W (Γs i) (Γs (i + 1)) (lvs i) (lvs (i + 1)) (stack ++ [⟨k.id, w.t, (i : Nat)⟩]) q (Ps i) ∧
      Finds D W (Γs i) (lvs i) (stack ++ [⟨k.id, w.t, (i : Nat)⟩]) q) :
    Finds D W (Γs 0) (lvs 0) stack (encForall k (some q)) := by
  refine Finds.wrapErr _ fun s hp hl hh hs c s' e => ?_
  subst hs
  have hp0 := hp.addScope k.id
  have hch' : ∀ j t, (ws.map (·.t))[j]? = some t → Shows W (Γs (0 + j)) (Γs (0 + j + 1)) (lvs (0 + j)) (lvs (0 + j + 1))
          (s.scopes ++ [⟨k.id, t, ((0 + j : Nat) : Int)⟩]) q (Ps (0 + j)) ∧
        Finds D W (Γs (0 + j)) (lvs (0 + j)) (s.scopes ++ [⟨k.id, t, ((0 + j : Nat) : Int)⟩]) q := by
    intro j t hj
    simp only [List.getElem?_map, Option.map_eq_some_iff] at hj
    obtain ⟨w, hw, rfl⟩ := hj
    simpa using hch j w hw
  obtain ⟨c2, s2, g', e2, p, -, -⟩ := forallFold_shows (q := q) (Γs := Γs) (lvs := lvs) (Ps := Ps) (tgt := k.id) (ws.map (·.t)) 0 {}
    (s.addScope k.id) (s.addScope k.id) { target := k.id } (fun _ => True) (fun j t hj => (hch' j t hj).1) rfl rfl (.true hp0) hl hh
  have hbody : forallBody q (s.addScope k.id) = (.ok c2, s2) := by
    rcases forallBody_eq q (s.addScope k.id) with ⟨e', h1, -⟩ | ⟨ws', h1, -, h2⟩
    · rw [hp0.dim, hp0.nodes] at h1
      rw [show (W.at (lvs 0)).dim = W.dim from rfl, show (W.at (lvs 0)).nodes = W.nodes from rfl, hok] at h1
      simp at h1
    · rw [hp0.dim, hp0.nodes] at h1
      rw [h2, h1.unique hws]
      exact e2
  have hsc : s2.scopes = s.scopes ++ [g'] := p.moves.scopes
  have hne : s2.scopes ≠ [] := by rw [hsc]; simp
  have p1 : s2.popScope.2.topv = s2.topv := by unfold Ctx.popScope; split <;> rfl
  have p2 : s2.popScope.2.vmap = s2.vmap := by unfold Ctx.popScope; split <;> rfl
  have e' : forallBuild k q s = (.ok c2, s2.popScope.2) := by rw [forallBuild_of hbody hne]
  obtain ⟨rfl, rfl⟩ := ok_inj e' e
  have := forallFold_finds (q := q) (Γs := Γs) (lvs := lvs) (Ps := Ps) (tgt := k.id) (ws.map (·.t)) 0 {}
    (s.addScope k.id) { target := k.id } hch' rfl rfl hp0 hl hh (.plain (by simp) rfl) _ _ e2
  exact this.ext (.of_vm_eq p1 p2)

theorem namesUpTo_in {D : VarRep → Prop} {d : Nat} (gs : List Ground) : ∀ (Γ : List QVar) (i : Nat), (∀ n ∈ Γ, InstIn d D n) →
    (∀ g ∈ gs, ∀ n ∈ g.names, InstIn d D n) → ∀ n ∈ namesUpTo Γ gs i, InstIn d D n := by
  induction gs with
  | nil => intro Γ i h _; simpa [namesUpTo] using h
  | cons g gs ih =>
    intro Γ i h hg
    cases i with
    | zero => rw [namesUpTo_zero]; exact h
    | succ i =>
      have : namesUpTo Γ (g :: gs) (i + 1) = namesUpTo (g.names ++ Γ) gs i := by simp [namesUpTo]
      rw [this]
      refine ih _ i (fun n hn => ?_) fun g' hg' => hg g' (by simp [hg'])
      rcases List.mem_append.1 hn with hn | hn
      · exact hg g (by simp) n hn
      · exact h n hn

end

theorem query_finds {W : World} {T : DTree} {D : VarRep → Prop} (q : Query) : ∀ (Γ : List QVar) (stack : List Scope) (lv : Levels),
    (q.ground W.dim T stack lv).Loose W.dim W.nodes T Γ → (q.loops = true → IsTree W.dim W.nodes T ∧ Covers W.nodes T) →
    (∀ n ∈ (q.ground W.dim T stack lv).names, W.isInst n ∧ W.may n) →
    (∀ u ∈ (q.ground W.dim T stack lv).emits W.dim, Plays W T u.1 u.2) →
    (∀ n ∈ Γ, InstIn W.dim D n) → (∀ n ∈ (q.ground W.dim T stack lv).names, InstIn W.dim D n) →
    (∀ u ∈ (q.ground W.dim T stack lv).emits W.dim, AuxIn W.dim W.nodes D u.1 u.2) →
    ∀ act, q.comp = some act → Finds D W Γ lv stack act := by
  induction q with
  | nil => intro Γ stack lv h; exact h.elim
  | atom a =>
    intro Γ stack lv h _ _ hu hI _ hA act hact
    simp only [Query.comp, Option.some.injEq] at hact
    subst hact
    exact Finds.atom h.1 h.2 hI hA
  | and q1 q2 ih1 ih2 =>
    intro Γ stack lv h ht hn hu hI hN hA act hact
    simp only [Query.ground, Ground.names, Ground.emits, List.mem_append, Query.loops, Bool.or_eq_true] at hn hu ht hN hA
    obtain ⟨a1, e1, c1⟩ := query_encoded q1 Γ stack lv h.1 (fun x => ht (.inl x)) (fun n hn' => hn n (.inl hn')) (fun u hu' => hu u (.inl hu'))
    obtain ⟨a2, e2, c2⟩ := query_encoded q2 _ stack _ h.2 (fun x => ht (.inr x)) (fun n hn' => hn n (.inr hn')) (fun u hu' => hu u (.inr hu'))
    simp only [Query.comp, Option.some.injEq] at hact
    subst hact
    rw [e1, e2]
    exact Finds.encAnd c1 c2 (ih1 Γ stack lv h.1 (fun x => ht (.inl x)) (fun n hn' => hn n (.inl hn')) (fun u hu' => hu u (.inl hu'))
        hI (fun n hn' => hN n (.inl hn')) (fun u hu' => hA u (.inl hu')) _ e1)
      (ih2 _ stack _ h.2 (fun x => ht (.inr x)) (fun n hn' => hn n (.inr hn')) (fun u hu' => hu u (.inr hu'))
        (fun n hn' => (List.mem_append.1 hn').elim (fun k => hN n (.inl k)) (hI n)) (fun n hn' => hN n (.inr hn')) (fun u hu' => hA u (.inr hu')) _ e2)
  | or q1 q2 ih1 ih2 =>
    intro Γ stack lv h ht hn hu hI hN hA act hact
    simp only [Query.ground, Ground.names, Ground.emits, List.mem_append, Query.loops, Bool.or_eq_true] at hn hu ht hN hA
    obtain ⟨a1, e1, c1⟩ := query_encoded q1 Γ stack lv h.1 (fun x => ht (.inl x)) (fun n hn' => hn n (.inl hn')) (fun u hu' => hu u (.inl hu'))
    obtain ⟨a2, e2, c2⟩ := query_encoded q2 _ stack _ h.2 (fun x => ht (.inr x)) (fun n hn' => hn n (.inr hn')) (fun u hu' => hu u (.inr hu'))
    simp only [Query.comp, Option.some.injEq] at hact
    subst hact
    rw [e1, e2]
    exact Finds.encOr c1 c2 (ih1 Γ stack lv h.1 (fun x => ht (.inl x)) (fun n hn' => hn n (.inl hn')) (fun u hu' => hu u (.inl hu'))
        hI (fun n hn' => hN n (.inl hn')) (fun u hu' => hA u (.inl hu')) _ e1)
      (ih2 _ stack _ h.2 (fun x => ht (.inr x)) (fun n hn' => hn n (.inr hn')) (fun u hu' => hu u (.inr hu'))
        (fun n hn' => (List.mem_append.1 hn').elim (fun k => hN n (.inl k)) (hI n)) (fun n hn' => hN n (.inr hn')) (fun u hu' => hA u (.inr hu')) _ e2)
  | not q ih =>
    intro Γ stack lv h ht hn hu hI hN hA act hact
    obtain ⟨a, e, c⟩ := query_encoded q Γ stack lv h ht hn hu
    simp only [Query.comp, Option.some.injEq] at hact
    subst hact
    rw [e]
    exact Finds.encNot c (ih Γ stack lv h ht hn hu hI hN hA _ e)
  | withVar x q ih =>
    intro Γ stack lv h ht hn hu hI hN hA act hact
    simp only [Query.ground, Ground.names, List.mem_cons] at hn hN
    obtain ⟨a, e, c⟩ := query_encoded q _ stack _ h ht (fun n hn' => hn n (.inr hn')) hu
    obtain ⟨h1, h2⟩ := hn _ (.inl rfl)
    simp only [Query.comp, Option.some.injEq] at hact
    subst hact
    rw [e]
    exact Finds.encWithVar rfl h1 h2 (hN _ (.inl rfl)) c (ih _ stack _ h ht (fun n hn' => hn n (.inr hn')) hu
      (fun n hn' => (List.mem_cons.1 hn').elim (fun k => hN n (.inl k)) (hI n)) (fun n hn' => hN n (.inr hn')) hA _ e)
  | forallG k q ih =>
    intro Γ stack lv h ht hn hu hI hN hA act hact
    simp only [Query.comp, Option.some.injEq] at hact
    subst hact
    obtain ⟨hT, hC⟩ := ht rfl
    have hok := C18_accepted _ _ _ hT.raw hC
    obtain ⟨ws, hws, -⟩ := C17_terminates _ _ _ hok
    obtain ⟨hv, hg⟩ := C18_values _ _ _ hT ws hws
    have hscope : scopesOf W.dim T k.id = ws.mapIdx fun i w => (⟨k.id, w.t, (i : Nat)⟩ : Scope) := by
      apply List.ext_getElem?
      intro i
      simp only [scopesOf, List.getElem?_map, List.getElem?_zipIdx, Option.map_map, List.getElem?_mapIdx]
      rw [← hv, List.getElem?_map]
      cases hw : ws[i]? with
      | none => rfl
      | some w =>
        simp only [Option.map_some, Option.some.injEq, Function.comp_apply, Nat.zero_add, scopeAt]
        rw [valsOf_den (hg w (List.mem_of_getElem? hw))]
    generalize hgs : (scopesOf W.dim T k.id).mapIdx (fun i g =>
      q.ground W.dim T (stack ++ [g]) (times (fun lv => q.levels (stack.length + 1) lv) i lv)) = gs
    have hG : (Query.forallG k q).ground W.dim T stack lv = .conj gs := by rw [← hgs]; rfl
    have hget : ∀ i w, ws[i]? = some w → gs[i]? = some (q.ground W.dim T (stack ++ [⟨k.id, w.t, (i : Nat)⟩])
        (times (fun lv => q.levels (stack.length + 1) lv) i lv)) := by
      intro i w hw
      rw [← hgs, List.getElem?_mapIdx, hscope, List.getElem?_mapIdx, hw]
      rfl
    rw [hG] at h hn hu hN hA
    have hin : ∀ i w, ws[i]? = some w → ∃ act, q.comp = some act ∧
        Shows W (namesUpTo Γ gs i) (namesUpTo Γ gs (i + 1)) (times (fun lv => q.levels (stack.length + 1) lv) i lv)
          (times (fun lv => q.levels (stack.length + 1) lv) (i + 1) lv) (stack ++ [⟨k.id, w.t, (i : Nat)⟩]) act
          (fun σ => (q.ground W.dim T (stack ++ [⟨k.id, w.t, (i : Nat)⟩])
            (times (fun lv => q.levels (stack.length + 1) lv) i lv)).encoded W.dim T σ) ∧
        Finds D W (namesUpTo Γ gs i) (times (fun lv => q.levels (stack.length + 1) lv) i lv) (stack ++ [⟨k.id, w.t, (i : Nat)⟩]) act := by
      intro i w hw
      have hgi := hget i w hw
      have hm := List.mem_of_getElem? hgi
      have hn1 := fun n hn' => hn n ((conj_names gs).2 ⟨_, hm, hn'⟩)
      have hu1 := fun u hu' => hu u ((conj_emits gs).2 ⟨_, hm, hu'⟩)
      obtain ⟨a, e, c⟩ := query_encoded q (namesUpTo Γ gs i) _ _ (conj_loose gs Γ h i _ hgi) (fun _ => ⟨hT, hC⟩) hn1 hu1
      refine ⟨a, e, ?_, ?_⟩
      · rw [namesUpTo_succ hgi]
        simp only [List.length_append, List.length_cons, List.length_nil, Nat.zero_add] at c
        exact c
      · exact ih (namesUpTo Γ gs i) _ _ (conj_loose gs Γ h i _ hgi) (fun _ => ⟨hT, hC⟩) hn1 hu1
          (namesUpTo_in gs Γ i hI fun g hg' n hn' => hN n ((conj_names gs).2 ⟨g, hg', hn'⟩))
          (fun n hn' => hN n ((conj_names gs).2 ⟨_, hm, hn'⟩)) (fun u hu' => hA u ((conj_emits gs).2 ⟨_, hm, hu'⟩)) _ e
    cases hc : q.comp with
    | none =>
      obtain ⟨w, hw⟩ : ∃ w, ws[0]? = some w := by
        cases T <;> (cases ws <;> simp_all [DTree.nodeInsts])
      obtain ⟨a, e, -⟩ := hin 0 w hw
      rw [hc] at e; simp at e
    | some act =>
    have key := Finds.encForall (D := D) (stack := stack) (k := k) (q := act) (Γs := namesUpTo Γ gs)
      (lvs := fun i => times (fun lv => q.levels (stack.length + 1) lv) i lv)
      (Ps := fun i σ => ∀ w, ws[i]? = some w → (q.ground W.dim T (stack ++ [⟨k.id, w.t, (i : Nat)⟩])
            (times (fun lv => q.levels (stack.length + 1) lv) i lv)).encoded W.dim T σ) hok hws (fun i w hw => by
        obtain ⟨a, e, c, b⟩ := hin i w hw
        rw [hc] at e
        simp only [Option.some.injEq] at e
        subst e
        exact ⟨c.congr fun σ => by rw [hw]; simp, b⟩)
    rw [namesUpTo_zero] at key
    exact key

/-! ### closed queries -/

/-- The triples a query gives variables to. -/
def Triple (d : Nat) (nodes : List Node) (names : List QVar) (uses : List (QVar × Role)) (vr : VarRep) : Prop :=
  (∃ n ∈ names, ∃ i < d, ∃ v ∈ featVals, vr = ⟨n, (i : Nat), v⟩) ∨ ∃ u ∈ uses, u.1 = vr.v ∧ u.2.range d nodes vr.idx vr.val

theorem encodable_clear {d : Nat} {nodes : List Node} {T : DTree} {q : Query} (hg : q.Encodable d nodes T) {s : Ctx}
    (hs : Ready d nodes (q.flat d T).names s) {c : CNF} {s' : Ctx} (eq : q.encode s = (.ok c, s')) :
    VMok s' ∧ Occ (Triple d nodes (q.flat d T).names ((q.flat d T).emits d)) s' c ∧
    ∀ L σ, Force.LS L c.cClauses → (∀ n ∈ (q.flat d T).names, Force.Rd d (Force.known s' L) n (σ n)) →
      ∀ u ∈ (q.flat d T).emits d, u.2.clear d σ → Tells d nodes T (Force.known s' L) σ u := by
  let W := worldOf d nodes T (fun _ => 0) hg.dim (q.flat d T).names [] ((q.flat d T).emits d)
  have hn : ∀ n ∈ (q.ground W.dim T [] fun _ => 0).names, W.isInst n ∧ W.may n := fun n hn => ⟨List.mem_append_left _ hn, hn⟩
  have hu : ∀ u ∈ (q.ground W.dim T [] fun _ => 0).emits W.dim, Plays W T u.1 u.2 := worldOf_plays fun u hu => by
    rw [List.append_nil]
    exact hg.apart u hu
  obtain ⟨act, e, hcq⟩ := query_encoded (W := W) (T := T) q [] [] (fun _ => 0) hg.fits hg.tree hn hu
  have hb := query_binds (W := W) (T := T) q [] [] (fun _ => 0) hg.fits hg.tree hn hu act e
  have hf := query_finds (W := W) (T := T) (D := Triple d nodes (q.flat d T).names ((q.flat d T).emits d)) q [] [] (fun _ => 0) hg.fits hg.tree hn hu
    (by simp) (fun n hn i hi v hv => .inl ⟨n, hn, i, hi, v, hv, rfl⟩) (fun u hu i v h => .inr ⟨u, hu, rfl, h⟩) act e
  have hp : Pre W [] s := Ready.pre (W := W) hs fun n hn => by
    have : n ∈ (q.flat d T).names ++ [] := hn
    simpa using this
  have hlv : Lv s fun _ => 0 := fun x => by rw [hs.vars]; rfl
  have hh : Has W s [] := fun n hn => by simp at hn
  rw [Query.encode_eq e] at eq
  obtain ⟨c0, s0, e0, p, l, -⟩ := hcq s hp hlv hh hs.scopes
  obtain ⟨rfl, rfl⟩ := ok_inj e0 eq
  refine ⟨p.moves.pre.vm, hf s hp hlv hh hs.scopes _ _ e0, fun β σ hc hr => ?_⟩
  refine hb s hp hlv hh hs.scopes _ _ e0 s' p.moves.pre.vm (.refl _) β σ hc fun n hn _ => ?_
  have : n ∈ (q.flat d T).names ++ [] := hn
  exact hr n (by simpa using this)

/-- From the features of the instances, unit propagation finds the truth values of all variables of the CNF. -/
theorem encodable_dec {d : Nat} {nodes : List Node} {T : DTree} {q : Query} (hg : q.Encodable d nodes T) {s : Ctx}
    (hs : Ready d nodes (q.flat d T).names s) {c : CNF} {s' : Ctx} (eq : q.encode s = (.ok c, s')) {L : Force.Found} {σ : Asg}
    (hk : ∀ u ∈ (q.flat d T).emits d, u.2.clear d σ) (hc : Force.LS L c.cClauses)
    (hr : ∀ n ∈ (q.flat d T).names, Force.Rd d (Force.known s' L) n (σ n)) : Force.Dec L (c.sClauses ++ c.cClauses) := by
  obtain ⟨hv, hocc, hfix⟩ := encodable_clear hg hs eq
  have hb : ∀ {vr : VarRep} {b : Bool}, Force.known s' L vr b → Force.known s' L vr true ∨ Force.known s' L vr false := by
    intro vr b h
    cases b
    · exact .inr h
    · exact .inl h
  refine hocc s' hv (.refl _) L hc ?_
  rintro ⟨v, i, k⟩ (⟨n, hn', j, hj, w, hw, e⟩ | ⟨u, hu', h1, h2⟩) _
  · cases e
    exact hb (hr _ hn' j hj _ hw)
  · have k1 := hfix L σ hc hr u hu' (hk u hu') i k h2
    simp only at h1 k1
    rw [h1] at k1
    exact hb k1

/-- The meaning of auxiliary variables under valuations. -/
theorem encodable_sets {d : Nat} {nodes : List Node} {T : DTree} {q : Query} (hg : q.Encodable d nodes T) {s : Ctx}
    (hs : Ready d nodes (q.flat d T).names s) {c : CNF} {s' : Ctx} (eq : q.encode s = (.ok c, s')) (β : Val) (σ : Asg)
    (hc : ConTrue β c) (hr : ∀ n ∈ (q.flat d T).names, Reads d s' β n (σ n)) :
    ∀ u ∈ (q.flat d T).emits d, u.2.clear d σ → Sets d nodes T (symVal s' β) σ u :=
  (encodable_clear hg hs eq).2.2 (fun n b => β n = b) σ (Force.LS_of hc) hr

/-- Two valuations that read the same instances agree on the variables of the CNF. -/
theorem encodable_sole {d : Nat} {nodes : List Node} {T : DTree} {q : Query} (hg : q.Encodable d nodes T) {s : Ctx}
    (hs : Ready d nodes (q.flat d T).names s) {c : CNF} {s' : Ctx} (eq : q.encode s = (.ok c, s')) {β β' : Val} {σ : Asg}
    (hk : ∀ u ∈ (q.flat d T).emits d, u.2.clear d σ) (hc : ConTrue β c) (hc' : ConTrue β' c)
    (hr : ∀ n ∈ (q.flat d T).names, Reads d s' β n (σ n)) (hr' : ∀ n ∈ (q.flat d T).names, Reads d s' β' n (σ n)) :
    On β β' (c.sClauses ++ c.cClauses) :=
  dec_both.1 (encodable_dec hg hs eq (σ := σ) hk (LS_both hc hc') fun n hn i hi v hv => ⟨hr n hn i hi v hv, hr' n hn i hi v hv⟩)

/-! ### the variables of instances occur -/

theorem reads_occur {d : Nat} {s : Ctx} {c : CNF} {n : QVar} (h : ∀ β, ConTrue β c → ∃ e, Reads d s β n e) {β : Val} (hβ : ConTrue β c)
    {i : Nat} (hi : i < d) {v : Int} (hv : v ∈ featVals) : ∃ cl ∈ c.cClauses, ∃ l ∈ cl, l.natAbs = (num s ⟨n, (i : Nat), v⟩).natAbs := by
  refine Classical.byContradiction fun hno => ?_
  generalize hk : (num s ⟨n, (i : Nat), v⟩).natAbs = k at hno
  have hon : On β (fun m => if m = k then !β m else β m) c.cClauses := by
    intro cl hcl l hl
    have : l.natAbs ≠ k := fun h => hno ⟨cl, hcl, l, hl, h⟩
    simp [this]
  obtain ⟨e, he⟩ := h β hβ
  obtain ⟨e', he'⟩ := h _ ((clausesTrue_on hon).1 hβ)
  have z := he i hi ZERO (by simp [featVals])
  have o := he i hi ONE (by simp [featVals])
  have b := he i hi BOT (by simp [featVals])
  have z' := he' i hi ZERO (by simp [featVals])
  have o' := he' i hi ONE (by simp [featVals])
  have b' := he' i hi BOT (by simp [featVals])
  simp only [symVal] at z o b z' o' b'
  generalize hkZERO : (num s ⟨n, (i : Nat), ZERO⟩).natAbs = kz at *
  generalize hkONE : (num s ⟨n, (i : Nat), ONE⟩).natAbs = ko at *
  generalize hkBOT : (num s ⟨n, (i : Nat), BOT⟩).natAbs = kb at *
  have hk3 : kz = k ∨ ko = k ∨ kb = k := by
    simp only [featVals, List.mem_cons, List.not_mem_nil, or_false] at hv
    rcases hv with rfl | rfl | rfl <;> omega
  rcases opt3 (e i) with h1 | h1 | h1 <;> rcases opt3 (e' i) with h2 | h2 | h2 <;>
    simp only [h1, h2, valOf, ZERO, ONE, BOT] at z o b z' o' b' <;> simp only [decide_true, decide_false, Int.reduceEq] at * <;> grind

end Sole
end Goexpdt

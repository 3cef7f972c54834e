import Verif.Lemmas.FactsModel
/- The predicates satisfy the contract of `Spec/Contract.lean`. -/
namespace Goexpdt
open Spec

variable {W : World} {T : DTree} {Γ : List QVar} {stack : List Scope} {Q : Asg → Prop}

/-! ### peeling off the first steps of a method -/

theorem Captures.step {α : Type} {x : M α} {f : α → M CNF} (a : α)
    (h : ∀ s, Pre W Γ s → s.scopes = stack → x s = (.ok a, s)) (hc : Captures W Γ stack (f a) Q) :
    Captures W Γ stack (x >>= f) Q := by
  intro s hp hs
  rw [M_bind_ok (h s hp hs)]
  exact hc s hp hs

theorem Captures.dim {f : Nat → M CNF} (hc : Captures W Γ stack (f W.dim) Q) :
    Captures W Γ stack (M.dim >>= f) Q :=
  .step W.dim (fun s hp _ => by show (Except.ok s.dim, s) = _; rw [hp.dim]) hc

theorem Captures.nodes {f : List Node → M CNF} (hc : Captures W Γ stack (f W.nodes) Q) :
    Captures W Γ stack (M.nodes >>= f) Q :=
  .step W.nodes (fun s hp _ => by show (Except.ok s.nodes, s) = _; rw [hp.nodes]) hc

theorem Captures.lift {α : Type} {r : Except Err α} {a : α} (h : r = .ok a) {f : α → M CNF}
    (hc : Captures W Γ stack (f a) Q) : Captures W Γ stack (M.lift r >>= f) Q :=
  .step a (fun s _ _ => by show (r, s) = _; rw [h]) hc

theorem Captures.scopeVar {x : QVar} (hx : x ∈ Γ) {f : QVar → M CNF}
    (hc : Captures W Γ stack (f (W.nm stack x)) Q) : Captures W Γ stack (M.scopeVar x >>= f) Q :=
  .step _ (fun s hp hs => by show (s.scopeVar x, s) = _; rw [hp.scopeVar hx, hs]) hc

theorem scopeConst_eq (s : Ctx) (c : QConst) :
    (s.scopeConst c).1 = { id := c.id, val := resolve s.scopes c } := by
  have key : ∀ gs : List Scope, (Ctx.scopeConstLoop c gs).1 = { id := c.id, val := resolve gs c } := by
    intro gs
    induction gs with
    | nil => rfl
    | cons g gs ih =>
      unfold Ctx.scopeConstLoop resolve
      rw [List.find?_cons]
      by_cases h : g.target = c.id
      · simp [h]
      · rw [if_neg h, ih]
        have : (g.target == c.id) = false := by simpa using h
        simp [this, resolve]
  exact key s.scopes

theorem Captures.scopeConst (c : QConst) {f : QConst → M CNF}
    (hc : Captures W Γ stack (f { id := c.id, val := resolve stack c }) Q) :
    Captures W Γ stack (M.scopeConst c >>= f) Q :=
  .step _ (fun s hp hs => by show (Except.ok (s.scopeConst c).1, s) = _; rw [scopeConst_eq, hs]) hc

theorem validate_ok {d : Nat} (cs : List QConst) (h : ∀ c ∈ cs, c.val.length = d) : ValidateConstsDim d cs = .ok () := by
  have key : ∀ (cs : List QConst) (k : Nat), (∀ c ∈ cs, c.val.length = d) → validateConstsDimFrom d k cs = .ok () := by
    intro cs
    induction cs with
    | nil => intro _ _; rfl
    | cons c cs ih =>
      intro k h
      unfold validateConstsDimFrom
      rw [if_neg (by simp [h c (by simp)])]
      exact ih _ fun c hc => h c (by simp [hc])
  exact key cs 0 h

theorem Captures.validate {cs : List QConst} (h : ∀ c ∈ cs, c.val.length = W.dim) {f : Unit → M CNF}
    (hc : Captures W Γ stack (f ()) Q) : Captures W Γ stack (validateM cs >>= f) Q :=
  .step () (fun s hp _ => by
    show M.bind' M.dim (fun d => M.lift (ValidateConstsDim d cs)) s = _
    show (ValidateConstsDim s.dim cs, s) = _
    rw [hp.dim, validate_ok cs h]) hc

/-! ### names used by clauses -/

/-- A triple of an instance in `I` or of a name in `A`. -/
def LitOk (d : Nat) (I A : QVar → Prop) (vr : VarRep) : Prop :=
  (I vr.v ∧ (∃ i < d, vr.idx = (i : Nat)) ∧ vr.val ∈ featVals) ∨ A vr.v

/-- All triples of the clauses are such. -/
def UsedOk (d : Nat) (I A : QVar → Prop) (cls : List SClause) : Prop := ∀ vr, usedIn cls vr → LitOk d I A vr

section
variable {d : Nat} {I A : QVar → Prop}

theorem LitOk.inst {n : QVar} (hI : I n) {i : Nat} (hi : i < d) {v : Int} (hv : v ∈ featVals) :
    LitOk d I A ⟨n, (i : Nat), v⟩ := .inl ⟨hI, ⟨i, hi, rfl⟩, hv⟩
theorem LitOk.aux {n : QVar} (hA : A n) {i v : Int} : LitOk d I A ⟨n, i, v⟩ := .inr hA

theorem usedOk_nil : UsedOk d I A [] := by intro vr h; simp at h
theorem usedOk_cons {c : SClause} {cls : List SClause} :
    UsedOk d I A (c :: cls) ↔ (∀ l ∈ c, LitOk d I A l.vr) ∧ UsedOk d I A cls := by
  unfold UsedOk
  simp only [usedIn_cons]
  constructor
  · intro h; exact ⟨fun l hl => h _ (.inl ⟨l, hl, rfl⟩), fun vr hv => h vr (.inr hv)⟩
  · rintro ⟨h1, h2⟩ vr (⟨l, hl, rfl⟩ | h)
    · exact h1 l hl
    · exact h2 vr h
theorem usedOk_append {a b : List SClause} : UsedOk d I A (a ++ b) ↔ UsedOk d I A a ∧ UsedOk d I A b := by
  unfold UsedOk
  simp only [usedIn_append]
  exact ⟨fun h => ⟨fun vr hv => h vr (.inl hv), fun vr hv => h vr (.inr hv)⟩,
    fun ⟨h1, h2⟩ vr hv => hv.elim (h1 vr) (h2 vr)⟩
theorem usedOk_flatMap {α : Type} {l : List α} {f : α → List SClause} :
    UsedOk d I A (l.flatMap f) ↔ ∀ a ∈ l, UsedOk d I A (f a) := by
  unfold UsedOk
  simp only [usedIn_flatMap]
  exact ⟨fun h a ha vr hv => h vr ⟨a, ha, hv⟩, fun h vr ⟨a, ha, hv⟩ => h a ha vr hv⟩
theorem usedOk_map {α : Type} {l : List α} {f : α → SClause} :
    UsedOk d I A (l.map f) ↔ ∀ a ∈ l, ∀ x ∈ f a, LitOk d I A x.vr := by
  unfold UsedOk
  simp only [usedIn_map]
  exact ⟨fun h a ha x hx => h _ ⟨a, ha, x, hx, rfl⟩, fun h vr ⟨a, ha, x, hx, e⟩ => e ▸ h a ha x hx⟩

theorem bot_mem : BOT ∈ featVals := by simp [featVals]
theorem zero_mem : ZERO ∈ featVals := by simp [featVals]
theorem one_mem : ONE ∈ featVals := by simp [featVals]

theorem at_mem {c : QConst} (hc : GoodVals d c.val) {i : Nat} (hi : i < d) : c.at i ∈ featVals := by
  rw [at_eq hc hi c rfl]; exact valOf_mem _

variable {n n1 n2 cv r q : QVar}

theorem subsConstVar_used {c : QConst} (hc : GoodVals d c.val) (hn : I n) :
    UsedOk d I A (subsConstVarClauses d c n) := by
  simp only [subsConstVarClauses, usedOk_flatMap, mem_rng]
  intro i hi
  split
  · simp only [usedOk_cons, List.mem_singleton, forall_eq]
    exact ⟨.inst hn hi.2 (at_mem hc hi.2), usedOk_nil⟩
  · exact usedOk_nil

theorem subsVarConst_used {c : QConst} (hn : I n) : UsedOk d I A (subsVarConstClauses d n c) := by
  simp only [subsVarConstClauses, usedOk_flatMap, mem_rng]
  intro i hi
  have h0 : LitOk d I A (N n i ZERO).vr := .inst hn hi.2 zero_mem
  have h1 : LitOk d I A (N n i ONE).vr := .inst hn hi.2 one_mem
  split
  · simp [usedOk_cons, usedOk_nil, h0]
  · split <;> simp [usedOk_cons, usedOk_nil, h0, h1]

theorem subsVarVar_used (h1 : I n1) (h2 : I n2) : UsedOk d I A (subsVarVarClauses d n1 n2) := by
  simp only [subsVarVarClauses, usedOk_flatMap, mem_rng]
  intro i hi
  have a : LitOk d I A (N n1 i ONE).vr := .inst h1 hi.2 one_mem
  have b : LitOk d I A (P n2 i ONE).vr := .inst h2 hi.2 one_mem
  have c : LitOk d I A (N n1 i ZERO).vr := .inst h1 hi.2 zero_mem
  have e : LitOk d I A (P n2 i ZERO).vr := .inst h2 hi.2 zero_mem
  simp [usedOk_cons, usedOk_nil, a, b, c, e]

theorem auxP (h : A cv) (i j : Int) : LitOk d I A (P cv i j).vr := .aux h
theorem auxN (h : A cv) (i j : Int) : LitOk d I A (N cv i j).vr := .aux h

theorem countTooBig_used (h : A cv) : UsedOk d I A (countTooBig d cv) := by
  simp only [countTooBig, usedOk_flatMap, usedOk_map, List.mem_singleton, forall_eq]
  intro i _ j _
  exact auxN h _ _

theorem varBotCount_used (hd : 0 < d) (hn : I n) (h : A cv) : UsedOk d I A (varBotCountClauses d n cv) := by
  have a0 : LitOk d I A (P n 0 BOT).vr := LitOk.inst (i := 0) hn hd bot_mem
  have b0 : LitOk d I A (N n 0 BOT).vr := LitOk.inst (i := 0) hn hd bot_mem
  simp only [varBotCountClauses, usedOk_append, usedOk_flatMap, mem_rng]
  refine ⟨⟨?_, countTooBig_used h⟩, ?_⟩
  · intro i hi
    have a : LitOk d I A (P n i BOT).vr := .inst hn hi.2 bot_mem
    have b : LitOk d I A (N n i BOT).vr := .inst hn hi.2 bot_mem
    simp [botCountStep, usedOk_flatMap, usedOk_cons, usedOk_nil, a, b, auxP h, auxN h]
  · simp [usedOk_cons, usedOk_nil, a0, b0, auxP h, auxN h]

theorem hdClauses_used (hd : 0 < d) {eq : Nat → VarRep} (he : ∀ i < d, LitOk d I A (eq i)) (h : A cv) :
    UsedOk d I A (hdClauses d cv eq) := by
  simp only [hdClauses, usedOk_append, usedOk_flatMap, mem_rng]
  refine ⟨⟨?_, ?_⟩, countTooBig_used h⟩
  · simp [usedOk_cons, usedOk_nil, he 0 hd, auxP h, auxN h]
  · intro i hi
    have := he i hi.2
    simp [usedOk_cons, usedOk_nil, this, auxP h, auxN h]

theorem varFull_used (hn : I n) : UsedOk d I A (varFullClauses d n) := by
  simp only [varFullClauses, usedOk_map, mem_rng, List.mem_singleton, forall_eq]
  intro i hi
  exact .inst hn hi.2 bot_mem

theorem consConst_used {c : QConst} (hn : I n) : UsedOk d I A (consConstClauses d c n) := by
  simp only [consConstClauses, usedOk_flatMap, mem_rng]
  intro i hi
  split
  · exact usedOk_nil
  · simp only [usedOk_cons, List.mem_singleton, forall_eq]
    refine ⟨.inst hn hi.2 ?_, usedOk_nil⟩
    split
    · exact one_mem
    · exact zero_mem

theorem consVarVar_used (h1 : I n1) (h2 : I n2) : UsedOk d I A (consVarVarClauses d n1 n2) := by
  simp only [consVarVarClauses, usedOk_flatMap, mem_rng]
  intro i hi
  have a : LitOk d I A (N n1 i ONE).vr := .inst h1 hi.2 one_mem
  have b : LitOk d I A (N n2 i ONE).vr := .inst h2 hi.2 one_mem
  have c : LitOk d I A (N n1 i ZERO).vr := .inst h1 hi.2 zero_mem
  have e : LitOk d I A (N n2 i ZERO).vr := .inst h2 hi.2 zero_mem
  simp [usedOk_cons, usedOk_nil, a, b, c, e]

theorem fullVarEqual_used (h1 : I n1) (h2 : I n2) (h : A q) : UsedOk d I A (fullVarEqualClauses d n1 n2 q) := by
  simp only [fullVarEqualClauses, usedOk_flatMap, mem_rng]
  intro i hi
  have a : LitOk d I A (N n1 i ONE).vr := .inst h1 hi.2 one_mem
  have b : LitOk d I A (N n2 i ONE).vr := .inst h2 hi.2 one_mem
  have c : LitOk d I A (N n1 i ZERO).vr := .inst h1 hi.2 zero_mem
  have e : LitOk d I A (N n2 i ZERO).vr := .inst h2 hi.2 zero_mem
  simp [usedOk_cons, usedOk_nil, a, b, c, e, auxP h, auxN h]

theorem hdLeSem_used {a b : QVar} (ha : A a) (hb : A b) : UsedOk d I A (hdLeSem d a b) := by
  simp only [hdLeSem, usedOk_flatMap, usedOk_map]
  intro i _ j _
  simp [auxN ha, auxN hb]

section
variable {pref : List Int} (hp : ∀ i ∈ pref, 0 ≤ i ∧ i < d)
include hp

theorem prefLit (hn : I n) {k : Nat} (hk : k < pref.length) :
    LitOk d I A (P n (prefAt pref k) BOT).vr ∧ LitOk d I A (N n (prefAt pref k) BOT).vr := by
  obtain ⟨h1, h2⟩ := prefAt_lt hp hk
  exact ⟨.inl ⟨hn, ⟨_, h1, h2⟩, bot_mem⟩, .inl ⟨hn, ⟨_, h1, h2⟩, bot_mem⟩⟩

theorem heprConstVar_used {c : QConst} (hn : I n) (h : A r) (hne : pref ≠ []) :
    UsedOk d I A (heprConstVarCon c n r pref) := by
  have hpos := List.length_pos_iff.2 hne
  obtain ⟨a0, b0⟩ := prefLit (A := A) hp hn (k := pref.length - 1) (by omega)
  simp only [heprConstVarCon, usedOk_append, usedOk_flatMap, mem_downFrom]
  refine ⟨?_, ?_⟩
  · split <;> simp [usedOk_cons, usedOk_nil, a0, b0, auxP h, auxN h]
  · intro k hk
    obtain ⟨a, b⟩ := prefLit (A := A) hp hn (k := k) (by omega)
    split <;> simp [usedOk_cons, usedOk_nil, a, b, auxP h, auxN h]

theorem heprVarConst_used {c : QConst} (hn : I n) (h : A r) (hne : pref ≠ []) :
    UsedOk d I A (heprVarConstCon n c r pref) := by
  have hpos := List.length_pos_iff.2 hne
  obtain ⟨a0, b0⟩ := prefLit (A := A) hp hn (k := pref.length - 1) (by omega)
  simp only [heprVarConstCon, usedOk_append, usedOk_flatMap, mem_downFrom]
  refine ⟨?_, ?_⟩
  · split <;> simp [usedOk_cons, usedOk_nil, a0, b0, auxP h, auxN h]
  · intro k hk
    obtain ⟨a, b⟩ := prefLit (A := A) hp hn (k := k) (by omega)
    split <;> simp [usedOk_cons, usedOk_nil, a, b, auxP h, auxN h]

theorem heprVarVar_used (h1 : I n1) (h2 : I n2) (h : A r) (hne : pref ≠ []) :
    UsedOk d I A (heprVarVarCon n1 n2 r pref) := by
  have hpos := List.length_pos_iff.2 hne
  obtain ⟨a0, b0⟩ := prefLit (A := A) hp h1 (k := pref.length - 1) (by omega)
  obtain ⟨a0', b0'⟩ := prefLit (A := A) hp h2 (k := pref.length - 1) (by omega)
  simp only [heprVarVarCon, usedOk_append, usedOk_flatMap, mem_downFrom]
  refine ⟨?_, ?_⟩
  · simp [usedOk_cons, usedOk_nil, a0, b0, a0', b0', auxP h, auxN h]
  · intro k hk
    obtain ⟨a, b⟩ := prefLit (A := A) hp h1 (k := k) (by omega)
    obtain ⟨a', b'⟩ := prefLit (A := A) hp h2 (k := k) (by omega)
    simp [usedOk_cons, usedOk_nil, a, b, a', b', auxP h, auxN h]

end

variable {nodes : List Node}

theorem featLit (hv : Valid d nodes) (hn : I n) {i : Nat} (hi : i < nodes.length)
    (hl : (nodeAt nodes i).isLeaf = false) {v : Int} (hm : v ∈ featVals) :
    LitOk d I A (P n (nodeAt nodes i).feat v).vr ∧ LitOk d I A (N n (nodeAt nodes i).feat v).vr := by
  obtain ⟨f, -, -, hf, -, -, h1, -, -⟩ := valid_node hv hi hl
  rw [h1]
  exact ⟨.inst hn hf hm, .inst hn hf hm⟩

theorem isnodeProp_used (hv : Valid d nodes) (hn : I n) (h : A r) : UsedOk d I A (isnodeProp nodes n r) := by
  simp only [isnodeProp, usedOk_flatMap, mem_rng]
  intro i hi
  cases hl : (nodeAt nodes i).isLeaf
  · obtain ⟨a, b⟩ := featLit (A := A) hv hn hi.2 hl zero_mem
    obtain ⟨c, e⟩ := featLit (A := A) hv hn hi.2 hl one_mem
    simp [usedOk_cons, usedOk_nil, a, b, c, e, auxP h, auxN h]
  · simp [usedOk_nil]

theorem isnodeFcl_used (hn : I n) (h : A r) : UsedOk d I A (isnodeFcl d nodes n r) := by
  simp only [isnodeFcl, usedOk_map, mem_rng, List.mem_cons, forall_eq_or_imp, List.mem_map]
  intro f hf
  refine ⟨.inst hn hf.2 bot_mem, ?_⟩
  rintro x ⟨i, -, rfl⟩
  exact auxP h _ _

theorem isnodeFclOrder_used (hn : I n) (h : A r) : UsedOk d I A (isnodeFclOrder d nodes n r) := by
  simp only [isnodeFclOrder, usedOk_append, usedOk_map, mem_rng, List.mem_singleton, forall_eq]
  exact ⟨fun f hf => .inst hn hf.2 bot_mem, fun i _ => auxP h _ _⟩

theorem allOf_map {l : List Nat} {f : Nat → Step} : UsedOk d I A (allOf (l.map f)) ↔ ∀ i ∈ l, UsedOk d I A (allOf [f i]) := by
  induction l with
  | nil => simp [allOf, usedOk_nil]
  | cons i l ih =>
    simp only [List.map_cons, List.mem_cons, forall_eq_or_imp, ← ih]
    cases f i <;> simp [allOf, usedOk_append]

theorem allcomp_used (hv : Valid d nodes) (hn : I n) (h : A r) (leaf : Bool) :
    UsedOk d I A (allOf (.con [[P r 0 0]] :: (rng 0 nodes.length).map (allcompStep leaf nodes n r))) := by
  simp only [allOf, List.cons_append, List.nil_append, usedOk_cons, List.mem_singleton, forall_eq]
  refine ⟨auxP h _ _, ?_⟩
  rw [allOf_map]
  intro i hi
  rw [mem_rng] at hi
  cases hl : (nodeAt nodes i).isLeaf
  · obtain ⟨a, b⟩ := featLit (A := A) hv hn hi.2 hl zero_mem
    obtain ⟨c, e⟩ := featLit (A := A) hv hn hi.2 hl one_mem
    obtain ⟨a', b'⟩ := featLit (A := A) hv hn hi.2 hl bot_mem
    simp [allcompStep, hl, allOf, usedOk_cons, usedOk_nil, a, b, c, e, a', b', auxP h, auxN h]
  · simp only [allcompStep, hl, if_true, allOf, List.append_nil]
    split
    · simp [usedOk_cons, usedOk_nil, auxN h]
    · exact usedOk_nil

end

/-! ### clauses over declared and auxiliary names -/

/-- The names of the variables `xs` are names of instances. -/
def instNames (W : World) (Γ : List QVar) (stack : List Scope) (n : QVar) : Prop := ∃ x ∈ Γ, n = W.nm stack x

/-- The valuation that gives all triples their intended truth value. -/
def meanVal (W : World) (σ : Asg) : VarRep → Bool := fun vr => W.mean vr.v σ vr.idx vr.val

theorem Captures.emitC {st : List Step}
    (hused : UsedOk W.dim (instNames W Γ stack) (fun a => ¬ W.isInst a) (allOf st))
    (hA : ∀ (σ : Asg) (ν : VarRep → Bool), (∀ x ∈ Γ, Rd W.dim ν (W.nm stack x) (σ (W.nm stack x))) →
      ssTrue ν (conOf st) → (ssTrue ν (semOf st) ↔ Q σ))
    (hB : ∀ σ : Asg, W.dom σ → (∀ x ∈ Γ, Rd W.dim (meanVal W σ) (W.nm stack x) (σ (W.nm stack x))) →
      ssTrue (meanVal W σ) (conOf st)) :
    Captures W Γ stack (Goexpdt.emit st) Q := by
  refine Captures.emit (fun _ _ _ => rfl) ?_ hA ?_
  · intro vr h
    rcases hused vr h with ⟨⟨x, hx, h1⟩, h2, h3⟩ | h
    · exact .inl ⟨x, hx, h1, h2, h3⟩
    · exact .inr h
  · intro hi σ hσ
    exact hB σ hσ fun x hx i _ v hv => W.inst_mean _ (hi x hx) σ i v hv

/-- Semantic clauses only. -/
theorem Captures.emitS {cls : List SClause}
    (hused : UsedOk W.dim (instNames W Γ stack) (fun a => ¬ W.isInst a) cls)
    (hA : ∀ (σ : Asg) (ν : VarRep → Bool), (∀ x ∈ Γ, Rd W.dim ν (W.nm stack x) (σ (W.nm stack x))) →
      (ssTrue ν cls ↔ Q σ)) :
    Captures W Γ stack (Goexpdt.emitF cls []) Q := by
  rw [emitF_eq]
  refine Captures.emitC ?_ ?_ ?_
  · simpa [allOf] using hused
  · intro σ ν h _
    simpa [semOf] using hA σ ν h
  · intro σ _ _; simp [conOf]

theorem instNames_of {x : QVar} (hx : x ∈ Γ) : instNames W Γ stack (W.nm stack x) := ⟨x, hx, rfl⟩

/-! ### what the intended values of auxiliary variables satisfy -/

theorem Plays.bots {a n : QVar} (h : Plays W T a (.bots n)) {σ : Asg} (hσ : W.dom σ) :
    Counter W.dim (meanVal W σ) a (fun i => (σ n i).isNone) := by
  intro i hi j hj
  show W.mean a σ i j = _
  rw [h.2 σ hσ _ _ (by simp only [Role.range]; omega)]
  simp [Role.mean, Int.ofNat_inj]

theorem Plays.dist {a : QVar} {t1 t2 : RTerm} (h : Plays W T a (.dist t1 t2)) {σ : Asg} (hσ : W.dom σ) :
    Counter W.dim (meanVal W σ) a (fun i => t1.den σ i != t2.den σ i) := by
  intro i hi j hj
  show W.mean a σ i j = _
  rw [h.2 σ hσ _ _ (by simp only [Role.range]; omega)]
  simp [Role.mean, Int.ofNat_inj]

theorem Plays.same {a n1 n2 : QVar} (h : Plays W T a (.same n1 n2)) {σ : Asg} (hσ : W.dom σ) {i : Nat} (hi : i < W.dim) :
    meanVal W σ ⟨a, (i : Nat), 0⟩ = decide (σ n1 i = σ n2 i) := by
  show W.mean a σ i 0 = _
  rw [h.2 σ hσ _ _ (by refine ⟨by omega, by omega, rfl⟩)]
  simp [Role.mean]

theorem Plays.rank {a : QVar} {pref : List Nat} {t1 t2 : RTerm} (h : Plays W T a (.rank pref t1 t2)) {σ : Asg} (hσ : W.dom σ) :
    Rank (meanVal W σ) a pref (t1.den σ) (t2.den σ) := by
  intro k hk
  show W.mean a σ 0 k = true ↔ _
  rw [h.2 σ hσ _ _ ⟨rfl, by omega, by omega⟩]
  simp [Role.mean]

theorem Plays.onPath {a n : QVar} (h : Plays W T a (.onPath n)) {σ : Asg} (hσ : W.dom σ) :
    Marks W.nodes (meanVal W σ) a fun u => ∃ p ∈ T.nodeInsts bot, p.1 = u ∧ Subsumes W.dim p.2 (σ n) := by
  intro u hu
  show W.mean a σ 0 u = true ↔ _
  rw [h.2 σ hσ _ _ ⟨rfl, by omega, by omega⟩]
  simp [Role.mean, Int.ofNat_inj]

theorem Plays.reach {a n : QVar} (h : Plays W T a (.reach n)) {σ : Asg} (hσ : W.dom σ) :
    Marks W.nodes (meanVal W σ) a fun u => ∃ p ∈ T.nodeInsts bot, p.1 = u ∧ Cons W.dim p.2 (σ n) := by
  intro u hu
  show W.mean a σ 0 u = true ↔ _
  rw [h.2 σ hσ _ _ ⟨rfl, by omega, by omega⟩]
  simp [Role.mean, Int.ofNat_inj]

end Goexpdt

import Verif.Spec.Iface
import Verif.Lemmas.RenamingQuery
import Verif.Lemmas.CaptureAtom
namespace Goexpdt
open Spec

namespace Over

/-! ### Pairs of numbers -/

/-- Which number of the one context corresponds to which of the other, and the largest numbers in use. -/
structure Pairing where
  rel : Int → Int → Prop
  lo : Int
  lo' : Int

/-- The numbers are positive and in use, and the correspondence is one-to-one. -/
structure Pairing.Ok (w : Pairing) : Prop where
  lo : 0 ≤ w.lo
  lo' : 0 ≤ w.lo'
  rel : ∀ {n n'}, w.rel n n' → (0 < n ∧ n ≤ w.lo) ∧ (0 < n' ∧ n' ≤ w.lo')
  one : OneOne w.rel

/-- More numbers. -/
structure Pairing.Le (w w' : Pairing) : Prop where
  lo : w.lo ≤ w'.lo
  lo' : w.lo' ≤ w'.lo'
  rel : ∀ {n n'}, w.rel n n' → w'.rel n n'

theorem Pairing.Le.refl (w : Pairing) : w.Le w := ⟨Int.le_refl _, Int.le_refl _, id⟩
theorem Pairing.Le.trans {w w1 w2 : Pairing} (h : w.Le w1) (h' : w1.Le w2) : w.Le w2 :=
  ⟨Int.le_trans h.lo h'.lo, Int.le_trans h.lo' h'.lo', fun r => h'.rel (h.rel r)⟩

/-- One more pair. -/
def Pairing.add (w : Pairing) (n n' lo lo' : Int) : Pairing := { rel := fun a a' => w.rel a a' ∨ (a = n ∧ a' = n'), lo := lo, lo' := lo' }

theorem Pairing.add_le {w : Pairing} {n n' lo lo' : Int} (h1 : w.lo ≤ lo) (h2 : w.lo' ≤ lo') : w.Le (w.add n n' lo lo') :=
  ⟨h1, h2, .inl⟩

theorem Pairing.add_ok {w : Pairing} (hw : w.Ok) {n n' lo lo' : Int} (h1 : w.lo < n) (h2 : n ≤ lo) (h1' : w.lo' < n') (h2' : n' ≤ lo') :
    (w.add n n' lo lo').Ok := by
  have h0 := hw.lo
  have h0' := hw.lo'
  refine ⟨?_, ?_, ?_, ?_, ?_⟩
  · show 0 ≤ lo; omega
  · show 0 ≤ lo'; omega
  · rintro a a' (h | ⟨rfl, rfl⟩)
    · have := hw.rel h
      refine ⟨⟨this.1.1, ?_⟩, ⟨this.2.1, ?_⟩⟩
      · show a ≤ lo; omega
      · show a' ≤ lo'; omega
    · refine ⟨⟨?_, h2⟩, ⟨?_, h2'⟩⟩ <;> omega
  · rintro a b b' (h | ⟨rfl, rfl⟩) (h' | ⟨e, e'⟩)
    · exact hw.one.right h h'
    · have := hw.rel h; omega
    · have := hw.rel h'; omega
    · omega
  · rintro a a' b (h | ⟨rfl, rfl⟩) (h' | ⟨e, e'⟩)
    · exact hw.one.left h h'
    · have := hw.rel h; omega
    · have := hw.rel h'; omega
    · omega

/-- The numbers of a triple in the two contexts. -/
def NumR (w : Pairing) : Option Int → Option Int → Prop
  | none, none => True
  | some n, some n' => w.rel n n'
  | _, _ => False

theorem NumR.mono {w w' : Pairing} (h : w.Le w') {o o' : Option Int} (hr : NumR w o o') : NumR w' o o' := by
  cases o <;> cases o'
  · trivial
  · exact hr.elim
  · exact hr.elim
  · exact h.rel hr

/-- Two literals. -/
def LitR (w : Pairing) (l l' : Int) : Prop := ∃ n n', w.rel n n' ∧ ((l = n ∧ l' = n') ∨ (l = -n ∧ l' = -n'))

theorem LitR.mono {w w' : Pairing} (h : w.Le w') {l l' : Int} (hr : LitR w l l') : LitR w' l l' := by
  obtain ⟨n, n', h1, h2⟩ := hr
  exact ⟨n, n', h.rel h1, h2⟩

theorem LitR.neg {w : Pairing} {l l' : Int} (hr : LitR w l l') : LitR w (-l) (-l') := by
  obtain ⟨n, n', h1, ⟨e, e'⟩ | ⟨e, e'⟩⟩ := hr
  · exact ⟨n, n', h1, .inr ⟨by omega, by omega⟩⟩
  · exact ⟨n, n', h1, .inl ⟨by omega, by omega⟩⟩

/-- Two lists of clauses. -/
abbrev ClsR (w : Pairing) (c c' : List Clause) : Prop := All2 (All2 (LitR w)) c c'

theorem all2_mono {α β : Type} {P Q : α → β → Prop} (h : ∀ a b, P a b → Q a b) {l : List α} {l' : List β} (hl : All2 P l l') : All2 Q l l' := by
  induction hl with
  | nil => exact .nil
  | cons a _ ih => exact .cons (h _ _ a) ih

theorem all2_map2 {α β γ δ : Type} {P : α → β → Prop} {Q : γ → δ → Prop} {f : α → γ} {f' : β → δ} (h : ∀ a b, P a b → Q (f a) (f' b))
    {l : List α} {l' : List β} (hl : All2 P l l') : All2 Q (l.map f) (l'.map f') := by
  induction hl with
  | nil => exact .nil
  | cons a _ ih => exact .cons (h _ _ a) ih

theorem ClsR.mono {w w' : Pairing} (h : w.Le w') {c c' : List Clause} (hr : ClsR w c c') : ClsR w' c c' :=
  all2_mono (fun _ _ => all2_mono fun _ _ => LitR.mono h) hr

/-- Two formulas. -/
structure CnfR (w : Pairing) (c c' : CNF) : Prop where
  wf : WF c
  wf' : WF c'
  tv : c.tv ≤ w.lo
  tv' : c'.tv ≤ w.lo'
  sem : ClsR w c.sClauses c'.sClauses
  con : ClsR w c.cClauses c'.cClauses

theorem CnfR.mono {w w' : Pairing} (h : w.Le w') {c c' : CNF} (hr : CnfR w c c') : CnfR w' c c' :=
  ⟨hr.wf, hr.wf', Int.le_trans hr.tv h.lo, Int.le_trans hr.tv' h.lo', hr.sem.mono h, hr.con.mono h⟩

theorem cnfR_empty {w : Pairing} (hw : w.Ok) : CnfR w {} {} := ⟨WF.empty, WF.empty, hw.lo, hw.lo', .nil, .nil⟩
theorem cnfR_false {w : Pairing} (hw : w.Ok) : CnfR w FalseCNF FalseCNF :=
  ⟨WF.falseCNF, WF.falseCNF, hw.lo, hw.lo', .cons .nil .nil, .nil⟩

theorem all2_mem_left {α β : Type} {P : α → β → Prop} {l : List α} {l' : List β} (h : All2 P l l') {a : α} (ha : a ∈ l) : ∃ b ∈ l', P a b := by
  induction h with
  | nil => simp at ha
  | cons hab _ ih =>
    rcases List.mem_cons.1 ha with rfl | ha
    · exact ⟨_, List.mem_cons_self, hab⟩
    · obtain ⟨b, h1, h2⟩ := ih ha
      exact ⟨b, List.mem_cons_of_mem _ h1, h2⟩

theorem all2_mem_right {α β : Type} {P : α → β → Prop} {l : List α} {l' : List β} (h : All2 P l l') {b : β} (hb : b ∈ l') : ∃ a ∈ l, P a b := by
  induction h with
  | nil => simp at hb
  | cons hab _ ih =>
    rcases List.mem_cons.1 hb with rfl | hb
    · exact ⟨_, List.mem_cons_self, hab⟩
    · obtain ⟨a, h1, h2⟩ := ih hb
      exact ⟨a, List.mem_cons_of_mem _ h1, h2⟩

theorem ClsR.nonZero {w : Pairing} (hw : w.Ok) {c c' : List Clause} (h : ClsR w c c') : NonZero c ∧ NonZero c' := by
  constructor
  · intro cl hcl l hl
    obtain ⟨cl', -, h1⟩ := all2_mem_left h hcl
    obtain ⟨l', -, n, n', h2, h3⟩ := all2_mem_left h1 hl
    have := hw.rel h2
    omega
  · intro cl hcl l hl
    obtain ⟨cl', -, h1⟩ := all2_mem_right h hcl
    obtain ⟨l', -, n, n', h2, h3⟩ := all2_mem_right h1 hl
    have := hw.rel h2
    omega

theorem ClsR.bounded {w : Pairing} (hw : w.Ok) {c c' : List Clause} (h : ClsR w c c') : BoundedBy w.lo c ∧ BoundedBy w.lo' c' := by
  constructor
  · intro cl hcl l hl
    obtain ⟨cl', -, h1⟩ := all2_mem_left h hcl
    obtain ⟨l', -, n, n', h2, h3⟩ := all2_mem_left h1 hl
    have := hw.rel h2
    omega
  · intro cl hcl l hl
    obtain ⟨cl', -, h1⟩ := all2_mem_right h hcl
    obtain ⟨l', -, n, n', h2, h3⟩ := all2_mem_right h1 hl
    have := hw.rel h2
    omega

theorem ClsR.maxVar {w : Pairing} (hw : w.Ok) {c c' : List Clause} (h : ClsR w c c') : maxVar c ≤ w.lo ∧ maxVar c' ≤ w.lo' :=
  ⟨maxVar_le hw.lo (h.bounded hw).1, maxVar_le hw.lo' (h.bounded hw).2⟩

theorem maxInt_le {a b t : Int} (h1 : a ≤ t) (h2 : b ≤ t) : maxInt a b ≤ t := by unfold maxInt; split <;> assumption

theorem CnfR.appendSemantics {w : Pairing} (hw : w.Ok) {c c' : CNF} (h : CnfR w c c') {a a' : List Clause} (ha : ClsR w a a') :
    CnfR w (c.appendSemantics a) (c'.appendSemantics a') :=
  ⟨h.wf.appendSemantics (ha.nonZero hw).1, h.wf'.appendSemantics (ha.nonZero hw).2, maxInt_le h.tv (ha.maxVar hw).1,
    maxInt_le h.tv' (ha.maxVar hw).2, h.sem.append ha, h.con⟩

theorem CnfR.appendConsistency {w : Pairing} (hw : w.Ok) {c c' : CNF} (h : CnfR w c c') {a a' : List Clause} (ha : ClsR w a a') :
    CnfR w (c.appendConsistency a) (c'.appendConsistency a') :=
  ⟨h.wf.appendConsistency (ha.nonZero hw).1, h.wf'.appendConsistency (ha.nonZero hw).2, maxInt_le h.tv (ha.maxVar hw).1,
    maxInt_le h.tv' (ha.maxVar hw).2, h.sem, h.con.append ha⟩

theorem CnfR.conjunction {w : Pairing} (hw : w.Ok) {c c' e e' : CNF} (h : CnfR w c c') (h2 : CnfR w e e') :
    CnfR w (c.conjunction e) (c'.conjunction e') := (h.appendSemantics hw h2.sem).appendConsistency hw h2.con

theorem cnfR_fromClauses {w : Pairing} (hw : w.Ok) {a a' : List Clause} (ha : ClsR w a a') : CnfR w (FromClauses a) (FromClauses a') :=
  ⟨WF.fromClauses (ha.nonZero hw).1, WF.fromClauses (ha.nonZero hw).2, (ha.maxVar hw).1, (ha.maxVar hw).2, ha, .nil⟩

/-! ### Negation -/

theorem tseytinLoop_R {cs cs' : List Clause} {w : Pairing} (hw : w.Ok) {acc acc' : List Clause} {enc enc' : Clause} (hc : ClsR w cs cs')
    (ha : ClsR w acc acc') (he : All2 (LitR w) enc enc') :
    match CNF.tseytinLoop w.lo acc enc cs, CNF.tseytinLoop w.lo' acc' enc' cs' with
    | .ok (t, a, e), .ok (t', a', e') => ∃ w2 : Pairing, w.Le w2 ∧ w2.Ok ∧ w2.lo = t ∧ w2.lo' = t' ∧ ClsR w2 a a' ∧ All2 (LitR w2) e e'
    | .error t, .error t' => ∃ w2 : Pairing, w.Le w2 ∧ w2.Ok ∧ w2.lo = t ∧ w2.lo' = t'
    | _, _ => False := by
  induction cs generalizing cs' w acc acc' enc enc' with
  | nil =>
    cases hc
    exact ⟨w, .refl w, hw, rfl, rfl, ha, he⟩
  | cons c cs ih =>
    cases hc with
    | @cons _ b _ bs h hs =>
    cases h with
    | nil => exact ⟨w, .refl w, hw, rfl, rfl⟩
    | @cons l l' r r' h1 h2 =>
    cases h2 with
    | nil =>
      simp only [CNF.tseytinLoop]
      exact ih hw hs ha (he.append (.cons h1.neg .nil))
    | @cons m m' r r' h3 h4 =>
      simp only [CNF.tseytinLoop]
      have hle : w.Le (w.add (w.lo + 1) (w.lo' + 1) (w.lo + 1) (w.lo' + 1)) := Pairing.add_le (by omega) (by omega)
      have hok : (w.add (w.lo + 1) (w.lo' + 1) (w.lo + 1) (w.lo' + 1)).Ok :=
        Pairing.add_ok hw (by omega) (Int.le_refl _) (by omega) (Int.le_refl _)
      have hn : LitR (w.add (w.lo + 1) (w.lo' + 1) (w.lo + 1) (w.lo' + 1)) (w.lo + 1) (w.lo' + 1) :=
        ⟨_, _, .inr ⟨rfl, rfl⟩, .inl ⟨rfl, rfl⟩⟩
      have hcl : All2 (LitR (w.add (w.lo + 1) (w.lo' + 1) (w.lo + 1) (w.lo' + 1))) (l :: m :: r) (l' :: m' :: r') :=
        all2_mono (fun _ _ => LitR.mono hle) (.cons h1 (.cons h3 h4))
      have := ih hok (ClsR.mono hle hs)
        (((ha.mono hle).append (all2_map2 (f := fun lit => [-lit, -(w.lo + 1)]) (f' := fun lit => [-lit, -(w.lo' + 1)])
          (fun a b h => .cons h.neg (.cons hn.neg .nil)) hcl)).append (.cons (hcl.append (.cons hn .nil)) .nil))
        ((all2_mono (fun _ _ => LitR.mono hle) he).append (.cons hn .nil))
      revert this
      dsimp only [Pairing.add]
      generalize CNF.tseytinLoop (w.lo + 1) _ _ cs = r1
      generalize CNF.tseytinLoop (w.lo' + 1) _ _ bs = r2
      cases r1 <;> cases r2 <;> dsimp only
      · rintro ⟨w2, e1, e2⟩
        exact ⟨w2, hle.trans e1, e2⟩
      · exact id
      · exact id
      · rintro ⟨w2, e1, e2⟩
        exact ⟨w2, hle.trans e1, e2⟩

theorem hasEmpty_R {w : Pairing} {cs cs' : List Clause} (h : ClsR w cs cs') :
    cs'.any (fun cl => cl.length == 0) = cs.any fun cl => cl.length == 0 := by
  induction h with
  | nil => rfl
  | cons h1 _ ih => simp only [List.any_cons, ih, h1.length]

theorem CnfR.negate {w : Pairing} (hw : w.Ok) {c c' : CNF} (h : CnfR w c c') : ∃ w2 : Pairing, w.Le w2 ∧ w2.Ok ∧
    w2.lo = (c.negate (some w.lo)).tv ∧ w2.lo' = (c'.negate (some w.lo')).tv ∧ CnfR w2 (c.negate (some w.lo)) (c'.negate (some w.lo')) := by
  have hwf := h.wf.negate (some w.lo)
  have hwf' := h.wf'.negate (some w.lo')
  suffices ∃ w2 : Pairing, w.Le w2 ∧ w2.Ok ∧ w2.lo = (c.negate (some w.lo)).tv ∧ w2.lo' = (c'.negate (some w.lo')).tv ∧
      ClsR w2 (c.negate (some w.lo)).sClauses (c'.negate (some w.lo')).sClauses ∧
      ClsR w2 (c.negate (some w.lo)).cClauses (c'.negate (some w.lo')).cClauses by
    obtain ⟨w2, e1, e2, e3, e4, e5, e6⟩ := this
    exact ⟨w2, e1, e2, e3, e4, hwf, hwf', by omega, by omega, e5, e6⟩
  clear hwf hwf'
  have m1 : maxInt c.tv w.lo = w.lo := by have := h.tv; unfold maxInt; split <;> omega
  have m2 : maxInt c'.tv w.lo' = w.lo' := by have := h.tv'; unfold maxInt; split <;> omega
  unfold CNF.negate CNF.hasEmptySemanticClause
  simp only [m1, m2]
  rw [h.sem.length, hasEmpty_R h.sem]
  split
  · exact ⟨w, .refl w, hw, rfl, rfl, h.sem.append (.cons .nil .nil), h.con⟩
  split
  · exact ⟨w, .refl w, hw, rfl, rfl, .nil, h.con⟩
  · unfold CNF.tseytinNegation
    have := tseytinLoop_R hw h.sem (acc := []) (acc' := []) (enc := []) (enc' := []) .nil .nil
    dsimp only
    revert this
    cases e1 : CNF.tseytinLoop w.lo [] [] c.sClauses <;> cases e2 : CNF.tseytinLoop w.lo' [] [] c'.sClauses <;> dsimp only
    · rintro ⟨w2, f1, f2, rfl, rfl⟩
      exact ⟨w2, f1, f2, rfl, rfl, .nil, h.con.mono f1⟩
    · exact fun h => h.elim
    · exact fun h => h.elim
    · rintro ⟨w2, f1, f2, f3, f4, f5, f6⟩
      rw [f6.length]
      split
      · exact ⟨w2, f1, f2, f3, f4, .cons f6 .nil, (h.con.mono f1).append f5⟩
      · unfold CNF.addNegationIFFClauses
        dsimp only
        rw [← f3, ← f4]
        have hle : w2.Le (w2.add (w2.lo + 1) (w2.lo' + 1) (w2.lo + 1) (w2.lo' + 1)) := Pairing.add_le (by omega) (by omega)
        have hok : (w2.add (w2.lo + 1) (w2.lo' + 1) (w2.lo + 1) (w2.lo' + 1)).Ok :=
          Pairing.add_ok f2 (by omega) (Int.le_refl _) (by omega) (Int.le_refl _)
        have hn : LitR (w2.add (w2.lo + 1) (w2.lo' + 1) (w2.lo + 1) (w2.lo' + 1)) (w2.lo + 1) (w2.lo' + 1) :=
          ⟨_, _, .inr ⟨rfl, rfl⟩, .inl ⟨rfl, rfl⟩⟩
        have f6' := all2_mono (fun _ _ => LitR.mono hle) f6
        refine ⟨_, f1.trans hle, hok, rfl, rfl, .cons (.cons hn .nil) .nil, ?_⟩
        exact ((ClsR.mono hle ((h.con.mono f1).append f5)).append (all2_map2 (fun a b h => .cons h.neg (.cons hn .nil)) f6')).append
          (.cons (f6'.append (.cons hn.neg .nil)) .nil)

/-! ### Computations -/

/-- What is fixed: the context, the contract it keeps, and the names of the query. -/
structure Par (σ : Type) where
  d : Nat
  nodes : List Node
  I : QContext σ
  inv : σ → Prop
  view : σ → View
  name : QVar → ScopePath → QVar
  ids : List (List Char)
  R : QVar → QVar → Prop
  keeps : CtxContract d nodes I inv view name
  one : OneOne R

variable {σ : Type}

/-- Corresponding states of the basic context and of the other one. -/
structure At (J : Par σ) (w : Pairing) (s : Ctx) (t : σ) : Prop where
  ok : w.Ok
  inv : J.inv t
  dim : s.dim = J.d
  nodes : s.nodes = J.nodes
  topv : s.topv = w.lo
  top : (J.view t).top = w.lo'
  scopes : (J.view t).scopes = s.scopes
  ids : ∀ g ∈ s.scopes, g.target ∈ J.ids
  level : ∀ x, (J.view t).level x = (mapGet s.vars x).getD 0
  scope : ScopeOk s
  fn : VarsFun s
  nums : ∀ a a' i v, J.R a a' → NumR w (mapGet s.vmap ⟨a, i, v⟩) ((J.view t).num ⟨a', i, v⟩)

/-- What two computations return. -/
def ResR {α β : Type} (P : α → β → Prop) : Except Err α → Except Err β → Prop
  | .ok a, .ok b => P a b
  | .error e, .error e' => e' = e
  | _, _ => False

/-- Two computations that do the same up to numbers and names, where `n` scopes are open. -/
def SimG {α β : Type} (J : Par σ) (n : Nat) (w : Pairing) (Q : Pairing → α → β → Prop) (m : M α) (m' : MG σ β) : Prop :=
  ∀ w1 : Pairing, w.Le w1 → ∀ s t, At J w1 s t → s.scopes.length = n → ∃ w2 : Pairing, w1.Le w2 ∧ At J w2 (m s).2 (m' t).2 ∧
    (m s).2.scopes.length = n ∧ ResR (Q w2) (m s).1 (m' t).1

/-- A relation that does not depend on numbers. -/
abbrev K1 {α β : Type} (P : α → β → Prop) : Pairing → α → β → Prop := fun _ => P

variable {J : Par σ} {n : Nat} {w : Pairing} {α β γ δ : Type} {Pr : Pairing → α → β → Prop} {Q : Pairing → γ → δ → Prop}

theorem simG_pure {a : α} {b : β} (h : ∀ w1 : Pairing, w.Le w1 → w1.Ok → Pr w1 a b) : SimG J n w Pr (pure a) (pure b) :=
  fun w1 hw _ _ hs hl => ⟨w1, .refl w1, hs, hl, h w1 hw hs.ok⟩
theorem simG_throw (e : Err) : SimG J n w Pr (M.throw e) (MG.throw e) := fun w1 _ _ _ hs hl => ⟨w1, .refl w1, hs, hl, rfl⟩

theorem SimG.mono {m : M α} {m' : MG σ β} {w1 : Pairing} (h : SimG J n w Pr m m') (hw : w.Le w1) : SimG J n w1 Pr m m' :=
  fun w2 h2 => h w2 (hw.trans h2)

theorem simG_bindW {m : M α} {m' : MG σ β} {f : α → M γ} {f' : β → MG σ δ} (hm : SimG J n w Pr m m')
    (hf : ∀ w1 : Pairing, w.Le w1 → ∀ a b, Pr w1 a b → SimG J n w1 Q (f a) (f' b)) : SimG J n w Q (m >>= f) (m' >>= f') := by
  intro w1 hw s t hst hl
  obtain ⟨w2, h1, h2, h3, h4⟩ := hm w1 hw s t hst hl
  show ∃ w2 : Pairing, w1.Le w2 ∧ At J w2 (M.bind' m f s).2 (MG.bind' m' f' t).2 ∧ (M.bind' m f s).2.scopes.length = n ∧
    ResR (Q w2) (M.bind' m f s).1 (MG.bind' m' f' t).1
  unfold M.bind' MG.bind'
  cases hr : m s with
  | mk r s1 =>
    cases hr' : m' t with
    | mk r' t1 =>
      rw [hr, hr'] at h2 h4
      rw [hr] at h3
      cases r <;> cases r'
      · exact ⟨w2, h1, h2, h3, h4⟩
      · exact h4.elim
      · exact h4.elim
      · obtain ⟨w3, g1, g2⟩ := hf w2 (hw.trans h1) _ _ h4 w2 (.refl w2) s1 t1 h2 h3
        exact ⟨w3, h1.trans g1, g2⟩

theorem simG_bind {P : α → β → Prop} {m : M α} {m' : MG σ β} {f : α → M γ} {f' : β → MG σ δ} (hm : SimG J n w (K1 P) m m')
    (hf : ∀ a b, P a b → SimG J n w Q (f a) (f' b)) : SimG J n w Q (m >>= f) (m' >>= f') :=
  simG_bindW hm fun _ hw a b h => (hf a b h).mono hw

theorem simG_same {m : M α} {m' : MG σ α} {f : α → M γ} {f' : α → MG σ δ} (hm : SimG J n w (K1 Eq) m m')
    (hf : ∀ a, SimG J n w Q (f a) (f' a)) : SimG J n w Q (m >>= f) (m' >>= f') := simG_bind hm fun a _ e => e ▸ hf a

theorem simG_wrapErr (pre : String) {m : M α} {m' : MG σ β} (hm : SimG J n w Pr m m') :
    SimG J n w Pr (M.wrapErr pre m) (MG.wrapErr pre m') := by
  intro w1 hw s t hst hl
  obtain ⟨w2, h1, h2, h3, h4⟩ := hm w1 hw s t hst hl
  unfold M.wrapErr MG.wrapErr
  cases hr : m s with
  | mk r s1 =>
    cases hr' : m' t with
    | mk r' t1 =>
      rw [hr, hr'] at h2 h4
      rw [hr] at h3
      cases r <;> cases r'
      · exact ⟨w2, h1, h2, h3, congrArg (Err.wrap pre) h4⟩
      · exact h4.elim
      · exact h4.elim
      · exact ⟨w2, h1, h2, h3, h4⟩

theorem simG_liftR {P : α → β → Prop} {r : Except Err α} {r' : Except Err β} (h : ResR P r r') : SimG J n w (K1 P) (M.lift r) (MG.lift r') :=
  fun w1 _ _ _ hs hl => ⟨w1, .refl w1, hs, hl, h⟩

theorem simG_lift (r : Except Err α) : SimG J n w (K1 Eq) (M.lift r) (MG.lift r) := simG_liftR (by cases r <;> exact rfl)

theorem simG_ite {p : Prop} [Decidable p] {x y : M α} {x' y' : MG σ β} (hx : SimG J n w Pr x x') (hy : SimG J n w Pr y y') :
    SimG J n w Pr (if p then x else y) (if p then x' else y') := by
  split
  · exact hx
  · exact hy

/-- A call that changes nothing but hidden state. -/
theorem At.hidden {s : Ctx} {t t' : σ} (h : At J w s t) (hi : J.inv t') (hv : J.view t' = J.view t) : At J w s t' :=
  ⟨h.ok, hi, h.dim, h.nodes, h.topv, by rw [hv]; exact h.top, by rw [hv]; exact h.scopes, h.ids, by rw [hv]; exact h.level, h.scope, h.fn,
    by rw [hv]; exact h.nums⟩

theorem simG_dim : SimG J n w (K1 Eq) M.dim (dim J.I) := by
  intro w1 _ s t h hl
  obtain ⟨a, t', e, hi, rfl, hv⟩ := J.keeps.dim t h.inv
  unfold dim
  rw [e]
  exact ⟨w1, .refl w1, h.hidden hi hv, hl, h.dim⟩

theorem simG_nodes : SimG J n w (K1 Eq) M.nodes (nodes J.I) := by
  intro w1 _ s t h hl
  obtain ⟨a, t', e, hi, rfl, hv⟩ := J.keeps.nodes t h.inv
  unfold nodes
  rw [e]
  exact ⟨w1, .refl w1, h.hidden hi hv, hl, h.nodes⟩

theorem simG_scopeVar (x : QVar) : SimG J n w (K1 (NameR J.name J.ids x)) (M.scopeVar x) (scopeVar J.I x) := by
  intro w1 _ s t h hl
  have hlev : (mapGet s.vars x).getD 0 ≤ s.scopes.length := by
    cases hv : mapGet s.vars x with
    | none => simp
    | some k => simpa using (h.scope x k hv).2
  obtain ⟨a, t', e, hi, ha, hv⟩ := J.keeps.scopeVar t x h.inv (by rw [h.level, h.scopes]; exact hlev)
  unfold scopeVar
  rw [e]
  refine ⟨w1, .refl w1, h.hidden hi hv, hl, ?_⟩
  simp only [M.scopeVar]
  rw [scopeVar_eq h.scope]
  refine ⟨_, fun g hg => h.ids g (List.mem_of_mem_take hg), rfl, ?_⟩
  rw [ha, h.level, h.scopes]

theorem simG_scopeConst (c : QConst) : SimG J n w (K1 (fun c c' : QConst => c'.val = c.val)) (M.scopeConst c) (scopeConst J.I c) := by
  intro w1 _ s t h hl
  obtain ⟨a, t', e, hi, ha, hv⟩ := J.keeps.scopeConst t c h.inv
  unfold scopeConst
  rw [e]
  refine ⟨w1, .refl w1, h.hidden hi hv, hl, ?_⟩
  show a.1.val = (s.scopeConst c).1.val
  rw [scopeConst_eq, ha, h.scopes]

/-- After a constant was resolved only its values matter. -/
theorem simG_const (c : QConst) {f : QConst → M γ} {f' : QConst → MG σ δ} (hf' : ∀ i j v, f ⟨i, v⟩ = f ⟨j, v⟩)
    (hf : ∀ k, SimG J n w Q (f k) (f' k)) : SimG J n w Q (M.scopeConst c >>= f) (scopeConst J.I c >>= f') := by
  refine simG_bind (simG_scopeConst c) fun a b e => ?_
  obtain ⟨i, v⟩ := a
  obtain ⟨j, v'⟩ := b
  dsimp only at e
  subst e
  rw [hf' i j]
  exact hf _

theorem simG_addVar (x : QVar) : SimG J n w (K1 Eq) (M.addVar x) (addVar J.I x) := by
  intro w1 _ s t h hl
  obtain ⟨a, t', e, hi, hv⟩ := J.keeps.addVar t x h.inv
  unfold addVar
  rw [e]
  refine ⟨w1, .refl w1, ?_, ?_, rfl⟩
  · have hsc := addVar_scopes s x
    have hfix : (s.addVar x).dim = s.dim ∧ (s.addVar x).nodes = s.nodes ∧ (s.addVar x).topv = s.topv ∧ (s.addVar x).vmap = s.vmap := by
      unfold Ctx.addVar
      split
      · exact ⟨rfl, rfl, rfl, rfl⟩
      · split <;> exact ⟨rfl, rfl, rfl, rfl⟩
    show At J w1 (s.addVar x) t'
    refine ⟨h.ok, hi, hfix.1.trans h.dim, hfix.2.1.trans h.nodes, hfix.2.2.1.trans h.topv, by rw [hv]; exact h.top,
      by rw [hv, hsc]; exact h.scopes, by rw [hsc]; exact h.ids, ?_, exec_scopeOk (.addVar x) s (by simp) h.fn h.scope,
      exec_varsFun (.addVar x) s h.fn, by rw [hv, hfix.2.2.2]; exact h.nums⟩
    intro y
    rw [hv, addVar_vars]
    dsimp only
    rw [h.level x, h.level y, h.scopes]
    by_cases hyx : y = x
    · subst hyx
      cases hm : mapGet s.vars y with
      | none =>
        by_cases h0 : s.scopes = []
        · simp [h0]
        · simp [h0]
      | some k =>
        have := (h.scope y k hm).1
        simp only [Option.getD_some, reduceCtorEq, false_and, and_false, if_false]
        rw [if_neg (by omega)]
    · rw [if_neg (fun e => hyx e.1), if_neg (fun e => hyx e.2.2.symm)]
  · show (s.addVar x).scopes.length = n
    rw [addVar_scopes]; exact hl

theorem simG_setScope (h0 : 0 < n) (i : Int) (val : List FeatV) : SimG J n w (K1 Eq) (M.setScope i val) (setScope J.I i val) := by
  intro w1 _ s t h hl
  have hne : s.scopes ≠ [] := by intro e; rw [e] at hl; simp at hl; omega
  obtain ⟨gs, g, e⟩ : ∃ gs g, s.scopes = gs ++ [g] := ⟨s.scopes.dropLast, s.scopes.getLast hne, (List.dropLast_concat_getLast hne).symm⟩
  obtain ⟨a, t', e', hi, hv⟩ := J.keeps.setScope t i val gs g h.inv (h.scopes.trans e)
  have hb : M.setScope i val s = (.ok (), { s with scopes := gs ++ [{ g with vIdx := i, value := val }] }) := by
    unfold M.setScope Ctx.setScope
    rw [if_neg (by simpa using hne), e, setLast_append]
  unfold setScope
  rw [hb, e']
  have h1 := exec_scopeOk (.setScope i val) s (by simp) h.fn h.scope
  have h2 := exec_varsFun (.setScope i val) s h.fn
  have hx : Op.exec (.setScope i val) s = { s with scopes := gs ++ [{ g with vIdx := i, value := val }] } := congrArg Prod.snd hb
  rw [hx] at h1 h2
  refine ⟨w1, .refl w1, ⟨h.ok, hi, h.dim, h.nodes, h.topv, by rw [hv]; exact h.top, by rw [hv], ?_, by rw [hv]; exact h.level, h1, h2,
    by rw [hv]; exact h.nums⟩, ?_, rfl⟩
  · intro g' hg'
    rcases List.mem_append.1 hg' with hg' | hg'
    · exact h.ids g' (by rw [e]; exact List.mem_append_left _ hg')
    · rw [List.mem_singleton.1 hg']
      exact h.ids g (by rw [e]; simp)
  · rw [e] at hl
    simpa using hl

theorem simG_cnfVarExists {v v' : QVar} (hR : J.R v v') (i a : Int) :
    SimG J n w (K1 Eq) (M.cnfVarExists ⟨v, i, a⟩) (cnfVarExists J.I ⟨v', i, a⟩) := by
  intro w1 _ s t h hl
  obtain ⟨b, t', e, hi, hb, hv⟩ := J.keeps.exist t ⟨v', i, a⟩ h.inv
  unfold cnfVarExists
  rw [e]
  refine ⟨w1, .refl w1, h.hidden hi hv, hl, ?_⟩
  show s.cnfVarExists _ = b
  rw [hb]
  have := h.nums v v' i a hR
  unfold Ctx.cnfVarExists
  revert this
  cases mapGet s.vmap ⟨v, i, a⟩ <;> cases (J.view t).num ⟨v', i, a⟩
  · exact fun _ => rfl
  · exact fun h => h.elim
  · exact fun h => h.elim
  · exact fun _ => rfl

theorem simG_cnfVar {v v' : QVar} (hR : J.R v v') (i a : Int) :
    SimG J n w (fun w n n' => w.rel n n') (M.cnfVar ⟨v, i, a⟩) (cnfVar J.I ⟨v', i, a⟩) := by
  intro w1 _ s t h hl
  have hnum := h.nums v v' i a hR
  unfold M.cnfVar cnfVar Ctx.cnfVar
  cases h1 : mapGet s.vmap ⟨v, i, a⟩ with
  | some k =>
    cases h2 : (J.view t).num ⟨v', i, a⟩ with
    | none => rw [h1, h2] at hnum; exact hnum.elim
    | some k' =>
      rw [h1, h2] at hnum
      obtain ⟨b, t', e, hi, rfl, hv⟩ := J.keeps.known t _ _ h.inv h2
      rw [e]
      exact ⟨w1, .refl w1, h.hidden hi hv, hl, hnum⟩
  | none =>
    cases h2 : (J.view t).num ⟨v', i, a⟩ with
    | some _ => rw [h1, h2] at hnum; exact hnum.elim
    | none =>
      obtain ⟨b, t', e, hi, hb, hb', hv⟩ := J.keeps.new t _ h.inv h2
      rw [e]
      rw [h.top] at hb
      have hle : w1.Le (w1.add (s.topv + 1) b (s.topv + 1) (J.view t').top) := Pairing.add_le (by rw [h.topv]; omega) (by omega)
      refine ⟨_, hle, ⟨Pairing.add_ok h.ok (by rw [h.topv]; omega) (Int.le_refl _) hb hb', hi, h.dim, h.nodes, rfl, rfl, ?_, h.ids, ?_, h.scope,
        h.fn, ?_⟩, hl, .inr ⟨rfl, rfl⟩⟩
      · rw [hv]; exact h.scopes
      · rw [hv]; exact h.level
      · intro u u' j c hu
        rw [hv]
        dsimp only
        rw [mapGet_cons]
        unfold upd
        by_cases hu1 : u = v ∧ j = i ∧ c = a
        · obtain ⟨rfl, rfl, rfl⟩ := hu1
          rw [if_pos rfl, if_pos (by rw [J.one.right hu hR])]
          exact .inr ⟨rfl, rfl⟩
        · rw [if_neg (fun e => hu1 (by cases e; exact ⟨rfl, rfl, rfl⟩)),
            if_neg (fun e => hu1 (by injection e with e1 e2 e3; subst e1; exact ⟨J.one.left hu hR, e2, e3⟩))]
          exact (h.nums u u' j c hu).mono hle

/-- The negation of a formula with the largest number of the context. -/
def negStepG (I : QContext σ) (c : CNF) : MG σ CNF := do
  let top ← topV I
  let n := c.negate (some top)
  updateTopV I n.topV
  pure n

theorem simG_negStep {c c' : CNF} (hc : CnfR w c c') : SimG J n w CnfR (negStep c) (negStepG J.I c') := by
  intro w1 hw s t h hl
  obtain ⟨w2, e1, e2, e3, e4, e5⟩ := (hc.mono hw).negate h.ok
  obtain ⟨a, t1, f1, hi, rfl, hv⟩ := J.keeps.topV t h.inv
  obtain ⟨b, t2, g1, hi2, g2, g3, hv2⟩ := J.keeps.updateTopV t1 (c'.negate (some (J.view t).top)).tv hi
  have hb : negStepG J.I c' t = (.ok (c'.negate (some (J.view t).top)), t2) := by
    show MG.bind' (topV J.I) _ t = _
    unfold MG.bind' topV
    rw [f1]
    show MG.bind' (updateTopV J.I _) _ t1 = _
    unfold MG.bind' updateTopV CNF.topV
    rw [g1]
    rfl
  rw [negStep_eq, hb, h.topv, h.top]
  rw [h.top] at g3
  have hs : (s.updateTopV (c.negate (some w1.lo)).tv).2 = { s with topv := w2.lo } := by
    have := e1.lo
    unfold Ctx.updateTopV
    rw [h.topv, ← e3]
    split
    · omega
    · rfl
  rw [hs]
  have hle : w2.Le { w2 with lo' := (J.view t2).top } := ⟨Int.le_refl _, by rw [e4]; exact g3, id⟩
  refine ⟨{ w2 with lo' := (J.view t2).top }, e1.trans hle, ⟨⟨e2.lo, Int.le_trans e2.lo' hle.lo', ?_, e2.one⟩, hi2, h.dim, h.nodes, rfl, rfl, ?_,
    h.ids, ?_, h.scope, h.fn, ?_⟩, hl, e5.mono hle⟩
  · intro k k' hk
    have h1 := e2.rel hk
    have h2 := hle.lo'
    exact ⟨h1.1, h1.2.1, Int.le_trans h1.2.2 h2⟩
  · rw [hv2, hv]; exact h.scopes
  · rw [hv2, hv]; exact h.level
  · rw [hv2, hv]
    exact fun u u' j k hu => (h.nums u u' j k hu).mono (e1.trans hle)

/-! ### Clauses -/

theorem simG_allocLit {l l' : SLit} (h : SLitR J.R l l') : SimG J n w LitR (Goexpdt.allocLit l) (allocLit J.I l') := by
  obtain ⟨p, ⟨v, i, a⟩⟩ := l
  obtain ⟨p', ⟨v', i', a'⟩⟩ := l'
  obtain ⟨h1, h2, h3, h4⟩ := h
  dsimp only at h1 h2 h3 h4
  subst h1 h3 h4
  refine simG_bindW (simG_cnfVar h2 _ _) fun w1 _ a b e => simG_pure fun w2 h2 _ => ?_
  cases p'
  · exact ⟨a, b, h2.rel e, .inr ⟨rfl, rfl⟩⟩
  · exact ⟨a, b, h2.rel e, .inl ⟨rfl, rfl⟩⟩

theorem simG_allocClause {c c' : SClause} (h : All2 (SLitR J.R) c c') :
    SimG J n w (fun w => All2 (LitR w)) (Goexpdt.allocClause c) (allocClause J.I c') := by
  induction h generalizing w with
  | nil => exact simG_pure fun _ _ _ => .nil
  | cons h _ ih =>
    exact simG_bindW (simG_allocLit h) fun w1 _ a b e => simG_bindW ih fun w2 h2 a' b' e' => simG_pure fun w3 h3 _ =>
      .cons (e.mono (h2.trans h3)) (all2_mono (fun _ _ => LitR.mono h3) e')

theorem simG_allocClauses {c c' : List SClause} (h : All2 (All2 (SLitR J.R)) c c') :
    SimG J n w ClsR (Goexpdt.allocClauses c) (allocClauses J.I c') := by
  induction h generalizing w with
  | nil => exact simG_pure fun _ _ _ => .nil
  | cons h _ ih =>
    exact simG_bindW (simG_allocClause h) fun w1 _ a b e => simG_bindW ih fun w2 h2 a' b' e' => simG_pure fun w3 h3 _ =>
      .cons (all2_mono (fun _ _ => LitR.mono (h2.trans h3)) e) (ClsR.mono h3 e')

/-- A computation whose description needs the invariant of the numbers. -/
theorem simG_ok {m : M α} {m' : MG σ β} (h : ∀ w1 : Pairing, w.Le w1 → w1.Ok → SimG J n w1 Pr m m') : SimG J n w Pr m m' :=
  fun w1 hw s t hs hl => h w1 hw hs.ok w1 (.refl w1) s t hs hl

theorem simG_emitFrom {st st' : List Step} (h : All2 (StepR J.R) st st') :
    ∀ {w : Pairing} {c c' : CNF}, CnfR w c c' → SimG J n w CnfR (Goexpdt.emitFrom c st) (emitFrom J.I c' st') := by
  induction h with
  | nil => exact fun hc => simG_pure fun _ h _ => hc.mono h
  | @cons a b _ _ h _ ih =>
    intro w c c' hc
    cases a <;> cases b <;> try exact h.elim
    · exact simG_bindW (simG_allocClauses h) fun w1 h1 a b e => ih (hc.mono h1)
    · exact simG_bindW (simG_allocClauses h) fun w1 h1 a b e => simG_ok fun w2 h2 ok => ih ((hc.mono (h1.trans h2)).appendSemantics ok (ClsR.mono h2 e))
    · exact simG_bindW (simG_allocClauses h) fun w1 h1 a b e => simG_ok fun w2 h2 ok => ih ((hc.mono (h1.trans h2)).appendConsistency ok (ClsR.mono h2 e))

theorem simG_emit {st st' : List Step} (h : All2 (StepR J.R) st st') : SimG J n w CnfR (Goexpdt.emit st) (emit J.I st') :=
  simG_ok fun _ _ ok => simG_emitFrom h (cnfR_empty ok)

theorem simG_emitF {c c' : List SClause} (hc : All2 (All2 (SLitR J.R)) c c') {st st' : List Step} (h : All2 (StepR J.R) st st') :
    SimG J n w CnfR (Goexpdt.emitF c st) (emitF J.I c' st') :=
  simG_bindW (simG_allocClauses hc) fun _ _ _ _ e => simG_ok fun _ h2 ok => simG_emitFrom h (cnfR_fromClauses ok (ClsR.mono h2 e))

theorem simG_retTrue : SimG J n w CnfR Goexpdt.retTrue retTrue := simG_pure fun _ _ ok => cnfR_empty ok
theorem simG_retFalse : SimG J n w CnfR Goexpdt.retFalse retFalse := simG_pure fun _ _ ok => cnfR_false ok

theorem simG_validateM (cs : List QConst) : SimG J n w (K1 Eq) (Goexpdt.validateM cs) (validateM J.I cs) :=
  simG_same simG_dim fun _ => simG_lift _

end Over

end Goexpdt

import Verif.Lemmas.IfaceQuery
import Verif.Lemmas.Closed
/- From corresponding formulas to the same meaning. -/
namespace Goexpdt
open Spec

namespace Over

/-! ### Valuations -/

/-- Corresponding numbers have the same truth value. -/
def Matches (w : Pairing) (β β' : Val) : Prop := ∀ n n', w.rel n n' → β n.toNat = β' n'.toNat

theorem exists_left {w : Pairing} (hw : w.Ok) (β' : Val) : ∃ β, Matches w β β' := by
  classical
  refine ⟨fun k => decide (∃ n', w.rel k n' ∧ β' n'.toNat = true), fun n n' h => ?_⟩
  have h0 := (hw.rel h).1.1
  have e : ((n.toNat : Nat) : Int) = n := by omega
  rw [Bool.eq_iff_iff, decide_eq_true_iff, e]
  constructor
  · rintro ⟨m, h1, h2⟩
    rw [hw.one.right h h1]; exact h2
  · exact fun h2 => ⟨n', h, h2⟩

theorem exists_right {w : Pairing} (hw : w.Ok) (β : Val) : ∃ β', Matches w β β' := by
  classical
  refine ⟨fun k => decide (∃ n, w.rel n k ∧ β n.toNat = true), fun n n' h => ?_⟩
  have h0 := (hw.rel h).2.1
  have e : ((n'.toNat : Nat) : Int) = n' := by omega
  rw [Bool.eq_iff_iff, decide_eq_true_iff, e]
  constructor
  · exact fun h2 => ⟨n, h, h2⟩
  · rintro ⟨m, h1, h2⟩
    rw [hw.one.left h h1]; exact h2

theorem litTrue_iff {w : Pairing} (hw : w.Ok) {β β' : Val} (hm : Matches w β β') {l l' : Int} (h : LitR w l l') : litTrue β l ↔ litTrue β' l' := by
  obtain ⟨n, n', h1, ⟨e, e'⟩ | ⟨e, e'⟩⟩ := h
  · rw [e, e']
    have h2 := hw.rel h1
    have h3 := hm n n' h1
    unfold litTrue
    rw [if_pos h2.1.1, if_pos h2.2.1, show n.natAbs = n.toNat by omega, show n'.natAbs = n'.toNat by omega, h3]
  · subst e; subst e'
    have h2 := hw.rel h1
    have h3 := hm n n' h1
    unfold litTrue
    rw [if_neg (by omega), if_neg (by omega), show (-n).natAbs = n.toNat by omega, show (-n').natAbs = n'.toNat by omega, h3]

theorem clausesTrue_iff {w : Pairing} (hw : w.Ok) {β β' : Val} (hm : Matches w β β') {c c' : List Clause} (h : ClsR w c c') :
    clausesTrue β c ↔ clausesTrue β' c' := by
  constructor
  · intro ht cl' hcl'
    obtain ⟨cl, h1, h2⟩ := all2_mem_right h hcl'
    obtain ⟨l, h3, h4⟩ := ht cl h1
    obtain ⟨l', h5, h6⟩ := all2_mem_left h2 h3
    exact ⟨l', h5, (litTrue_iff hw hm h6).1 h4⟩
  · intro ht cl hcl
    obtain ⟨cl', h1, h2⟩ := all2_mem_left h hcl
    obtain ⟨l', h3, h4⟩ := ht cl' h1
    obtain ⟨l, h5, h6⟩ := all2_mem_right h2 h3
    exact ⟨l, h5, (litTrue_iff hw hm h6).2 h4⟩

theorem satisfiable_iff {w : Pairing} (hw : w.Ok) {c c' : CNF} (h : CnfR w c c') : Satisfiable c' ↔ Satisfiable c := by
  constructor
  · rintro ⟨β', h1, h2⟩
    obtain ⟨β, hm⟩ := exists_left hw β'
    exact ⟨β, (clausesTrue_iff hw hm h.sem).2 h1, (clausesTrue_iff hw hm h.con).2 h2⟩
  · rintro ⟨β, h1, h2⟩
    obtain ⟨β', hm⟩ := exists_right hw β
    exact ⟨β', (clausesTrue_iff hw hm h.sem).1 h1, (clausesTrue_iff hw hm h.con).1 h2⟩

/-! ### Instances -/

variable {σ : Type} {J : Par σ}

theorem reads_iff {w : Pairing} {s : Ctx} {t : σ} (h : At J w s t) {β β' : Val} (hm : Matches w β β') {n n' : QVar} (hr : J.R n n')
    (hn : ∀ i < J.d, ∀ v ∈ featVals, Named s ⟨n, (i : Nat), v⟩) (e : PInst) : Reads J.d s β n e ↔ ReadsIn J.d (J.view t) β' n' e := by
  unfold Reads ReadsIn
  have key : ∀ i < J.d, ∀ v ∈ featVals, ∃ k, (J.view t).num ⟨n', (i : Nat), v⟩ = some k ∧ symVal s β ⟨n, (i : Nat), v⟩ = β' k.toNat := by
    intro i hi v hv
    obtain ⟨k, hk⟩ := hn i hi v hv
    have := h.nums n n' i v hr
    rw [hk] at this
    cases e : (J.view t).num ⟨n', (i : Nat), v⟩ with
    | none => rw [e] at this; exact this.elim
    | some k' =>
      rw [e] at this
      refine ⟨k', rfl, ?_⟩
      have h2 := (h.ok.rel this).1.1
      unfold symVal num
      rw [hk]
      show β k.natAbs = _
      rw [show k.natAbs = k.toNat by omega]
      exact hm k k' this
  constructor
  · intro h1 i hi v hv
    obtain ⟨k, e1, e2⟩ := key i hi v hv
    exact ⟨k, e1, by rw [← e2]; exact h1 i hi v hv⟩
  · intro h1 i hi v hv
    obtain ⟨k, e1, e2⟩ := key i hi v hv
    obtain ⟨k', e3, e4⟩ := h1 i hi v hv
    rw [e1] at e3
    cases e3
    rw [e2, e4]

theorem faithful_transfer {w : Pairing} {s : Ctx} {t : σ} (h : At J w s t) {c c' : CNF} (hc : CnfR w c c') {names : List QVar} {P : Asg → Prop}
    (hnm : ∀ n ∈ names, ∃ n', J.R n n') (hn : ∀ n ∈ names, ∀ i < J.d, ∀ v ∈ featVals, Named s ⟨n, (i : Nat), v⟩)
    (hf : Faithful J.d names P s c) : FaithfulIn J.d J.R names P (J.view t) c' := by
  have hs {β β' : Val} (hm : Matches w β β') : SemTrue β c ↔ SemTrue β' c' := clausesTrue_iff h.ok hm hc.sem
  have hco {β β' : Val} (hm : Matches w β β') : ConTrue β c ↔ ConTrue β' c' := clausesTrue_iff h.ok hm hc.con
  have hr {β β' : Val} (hm : Matches w β β') (τ : Asg) :
      (∀ n ∈ names, Reads J.d s β n (τ n)) ↔ ∀ n ∈ names, ∀ n', J.R n n' → ReadsIn J.d (J.view t) β' n' (τ n) := by
    constructor
    · exact fun h1 n hnn n' hR => (reads_iff h hm hR (hn n hnn) _).1 (h1 n hnn)
    · intro h1 n hnn
      obtain ⟨n', hR⟩ := hnm n hnn
      exact (reads_iff h hm hR (hn n hnn) _).2 (h1 n hnn n' hR)
  refine ⟨hnm, (satisfiable_iff h.ok hc).trans hf.sat, ?_, ?_, ?_, ?_, ?_⟩
  · rintro β' ⟨h1, h2⟩
    obtain ⟨β, hm⟩ := exists_left h.ok β'
    obtain ⟨τ, h3, h4⟩ := hf.decode β ⟨(hs hm).2 h1, (hco hm).2 h2⟩
    exact ⟨τ, h3, (hr hm τ).1 h4⟩
  · intro τ hτ
    obtain ⟨β, ⟨h1, h2⟩, h3⟩ := hf.encode τ hτ
    obtain ⟨β', hm⟩ := exists_right h.ok β
    exact ⟨β', ⟨(hs hm).1 h1, (hco hm).1 h2⟩, (hr hm τ).1 h3⟩
  · intro β' h1
    obtain ⟨β, hm⟩ := exists_left h.ok β'
    obtain ⟨τ, h2⟩ := hf.reads β ((hco hm).2 h1)
    exact ⟨τ, (hr hm τ).1 h2⟩
  · intro τ
    obtain ⟨β, h1, h2⟩ := hf.con τ
    obtain ⟨β', hm⟩ := exists_right h.ok β
    exact ⟨β', (hco hm).1 h1, (hr hm τ).1 h2⟩
  · intro β' τ h1 h2
    obtain ⟨β, hm⟩ := exists_left h.ok β'
    rw [← hs hm]
    exact hf.sem β τ ((hco hm).2 h1) ((hr hm τ).2 h2)

/-! ### The start -/

theorem at_start (J : Par σ) {t : σ} (hu : Unused J.inv J.view t) :
    At J { rel := fun _ _ => False, lo := 0, lo' := (J.view t).top } (BasicQContext J.d J.nodes) t where
  ok := ⟨Int.le_refl _, hu.top, fun h => h.elim, fun h => h.elim, fun h => h.elim⟩
  inv := hu.inv
  dim := rfl
  nodes := rfl
  topv := rfl
  top := rfl
  scopes := hu.scopes
  ids := fun g hg => absurd hg List.not_mem_nil
  level := hu.level
  scope := fun v k h => by cases h
  fn := fun v k h => by cases h
  nums a a' i v _ := by
    rw [hu.num]; trivial

end Over

theorem names_form {q : Query} {d : Nat} {T : DTree} {ids : List (List Char)} : ∀ {gs : List Scope}, (∀ g ∈ gs, g.target ∈ ids) →
    (∀ i ∈ q.idNames, i ∈ ids) → ∀ n ∈ q.names d T gs, ∃ x ∈ q.varNames, ∃ hs : List Scope, (∀ g ∈ hs, g.target ∈ ids) ∧ n = x ++ suffix hs := by
  induction q with
  | nil => intro gs _ _ n hn; cases hn
  | atom a => intro gs _ _ n hn; cases hn
  | and q1 q2 i1 i2 =>
    intro gs h1 h2 n hn
    rcases List.mem_append.1 hn with hn | hn
    · obtain ⟨x, hx, h⟩ := i1 h1 (fun i h => h2 i (List.mem_append_left _ h)) n hn
      exact ⟨x, List.mem_append_left _ hx, h⟩
    · obtain ⟨x, hx, h⟩ := i2 h1 (fun i h => h2 i (List.mem_append_right _ h)) n hn
      exact ⟨x, List.mem_append_right _ hx, h⟩
  | or q1 q2 i1 i2 =>
    intro gs h1 h2 n hn
    rcases List.mem_append.1 hn with hn | hn
    · obtain ⟨x, hx, h⟩ := i1 h1 (fun i h => h2 i (List.mem_append_left _ h)) n hn
      exact ⟨x, List.mem_append_left _ hx, h⟩
    · obtain ⟨x, hx, h⟩ := i2 h1 (fun i h => h2 i (List.mem_append_right _ h)) n hn
      exact ⟨x, List.mem_append_right _ hx, h⟩
  | not q ih => intro gs h1 h2 n hn; exact ih h1 h2 n hn
  | withVar x q ih =>
    intro gs h1 h2 n hn
    rcases List.mem_cons.1 hn with rfl | hn
    · exact ⟨x, List.mem_cons_self, gs, h1, rfl⟩
    · obtain ⟨y, hy, h⟩ := ih h1 h2 n hn
      exact ⟨y, List.mem_cons_of_mem _ hy, h⟩
  | forallG c q ih =>
    intro gs h1 h2 n hn
    obtain ⟨g, hg, hn⟩ := List.mem_flatMap.1 hn
    have ht : g.target = c.id := by
      obtain ⟨p, -, rfl⟩ := List.mem_map.1 hg
      rfl
    refine ih (gs := gs ++ [g]) ?_ (fun i h => h2 i (List.mem_cons_of_mem _ h)) n hn
    intro g' hg'
    rcases List.mem_append.1 hg' with hg' | hg'
    · exact h1 g' hg'
    · rw [List.mem_singleton.1 hg', ht]; exact h2 _ List.mem_cons_self

end Goexpdt

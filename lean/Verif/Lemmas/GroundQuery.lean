import Verif.Lemmas.Ground
/- Whole queries, with variables declared at any depth. -/
namespace Goexpdt
open Spec Props

/-! ### conjunctions -/

/-- The names declared by the first `i` queries of a list, and before. -/
def namesUpTo (Γ : List QVar) (gs : List Ground) (i : Nat) : List QVar := (gs.take i).foldl (fun Γ g => g.names ++ Γ) Γ

theorem namesUpTo_zero (Γ : List QVar) (gs : List Ground) : namesUpTo Γ gs 0 = Γ := by simp [namesUpTo]

theorem namesUpTo_succ {Γ : List QVar} {gs : List Ground} {i : Nat} {g : Ground} (h : gs[i]? = some g) :
    namesUpTo Γ gs (i + 1) = g.names ++ namesUpTo Γ gs i := by
  unfold namesUpTo
  rw [List.take_add_one, h, List.foldl_append]
  rfl

theorem mem_namesUpTo {n : QVar} (gs : List Ground) : ∀ Γ, n ∈ namesUpTo Γ gs gs.length ↔ n ∈ (Ground.conj gs).names ++ Γ := by
  induction gs with
  | nil => intro Γ; simp [namesUpTo, Ground.conj, Ground.names]
  | cons g gs ih =>
    intro Γ
    have := ih (g.names ++ Γ)
    simp only [namesUpTo, List.length_cons, List.take_succ_cons, List.foldl_cons, Ground.conj, Ground.names, List.mem_append] at this ⊢
    rw [this]
    grind

theorem conj_fits {d : Nat} {nodes : List Node} {T : DTree} (gs : List Ground) : ∀ Γ, (Ground.conj gs).Fits d nodes T Γ →
    ∀ (i : Nat) (g : Ground), gs[i]? = some g → g.Fits d nodes T (namesUpTo Γ gs i) := by
  induction gs with
  | nil => simp
  | cons g gs ih =>
    intro Γ h i g' hi
    cases i with
    | zero =>
      simp only [List.getElem?_cons_zero, Option.some.injEq] at hi
      subst hi
      rw [namesUpTo_zero]
      exact h.1
    | succ i =>
      have := ih _ h.2 i g' (by simpa using hi)
      simpa [namesUpTo] using this

theorem conj_sem {d : Nat} {T : DTree} {σ : Asg} (gs : List Ground) : (Ground.conj gs).sem d T σ ↔ ∀ g ∈ gs, g.sem d T σ := by
  induction gs with
  | nil => simp [Ground.conj, Ground.sem]
  | cons g gs ih => simp [Ground.conj, Ground.sem, ih]

theorem conj_names {n : QVar} (gs : List Ground) : n ∈ (Ground.conj gs).names ↔ ∃ g ∈ gs, n ∈ g.names := by
  induction gs with
  | nil => simp [Ground.conj, Ground.names]
  | cons g gs ih => simp [Ground.conj, Ground.names, ih]

theorem conj_uses {u : QVar × Role} (gs : List Ground) : u ∈ (Ground.conj gs).uses ↔ ∃ g ∈ gs, u ∈ g.uses := by
  induction gs with
  | nil => simp [Ground.conj, Ground.uses]
  | cons g gs ih => simp [Ground.conj, Ground.uses, ih]

theorem conj_loose {d : Nat} {nodes : List Node} {T : DTree} (gs : List Ground) : ∀ Γ, (Ground.conj gs).Loose d nodes T Γ →
    ∀ (i : Nat) (g : Ground), gs[i]? = some g → g.Loose d nodes T (namesUpTo Γ gs i) := by
  induction gs with
  | nil => simp
  | cons g gs ih =>
    intro Γ h i g' hi
    cases i with
    | zero =>
      simp only [List.getElem?_cons_zero, Option.some.injEq] at hi
      subst hi
      rw [namesUpTo_zero]
      exact h.1
    | succ i =>
      have := ih _ h.2 i g' (by simpa using hi)
      simpa [namesUpTo] using this

theorem conj_encoded {d : Nat} {T : DTree} {σ : Asg} (gs : List Ground) : (Ground.conj gs).encoded d T σ ↔ ∀ g ∈ gs, g.encoded d T σ := by
  induction gs with
  | nil => simp [Ground.conj, Ground.encoded]
  | cons g gs ih => simp [Ground.conj, Ground.encoded, ih]

theorem conj_emits {d : Nat} {u : QVar × Role} (gs : List Ground) : u ∈ (Ground.conj gs).emits d ↔ ∃ g ∈ gs, u ∈ g.emits d := by
  induction gs with
  | nil => simp [Ground.conj, Ground.emits]
  | cons g gs ih => simp [Ground.conj, Ground.emits, ih]

theorem ground_fits_iff {d : Nat} {nodes : List Node} {T : DTree} (g : Ground) {Γ : List QVar} :
    g.Fits d nodes T Γ ↔ g.Loose d nodes T Γ ∧ g.sighted d = true := by
  induction g generalizing Γ with
  | nil => simp [Ground.Fits, Ground.Loose]
  | tt => simp [Ground.Fits, Ground.Loose, Ground.sighted]
  | atom a lv stack =>
    simp only [Ground.Fits, Ground.Loose, Ground.sighted, Bool.not_eq_true']
    exact ⟨fun h => ⟨⟨h.1.loose, h.2⟩, (blind_iff h.1.consts).2 h.1.regular⟩, fun h => ⟨atom_loose_fits h.1.1 h.2, h.1.2⟩⟩
  | and g1 g2 ih1 ih2 => simp only [Ground.Fits, Ground.Loose, Ground.sighted, Bool.and_eq_true, ih1, ih2]; grind
  | or g1 g2 ih1 ih2 => simp only [Ground.Fits, Ground.Loose, Ground.sighted, Bool.and_eq_true, ih1, ih2]; grind
  | not g ih => simp only [Ground.Fits, Ground.Loose, Ground.sighted, ih]
  | decl n g ih => simp only [Ground.Fits, Ground.Loose, Ground.sighted, ih]

theorem ground_emits_uses {d : Nat} (g : Ground) {u : QVar × Role} (h : u ∈ g.emits d) : u ∈ g.uses := by
  induction g with
  | atom a lv stack => exact emits_sub_uses h
  | and g1 g2 ih1 ih2 => simp only [Ground.emits, Ground.uses, List.mem_append] at h ⊢; exact h.imp ih1 ih2
  | or g1 g2 ih1 ih2 => simp only [Ground.emits, Ground.uses, List.mem_append] at h ⊢; exact h.imp ih1 ih2
  | not g ih => exact ih h
  | decl n g ih => exact ih h
  | _ => exact h

/-- If no predicate is blind, queries say what they should. -/
theorem ground_sighted {d : Nat} {T : DTree} {σ : Asg} (g : Ground) (h : g.sighted d = true) : g.encoded d T σ ↔ g.sem d T σ := by
  induction g with
  | nil => exact Iff.rfl
  | tt => exact Iff.rfl
  | atom a lv stack =>
    simp only [Ground.sighted, Bool.not_eq_true'] at h
    simp [Ground.encoded, Ground.sem, Atom.encoded, h]
  | and g1 g2 ih1 ih2 =>
    simp only [Ground.sighted, Bool.and_eq_true] at h
    exact and_congr (ih1 h.1) (ih2 h.2)
  | or g1 g2 ih1 ih2 =>
    simp only [Ground.sighted, Bool.and_eq_true] at h
    exact or_congr (ih1 h.1) (ih2 h.2)
  | not g ih => exact not_congr (ih h)
  | decl n g ih => exact ih h

/-! ### queries -/

theorem times_levels_succ {q : Query} {k : Nat} {lv : Levels} {i : Nat} :
    times (fun lv => q.levels k lv) (i + 1) lv = q.levels k (times (fun lv => q.levels k lv) i lv) := rfl

theorem query_encoded {W : World} {T : DTree} (q : Query) : ∀ (Γ : List QVar) (stack : List Scope) (lv : Levels),
    (q.ground W.dim T stack lv).Loose W.dim W.nodes T Γ → (q.loops = true → IsTree W.dim W.nodes T ∧ Covers W.nodes T) →
    (∀ n ∈ (q.ground W.dim T stack lv).names, W.isInst n ∧ W.may n) →
    (∀ u ∈ (q.ground W.dim T stack lv).emits W.dim, Plays W T u.1 u.2) →
    ∃ act, q.comp = some act ∧ Shows W Γ ((q.ground W.dim T stack lv).names ++ Γ) lv (q.levels stack.length lv) stack act
      (fun σ => (q.ground W.dim T stack lv).encoded W.dim T σ) := by
  induction q with
  | nil => intro Γ stack lv h; exact h.elim
  | atom a =>
    intro Γ stack lv h _ _ hu
    exact ⟨_, rfl, Shows.atom h.1 h.2 hu⟩
  | and q1 q2 ih1 ih2 =>
    intro Γ stack lv h ht hn hu
    simp only [Query.ground, Ground.names, Ground.emits, List.mem_append, Query.loops, Bool.or_eq_true] at hn hu ht
    obtain ⟨a1, e1, c1⟩ := ih1 Γ stack lv h.1 (fun x => ht (.inl x)) (fun n hn' => hn n (.inl hn')) (fun u hu' => hu u (.inl hu'))
    obtain ⟨a2, e2, c2⟩ := ih2 _ stack _ h.2 (fun x => ht (.inr x)) (fun n hn' => hn n (.inr hn')) (fun u hu' => hu u (.inr hu'))
    refine ⟨_, rfl, ?_⟩
    rw [e1, e2]
    refine (c1.encAnd c2).mono fun n hn => ?_
    simp only [Query.ground, Ground.names, List.mem_append] at hn ⊢
    grind
  | or q1 q2 ih1 ih2 =>
    intro Γ stack lv h ht hn hu
    simp only [Query.ground, Ground.names, Ground.emits, List.mem_append, Query.loops, Bool.or_eq_true] at hn hu ht
    obtain ⟨a1, e1, c1⟩ := ih1 Γ stack lv h.1 (fun x => ht (.inl x)) (fun n hn' => hn n (.inl hn')) (fun u hu' => hu u (.inl hu'))
    obtain ⟨a2, e2, c2⟩ := ih2 _ stack _ h.2 (fun x => ht (.inr x)) (fun n hn' => hn n (.inr hn')) (fun u hu' => hu u (.inr hu'))
    refine ⟨_, rfl, ?_⟩
    rw [e1, e2]
    refine (c1.encOr c2).mono fun n hn => ?_
    simp only [Query.ground, Ground.names, List.mem_append] at hn ⊢
    grind
  | not q ih =>
    intro Γ stack lv h ht hn hu
    obtain ⟨a, e, c⟩ := ih Γ stack lv h ht hn hu
    refine ⟨_, rfl, ?_⟩
    rw [e]
    exact c.encNot
  | withVar x q ih =>
    intro Γ stack lv h ht hn hu
    simp only [Query.ground, Ground.names, List.mem_cons] at hn
    obtain ⟨a, e, c⟩ := ih _ stack _ h ht (fun n hn' => hn n (.inr hn')) hu
    obtain ⟨h1, h2⟩ := hn _ (.inl rfl)
    refine ⟨_, rfl, ?_⟩
    rw [e]
    refine (Shows.encWithVar rfl h1 h2 c).mono fun n hn => ?_
    simp only [Query.ground, Ground.names, List.cons_append, List.mem_cons, List.mem_append] at hn ⊢
    grind
  | forallG k q ih =>
    intro Γ stack lv h ht hn hu
    obtain ⟨hT, hC⟩ := ht rfl
    have hok := C18_accepted _ _ _ hT.raw hC
    obtain ⟨ws, hws, -⟩ := C17_terminates _ _ _ hok
    obtain ⟨hv, hg⟩ := C18_values _ _ _ hT ws hws
    have hscope : scopesOf W.dim T k.id = ws.mapIdx fun i w => (⟨k.id, w.t, (i : Nat)⟩ : Scope) := by
      apply List.ext_getElem?
      intro i
      simp only [scopesOf, List.getElem?_map, List.getElem?_zipIdx, Option.map_map, List.getElem?_mapIdx]
      rw [← hv, List.getElem?_map]
      cases hw : ws[i]? with
      | none => rfl
      | some w =>
        simp only [Option.map_some, Option.some.injEq, Function.comp_apply, Nat.zero_add, scopeAt]
        rw [valsOf_den (hg w (List.mem_of_getElem? hw))]
    generalize hgs : (scopesOf W.dim T k.id).mapIdx (fun i g =>
      q.ground W.dim T (stack ++ [g]) (times (fun lv => q.levels (stack.length + 1) lv) i lv)) = gs
    have hG : (Query.forallG k q).ground W.dim T stack lv = .conj gs := by rw [← hgs]; rfl
    have hlen : gs.length = ws.length := by rw [← hgs, hscope]; simp
    have hget : ∀ i w, ws[i]? = some w → gs[i]? = some (q.ground W.dim T (stack ++ [⟨k.id, w.t, (i : Nat)⟩])
        (times (fun lv => q.levels (stack.length + 1) lv) i lv)) := by
      intro i w hw
      rw [← hgs, List.getElem?_mapIdx, hscope, List.getElem?_mapIdx, hw]
      rfl
    rw [hG] at h hn hu ⊢
    have hin : ∀ i w, ws[i]? = some w → ∃ act, q.comp = some act ∧
        Shows W (namesUpTo Γ gs i) (namesUpTo Γ gs (i + 1)) (times (fun lv => q.levels (stack.length + 1) lv) i lv)
          (times (fun lv => q.levels (stack.length + 1) lv) (i + 1) lv) (stack ++ [⟨k.id, w.t, (i : Nat)⟩]) act
          (fun σ => ∀ g, gs[i]? = some g → g.encoded W.dim T σ) := by
      intro i w hw
      have hgi := hget i w hw
      have hm := List.mem_of_getElem? hgi
      obtain ⟨a, e, c⟩ := ih (namesUpTo Γ gs i) _ _ (conj_loose gs Γ h i _ hgi) (fun _ => ⟨hT, hC⟩)
        (fun n hn' => hn n ((conj_names gs).2 ⟨_, hm, hn'⟩)) (fun u hu' => hu u ((conj_emits gs).2 ⟨_, hm, hu'⟩))
      refine ⟨a, e, ?_⟩
      rw [namesUpTo_succ hgi]
      simp only [List.length_append, List.length_cons, List.length_nil, Nat.zero_add] at c
      refine c.congr fun σ => ⟨fun h1 g h2 => ?_, fun h1 => h1 _ hgi⟩
      rw [hgi] at h2
      simp only [Option.some.injEq] at h2
      subst h2
      exact h1
    cases hc : q.comp with
    | none =>
      obtain ⟨w, hw⟩ : ∃ w, ws[0]? = some w := by
        cases T <;> (cases ws <;> simp_all [DTree.nodeInsts])
      obtain ⟨a, e, -⟩ := hin 0 w hw
      rw [hc] at e; simp at e
    | some act =>
    refine ⟨_, rfl, ?_⟩
    rw [hc]
    have key := Shows.encForall (k := k) (Γs := namesUpTo Γ gs) (lvs := fun i => times (fun lv => q.levels (stack.length + 1) lv) i lv)
      (Ps := fun i σ => ∀ g, gs[i]? = some g → g.encoded W.dim T σ) hok hws (fun i w hw => by
        obtain ⟨a, e, c⟩ := hin i w hw
        rw [hc] at e
        simp only [Option.some.injEq] at e
        subst e
        exact c)
    rw [namesUpTo_zero, ← hlen] at key
    refine (key.mono fun n hn => (mem_namesUpTo gs Γ).2 hn).congr fun σ => ?_
    rw [conj_encoded]
    constructor
    · intro h1 g hg'
      obtain ⟨i, hi, rfl⟩ := List.getElem_of_mem hg'
      exact h1 i hi _ (List.getElem?_eq_getElem hi)
    · intro h1 i hi g hg'
      exact h1 g (List.mem_of_getElem? hg')

theorem query_shows {W : World} {T : DTree} (q : Query) (Γ : List QVar) (stack : List Scope) (lv : Levels)
    (h : (q.ground W.dim T stack lv).Fits W.dim W.nodes T Γ) (ht : q.loops = true → IsTree W.dim W.nodes T ∧ Covers W.nodes T)
    (hn : ∀ n ∈ (q.ground W.dim T stack lv).names, W.isInst n ∧ W.may n)
    (hu : ∀ u ∈ (q.ground W.dim T stack lv).uses, Plays W T u.1 u.2) :
    ∃ act, q.comp = some act ∧ Shows W Γ ((q.ground W.dim T stack lv).names ++ Γ) lv (q.levels stack.length lv) stack act
      (fun σ => (q.ground W.dim T stack lv).sem W.dim T σ) := by
  obtain ⟨h1, h2⟩ := (ground_fits_iff _).1 h
  obtain ⟨act, e, c⟩ := query_encoded (W := W) (T := T) q Γ stack lv h1 ht hn fun u h => hu u (ground_emits_uses _ h)
  exact ⟨act, e, c.congr fun σ => ground_sighted _ h2⟩

/-! ### closed queries -/

/-- Like `good_query_apart`. -/
theorem sound_query_apart {d : Nat} {nodes : List Node} {T : DTree} {q : Query}
    (hg : q.Sound d nodes T) {others : List QVar} (ho : ∀ u ∈ (q.flat d T).uses, u.1 ∉ others)
    {s : Ctx} (hs : Ready d nodes ((q.flat d T).names ++ others) s) :
    ∃ c s', q.encode s = (.ok c, s') ∧ WF c ∧ c.tv ≤ s'.topv ∧ Ext s s' ∧
      (∀ n ∈ (q.flat d T).names, ∀ i < d, ∀ v ∈ featVals, Named s' ⟨n, (i : Nat), v⟩) ∧ Ready d nodes [] s' ∧
      (∀ n ∈ others, n ∉ (q.flat d T).names → ¬ Declared s' n) ∧
      Faithful d (q.flat d T).names (fun σ => (q.flat d T).sem d T σ) s' c := by
  let W := worldOf d nodes T (fun _ => 0) hg.dim (q.flat d T).names others (q.flat d T).uses
  obtain ⟨act, e, hc⟩ := query_shows (W := W) (T := T) q [] [] (fun _ => 0) hg.fits hg.tree
    (fun n hn => ⟨List.mem_append_left _ hn, hn⟩) (worldOf_plays fun u hu => by
      rw [List.mem_append, not_or]
      exact ⟨(hg.clean u hu).1, ho u hu⟩)
  have hco : ∀ σ, W.dom σ := hg.clean.coherent nodes
  have hp : Pre W [] s := Ready.pre (W := W) hs fun n hn => hn
  obtain ⟨c, s', e', p, l, hd⟩ := hc s hp (fun x => by rw [hs.vars]; rfl) (fun n hn => by simp at hn) hs.scopes
  have hl0 : ∀ x k, mapGet s'.vars x = some k → k = 0 := by
    intro x k hk
    have := p.moves.pre.scope x k hk
    rw [p.moves.scopes, hs.scopes] at this
    simp at this
    omega
  have hx := (p.at (lv' := fun _ => 0) hl0).exact (W := W) hp hs.scopes hs.fresh
  have hdecl : ∀ n ∈ (q.flat d T).names, Declared s' n := fun n hn => (hd n (List.mem_append_left _ hn)).2
  have hag : ∀ β σ, (∀ n ∈ (q.flat d T).names, Reads d s' β n (σ n)) ↔ Agree W s' β σ := by
    intro β σ
    exact ⟨fun h n hn hnd => h n (hx.decl n hn hnd), fun h n hn => h n (List.mem_append_left _ hn) (hdecl n hn)⟩
  refine ⟨c, s', by rw [Query.encode_eq e]; exact e', hx.wf, hx.top, hx.ext,
    fun n hn => hx.named n (List.mem_append_left _ hn) (hdecl n hn),
    ⟨hx.vm, hx.dim.trans hs.dim, hx.nodes.trans hs.nodes, hx.scopes, hx.vars, by simp⟩,
    fun n hn hnn hnd => hnn (hx.decl n (List.mem_append_right _ hn) hnd),
    hx.satisfiable fun σ _ => hco σ, ?_, ?_, ?_, ?_, ?_⟩
  · rintro β ⟨h1, h2⟩
    obtain ⟨σ, hσ⟩ := hx.reads β h2
    exact ⟨σ, (hx.sem β σ h2 hσ).1 h1, (hag β σ).2 hσ⟩
  · intro σ hσ
    obtain ⟨β, h1, h2⟩ := hx.con σ (hco σ)
    exact ⟨β, ⟨(hx.sem β σ h1 h2).2 hσ, h1⟩, (hag β σ).2 h2⟩
  · intro β hβ
    obtain ⟨σ, hσ⟩ := hx.reads β hβ
    exact ⟨σ, (hag β σ).2 hσ⟩
  · intro σ
    obtain ⟨β, h1, h2⟩ := hx.con σ (hco σ)
    exact ⟨β, h1, (hag β σ).2 h2⟩
  · intro β σ h1 h2
    exact hx.sem β σ h1 ((hag β σ).1 h2)

end Goexpdt

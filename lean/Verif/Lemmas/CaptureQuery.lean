import Verif.Lemmas.CaptureAtoms
import Verif.Lemmas.Declares
import Verif.Spec.Meaning
/- Whole queries satisfy the contract. -/
namespace Goexpdt
open Spec Props

variable {W : World} {T : DTree} {Γ : List QVar} {stack : List Scope}

theorem valsOf_den {d : Nat} {vs : List FeatV} (h : GoodVals d vs) : valsOf d (den vs) = vs := by
  apply List.ext_getElem
  · simp [valsOf, h.1]
  · intro i h1 h2
    simp only [valsOf, List.getElem_map, List.getElem_range]
    have := at_eq h (i := i) (by rw [← h.1]; exact h2) ⟨[], vs⟩ rfl
    rw [← this]
    simp [QConst.at, List.getElem?_eq_getElem h2]

theorem valsOf_good (d : Nat) (e : PInst) : GoodVals d (valsOf d e) := by
  refine ⟨by simp [valsOf], ?_⟩
  intro v hv
  simp only [valsOf, List.mem_map] at hv
  obtain ⟨i, -, rfl⟩ := hv
  have := valOf_mem (e i)
  simpa [featVals] using this

theorem den_valsOf (d : Nat) (e : PInst) : Same d (den (valsOf d e)) e := by
  intro i hi
  have h1 : valsOf d e = valsOf d e := rfl
  have := at_eq (valsOf_good d e) hi ⟨[], valsOf d e⟩ rfl
  simp only [QConst.at, valsOf, List.getD_eq_getElem?_getD, List.getElem?_map, List.getElem?_range hi,
    Option.map_some, Option.getD_some] at this
  exact (valOf_inj.1 this).symm

theorem mem_scopesOf {d : Nat} {id : List Char} {g : Scope} : g ∈ scopesOf d T id ↔
    ∃ i p, (T.nodeInsts bot)[i]? = some p ∧ g = scopeAt d id i p := by
  simp only [scopesOf, List.mem_map, List.mem_zipIdx_iff_getElem?, Prod.exists]
  constructor
  · rintro ⟨a, b, i, h1, h2⟩; exact ⟨i, a, b, h1, h2.symm⟩
  · rintro ⟨i, a, b, h1, h2⟩; exact ⟨a, b, i, h1, h2.symm⟩

/-- Queries that fit capture what they say. -/
theorem query_captures (q : Query) : ∀ (Γ : List QVar) (stack : List Scope),
    q.Fits W.dim W.nodes T W.depth Γ stack →
    (∀ n ∈ q.names W.dim T stack, W.isInst n ∧ W.may n) →
    (∀ u ∈ q.uses W.dim T W.depth stack, Plays W T u.1 u.2) →
    ∃ act, q.comp = some act ∧ Captures W Γ stack act (fun σ => q.sem W.dim T W.depth σ stack) ∧
      Declares W Γ stack act (· ∈ q.names W.dim T stack) := by
  induction q with
  | nil => intro Γ stack h; exact h.elim
  | atom a => intro Γ stack h _ hu; exact ⟨_, rfl, atom_captures h hu, fun _ _ _ n hn => by simp [Query.names] at hn⟩
  | and q1 q2 ih1 ih2 =>
    intro Γ stack h hn hu
    simp only [Query.names, Query.uses, List.mem_append] at hn hu
    obtain ⟨a1, e1, c1, d1⟩ := ih1 Γ stack h.1 (fun n hn' => hn n (.inl hn')) (fun u hu' => hu u (.inl hu'))
    obtain ⟨a2, e2, c2, d2⟩ := ih2 Γ stack h.2 (fun n hn' => hn n (.inr hn')) (fun u hu' => hu u (.inr hu'))
    refine ⟨_, rfl, by rw [e1, e2]; exact c1.encAnd c2, ?_⟩
    rw [e1, e2]
    intro s hp hs n hn
    exact Declares.encAnd c1 c2 d1 d2 s hp hs n (by simpa [Query.names] using hn)
  | or q1 q2 ih1 ih2 =>
    intro Γ stack h hn hu
    simp only [Query.names, Query.uses, List.mem_append] at hn hu
    obtain ⟨a1, e1, c1, d1⟩ := ih1 Γ stack h.1 (fun n hn' => hn n (.inl hn')) (fun u hu' => hu u (.inl hu'))
    obtain ⟨a2, e2, c2, d2⟩ := ih2 Γ stack h.2 (fun n hn' => hn n (.inr hn')) (fun u hu' => hu u (.inr hu'))
    refine ⟨_, rfl, by rw [e1, e2]; exact c1.encOr c2, ?_⟩
    rw [e1, e2]
    intro s hp hs n hn
    exact Declares.encOr c1 c2 d1 d2 s hp hs n (by simpa [Query.names] using hn)
  | not q ih =>
    intro Γ stack h hn hu
    obtain ⟨a, e, c, dd⟩ := ih Γ stack h hn hu
    exact ⟨_, rfl, by rw [e]; exact c.encNot, by rw [e]; exact Declares.encNot c dd⟩
  | withVar x q ih =>
    intro Γ stack h hn hu
    simp only [Query.names, List.mem_cons] at hn
    obtain ⟨a, e, c, dd⟩ := ih (x :: Γ) stack h.2 (fun n hn' => hn n (.inr hn')) hu
    have hnm : W.nm stack x = x ++ suffix stack := by
      unfold World.nm
      rw [h.1, List.take_length]
    have hin : W.isInst (W.nm stack x) ∧ W.may (W.nm stack x) := by rw [hnm]; exact hn _ (.inl rfl)
    refine ⟨_, rfl, ?_, ?_⟩
    · rw [e]
      exact Captures.encWithVar h.1 hin.1 hin.2 c
    · rw [e]
      intro s hp hs n hn
      refine Declares.encWithVar h.1 hin.1 hin.2 c dd s hp hs n ?_
      rw [hnm]
      simpa [Query.names] using hn
  | forallG k q ih =>
    intro Γ stack h hn hu
    obtain ⟨hT, hC, hf⟩ := h
    have hok := C18_accepted _ _ _ hT.raw hC
    obtain ⟨ws, hws, -⟩ := C17_terminates _ _ _ hok
    obtain ⟨hv, hg⟩ := C18_values _ _ _ hT ws hws
    simp only [Query.names, Query.uses, List.mem_flatMap] at hn hu
    have hscope : ∀ i w, ws[i]? = some w →
        (⟨k.id, w.t, (i : Nat)⟩ : Scope) ∈ scopesOf W.dim T k.id ∧ (T.nodeInsts bot)[i]? = some (w.cp, den w.t) ∧
        (⟨k.id, w.t, (i : Nat)⟩ : Scope) = scopeAt W.dim k.id i (w.cp, den w.t) := by
      intro i w hw
      have h1 : (T.nodeInsts bot)[i]? = some (w.cp, den w.t) := by rw [← hv, List.getElem?_map, hw]; rfl
      have h2 : (⟨k.id, w.t, (i : Nat)⟩ : Scope) = scopeAt W.dim k.id i (w.cp, den w.t) := by
        unfold scopeAt
        rw [valsOf_den (hg w (List.mem_of_getElem? hw))]
      exact ⟨mem_scopesOf.2 ⟨i, _, h1, h2⟩, h1, h2⟩
    cases hc : q.comp with
    | none =>
      obtain ⟨w, hw⟩ : ∃ w, ws[0]? = some w := by
        cases T <;> (cases ws <;> simp_all [DTree.nodeInsts])
      obtain ⟨hm, -, -⟩ := hscope 0 w hw
      obtain ⟨a, e, -⟩ := ih Γ _ (hf _ hm) (fun n hn' => hn n ⟨_, hm, hn'⟩) (fun u hu' => hu u ⟨_, hm, hu'⟩)
      rw [hc] at e; simp at e
    | some act =>
    have hch : ∀ i w, ws[i]? = some w →
        Captures W Γ (stack ++ [⟨k.id, w.t, (i : Nat)⟩]) act
          (fun σ => ∀ w, ws[i]? = some w → q.sem W.dim T W.depth σ (stack ++ [⟨k.id, w.t, (i : Nat)⟩])) ∧
        Declares W Γ (stack ++ [⟨k.id, w.t, (i : Nat)⟩]) act
          (fun n => ∃ w, ws[i]? = some w ∧ n ∈ q.names W.dim T (stack ++ [⟨k.id, w.t, (i : Nat)⟩])) := by
      intro i w hw
      obtain ⟨hm, -, -⟩ := hscope i w hw
      obtain ⟨a, e, c, dd⟩ := ih Γ _ (hf _ hm) (fun n hn' => hn n ⟨_, hm, hn'⟩) (fun u hu' => hu u ⟨_, hm, hu'⟩)
      rw [hc] at e
      simp only [Option.some.injEq] at e
      subst e
      refine ⟨c.congr fun σ => ?_, ?_⟩
      · constructor
        · intro hs w' hw'
          rw [hw] at hw'
          simp only [Option.some.injEq] at hw'
          subst hw'
          exact hs
        · intro hs; exact hs w hw
      · rintro s hp hs n ⟨w', hw', hn'⟩
        rw [hw] at hw'
        simp only [Option.some.injEq] at hw'
        subst hw'
        exact dd s hp hs n hn'
    have hback : ∀ g ∈ scopesOf W.dim T k.id, ∃ i, ∃ hi : i < ws.length, g = ⟨k.id, ws[i].t, (i : Nat)⟩ := by
      intro g hg'
      obtain ⟨i, p, hp, rfl⟩ := mem_scopesOf.1 hg'
      have hi : i < ws.length := by
        have := (List.getElem?_eq_some_iff.1 hp).1
        rw [← hv] at this
        simpa using this
      obtain ⟨-, h1, h2⟩ := hscope i ws[i] (List.getElem?_eq_getElem hi)
      rw [hp] at h1
      simp only [Option.some.injEq] at h1
      subst h1
      exact ⟨i, hi, h2.symm⟩
    refine ⟨_, rfl, ?_, ?_⟩
    · rw [hc]
      refine (Captures.encForall hok hws fun i w hw => (hch i w hw).1).congr fun σ => ?_
      constructor
      · intro hs g hg'
        obtain ⟨i, hi, rfl⟩ := hback g hg'
        exact hs i hi ws[i] (List.getElem?_eq_getElem hi)
      · intro hs i hi w hw
        exact hs _ (hscope i w hw).1
    · rw [hc]
      intro s hp hs n hn'
      refine Declares.encForall hok hws hch s hp hs n ?_
      simp only [Query.names, List.mem_flatMap] at hn'
      obtain ⟨g, hg', hn'⟩ := hn'
      obtain ⟨i, hi, rfl⟩ := hback g hg'
      exact ⟨i, hi, ws[i], List.getElem?_eq_getElem hi, hn'⟩

/-! ### the world of a closed query -/

/-- Names and intended meanings of a query; `others` are the names of variables declared elsewhere. -/
noncomputable def worldOf (d : Nat) (nodes : List Node) (T : DTree) (depth : QVar → Nat) (hd : 0 < d)
    (names others : List QVar) (uses : List (QVar × Role)) : World where
  dim := d
  nodes := nodes
  isInst n := n ∈ names ++ others
  may n := n ∈ names
  mean n σ i v := if n ∈ names ++ others then decide (valOf (σ n i.toNat) = v) else
    open Classical in
    match uses.find? (fun u => u.1 == n && decide (u.2.range d nodes i v)) with
    | some u => u.2.mean d T σ i v
    | none => false
  depth := depth
  dom := Coherent d nodes T uses
  dim_pos := hd
  inst_mean := by
    intro n hn σ i v _
    rw [if_pos hn]; simp

theorem worldOf_plays {d : Nat} {nodes : List Node} {depth : QVar → Nat} {hd : 0 < d}
    {names others : List QVar} {uses : List (QVar × Role)} (h : ∀ u ∈ uses, u.1 ∉ names ++ others) :
    ∀ u ∈ uses, Plays (worldOf d nodes T depth hd names others uses) T u.1 u.2 := by
  intro u hu
  have h1 := h u hu
  refine ⟨h1, fun σ hσ i v hr => ?_⟩
  simp only [worldOf, if_neg h1]
  split
  · next u' hf =>
    have hm := List.mem_of_find?_eq_some hf
    have he := List.find?_some hf
    simp only [Bool.and_eq_true, beq_iff_eq, decide_eq_true_eq] at he
    exact hσ u hu u' hm he.1 i v hr he.2
  · next hf =>
    rw [List.find?_eq_none] at hf
    refine absurd ?_ (hf u hu)
    simp only [beq_self_eq_true, Bool.true_and, decide_eq_true_eq]
    exact hr

theorem Hygienic.coherent {d : Nat} {names : List QVar} {uses : List (QVar × Role)} (h : Hygienic d T names uses) (nodes : List Node)
    (σ : Asg) : Coherent d nodes T uses σ := fun u hu u' hu' e i v _ _ => (h u hu).2 u' hu' e σ i v

theorem pre_fresh (W : World) : Pre W [] (BasicQContext W.dim W.nodes) := by
  refine ⟨⟨Int.le_refl _, ?_, ?_⟩, rfl, rfl, ?_, ?_, ?_, ?_, ?_⟩
  · intro vr n h; exact absurd h (by simp [BasicQContext])
  · intro vr vr' n h; exact absurd h (by simp [BasicQContext])
  · intro v k h; exact absurd h (by simp [BasicQContext])
  · intro v k h; exact absurd h (by simp [BasicQContext])
  · rintro n _ ⟨k, h⟩; exact absurd h (by simp [BasicQContext])
  · intro x k h; exact absurd h (by simp [BasicQContext])
  · simp

/-! ### exactness from a context in which the names are new -/

/-- A valuation that gives all triples their intended value. -/
theorem exists_canon (W : World) {s : Ctx} (hv : VMok s) {σ : Asg} (hσ : W.dom σ) : ∃ β, Canon W s β σ := by
  classical
  refine ⟨fun k => if h : ∃ vr, mapGet s.vmap vr = some (k : Int) then
    W.mean h.choose.v σ h.choose.idx h.choose.val else false, hσ, ?_⟩
  rintro vr ⟨n, hn⟩
  have hr := hv.range vr n hn
  have hnum : num s vr = n := by simp [num, hn]
  have hex : ∃ vr', mapGet s.vmap vr' = some (((num s vr).natAbs : Nat) : Int) :=
    ⟨vr, by rw [hnum, hn]; congr 1; omega⟩
  have hc := hex.choose_spec
  have heq : hex.choose = vr := hv.inj _ _ n (by rw [hc, hnum]; congr 1; omega) hn
  unfold symVal
  simp only [dif_pos hex]
  rw [heq]

/-- What the encoding of a closed component means, where none of its names has been declared. -/
structure Exact (W : World) (P : Asg → Prop) (s s' : Ctx) (c : CNF) : Prop where
  wf : WF c
  top : c.tv ≤ s'.topv
  vm : VMok s'
  ext : Ext s s'
  dim : s'.dim = s.dim
  nodes : s'.nodes = s.nodes
  scopes : s'.scopes = []
  vars : s'.vars = []
  decl : ∀ n, W.isInst n → Declared s' n → W.may n
  named : ∀ n, W.isInst n → Declared s' n → ∀ i < W.dim, ∀ v ∈ featVals, Named s' ⟨n, (i : Nat), v⟩
  reads : ∀ β, ConTrue β c → ∃ σ, Agree W s' β σ
  sem : ∀ β σ, ConTrue β c → Agree W s' β σ → (SemTrue β c ↔ P σ)
  con : ∀ σ, W.dom σ → ∃ β, ConTrue β c ∧ Agree W s' β σ

theorem Post.exact {P : Asg → Prop} {s s' : Ctx} {c : CNF} (hp : Pre W [] s) (hs : s.scopes = [])
    (hnew : ∀ n, W.isInst n → ¬ Declared s n) (p : Post W [] s s' c P) : Exact W P s s' c := by
  have hp' := p.moves.pre
  have hag : ∀ β σ, Canon W s' β σ → Agree W s' β σ := by
    intro β σ hc n hn hd i hi v hv
    rw [hc.2 _ (hp'.inst n hn hd i hi v hv)]
    exact W.inst_mean n hn σ i v hv
  refine ⟨p.wf, p.top, hp'.vm, p.moves.ext, hp'.dim.trans hp.dim.symm,
    hp'.nodes.trans hp.nodes.symm, p.moves.scopes.trans hs, ?_,
    fun n hn hd => (p.moves.decl n hn hd).elim (fun h => absurd h (hnew n hn)) id, hp'.inst, ?_, p.sem, ?_⟩
  · refine List.eq_nil_iff_forall_not_mem.2 ?_
    rintro ⟨x, k⟩ hx
    have := hp'.scope x k (hp'.fn x k hx)
    rw [p.moves.scopes, hs] at this
    simp at this
    omega
  · intro β hc
    classical
    refine ⟨fun n => if h : W.isInst n ∧ Declared s' n then
      (p.inst β hc n h.1 h.2 (hnew n h.1)).choose else bot, ?_⟩
    intro n hn hd
    have hh : W.isInst n ∧ Declared s' n := ⟨hn, hd⟩
    simp only [dif_pos hh]
    exact (p.inst β hc n hn hd (hnew n hn)).choose_spec
  · intro σ hd
    obtain ⟨β, hβ⟩ := exists_canon W hp'.vm hd
    obtain ⟨β', h1, h2⟩ := p.con β σ hβ
    exact ⟨β', h2, hag _ _ (h1.canon hp'.vm hβ)⟩

theorem Captures.exact {act : M CNF} {P : Asg → Prop} (h : Captures W [] [] act P) {s : Ctx} (hp : Pre W [] s)
    (hs : s.scopes = []) (hnew : ∀ n, W.isInst n → ¬ Declared s n) :
    ∃ c s', act s = (.ok c, s') ∧ Exact W P s s' c := by
  obtain ⟨c, s', e, p⟩ := h s hp hs
  exact ⟨c, s', e, p.exact hp hs hnew⟩

theorem Exact.satisfiable {P : Asg → Prop} {s s' : Ctx} {c : CNF} (h : Exact W P s s' c) (hd : ∀ σ, P σ → W.dom σ) :
    Satisfiable c ↔ ∃ σ, P σ := by
  constructor
  · rintro ⟨β, h1, h2⟩
    obtain ⟨σ, hσ⟩ := h.reads β h2
    exact ⟨σ, (h.sem β σ h2 hσ).1 h1⟩
  · rintro ⟨σ, hσ⟩
    obtain ⟨β, h1, h2⟩ := h.con σ (hd σ hσ)
    exact ⟨β, (h.sem β σ h1 h2).2 hσ, h1⟩

end Goexpdt

import Verif.Spec.Notions
import Verif.Props.Closest
import Verif.Props.Examples
/-
Lemmas for C86: the order by distance, reversed, and what the formulas of the explanation notions say.
-/
namespace Goexpdt.Props
open Goexpdt Spec

variable {d : Nat} {nodes : List Node} {T : DTree} {depth : QVar → Nat} {v : QVar} {f : Query} {c0 : QConst} {g : QVar → QVar → QVar}

/-! ### Farthest instances -/

/-- Strictly farther from `c0`: the order of C61 with its arguments exchanged. -/
def strictFar (c0 : QConst) (g : QVar → QVar → QVar) (v : QVar) (k : QConst) : Query :=
  .and (.atom (.leh (.const c0) (.const k) (.var v) (some g) none)) (.not (.atom (.leh (.const c0) (.var v) (.const k) (some g) none)))

/-- What the encoding of `strictFar` says (see `C34_true_without_looking`). -/
def Farther (d : Nat) (z e b : PInst) : Prop :=
  (LEH d z b e ∨ (Full d z ∧ Full d b ∧ hamming d z b = 0)) ∧ ¬ (LEH d z e b ∨ (Full d z ∧ Full d b ∧ hamming d z b = d))

open Classical in
/-- The order, with predicates that are always true in the two special cases. -/
noncomputable def altFar (d : Nat) (c0 : QConst) (g : QVar → QVar → QVar) (v : QVar) (k : QConst) : Query :=
  .and (.atom (if Full d (den c0.val) ∧ Full d (den k.val) ∧ hamming d (den c0.val) (den k.val) = 0 then .full (.const c0)
      else .leh (.const c0) (.const k) (.var v) (some g) none))
    (.not (.atom (if Full d (den c0.val) ∧ Full d (den k.val) ∧ hamming d (den c0.val) (den k.val) = d then .full (.const c0)
      else .leh (.const c0) (.var v) (.const k) (some g) none)))

theorem altFar_same {k : QConst} (h0 : GoodVals d c0.val) (hk : GoodVals d k.val) :
    SameTop d (strictFar c0 g v k).encode (altFar d c0 g v k).encode := by
  show SameTop d (encAnd (some _) (some (encNot (some _)))) (encAnd (some _) (some (encNot (some _))))
  refine .and (Query.tame (.atom (.leh (.const c0) (.const k) (.var v) (some g) none))) ?_ (.not ?_)
  · split
    · next h =>
      intro s hd hs
      subst hd
      have e1 : resolve s.scopes c0 = c0.val := by rw [hs]; rfl
      have e2 : resolve s.scopes k = k.val := by rw [hs]; rfl
      rw [full_true (by rw [e1]; exact h0) (by rw [e1]; exact h.1),
        ccv_true (scopeVar_top hs v) (by rw [e1]; exact h0) (by rw [e2]; exact hk) (by rw [e1]; exact h.1) (by rw [e2]; exact h.2.1)
          (by rw [e1, e2]; exact h.2.2)]
    · exact .refl _
  · split
    · next h =>
      intro s hd hs
      subst hd
      have e1 : resolve s.scopes c0 = c0.val := by rw [hs]; rfl
      have e2 : resolve s.scopes k = k.val := by rw [hs]; rfl
      rw [full_true (by rw [e1]; exact h0) (by rw [e1]; exact h.1),
        cvc_true (scopeVar_top hs v) (by rw [e1]; exact h0) (by rw [e2]; exact hk) (by rw [e1]; exact h.1) (by rw [e2]; exact h.2.1)
          (by rw [e1, e2]; exact h.2.2)]
    · exact .refl _

theorem about_altFar (k : QConst) (e : PInst) : (altFar d c0 g v k).about d T v e ↔ Farther d (den c0.val) e (den k.val) := by
  unfold altFar Farther Query.about
  simp only [Query.fo]
  refine and_congr ?_ (not_congr ?_)
  · split
    · next h => simpa [Atom.says, Term.val] using ⟨fun _ => .inr h, fun _ => h.1⟩
    · next h => simp [Atom.says, Term.val, upd, h]
  · split
    · next h => simpa [Atom.says, Term.val] using ⟨fun _ => .inr h, fun _ => h.1⟩
    · next h => simp [Atom.says, Term.val, upd, h]

theorem altFar_good (h : ClosestIn d nodes T depth v f c0 g) {k : QConst} (hk : GoodVals d k.val) :
    (Query.withVar v (.and f (altFar d c0 g v k))).Good d nodes T depth := by
  have hfull : (Atom.full (.const c0)).Fits d nodes T [v] [] :=
    ⟨by simp [Atom.vars, Term.vars], by simpa [Spec.Atom.consts, Spec.Term.consts, resolve, GoodVals] using h.const, rfl, trivial, trivial,
      trivial, by simp [Atom.onModel]⟩
  refine ⟨h.good.dim, ⟨h.good.fits.1, h.good.fits.2, ?_, ?_⟩, ?_⟩
  · show Atom.Fits d nodes T [v] [] _
    split
    · exact hfull
    · next hn =>
      refine ⟨by simp [Atom.vars, Term.vars], ?_, rfl, trivial, trivial, fun h1 h2 h3 => hn ⟨h1, h2, h3⟩, by simp [Atom.onModel]⟩
      simpa [Spec.Atom.consts, Spec.Term.consts, resolve, GoodVals] using ⟨h.const, hk⟩
  · show Atom.Fits d nodes T [v] [] _
    split
    · exact hfull
    · next hn =>
      refine ⟨by simp [Atom.vars, Term.vars], ?_, rfl, trivial, trivial, fun h1 h2 h3 => hn ⟨h1, h2, h3⟩, by simp [Atom.onModel]⟩
      simpa [Spec.Atom.consts, Spec.Term.consts, resolve, GoodVals] using ⟨h.const, hk⟩
  · have hu : ∀ u ∈ (Query.withVar v (.and f (altFar d c0 g v k))).uses d T depth [],
        u ∈ (Query.withVar v f).uses d T depth [] ∨ ((∃ key, u.1 = g v key) ∧ u.2 = .dist (.name v) (.vals c0.val)) := by
      intro u hu
      simp only [Query.uses, altFar, List.mem_append] at hu
      rcases hu with hu | hu | hu
      · exact .inl hu
      · split at hu
        · simp [Atom.uses] at hu
        · simp only [Atom.uses, suffix, List.take_nil, List.flatMap_nil, List.append_nil, List.mem_singleton] at hu
          rw [hu]
          exact .inr ⟨⟨_, rfl⟩, rfl⟩
      · split at hu
        · simp [Atom.uses] at hu
        · simp only [Atom.uses, suffix, List.take_nil, List.flatMap_nil, List.append_nil, List.mem_singleton] at hu
          rw [hu]
          exact .inr ⟨⟨_, rfl⟩, rfl⟩
    have hnm : (Query.withVar v (.and f (altFar d c0 g v k))).names d T [] = (Query.withVar v f).names d T [] := by
      simp [Query.names, altFar]
    intro u h1
    rw [hnm]
    rcases hu u h1 with h1 | ⟨⟨key, hkey⟩, hrole⟩
    · refine ⟨(h.good.clean u h1).1, fun u' h2 he => ?_⟩
      rcases hu u' h2 with h2 | ⟨⟨key', hkey'⟩, -⟩
      · exact (h.good.clean u h1).2 u' h2 he
      · exact absurd (he.symm.trans hkey') ((h.fresh key').2 u h1)
    · refine ⟨hkey ▸ (h.fresh key).1, fun u' h2 he => ?_⟩
      rcases hu u' h2 with h2 | ⟨-, hrole'⟩
      · exact absurd (he.trans hkey) ((h.fresh key).2 u' h2)
      · rw [hrole, hrole']; exact fun _ _ _ => rfl

theorem altFar_plain (h : ClosestIn d nodes T depth v f c0 g) (k : QConst) : (Query.withVar v (.and f (altFar d c0 g v k))).Plain :=
  ⟨⟨h.plain.positive, trivial, rfl⟩, by simpa [Query.binders, altFar] using h.plain.distinct,
    by simpa [Query.binders, altFar] using h.plain.names, h.plain.guards, trivial, trivial⟩

/-- The formula and the reversed order by distance, as arguments of `ComputeOptim`. -/
theorem poses_far (h : ClosestIn d nodes T depth v f c0 g) :
    Poses d nodes v (fun _ => f.comp) (fun _ k => (strictFar c0 g v k).comp) (f.about d T v) (Farther d (den c0.val))
      ((Query.withVar v f).names d T []) := by
  refine ⟨h.good.asks h.plain, fun k hk hid => ⟨(Query.withVar v (.and f (altFar d c0 g v k))).names d T [], ?_⟩⟩
  have hne : f ≠ .nil := by
    rintro rfl
    exact h.good.fits.2
  have hA := (altFar_good h hk).asks (altFar_plain h k)
  have hS : SameTop d (encWithVar v (some (encAnd f.comp (strictFar c0 g v k).comp)))
      (encWithVar v (Query.and f (altFar d c0 g v k)).comp) := by
    show SameTop d _ (encWithVar v (some (encAnd f.comp (altFar d c0 g v k).comp)))
    rw [Query.comp_eq hne]
    exact .withVar v (.and f.tame (.refl _) (altFar_same h.const hk))
  have hA := hS.asks hA
  have hF : (fun e => (Query.and f (altFar d c0 g v k)).fo d T (upd (fun _ => bot) v e) (fun _ => none)) =
      fun e => f.about d T v e ∧ Farther d (den c0.val) e (den k.val) := by
    funext e
    refine propext (and_congr Iff.rfl ?_)
    exact about_altFar k e
  rw [hF] at hA
  exact hA

/-! ### The formulas -/

/-- The formula of examples/computation.go:101-130 without its quantifier, which `ComputeOptim` adds (compute/optimum.go:73-76). -/
def reasonQuery (gr : QVar → QVar) (c : QConst) (v : QVar) : Query :=
  .and (.atom (.subs (.var v) (.const c)))
    (.and (.or (.not (.atom (.allcomp (.const c) true none))) (.atom (.allcomp (.var v) true (some gr))))
      (.or (.not (.atom (.allcomp (.const c) false none))) (.atom (.allcomp (.var v) false (some gr)))))

/-- `v` is full and, if `c` has a class, `v` has the other. -/
def contrastQuery (gr : QVar → QVar) (c : QConst) (v : QVar) : Query :=
  .and (.atom (.full (.var v)))
    (.and (.or (.not (.atom (.allcomp (.const c) true none))) (.atom (.allcomp (.var v) false (some gr))))
      (.or (.not (.atom (.allcomp (.const c) false none))) (.atom (.allcomp (.var v) true (some gr)))))

/-- `v` is full and, if `c` has a class, `v` has the same. -/
def alikeQuery (gr : QVar → QVar) (c : QConst) (v : QVar) : Query :=
  .and (.atom (.full (.var v)))
    (.and (.or (.not (.atom (.allcomp (.const c) true none))) (.atom (.allcomp (.var v) true (some gr))))
      (.or (.not (.atom (.allcomp (.const c) false none))) (.atom (.allcomp (.var v) false (some gr)))))

/-- A full instance has one class. -/
theorem full_class {k : PInst} (hf : Full d k) (hT : ∀ f ∈ T.feats, f < d) :
    ∃ b, (∀ z, Completes d z k → T.classify z = b) ∧ ∀ b', AllComp d T b' k ↔ b = b' := by
  have hx : Completes d (fun i => (k i).getD false) k := fun i _ b h => by simp [h]
  have hall : ∀ z, Completes d z k → T.classify z = T.classify fun i => (k i).getD false := by
    intro z hz
    have hzx : ∀ i < d, z i = (k i).getD false := by
      intro i hi
      cases h : k i with
      | none => exact absurd h (hf i hi)
      | some b => simpa using hz i hi b h
    clear hz hx
    induction T with
    | leaf => rfl
    | node i f z' o ihz iho =>
      have := hzx f (hT f (by simp [DTree.feats]))
      have := ihz fun g hg => hT g (by simp [DTree.feats, hg])
      have := iho fun g hg => hT g (by simp [DTree.feats, hg])
      simp only [DTree.classify, *]
  exact ⟨_, hall, fun b' => ⟨fun h => h _ hx, fun h z hz => (hall z hz).trans h⟩⟩

theorem exists_completes (d : Nat) (e : PInst) : ∃ x, Completes d x e := ⟨fun i => (e i).getD false, fun i _ b h => by simp [h]⟩

theorem about_reasonQuery {gr : QVar → QVar} {c : QConst} (hf : Full d (den c.val)) (hT : ∀ f ∈ T.feats, f < d) (e : PInst) :
    (reasonQuery gr c v).about d T v e ↔ SufficientReason d T (den c.val) e := by
  rw [← reasonFormula_iff hf hT]
  simp [reasonQuery, Query.about, Query.fo, Atom.says, Term.val, upd, ReasonFormula]

theorem about_contrastQuery {gr : QVar → QVar} {c : QConst} (hf : Full d (den c.val)) (hT : ∀ f ∈ T.feats, f < d) (e : PInst) :
    (contrastQuery gr c v).about d T v e ↔ Contrast d T (den c.val) e := by
  have h : (contrastQuery gr c v).about d T v e ↔ Full d e ∧ (¬ AllComp d T true (den c.val) ∨ AllComp d T false e) ∧
      (¬ AllComp d T false (den c.val) ∨ AllComp d T true e) := by
    simp [contrastQuery, Query.about, Query.fo, Atom.says, Term.val, upd]
  rw [h]
  refine and_congr_right fun he => ?_
  obtain ⟨b, hb, hb'⟩ := full_class hf hT
  obtain ⟨a, ha, ha'⟩ := full_class he hT
  obtain ⟨x, hx⟩ := exists_completes d e
  obtain ⟨y, hy⟩ := exists_completes d (den c.val)
  rw [hb', hb', ha', ha']
  constructor
  · intro h y z hy hz
    rw [ha y hy, hb z hz]
    revert h; cases a <;> cases b <;> simp
  · intro h
    have := h x y hx hy
    rw [ha x hx, hb y hy] at this
    revert this; cases a <;> cases b <;> simp

theorem about_alikeQuery {gr : QVar → QVar} {c : QConst} (hf : Full d (den c.val)) (hT : ∀ f ∈ T.feats, f < d) (e : PInst) :
    (alikeQuery gr c v).about d T v e ↔ Alike d T (den c.val) e := by
  have h : (alikeQuery gr c v).about d T v e ↔ Full d e ∧ (¬ AllComp d T true (den c.val) ∨ AllComp d T true e) ∧
      (¬ AllComp d T false (den c.val) ∨ AllComp d T false e) := by
    simp [alikeQuery, Query.about, Query.fo, Atom.says, Term.val, upd]
  rw [h]
  refine and_congr_right fun he => ?_
  obtain ⟨b, hb, hb'⟩ := full_class hf hT
  obtain ⟨a, ha, ha'⟩ := full_class he hT
  obtain ⟨x, hx⟩ := exists_completes d e
  obtain ⟨y, hy⟩ := exists_completes d (den c.val)
  rw [hb', hb', ha', ha']
  constructor
  · intro h y z hy hz
    rw [ha y hy, hb z hz]
    revert h; cases a <;> cases b <;> simp
  · intro h
    have := h x y hx hy
    rw [ha x hx, hb y hy] at this
    revert this; cases a <;> cases b <;> simp

variable {gr gb : QVar → QVar} {c : QConst}

theorem reasonQuery_good (hd : 0 < d) (hT : IsTree d nodes T) (hC : Covers nodes T) (hc : GoodVals d c.val) (hr : gr v ≠ v) :
    (Query.withVar v (reasonQuery gr c v)).Good d nodes T (fun _ => 0) := by
  have hc' : (resolve [] c).length = d ∧ ValidVals (resolve [] c) := hc
  refine ⟨hd, ⟨rfl, ?_, ⟨?_, ?_⟩, ?_, ?_⟩, ?_⟩
  iterate 5
    exact ⟨by simp [Atom.vars, Term.vars], by simp [Spec.Atom.consts, Spec.Term.consts, hc'], rfl, trivial, trivial, trivial,
      fun _ => ⟨hT, hC⟩⟩
  · refine .of_eq ?_
    simp [reasonQuery, Query.uses, Query.names, Atom.uses, suffix, hr]

theorem contrastQuery_good (hd : 0 < d) (hT : IsTree d nodes T) (hC : Covers nodes T) (hc : GoodVals d c.val) (hr : gr v ≠ v) :
    (Query.withVar v (contrastQuery gr c v)).Good d nodes T (fun _ => 0) := by
  have hc' : (resolve [] c).length = d ∧ ValidVals (resolve [] c) := hc
  refine ⟨hd, ⟨rfl, ?_, ⟨?_, ?_⟩, ?_, ?_⟩, ?_⟩
  iterate 5
    exact ⟨by simp [Atom.vars, Term.vars], by simp [Spec.Atom.consts, Spec.Term.consts, hc'], rfl, trivial, trivial, trivial,
      fun _ => ⟨hT, hC⟩⟩
  · refine .of_eq ?_
    simp [contrastQuery, Query.uses, Query.names, Atom.uses, suffix, hr]

theorem alikeQuery_good (hd : 0 < d) (hT : IsTree d nodes T) (hC : Covers nodes T) (hc : GoodVals d c.val) (hr : gr v ≠ v) :
    (Query.withVar v (alikeQuery gr c v)).Good d nodes T (fun _ => 0) := by
  have hc' : (resolve [] c).length = d ∧ ValidVals (resolve [] c) := hc
  refine ⟨hd, ⟨rfl, ?_, ⟨?_, ?_⟩, ?_, ?_⟩, ?_⟩
  iterate 5
    exact ⟨by simp [Atom.vars, Term.vars], by simp [Spec.Atom.consts, Spec.Term.consts, hc'], rfl, trivial, trivial, trivial,
      fun _ => ⟨hT, hC⟩⟩
  · refine .of_eq ?_
    simp [alikeQuery, Query.uses, Query.names, Atom.uses, suffix, hr]

theorem reasonQuery_plain (hv : sep ∉ v) : (Query.withVar v (reasonQuery gr c v)).Plain :=
  ⟨⟨trivial, ⟨rfl, trivial⟩, rfl, trivial⟩, by simp [Query.binders, reasonQuery], by simpa [Query.binders, reasonQuery] using hv,
    ⟨trivial, ⟨trivial, trivial⟩, trivial, trivial⟩⟩

theorem contrastQuery_plain (hv : sep ∉ v) : (Query.withVar v (contrastQuery gr c v)).Plain :=
  ⟨⟨trivial, ⟨rfl, trivial⟩, rfl, trivial⟩, by simp [Query.binders, contrastQuery], by simpa [Query.binders, contrastQuery] using hv,
    ⟨trivial, ⟨trivial, trivial⟩, trivial, trivial⟩⟩

theorem alikeQuery_plain (hv : sep ∉ v) : (Query.withVar v (alikeQuery gr c v)).Plain :=
  ⟨⟨trivial, ⟨rfl, trivial⟩, rfl, trivial⟩, by simp [Query.binders, alikeQuery], by simpa [Query.binders, alikeQuery] using hv,
    ⟨trivial, ⟨trivial, trivial⟩, trivial, trivial⟩⟩

/-- Determinant feature sets. -/
def dfsQuery (v : QVar) : Query := .atom (.dfs (.var v))

theorem about_dfsQuery (e : PInst) : (dfsQuery v).about d T v e ↔ DFS d T e := by
  simp [dfsQuery, Query.about, Query.fo, Atom.says, Term.val, upd]

theorem dfsQuery_good (hd : 0 < d) (hT : IsTree d nodes T) (hC : Covers nodes T) :
    (Query.withVar v (dfsQuery v)).Good d nodes T (fun _ => 0) :=
  ⟨hd, ⟨rfl, ⟨by simp [Atom.vars, Term.vars], by simp [Spec.Atom.consts, Spec.Term.consts], rfl, trivial, trivial, trivial,
    fun _ => ⟨hT, hC⟩⟩⟩, .of_eq (by simp [dfsQuery, Query.uses, Atom.uses])⟩

theorem dfsQuery_plain (hv : sep ∉ v) : (Query.withVar v (dfsQuery v)).Plain :=
  ⟨trivial, by simp [Query.binders, dfsQuery], by simpa [Query.binders, dfsQuery] using hv, trivial⟩

/-- Every full instance is a determinant feature set. -/
theorem full_dfs (hT : ∀ f ∈ T.feats, f < d) {e : PInst} (he : Full d e) : DFS d T e := by
  intro e' h
  obtain ⟨b, -, hb⟩ := full_class (k := e') (fun i hi hn => he i hi ((h i hi).1 hn)) hT
  exact ⟨b, (hb b).2 rfl⟩

end Goexpdt.Props

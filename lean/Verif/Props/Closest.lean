import Verif.Lemmas.Closest
import Verif.Lemmas.Guided
import Verif.Props.Compute
import Verif.Props.Clash
import Verif.Props.Chain
/-
C61: `ComputeOptim` with the order by Hamming distance to a constant (closest instances).
-/
namespace Goexpdt.Props
open Goexpdt Spec

variable {S : Type} {sv : Solver S} {d : Nat} {nodes : List Node} {T : DTree} {depth : QVar → Nat}
  {v : QVar} {f : Query} {c0 : QConst} {g : QVar → QVar → QVar} {st st' : S} {s s' : Ctx} {o : OptOutput}

/-! ### C34 -/

/-- C34, the two cases that `C34_leh_partial` leaves out: with full constants of the right dimension, in any context, the CNF is
the one without clauses. So the code is wrong there exactly for instances that are not full. -/
theorem C34_true_without_looking {c1 c2 : QConst} {x n : QVar} {e : Option (QVar → QVar → QVar)} (hx : s.scopeVar x = .ok n)
    (h1 : GoodVals s.dim (resolve s.scopes c1)) (h2 : GoodVals s.dim (resolve s.scopes c2))
    (f1 : Full s.dim (den (resolve s.scopes c1))) (f2 : Full s.dim (den (resolve s.scopes c2))) :
    (hamming s.dim (den (resolve s.scopes c1)) (den (resolve s.scopes c2)) = 0 →
      (Atom.leh (.const c1) (.const c2) (.var x) (some g) e).encode s = (.ok TrueCNF, s) ∧
      ∀ i, LEH s.dim (den (resolve s.scopes c1)) (den (resolve s.scopes c2)) i ↔ Full s.dim i) ∧
    (hamming s.dim (den (resolve s.scopes c1)) (den (resolve s.scopes c2)) = s.dim →
      (Atom.leh (.const c1) (.var x) (.const c2) (some g) e).encode s = (.ok TrueCNF, s) ∧
      ∀ i, LEH s.dim (den (resolve s.scopes c1)) i (den (resolve s.scopes c2)) ↔ Full s.dim i) := by
  refine ⟨fun h => ⟨ccv_true hx h1 h2 f1 f2 h, fun i => ?_⟩, fun h => ⟨cvc_true hx h1 h2 f1 f2 h, fun i => ?_⟩⟩
  · refine ⟨fun hl => hl.2.2.1, fun hf => ⟨f1, f2, hf, ?_⟩⟩
    rw [h]; omega
  · refine ⟨fun hl => hl.2.1, fun hf => ⟨f1, hf, f2, ?_⟩⟩
    rw [h]; exact countFeats_le' _ _

/-- Concrete case: the contexts of `C34_ccv_wrong` and `C34_cvc_wrong`. -/
example : (Atom.leh (.const { val := [ZERO, ONE] }) (.const { val := [ZERO, ONE] }) (.var ['x']) (some VarGenHammingDistance) none).encode
      (BasicQContext 2 []) = (.ok TrueCNF, BasicQContext 2 []) ∧
    (Atom.leh (.const { val := [ZERO, ONE] }) (.var ['x']) (.const { val := [ONE, ZERO] }) (some VarGenHammingDistance) none).encode
      (BasicQContext 2 []) = (.ok TrueCNF, BasicQContext 2 []) := by
  have fl : ∀ a b, GoodVals 2 [a, b] → a ≠ BOT → b ≠ BOT → Full 2 (den [a, b]) := by
    intro a b _ ha hb i hi
    have : i = 0 ∨ i = 1 := by omega
    rcases this with rfl | rfl <;> simp [den, featDen, *] <;> split <;> simp
  have e1 := C34_true_without_looking (s := BasicQContext 2 []) (c1 := { val := [ZERO, ONE] }) (c2 := { val := [ZERO, ONE] })
    (x := ['x']) (g := VarGenHammingDistance) (e := none) rfl (by decide) (by decide) (fl _ _ (by decide) (by decide) (by decide)) (fl _ _ (by decide) (by decide) (by decide))
  have e2 := C34_true_without_looking (s := BasicQContext 2 []) (c1 := { val := [ZERO, ONE] }) (c2 := { val := [ONE, ZERO] })
    (x := ['x']) (g := VarGenHammingDistance) (e := none) rfl (by decide) (by decide) (fl _ _ (by decide) (by decide) (by decide)) (fl _ _ (by decide) (by decide) (by decide))
  exact ⟨(e1.1 (by decide)).1, (e2.2 (by decide)).1⟩

/-! ### C61 -/

/-- Strictly closer to `c0`: `v` is at most as far from `c0` as `k` is, and not the other way round. -/
def strictLeh (c0 : QConst) (g : QVar → QVar → QVar) (v : QVar) (k : QConst) : Query :=
  .and (.atom (.leh (.const c0) (.var v) (.const k) (some g) none)) (.not (.atom (.leh (.const c0) (.const k) (.var v) (some g) none)))

/-- What the encoding of `strictLeh` says (see `C34_true_without_looking`). -/
def Closer (d : Nat) (z e b : PInst) : Prop :=
  (LEH d z e b ∨ (Full d z ∧ Full d b ∧ hamming d z b = d)) ∧ ¬ (LEH d z b e ∨ (Full d z ∧ Full d b ∧ hamming d z b = 0))

/-- The conditions on the formula: those of C40, and no name in it is the name of a distance of `v`. -/
structure ClosestIn (d : Nat) (nodes : List Node) (T : DTree) (depth : QVar → Nat) (v : QVar) (f : Query) (c0 : QConst)
    (g : QVar → QVar → QVar) : Prop where
  good : (Query.withVar v f).Good d nodes T depth
  plain : (Query.withVar v f).Plain
  const : GoodVals d c0.val
  fresh : ∀ key, g v key ∉ (Query.withVar v f).names d T [] ∧ ∀ u ∈ (Query.withVar v f).uses d T depth [], u.1 ≠ g v key

open Classical in
/-- The order, with predicates that are always true in the two special cases. -/
noncomputable def altLeh (d : Nat) (c0 : QConst) (g : QVar → QVar → QVar) (v : QVar) (k : QConst) : Query :=
  .and (.atom (if Full d (den c0.val) ∧ Full d (den k.val) ∧ hamming d (den c0.val) (den k.val) = d then .full (.const c0)
      else .leh (.const c0) (.var v) (.const k) (some g) none))
    (.not (.atom (if Full d (den c0.val) ∧ Full d (den k.val) ∧ hamming d (den c0.val) (den k.val) = 0 then .full (.const c0)
      else .leh (.const c0) (.const k) (.var v) (some g) none)))

theorem altLeh_same {k : QConst} (h0 : GoodVals d c0.val) (hk : GoodVals d k.val) :
    SameTop d (strictLeh c0 g v k).encode (altLeh d c0 g v k).encode := by
  show SameTop d (encAnd (some _) (some (encNot (some _)))) (encAnd (some _) (some (encNot (some _))))
  refine .and (Query.tame (.atom (.leh (.const c0) (.var v) (.const k) (some g) none))) ?_ (.not ?_)
  · split
    · next h =>
      intro s hd hs
      subst hd
      have e1 : resolve s.scopes c0 = c0.val := by rw [hs]; rfl
      have e2 : resolve s.scopes k = k.val := by rw [hs]; rfl
      rw [full_true (by rw [e1]; exact h0) (by rw [e1]; exact h.1),
        cvc_true (scopeVar_top hs v) (by rw [e1]; exact h0) (by rw [e2]; exact hk) (by rw [e1]; exact h.1) (by rw [e2]; exact h.2.1)
          (by rw [e1, e2]; exact h.2.2)]
    · exact .refl _
  · split
    · next h =>
      intro s hd hs
      subst hd
      have e1 : resolve s.scopes c0 = c0.val := by rw [hs]; rfl
      have e2 : resolve s.scopes k = k.val := by rw [hs]; rfl
      rw [full_true (by rw [e1]; exact h0) (by rw [e1]; exact h.1),
        ccv_true (scopeVar_top hs v) (by rw [e1]; exact h0) (by rw [e2]; exact hk) (by rw [e1]; exact h.1) (by rw [e2]; exact h.2.1)
          (by rw [e1, e2]; exact h.2.2)]
    · exact .refl _

theorem about_altLeh (k : QConst) (e : PInst) : (altLeh d c0 g v k).about d T v e ↔ Closer d (den c0.val) e (den k.val) := by
  unfold altLeh Closer Query.about
  simp only [Query.fo]
  refine and_congr ?_ (not_congr ?_)
  · split
    · next h => simpa [Atom.says, Term.val] using ⟨fun _ => .inr h, fun _ => h.1⟩
    · next h => simp [Atom.says, Term.val, upd, h]
  · split
    · next h => simpa [Atom.says, Term.val] using ⟨fun _ => .inr h, fun _ => h.1⟩
    · next h => simp [Atom.says, Term.val, upd, h]

theorem altLeh_good (h : ClosestIn d nodes T depth v f c0 g) {k : QConst} (hk : GoodVals d k.val) :
    (Query.withVar v (.and f (altLeh d c0 g v k))).Good d nodes T depth := by
  have hfull : (Atom.full (.const c0)).Fits d nodes T [v] [] :=
    ⟨by simp [Atom.vars, Term.vars], by simpa [Spec.Atom.consts, Spec.Term.consts, resolve, GoodVals] using h.const, rfl, trivial, trivial,
      trivial, by simp [Atom.onModel]⟩
  refine ⟨h.good.dim, ⟨h.good.fits.1, h.good.fits.2, ?_, ?_⟩, ?_⟩
  · show Atom.Fits d nodes T [v] [] _
    split
    · exact hfull
    · next hn =>
      refine ⟨by simp [Atom.vars, Term.vars], ?_, rfl, trivial, trivial, fun h1 h2 h3 => hn ⟨h1, h2, h3⟩, by simp [Atom.onModel]⟩
      simpa [Spec.Atom.consts, Spec.Term.consts, resolve, GoodVals] using ⟨h.const, hk⟩
  · show Atom.Fits d nodes T [v] [] _
    split
    · exact hfull
    · next hn =>
      refine ⟨by simp [Atom.vars, Term.vars], ?_, rfl, trivial, trivial, fun h1 h2 h3 => hn ⟨h1, h2, h3⟩, by simp [Atom.onModel]⟩
      simpa [Spec.Atom.consts, Spec.Term.consts, resolve, GoodVals] using ⟨h.const, hk⟩
  · -- the names in the order are names of the distance from `v` to `c0`
    have hu : ∀ u ∈ (Query.withVar v (.and f (altLeh d c0 g v k))).uses d T depth [],
        u ∈ (Query.withVar v f).uses d T depth [] ∨ ((∃ key, u.1 = g v key) ∧ u.2 = .dist (.name v) (.vals c0.val)) := by
      intro u hu
      simp only [Query.uses, altLeh, List.mem_append] at hu
      rcases hu with hu | hu | hu
      · exact .inl hu
      · split at hu
        · simp [Atom.uses] at hu
        · simp only [Atom.uses, suffix, List.take_nil, List.flatMap_nil, List.append_nil, List.mem_singleton] at hu
          rw [hu]
          exact .inr ⟨⟨_, rfl⟩, rfl⟩
      · split at hu
        · simp [Atom.uses] at hu
        · simp only [Atom.uses, suffix, List.take_nil, List.flatMap_nil, List.append_nil, List.mem_singleton] at hu
          rw [hu]
          exact .inr ⟨⟨_, rfl⟩, rfl⟩
    have hnm : (Query.withVar v (.and f (altLeh d c0 g v k))).names d T [] = (Query.withVar v f).names d T [] := by
      simp [Query.names, altLeh]
    intro u h1
    rw [hnm]
    rcases hu u h1 with h1 | ⟨⟨key, hkey⟩, hrole⟩
    · refine ⟨(h.good.clean u h1).1, fun u' h2 he => ?_⟩
      rcases hu u' h2 with h2 | ⟨⟨key', hkey'⟩, -⟩
      · exact (h.good.clean u h1).2 u' h2 he
      · exact absurd (he.symm.trans hkey') ((h.fresh key').2 u h1)
    · refine ⟨hkey ▸ (h.fresh key).1, fun u' h2 he => ?_⟩
      rcases hu u' h2 with h2 | ⟨-, hrole'⟩
      · exact absurd (he.trans hkey) ((h.fresh key).2 u' h2)
      · rw [hrole, hrole']; exact fun _ _ _ => rfl

theorem altLeh_plain (h : ClosestIn d nodes T depth v f c0 g) (k : QConst) : (Query.withVar v (.and f (altLeh d c0 g v k))).Plain :=
  ⟨⟨h.plain.positive, trivial, rfl⟩, by simpa [Query.binders, altLeh] using h.plain.distinct,
    by simpa [Query.binders, altLeh] using h.plain.names, h.plain.guards, trivial, trivial⟩

/-- The formula and the order by distance, as arguments of `ComputeOptim`. -/
theorem poses_leh (h : ClosestIn d nodes T depth v f c0 g) :
    Poses d nodes v (fun _ => f.comp) (fun _ k => (strictLeh c0 g v k).comp) (f.about d T v) (Closer d (den c0.val))
      ((Query.withVar v f).names d T []) := by
  refine ⟨h.good.asks h.plain, fun k hk hid => ⟨(Query.withVar v (.and f (altLeh d c0 g v k))).names d T [], ?_⟩⟩
  have hne : f ≠ .nil := by
    rintro rfl
    exact h.good.fits.2
  have hA := (altLeh_good h hk).asks (altLeh_plain h k)
  have hS : SameTop d (encWithVar v (some (encAnd f.comp (strictLeh c0 g v k).comp)))
      (encWithVar v (Query.and f (altLeh d c0 g v k)).comp) := by
    show SameTop d _ (encWithVar v (some (encAnd f.comp (altLeh d c0 g v k).comp)))
    rw [Query.comp_eq hne]
    exact .withVar v (.and f.tame (.refl _) (altLeh_same h.const hk))
  have hA := hS.asks hA
  have hF : (fun e => (Query.and f (altLeh d c0 g v k)).fo d T (upd (fun _ => bot) v e) (fun _ => none)) =
      fun e => f.about d T v e ∧ Closer d (den c0.val) e (den k.val) := by
    funext e
    refine propext (and_congr Iff.rfl ?_)
    exact about_altLeh k e
  rw [hF] at hA
  exact hA

/-- C61: what `ComputeOptim` returns satisfies the formula, and no instance that satisfies it is strictly closer to `c0` (in the
sense of the predicate: instances that are not full are not comparable). The wrong answers of C34 do no harm here. Missing: formulas in
which the names of distances of `v` occur (see `C61_names_clash`). -/
theorem C61_closest_partial (hc : Correct sv) (h : ClosestIn d nodes T depth v f c0 g)
    (hs : Ready d nodes ((Query.withVar v f).names d T []) s) {tmp : Bool} {fuel : Nat}
    (he : computeOptim sv (fun _ => f.comp) (fun _ k => (strictLeh c0 g v k).comp) v tmp fuel st s = (.ok o, st', s'))
    (hf : o.found = true) :
    GoodVals d o.value.val ∧ f.about d T v (den o.value.val) ∧
      ∀ e, f.about d T v e → ¬ (LEH d (den c0.val) e (den o.value.val) ∧ ¬ LEH d (den c0.val) (den o.value.val) e) := by
  obtain ⟨h1, h2, h3, h4⟩ := C46_optimum hc (poses_leh h) hs he hf
  refine ⟨⟨h1, h2⟩, h3, fun e hF hR => h4 e hF ⟨.inl hR.1, ?_⟩⟩
  rintro (hl | ⟨f0, fb, h0⟩)
  · exact hR.2 hl
  · exact hR.2 ⟨f0, fb, hR.1.2.1, by rw [h0]; omega⟩

/-- C61: for a formula that only full instances satisfy, and a full constant, the value is at minimal distance. -/
theorem C61_minimal_distance_partial (hc : Correct sv) (h : ClosestIn d nodes T depth v f c0 g) (h0 : Full d (den c0.val))
    (hfull : ∀ e, f.about d T v e → Full d e) (hs : Ready d nodes ((Query.withVar v f).names d T []) s) {tmp : Bool} {fuel : Nat}
    (he : computeOptim sv (fun _ => f.comp) (fun _ k => (strictLeh c0 g v k).comp) v tmp fuel st s = (.ok o, st', s'))
    (hf : o.found = true) :
    f.about d T v (den o.value.val) ∧
      ∀ e, f.about d T v e → hamming d (den c0.val) (den o.value.val) ≤ hamming d (den c0.val) e := by
  obtain ⟨-, h3, h4⟩ := C61_closest_partial hc h hs he hf
  refine ⟨h3, fun e hF => Nat.le_of_not_lt fun hlt => h4 e hF ⟨?_, fun hl => ?_⟩⟩
  · exact ⟨h0, hfull e hF, hfull _ h3, by omega⟩
  · have := hl.2.2.2
    omega

open Classical in
/-- C61: `ComputeOptim` ends, with at most `dim + 3` calls, and with at most `dim + 2` if only full instances satisfy the formula. -/
theorem C61_ends_partial (hc : Correct sv) (hr : Reliable sv) (h : ClosestIn d nodes T depth v f c0 g)
    (hs : Ready d nodes ((Query.withVar v f).names d T []) s) {fuel : Nat} (hfuel : d + 1 < fuel) :
    ∃ o st' s', computeOptim sv (fun _ => f.comp) (fun _ k => (strictLeh c0 g v k).comp) v true fuel st s = (.ok o, st', s') ∧
      o.calls ≤ d + 3 ∧ ((∀ e, f.about d T v e → Full d e) → o.calls ≤ d + 2) := by
  have hle : ∀ e, hamming d (den c0.val) e ≤ d := fun e => countFeats_le' _ _
  have key : ∀ e b : PInst, Closer d (den c0.val) e b → Full d b ∧
      (Full d e → hamming d (den c0.val) e < hamming d (den c0.val) b) := by
    rintro e b ⟨h1, h2⟩
    have hb : Full d (den c0.val) ∧ Full d b := by
      rcases h1 with h1 | h1
      · exact ⟨h1.1, h1.2.2.1⟩
      · exact ⟨h1.1, h1.2.1⟩
    refine ⟨hb.2, fun hfe => Nat.lt_of_not_le fun hle => h2 (.inl ⟨hb.1, hb.2, hfe, hle⟩)⟩
  obtain ⟨o, st', s', e, h1⟩ := C48_rank (st := st) hc hr (poses_leh h) hs
    (fun b => if Full d (den b) then hamming d (den c0.val) (den b) + 1 else 0) (d + 1)
    (fun b _ _ => by have := hle (den b); split <;> omega)
    (fun b b' _ _ _ _ hR => by
      obtain ⟨k1, k2⟩ := key _ _ hR
      simp only [k1, if_true]
      split
      · next hb' => have := k2 hb'; omega
      · omega) hfuel
  refine ⟨o, st', s', e, by omega, fun hfull => ?_⟩
  obtain ⟨o', st1, s1, e', h2⟩ := C48_rank (st := st) hc hr (poses_leh h) hs
    (fun b => hamming d (den c0.val) (den b)) d (fun b _ _ => hle _)
    (fun b b' _ _ _ hF' hR => (key _ _ hR).2 (hfull _ hF')) (fuel := fuel) (by omega)
  rw [e] at e'
  simp only [Prod.mk.injEq, Except.ok.injEq] at e'
  rw [e'.1]
  exact h2

/-- C60, for the orders of the library other than preferences (strict subsumption, its converse, strict LEL, strict LEH): the number of calls
is at most the number of features plus 3. Missing: preference orders (see `C60_exponential`) and orders of one's own, for which only
`C59_worst_case` and the bound of C48 hold. -/
theorem C60_linear_partial (hc : Correct sv) (hr : Reliable sv) {gl : QVar → QVar} {ord : QConst → Query}
    (hg : (Query.withVar v f).Good d nodes T depth) (hp : (Query.withVar v f).Plain)
    (ho : ord = strictSubs v ∨ ord = strictSups v ∨
      (ord = strictLel gl v ∧ Hygienic d T ((Query.withVar v f).names d T []) ((gl v, .bots v) :: (Query.withVar v f).uses d T depth [])) ∨
      (ord = strictLeh c0 g v ∧ ClosestIn d nodes T depth v f c0 g))
    (hs : Ready d nodes ((Query.withVar v f).names d T []) s) {fuel : Nat} (hfuel : d + 1 < fuel) :
    ∃ o st' s', computeOptim sv (fun _ => f.comp) (fun _ k => (ord k).comp) v true fuel st s = (.ok o, st', s') ∧ o.calls ≤ d + 3 := by
  rcases ho with rfl | rfl | ⟨rfl, hh⟩ | ⟨rfl, hh⟩
  · obtain ⟨o, st', s', e, h⟩ := C48_subsumption (st := st) hc hr hg hp hs (fuel := fuel) (by omega)
    exact ⟨o, st', s', e, by omega⟩
  · obtain ⟨o, st', s', e, h⟩ := C48_supersumption (st := st) hc hr hg hp hs (fuel := fuel) (by omega)
    exact ⟨o, st', s', e, by omega⟩
  · obtain ⟨o, st', s', e, h⟩ := C48_lel (st := st) hc hr hg hp hh hs (fuel := fuel) (by omega)
    exact ⟨o, st', s', e, by omega⟩
  · obtain ⟨o, st', s', e, h, -⟩ := C61_ends_partial (st := st) hc hr hh hs (fuel := fuel) (by omega)
    exact ⟨o, st', s', e, by omega⟩

/-- `v` is full and of the positive class. -/
def positive (v : QVar) : Query := .and (.atom (.full (.var v))) (.atom (.allcomp (.var v) true (some VarGenNodeReach)))

theorem positive_closest : ClosestIn 2 exNodes exTree (fun _ => 0) ['x'] (positive ['x']) { val := [ZERO, ZERO] } VarGenHammingDistance := by
  refine ⟨query_good (t := testTags) (by omega) exNodes_isTree exNodes_covers C54_test_generators.1 ?_ ?_ ?_, ?_, by decide, fun key => ?_⟩
  · exact ⟨⟨by decide, 'x', [], rfl, by decide⟩, trivial, congrArg some C54_test_generators.2.2.2.1⟩
  · exact ⟨by simp [positive, Query.atoms, Atom.prefs], by simp [positive, Query.atoms, Atom.isNodeVar]⟩
  · exact ⟨rfl, ⟨by simp [Atom.vars, Term.vars], by simp [Spec.Atom.consts, Spec.Term.consts], trivial, trivial, trivial, trivial⟩,
      ⟨by simp [Atom.vars, Term.vars], by simp [Spec.Atom.consts, Spec.Term.consts], trivial, trivial, trivial, trivial⟩⟩
  · exact ⟨⟨trivial, trivial⟩, by simp [Query.binders, positive], by simp [Query.binders, positive]; decide, trivial, trivial⟩
  · have hh : (VarGenHammingDistance ['x'] key).head? = some 'h' := by
      unfold VarGenHammingDistance
      split <;> rfl
    have hne : ∀ l : QVar, l.head? ≠ some 'h' → VarGenHammingDistance ['x'] key ≠ l := fun l hl he => hl (he ▸ hh)
    refine ⟨?_, ?_⟩
    · simp only [Query.names, positive, suffix, List.flatMap_nil, List.append_nil, List.mem_cons, List.not_mem_nil, or_false]
      exact hne _ (by decide)
    · intro u hu
      simp only [Query.uses, positive, Atom.uses, suffix, List.take_nil, List.flatMap_nil, List.append_nil, List.nil_append,
        List.mem_singleton] at hu
      rw [hu]
      exact (hne _ (by decide)).symm

/-- `C60_linear_partial` applies to this formula, with the orders of subsumption and of distance. -/
example (hc : Correct sv) (hr : Reliable sv) {ord : QConst → Query}
    (ho : ord = strictSubs ['x'] ∨ ord = strictLeh { val := [ZERO, ZERO] } VarGenHammingDistance ['x']) :
    ∃ o st' s', computeOptim sv (fun _ => (positive ['x']).comp) (fun _ k => (ord k).comp) ['x'] true 4 st (BasicQContext 2 exNodes) =
      (.ok o, st', s') ∧ o.calls ≤ 5 :=
  C60_linear_partial (gl := VarGenBotCount) hc hr positive_closest.good positive_closest.plain
    (ho.elim .inl fun h => .inr (.inr (.inr ⟨h, positive_closest⟩))) (Ready.fresh_ctx _ _ _) (by omega)

/-- Concrete case of C61: the closest positive instances to 00. Every solver that never gives a wrong answer and never fails leads to one of
the two instances at distance 1, after at most 4 calls. -/
theorem C61_counterfactual (hc : Correct sv) (hr : Reliable sv) :
    ∃ o st' s', computeOptim sv (fun _ => (positive ['x']).comp) (fun _ k => (strictLeh { val := [ZERO, ZERO] } VarGenHammingDistance ['x'] k).comp)
        ['x'] true 4 st (BasicQContext 2 exNodes) = (.ok o, st', s') ∧
      o.found = true ∧ o.calls ≤ 4 ∧ (o.value.val = [ZERO, ONE] ∨ o.value.val = [ONE, ZERO]) := by
  have h := positive_closest
  have hready := Ready.fresh_ctx 2 exNodes ((Query.withVar ['x'] (positive ['x'])).names 2 exTree [])
  have hab : ∀ e : PInst, (positive ['x']).about 2 exTree ['x'] e ↔ Full 2 e ∧ AllComp 2 exTree true e := by
    intro e; simp [positive, Query.about, Query.fo, Atom.says, Term.val, upd]
  obtain ⟨o, st', s', e, -, hcalls⟩ := C61_ends_partial (st := st) hc hr h hready (fuel := 4) (by omega)
  have hex : (positive ['x']).about 2 exTree ['x'] (den [ZERO, ONE]) := by
    rw [hab]
    refine ⟨?_, ?_⟩
    · intro i hi
      have : i = 0 ∨ i = 1 := by omega
      rcases this with rfl | rfl <;> decide
    · intro x hx
      have h1 := hx 1 (by omega) true (by decide)
      simp [exTree, DTree.classify, h1]
  have hfound : o.found = true := by
    cases hf : o.found with
    | true => rfl
    | false => exact absurd hex ((C47_absent_partial (st := st) hc hr (poses_leh h) hready 4).1 ⟨o, st', s', e, hf⟩ _)
  refine ⟨o, st', s', e, hfound, hcalls fun e he => ((hab e).1 he).1, ?_⟩
  obtain ⟨h1, h2, -⟩ := C61_closest_partial hc h hready e hfound
  obtain ⟨-, h3⟩ := C61_minimal_distance_partial hc h (by
    intro i hi
    have : i = 0 ∨ i = 1 := by omega
    rcases this with rfl | rfl <;> decide) (fun e he => ((hab e).1 he).1) hready e hfound
  have h4 := h3 _ hex
  rw [hab] at h2
  have hm := mem_allVals h1
  revert h2 h4
  generalize o.value.val = b at hm
  simp only [allVals, List.flatMap_cons, List.flatMap_nil, List.cons_append, List.nil_append, List.append_nil, List.mem_cons,
    List.not_mem_nil, or_false] at hm
  rintro ⟨h2, h2'⟩ h4
  rcases hm with rfl | rfl | rfl | rfl | rfl | rfl | rfl | rfl | rfl
  all_goals first
    | exact .inl rfl
    | exact .inr rfl
    | exact absurd rfl (h2 0 (by omega))
    | exact absurd rfl (h2 1 (by omega))
    | exact absurd h4 (by decide)
    | (have := h2' (fun _ => false) (by
        intro i hi b hb
        have : i = 0 ∨ i = 1 := by omega
        rcases this with rfl | rfl <;> simp_all [den, featDen, ZERO, BOT])
       simp [exTree, DTree.classify] at this)

/-- `v` is at least as close to 110 as to 001. -/
def nearer : Query :=
  .atom (.leh (.var ['x']) (.const { val := [ONE, ONE, ZERO] }) (.const { val := [ZERO, ZERO, ONE] }) (some VarGenHammingDistance) none)

theorem nearer_good : (Query.withVar ['x'] nearer).Good 3 [] exTree (fun _ => 0) := by
  refine ⟨by omega, ⟨rfl, ⟨by simp [Atom.vars, Term.vars], ?_, rfl, trivial, trivial, trivial, by simp [Atom.onModel]⟩⟩, .of_eq (by decide)⟩
  simp [Spec.Atom.consts, Spec.Term.consts, resolve, ValidVals]

theorem nearer_plain : (Query.withVar ['x'] nearer).Plain :=
  ⟨trivial, by simp [Query.binders, nearer], by simp [Query.binders, nearer]; decide, trivial⟩

/-- C61 fails if the formula itself speaks about distances of `v` and uses the same generator: `ComputeOptim` reports 110 as closest to 000
among the instances that are at least as near to 110 as to 001, although 100 is one of them. The variables for the distance from
`v` to 000 are named after 110 (the bug in C37), as are those for the distance to 110 in the formula. Solver and generator are right. -/
theorem C61_names_clash :
    ∃ (sv : Solver (Nat × Val)) (st : Nat × Val), Correct sv ∧ Reliable sv ∧
      (∃ st' s', computeOptim sv (fun _ => nearer.comp) (fun _ k => (strictLeh { val := [ZERO, ZERO, ZERO] } VarGenHammingDistance ['x'] k).comp)
        ['x'] true 1 st (BasicQContext 3 []) = (.ok ⟨true, { val := [ONE, ONE, ZERO] }, 2⟩, st', s')) ∧
      nearer.about 3 exTree ['x'] (den [ONE, ZERO, ZERO]) ∧
      hamming 3 (den [ZERO, ZERO, ZERO]) (den [ONE, ZERO, ZERO]) < hamming 3 (den [ZERO, ZERO, ZERO]) (den [ONE, ONE, ZERO]) := by
  have hfl : ∀ a b c, a ≠ BOT → b ≠ BOT → c ≠ BOT → Full 3 (den [a, b, c]) := by
    intro a b c ha hb hc i hi
    have : i = 0 ∨ i = 1 ∨ i = 2 := by omega
    rcases this with rfl | rfl | rfl <;> simp [den, featDen, *] <;> split <;> simp
  have hF : ∀ a b c, a ≠ BOT → b ≠ BOT → c ≠ BOT → hamming 3 (den [a, b, c]) (den [ONE, ONE, ZERO]) ≤ hamming 3 (den [a, b, c]) (den [ZERO, ZERO, ONE]) →
      nearer.about 3 exTree ['x'] (den [a, b, c]) := by
    intro a b c ha hb hc hle
    exact ⟨hfl a b c ha hb hc, hfl _ _ _ (by decide) (by decide) (by decide), hfl _ _ _ (by decide) (by decide) (by decide), hle⟩
  refine ⟨guided 3 ['x'] ([[ONE, ONE, ZERO]].getD · []), (0, fun _ => false), guided_correct, guided_reliable, ?_,
    hF _ _ _ (by decide) (by decide) (by decide) (by decide), by decide⟩
  have hA := nearer_good.asks nearer_plain
  have hready := Ready.fresh_ctx 3 [] ((Query.withVar ['x'] nearer).names 3 exTree [])
  obtain ⟨st1, s1, e1, hc1, -, -, st2, e2, -⟩ := guided_follows (b := [ONE, ONE, ZERO]) (st := (0, fun _ => false)) (plan := ([[ONE, ONE, ZERO]].getD · [])) hA hready rfl (by decide)
    (hF _ _ _ (by decide) (by decide) (by decide) (by decide))
  -- the context after the first step
  have hs1 : s1 = (encWithVar ['x'] nearer.comp (BasicQContext 3 [])).2 := by
    obtain ⟨-, P, hD, -⟩ := hA
    obtain ⟨c, s', e, -⟩ := hD _ hready
    rw [e]
    rw [guided_step e] at e1
    split at e1 <;> simp only [Prod.mk.injEq, reduceCtorEq, false_and] at e1
    exact e1.2.2.symm
  obtain ⟨c, s', e3, hu⟩ := unsat_of_refutedResult (n := 60) (r := encWithVar ['x'] (some (encAnd nearer.comp
    (strictLeh { val := [ZERO, ZERO, ZERO] } VarGenHammingDistance ['x'] { val := [ONE, ONE, ZERO] }).comp)) s1.reset)
    (by rw [hs1]; decide +kernel)
  have h3 : (guided 3 ['x'] ([[ONE, ONE, ZERO]].getD · [])).step (some (encWithVar ['x'] (some (encAnd nearer.comp
      (strictLeh { val := [ZERO, ZERO, ZERO] } VarGenHammingDistance ['x'] { val := [ONE, ONE, ZERO] }).comp)))) st2 s1.reset =
      (.error .unsat, (st2.1 + 1, st2.2), s') := by
    rw [guided_step e3]
    split
    · next hp => exact absurd ⟨_, pick_models hp⟩ hu
    · rfl
  refine ⟨(st2.1 + 1, st2.2), s', ?_⟩
  unfold computeOptim
  simp only [Bool.not_true, Bool.false_eq_true, if_false]
  have e1' : (guided 3 ['x'] ([[ONE, ONE, ZERO]].getD · [])).step (some (encWithVar ['x'] nearer.comp)) (0, fun _ => false) (BasicQContext 3 []) =
    (.ok (), st1, s1) := e1
  rw [e1']
  simp only [optimLoop]
  rw [e2]
  simp only
  rw [h3]

end Goexpdt.Props

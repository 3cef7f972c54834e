import Verif.Props.Preds
import Verif.Lemmas.Unsat
/-
Properties C36–C38 (components that share auxiliary variables) and the cases in which C34 fails.

The properties fail: for each there is a concrete query over a valid model whose CNF is unsatisfiable
although an instance satisfies the query (or the other way round). The `_partial` theorems give the
cases in which they hold.
-/
namespace Goexpdt.Props
open Goexpdt Spec

variable {d : Nat} {nodes : List Node} {T : DTree} {xs : List QVar}

theorem not_exactly_of_trivial {x : QVar} {q : Query} {P : Asg → Prop} {n : Nat} {nodes : List Node} {σ : Asg}
    (ht : (match (q.encode (BasicQContext n nodes)).1 with
      | .ok c => c.sClauses.isEmpty
      | .error _ => false) = true) (hP : ¬ P σ) : ¬ Exactly n nodes [x] q P := by
  intro h
  obtain ⟨c, s', e, -, hf⟩ := h _ (Ready.fresh_ctx n nodes [x])
  rw [e] at ht
  obtain ⟨β, hc, hr⟩ := hf.con σ
  refine hP ((hf.sem β σ hc hr).1 ?_)
  intro cl hcl
  have ht' : c.sClauses = [] := by simpa using ht
  rw [ht'] at hcl
  simp at hcl

theorem unsat_of_refutedResult {n : Nat} {r : Except Err CNF × Ctx} (h : refutedResult n r = true) :
    ∃ c s', r = (.ok c, s') ∧ ¬ Satisfiable c := by
  obtain ⟨r, s'⟩ := r
  cases r with
  | error e => simp [refutedResult] at h
  | ok c => exact ⟨c, s', rfl, unsat_of_refuted h⟩

/-! ### C34 -/

/-- C34 fails for `ConstConstVar` with equal constants: the encoding is true for instances that are not
full. -/
theorem C34_ccv_wrong :
    ¬ Exactly 2 [] [['x']] (.withVar ['x'] (.atom (.leh (.const { val := [ZERO, ONE] }) (.const { val := [ZERO, ONE] })
        (.var ['x']) (some VarGenHammingDistance) (some VarGenEqualFeat))))
      (fun σ => LEH 2 (den [ZERO, ONE]) (den [ZERO, ONE]) (σ ['x'])) :=
  not_exactly_of_trivial (σ := fun _ => bot) (by decide +kernel)
    fun h => h.2.2.1 0 (by omega) rfl

/-- C34 fails for `ConstVarConst` with constants that differ everywhere. -/
theorem C34_cvc_wrong :
    ¬ Exactly 2 [] [['x']] (.withVar ['x'] (.atom (.leh (.const { val := [ZERO, ONE] }) (.var ['x'])
        (.const { val := [ONE, ZERO] }) (some VarGenHammingDistance) (some VarGenEqualFeat))))
      (fun σ => LEH 2 (den [ZERO, ONE]) (σ ['x']) (den [ONE, ZERO])) :=
  not_exactly_of_trivial (σ := fun _ => bot) (by decide +kernel)
    fun h => h.2.1 0 (by omega) rfl

/-! ### C36 -/

/-- A tree that decides feature 0 and has class true everywhere. -/
def oneNodes : List Node :=
  [{ feat := 0, zChild := 1, oChild := 2 }, { value := true, zChild := -1, oChild := -1 },
   { value := true, zChild := -1, oChild := -1 }]

def oneTree : DTree := .node 0 0 (.leaf 1 true) (.leaf 2 true)

theorem oneTree_ok : IsTree 1 oneNodes oneTree ∧ Covers oneNodes oneTree := by
  refine ⟨?_, by unfold Covers; decide⟩
  refine ⟨?_, rfl, by decide, by decide, ?_⟩
  · simp [oneTree, LaysOut, oneNodes, DTree.root, Node.childless]
  · simp [oneTree, DTree.ReadOnce, DTree.feats]

/-- The root of the tree is a node, and all its completions are positive, and it is not full. -/
def sharedQuery (g1 g2 : QVar → QVar) : Query :=
  .withVar ['x'] (.and (.and (.atom (.isnode (.var ['x']) (some g1))) (.atom (.allcomp (.var ['x']) true (some g2))))
    (.not (.atom (.full (.var ['x'])))))

/-- C36 fails for `isnode.Var` and `allcomp.Var`: the query is satisfied by the instance of the root,
but if both get the same generator the CNF is unsatisfiable. -/
theorem C36_shared_wrong :
    (IsNode 1 oneTree bot ∧ AllComp 1 oneTree true bot ∧ ¬ Full 1 bot) ∧
    ∃ c s', (sharedQuery VarGenNodeReach VarGenNodeReach).encode (BasicQContext 1 oneNodes) = (.ok c, s') ∧
      ¬ Satisfiable c := by
  refine ⟨⟨?_, ?_, ?_⟩, ?_⟩
  · exact ⟨(0, bot), by simp [oneTree, DTree.nodeInsts], fun i _ => rfl⟩
  · intro x _; simp [oneTree, DTree.classify]
  · exact fun h => h 0 (by omega) rfl
  · exact unsat_of_refutedResult (n := 40) (by decide +kernel)

/-- C36, restricted to two components of the same kind; missing: `isnode.Var` with `allcomp.Var` (see
`C36_shared_wrong`). Both combinations of signs are shown; neither changes the meaning. -/
theorem C36_same_kind_partial (hd : 0 < d) (hT : IsTree d nodes T) (hC : Covers nodes T) {t1 t2 : Term}
    {b1 b2 : Bool} {g : QVar → QVar} (h1 : t1.Ok d xs) (h2 : t2.Ok d xs) (hg : FreshGen xs g) :
    (Exactly d nodes xs (declare xs (.and (.atom (.isnode t1 (some g))) (.atom (.isnode t2 (some g)))))
        (fun σ => IsNode d T (t1.under σ) ∧ IsNode d T (t2.under σ)) ∧
      Exactly d nodes xs (declare xs (.and (.atom (.isnode t1 (some g))) (.not (.atom (.isnode t2 (some g))))))
        (fun σ => IsNode d T (t1.under σ) ∧ ¬ IsNode d T (t2.under σ))) ∧
    Exactly d nodes xs (declare xs (.and (.atom (.allcomp t1 b1 (some g))) (.atom (.allcomp t2 b2 (some g)))))
        (fun σ => AllComp d T b1 (t1.under σ) ∧ AllComp d T b2 (t2.under σ)) ∧
      Exactly d nodes xs (declare xs (.and (.atom (.allcomp t1 b1 (some g))) (.not (.atom (.allcomp t2 b2 (some g))))))
        (fun σ => AllComp d T b1 (t1.under σ) ∧ ¬ AllComp d T b2 (t2.under σ)) := by
  have fit : ∀ {t : Term}, t.Ok d xs → (Atom.isnode t (some g)).Fits d nodes T xs [] := fun h =>
    ⟨term_vars_ok h, term_consts_ok h, by simp [Spec.Atom.nilGen], trivial, trivial, trivial, fun _ => ⟨hT, hC⟩⟩
  have fit' : ∀ {t : Term} {b}, t.Ok d xs → (Atom.allcomp t b (some g)).Fits d nodes T xs [] := fun h =>
    ⟨term_vars_ok h, term_consts_ok h, by simp [Spec.Atom.nilGen], trivial, trivial, trivial, fun _ => ⟨hT, hC⟩⟩
  have gen : ∀ {uses : List (QVar × Role)} {ρ : QVar → Role}, (∀ u ∈ uses, ∃ x ∈ xs, u = (g x, ρ x)) →
      Hygienic d T xs uses := by
    intro uses ρ key
    refine .of_eq fun u hu => ?_
    obtain ⟨x, hx, rfl⟩ := key u hu
    refine ⟨(hg x hx).1, fun u' hu' he => ?_⟩
    obtain ⟨y, hy, rfl⟩ := key u' hu'
    rw [(hg x hx).2 y hy he]
  constructor
  · refine closed_pair hd (fit h1) (fit h2) (gen (ρ := .onPath) fun u hu => ?_)
    cases t1 <;> cases t2 <;> simp [Atom.uses] at hu <;> simp only [Term.Ok] at h1 h2
    · exact ⟨_, h2, hu⟩
    · exact ⟨_, h1, hu⟩
    · exact hu.elim (fun h => ⟨_, h1, h⟩) fun h => ⟨_, h2, h⟩
  · refine closed_pair hd (fit' h1) (fit' h2) (gen (ρ := .reach) fun u hu => ?_)
    cases t1 <;> cases t2 <;> simp [Atom.uses] at hu <;> simp only [Term.Ok] at h1 h2
    · exact ⟨_, h2, hu⟩
    · exact ⟨_, h1, hu⟩
    · exact hu.elim (fun h => ⟨_, h1, h⟩) fun h => ⟨_, h2, h⟩

/-- Concrete case: neither class has all completions of `x`. -/
example : Exactly 2 exNodes [['x']] (.withVar ['x'] (.and (.atom (.allcomp (.var ['x']) true (some VarGenNodeReach)))
      (.not (.atom (.allcomp (.var ['x']) false (some VarGenNodeReach))))))
    (fun σ => AllComp 2 exTree true (σ ['x']) ∧ ¬ AllComp 2 exTree false (σ ['x'])) :=
  (C36_same_kind_partial (xs := [['x']]) (t1 := .var ['x']) (t2 := .var ['x']) (by omega) exNodes_isTree exNodes_covers
    (by simp [Term.Ok]) (by simp [Term.Ok]) (by unfold FreshGen; decide)).2.2

/-! ### C37 -/

/-- `x` is at most as far from 00 as 01 is, and at most as far from 11 as 01 is. -/
def distQuery : Query :=
  .withVar ['x'] (.and
    (.atom (.leh (.const { val := [ZERO, ZERO] }) (.var ['x']) (.const { val := [ZERO, ONE] })
      (some VarGenHammingDistance) (some VarGenEqualFeat)))
    (.atom (.leh (.const { val := [ONE, ONE] }) (.var ['x']) (.const { val := [ZERO, ONE] })
      (some VarGenHammingDistance) (some VarGenEqualFeat))))

/-- C37 fails for `ConstVarConst`: the distance of the variable to the first constant is named after
the third. The query is satisfied by 01, but its CNF is unsatisfiable. -/
theorem C37_wrong :
    (LEH 2 (den [ZERO, ZERO]) (den [ZERO, ONE]) (den [ZERO, ONE]) ∧
      LEH 2 (den [ONE, ONE]) (den [ZERO, ONE]) (den [ZERO, ONE])) ∧
    ∃ c s', distQuery.encode (BasicQContext 2 []) = (.ok c, s') ∧ ¬ Satisfiable c := by
  refine ⟨?_, ?_⟩
  · unfold LEH Full hamming countFeats; decide
  · exact unsat_of_refutedResult (n := 60) (by decide +kernel)

/-- C37, for all types of `leh` but `ConstVarConst` (see `C37_wrong`), without the corner case of C34: two
components with the same generators do not interfere, in either sign. -/
theorem C37_pair_partial (hd : 0 < d) {t1 t2 t3 u1 u2 u3 : Term} {ks : List QVar} {g e : QVar → QVar → QVar}
    (h1 : t1.Ok d xs) (h2 : t2.Ok d xs) (h3 : t3.Ok d xs) (k1 : u1.Ok d xs) (k2 : u2.Ok d xs) (k3 : u3.Ok d xs)
    (hg : LehGens xs [t1, t2, t3, u1, u2, u3] ks g e)
    (hn : ∀ c x c', (t1, t2, t3) ≠ (.const c, .var x, .const c') ∧ (u1, u2, u3) ≠ (.const c, .var x, .const c'))
    (hr : ∀ c x c', (t1, t2, t3) = (.const c, .const c', .var x) ∨ (u1, u2, u3) = (.const c, .const c', .var x) →
      hamming d (den c.val) (den c'.val) ≠ 0) :
    Exactly d nodes xs (declare xs (.and (.atom (.leh t1 t2 t3 (some g) (some e))) (.atom (.leh u1 u2 u3 (some g) (some e)))))
      (fun σ => LEH d (t1.under σ) (t2.under σ) (t3.under σ) ∧ LEH d (u1.under σ) (u2.under σ) (u3.under σ)) ∧
    Exactly d nodes xs (declare xs (.and (.atom (.leh t1 t2 t3 (some g) (some e)))
        (.not (.atom (.leh u1 u2 u3 (some g) (some e))))))
      (fun σ => LEH d (t1.under σ) (t2.under σ) (t3.under σ) ∧ ¬ LEH d (u1.under σ) (u2.under σ) (u3.under σ)) := by
  have fit : ∀ {t1 t2 t3 : Term}, t1.Ok d xs → t2.Ok d xs → t3.Ok d xs →
      (∀ c x c', (t1, t2, t3) ≠ (.const c, .var x, .const c')) →
      (∀ c x c', (t1, t2, t3) = (.const c, .const c', .var x) → hamming d (den c.val) (den c'.val) ≠ 0) →
      (Atom.leh t1 t2 t3 (some g) (some e)).Fits d nodes (.leaf 0 false) xs [] := by
    intro t1 t2 t3 h1 h2 h3 hn hr
    refine ⟨?_, ?_, by simp [Spec.Atom.nilGen], trivial, trivial, ?_, by simp [Atom.onModel]⟩
    · simp only [Atom.vars, List.mem_append]
      exact fun x h => h.elim (fun h => h.elim (term_vars_ok h1 x) (term_vars_ok h2 x)) (term_vars_ok h3 x)
    · simp only [Spec.Atom.consts, List.mem_append]
      exact fun c h => h.elim (fun h => h.elim (term_consts_ok h1 c) (term_consts_ok h2 c)) (term_consts_ok h3 c)
    · cases t1 <;> cases t2 <;> cases t3 <;> simp only [Atom.Regular, resolve, List.find?_nil]
      · exact fun _ _ => hr _ _ _ rfl
      · exact absurd rfl (hn _ _ _)
  refine closed_pair hd (fit h1 h2 h3 (fun c x c' => (hn c x c').1) fun c x c' h => hr c x c' (.inl h))
    (fit k1 k2 k3 (fun c x c' => (hn c x c').2) fun c x c' h => hr c x c' (.inr h)) ?_
  refine pairs_clean (ts := [t1, t2, t3, u1, u2, u3]) (by simp [h1, h2, h3, k1, k2, k3]) hg fun u hu => ?_
  rcases List.mem_append.1 hu with hu | hu
  · refine (leh_uses_apart h1 h2 h3 (fun c x c' => (hn c x c').1) u hu).imp ?_ id
    rintro ⟨x, hx, t, ht, rfl⟩
    exact ⟨x, hx, t, by simp only [List.mem_cons] at ht ⊢; grind, rfl⟩
  · refine (leh_uses_apart k1 k2 k3 (fun c x c' => (hn c x c').2) u hu).imp ?_ id
    rintro ⟨x, hx, t, ht, rfl⟩
    exact ⟨x, hx, t, by simp only [List.mem_cons] at ht ⊢; grind, rfl⟩

/-- Concrete case: 10 is at most as far from 01 as `x` is, and 00 is not at most as far from `x` as 11
is. -/
example : Exactly 2 [] [['x']] (.withVar ['x'] (.and
      (.atom (.leh (.const { val := [ZERO, ONE] }) (.const { val := [ONE, ZERO] }) (.var ['x'])
        (some VarGenHammingDistance) (some VarGenEqualFeat)))
      (.not (.atom (.leh (.var ['x']) (.const { val := [ZERO, ZERO] }) (.const { val := [ONE, ONE] })
        (some VarGenHammingDistance) (some VarGenEqualFeat))))))
    (fun σ => LEH 2 (den [ZERO, ONE]) (den [ONE, ZERO]) (σ ['x']) ∧
      ¬ LEH 2 (σ ['x']) (den [ZERO, ZERO]) (den [ONE, ONE])) := by
  refine (C37_pair_partial (xs := [['x']]) (ks := [['x'], ['0', '1'], ['1', '0'], ['0', '0'], ['1', '1']]) (by omega)
    (by simp [Term.Ok, ValidVals]) (by simp [Term.Ok, ValidVals]) (by simp [Term.Ok]) (by simp [Term.Ok])
    (by simp [Term.Ok, ValidVals]) (by simp [Term.Ok, ValidVals])
    ⟨?_, ?_, ?_, ?_, ?_, ?_⟩ (by simp) ?_).2
  · decide
  · unfold PairGen; decide
  · unfold PairGen; decide
  · decide
  · decide
  · intro c hc
    simp only [List.mem_cons, Term.const.injEq, reduceCtorEq, List.not_mem_nil, or_false, false_or] at hc
    rcases hc with rfl | rfl | rfl | rfl <;> decide
  · rintro c x c' (h | h) <;> cases h
    decide

/-! ### C38 -/

/-- The names of [1, 2] and [12] are the same. -/
theorem C38_collision : prefVar [1, 2] = prefVar [12] := by decide

/-- By [1, 2] the undefined instance is at least as preferred as `x`, by [12] it is not. -/
def prefQuery : Query :=
  .withVar ['x'] (.and
    (.atom (.hepr (.const { val := List.replicate 13 BOT }) (.var ['x']) [1, 2] (some VarGenFeaturePreference)))
    (.not (.atom (.hepr (.const { val := List.replicate 13 BOT }) (.var ['x']) [12] (some VarGenFeaturePreference)))))

/-- C38 fails: the query is satisfied by the instance that defines only feature 12, but its CNF is
unsatisfiable. -/
theorem C38_wrong :
    (HEPR [1, 2] bot (bot.set 12 true) ∧ ¬ HEPR [12] bot (bot.set 12 true)) ∧
    ∃ c s', prefQuery.encode (BasicQContext 13 []) = (.ok c, s') ∧ ¬ Satisfiable c := by
  refine ⟨⟨?_, ?_⟩, ?_⟩
  · intro pre f post h _ hf
    have : f ∈ [1, 2] := by rw [h]; simp
    simp only [List.mem_cons, List.not_mem_nil, or_false] at this
    rcases this with rfl | rfl <;> exact hf.2 rfl
  · intro h
    exact h [] 12 [] rfl (by simp) ⟨rfl, by decide⟩
  · exact unsat_of_refutedResult (n := 60) (by decide +kernel)

/-- C38, names: preference sequences over the first ten features have different names. Missing: larger
features (see `C38_collision`). -/
theorem C38_names_partial {p p' : List Nat} (h : ∀ i ∈ p, i < 10) (h' : ∀ i ∈ p', i < 10)
    (e : prefVar (p.map Int.ofNat) = prefVar (p'.map Int.ofNat)) : p = p' := by
  induction p generalizing p' with
  | nil =>
    cases p' with
    | nil => rfl
    | cons i p' =>
      simp only [prefVar, List.map_nil, List.flatMap_nil, List.map_cons, List.flatMap_cons] at e
      have := itoa_ne_nil (Int.ofNat i)
      cases hi : itoa (Int.ofNat i) with
      | nil => exact absurd hi this
      | cons a l => rw [hi] at e; simp at e
  | cons i p ih =>
    have one : ∀ j < 10, ∃ c, itoa (Int.ofNat j) = [c] := by
      intro j hj
      exact ⟨_, show itoa (Int.ofNat j) = [digitChar j] from itoaNat_lt hj⟩
    obtain ⟨a, ha⟩ := one i (h i (by simp))
    cases p' with
    | nil =>
      simp only [prefVar, List.map_nil, List.flatMap_nil, List.map_cons, List.flatMap_cons, ha] at e
      simp at e
    | cons j p' =>
      obtain ⟨b, hb⟩ := one j (h' j (by simp))
      simp only [prefVar, List.map_cons, List.flatMap_cons, ha, hb, List.cons_append, List.nil_append,
        List.cons.injEq] at e
      have hij : i = j := by
        have := itoa_inj (a := Int.ofNat i) (b := Int.ofNat j) (by rw [ha, hb, e.1])
        exact Int.ofNat_inj.1 this
      rw [hij, ih (fun k hk => h k (by simp [hk])) (fun k hk => h' k (by simp [hk])) e.2]

/-- C38, names: in dimension `d` the name of a preference sequence identifies it exactly if there are at
most ten features. From eleven features on this fails even for sequences that rank all the features. -/
theorem C38_names_iff (d : Nat) :
    ((∀ p p' : List Nat, (∀ i ∈ p, i < d) → p.Nodup → (∀ i ∈ p', i < d) → p'.Nodup →
      prefVar (p.map Int.ofNat) = prefVar (p'.map Int.ofNat) → p = p') ↔ d ≤ 10) ∧
    ((∀ p p' : List Nat, p.Perm (List.range d) → p'.Perm (List.range d) →
      prefVar (p.map Int.ofNat) = prefVar (p'.map Int.ofNat) → p = p') ↔ d ≤ 10) := by
  have clash : ¬ d ≤ 10 → ∃ p p' : List Nat, p.Perm (List.range d) ∧ p'.Perm (List.range d) ∧
      prefVar (p.map Int.ofNat) = prefVar (p'.map Int.ofNat) ∧ p ≠ p' := by
    intro hd
    have hr : List.range d = List.range 11 ++ (List.range (d - 11)).map (11 + ·) := by
      rw [← List.range_add]
      congr 1
      omega
    refine ⟨[10, 1, 0, 2, 3, 4, 5, 6, 7, 8, 9] ++ (List.range (d - 11)).map (11 + ·),
      [1, 0, 10, 2, 3, 4, 5, 6, 7, 8, 9] ++ (List.range (d - 11)).map (11 + ·), ?_, ?_, ?_, ?_⟩
    · rw [hr]
      exact List.Perm.append_right _ (by decide)
    · rw [hr]
      exact List.Perm.append_right _ (by decide)
    · rw [List.map_append, List.map_append, prefVar, prefVar, List.flatMap_append, List.flatMap_append]
      congr 1
    · intro h
      have := List.append_cancel_right h
      revert this
      decide
  refine ⟨⟨fun h => ?_, fun hd p p' hp _ hp' _ e => ?_⟩, ⟨fun h => ?_, fun hd p p' hp hp' e => ?_⟩⟩
  · refine Decidable.byContradiction fun hd => ?_
    obtain ⟨p, p', hp, hp', e, hne⟩ := clash hd
    exact hne (h p p' (fun i hi => List.mem_range.1 (hp.mem_iff.1 hi)) (hp.nodup_iff.2 List.nodup_range)
      (fun i hi => List.mem_range.1 (hp'.mem_iff.1 hi)) (hp'.nodup_iff.2 List.nodup_range) e)
  · exact C38_names_partial (fun i hi => Nat.lt_of_lt_of_le (hp i hi) hd) (fun i hi => Nat.lt_of_lt_of_le (hp' i hi) hd) e
  · refine Decidable.byContradiction fun hd => ?_
    obtain ⟨p, p', hp, hp', e, hne⟩ := clash hd
    exact hne (h p p' hp hp' e)
  · exact C38_names_partial (fun i hi => Nat.lt_of_lt_of_le (List.mem_range.1 (hp.mem_iff.1 hi)) hd)
      (fun i hi => Nat.lt_of_lt_of_le (List.mem_range.1 (hp'.mem_iff.1 hi)) hd) e

/-- C38 for preference sequences that do not have one name by accident (by `C38_names_partial` this holds
over the first ten features): two components with an injective generator do not interfere, in either
sign. -/
theorem C38_pair_partial (hd : 0 < d) {t1 t2 u1 u2 : Term} {p p' : List Nat} {g : QVar → QVar → QVar → QVar}
    (h1 : t1.Ok d xs) (h2 : t2.Ok d xs) (k1 : u1.Ok d xs) (k2 : u2.Ok d xs)
    (hp : ∀ i ∈ p, i < d) (hn : p.Nodup) (hne : p ≠ [])
    (hp' : ∀ i ∈ p', i < d) (hn' : p'.Nodup) (hne' : p' ≠ [])
    (hname : prefVar (p.map Int.ofNat) = prefVar (p'.map Int.ofNat) → p = p')
    {ks : List QVar} (hks : ∀ t ∈ [t1, t2, u1, u2], t.keyUnder ∈ ks)
    (hinj : ∀ r ∈ [p, p'], ∀ r' ∈ [p, p'], ∀ b ∈ ks, ∀ b' ∈ ks, ∀ c ∈ ks, ∀ c' ∈ ks,
      g (prefVar (r.map Int.ofNat)) b c = g (prefVar (r'.map Int.ofNat)) b' c' →
        prefVar (r.map Int.ofNat) = prefVar (r'.map Int.ofNat) ∧ b = b' ∧ c = c')
    (hkeys : ∀ c, Term.const c ∈ [t1, t2, u1, u2] → c.asString ∉ xs)
    (hg : ∀ r ∈ [p, p'], ∀ b ∈ ks, ∀ c ∈ ks, g (prefVar (r.map Int.ofNat)) b c ∉ xs) :
    Exactly d nodes xs (declare xs (.and (.atom (.hepr t1 t2 (p.map Int.ofNat) (some g)))
        (.atom (.hepr u1 u2 (p'.map Int.ofNat) (some g)))))
      (fun σ => HEPR p (t1.under σ) (t2.under σ) ∧ HEPR p' (u1.under σ) (u2.under σ)) ∧
    Exactly d nodes xs (declare xs (.and (.atom (.hepr t1 t2 (p.map Int.ofNat) (some g)))
        (.not (.atom (.hepr u1 u2 (p'.map Int.ofNat) (some g))))))
      (fun σ => HEPR p (t1.under σ) (t2.under σ) ∧ ¬ HEPR p' (u1.under σ) (u2.under σ)) := by
  have hmap : ∀ p : List Nat, (p.map Int.ofNat).map Int.toNat = p := by
    intro p
    rw [List.map_map]
    conv => rhs; rw [← List.map_id p]
    exact List.map_congr_left fun i _ => rfl
  have fit : ∀ {t1 t2 : Term} {p : List Nat}, t1.Ok d xs → t2.Ok d xs → (∀ i ∈ p, i < d) → p.Nodup → p ≠ [] →
      (Atom.hepr t1 t2 (p.map Int.ofNat) (some g)).Fits d nodes (.leaf 0 false) xs [] := by
    intro t1 t2 p h1 h2 hp hn hne
    have hpo : (Atom.hepr t1 t2 (p.map Int.ofNat) (some g)).PrefOk d := by
      refine ⟨?_, List.Pairwise.map _ (fun a b h => by simpa [Int.ofNat_inj] using h) hn⟩
      intro i hi
      obtain ⟨k, hk, rfl⟩ := List.mem_map.1 hi
      have := hp k hk
      simp only [Int.ofNat_eq_natCast]
      omega
    refine ⟨?_, ?_, by simp [Spec.Atom.nilGen], hpo, ?_, trivial, by simp [Atom.onModel]⟩
    · simp only [Atom.vars, List.mem_append]
      exact fun x h => h.elim (term_vars_ok h1 x) (term_vars_ok h2 x)
    · simp only [Spec.Atom.consts, List.mem_append]
      exact fun c h => h.elim (term_consts_ok h1 c) (term_consts_ok h2 c)
    · cases t1 <;> cases t2 <;> simp [Spec.Atom.PrefsNonempty] <;> simpa using hne
  have key : ∀ {t1 t2 : Term} {p : List Nat} u, u ∈ (Atom.hepr t1 t2 (p.map Int.ofNat) (some g)).uses (fun _ => 0) [] →
      u = (g (prefVar (p.map Int.ofNat)) t1.keyUnder t2.keyUnder, .rank p (t1.res (fun _ => 0) []) (t2.res (fun _ => 0) [])) := by
    intro t1 t2 p u hu
    cases t1 <;> cases t2 <;> simp only [Atom.uses, List.mem_singleton, List.not_mem_nil, key_nil, hmap] at hu <;> exact hu
  have ok : ∀ t ∈ [t1, t2, u1, u2], t.Ok d xs := by simp [h1, h2, k1, k2]
  have res : ∀ t ∈ [t1, t2, u1, u2], ∀ t' ∈ [t1, t2, u1, u2], t.keyUnder = t'.keyUnder →
      t.res (fun _ => 0) [] = t'.res (fun _ => 0) [] := by
    intro t ht t' ht' hk
    cases t with
    | const c =>
      cases t' with
      | const c' =>
        have hv := (C16_asString_injective c c' (ok _ ht).2 (ok _ ht').2).1 hk
        show RTerm.vals c.val = RTerm.vals c'.val
        rw [hv]
      | var y =>
        have : c.asString = y := hk
        exact absurd (ok _ ht') (by rw [← this]; exact hkeys c ht)
    | var y =>
      cases t' with
      | const c' =>
        have : y = c'.asString := hk
        exact absurd (ok _ ht) (by rw [this]; exact hkeys c' ht')
      | var y' =>
        have : y = y' := hk
        rw [this]
  have := closed_pair (nodes := nodes) hd (fit h1 h2 hp hn hne) (fit k1 k2 hp' hn' hne') (.of_eq fun u hu => ?_)
  · refine ⟨this.1.congr fun σ => ?_, this.2.congr fun σ => ?_⟩ <;> simp only [Atom.says, hmap]
  · have names : ∀ u, u ∈ (Atom.hepr t1 t2 (p.map Int.ofNat) (some g)).uses (fun _ => 0) [] ++
        (Atom.hepr u1 u2 (p'.map Int.ofNat) (some g)).uses (fun _ => 0) [] →
        ∃ r ∈ [p, p'], ∃ s ∈ [t1, t2, u1, u2], ∃ s' ∈ [t1, t2, u1, u2],
        u = (g (prefVar (r.map Int.ofNat)) s.keyUnder s'.keyUnder, .rank r (s.res (fun _ => 0) []) (s'.res (fun _ => 0) [])) := by
      intro u hu
      rcases List.mem_append.1 hu with hu | hu
      · exact ⟨p, by simp, t1, by simp, t2, by simp, key u hu⟩
      · exact ⟨p', by simp, u1, by simp, u2, by simp, key u hu⟩
    obtain ⟨r, hrm, s, hs, s', hs', rfl⟩ := names u hu
    refine ⟨hg _ hrm _ (hks _ hs) _ (hks _ hs'), fun u' hu' he => ?_⟩
    obtain ⟨r', hrm', v, hv, v', hv', rfl⟩ := names u' hu'
    obtain ⟨e1, e2, e3⟩ := hinj _ hrm' _ hrm _ (hks _ hv) _ (hks _ hs) _ (hks _ hv') _ (hks _ hs') he
    have hrr : r' = r := by
      simp only [List.mem_cons, List.not_mem_nil, or_false] at hrm hrm'
      rcases hrm with rfl | rfl <;> rcases hrm' with rfl | rfl
      · rfl
      · exact (hname e1.symm).symm
      · exact hname e1
      · rfl
    rw [hrr, res v hv s hs e2, res v' hv' s' hs' e3]

/-- Concrete case, with the generator of the library's tests. -/
example : Exactly 2 [] [['x']] (.withVar ['x'] (.and
      (.atom (.hepr (.const { val := [BOT, ONE] }) (.var ['x']) [0, 1] (some VarGenFeaturePreference)))
      (.not (.atom (.hepr (.const { val := [BOT, ONE] }) (.var ['x']) [1, 0] (some VarGenFeaturePreference))))))
    (fun σ => HEPR [0, 1] (den [BOT, ONE]) (σ ['x']) ∧ ¬ HEPR [1, 0] (den [BOT, ONE]) (σ ['x'])) :=
  (C38_pair_partial (xs := [['x']]) (ks := [['x'], ['_', '1']]) (t1 := .const { val := [BOT, ONE] }) (t2 := .var ['x'])
    (u1 := .const { val := [BOT, ONE] }) (u2 := .var ['x']) (p := [0, 1]) (p' := [1, 0]) (by omega)
    (by simp [Term.Ok, ValidVals]) (by simp [Term.Ok]) (by simp [Term.Ok, ValidVals]) (by simp [Term.Ok])
    (by decide) (by decide) (by decide) (by decide) (by decide) (by decide) (by decide) (by decide) (by decide)
    (by
      intro c hc
      simp only [List.mem_cons, Term.const.injEq, reduceCtorEq, List.not_mem_nil, or_false, false_or, or_self] at hc
      subst hc
      decide)
    (by decide)).2

/-- Concrete case with features above nine. -/
example : Exactly 12 [] [['x'], ['y']] (declare [['x'], ['y']] (.and
      (.atom (.hepr (.var ['x']) (.var ['y']) [11, 0] (some VarGenFeaturePreference)))
      (.not (.atom (.hepr (.var ['x']) (.var ['y']) [10] (some VarGenFeaturePreference))))))
    (fun σ => HEPR [11, 0] (σ ['x']) (σ ['y']) ∧ ¬ HEPR [10] (σ ['x']) (σ ['y'])) :=
  (C38_pair_partial (xs := [['x'], ['y']]) (ks := [['x'], ['y']]) (t1 := .var ['x']) (t2 := .var ['y'])
    (u1 := .var ['x']) (u2 := .var ['y']) (p := [11, 0]) (p' := [10]) (by omega)
    (by simp [Term.Ok]) (by simp [Term.Ok]) (by simp [Term.Ok]) (by simp [Term.Ok])
    (by decide) (by decide) (by decide) (by decide) (by decide) (by decide) (by decide) (by decide) (by decide)
    (by simp) (by decide)).2

end Goexpdt.Props

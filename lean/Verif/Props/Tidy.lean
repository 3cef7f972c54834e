import Verif.Lemmas.Tidy
import Verif.Model.Gen
import Verif.Props.Meaning
import Verif.Props.Clash
/-
C54: the conditions of C39 on a query follow from syntactic ones, which can be checked without knowing
the model, if auxiliary variables are named as in the tests of the library.
-/
namespace Goexpdt.Props
open Goexpdt Spec

variable {d : Nat} {nodes : List Node} {T : DTree} {depth : QVar → Nat} {t : Tags} {q : Query}

/-- C54: a query that satisfies the syntactic conditions (Spec/Tidy.lean) is encoded without error over every
decision tree, and the CNF is faithful to what the query says: auxiliary variables never clash with
each other or with variables of the query, under any nesting of guarded quantifiers. -/
theorem C54_faithful (hd : 0 < d) (hT : IsTree d nodes T) (hC : Covers nodes T) (hok : t.Ok) (ht : q.Tidy t)
    (hsep : q.Separate t) (hs : q.Scoped d depth [] []) :
    ∃ c s', q.encode (BasicQContext d nodes) = (.ok c, s') ∧ WF c ∧
      Faithful d (q.names d T []) (fun σ => q.sem d T depth σ []) s' c :=
  (C39_faithful (query_good hd hT hC hok ht hsep hs)).1

/-- C54 in first-order semantics. -/
theorem C54_first_order (hd : 0 < d) (hT : IsTree d nodes T) (hC : Covers nodes T) (hok : t.Ok) (ht : q.Tidy t)
    (hsep : q.Separate t) (hs : q.Scoped d depth [] []) (hp : q.Plain) :
    ∃ c s', q.encode (BasicQContext d nodes) = (.ok c, s') ∧
      (Satisfiable c ↔ q.fo d T (fun _ => bot) fun _ => none) :=
  C40_first_order (query_good hd hT hC hok ht hsep hs) hp

theorem strLt_iff : ∀ {a b : List Char}, strLt a b = true ↔ a < b
  | [], [] => by simp [strLt]
  | [], _ :: _ => by simp [strLt]
  | _ :: _, [] => by simp [strLt]
  | a :: as, b :: bs => by
    have h1 : a < b ↔ a.toNat < b.toNat := Iff.rfl
    have h2 : a = b ↔ a.toNat = b.toNat := ⟨congrArg _, Char.toNat_inj.1⟩
    have h3 := strLt_iff (a := as) (b := bs)
    rw [List.cons_lt_cons_iff, h1, h2, ← h3, strLt]
    by_cases h : a.toNat < b.toNat
    · simp [h]
    · by_cases h' : b.toNat < a.toNat
      · have : a.toNat ≠ b.toNat := by omega
        simp [h, h', this]
      · have : a.toNat = b.toNat := by omega
        simp [this]

/-- C54: the generators in query/internal/test/auxvar.go are of the required form, and their tags are
as required. -/
theorem C54_test_generators : testTags.Ok ∧ VarGenBotCount = tagged1 testTags.count ∧
    VarGenNodeReach = tagged1 testTags.node ∧ VarGenNodeReach = tagged1 testTags.comp ∧
    VarGenFeaturePreference = tagged3 testTags.pref ∧ VarGenHammingDistance = tagged2 testTags.dist ∧
    VarGenEqualFeat = tagged2 testTags.same := by
  have hrs : RS = recSep := by decide
  have e1 : testTags.count = ['b', 'o', 't', 'c'] := by decide
  have e2 : testTags.node = ['r', 'e', 'a', 'c', 'h'] := by decide
  have e3 : testTags.comp = ['r', 'e', 'a', 'c', 'h'] := by decide
  have e4 : testTags.pref = ['f', 'p'] := by decide
  have e5 : testTags.dist = ['h', 'd', 'i', 's', 't'] := by decide
  have e6 : testTags.same = ['e', 'q', 'f'] := by decide
  refine ⟨⟨by decide, by decide, by decide⟩, ?_, ?_, ?_, ?_, ?_, ?_⟩
  · funext v; simp [VarGenBotCount, tagged1, e1, hrs]
  · funext v; simp [VarGenNodeReach, tagged1, e2, hrs]
  · funext v; simp [VarGenNodeReach, tagged1, e3, hrs]
  · funext p v w; simp [VarGenFeaturePreference, tagged3, e4, hrs]
  · funext v w; simp [VarGenHammingDistance, tagged2, e5, hrs, strLt_iff]
  · funext v w; simp [VarGenEqualFeat, tagged2, e6, hrs, strLt_iff]

/-- C69: the generators for pairs give the same name whatever the order of the pair, as their comments say, and different
names to different pairs, of names without the separator. -/
theorem C69_pairs (v1 v2 w1 w2 : QVar) :
    (VarGenHammingDistance v1 v2 = VarGenHammingDistance v2 v1 ∧ VarGenEqualFeat v1 v2 = VarGenEqualFeat v2 v1) ∧
    (recSep ∉ v1 → recSep ∉ v2 → recSep ∉ w1 → recSep ∉ w2 →
      VarGenHammingDistance v1 v2 = VarGenHammingDistance w1 w2 ∨ VarGenEqualFeat v1 v2 = VarGenEqualFeat w1 w2 →
      (v1 = w1 ∧ v2 = w2) ∨ (v1 = w2 ∧ v2 = w1)) := by
  obtain ⟨hok, -, -, -, -, h5, h6⟩ := C54_test_generators
  have key : ∀ t, tagged2 t v1 v2 = tagged2 t v2 v1 := by
    intro t
    unfold tagged2
    by_cases h : v1 < v2
    · rw [if_pos h, if_neg (List.lt_asymm h)]
    · by_cases h' : v2 < v1
      · rw [if_neg h, if_pos h']
      · rw [if_neg h, if_neg h', List.le_antisymm (List.not_lt.1 h') (List.not_lt.1 h)]
  rw [h5, h6]
  refine ⟨⟨key _, key _⟩, fun a b c d h => ?_⟩
  rcases h with h | h
  · exact tagged2_inj (hok.sep _ (by simp)) a b c d h
  · exact tagged2_inj (hok.sep _ (by simp)) a b c d h

/-- C69: the two names of a pair are in order in the result. -/
theorem C69_sorted (v1 v2 : QVar) : ∃ a b, (a = v1 ∧ b = v2 ∨ a = v2 ∧ b = v1) ∧ a ≤ b ∧
    VarGenHammingDistance v1 v2 = "hdist".toList ++ recSep :: (a ++ recSep :: b) ∧
    VarGenEqualFeat v1 v2 = "eqf".toList ++ recSep :: (a ++ recSep :: b) := by
  obtain ⟨-, -, -, -, -, h5, h6⟩ := C54_test_generators
  rw [h5, h6]
  unfold tagged2
  by_cases h : v1 < v2
  · exact ⟨v1, v2, .inl ⟨rfl, rfl⟩, List.le_of_lt h, by rw [if_pos h]; rfl, by rw [if_pos h]; rfl⟩
  · exact ⟨v2, v1, .inr ⟨rfl, rfl⟩, List.not_lt.1 h, by rw [if_neg h]; rfl, by rw [if_neg h]; rfl⟩

/-- C69: the other generators give different names to different arguments, without conditions on the names for those with
one argument, and if the first two arguments do not contain the separator for preferences. -/
theorem C69_others (v w p p' v1 v2 w1 w2 : QVar) :
    (VarGenBotCount v = VarGenBotCount w → v = w) ∧ (VarGenNodeReach v = VarGenNodeReach w → v = w) ∧
    (recSep ∉ p → recSep ∉ p' → recSep ∉ v1 → recSep ∉ w1 →
      VarGenFeaturePreference p v1 v2 = VarGenFeaturePreference p' w1 w2 → p = p' ∧ v1 = w1 ∧ v2 = w2) := by
  obtain ⟨hok, h1, h2, -, h4, -, -⟩ := C54_test_generators
  rw [h1, h2, h4]
  exact ⟨fun h => (tagged1_inj (hok.sep _ (by simp)) (hok.sep _ (by simp)) h).2,
    fun h => (tagged1_inj (hok.sep _ (by simp)) (hok.sep _ (by simp)) h).2,
    fun a b c d h => tagged3_inj (hok.sep _ (by simp)) a b c d h⟩

/-- C69: names of different generators differ, whatever the arguments. -/
theorem C69_apart (a b c1 c2 d1 d2 p e1 e2 : QVar) :
    [VarGenBotCount a, VarGenNodeReach b, VarGenHammingDistance c1 c2, VarGenEqualFeat d1 d2,
      VarGenFeaturePreference p e1 e2].Nodup := by
  obtain ⟨hok, h1, h2, -, h4, h5, h6⟩ := C54_test_generators
  rw [h1, h2, h4, h5, h6]
  have key : ∀ {t t' n n'}, HasTag t n → HasTag t' n' →
      t ∈ [testTags.count, testTags.node, testTags.comp, testTags.pref, testTags.dist, testTags.same] →
      t' ∈ [testTags.count, testTags.node, testTags.comp, testTags.pref, testTags.dist, testTags.same] →
      t ≠ t' → n ≠ n' := by
    rintro t t' n n' h h' ht ht' hne rfl
    exact hne (hasTag_unique (hok.sep _ ht) (hok.sep _ ht') h h')
  simp only [List.nodup_cons, List.mem_cons, List.not_mem_nil, or_false, not_or, not_false_eq_true, List.nodup_nil, and_true]
  exact ⟨⟨key hasTag1 hasTag1 (by simp) (by simp) (by decide), key hasTag1 hasTag2 (by simp) (by simp) (by decide),
      key hasTag1 hasTag2 (by simp) (by simp) (by decide), key hasTag1 hasTag3 (by simp) (by simp) (by decide)⟩,
    ⟨key hasTag1 hasTag2 (by simp) (by simp) (by decide), key hasTag1 hasTag2 (by simp) (by simp) (by decide),
      key hasTag1 hasTag3 (by simp) (by simp) (by decide)⟩,
    ⟨key hasTag2 hasTag2 (by simp) (by simp) (by decide), key hasTag2 hasTag3 (by simp) (by simp) (by decide)⟩,
    key hasTag2 hasTag3 (by simp) (by simp) (by decide)⟩

/-- The condition on separators is needed: pairs of names with separators clash. -/
theorem C69_separator_needed :
    VarGenHammingDistance ['a', recSep, 'b'] ['c'] = VarGenHammingDistance ['a'] ['b', recSep, 'c'] := by decide

/-- Concrete case: names of pairs. -/
example : VarGenHammingDistance ['y'] ['x', '1'] = "hdist\x1ex1\x1ey".toList ∧
    VarGenEqualFeat ['x'] ['x', '1'] = "eqf\x1ex\x1ex1".toList := by decide

/-- The condition on the names of preference orders holds for all models of dimension at most 10. -/
theorem C54_small (hd : d ≤ 10) (hp : ∀ a ∈ q.atoms, a.PrefOk d) :
    ∀ p ∈ q.atoms.flatMap Atom.prefs, ∀ p' ∈ q.atoms.flatMap Atom.prefs, prefVar p = prefVar p' → p = p' := by
  have h : ∀ p ∈ q.atoms.flatMap Atom.prefs, ∃ r : List Nat, p = r.map Int.ofNat ∧ ∀ i ∈ r, i < 10 := by
    intro p hm
    obtain ⟨a, ha, hm⟩ := List.mem_flatMap.mp hm
    have := hp a ha
    cases a with
    | hepr t1 t2 p' g =>
      simp only [Atom.prefs, List.mem_singleton] at hm
      subst hm
      refine ⟨p.map Int.toNat, ?_, ?_⟩
      · rw [List.map_map]
        conv => lhs; rw [← List.map_id p]
        refine List.map_congr_left fun i hi => ?_
        have := (this.1 i hi).1
        simp [Int.toNat_of_nonneg this]
      · intro i hi
        obtain ⟨j, hj, rfl⟩ := List.mem_map.mp hi
        have := this.1 j hj
        omega
    | _ => simp [Atom.prefs] at hm
  intro p hp1 p' hp2 e
  obtain ⟨r, rfl, hr⟩ := h p hp1
  obtain ⟨r', rfl, hr'⟩ := h p' hp2
  rw [C38_names_partial hr hr' e]

/-- A query with all predicates that use auxiliary variables (isnode excepted), three variables and a
guarded quantifier. -/
def bigQuery : Query :=
  .withVar ['x'] (.withVar ['z'] (.and
    (.atom (.hepr (.var ['x']) (.const { val := [ONE, BOT] }) [1, 0] (some VarGenFeaturePreference)))
    (.forallG { id := ['c'], val := [BOT, BOT] } (.withVar ['y'] (.and
      (.and (.atom (.leh (.var ['x']) (.var ['z']) (.var ['y']) (some VarGenHammingDistance) (some VarGenEqualFeat)))
        (.not (.atom (.lel (.var ['y']) (.const { id := ['c'], val := [BOT, BOT] }) (some VarGenBotCount)))))
      (.or (.atom (.allcomp (.var ['y']) true (some VarGenNodeReach)))
        (.atom (.hepr (.const { id := ['c'], val := [BOT, BOT] }) (.var ['x']) [0] (some VarGenFeaturePreference)))))))))

theorem bigQuery_tidy : bigQuery.Tidy testTags ∧ bigQuery.Separate testTags ∧ bigQuery.Scoped 2 nodeDepth [] [] := by
  obtain ⟨-, h1, h2, h3, h4, h5, h6⟩ := C54_test_generators
  refine ⟨⟨⟨by decide, _, _, rfl, by decide⟩, ⟨by decide, _, _, rfl, by decide⟩, congrArg some h4, by decide,
      ⟨by decide, _, _, rfl, by decide⟩, ⟨⟨congrArg some h5, congrArg some h6⟩, congrArg some h1⟩, congrArg some h3, congrArg some h4⟩,
    ⟨by decide, .inr (.inl (by decide))⟩, rfl, rfl, ?_, rfl, ⟨?_, ?_⟩, ?_, ?_⟩
  all_goals
    refine ⟨by decide, by simp [Spec.Atom.consts, Spec.Term.consts, GoodVals, ValidVals], ?_, ?_, trivial, trivial⟩ <;>
      simp [Atom.PrefOk, Spec.Atom.PrefsNonempty]

/-- Concrete case of C54. -/
example : ∃ c s', bigQuery.encode (BasicQContext 2 exNodes) = (.ok c, s') ∧ WF c ∧
      Faithful 2 (bigQuery.names 2 exTree []) (fun σ => bigQuery.sem 2 exTree nodeDepth σ []) s' c :=
  C54_faithful (by omega) exNodes_isTree exNodes_covers C54_test_generators.1 bigQuery_tidy.1 bigQuery_tidy.2.1 bigQuery_tidy.2.2

/-- The query of `C54_name_needed`: by the preference order [0], `x` is at least as preferred as the variable
named "0", but not as the constant 0. -/
def zeroNameQuery : Query :=
  .withVar ['x'] (.withVar ['0'] (.and
    (.atom (.hepr (.var ['x']) (.var ['0']) [0] (some VarGenFeaturePreference)))
    (.not (.atom (.hepr (.var ['x']) (.const { val := [ZERO] }) [0] (some VarGenFeaturePreference))))))

/-- The condition on the names of variables is needed: a variable named like a constant shares the
auxiliary variables of that constant. The query is true (both instances undefined), but its CNF is
unsatisfiable. -/
theorem C54_name_needed :
    zeroNameQuery.fo 1 exTree (fun _ => bot) (fun _ => none) ∧
    ∃ c s', zeroNameQuery.encode (BasicQContext 1 []) = (.ok c, s') ∧ ¬ Satisfiable c := by
  refine ⟨⟨bot, bot, ?_, ?_⟩, unsat_of_refutedResult (n := 60) (by decide +kernel)⟩
  · intro pre f post _ _ h
    exact h.2 rfl
  · intro h
    exact h [] 0 [] rfl (by simp) ⟨rfl, by decide⟩

end Goexpdt.Props

import Verif.Lemmas.Built
/-
C01-C05: properties of package cnf.
-/
namespace Goexpdt.Props
open Goexpdt Spec

/-- The formula used in the examples: `(1 ∨ 2) ∧ (¬1 ∨ 3) ∧ 2` with consistency clause `¬3 ∨ 4`. -/
def exCNF : CNF := (FromClauses [[1, 2], [-1, 3], [2]]).appendConsistency [[-3, 4]]

theorem exCNF_built : Built exCNF :=
  Built.appendConsistency _ (Built.fromClauses _ (by decide)) (by decide)

/-- C01. Negation is exact: under the consistency clauses of the result (which include those of the
argument), the semantic clauses of the result hold iff those of the argument do not. -/
theorem C01_negate_exact (c : CNF) (hc : Built c) (o : Option Int) (β : Val)
    (h : ConTrue β (c.negate o)) :
    ConTrue β c ∧ (SemTrue β (c.negate o) ↔ ¬ SemTrue β c) := by
  obtain ⟨new, h1, _, _, _, _, _, h7, _⟩ := negate_spec c o hc.wf.tv_nonneg hc.wf.sNonZero
  rw [ConTrue, h1, clausesTrue_append] at h
  exact ⟨h.1, h7 β h.2⟩

/-- The hypotheses of C01 are met by the example formula, negated above variable 9, at a valuation
where the negation is true and at one where it is false. -/
example : Built exCNF ∧
    ConTrue (fun n => n == 1 || n == 11 || n == 12) (exCNF.negate (some 9)) ∧
    SemTrue (fun n => n == 1 || n == 11 || n == 12) (exCNF.negate (some 9)) ∧
    ConTrue (fun n => n == 2) (exCNF.negate (some 9)) ∧
    ¬ SemTrue (fun n => n == 2) (exCNF.negate (some 9)) :=
  ⟨exCNF_built, by decide⟩

/-- C02. Negation is a conservative extension: every model of the consistency clauses extends, by
changing only variables above the old top variable and the passed one (and not above the new top
variable), to a model of the
consistency clauses of the negation. -/
theorem C02_negate_conservative (c : CNF) (hc : Built c) (o : Option Int) (β : Val)
    (h : ConTrue β c) :
    ∃ β' : Val, ConTrue β' (c.negate o) ∧
      ∀ n : Nat, ((n : Int) ≤ c.topV ∨ (∃ t, o = some t ∧ (n : Int) ≤ t) ∨
        (c.negate o).topV < (n : Int)) → β' n = β n := by
  obtain ⟨new, h1, h2, h3, h4, h5, h6, h7, h8⟩ :=
    negate_spec c o hc.wf.tv_nonneg hc.wf.sNonZero
  have ht := le_negTop c o
  obtain ⟨β', ha, hb⟩ := h8 (hc.wf.sBound.mono ht) β
  refine ⟨β', ?_, ?_⟩
  · rw [ConTrue, h1, clausesTrue_append]
    refine ⟨(clausesTrue_congr_of_bounded hc.wf.cBound fun n hn => ?_).1 h, hb⟩
    exact (ha n (.inl (by omega))).symm
  · rintro n (hn | ⟨t, rfl, hn⟩ | hn)
    · exact ha n (.inl (by simp only [CNF.topV] at hn; omega))
    · exact ha n (.inl (by simp only [negTop]; omega))
    · exact ha n (.inr hn)

/-- C02, consequence for satisfiability. -/
theorem C02_negate_satisfiable_iff (c : CNF) (hc : Built c) (o : Option Int) :
    Satisfiable (c.negate o) ↔ ∃ β, ConTrue β c ∧ ¬ SemTrue β c := by
  constructor
  · rintro ⟨β, hs, hcon⟩
    obtain ⟨h1, h2⟩ := C01_negate_exact c hc o β hcon
    exact ⟨β, h1, h2.1 hs⟩
  · rintro ⟨β, hcon, hs⟩
    obtain ⟨β', h1, h2⟩ := C02_negate_conservative c hc o β hcon
    refine ⟨β', (C01_negate_exact c hc o β' h1).2.2 fun h => hs ?_, h1⟩
    exact (clausesTrue_congr_of_bounded hc.wf.sBound fun n hn => h2 n (.inl hn)).1 h

/-- A formula satisfying the hypotheses of both theorems, with its negation satisfiable. -/
example : Built exCNF ∧ ConTrue (fun n => n == 1) exCNF ∧ ¬ SemTrue (fun n => n == 1) exCNF :=
  ⟨exCNF_built, by decide⟩

/-- C01/C02, corollary: double negation gives back the formula, at every valuation satisfying the
consistency clauses. -/
theorem C01_double_negation (c : CNF) (hc : Built c) (o o' : Option Int) (β : Val)
    (h : ConTrue β ((c.negate o).negate o')) :
    SemTrue β ((c.negate o).negate o') ↔ SemTrue β c := by
  obtain ⟨h1, h2⟩ := C01_negate_exact _ (hc.negate o) o' β h
  obtain ⟨_, h4⟩ := C01_negate_exact c hc o β h1
  rw [h2, h4]
  exact Classical.not_not

example : ConTrue (fun n => n == 2) ((exCNF.negate (some 9)).negate none) := by decide

/-- C03. `TopV` bounds every variable in every formula built through the API, and no literal is 0. -/
theorem C03_topV_bounds (c : CNF) (hc : Built c) :
    0 ≤ c.topV ∧ ∀ cl ∈ c.sClauses ++ c.cClauses, ∀ l ∈ cl, l ≠ 0 ∧ (l.natAbs : Int) ≤ c.topV := by
  refine ⟨hc.wf.tv_nonneg, ?_⟩
  intro cl hcl l hl
  rw [List.mem_append] at hcl
  rcases hcl with h | h
  · exact ⟨hc.wf.sNonZero cl h l hl, hc.wf.sBound cl h l hl⟩
  · exact ⟨hc.wf.cNonZero cl h l hl, hc.wf.cBound cl h l hl⟩

/-- C03. The variables a negation introduces are new: a variable of the result that does not occur
in the argument is larger than the old top variable and than the passed one. -/
theorem C03_negate_fresh (c : CNF) (hc : Built c) (o : Option Int) :
    ∀ cl ∈ (c.negate o).sClauses ++ (c.negate o).cClauses, ∀ l ∈ cl,
      (∃ cl' ∈ c.sClauses ++ c.cClauses, ∃ l' ∈ cl', l'.natAbs = l.natAbs) ∨
      (c.topV < l.natAbs ∧ ∀ t, o = some t → t < l.natAbs) := by
  obtain ⟨new, h1, h2, h3, h4, h5, h6, h7, h8⟩ :=
    negate_spec c o hc.wf.tv_nonneg hc.wf.sNonZero
  intro cl hcl l hl
  rw [h1, List.mem_append, List.mem_append] at hcl
  have key : cl ∈ (c.negate o).sClauses ++ new →
      (∃ cl' ∈ c.sClauses ++ c.cClauses, ∃ l' ∈ cl', l'.natAbs = l.natAbs) ∨
      (c.topV < l.natAbs ∧ ∀ t, o = some t → t < l.natAbs) := by
    intro hm
    rcases h6 cl hm l hl with h | ⟨c', hc', h | h⟩
    · right
      have := le_negTop c o
      refine ⟨by simp only [CNF.topV]; omega, ?_⟩
      rintro t rfl
      simp only [negTop] at h; omega
    · exact .inl ⟨c', List.mem_append_left _ hc', l, h, rfl⟩
    · exact .inl ⟨c', List.mem_append_left _ hc', -l, h, by simp⟩
  rcases hcl with h | h | h
  · exact key (List.mem_append_left _ h)
  · exact .inl ⟨cl, List.mem_append_right _ h, l, hl, rfl⟩
  · exact key (List.mem_append_right _ h)

/-- C03. No operation lowers the top variable, and a negation is at least at the passed value and
uses at most one variable per semantic clause and one more. -/
theorem C03_topV_monotone (c d : CNF) (cls : List Clause) (o : Option Int)
    (hc : Built c) :
    c.topV ≤ (c.appendSemantics cls).topV ∧ c.topV ≤ (c.appendConsistency cls).topV ∧
    c.topV ≤ (c.conjunction d).topV ∧
    c.topV ≤ (c.negate o).topV ∧ (∀ t, o = some t → t ≤ (c.negate o).topV) ∧
    (c.negate o).topV ≤ max c.topV (o.getD 0) + c.sClauses.length + 1 := by
  obtain ⟨new, h1, h2, h3, h4, h5, h6, h7, h8⟩ :=
    negate_spec c o hc.wf.tv_nonneg hc.wf.sNonZero
  have ht := le_negTop c o
  have h0 := hc.wf.tv_nonneg
  simp only [CNF.topV, CNF.appendSemantics, CNF.appendConsistency, CNF.conjunction, maxInt_eq]
  refine ⟨by omega, by omega, by omega, by omega, ?_, ?_⟩
  · rintro t rfl; simp only [negTop] at h2; omega
  · have : negTop c o ≤ max c.tv (o.getD 0) := by
      unfold negTop; split <;> simp only [Option.getD_some, Option.getD_none] <;> omega
    omega

example : Built exCNF ∧ exCNF.topV = 4 ∧ (exCNF.negate (some 9)).topV = 12 :=
  ⟨exCNF_built, by decide⟩

/-- C03, a limit of the code worth knowing: the top variable of a conjunction bounds the variables
that occur in the second operand (by `C03_topV_bounds`), but it can be lower than the second
operand's own `TopV`. This is why the encoders record the `TopV` of every negation in the context. -/
theorem C03_conjunction_topV_can_drop :
    ∃ c d : CNF, Built c ∧ Built d ∧ (c.conjunction d).topV < d.topV :=
  ⟨TrueCNF, TrueCNF.negate (some 50), .trueCNF, .negate _ .trueCNF, by decide⟩

/-- C04. Conjunction means AND, separately for the two kinds of clauses. -/
theorem C04_conjunction (c d : CNF) (β : Val) :
    (SemTrue β (c.conjunction d) ↔ SemTrue β c ∧ SemTrue β d) ∧
    (ConTrue β (c.conjunction d) ↔ ConTrue β c ∧ ConTrue β d) ∧
    (Models β (c.conjunction d) ↔ Models β c ∧ Models β d) := by
  have h1 : SemTrue β (c.conjunction d) ↔ SemTrue β c ∧ SemTrue β d := by
    simp [SemTrue, CNF.conjunction, CNF.appendSemantics, CNF.appendConsistency]
  have h2 : ConTrue β (c.conjunction d) ↔ ConTrue β c ∧ ConTrue β d := by
    simp [ConTrue, CNF.conjunction, CNF.appendSemantics, CNF.appendConsistency]
  refine ⟨h1, h2, ?_⟩
  simp only [Models, h1, h2]
  exact ⟨fun ⟨⟨a, b⟩, e, f⟩ => ⟨⟨a, e⟩, b, f⟩, fun ⟨⟨a, e⟩, b, f⟩ => ⟨⟨a, b⟩, e, f⟩⟩

/-- C04. The append methods add their clauses as a conjunction to the chosen kind only, and
`FromClauses` makes all its clauses semantic. -/
theorem C04_append (c : CNF) (cls : List Clause) (β : Val) :
    (SemTrue β (c.appendSemantics cls) ↔ SemTrue β c ∧ clausesTrue β cls) ∧
    (ConTrue β (c.appendSemantics cls) ↔ ConTrue β c) ∧
    (SemTrue β (c.appendConsistency cls) ↔ SemTrue β c) ∧
    (ConTrue β (c.appendConsistency cls) ↔ ConTrue β c ∧ clausesTrue β cls) ∧
    (SemTrue β (FromClauses cls) ↔ clausesTrue β cls) ∧ ConTrue β (FromClauses cls) := by
  simp [SemTrue, ConTrue, CNF.appendSemantics, CNF.appendConsistency, FromClauses]

example : Models (fun n => n == 2) (exCNF.conjunction exCNF) := by decide

/-- C05. `TriviallyTrue` and `TriviallyFalse` are sound. -/
theorem C05_trivial_sound (c : CNF) :
    (c.triviallyTrue = true → ∀ β, Models β c) ∧
    (c.triviallyFalse = true → ∀ β, ¬ Models β c) := by
  constructor
  · intro h β
    simp only [CNF.triviallyTrue, Bool.and_eq_true, beq_iff_eq, List.length_eq_zero_iff] at h
    simp [Models, SemTrue, ConTrue, h.1, h.2]
  · rintro h β ⟨hs, hcon⟩
    simp only [CNF.triviallyFalse, Bool.or_eq_true, List.any_eq_true, beq_iff_eq,
      List.length_eq_zero_iff] at h
    rcases h with ⟨x, hx, rfl⟩ | ⟨x, hx, rfl⟩
    · exact clauseTrue_nil (hs _ hx)
    · exact clauseTrue_nil (hcon _ hx)

/-- C05. The constants are recognised; negating one (with any passed top variable) has the other's
truth value under every valuation, and is recognised as such. -/
theorem C05_constants (o : Option Int) :
    TrueCNF.triviallyTrue = true ∧ TrueCNF.triviallyFalse = false ∧
    FalseCNF.triviallyFalse = true ∧ FalseCNF.triviallyTrue = false ∧
    (TrueCNF.negate o).triviallyFalse = true ∧ (FalseCNF.negate o).triviallyTrue = true ∧
    (∀ β, Models β TrueCNF) ∧ (∀ β, ¬ Models β FalseCNF) ∧
    (∀ β, ¬ Models β (TrueCNF.negate o)) ∧ (∀ β, Models β (FalseCNF.negate o)) := by
  have h1 : (TrueCNF.negate o).triviallyFalse = true := by
    simp [CNF.negate, TrueCNF, CNF.appendSemantics, CNF.triviallyFalse]
  have h2 : (FalseCNF.negate o).triviallyTrue = true := by
    simp [CNF.negate, FalseCNF, NegClauses, CNF.hasEmptySemanticClause, CNF.triviallyTrue]
  exact ⟨rfl, rfl, rfl, rfl, h1, h2, (C05_trivial_sound _).1 rfl, (C05_trivial_sound _).2 rfl,
    (C05_trivial_sound _).2 h1, (C05_trivial_sound _).1 h2⟩

/-- C05: the sound checks are not complete; a contradiction need not be recognised. -/
example : (FromClauses [[1], [-1]]).triviallyFalse = false ∧
    (FromClauses [[1], []]).triviallyFalse = true := by decide

end Goexpdt.Props

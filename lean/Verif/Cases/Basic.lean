import Verif.Props.CNF
import Verif.Props.Query
/-
The theorems of Props/CNF.lean and Props/Query.lean, each applied to a concrete case that meets its hypotheses.
-/
namespace Goexpdt.Cases
open Goexpdt Spec Props

/-! ### C01–C05: the formula of Props/CNF.lean -/

/-- C01_negate_exact: at a valuation where the negation is true. -/
example : ¬ SemTrue (fun n => n == 1 || n == 11 || n == 12) exCNF :=
  (C01_negate_exact exCNF exCNF_built (some 9) _ (by decide)).2.1 (by decide)

/-- C02_negate_conservative: the model {1} of the consistency clauses. -/
example : ∃ β' : Val, ConTrue β' (exCNF.negate (some 9)) ∧ β' 1 = true ∧ β' 7 = false ∧ β' 13 = false := by
  obtain ⟨β', h1, h2⟩ := C02_negate_conservative exCNF exCNF_built (some 9) (fun n => n == 1) (by decide)
  exact ⟨β', h1, h2 1 (by decide), h2 7 (.inr (.inl ⟨9, rfl, by decide⟩)), h2 13 (by decide)⟩

/-- C02_negate_satisfiable_iff. -/
example : Satisfiable (exCNF.negate none) :=
  (C02_negate_satisfiable_iff exCNF exCNF_built none).2 ⟨fun n => n == 1, by decide⟩

/-- C01_double_negation. -/
example : SemTrue (fun n => n == 2) ((exCNF.negate (some 9)).negate none) ↔ SemTrue (fun n => n == 2) exCNF :=
  C01_double_negation exCNF exCNF_built (some 9) none _ (by decide)

/-- C03_topV_bounds, C03_negate_fresh and C03_topV_monotone, for a formula with an auxiliary variable already. -/
example : ∀ cl ∈ (exCNF.negate (some 9)).sClauses ++ (exCNF.negate (some 9)).cClauses, ∀ l ∈ cl, l ≠ 0 ∧ (l.natAbs : Int) ≤ 12 :=
  (C03_topV_bounds (exCNF.negate (some 9)) (.negate _ exCNF_built)).2
example : ∀ cl ∈ ((exCNF.negate (some 9)).negate none).sClauses ++ ((exCNF.negate (some 9)).negate none).cClauses, ∀ l ∈ cl,
    (∃ cl' ∈ (exCNF.negate (some 9)).sClauses ++ (exCNF.negate (some 9)).cClauses, ∃ l' ∈ cl', l'.natAbs = l.natAbs) ∨
    (12 < (l.natAbs : Int) ∧ ∀ t, none = some t → t < (l.natAbs : Int)) :=
  C03_negate_fresh (exCNF.negate (some 9)) (.negate _ exCNF_built) none
example : (exCNF.negate (some 9)).topV ≤ ((exCNF.negate (some 9)).conjunction exCNF).topV :=
  (C03_topV_monotone (exCNF.negate (some 9)) exCNF [] none (.negate _ exCNF_built)).2.2.1

/-- C05_trivial_sound: both checks can succeed. -/
example : (∀ β, Models β TrueCNF) ∧ ∀ β, ¬ Models β (FromClauses [[1], []]) :=
  ⟨(C05_trivial_sound TrueCNF).1 rfl, (C05_trivial_sound (FromClauses [[1], []])).2 rfl⟩

/-! ### C09, C10: a context with a past, and calls that follow -/

/-- C09_stable. -/
example : let r := (run [.cnfVar ⟨['y'], 1, ONE⟩, .reset, .updateTopV 4] (BasicQContext 2 [])).cnfVar ⟨['x'], 0, BOT⟩
    ((run [.addScope ['c'], .updateTopV 20, .cnfVar ⟨['y'], 0, 0⟩] r.2).cnfVar ⟨['x'], 0, BOT⟩).1 = r.1 :=
  C09_stable 2 [] _ _ (by decide) _

/-- C09_injective. -/
example : let r := (run [.cnfVar ⟨['y'], 1, ONE⟩, .reset, .updateTopV 4] (BasicQContext 2 [])).cnfVar ⟨['x'], 0, BOT⟩
    ((run [.addScope ['c'], .updateTopV 20, .cnfVar ⟨['y'], 0, 0⟩] r.2).cnfVar ⟨['x'], 1, BOT⟩).1 ≠ r.1 :=
  C09_injective 2 [] _ _ (by decide) _ _ (by decide)

/-- C09_exists: what was numbered before the reset does not count. -/
example : (run ([.cnfVar ⟨['y'], 1, ONE⟩] ++ .reset :: [.cnfVar ⟨['x'], 0, BOT⟩]) (BasicQContext 2 [])).cnfVarExists ⟨['x'], 0, BOT⟩ = true ∧
    ¬ (run ([.cnfVar ⟨['y'], 1, ONE⟩] ++ .reset :: [.cnfVar ⟨['x'], 0, BOT⟩]) (BasicQContext 2 [])).cnfVarExists ⟨['y'], 1, ONE⟩ = true :=
  ⟨(C09_exists 2 [] _ _ (by decide) _).2.2 (by decide), fun h => absurd ((C09_exists 2 [] _ _ (by decide) _).2.1 h) (by decide)⟩

/-- C10_topV_monotone. -/
example : (run [.updateTopV 7, .reset, .cnfVar ⟨['x'], 0, BOT⟩] (BasicQContext 2 [])).topV ≤
    (run ([.updateTopV 7, .reset, .cnfVar ⟨['x'], 0, BOT⟩] ++ [.updateTopV 3, .popScope]) (BasicQContext 2 [])).topV :=
  C10_topV_monotone 2 [] _ _ (by decide)

/-- C10_reserved: numbers up to 30 are reserved; the new triple gets a larger one, the known one keeps its own. -/
example : 30 < ((run [.addVar ['x']] ((run [.cnfVar ⟨['x'], 0, BOT⟩] (BasicQContext 2 [])).updateTopV 30).2).cnfVar ⟨['x'], 1, BOT⟩).1 ∧
    ((run [.addVar ['x']] ((run [.cnfVar ⟨['x'], 0, BOT⟩] (BasicQContext 2 [])).updateTopV 30).2).cnfVar ⟨['x'], 0, BOT⟩).1 ≤ 1 :=
  ⟨(C10_reserved 2 [] _ _ (by decide) 30 _).1 (by decide), (C10_reserved 2 [] _ _ (by decide) 30 _).2 (by decide)⟩

/-! ### C11–C14: scopes -/

/-- C11_distinct_vars: two variables of which one begins with the other, in different scopes. -/
example : (run [.addScope ['c'], .setScope 1 [ONE], .addVar ['x']] (BasicQContext 1 [])).scopeVar ['x'] ≠
    (run [.addScope ['c'], .addScope ['e'], .addVar ['x', 'c']] (BasicQContext 2 [])).scopeVar ['x', 'c'] :=
  C11_distinct_vars 1 2 [] [] _ _ (by decide) (by decide) _ _ (by decide) (by decide) (by decide)

/-- C12_names_iff: the same targets, different iterations of the outer quantifier. -/
example : (run [.addScope ['c'], .setScope 1 [ONE], .addScope ['e'], .addVar ['x']] (BasicQContext 1 [])).scopeVar ['x'] ≠
    (run [.addScope ['c'], .setScope 2 [ONE], .addScope ['e'], .addVar ['x']] (BasicQContext 1 [])).scopeVar ['x'] := fun h =>
  absurd ((C12_names_iff 1 1 [] [] _ _ (by decide) (by decide) ['x'] 2 (by decide) (by decide) (by decide)).1 h) (by decide)

/-- C12_iterations: `x` is declared in two iterations, in the second one a further quantifier is open. -/
example : (run (.setScope 0 [BOT] :: .addVar ['x'] :: []) (run [.addScope ['c']] (BasicQContext 1 []))).scopeVar ['x'] ≠
    (run (.setScope 1 [ONE] :: .addVar ['x'] :: [.addScope ['e'], .setScope 0 [BOT]]) (run [.addScope ['c']] (BasicQContext 1 []))).scopeVar ['x'] :=
  C12_iterations 1 [] [.addScope ['c']] (by decide) ['x'] 0 1 [BOT] [ONE] [] [.addScope ['e'], .setScope 0 [BOT]] [] [.popScope]
    rfl (by simp [balanced]) (by decide) (by decide) (by decide)

/-- C12_shared_below: `x` is declared above two quantifiers. -/
example : (run ([.addScope ['a'], .addVar ['x']] ++ [.addScope ['c'], .setScope 5 [ONE], .addVar ['x']]) (BasicQContext 1 [])).scopeVar ['x'] =
    (run [.addScope ['a'], .addVar ['x']] (BasicQContext 1 [])).scopeVar ['x'] :=
  C12_shared_below 1 [] _ (by decide) _ _ [.popScope] (by simp [balanced]) (by decide)

/-- C13_balanced: below an open scope. -/
example : (run [.addVar ['b'], .addScope ['c'], .setScope 0 [BOT], .addVar ['x'], .popScope]
    (run [.addScope ['a'], .addVar ['y']] (BasicQContext 1 []))).scopes = [⟨['a'], [], 0⟩] :=
  (C13_balanced 1 [] [.addScope ['a'], .addVar ['y']] [.addVar ['b'], .addScope ['c'], .setScope 0 [BOT], .addVar ['x'], .popScope]
    (by decide) (by simp [balanced])).1

/-- C13_scopeVar_total: a variable that was declared in a scope closed since. -/
example : ∃ n, (run [.addScope ['a'], .addScope ['c'], .addVar ['x'], .popScope] (BasicQContext 1 [])).scopeVar ['x'] = .ok n :=
  C13_scopeVar_total 1 [] _ (by decide) _

/-- C13_errors: with an open scope neither call fails. -/
example : ¬ ∃ e, (run [.addScope ['a']] (BasicQContext 1 [])).popScope.1 = .error e := fun h =>
  absurd ((C13_errors _ 0 []).1.1 h) (by decide)

/-- C14_reset_partial. -/
example : (run [.addScope ['c'], .setScope 0 [BOT], .addVar ['b'], .cnfVar ⟨['b'], 0, 1⟩, .popScope] (BasicQContext 1 [])).reset =
    BasicQContext 1 [] := (C14_reset_partial 1 [] _).1 (by simp [balanced])

/-- C14_reset_iff: a variable declared in a scope that is still open makes a difference. -/
example : ¬ ∀ later v, (run later (run [.addScope ['a'], .addVar ['w']] (BasicQContext 1 [])).reset).scopeVar v =
    (run later (BasicQContext 1 [])).scopeVar v := fun h =>
  (C14_reset_iff 1 [] _ (by decide)).2.1 h ['w'] ((leaves_iff 1 [] _ (by decide) _).2 (by decide))

/-! ### C16: constants -/

/-- C16_asString_injective. -/
example : (⟨['a'], [BOT, ONE, ZERO]⟩ : QConst).asString ≠ (⟨['a'], [BOT, ZERO, ONE]⟩ : QConst).asString := fun h =>
  absurd ((C16_asString_injective _ _ (by unfold ValidFeat; decide) (by unfold ValidFeat; decide)).1 h) (by decide)

/-- C16_validate: the second of three constants is the first with a wrong dimension. -/
example : ValidateConstsDim 2 [⟨[], [0, 1]⟩, ⟨[], [0]⟩, ⟨[], []⟩] = .error (.msg "constant2: wrong dim 1 (2 feats in context)") :=
  (C16_validate 2 _).2 [⟨[], [0, 1]⟩] ⟨[], [0]⟩ [⟨[], []⟩] rfl (by decide) (by decide)

end Goexpdt.Cases

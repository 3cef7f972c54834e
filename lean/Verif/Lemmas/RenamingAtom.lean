import Verif.Lemmas.Renaming
namespace Goexpdt
open Spec

section
variable {V : QVar → QVar → Prop} {K : List Char → List Char → Prop} {R : QVar → QVar → Prop}

theorem stepR_touch {a b : List SClause} (h : All2 (All2 (SLitR R)) a b) : StepR R (.touch a) (.touch b) := h
theorem stepR_sem {a b : List SClause} (h : All2 (All2 (SLitR R)) a b) : StepR R (.sem a) (.sem b) := h
theorem stepR_con {a b : List SClause} (h : All2 (All2 (SLitR R)) a b) : StepR R (.con a) (.con b) := h

/-- Compares two lists of clauses that are built in the same way. -/
macro "clausesR" : tactic => `(tactic| repeat' (first
  | with_reducible exact All2.nil
  | with_reducible assumption
  | with_reducible exact slitR_P (by assumption) _ _
  | with_reducible exact slitR_N (by assumption) _ _
  | with_reducible refine All2.cons ?_ ?_
  | with_reducible refine All2.append ?_ ?_
  | with_reducible refine all2_flatMap _ (fun _ => ?_)
  | with_reducible refine all2_map _ (fun _ => ?_)
  | with_reducible refine all2_ite ?_ ?_
  | with_reducible refine stepR_touch ?_
  | with_reducible refine stepR_sem ?_
  | with_reducible refine stepR_con ?_))

variable {v v' w w' u u' : QVar}

theorem subsConstVarClauses_R (d : Nat) (c : QConst) (h : R v v') : All2 (All2 (SLitR R)) (subsConstVarClauses d c v) (subsConstVarClauses d c v') := by
  unfold subsConstVarClauses; clausesR
theorem subsVarConstClauses_R (d : Nat) (c : QConst) (h : R v v') : All2 (All2 (SLitR R)) (subsVarConstClauses d v c) (subsVarConstClauses d v' c) := by
  unfold subsVarConstClauses; clausesR
theorem subsVarVarClauses_R (d : Nat) (h : R v v') (h2 : R w w') : All2 (All2 (SLitR R)) (subsVarVarClauses d v w) (subsVarVarClauses d v' w') := by
  unfold subsVarVarClauses; clausesR
theorem countTooBig_R (d : Nat) (h : R v v') : All2 (All2 (SLitR R)) (countTooBig d v) (countTooBig d v') := by
  unfold countTooBig; clausesR
theorem botCountStep_R (i : Nat) (h : R v v') (h2 : R w w') : All2 (All2 (SLitR R)) (botCountStep v w i) (botCountStep v' w' i) := by
  unfold botCountStep; clausesR
theorem varBotCountClauses_R (d : Nat) (h : R v v') (h2 : R w w') :
    All2 (All2 (SLitR R)) (varBotCountClauses d v w) (varBotCountClauses d v' w') := by
  have h1 := countTooBig_R d h2
  have h3 := fun i => botCountStep_R i h h2
  unfold varBotCountClauses; clausesR; exact h3 _
theorem lelConstVarSem_R (d : Nat) (c : QConst) (h : R v v') : All2 (All2 (SLitR R)) (lelConstVarSem d c v) (lelConstVarSem d c v') := by
  unfold lelConstVarSem; clausesR
theorem lelVarConstSem_R (d : Nat) (c : QConst) (h : R v v') : All2 (All2 (SLitR R)) (lelVarConstSem d c v) (lelVarConstSem d c v') := by
  unfold lelVarConstSem; clausesR
theorem lelVarVarSem_R (d : Nat) (h : R v v') (h2 : R w w') : All2 (All2 (SLitR R)) (lelVarVarSem d v w) (lelVarVarSem d v' w') := by
  unfold lelVarVarSem; clausesR
theorem isnodeFcl_R (d : Nat) (nodes : List Node) (h : R v v') (h2 : R w w') :
    All2 (All2 (SLitR R)) (isnodeFcl d nodes v w) (isnodeFcl d nodes v' w') := by
  unfold isnodeFcl; clausesR
theorem isnodeFclOrder_R (d : Nat) (nodes : List Node) (h : R v v') (h2 : R w w') :
    All2 (All2 (SLitR R)) (isnodeFclOrder d nodes v w) (isnodeFclOrder d nodes v' w') := by
  unfold isnodeFclOrder; clausesR
theorem isnodeProp_R (nodes : List Node) (h : R v v') (h2 : R w w') :
    All2 (All2 (SLitR R)) (isnodeProp nodes v w) (isnodeProp nodes v' w') := by
  unfold isnodeProp; dsimp only; clausesR
theorem varFullClauses_R (d : Nat) (h : R v v') : All2 (All2 (SLitR R)) (varFullClauses d v) (varFullClauses d v') := by
  unfold varFullClauses; clausesR
theorem consConstClauses_R (d : Nat) (c : QConst) (h : R v v') : All2 (All2 (SLitR R)) (consConstClauses d c v) (consConstClauses d c v') := by
  unfold consConstClauses; clausesR
theorem consVarVarClauses_R (d : Nat) (h : R v v') (h2 : R w w') : All2 (All2 (SLitR R)) (consVarVarClauses d v w) (consVarVarClauses d v' w') := by
  unfold consVarVarClauses; clausesR
theorem allcompStep_R (b : Bool) (nodes : List Node) (i : Nat) (h : R v v') (h2 : R w w') :
    StepR R (allcompStep b nodes v w i) (allcompStep b nodes v' w' i) := by
  unfold allcompStep; dsimp only
  split <;> clausesR
theorem heprConstVarCon_R (c : QConst) (p : List Int) (h : R v v') (h2 : R w w') :
    All2 (All2 (SLitR R)) (heprConstVarCon c v w p) (heprConstVarCon c v' w' p) := by
  unfold heprConstVarCon; dsimp only; clausesR
theorem heprVarConstCon_R (c : QConst) (p : List Int) (h : R v v') (h2 : R w w') :
    All2 (All2 (SLitR R)) (heprVarConstCon v c w p) (heprVarConstCon v' c w' p) := by
  unfold heprVarConstCon; dsimp only; clausesR
theorem heprVarVarCon_R (p : List Int) (h : R v v') (h2 : R w w') (h3 : R u u') :
    All2 (All2 (SLitR R)) (heprVarVarCon v w u p) (heprVarVarCon v' w' u' p) := by
  unfold heprVarVarCon; dsimp only; clausesR
theorem hdClauses_R (d : Nat) {e e' : Nat → VarRep} (h : R v v') (he : ∀ b i, SLitR R ⟨b, e i⟩ ⟨b, e' i⟩) :
    All2 (All2 (SLitR R)) (hdClauses d v e) (hdClauses d v' e') := by
  have h1 := countTooBig_R d h
  unfold hdClauses; clausesR <;> exact he _ _
theorem hammingDistVV_R (d : Nat) (h : R v v') (h2 : R w w') : All2 (All2 (SLitR R)) (hammingDistVV d v w) (hammingDistVV d v' w') :=
  hdClauses_R d h fun _ _ => ⟨rfl, h2, rfl, rfl⟩
theorem fullVarEqualClauses_R (d : Nat) (h : R v v') (h2 : R w w') (h3 : R u u') :
    All2 (All2 (SLitR R)) (fullVarEqualClauses d v w u) (fullVarEqualClauses d v' w' u') := by
  unfold fullVarEqualClauses; clausesR
theorem hdLeSem_R (d : Nat) (h : R v v') (h2 : R w w') : All2 (All2 (SLitR R)) (hdLeSem d v w) (hdLeSem d v' w') := by
  unfold hdLeSem; clausesR

/-- Distances to a constant, or the same error. -/
theorem sim_hammingDistVC (d : Nat) (c : QConst) (h : R v v') (h2 : R w w') :
    Sim V K R (All2 (All2 (SLitR R))) (M.lift (hammingDistVC d v c w)) (M.lift (hammingDistVC d v' c w')) := by
  intro s t hst
  refine ⟨hst, ?_⟩
  simp only [M.lift, hammingDistVC]
  cases ValidateConstsDim d [c] with
  | error e => exact rfl
  | ok _ =>
    dsimp only
    cases indexed (0 :: upto d) [c] with
    | error e => exact rfl
    | ok _ => exact hdClauses_R d h2 fun _ _ => ⟨rfl, h, rfl, rfl⟩

theorem dfsClauses_R (d : Nat) (h : R v v') (l : List (QConst × QConst)) :
    Sim V K R (All2 (All2 (SLitR R))) (M.lift (dfsClauses d v l)) (M.lift (dfsClauses d v' l)) := by
  intro s t hst
  refine ⟨hst, ?_⟩
  simp only [M.lift]
  induction l with
  | nil => exact .nil
  | cons p l ih =>
    obtain ⟨p, n⟩ := p
    simp only [dfsClauses, notAWitnessClause]
    by_cases h0 : d ≠ p.val.length ∨ d ≠ n.val.length
    · rw [if_pos h0, if_pos h0]
    · rw [if_neg h0, if_neg h0]
      cases indexed (upto d) [p, n] with
      | error e => exact rfl
      | ok _ =>
        simp only [Except.map]
        revert ih
        cases dfsClauses d v l <;> cases dfsClauses d v' l
        · exact id
        · exact id
        · exact id
        · exact fun ih => .cons (by clausesR) ih

/-! ### Constants -/

theorem isnodeLoop_id (i j : List Char) (val : List FeatV) (d : Nat) (nodes : List Node) : ∀ (n : Nat) (nd : Node) (vis : List Nat),
    isnodeLoop d ⟨i, val⟩ nodes n nd vis = isnodeLoop d ⟨j, val⟩ nodes n nd vis := by
  intro n
  induction n with
  | zero => exact fun _ _ => rfl
  | succ n ih =>
    intro nd vis
    simp only [isnodeLoop, ih]
    rfl

theorem acLoop_id (i j : List Char) (val : List FeatV) (d : Nat) (b : Bool) (nodes : List Node) : ∀ (n : Nat) (vis : List Int) (st : List Node),
    acLoop d ⟨i, val⟩ b nodes n vis st = acLoop d ⟨j, val⟩ b nodes n vis st := by
  intro n
  induction n with
  | zero => exact fun _ _ => rfl
  | succ n ih =>
    intro vis st
    cases st with
    | nil => rfl
    | cons a st =>
      simp only [acLoop, ih]
      rfl

theorem dfsInner_id (i j : List Char) (val : List FeatV) (p : QConst) (l : List QConst) :
    dfsInner ⟨i, val⟩ p l = dfsInner ⟨j, val⟩ p l := by
  induction l with
  | nil => rfl
  | cons a l ih => simp only [dfsInner, ih]; rfl

theorem dfsOuter_id (i j : List Char) (val : List FeatV) (n l : List QConst) :
    dfsOuter ⟨i, val⟩ n l = dfsOuter ⟨j, val⟩ n l := by
  induction l with
  | nil => rfl
  | cons a l ih => simp only [dfsOuter, ih, dfsInner_id i j]

theorem heprCC_id (i j i' j' : List Char) (val val' : List FeatV) (p : List Int) :
    heprCC ⟨i, val⟩ ⟨i', val'⟩ p = heprCC ⟨j, val⟩ ⟨j', val'⟩ p := by
  induction p with
  | nil => rfl
  | cons a l ih => simp only [heprCC, ih]; rfl

end

end Goexpdt

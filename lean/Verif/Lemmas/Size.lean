import Verif.Lemmas.TameOp
import Verif.Lemmas.FactsExt
import Verif.Spec.Size
/- The size of encodings. -/
namespace Goexpdt
open Spec

/-- Potential of a formula: negation increases it, together with the top variable, by a constant only. -/
def pot (c : CNF) : Nat := weight c.cClauses + 9 * weight c.sClauses

theorem weight_append (a b : List Clause) : weight (a ++ b) = weight a + weight b := by
  simp [weight]

theorem weight_cons (a : Clause) (b : List Clause) : weight (a :: b) = a.length + 1 + weight b := by
  simp [weight]

theorem weight_nil : weight [] = 0 := rfl

theorem pot_conjunction (a b : CNF) : pot (a.conjunction b) = pot a + pot b := by
  simp only [pot, CNF.conjunction, CNF.appendSemantics, CNF.appendConsistency, weight_append]
  omega

theorem length_le_weight (a : List Clause) : a.length ≤ weight a := by
  induction a with
  | nil => simp
  | cons x xs ih => rw [weight_cons, List.length_cons]; omega

theorem weight_map_const {α : Type} (l : List α) (f : α → Clause) (k : Nat) (h : ∀ a ∈ l, (f a).length = k) :
    weight (l.map f) = l.length * (k + 1) := by
  induction l with
  | nil => simp [weight_nil]
  | cons x xs ih =>
    rw [List.map_cons, weight_cons, ih fun a ha => h a (by simp [ha]), h x (by simp), List.length_cons, Nat.add_mul]
    omega

/-! ### negation -/

theorem tseytinLoop_size (cls : List Clause) : ∀ (tv : Int) (acc : List Clause) (enc : Clause),
    match CNF.tseytinLoop tv acc enc cls with
    | .error tv' => tv' ≤ tv + cls.length
    | .ok (tv', acc', enc') => tv' ≤ tv + cls.length ∧ enc'.length = enc.length + cls.length ∧
        weight acc' + 4 * cls.length ≤ weight acc + 8 * weight cls := by
  induction cls with
  | nil => intro tv acc enc; simp [CNF.tseytinLoop]
  | cons cl cls ih =>
    intro tv acc enc
    match cl with
    | [] => simp [CNF.tseytinLoop]; omega
    | [l] =>
      have := ih tv acc (enc ++ [-l])
      simp only [CNF.tseytinLoop]
      revert this
      rcases CNF.tseytinLoop tv acc (enc ++ [-l]) cls with tv' | ⟨tv', acc', enc'⟩
      · simp only [List.length_cons]; omega
      · simp only [List.length_cons, weight_cons, List.length_append, List.length_nil]; omega
    | l :: l' :: ls =>
      simp only [CNF.tseytinLoop]
      have := ih (tv + 1) ((acc ++ (l :: l' :: ls).map fun lit => [-lit, -(tv + 1)]) ++ [(l :: l' :: ls) ++ [tv + 1]]) (enc ++ [tv + 1])
      revert this
      rcases CNF.tseytinLoop (tv + 1) ((acc ++ (l :: l' :: ls).map fun lit => [-lit, -(tv + 1)]) ++ [(l :: l' :: ls) ++ [tv + 1]])
        (enc ++ [tv + 1]) cls with tv' | ⟨tv', acc', enc'⟩
      · simp only [List.length_cons]; omega
      · rw [weight_append, weight_append, weight_map_const _ _ 2 (by simp)]
        simp only [List.length_cons, weight_cons, weight_nil, List.length_append, List.length_nil]; omega

theorem tseytinLoop_top (cls : List Clause) : ∀ (tv : Int) (acc : List Clause) (enc : Clause),
    match CNF.tseytinLoop tv acc enc cls with
    | .error tv' => tv ≤ tv'
    | .ok (tv', _, _) => tv ≤ tv' := by
  induction cls with
  | nil => intro tv acc enc; simp [CNF.tseytinLoop]
  | cons cl cls ih =>
    intro tv acc enc
    match cl with
    | [] => simp [CNF.tseytinLoop]
    | [l] => exact ih tv acc (enc ++ [-l])
    | l :: l' :: ls =>
      have := ih (tv + 1) ((acc ++ (l :: l' :: ls).map fun lit => [-lit, -(tv + 1)]) ++ [(l :: l' :: ls) ++ [tv + 1]]) (enc ++ [tv + 1])
      simp only [CNF.tseytinLoop]
      revert this
      rcases CNF.tseytinLoop (tv + 1) ((acc ++ (l :: l' :: ls).map fun lit => [-lit, -(tv + 1)]) ++ [(l :: l' :: ls) ++ [tv + 1]])
        (enc ++ [tv + 1]) cls with tv' | ⟨tv', acc', enc'⟩
      · simp only; omega
      · simp only; omega

theorem negate_top (c : CNF) (t : Int) : t ≤ (c.negate (some t)).tv := by
  have hm : t ≤ maxInt c.tv t := by unfold maxInt; split <;> omega
  unfold CNF.negate
  simp only
  split
  · exact hm
  · split
    · exact hm
    · unfold CNF.tseytinNegation
      have h1 := tseytinLoop_top c.sClauses (maxInt c.tv t) [] []
      revert h1
      simp only
      rcases CNF.tseytinLoop (maxInt c.tv t) [] [] c.sClauses with tv' | ⟨tv', acc', enc'⟩
      · simp only; omega
      · simp only
        intro h1
        split
        · simp only; omega
        · simp only [CNF.addNegationIFFClauses]; omega

theorem negate_size (c : CNF) (t : Int) (h : c.tv ≤ t) :
    (pot (c.negate (some t)) : Int) + ((c.negate (some t)).tv - t) ≤ pot c + 21 := by
  have hm : maxInt c.tv t = t := by unfold maxInt; split <;> omega
  unfold CNF.negate
  simp only [hm]
  split
  · next h0 =>
    have : c.sClauses = [] := List.length_eq_zero_iff.1 h0
    simp [pot, CNF.appendSemantics, this, weight]
  · split
    · simp only [pot, weight_nil]; omega
    · unfold CNF.tseytinNegation
      have h1 := tseytinLoop_size c.sClauses t [] []
      have h2 := length_le_weight c.sClauses
      revert h1
      simp only
      rcases CNF.tseytinLoop t [] [] c.sClauses with tv' | ⟨tv', acc', enc'⟩
      · simp only [pot, weight_nil]; omega
      · simp only [weight_nil, List.length_nil]
        intro h1
        split
        · simp only [pot, weight_append, weight_cons, weight_nil]; omega
        · simp only [pot, CNF.addNegationIFFClauses, weight_append, weight_cons, weight_nil, List.length_append,
            List.length_cons, List.length_nil]
          rw [weight_map_const _ _ 2 (by simp)]
          omega

/-! ### symbolic clauses -/

/-- The size of symbolic clauses. -/
def sw (cls : List SClause) : Nat := (cls.map fun cl => cl.length + 1).sum

theorem sw_nil : sw [] = 0 := rfl
theorem sw_cons (a : SClause) (b : List SClause) : sw (a :: b) = a.length + 1 + sw b := by simp [sw]
theorem sw_append (a b : List SClause) : sw (a ++ b) = sw a + sw b := by simp [sw]

theorem sw_flatMap {α : Type} {l : List α} {f : α → List SClause} {m : Nat} (h : ∀ a ∈ l, sw (f a) ≤ m) :
    sw (l.flatMap f) ≤ l.length * m := by
  induction l with
  | nil => simp [sw_nil]
  | cons x xs ih =>
    rw [List.flatMap_cons, sw_append, List.length_cons, Nat.add_mul]
    have := ih fun a ha => h a (by simp [ha])
    have := h x (by simp)
    omega

theorem sw_map {α : Type} {l : List α} {f : α → SClause} {m : Nat} (h : ∀ a ∈ l, (f a).length + 1 ≤ m) :
    sw (l.map f) ≤ l.length * m := by
  induction l with
  | nil => simp [sw_nil]
  | cons x xs ih =>
    rw [List.map_cons, sw_cons, List.length_cons, Nat.add_mul]
    have := ih fun a ha => h a (by simp [ha])
    have := h x (by simp)
    omega

/-- The size of steps. -/
def stepW : Step → Nat
  | .touch cls => sw cls
  | .sem cls => sw cls
  | .con cls => sw cls

def stepsW (st : List Step) : Nat := (st.map stepW).sum

theorem stepsW_nil : stepsW [] = 0 := rfl
theorem stepsW_cons (a : Step) (b : List Step) : stepsW (a :: b) = stepW a + stepsW b := by simp [stepsW]

theorem stepsW_map {α : Type} {l : List α} {f : α → Step} {m : Nat} (h : ∀ a ∈ l, stepW (f a) ≤ m) :
    stepsW (l.map f) ≤ l.length * m := by
  induction l with
  | nil => simp [stepsW_nil]
  | cons x xs ih =>
    rw [List.map_cons, stepsW_cons, List.length_cons, Nat.add_mul]
    have := ih fun a ha => h a (by simp [ha])
    have := h x (by simp)
    omega

theorem cnfVar_grow (s : Ctx) (vr : VarRep) : (s.cnfVar vr).2.topv ≤ s.topv + 1 := by
  unfold Ctx.cnfVar
  split
  · show s.topv ≤ s.topv + 1; omega
  · simp

theorem allocClause_size (c : SClause) : ∀ s, ∃ k s', allocClause c s = (.ok k, s') ∧ k.length = c.length ∧
    s'.topv ≤ s.topv + c.length := by
  induction c with
  | nil => intro s; exact ⟨[], s, rfl, rfl, by simp⟩
  | cons l ls ih =>
    intro s
    obtain ⟨k, s', e, h1, h2⟩ := ih (s.cnfVar l.vr).2
    refine ⟨(if l.pos then (s.cnfVar l.vr).1 else -(s.cnfVar l.vr).1) :: k, s', ?_, by simp [h1], ?_⟩
    · simp only [allocClause, allocLit, M_bind, M.cnfVar, M_pure, e]
    · have := cnfVar_grow s l.vr
      rw [List.length_cons]; omega

theorem allocClauses_size (cls : List SClause) : ∀ s, ∃ k s', allocClauses cls s = (.ok k, s') ∧ weight k = sw cls ∧
    s'.topv ≤ s.topv + sw cls := by
  induction cls with
  | nil => intro s; exact ⟨[], s, rfl, rfl, by simp [sw_nil]⟩
  | cons c cs ih =>
    intro s
    obtain ⟨k, s1, e1, h1, h2⟩ := allocClause_size c s
    obtain ⟨ks, s2, e2, h3, h4⟩ := ih s1
    refine ⟨k :: ks, s2, ?_, by rw [weight_cons, sw_cons, h1, h3], ?_⟩
    · simp only [allocClauses, M_bind, M_pure, e1, e2]
    · rw [sw_cons]; omega

theorem emitFrom_size (st : List Step) : ∀ c0 s, ∃ c s', emitFrom c0 st s = (.ok c, s') ∧
    (pot c : Int) + (s'.topv - s.topv) ≤ pot c0 + 10 * stepsW st := by
  induction st with
  | nil => intro c0 s; exact ⟨c0, s, rfl, by simp [stepsW_nil]⟩
  | cons a st ih =>
    intro c0 s
    cases a with
    | touch cls =>
      obtain ⟨k, s1, e1, h1, h2⟩ := allocClauses_size cls s
      obtain ⟨c, s2, e2, h3⟩ := ih c0 s1
      refine ⟨c, s2, ?_, ?_⟩
      · simp only [emitFrom]; rw [M_bind_ok e1]; exact e2
      · rw [stepsW_cons]; simp only [stepW]; omega
    | sem cls =>
      obtain ⟨k, s1, e1, h1, h2⟩ := allocClauses_size cls s
      obtain ⟨c, s2, e2, h3⟩ := ih (c0.appendSemantics k) s1
      refine ⟨c, s2, ?_, ?_⟩
      · simp only [emitFrom]; rw [M_bind_ok e1]; exact e2
      · rw [stepsW_cons]
        simp only [stepW, pot, CNF.appendSemantics, weight_append] at *; omega
    | con cls =>
      obtain ⟨k, s1, e1, h1, h2⟩ := allocClauses_size cls s
      obtain ⟨c, s2, e2, h3⟩ := ih (c0.appendConsistency k) s1
      refine ⟨c, s2, ?_, ?_⟩
      · simp only [emitFrom]; rw [M_bind_ok e1]; exact e2
      · rw [stepsW_cons]
        simp only [stepW, pot, CNF.appendConsistency, weight_append] at *; omega

/-! ### components -/

/-- In contexts of dimension `d` over `n` nodes, the potential of the result and the number of new
variables together are at most `B`. -/
def Cost (d n B : Nat) (x : M CNF) : Prop :=
  ∀ s c, VMok s → s.dim = d → s.nodes.length = n → (x s).1 = .ok c →
    (pot c : Int) + ((x s).2.topv - s.topv) ≤ B

variable {d n B : Nat}

theorem Cost.mono {B' : Nat} {x : M CNF} (h : Cost d n B x) (hB : B ≤ B') : Cost d n B' x := by
  intro s c h1 h2 h3 h4
  have := h s c h1 h2 h3 h4
  omega

theorem Cost.throw (e : Err) : Cost d n B (M.throw e) := by
  intro s c _ _ _ h
  simp [M.throw] at h

theorem Cost.pure {c : CNF} (h : pot c ≤ B) : Cost d n B (Pure.pure c) := by
  intro s c' _ _ _ hc
  simp only [M_pure, Except.ok.injEq] at hc
  subst hc
  simp only [M_pure]
  omega

theorem Cost.retTrue : Cost d n B retTrue := .pure (by simp [pot, TrueCNF, weight])
theorem Cost.retFalse (h : 9 ≤ B) : Cost d n B retFalse := .pure (by simpa [pot, FalseCNF, NegClauses, weight] using h)

theorem Cost.emit {st : List Step} (h : 10 * stepsW st ≤ B) : Cost d n B (emit st) := by
  intro s c _ _ _ hc
  obtain ⟨c', s', e, hh⟩ := emitFrom_size st {} s
  unfold Goexpdt.emit at hc ⊢
  rw [e] at hc ⊢
  simp only [Except.ok.injEq] at hc
  subst hc
  have : pot ({} : CNF) = 0 := rfl
  simp only
  omega

theorem Cost.emitF {cls : List SClause} {st : List Step} (h : 10 * (sw cls + stepsW st) ≤ B) :
    Cost d n B (emitF cls st) := by
  rw [emitF_eq]
  exact .emit (by rw [stepsW_cons]; exact h)

theorem Cost.read {α : Type} {x : M α} {f : α → M CNF} (hx : ReadOnly x) (hf : ∀ a, Cost d n B (f a)) :
    Cost d n B (x >>= f) := by
  intro s c h1 h2 h3 hc
  have := hx s
  rcases h : x s with ⟨a | a, s'⟩
  · rw [M_bind_error h] at hc; simp at hc
  · rw [h] at this
    simp only at this
    subst this
    rw [M_bind_ok h] at hc ⊢
    exact hf a _ c h1 h2 h3 hc

theorem Cost.dim {f : Nat → M CNF} (hf : Cost d n B (f d)) : Cost d n B (M.dim >>= f) := by
  intro s c h1 h2 h3 hc
  subst h2
  exact hf s c h1 rfl h3 hc

theorem Cost.nodes {f : List Node → M CNF} (hf : ∀ ns : List Node, ns.length = n → Cost d n B (f ns)) :
    Cost d n B (M.nodes >>= f) := by
  intro s c h1 h2 h3 hc
  exact hf s.nodes h3 s c h1 h2 h3 hc

theorem Cost.lift {α : Type} {r : Except Err α} {f : α → M CNF} (hf : ∀ a, r = .ok a → Cost d n B (f a)) :
    Cost d n B (M.lift r >>= f) := by
  intro s c h1 h2 h3 hc
  cases r with
  | error e => simp [M_bind, M.lift] at hc
  | ok a => exact hf a rfl s c h1 h2 h3 hc

theorem Cost.ite {p : Prop} [Decidable p] {x y : M CNF} (hx : p → Cost d n B x) (hy : ¬ p → Cost d n B y) :
    Cost d n B (if p then x else y) := by
  split
  · exact hx ‹_›
  · exact hy ‹_›

theorem Cost.wrapErr {x : M CNF} (pre : String) (h : Cost d n B x) : Cost d n B (M.wrapErr pre x) := by
  intro s c h1 h2 h3 hc
  rw [wrapErr_fst_ok] at hc
  rw [wrapErr_snd]
  exact h s c h1 h2 h3 hc

/-! ### operators -/

/-- Two components one after the other. -/
theorem Cost.seq {x : M CNF} {f : CNF → M CNF} {B1 B2 : Nat} (tx : Tame x) (hx : Cost d n B1 x)
    (hf : ∀ c1 s1 c, VMok s1 → s1.dim = d → s1.nodes.length = n → c1.tv ≤ s1.topv → (f c1 s1).1 = .ok c →
      (pot c : Int) + ((f c1 s1).2.topv - s1.topv) ≤ pot c1 + B2) : Cost d n (B1 + B2) (x >>= f) := by
  intro s c h1 h2 h3 hc
  rcases e : x s with ⟨a | c1, s1⟩
  · rw [M_bind_error e] at hc; simp at hc
  · have k := tx.keep s
    have v := tx.vm s h1
    have r := (tx.res s c1 h1 (by rw [e])).2
    have a := hx s c1 h1 h2 h3 (by rw [e])
    rw [e] at k v r a
    rw [M_bind_ok e] at hc ⊢
    have := hf c1 s1 c v.1 (k.dim.trans h2) (by rw [k.nodes]; exact h3) r hc
    simp only at a
    omega

theorem negStep_cost {c c' : CNF} {s : Ctx} (hv : VMok s) (h : c.tv ≤ s.topv) (hc : (negStep c s).1 = .ok c') :
    (pot c' : Int) + ((negStep c s).2.topv - s.topv) ≤ pot c + 21 := by
  rw [negStep_eq] at hc ⊢
  simp only [Except.ok.injEq] at hc
  subst hc
  have h1 := ((updateTopV_tame s (c.negate (some s.topv)).tv).2.2 hv).2.2
  have h2 := negate_size c s.topv h
  have h3 := negate_top c s.topv
  simp only [h1]
  omega

theorem Cost.andBuild {q1 q2 : M CNF} {B1 B2 : Nat} (t1 : Tame q1) (h1 : Cost d n B1 q1)
    (h2 : Cost d n B2 q2) : Cost d n (B1 + B2) (andBuild q1 q2) := by
  refine Cost.seq (t1.wrapErr _) (h1.wrapErr _) fun c1 s1 c hv hd hn _ hc => ?_
  rcases e : M.wrapErr "Q2" q2 s1 with ⟨a | c2, s2⟩
  · rw [M_bind_error e] at hc; simp at hc
  · have := h2.wrapErr "Q2" s1 c2 hv hd hn (by rw [e])
    rw [e] at this
    rw [M_bind_ok e] at hc ⊢
    simp only [M_pure, Except.ok.injEq] at hc
    subst hc
    rw [pot_conjunction]
    simp only [M_pure] at *
    omega

theorem Cost.notBuild {q : M CNF} (t : Tame q) (h : Cost d n B q) : Cost d n (B + 21) (notBuild q) := by
  rw [notBuild_eq]
  exact Cost.seq t h fun c1 s1 c hv _ _ h1 hc => negStep_cost hv h1 hc

theorem Cost.orBuild {q1 q2 : M CNF} {B1 B2 : Nat} (t1 : Tame q1) (t2 : Tame q2) (h1 : Cost d n B1 q1)
    (h2 : Cost d n B2 q2) : Cost d n (B1 + B2 + 63) (orBuild q1 q2) := by
  rw [orBuild_eq, Nat.add_assoc]
  refine Cost.seq (t1.wrapErr _) (h1.wrapErr _) fun c1 s1 c hv hd hn hc1 hc => ?_
  rcases (t2.wrapErr "Q2").cases s1 with ⟨e, s2, e2, t⟩ | ⟨c2, s2, e2, t⟩
  · rw [M_bind_error e2] at hc; simp at hc
  have k2 := h2.wrapErr "Q2" s1 c2 hv hd hn (by rw [e2])
  rw [e2] at k2
  obtain ⟨v2, x2⟩ := t.vm hv
  obtain ⟨w2, r2⟩ := t.res c2 hv rfl
  have g2 := x2.topv_le
  rw [M_bind_ok e2, M_bind_ok (negStep_eq c1 s2), M_bind_ok (negStep_eq c2 _), negStep_eq] at hc ⊢
  simp only [Except.ok.injEq] at *
  subst hc
  have n1 := negate_size c1 s2.topv (by omega)
  have m1 := negate_top c1 s2.topv
  obtain ⟨-, -, d3⟩ := updateTopV_tame s2 (c1.negate (some s2.topv)).tv
  generalize c1.negate (some s2.topv) = A at *
  generalize (s2.updateTopV A.tv).2 = s3 at *
  have d3 := d3 v2
  have n2 := negate_size c2 s3.topv (by omega)
  have m2 := negate_top c2 s3.topv
  obtain ⟨-, -, d4⟩ := updateTopV_tame s3 (c2.negate (some s3.topv)).tv
  have w3 : WF (c2.negate (some s3.topv)) := w2.negate _
  generalize c2.negate (some s3.topv) = C at *
  generalize (s3.updateTopV C.tv).2 = s4 at *
  have d4 := d4 d3.1
  have n3 := negate_size (A.conjunction C) s4.topv (conjunction_tv_le (by omega) w3 (by omega))
  have m3 := negate_top (A.conjunction C) s4.topv
  obtain ⟨-, -, d5⟩ := updateTopV_tame s4 ((A.conjunction C).negate (some s4.topv)).tv
  have d5 := (d5 d4.1).2.2
  rw [pot_conjunction] at n3
  simp only [d5]
  omega

/-! ### quantifiers -/

theorem length_rng (a b : Nat) : (rng a b).length = b - a := by simp [rng]

theorem instSteps_size (x : QVar) : stepsW (instSteps d x) ≤ 13 * d := by
  have h1 : sw (reqAllS x 0 d) ≤ d * 4 := by
    have := sw_map (l := rng 0 (0 + d)) (f := fun (j : Nat) => [P x j ZERO, P x j ONE, P x j BOT]) (m := 4) (by simp)
    rw [length_rng] at this
    simpa [reqAllS] using this
  have h2 := stepsW_map (l := rng 0 d) (f := fun j => Step.con (reqOneS x j)) (m := 9) (by simp [stepW, reqOneS, sw])
  rw [length_rng] at h2
  simp only [instSteps, stepsW_cons, stepW]
  omega

theorem Cost.encodeI (x : QVar) (h : 130 * d ≤ B) : Cost d n B (encodeI x) := by
  unfold Goexpdt.encodeI
  refine .read (readOnly_scopeVar _) fun v => .read (readOnly_exists _) fun ex => ?_
  refine .ite (fun _ => .pure (Nat.zero_le _)) fun _ => .dim ?_
  have : (reqAllFeats v 0 d >>= fun cls => reqOnePerFeat v 0 d (({} : CNF).appendConsistency cls)) =
      Goexpdt.emit (instSteps d v) := funext fun s => encodeI_new d v s
  rw [this]
  exact .emit (by have := instSteps_size (d := d) v; omega)

theorem Cost.withVarBuild {q : M CNF} (x : QVar) (h : Cost d n B q) :
    Cost d n (130 * d + B) (withVarBuild x q) := by
  rw [withVarBuild_eq]
  refine Cost.seq (encodeI_tame x) (.encodeI x (Nat.le_refl _)) fun c1 s1 c hv hd hn _ hc => ?_
  rcases e : q s1 with ⟨a | c2, s2⟩
  · rw [M_bind_error e] at hc; simp at hc
  · have := h s1 c2 hv hd hn (by rw [e])
    rw [e] at this
    rw [M_bind_ok e] at hc ⊢
    simp only [M_pure, Except.ok.injEq] at hc
    subst hc
    rw [pot_conjunction]
    simp only [M_pure] at *
    omega

theorem forallFold_cost {q : M CNF} (t : Tame q) (h : Cost d n B q) (ts : List (List FeatV)) :
    ∀ (i : Int) (ncnf : CNF) (s : Ctx) (c : CNF), VMok s → s.dim = d → s.nodes.length = n → s.scopes ≠ [] →
      (forallFold q ts i ncnf s).1 = .ok c →
      (pot c : Int) + ((forallFold q ts i ncnf s).2.topv - s.topv) ≤ pot ncnf + ts.length * B := by
  induction ts with
  | nil =>
    intro i ncnf s c _ _ _ _ hc
    simp only [forallFold, M_pure, Except.ok.injEq] at hc
    subst hc
    simp [forallFold, M_pure]
  | cons v ts ih =>
    intro i ncnf s c hv hd hn hne hc
    obtain ⟨base, g, hg⟩ : ∃ base g, s.scopes = base ++ [g] :=
      ⟨s.scopes.dropLast, s.scopes.getLast hne, (List.dropLast_concat_getLast hne).symm⟩
    simp only [forallFold] at hc ⊢
    rw [M_bind_ok (setScope_append hg i v)] at hc ⊢
    generalize hs1 : ({ s with scopes := base ++ [{ g with vIdx := i, value := v }] } : Ctx) = s1 at hc ⊢
    have v1 : VMok s1 := hv.of_vm_eq (by rw [← hs1]) (by rw [← hs1])
    have htv : s1.topv = s.topv := by rw [← hs1]
    have hd1 : s1.dim = d := by rw [← hs1]; exact hd
    have hn1 : s1.nodes.length = n := by rw [← hs1]; exact hn
    have hsc : s1.scopes ≠ [] := by rw [← hs1]; simp
    rcases t.cases s1 with ⟨e, s2, e2, t2⟩ | ⟨c2, s2, e2, t2⟩
    · rw [M_bind_error e2] at hc; simp at hc
    · rw [M_bind_ok e2] at hc ⊢
      have a := h s1 c2 v1 hd1 hn1 (by rw [e2])
      rw [e2] at a
      have b := ih (i + 1) (ncnf.conjunction c2) s2 c (t2.vm v1).1 (t2.keep.dim.trans hd1)
        (by rw [t2.keep.nodes]; exact hn1) (by rw [t2.keep.scopes]; exact hsc) hc
      rw [pot_conjunction] at b
      rw [List.length_cons, Int.natCast_add, Int.add_mul]
      simp only at a b
      omega

theorem Cost.forallBuild {q : M CNF} (k : QConst) (t : Tame q) (h : Cost d n B q) :
    Cost d n (n * B) (forallBuild k q) := by
  intro s c hv hd hn hc
  rcases forallBody_eq q (s.addScope k.id) with ⟨e, -, h1⟩ | ⟨ws, hi, he, h1⟩
  · rw [forallBuild_of h1 (by simp [Ctx.addScope])] at hc
    simp at hc
  · have v1 : VMok (s.addScope k.id) := hv.of_vm_eq rfl rfl
    obtain ⟨a1, a2, -⟩ := newIter_ok he
    obtain ⟨ws', b1, b2, -⟩ := iterates_init a1 a2
    have : ws = ws' := hi.unique b1
    subst this
    have l := forallFold_tame (V := True) t s.scopes (ws.map (·.t)) 0 {} (s.addScope k.id) ⟨_, rfl⟩ (fun _ => v1)
      (fun _ => ⟨WF.empty, v1.topv_nonneg⟩)
    rw [← h1] at l
    obtain ⟨g, hg⟩ := l.scopes
    have hne : (forallBody q (s.addScope k.id)).2.scopes ≠ [] := by rw [hg]; simp
    rw [forallBuild_of rfl hne] at hc ⊢
    have p1 : (forallBody q (s.addScope k.id)).2.popScope.2.topv = (forallBody q (s.addScope k.id)).2.topv := by
      unfold Ctx.popScope; split <;> rfl
    simp only [p1]
    rw [h1] at hc ⊢
    have := forallFold_cost t h _ 0 {} (s.addScope k.id) c v1 hd hn (by simp [Ctx.addScope]) hc
    have z : pot ({} : CNF) = 0 := rfl
    have : (ws.map (·.t)).length * B ≤ n * B := by
      refine Nat.mul_le_mul_right _ ?_
      rw [List.length_map, ← hn]; exact b2
    have : (s.addScope k.id).topv = s.topv := rfl
    rw [Int.natCast_mul]
    rw [← Int.ofNat_le, Int.natCast_mul, Int.natCast_mul] at *
    omega

end Goexpdt

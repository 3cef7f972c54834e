import Verif.Spec.Sat
/- Lemmas about the CNF model. -/
namespace Goexpdt
open Spec

/-! ### literals, clauses -/

theorem litTrue_neg {β : Val} {l : Int} (h : l ≠ 0) : litTrue β (-l) ↔ ¬ litTrue β l := by
  unfold litTrue
  rw [Int.natAbs_neg]
  by_cases h1 : l > 0
  · rw [if_neg (by omega), if_pos h1]; simp
  · rw [if_pos (by omega), if_neg h1]; simp

theorem litTrue_pos {β : Val} {n : Nat} (h : 0 < n) : litTrue β (n : Int) ↔ β n = true := by
  simp [litTrue, h]

theorem litTrue_congr {β β' : Val} {l : Int} (h : β l.natAbs = β' l.natAbs) :
    litTrue β l ↔ litTrue β' l := by simp [litTrue, h]

@[simp] theorem clauseTrue_nil {β : Val} : ¬ clauseTrue β [] := by simp [clauseTrue]

@[simp] theorem clauseTrue_cons {β : Val} {l : Int} {cl : Clause} :
    clauseTrue β (l :: cl) ↔ litTrue β l ∨ clauseTrue β cl := by simp [clauseTrue]

@[simp] theorem clauseTrue_append {β : Val} {a b : Clause} :
    clauseTrue β (a ++ b) ↔ clauseTrue β a ∨ clauseTrue β b := by
  simp only [clauseTrue, List.mem_append]
  constructor
  · rintro ⟨l, h | h, ht⟩
    · exact .inl ⟨l, h, ht⟩
    · exact .inr ⟨l, h, ht⟩
  · rintro (⟨l, h, ht⟩ | ⟨l, h, ht⟩)
    · exact ⟨l, .inl h, ht⟩
    · exact ⟨l, .inr h, ht⟩

@[simp] theorem clausesTrue_nil {β : Val} : clausesTrue β [] := by simp [clausesTrue]

@[simp] theorem clausesTrue_cons {β : Val} {cl : Clause} {cls : List Clause} :
    clausesTrue β (cl :: cls) ↔ clauseTrue β cl ∧ clausesTrue β cls := by simp [clausesTrue]

@[simp] theorem clausesTrue_append {β : Val} {a b : List Clause} :
    clausesTrue β (a ++ b) ↔ clausesTrue β a ∧ clausesTrue β b := by
  simp only [clausesTrue, List.forall_mem_append]

theorem clauseTrue_congr {β β' : Val} {cl : Clause}
    (h : ∀ l ∈ cl, β l.natAbs = β' l.natAbs) : clauseTrue β cl ↔ clauseTrue β' cl := by
  constructor
  · rintro ⟨l, hl, ht⟩; exact ⟨l, hl, (litTrue_congr (h l hl)).1 ht⟩
  · rintro ⟨l, hl, ht⟩; exact ⟨l, hl, (litTrue_congr (h l hl)).2 ht⟩

theorem clausesTrue_congr {β β' : Val} {cls : List Clause}
    (h : ∀ cl ∈ cls, ∀ l ∈ cl, β l.natAbs = β' l.natAbs) :
    clausesTrue β cls ↔ clausesTrue β' cls := by
  constructor
  · intro H cl hcl; exact (clauseTrue_congr (h cl hcl)).1 (H cl hcl)
  · intro H cl hcl; exact (clauseTrue_congr (h cl hcl)).2 (H cl hcl)

theorem clausesTrue_congr_of_bounded {β β' : Val} {cls : List Clause} {v : Int}
    (hb : BoundedBy v cls) (h : ∀ n : Nat, (n : Int) ≤ v → β n = β' n) :
    clausesTrue β cls ↔ clausesTrue β' cls :=
  clausesTrue_congr fun cl hcl l hl => h _ (hb cl hcl l hl)

theorem Spec.BoundedBy.mono {v w : Int} {cls : List Clause} (h : BoundedBy v cls) (hvw : v ≤ w) :
    BoundedBy w cls := fun cl hcl l hl => Int.le_trans (h cl hcl l hl) hvw

@[simp] theorem boundedBy_nil {v : Int} : BoundedBy v [] := by simp [BoundedBy]

@[simp] theorem boundedBy_append {v : Int} {a b : List Clause} :
    BoundedBy v (a ++ b) ↔ BoundedBy v a ∧ BoundedBy v b := by
  simp only [BoundedBy, List.forall_mem_append]

@[simp] theorem boundedBy_cons {v : Int} {a : Clause} {b : List Clause} :
    BoundedBy v (a :: b) ↔ (∀ l ∈ a, (l.natAbs : Int) ≤ v) ∧ BoundedBy v b := by
  simp [BoundedBy]

@[simp] theorem nonZero_nil : NonZero [] := by simp [NonZero]

@[simp] theorem nonZero_append {a b : List Clause} :
    NonZero (a ++ b) ↔ NonZero a ∧ NonZero b := by
  simp only [NonZero, List.forall_mem_append]

@[simp] theorem nonZero_cons {a : Clause} {b : List Clause} :
    NonZero (a :: b) ↔ (∀ l ∈ a, l ≠ 0) ∧ NonZero b := by
  simp [NonZero]

/-! ### maxVar -/

theorem absInt_eq (v : Int) : absInt v = v.natAbs := by
  unfold absInt; split <;> omega

theorem maxInt_eq (a b : Int) : maxInt a b = max a b := by
  unfold maxInt; split <;> omega

theorem le_maxVarClause (t : Int) (cl : Clause) :
    t ≤ maxVarClause t cl ∧ ∀ l ∈ cl, (l.natAbs : Int) ≤ maxVarClause t cl := by
  induction cl generalizing t with
  | nil => simp [maxVarClause]
  | cons v cl ih =>
    simp only [maxVarClause, List.mem_cons, forall_eq_or_imp]
    obtain ⟨h1, h2⟩ := ih (if absInt v > t then absInt v else t)
    refine ⟨?_, ?_, h2⟩
    · split at h1 <;> split <;> first | omega | simp_all
    · rw [absInt_eq] at *
      split at h1 <;> split <;> first | omega | simp_all

theorem le_maxVarLoop (t : Int) (cls : List Clause) :
    t ≤ maxVarLoop t cls ∧ BoundedBy (maxVarLoop t cls) cls := by
  induction cls generalizing t with
  | nil => simp [maxVarLoop]
  | cons cl cls ih =>
    obtain ⟨h1, h2⟩ := ih (maxVarClause t cl)
    obtain ⟨h3, h4⟩ := le_maxVarClause t cl
    simp only [maxVarLoop, boundedBy_cons]
    exact ⟨by omega, fun l hl => by have := h4 l hl; omega, h2⟩

theorem maxVar_nonneg (cls : List Clause) : 0 ≤ maxVar cls := (le_maxVarLoop 0 cls).1

theorem boundedBy_maxVar (cls : List Clause) : BoundedBy (maxVar cls) cls := (le_maxVarLoop 0 cls).2

theorem maxVarClause_le {t v : Int} {cl : Clause} (ht : t ≤ v)
    (h : ∀ l ∈ cl, (l.natAbs : Int) ≤ v) : maxVarClause t cl ≤ v := by
  induction cl generalizing t with
  | nil => simpa [maxVarClause]
  | cons a cl ih =>
    simp only [maxVarClause]
    apply ih
    · have := h a (by simp); rw [absInt_eq]; split <;> omega
    · exact fun l hl => h l (by simp [hl])

theorem maxVar_le {v : Int} {cls : List Clause} (h0 : 0 ≤ v) (h : BoundedBy v cls) :
    maxVar cls ≤ v := by
  have : ∀ t ≤ v, maxVarLoop t cls ≤ v := by
    induction cls with
    | nil => intro t ht; simpa [maxVarLoop]
    | cons a cls ih =>
      intro t ht
      simp only [boundedBy_cons] at h
      exact ih h.2 _ (maxVarClause_le ht h.1)
  exact this 0 h0

/-! ### the Tseytin loop -/

/-- One iteration of the loop. -/
theorem tseytinLoop_step (cl : Clause) (rest : List Clause) (hne : cl ≠ [])
    (hnz : ∀ l ∈ cl, l ≠ 0) (tv : Int) (cls : List Clause) (enc : Clause) (h0 : 0 ≤ tv) :
    ∃ (tv' : Int) (cls' : List Clause) (aux : Int),
      CNF.tseytinLoop tv cls enc (cl :: rest) = CNF.tseytinLoop tv' (cls ++ cls') (enc ++ [aux]) rest ∧
      tv ≤ tv' ∧ tv' ≤ tv + 1 ∧ aux ≠ 0 ∧ NonZero cls' ∧
      (∀ c ∈ [aux] :: cls', ∀ l ∈ c, (tv < (l.natAbs : Int) ∧ (l.natAbs : Int) ≤ tv') ∨
        (l ∈ cl ∨ -l ∈ cl)) ∧
      (∀ β, clausesTrue β cls' → (litTrue β aux ↔ ¬ clauseTrue β cl)) ∧
      ((∀ l ∈ cl, (l.natAbs : Int) ≤ tv) → ∀ β : Val, ∃ β' : Val,
        (∀ n : Nat, (n : Int) ≤ tv ∨ tv' < n → β' n = β n) ∧ clausesTrue β' cls') := by
  match cl, hne with
  | [l], _ =>
    have hl0 : l ≠ 0 := hnz l (by simp)
    refine ⟨tv, [], -l, by simp [CNF.tseytinLoop], by omega, by omega, by omega, by simp, ?_, ?_, ?_⟩
    · simp
    · intro β _; simp [litTrue_neg hl0]
    · exact fun _ β => ⟨β, fun _ _ => rfl, by simp⟩
  | l :: l' :: ls, _ =>
    generalize hcl : l :: l' :: ls = cl at *
    have hx : tv + 1 ≠ 0 := by omega
    have himp : ∀ β : Val, clausesTrue β (cl.map (fun lit => [-lit, -(tv + 1)])) ↔
        (litTrue β (tv + 1) → ¬ clauseTrue β cl) := by
      intro β
      simp only [clausesTrue, List.mem_map, forall_exists_index, and_imp,
        forall_apply_eq_imp_iff₂, clauseTrue_cons, clauseTrue_nil, or_false, litTrue_neg hx]
      constructor
      · rintro h ha ⟨x, hxm, hxt⟩
        rcases h x hxm with h | h
        · exact (litTrue_neg (hnz x hxm)).1 h hxt
        · exact h ha
      · intro h x hxm
        rw [litTrue_neg (hnz x hxm)]
        by_cases ha : litTrue β (tv + 1)
        · exact .inl fun hxt => h ha ⟨x, hxm, hxt⟩
        · exact .inr ha
    refine ⟨tv + 1, cl.map (fun lit => [-lit, -(tv + 1)]) ++ [cl ++ [tv + 1]], tv + 1, ?_,
      by omega, by omega, hx, ?_, ?_, ?_, ?_⟩
    · subst hcl; simp [CNF.tseytinLoop]
    · simp only [nonZero_append, nonZero_cons, nonZero_nil, and_true, List.mem_append,
        List.mem_singleton]
      refine ⟨?_, ?_⟩
      · intro c hc y hy
        simp only [List.mem_map] at hc
        obtain ⟨z, hz, rfl⟩ := hc
        have := hnz z hz
        simp only [List.mem_cons, List.not_mem_nil, or_false] at hy
        omega
      · rintro y (hy | rfl)
        · exact hnz y hy
        · exact hx
    · intro c hc y hy
      simp only [List.mem_cons, List.mem_append, List.mem_map, List.not_mem_nil, or_false] at hc
      rcases hc with rfl | ⟨z, hz, rfl⟩ | rfl
      · simp only [List.mem_singleton] at hy; subst hy; left; omega
      · simp only [List.mem_cons, List.not_mem_nil, or_false] at hy
        rcases hy with rfl | rfl
        · right; right; simpa using hz
        · left; omega
      · simp only [List.mem_append, List.mem_singleton] at hy
        rcases hy with hy | rfl
        · right; left; exact hy
        · left; omega
    · intro β hβ
      simp only [clausesTrue_append, himp, clausesTrue_cons, clauseTrue_append, clauseTrue_cons,
        clauseTrue_nil, or_false, clausesTrue_nil, and_true] at hβ
      grind
    · intro hb β
      classical
      let β' : Val := fun n => if (n : Int) = tv + 1 then decide (¬ clauseTrue β cl) else β n
      have hagree : clauseTrue β' cl ↔ clauseTrue β cl := by
        apply clauseTrue_congr
        intro l hl
        have := hb l hl
        simp only [β']
        rw [if_neg (by omega)]
      have haux : litTrue β' (tv + 1) ↔ ¬ clauseTrue β cl := by
        have : (tv + 1).natAbs = tv + 1 := by omega
        simp only [litTrue]
        rw [if_pos (by omega)]
        simp only [β', if_pos this, decide_eq_true_eq]
      refine ⟨β', ?_, ?_⟩
      · intro n hn
        simp only [β']
        rw [if_neg (by omega)]
      · simp only [clausesTrue_append, himp, clausesTrue_cons, clauseTrue_append, clauseTrue_cons,
          clauseTrue_nil, or_false, clausesTrue_nil, and_true, haux, hagree]
        grind

/-- What the loop over the semantic clauses computes. -/
theorem tseytinLoop_ok (s : List Clause) (hne : ∀ cl ∈ s, cl ≠ []) (hnz : NonZero s) :
    ∀ (tv : Int) (cls : List Clause) (enc : Clause), 0 ≤ tv →
    ∃ (tv' : Int) (cls' : List Clause) (enc' : Clause),
      CNF.tseytinLoop tv cls enc s = .ok (tv', cls ++ cls', enc ++ enc') ∧
      tv ≤ tv' ∧ tv' ≤ tv + s.length ∧ enc'.length = s.length ∧
      (∀ l ∈ enc', l ≠ 0) ∧ NonZero cls' ∧
      (∀ c ∈ enc' :: cls', ∀ l ∈ c, (tv < (l.natAbs : Int) ∧ (l.natAbs : Int) ≤ tv') ∨
        ∃ cl ∈ s, (l ∈ cl ∨ -l ∈ cl)) ∧
      (∀ β, clausesTrue β cls' → (clauseTrue β enc' ↔ ¬ clausesTrue β s)) ∧
      (BoundedBy tv s → ∀ β : Val, ∃ β' : Val,
        (∀ n : Nat, (n : Int) ≤ tv ∨ tv' < n → β' n = β n) ∧ clausesTrue β' cls') := by
  induction s with
  | nil =>
    intro tv cls enc h0
    refine ⟨tv, [], [], by simp [CNF.tseytinLoop], by omega, by simp, by simp, by simp, by simp,
      by simp, by simp, fun _ β => ⟨β, fun n _ => rfl, by simp⟩⟩
  | cons cl rest ih =>
    simp only [nonZero_cons] at hnz
    have hne' : ∀ cl ∈ rest, cl ≠ [] := fun c hc => hne c (by simp [hc])
    intro tv cls enc h0
    obtain ⟨tv1, cls1, aux, hs, ha1, ha2, ha3, ha4, ha5, ha6, ha7⟩ :=
      tseytinLoop_step cl rest (hne cl (by simp)) hnz.1 tv cls enc h0
    obtain ⟨tv2, cls2, enc2, hr, hb1, hb2, hb3, hb4, hb5, hb6, hb7, hb8⟩ :=
      ih hne' hnz.2 tv1 (cls ++ cls1) (enc ++ [aux]) (by omega)
    refine ⟨tv2, cls1 ++ cls2, aux :: enc2, ?_, by omega, ?_, by simp [hb3], by simpa using ⟨ha3, hb4⟩,
      by simpa using ⟨ha4, hb5⟩, ?_, ?_, ?_⟩
    · rw [hs, hr]; simp
    · simp only [List.length_cons]; omega
    · have hA : ∀ c ∈ [aux] :: cls1, ∀ l ∈ c, (tv < (l.natAbs : Int) ∧ (l.natAbs : Int) ≤ tv2) ∨
          ∃ c ∈ cl :: rest, (l ∈ c ∨ -l ∈ c) := by
        intro c hc l hl
        rcases ha5 c hc l hl with h | h
        · left; omega
        · exact .inr ⟨cl, by simp, h⟩
      have hB : ∀ c ∈ enc2 :: cls2, ∀ l ∈ c, (tv < (l.natAbs : Int) ∧ (l.natAbs : Int) ≤ tv2) ∨
          ∃ c ∈ cl :: rest, (l ∈ c ∨ -l ∈ c) := by
        intro c hc l hl
        rcases hb6 c hc l hl with h | ⟨c', hc', h⟩
        · left; omega
        · exact .inr ⟨c', by simp [hc'], h⟩
      intro c hc l hl
      simp only [List.mem_cons, List.mem_append] at hc
      rcases hc with rfl | hc | hc
      · simp only [List.mem_cons] at hl
        rcases hl with rfl | hl
        · exact hA [l] (by simp) l (by simp)
        · exact hB enc2 (by simp) l hl
      · exact hA c (by simp [hc]) l hl
      · exact hB c (by simp [hc]) l hl
    · intro β hβ
      simp only [clausesTrue_append] at hβ
      have h1 := ha6 β hβ.1
      have h2 := hb7 β hβ.2
      simp only [clauseTrue_cons, clausesTrue_cons]
      grind
    · intro hb β
      simp only [boundedBy_cons] at hb
      obtain ⟨β1, h1, h2⟩ := ha7 hb.1 β
      obtain ⟨β2, h3, h4⟩ := hb8 (BoundedBy.mono hb.2 (by omega)) β1
      refine ⟨β2, ?_, ?_⟩
      · intro n hn
        rw [h3 n (by omega), h1 n (by omega)]
      · simp only [clausesTrue_append]
        refine ⟨(clausesTrue_congr_of_bounded (v := tv1) ?_ ?_).1 h2, h4⟩
        · intro c hc l hl
          rcases ha5 c (by simp [hc]) l hl with h | h | h
          · omega
          · have := hb.1 l h; omega
          · have := hb.1 _ h; omega
        · intro n hn; exact (h3 n (.inl hn)).symm

/-! ### Negate -/

theorem hasEmpty_iff (c : CNF) : c.hasEmptySemanticClause = true ↔ [] ∈ c.sClauses := by
  simp only [CNF.hasEmptySemanticClause, List.any_eq_true, beq_iff_eq, List.length_eq_zero_iff]
  constructor
  · rintro ⟨x, hx, rfl⟩; exact hx
  · intro h; exact ⟨[], h, rfl⟩

/-- The top variable `Negate` starts from. -/
def negTop (c : CNF) : Option Int → Int
  | some t => max c.tv t
  | none => c.tv

theorem negate_eq (c : CNF) (o : Option Int) : c.negate o =
    if c.sClauses.length = 0 then
      { c.appendSemantics [[]] with tv := negTop c o }
    else if c.hasEmptySemanticClause then
      { cClauses := c.cClauses, tv := negTop c o }
    else
      ({ tv := negTop c o, sClauses := c.sClauses, cClauses := c.cClauses } : CNF).tseytinNegation
        (negTop c o) := by
  unfold CNF.negate negTop
  cases o <;> simp [maxInt_eq]

/-- Everything there is to know about `Negate`. -/
theorem negate_spec (c : CNF) (o : Option Int) (h0 : 0 ≤ c.tv) (hnz : NonZero c.sClauses) :
    ∃ new : List Clause,
      (c.negate o).cClauses = c.cClauses ++ new ∧
      negTop c o ≤ (c.negate o).tv ∧ (c.negate o).tv ≤ negTop c o + c.sClauses.length + 1 ∧
      NonZero (c.negate o).sClauses ∧ NonZero new ∧
      (∀ cl ∈ (c.negate o).sClauses ++ new, ∀ l ∈ cl,
        (negTop c o < (l.natAbs : Int) ∧ (l.natAbs : Int) ≤ (c.negate o).tv) ∨
        ∃ cl ∈ c.sClauses, (l ∈ cl ∨ -l ∈ cl)) ∧
      (∀ β, clausesTrue β new → (SemTrue β (c.negate o) ↔ ¬ SemTrue β c)) ∧
      (BoundedBy (negTop c o) c.sClauses → ∀ β : Val, ∃ β' : Val,
        (∀ n : Nat, (n : Int) ≤ negTop c o ∨ (c.negate o).tv < n → β' n = β n) ∧
        clausesTrue β' new) := by
  have htop : 0 ≤ negTop c o := by unfold negTop; split <;> omega
  rw [negate_eq]
  generalize negTop c o = T at *
  by_cases h1 : c.sClauses.length = 0
  · have h1' : c.sClauses = [] := List.length_eq_zero_iff.1 h1
    refine ⟨[], ?_⟩
    simp [h1', CNF.appendSemantics, SemTrue]
    refine ⟨by omega, ?_⟩
    exact fun β => ⟨β, fun n _ => rfl⟩
  · by_cases h2 : c.hasEmptySemanticClause
    · refine ⟨[], ?_⟩
      have h2' := (hasEmpty_iff c).1 h2
      simp [h1, h2, SemTrue]
      refine ⟨by omega, ?_, ?_⟩
      · exact fun β h => clauseTrue_nil (h _ h2')
      · exact fun _ β => ⟨β, fun n _ => rfl⟩
    · have hne : ∀ cl ∈ c.sClauses, cl ≠ [] := by
        rintro cl hcl rfl
        exact h2 ((hasEmpty_iff c).2 hcl)
      obtain ⟨tv', cls', enc', hr, ha1, ha2, ha3, ha4, ha5, ha6, ha7, ha8⟩ :=
        tseytinLoop_ok c.sClauses hne hnz T [] [] htop
      simp only [List.nil_append] at hr
      simp only [h1, h2, if_false, CNF.tseytinNegation, hr, Bool.false_eq_true]
      by_cases h3 : enc'.length = 1
      · simp only [h3, if_true, SemTrue, clausesTrue_cons, clausesTrue_nil, and_true]
        refine ⟨cls', rfl, by omega, by omega, by simpa using ha4, ha5, ?_, ha7, ha8⟩
        simpa using ha6
      · simp only [h3, if_false, CNF.addNegationIFFClauses, SemTrue, clausesTrue_cons,
          clausesTrue_nil, and_true, List.append_assoc]
        have hx : tv' + 1 ≠ 0 := by omega
        have himp : ∀ β, clausesTrue β (enc'.map (fun lit => [-lit, tv' + 1])) ↔
            (clauseTrue β enc' → litTrue β (tv' + 1)) := by
          intro β
          simp only [clausesTrue, List.mem_map, forall_exists_index, and_imp,
            forall_apply_eq_imp_iff₂, clauseTrue_cons, clauseTrue_nil, or_false]
          constructor
          · rintro h ⟨x, hxm, hxt⟩
            rcases h x hxm with h | h
            · exact absurd hxt ((litTrue_neg (ha4 x hxm)).1 h)
            · exact h
          · intro h x hxm
            rw [litTrue_neg (ha4 x hxm)]
            by_cases hxt : litTrue β x
            · exact .inr (h ⟨x, hxm, hxt⟩)
            · exact .inl hxt
        refine ⟨cls' ++ (enc'.map (fun lit => [-lit, tv' + 1]) ++ [enc' ++ [-(tv' + 1)]]), rfl,
          by omega, by omega, ?_, ?_, ?_, ?_, ?_⟩
        · simpa using hx
        · simp only [nonZero_append, nonZero_cons, nonZero_nil, and_true]
          refine ⟨ha5, ?_, ?_⟩
          · intro cl hcl y hy
            simp only [List.mem_map] at hcl
            obtain ⟨z, hz, rfl⟩ := hcl
            have := ha4 z hz
            simp only [List.mem_cons, List.not_mem_nil, or_false] at hy
            omega
          · simp only [List.mem_append, List.mem_singleton]
            rintro y (hy | rfl)
            · exact ha4 y hy
            · omega
        · have hE : ∀ l ∈ enc', (T < (l.natAbs : Int) ∧ (l.natAbs : Int) ≤ tv' + 1) ∨
              ∃ cl ∈ c.sClauses, (l ∈ cl ∨ -l ∈ cl) := by
            intro l hl
            rcases ha6 enc' (by simp) l hl with h | h
            · left; omega
            · exact .inr h
          intro cl hcl y hy
          simp only [List.mem_append, List.mem_singleton, List.mem_map] at hcl
          rcases hcl with rfl | hcl | ⟨z, hz, rfl⟩ | rfl
          · simp only [List.mem_singleton] at hy; subst hy; left; omega
          · rcases ha6 cl (by simp [hcl]) y hy with h | h
            · left; omega
            · exact .inr h
          · simp only [List.mem_cons, List.not_mem_nil, or_false] at hy
            rcases hy with rfl | rfl
            · rcases hE z hz with h | ⟨c', hc', h⟩
              · left; omega
              · refine .inr ⟨c', hc', ?_⟩
                rw [Int.neg_neg]; exact h.symm
            · left; omega
          · simp only [List.mem_append, List.mem_singleton] at hy
            rcases hy with hy | rfl
            · exact hE y hy
            · left; omega
        · intro β hβ
          simp only [clausesTrue_append, himp, clausesTrue_cons, clauseTrue_append,
            clauseTrue_cons, clauseTrue_nil, or_false, clausesTrue_nil, and_true,
            litTrue_neg hx] at hβ ⊢
          have := ha7 β hβ.1
          grind
        · intro hb β
          classical
          obtain ⟨β1, h4, h5⟩ := ha8 hb β
          let β' : Val := fun n => if (n : Int) = tv' + 1 then decide (clauseTrue β1 enc') else β1 n
          have hB : BoundedBy tv' (enc' :: cls') := by
            intro cl hcl l hl
            rcases ha6 cl hcl l hl with h | ⟨c', hc', h⟩
            · omega
            · rcases h with h | h
              · have := hb c' hc' l h; omega
              · have := hb c' hc' _ h; omega
          have hag : ∀ n : Nat, (n : Int) ≤ tv' → β1 n = β' n := by
            intro n hn; simp only [β']; rw [if_neg (by omega)]
          simp only [boundedBy_cons] at hB
          have hagree : clauseTrue β' enc' ↔ clauseTrue β1 enc' :=
            clauseTrue_congr fun l hl => (hag _ (hB.1 l hl)).symm
          have haux : litTrue β' (tv' + 1) ↔ clauseTrue β1 enc' := by
            have : (tv' + 1).natAbs = tv' + 1 := by omega
            simp only [litTrue]
            rw [if_pos (by omega)]
            simp only [β', if_pos this, decide_eq_true_eq]
          refine ⟨β', ?_, ?_⟩
          · intro n hn
            simp only [β']
            rw [if_neg (by omega), h4 n (by omega)]
          · simp only [clausesTrue_append, himp, clausesTrue_cons, clauseTrue_append,
              clauseTrue_cons, clauseTrue_nil, or_false, clausesTrue_nil, and_true,
              litTrue_neg hx, haux, hagree]
            refine ⟨(clausesTrue_congr_of_bounded hB.2 hag).1 h5, id, ?_⟩
            exact Classical.em _

end Goexpdt

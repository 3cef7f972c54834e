import Verif.Lemmas.Scope
/-
Which variables keep a level after a history: those declared in a scope that is still open.
-/
namespace Goexpdt
open Spec

/-- Scoper states reachable from a new context without `Reset`. -/
theorem reachable_ok (d : Nat) (nodes : List Node) {h : List Op} (hr : .reset ∉ h) :
    VarsFun (run h (BasicQContext d nodes)) ∧ ScopeOk (run h (BasicQContext d nodes)) :=
  run_scoper h _ hr (basic_scoper d nodes).1 (basic_scoper d nodes).2

theorem openAfter_snoc (h : List Op) (op : Op) : openAfter (h ++ [op]) = (match op with
    | .addScope _ => openAfter h + 1
    | .popScope => openAfter h - 1
    | .reset => 0
    | _ => openAfter h) := by
  unfold openAfter
  rw [List.foldl_append]
  cases op <;> rfl

theorem openAfter_run (d : Nat) (nodes : List Node) (h : List Op) :
    (run h (BasicQContext d nodes)).scopes.length = openAfter h := by
  rw [← List.reverse_reverse h]
  generalize h.reverse = r
  induction r with
  | nil => rfl
  | cons op r ih =>
    rw [List.reverse_cons, openAfter_snoc, run_append, run_cons]
    show (op.exec _).scopes.length = _
    cases op <;> simp only [Op.exec]
    · simp only [Ctx.cnfVar]; split <;> exact ih
    · simp only [Ctx.updateTopV]; split <;> exact ih
    · simp only [Ctx.addVar]; split
      · exact ih
      · split <;> exact ih
    · simp only [Ctx.addScope, List.length_append, ih]; rfl
    · simp only [Ctx.popScope]; split
      · next h0 => rw [← ih, h0]
      · simp [ih]
    · simp only [Ctx.setScope]; split
      · exact ih
      · rw [setLast_length]; exact ih
    · rfl

theorem snoc_induction {α : Type} {P : List α → Prop} (h0 : P []) (h : ∀ l a, P l → P (l ++ [a])) (l : List α) : P l := by
  rw [← List.reverse_reverse l]
  generalize l.reverse = r
  induction r with
  | nil => exact h0
  | cons a r ih => rw [List.reverse_cons]; exact h _ _ ih

theorem prefix_snoc {α : Type} {p l : List α} {a : α} (h : p <+: l ++ [a]) : p <+: l ∨ p = l ++ [a] := by
  rcases List.prefix_concat_iff.1 h with h | h
  · exact .inr h
  · exact .inl h

theorem leaves_of_level (d : Nat) (nodes : List Node) (v : QVar) (h : List Op) (hr : .reset ∉ h) (k : Nat)
    (hk : mapGet (run h (BasicQContext d nodes)).vars v = some k) :
    ∃ pre post, h = pre ++ .addVar v :: post ∧ openAfter pre = k ∧
      ∀ p, p <+: post → openAfter pre ≤ openAfter (pre ++ .addVar v :: p) := by
  induction h using snoc_induction with
  | h0 => simp [run, BasicQContext] at hk
  | h h op ih =>
    have hr' : .reset ∉ h := fun h' => hr (by simp [h'])
    have hop : op ≠ .reset := fun h' => hr (by simp [h'])
    have ok := (reachable_ok d nodes hr).2 v k hk
    rw [openAfter_run] at ok
    rw [run_append, run_cons] at hk
    replace hk : mapGet (op.exec (run h (BasicQContext d nodes))).vars v = some k := hk
    have old : mapGet (run h (BasicQContext d nodes)).vars v = some k →
        ∃ pre post, h ++ [op] = pre ++ .addVar v :: post ∧ openAfter pre = k ∧
          ∀ p, p <+: post → openAfter pre ≤ openAfter (pre ++ .addVar v :: p) := by
      intro hold
      obtain ⟨pre, post, e, hd, hp⟩ := ih hr' hold
      refine ⟨pre, post ++ [op], by rw [e]; simp, hd, fun p hpp => ?_⟩
      rcases prefix_snoc hpp with h1 | rfl
      · exact hp p h1
      · have : pre ++ .addVar v :: (post ++ [op]) = h ++ [op] := by rw [e]; simp
        rw [this, hd]
        exact ok.2
    by_cases h1 : ∃ u, op = .addVar u
    · obtain ⟨u, rfl⟩ := h1
      simp only [Op.exec] at hk
      rw [addVar_vars] at hk
      split at hk
      · next hc =>
        obtain ⟨-, -, rfl⟩ := hc
        simp only [Option.some.injEq] at hk
        rw [openAfter_run] at hk
        refine ⟨h, [], rfl, hk, fun p hp => ?_⟩
        rw [List.prefix_nil.1 hp, openAfter_snoc]
        exact Nat.le_refl _
      · exact old hk
    · by_cases h2 : op = .popScope
      · subst h2
        simp only [Op.exec] at hk
        by_cases hne : (run h (BasicQContext d nodes)).scopes = []
        · have : (run h (BasicQContext d nodes)).popScope.2 = run h (BasicQContext d nodes) := by simp [Ctx.popScope, hne]
          rw [this] at hk
          exact old hk
        · rw [popScope_vars (reachable_ok d nodes hr').1 hne] at hk
          split at hk
          · next k' hk' =>
            split at hk
            · simp at hk
            · rw [← hk] at old
              exact old hk'
          · simp at hk
      · rw [exec_vars_other (fun v e => h1 ⟨v, e⟩) h2] at hk
        exact old hk

theorem level_of_leaves (d : Nat) (nodes : List Node) (v : QVar) (pre : List Op) (h0 : 0 < openAfter pre) (post : List Op)
    (hr : .reset ∉ pre ++ .addVar v :: post)
    (hp : ∀ p, p <+: post → openAfter pre ≤ openAfter (pre ++ .addVar v :: p)) :
    ∃ k ≤ openAfter pre, mapGet (run (pre ++ .addVar v :: post) (BasicQContext d nodes)).vars v = some k := by
  induction post using snoc_induction with
  | h0 =>
    have hr' : .reset ∉ pre := fun h' => hr (by simp [h'])
    rw [run_append, run_cons]
    show ∃ k ≤ openAfter pre, mapGet (Ctx.addVar _ v).vars v = some k
    rw [addVar_vars, ← openAfter_run d nodes]
    cases hv : mapGet (run pre (BasicQContext d nodes)).vars v with
    | some k => exact ⟨k, ((reachable_ok d nodes hr').2 v k hv).2, by simp⟩
    | none =>
      refine ⟨_, Nat.le_refl _, if_pos ⟨?_, rfl, rfl⟩⟩
      rw [← List.length_pos_iff, openAfter_run]
      exact h0
  | h post op ih =>
    have hr' : .reset ∉ pre ++ .addVar v :: post := fun h' => hr (by
      rw [show pre ++ Op.addVar v :: (post ++ [op]) = (pre ++ Op.addVar v :: post) ++ [op] by simp]
      exact List.mem_append_left _ h')
    have hop : op ≠ .reset := fun h' => hr (by simp [h'])
    obtain ⟨k, hk, hm⟩ := ih hr' fun p h => hp p (h.trans (List.prefix_append _ _))
    have hlast := hp _ (List.prefix_refl _)
    rw [show pre ++ Op.addVar v :: (post ++ [op]) = (pre ++ Op.addVar v :: post) ++ [op] by simp] at hlast ⊢
    refine ⟨k, hk, ?_⟩
    rw [run_append, run_cons]
    show mapGet (op.exec _).vars v = some k
    by_cases h1 : ∃ u, op = .addVar u
    · obtain ⟨u, rfl⟩ := h1
      simp only [Op.exec]
      rw [addVar_vars, if_neg]
      · exact hm
      · rintro ⟨-, h, rfl⟩
        rw [hm] at h
        simp at h
    · by_cases h2 : op = .popScope
      · subst h2
        simp only [Op.exec]
        by_cases hne : (run (pre ++ .addVar v :: post) (BasicQContext d nodes)).scopes = []
        · have : (run (pre ++ .addVar v :: post) (BasicQContext d nodes)).popScope.2 = run (pre ++ .addVar v :: post) (BasicQContext d nodes) := by
            simp [Ctx.popScope, hne]
          rw [this]
          exact hm
        · rw [popScope_vars (reachable_ok d nodes hr').1 hne, hm]
          have hpos := List.length_pos_iff.2 hne
          rw [openAfter_run] at hpos ⊢
          rw [openAfter_snoc] at hlast
          simp only at hlast ⊢
          rw [if_neg (by omega)]
      · rw [exec_vars_other (fun v e => h1 ⟨v, e⟩) h2]
        exact hm

theorem leaves_iff (d : Nat) (nodes : List Node) (h : List Op) (hr : .reset ∉ h) (v : QVar) :
    Leaves h v ↔ mapGet (run h (BasicQContext d nodes)).vars v ≠ none := by
  constructor
  · rintro ⟨pre, post, rfl, h0, hp⟩
    obtain ⟨k, -, hk⟩ := level_of_leaves d nodes v pre h0 post hr hp
    rw [hk]; simp
  · intro hne
    obtain ⟨k, hk⟩ := Option.ne_none_iff_exists'.1 hne
    obtain ⟨pre, post, e, hd, hp⟩ := leaves_of_level d nodes v h hr k hk
    refine ⟨pre, post, e, ?_, hp⟩
    have := ((reachable_ok d nodes hr).2 v k hk).1
    omega

end Goexpdt

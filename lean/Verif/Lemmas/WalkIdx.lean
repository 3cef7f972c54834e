import Verif.Lemmas.Walk
import Verif.Model.LogOp
/- Every index the walk uses is in range; the loops over the walk. -/
namespace Goexpdt
open Spec

theorem goIdx_ok {α : Type} {l : List α} {i : Nat} {a : α} (h : l[i]? = some a) :
    goIdx l (i : Int) = .ok a := by simp [goIdx, h]

theorem goIdx_ok' {α : Type} {l : List α} {i : Int} {a : α} (h0 : 0 ≤ i) (h : l[i.toNat]? = some a) :
    goIdx l i = .ok a := by rw [goIdx, if_neg (by omega), h]

theorem goSet_ok {α : Type} {l : List α} {i : Int} {a : α} (h0 : 0 ≤ i) (h : i < l.length) :
    goSet l i a = .ok (l.set i.toNat a) := by rw [goSet, if_neg (by omega)]

theorem getElem?_of_getD {α : Type} {l : List α} {i : Nat} {a : α} (h : i < l.length) :
    l[i]? = some (l.getD i a) := by simp [List.getD, h]

theorem walkStepIdx_eq {dim : Nat} {nodes : List Node} {w : WalkSt} {stk : List Nat}
    (hva : Valid dim nodes) (hi : WInv dim nodes w stk) :
    walkStepIdx nodes w = .ok (walkStep nodes w) := by
  obtain ⟨a, r, rfl⟩ : ∃ a r, stk = a :: r := by
    cases stk with
    | nil => exact absurd hi.chain (by simp [Chain])
    | cons a r => exact ⟨a, r, rfl⟩
  have hcp : a = w.cp := by have := hi.head; simpa using this
  have hlt : w.cp < nodes.length := by rw [← hcp]; exact (hi.inR a (by simp)).1
  have e1 : goIdx w.visited (w.cp : Int) = .ok (w.visited.getD w.cp false) :=
    goIdx_ok (getElem?_of_getD (by rw [hi.lenV]; exact hlt))
  have e2 : goIdx nodes (w.cp : Int) = .ok (nodeAt nodes w.cp) := goIdx_ok (getElem?_nodeAt hlt)
  have hback : walkBackupIdx nodes w = .ok (walkBackup nodes w) := by
    unfold walkBackupIdx walkBackup
    by_cases h0 : w.cp = 0
    · simp [h0]
    · rw [if_neg h0, if_neg h0]
      cases r with
      | nil => exact absurd (hcp ▸ (hi.chain : a = 0)) h0
      | cons b r =>
        have hb : w.prev.getD w.cp 0 = b := hcp ▸ hi.chain.1
        have hbl := (hi.inR b (by simp)).1
        have hbi := (hi.tailVis b (by simp)).2
        have e3 : goIdx w.prev (w.cp : Int) = .ok b := by
          rw [goIdx_ok (getElem?_of_getD (a := 0) (by rw [hi.lenP]; exact hlt)), hb]
        have e4 : goIdx nodes (b : Int) = .ok (nodeAt nodes b) := goIdx_ok (getElem?_nodeAt hbl)
        have hv := hva b _ (getElem?_nodeAt hbl) hbi
        have e5 : goSet w.t (nodeAt nodes b).feat BOT =
            .ok (w.t.set (nodeAt nodes b).feat.toNat BOT) :=
          goSet_ok (by omega) (by rw [hi.lenT]; omega)
        simp only [e3, bind, Except.bind, e4, e5, hb]
  have hdown : ∀ (ch : Int) (val : FeatV), (nodeAt nodes w.cp).isLeaf = false → 0 ≤ ch →
      ch < nodes.length → walkDownIdx nodes w ch val = .ok (walkDown nodes w ch.toNat val) := by
    intro ch val hl h0 h1
    have hv := hva w.cp _ (getElem?_nodeAt hlt) hl
    have e3 : goSet w.t (nodeAt nodes w.cp).feat val =
        .ok (w.t.set (nodeAt nodes w.cp).feat.toNat val) :=
      goSet_ok (by omega) (by rw [hi.lenT]; omega)
    have e4 : goSet w.prev ch w.cp = .ok (w.prev.set ch.toNat w.cp) :=
      goSet_ok h0 (by rw [hi.lenP]; exact h1)
    unfold walkDownIdx walkDown
    simp only [e2, bind, Except.bind, e3, e4]
  unfold walkStepIdx walkStep
  simp only [e1, bind, Except.bind]
  by_cases hv : w.visited.getD w.cp false = true
  · rw [if_pos hv, if_pos hv]
    simp only [e2]
    by_cases hl : (nodeAt nodes w.cp).isLeaf = true
    · rw [if_pos hl, if_pos hl, hback]
    · rw [if_neg hl, if_neg hl]
      have hlf : (nodeAt nodes w.cp).isLeaf = false := by simpa using hl
      have hvd := hva w.cp _ (getElem?_nodeAt hlt) hlf
      have e3 : goIdx w.visited (nodeAt nodes w.cp).zChild =
          .ok (w.visited.getD (nodeAt nodes w.cp).zChild.toNat false) :=
        goIdx_ok' (by omega) (getElem?_of_getD (by rw [hi.lenV]; omega))
      have e4 : goIdx w.visited (nodeAt nodes w.cp).oChild =
          .ok (w.visited.getD (nodeAt nodes w.cp).oChild.toNat false) :=
        goIdx_ok' (by omega) (getElem?_of_getD (by rw [hi.lenV]; omega))
      simp only [e3, e4]
      by_cases hz : (!w.visited.getD (nodeAt nodes w.cp).zChild.toNat false) = true
      · rw [if_pos hz, if_pos hz, hdown _ _ hlf (by omega) (by omega)]
      · rw [if_neg hz, if_neg hz]
        by_cases ho : (!w.visited.getD (nodeAt nodes w.cp).oChild.toNat false) = true
        · rw [if_pos ho, if_pos ho, hdown _ _ hlf (by omega) (by omega)]
        · rw [if_neg ho, if_neg ho, hback]
  · rw [if_neg hv, if_neg hv, goSet_ok (by omega) (by rw [hi.lenV]; omega)]
    simp

theorem passes_inv {dim : Nat} {nodes : List Node} (hva : Valid dim nodes) {w0 w : WalkSt}
    (h0 : ∃ stk, WInv dim nodes w0 stk) (h : Passes nodes w0 w) : ∃ stk, WInv dim nodes w stk := by
  have step : ∀ {w w' stk ev}, WInv dim nodes w stk → walkStep nodes w = (ev, w') →
      ∃ stk', WInv dim nodes w' stk' := by
    intro w w' stk ev hi hs
    rcases walkStep_inv hva hi with ⟨-, h, h'⟩ | ⟨-, w1, h, -, -, h'⟩ |
      ⟨-, w1, a, b, r, h, -, -, -, h'⟩ | ⟨-, h, h', -⟩
    · rw [h] at hs; obtain ⟨-, rfl⟩ := Prod.mk.inj hs; exact ⟨_, h'⟩
    · rw [h] at hs; obtain ⟨-, rfl⟩ := Prod.mk.inj hs; exact ⟨_, h'⟩
    · rw [h] at hs; obtain ⟨-, rfl⟩ := Prod.mk.inj hs; exact ⟨_, h'⟩
    · rw [h] at hs; obtain ⟨-, rfl⟩ := Prod.mk.inj hs; exact ⟨_, hi⟩
  induction h with
  | start => exact h0
  | moved _ hs ih => obtain ⟨stk, hi⟩ := ih; exact step hi hs
  | visited _ hs ih => obtain ⟨stk, hi⟩ := ih; exact step hi hs

/-! ### The loops over the walk -/

theorem leafsLoop_spec {nodes : List Node} {w : WalkSt} {ws : List WalkSt}
    (h : Iterates nodes w ws) : ∀ (fuel : Nat) (p n : List QConst), ws.length < fuel →
    leafsLoop nodes fuel w p n = .ok
      (p ++ (ws.filter fun v => (nodeAt nodes v.cp).isLeaf && (nodeAt nodes v.cp).value).map
          fun v => { val := v.t },
       n ++ (ws.filter fun v => (nodeAt nodes v.cp).isLeaf && !(nodeAt nodes v.cp).value).map
          fun v => { val := v.t }) := by
  induction h with
  | done h =>
    intro fuel p n hf
    obtain ⟨k, rfl⟩ : ∃ k, fuel = k + 1 := ⟨fuel - 1, by omega⟩
    simp [leafsLoop, h]
  | @step w w' ws h _ ih =>
    intro fuel p n hf
    obtain ⟨k, rfl⟩ : ∃ k, fuel = k + 1 := ⟨fuel - 1, by omega⟩
    simp only [List.length_cons] at hf
    rw [leafsLoop, h]
    simp only
    split
    · next hl =>
      rw [ih k p n (by omega)]
      have hl : (nodeAt nodes w'.cp).isLeaf = false := by simpa using hl
      simp [hl]
    · next hl =>
      have hl : (nodeAt nodes w'.cp).isLeaf = true := by simpa using hl
      split
      · next hv => rw [ih k _ _ (by omega)]; simp [hl, hv]
      · next hv =>
        have hv : (nodeAt nodes w'.cp).value = false := by simpa using hv
        rw [ih k _ _ (by omega)]; simp [hl, hv]

/-- The loop of `ForAllGuarded` as a fold over the values of the iterator. -/
def forallFold (q : M CNF) : List (List FeatV) → Int → CNF → M CNF
  | [], _, ncnf => pure ncnf
  | t :: ts, i, ncnf => do
    M.setScope i t
    let icnf ← q
    forallFold q ts (i + 1) (ncnf.conjunction icnf)

theorem forallLoop_eq {q : M CNF} {nodes : List Node} {w : WalkSt} {ws : List WalkSt}
    (h : Iterates nodes w ws) : ∀ (fuel : Nat) (i : Int) (ncnf : CNF), ws.length < fuel →
    forallLoop q nodes fuel w i ncnf = forallFold q (ws.map (·.t)) i ncnf := by
  induction h with
  | done h =>
    intro fuel i ncnf hf
    obtain ⟨k, rfl⟩ : ∃ k, fuel = k + 1 := ⟨fuel - 1, by omega⟩
    simp [forallLoop, h, forallFold]
  | step h _ ih =>
    intro fuel i ncnf hf
    obtain ⟨k, rfl⟩ : ∃ k, fuel = k + 1 := ⟨fuel - 1, by omega⟩
    simp only [List.length_cons] at hf
    rw [forallLoop, h]
    simp only [List.map_cons, forallFold]
    congr 1; funext _; congr 1; funext _
    exact ih k _ _ (by omega)

/-- The complete iteration over a model. -/
theorem iterates_init {dim : Nat} {nodes : List Node} (hne : nodes ≠ []) (hva : Valid dim nodes) :
    ∃ ws, Iterates nodes (WalkSt.init dim nodes.length) ws ∧ ws.length ≤ nodes.length ∧
      (ws.map (·.cp)).Nodup ∧ (∀ i, i ∈ ws.map (·.cp) ↔ Reach nodes i) ∧
      (∀ w' ∈ ws, w'.t.length = dim) := by
  obtain ⟨ws, h1, h2, h3, h4, h5, h6⟩ := iterates_spec hva nodes.length _ _ (WInv.init hne)
    (by unfold unvisited; simp [WalkSt.init])
  refine ⟨ws, h1, h2, h3, fun i => ⟨fun h => (h4 i h).2.1, fun h => ?_⟩, h6⟩
  rcases h5 i h with h | h
  · exfalso
    simp only [Vis, WalkSt.init, List.getD_eq_getElem?_getD, List.getElem?_replicate] at h
    split at h <;> simp at h
  · exact h

theorem Iterates.unique {nodes : List Node} {w : WalkSt} {us vs : List WalkSt}
    (h : Iterates nodes w us) (h' : Iterates nodes w vs) : us = vs := by
  induction h generalizing vs with
  | done h =>
    cases h' with
    | done => rfl
    | step h1 _ => rw [h] at h1; simp at h1
  | step h _ ih =>
    cases h' with
    | done h1 => rw [h] at h1; simp at h1
    | step h1 h2 =>
      rw [h] at h1
      simp only [Except.ok.injEq, Option.some.injEq] at h1
      subst h1
      rw [ih h2]

end Goexpdt

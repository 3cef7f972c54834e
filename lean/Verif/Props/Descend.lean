import Verif.Props.OwnReported
import Verif.Lemmas.Descend
/-
Property C102: isnode.Const on any model.
-/
namespace Goexpdt.Props
open Goexpdt Spec Examples

variable {d : Nat} {nodes : List Node}

/-- C102: on every model that passes validation, isnode.Const returns exactly if the way that the constant takes down from the root ends, and then
it says whether all features of the constant are decided on on this way. Otherwise it goes on forever: the loop does not end after any number of
turns. -/
theorem C102_isnode (d : Nat) (nodes : List Node) (w0 : WalkSt) (hok : newNodeAsValuesIter d nodes = .ok w0) (s : Ctx) (hd : s.dim = d)
    (hn : s.nodes = nodes) (c : QConst) (g : Option (QVar → QVar)) (hc : GoodVals d (resolve s.scopes c)) :
    (WayEnds nodes (den (resolve s.scopes c)) → ∃ k, (Atom.isnode (.const c) g).encode s = (.ok k, s) ∧
      Spec.Tells k (AllDecided d nodes (den (resolve s.scopes c)))) ∧
    (¬ WayEnds nodes (den (resolve s.scopes c)) → ((Atom.isnode (.const c) g).encode s).1 = .error .diverge ∧
      ∀ k, isnodeLoop d { id := c.id, val := resolve s.scopes c } nodes k (nodeAt nodes 0)
        (newVisitRecord { id := c.id, val := resolve s.scopes c }) = .error .diverge) := by
  subst hd hn
  obtain ⟨hne, hva, -⟩ := newIter_ok hok
  obtain ⟨h1, h2⟩ := isnodeConst_any (sc := { id := c.id, val := resolve s.scopes c }) hva hne hc
  refine ⟨fun h => isnodeConst_eq hc hne (h1 h), fun h => ⟨?_, h2 h⟩⟩
  have e : isnodeConst c s = _ := const_start hc.1 hne fun d sc nodes =>
    M.lift (isnodeLoop d sc nodes (nodes.length + 1) (nodeAt nodes 0) (newVisitRecord sc)) >>= fun vr =>
      if allFeatsVisited vr then retTrue else retFalse
  show (isnodeConst c s).1 = _
  rw [e, h2 h]
  rfl

/-- C102: the constant takes one way only: where it ends is determined. -/
theorem C102_way {e : PInst} {i j k : Nat} (h1 : Leads nodes e i j) (h2 : Stops nodes e j) (h3 : Leads nodes e i k) (h4 : Stops nodes e k) : j = k := by
  induction h1 with
  | here i =>
    cases h3 with
    | here => rfl
    | on h h' _ => exact absurd h' (h2 _ _ _ h)
  | on h h' _ ih =>
    cases h3 with
    | here => exact absurd h' (h4 _ _ _ h)
    | on k1 k2 k3 =>
      obtain ⟨-, -, rfl⟩ := edge_unique h k1 h' k2
      exact ih h2 k3

/-- C102: where the way ends, isnode.Const is a predicate as in C84, and so can be used below quantifiers on any model. -/
theorem C102_meets {w0 : WalkSt} (hok : newNodeAsValuesIter d nodes = .ok w0) (c : QConst) (g : Option (QVar → QVar)) :
    (descendPred d nodes c g).Meets d nodes := by
  obtain ⟨hne, hva, -⟩ := newIter_ok hok
  refine ⟨fun ρ ρ' h => ?_, ?_⟩
  · have h1 := h (.const c) (by simp [descendPred])
    exact ⟨decided_same hva h1, decided_same hva fun i hi => (h1 i hi).symm⟩
  · rintro W Γ stack rfl rfl - hc ha -
    have h1 := hc c (by simp [descendPred])
    refine .scopeConst c (.validate (by simp [h1.1]) (.dim (.nodes ?_)))
    rw [if_neg (by simpa using hne)]
    obtain ⟨vr, e1, e2⟩ := (isnodeConst_any (sc := { id := c.id, val := resolve stack c }) hva hne h1).1 ha
    refine .lift e1 ?_
    exact (Captures.pureBool _).congr fun σ => e2

/-! ### concrete cases -/

theorem exCyclic_edge {i f j : Nat} {b : Bool} : Edge exCyclic i f b j ↔ i = 0 ∧ f = 0 ∧ j = b.toNat := by
  constructor
  · rintro ⟨n, h1, h2, h3, h4⟩
    rcases i with - | - | i
    · obtain rfl : (⟨false, 0, 0, 1⟩ : Node) = n := by simpa [exCyclic] using h1
      simp only at h3 h4
      refine ⟨rfl, by omega, ?_⟩
      cases b <;> simp at h4 ⊢ <;> omega
    · obtain rfl : (⟨true, -1, -1, -1⟩ : Node) = n := by simpa [exCyclic] using h1
      simp [Node.isLeaf] at h2
    · simp [exCyclic] at h1
  · rintro ⟨rfl, rfl, rfl⟩
    exact ⟨_, rfl, rfl, rfl, by cases b <;> rfl⟩

/-- Concrete case of C102: on the model in which node 0 is a child of itself, isnode.Const is right about (1, _) and (1, 1), and does not end for
(0, _). -/
example : (∃ k, (Atom.isnode (.const { val := [ONE, BOT] }) none).encode (BasicQContext 2 exCyclic) = (.ok k, BasicQContext 2 exCyclic) ∧
      ∀ β, Models β k) ∧
    (∃ k, (Atom.isnode (.const { val := [ONE, ONE] }) none).encode (BasicQContext 2 exCyclic) = (.ok k, BasicQContext 2 exCyclic) ∧
      ¬ Satisfiable k) ∧
    ((Atom.isnode (.const { val := [ZERO, BOT] }) none).encode (BasicQContext 2 exCyclic)).1 = .error .diverge := by
  have h := fun c hc => C102_isnode 2 exCyclic (WalkSt.init 2 2) rfl (BasicQContext 2 exCyclic) rfl rfl c none hc
  have hw : ∀ v, WayEnds exCyclic (den [ONE, v]) := fun v =>
    ⟨1, .on (exCyclic_edge.2 ⟨rfl, rfl, rfl⟩) (b := true) rfl (.here 1), fun f b j he => by have := (exCyclic_edge.1 he).1; omega⟩
  refine ⟨?_, ?_, ?_⟩
  · obtain ⟨k, h1, h2⟩ := (h { val := [ONE, BOT] } ⟨rfl, by simp [ValidVals, resolve, BasicQContext]⟩).1 (hw BOT)
    refine ⟨k, h1, h2.1 fun f hf => ?_⟩
    rcases f with - | - | f
    · exact .inr ⟨0, true, 1, .here 0, exCyclic_edge.2 ⟨rfl, rfl, rfl⟩⟩
    · exact .inl rfl
    · omega
  · obtain ⟨k, h1, h2⟩ := (h { val := [ONE, ONE] } ⟨rfl, by simp [ValidVals, resolve, BasicQContext]⟩).1 (hw ONE)
    refine ⟨k, h1, h2.2 fun h' => ?_⟩
    rcases h' 1 (by decide) with h' | ⟨i, b, j, -, h'⟩
    · cases h'
    · have := (exCyclic_edge.1 h').2.1
      omega
  · refine ((h { val := [ZERO, BOT] } ⟨rfl, by simp [ValidVals, resolve, BasicQContext]⟩).2 ?_).1
    rintro ⟨i, h1, h2⟩
    have hi : ∀ a i, Leads exCyclic (den [ZERO, BOT]) a i → a = 0 → i = 0 := by
      intro a i hl
      induction hl with
      | here i => exact id
      | on h h' _ ih =>
        rintro rfl
        obtain ⟨-, rfl, rfl⟩ := exCyclic_edge.1 h
        refine ih ?_
        cases h'
        rfl
    obtain rfl := hi 0 i h1 rfl
    exact h2 0 false 0 (exCyclic_edge.2 ⟨rfl, rfl, rfl⟩) rfl

/-- Concrete case of C102_way. -/
example {i : Nat} (h1 : Leads exCyclic (den [ONE, BOT]) 0 i) (h2 : Stops exCyclic (den [ONE, BOT]) i) : i = 1 :=
  C102_way h1 h2 (.on (exCyclic_edge.2 ⟨rfl, rfl, rfl⟩) (b := true) rfl (.here 1))
    fun f b j he => by have := (exCyclic_edge.1 he).1; omega

/-- "All nodes are nodes", on the model with a cycle. -/
def descendQuery : OQuery := .forallG { id := ['c'] } (.pred (descendPred 2 exCyclic { id := ['c'] } none))

/-- Concrete case of C102_meets: the ways of both nodes that are reported end, and the query has a satisfiable encoding. -/
example : ∃ c s', descendQuery.encode (BasicQContext 2 exCyclic) = (.ok c, s') ∧ Satisfiable c := by
  have hm : ∀ g ∈ scopesIn 2 [(0, bot), (1, bot.set 0 true)] ['c'], g = ⟨['c'], [BOT, BOT], 0⟩ ∨ g = ⟨['c'], [ONE, BOT], 1⟩ := by
    intro g hg
    have hg : g ∈ [(⟨['c'], [BOT, BOT], 0⟩ : Scope), ⟨['c'], [ONE, BOT], 1⟩] := hg
    simpa using hg
  have hg : descendQuery.GoodOver 2 exCyclic [(0, bot), (1, bot.set 0 true)] (fun _ => 0) := by
    refine ⟨by decide, exCyclic_reported, fun g hg => ⟨C102_meets (w0 := WalkSt.init 2 2) rfl _ _, by simp [descendPred], fun c hc => ?_, ?_⟩, ?_⟩
    · simp only [descendPred, List.mem_singleton, Term.const.injEq] at hc
      subst hc
      rcases hm g hg with rfl | rfl
      · exact ⟨rfl, by simp [ValidVals, resolve]⟩
      · exact ⟨rfl, by simp [ValidVals, resolve]⟩
    · rcases hm g hg with rfl | rfl
      · refine ⟨0, .here 0, fun f b j he h => ?_⟩
        obtain ⟨-, rfl, -⟩ := exCyclic_edge.1 he
        cases h
      · exact ⟨1, .on (exCyclic_edge.2 ⟨rfl, rfl, rfl⟩) (b := true) rfl (.here 1), fun f b j he => by have := (exCyclic_edge.1 he).1; omega⟩
    · intro u hu
      simp [descendQuery, OQuery.auxOver, descendPred] at hu
  obtain ⟨c, s', e, -, -, -, hf⟩ := C101_own hg (Ready.fresh_ctx 2 exCyclic _)
  refine ⟨c, s', e, hf.sat.2 ⟨fun _ => bot, fun g hg f hf => ?_⟩⟩
  rcases hm g hg with rfl | rfl
  · rcases f with - | - | f
    · exact .inl rfl
    · exact .inl rfl
    · omega
  · rcases f with - | - | f
    · exact .inr ⟨0, true, 1, .here 0, exCyclic_edge.2 ⟨rfl, rfl, rfl⟩⟩
    · exact .inl rfl
    · omega

end Goexpdt.Props

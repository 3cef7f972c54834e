import Verif.Props.Preds
/-
The contracts of the predicates (Props/Preds.lean), each for a predicate inside a loop over the nodes: the variable `x` was declared
inside the loop, the variable `y` outside, and the constant `c` is the guard of the loop.
-/
namespace Goexpdt.Cases
open Goexpdt Spec Props

/-- In the fourth iteration of a loop with guard `c`. -/
def inLoop : List Scope := [⟨['c'], [ONE, BOT], 3⟩]

/-- `x` is declared inside, all else outside. -/
def xInside (v : QVar) : Nat := if v = ['x'] then 1 else 0

/-- The world in which the auxiliary variables of one predicate mean what they should. -/
noncomputable def worldFor (a : Atom) : World :=
  worldOf 2 exNodes exTree xInside (by omega) [['x'] ++ suffix inLoop, ['y']] [] (a.uses xInside inLoop)

theorem worldFor_plays (a : Atom) (h : ∀ u ∈ a.uses xInside inLoop, u.1 ∉ [['x'] ++ suffix inLoop, ['y']] ++ []) :
    ∀ u ∈ a.uses xInside inLoop, Plays (worldFor a) exTree u.1 u.2 := worldOf_plays h

/-- Free variables and constants of the predicates below. -/
theorem fits {a : Atom} (hv : a.vars ⊆ [['x'], ['y']]) (hc : Spec.Atom.consts a ⊆ [{ id := ['c'] }, { val := [ZERO, BOT] }])
    (hg : Spec.Atom.nilGen a = false) (hp : a.PrefOk 2) (hn : Spec.Atom.PrefsNonempty a) (hr : a.Regular 2 inLoop) :
    a.Fits 2 exNodes exTree [['x'], ['y']] inLoop :=
  ⟨fun _ h => hv h, fun c h => by
    have := hc h
    simp only [List.mem_cons, List.not_mem_nil, or_false] at this
    rcases this with rfl | rfl <;> exact ⟨by decide, by unfold ValidVals; decide⟩, hg, hp, hn, hr, fun _ => ⟨exNodes_isTree, exNodes_covers⟩⟩

/-- Declaring a variable, as `WithVar` does. -/
theorem declare {W : World} {Γ : List QVar} {s : Ctx} (h : Pre W Γ s) {x : QVar} (hd : W.depth x = s.scopes.length)
    (hin : W.isInst (W.nm s.scopes x)) (hmay : W.may (W.nm s.scopes x)) : ∃ s', Pre W (x :: Γ) s' ∧ s'.scopes = s.scopes := by
  obtain ⟨h1, h2, h3⟩ := addVar_pre h hd
  have e := h1.scopes
  obtain ⟨c, s', -, h4⟩ := encodeI_post h1.pre (x := x) (by rw [e]; exact hd) (by rw [e]; exact h2) h3 (by rw [e]; exact hin) (by rw [e]; exact hmay)
  exact ⟨s', h4.moves.pre, h4.moves.scopes.trans e⟩

/-- The contracts below speak of something: there is a context in which the loop is open and both variables are declared. -/
example (a : Atom) : ∃ s, Pre (worldFor a) [['x'], ['y']] s ∧ s.scopes = inLoop := by
  obtain ⟨s1, h1, e1⟩ := declare (pre_fresh (worldFor a)) (x := ['y']) rfl
    (show ['y'] ++ [] ∈ [['x'] ++ suffix inLoop, ['y']] ++ [] by decide) (show ['y'] ++ [] ∈ [['x'] ++ suffix inLoop, ['y']] by decide)
  have h2 := (h1.addScope ['c']).rescope (stack := []) (g := { target := ['c'] }) (g' := ⟨['c'], [ONE, BOT], 3⟩)
    (by show s1.scopes ++ [_] = _; rw [e1]; rfl) (by intro x hx; rw [List.mem_singleton] at hx; subst hx; exact Nat.le_refl _)
  exact declare h2 (x := ['x']) rfl (show ['x'] ++ suffix inLoop ∈ [['x'] ++ suffix inLoop, ['y']] ++ [] by decide)
    (show ['x'] ++ suffix inLoop ∈ [['x'] ++ suffix inLoop, ['y']] by decide)

/-- C25_captures. -/
example : Captures (worldFor (.subs (.const { id := ['c'] }) (.var ['x']))) [['x'], ['y']] inLoop (Atom.subs (.const { id := ['c'] }) (.var ['x'])).encode
    (fun σ => Subsumes 2 (den [ONE, BOT]) (σ (['x'] ++ suffix inLoop))) :=
  C25_captures (W := worldFor (.subs (.const { id := ['c'] }) (.var ['x']))) (fits (by decide) (by decide) rfl trivial trivial trivial)

/-- C26_captures. -/
example : let a := Atom.lel (.var ['x']) (.var ['y']) (some VarGenBotCount)
    Captures (worldFor a) [['x'], ['y']] inLoop a.encode (fun σ => LEL 2 (σ (['x'] ++ suffix inLoop)) (σ ['y'])) :=
  C26_captures (W := worldFor (.lel (.var ['x']) (.var ['y']) (some VarGenBotCount)))
    (fits (by decide) (by decide) rfl trivial trivial trivial) (worldFor_plays _ (by decide +kernel))

/-- C27_captures. -/
example : let a := Atom.isnode (.var ['x']) (some VarGenNodeReach)
    Captures (worldFor a) [['x'], ['y']] inLoop a.encode (fun σ => IsNode 2 exTree (σ (['x'] ++ suffix inLoop))) :=
  C27_captures (W := worldFor (.isnode (.var ['x']) (some VarGenNodeReach)))
    (fits (by decide) (by decide) rfl trivial trivial trivial) (worldFor_plays _ (by decide +kernel))

/-- C29_captures. -/
example : let a := Atom.full (.var ['x'])
    Captures (worldFor a) [['x'], ['y']] inLoop a.encode (fun σ => Full 2 (σ (['x'] ++ suffix inLoop))) :=
  C29_captures (W := worldFor (.full (.var ['x']))) (fits (by decide) (by decide) rfl trivial trivial trivial)

/-- C30_captures. -/
example : let a := Atom.cons (.var ['y']) (.const { id := ['c'] })
    Captures (worldFor a) [['x'], ['y']] inLoop a.encode (fun σ => Cons 2 (σ ['y']) (den [ONE, BOT])) :=
  C30_captures (W := worldFor (.cons (.var ['y']) (.const { id := ['c'] }))) (fits (by decide) (by decide) rfl trivial trivial trivial)

/-- C31_captures. -/
example : let a := Atom.allcomp (.var ['x']) false (some VarGenNodeReach)
    Captures (worldFor a) [['x'], ['y']] inLoop a.encode (fun σ => AllComp 2 exTree false (σ (['x'] ++ suffix inLoop))) :=
  C31_captures (W := worldFor (.allcomp (.var ['x']) false (some VarGenNodeReach)))
    (fits (by decide) (by decide) rfl trivial trivial trivial) (worldFor_plays _ (by decide +kernel))

/-- C32_captures. -/
example : let a := Atom.dfs (.var ['x'])
    Captures (worldFor a) [['x'], ['y']] inLoop a.encode (fun σ => DFS 2 exTree (σ (['x'] ++ suffix inLoop))) :=
  C32_captures (W := worldFor (.dfs (.var ['x']))) (fits (by decide) (by decide) rfl trivial trivial trivial)

/-- C33_captures_partial. -/
example : let a := Atom.hepr (.var ['x']) (.var ['y']) [1, 0] (some VarGenFeaturePreference)
    Captures (worldFor a) [['x'], ['y']] inLoop a.encode (fun σ => HEPR [1, 0] (σ (['x'] ++ suffix inLoop)) (σ ['y'])) :=
  C33_captures_partial (W := worldFor (.hepr (.var ['x']) (.var ['y']) [1, 0] (some VarGenFeaturePreference)))
    (fits (by decide) (by decide) rfl (by unfold Atom.PrefOk; decide) nofun trivial) (worldFor_plays _ (by decide +kernel))

/-- C34_captures_partial. -/
example : let a := Atom.leh (.var ['x']) (.const { id := ['c'] }) (.var ['y']) (some VarGenHammingDistance) (some VarGenEqualFeat)
    Captures (worldFor a) [['x'], ['y']] inLoop a.encode (fun σ => LEH 2 (σ (['x'] ++ suffix inLoop)) (den [ONE, BOT]) (σ ['y'])) :=
  C34_captures_partial
    (W := worldFor (.leh (.var ['x']) (.const { id := ['c'] }) (.var ['y']) (some VarGenHammingDistance) (some VarGenEqualFeat)))
    (fits (by decide) (by decide) rfl trivial trivial trivial) (worldFor_plays _ (by decide +kernel))

end Goexpdt.Cases

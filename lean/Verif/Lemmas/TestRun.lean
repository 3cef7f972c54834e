import Verif.Model.TestRun
import Verif.Spec.TestRun
import Verif.Lemmas.ClosedAtom
import Verif.Lemmas.Open
namespace Goexpdt
open Spec Helpers

variable {d : Nat} {nodes : List Node} {T : DTree} {stack : List Scope}

/-- All variables are declared where the scopes are those of `stack`. -/
abbrev atLen (stack : List Scope) : QVar → Nat := fun _ => stack.length

theorem same_of_subsumes {e f : PInst} (h1 : Subsumes d e f) (h2 : Subsumes d f e) : Same d e f := by
  intro i hi
  by_cases h : e i = none
  · by_cases h' : f i = none
    · rw [h, h']
    · exact (h2 i hi h').symm
  · exact h1 i hi h

theorem pinBody_sem (f : Query) (σ : Asg) : ∀ ps : List (QVar × QConst),
    (pinBody ps f).sem d T (atLen stack) σ stack ↔
      (∀ p ∈ ps, Same d (σ (p.1 ++ suffix stack)) (den (resolve stack p.2))) ∧ f.sem d T (atLen stack) σ stack
  | [] => by simp [pinBody]
  | (x, c) :: ps => by
    simp only [pinBody, Query.sem, Atom.says, Term.res, RTerm.den, List.take_length, pinBody_sem f σ ps, List.mem_cons, forall_eq_or_imp]
    constructor
    · rintro ⟨⟨h1, h2⟩, h3, h4⟩
      exact ⟨⟨same_of_subsumes h1 h2, h3⟩, h4⟩
    · rintro ⟨⟨h1, h2⟩, h3⟩
      exact ⟨⟨fun i hi _ => h1 i hi, fun i hi _ => (h1 i hi).symm⟩, h2, h3⟩

theorem pinBody_uses (f : Query) (depth : QVar → Nat) : ∀ ps : List (QVar × QConst),
    (pinBody ps f).uses d T depth stack = f.uses d T depth stack
  | [] => rfl
  | (x, c) :: ps => by simp [pinBody, Query.uses, Atom.uses, pinBody_uses f depth ps]

theorem pinBody_names (f : Query) : ∀ ps : List (QVar × QConst), (pinBody ps f).names d T stack = f.names d T stack
  | [] => rfl
  | (x, c) :: ps => by simp [pinBody, Query.names, pinBody_names f ps]

theorem pinBody_fits {f : Query} {Γ : List QVar} {depth : QVar → Nat} (hf : f.Fits d nodes T depth Γ stack) :
    ∀ ps : List (QVar × QConst), (∀ p ∈ ps, p.1 ∈ Γ ∧ (resolve stack p.2).length = d ∧ ValidVals (resolve stack p.2)) →
      (pinBody ps f).Fits d nodes T depth Γ stack
  | [], _ => hf
  | (x, c) :: ps, h => by
    obtain ⟨h1, h2, h3⟩ := h _ (List.mem_cons_self ..)
    refine ⟨⟨?_, ?_⟩, pinBody_fits hf ps fun p hp => h p (List.mem_cons_of_mem _ hp)⟩ <;>
      refine ⟨by simpa [Atom.vars, Term.vars] using h1, ?_, rfl, trivial, trivial, trivial, by simp [Atom.onModel]⟩ <;>
      simpa [Spec.Atom.consts, Spec.Term.consts] using ⟨h2, h3⟩

theorem pinVal_of_mem {ps : List (QVar × QConst)} (hn : (ps.map (·.1)).Nodup) {p : QVar × QConst} (hp : p ∈ ps) :
    pinVal stack ps p.1 = den (resolve stack p.2) := by
  have : ps.find? (·.1 = p.1) = some p := by
    induction ps with
    | nil => cases hp
    | cons r ps ih =>
      simp only [List.map_cons, List.nodup_cons] at hn
      rcases List.mem_cons.1 hp with rfl | hp
      · simp
      · have : r.1 ≠ p.1 := fun e => hn.1 (e ▸ List.mem_map.2 ⟨p, hp, rfl⟩)
        rw [List.find?_cons_of_neg (by simpa using this)]
        exact ih hn.2 hp
  unfold pinVal
  rw [this]

/-- The names of the pinned variables. -/
abbrev pinNames (stack : List Scope) (ps : List (QVar × QConst)) : List QVar := ps.map (·.1 ++ suffix stack)

theorem decl_names (f : Query) (hn : f.names d T stack = []) : ∀ xs : List QVar,
    (xs.foldr .withVar f).names d T stack = xs.map (· ++ suffix stack)
  | [] => by simpa using hn
  | x :: xs => by simp [Query.names, decl_names f hn xs]

theorem decl_uses (f : Query) (depth : QVar → Nat) : ∀ xs : List QVar,
    (xs.foldr .withVar f).uses d T depth stack = f.uses d T depth stack
  | [] => rfl
  | x :: xs => by simp [Query.uses, decl_uses f depth xs]

theorem decl_sem (f : Query) (depth : QVar → Nat) (σ : Asg) : ∀ xs : List QVar,
    (xs.foldr .withVar f).sem d T depth σ stack ↔ f.sem d T depth σ stack
  | [] => Iff.rfl
  | x :: xs => by simp [Query.sem, decl_sem f depth σ xs]

theorem decl_fits (f : Query) : ∀ (xs Γ : List QVar), f.Fits d nodes T (atLen stack) (xs.reverse ++ Γ) stack →
    (xs.foldr .withVar f).Fits d nodes T (atLen stack) Γ stack
  | [], Γ, h => by simpa using h
  | x :: xs, Γ, h => ⟨rfl, decl_fits f xs (x :: Γ) (by simpa using h)⟩

/-- The assignment that the pins ask for. -/
def pinAsg (stack : List Scope) (ps : List (QVar × QConst)) : Asg := fun n =>
  match ps.find? (fun p => p.1 ++ suffix stack = n) with
  | some p => den (resolve stack p.2)
  | none => bot

theorem pinAsg_name (ps : List (QVar × QConst)) (x : QVar) : pinAsg stack ps (x ++ suffix stack) = pinVal stack ps x := by
  unfold pinAsg pinVal
  simp only [List.append_cancel_right_eq]
  cases ps.find? (·.1 = x) <;> rfl

end Goexpdt

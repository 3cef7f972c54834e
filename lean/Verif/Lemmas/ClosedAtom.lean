import Verif.Lemmas.Closed
import Verif.Lemmas.Fo
import Verif.Spec.Closed
/- Predicates over variables declared at the top. -/
namespace Goexpdt
open Spec

variable {d : Nat} {nodes : List Node} {T : DTree} {xs : List QVar}

theorem declare_names (q : Query) (xs : List QVar) : (declare xs q).names d T [] = xs ++ q.names d T [] := by
  induction xs with
  | nil => rfl
  | cons x xs ih => simp [declare, Query.names, ih, suffix]

theorem declare_uses (q : Query) (depth : QVar → Nat) (xs : List QVar) :
    (declare xs q).uses d T depth [] = q.uses d T depth [] := by
  induction xs with
  | nil => rfl
  | cons x xs ih => simp [declare, Query.uses, ih]

theorem declare_sem (q : Query) (depth : QVar → Nat) (σ : Asg) (xs : List QVar) :
    (declare xs q).sem d T depth σ [] ↔ q.sem d T depth σ [] := by
  induction xs with
  | nil => rfl
  | cons x xs ih => exact ih

theorem declare_fits (q : Query) (xs : List QVar) : ∀ Γ, q.Fits d nodes T (fun _ => 0) (xs.reverse ++ Γ) [] →
    (declare xs q).Fits d nodes T (fun _ => 0) Γ [] := by
  induction xs with
  | nil => intro Γ h; exact h
  | cons x xs ih => intro Γ h; exact ⟨rfl, ih _ (by simpa using h)⟩

theorem res_nil (t : Term) (depth : QVar → Nat) (σ : Asg) : (t.res depth []).den σ = t.under σ := by
  cases t with
  | const c => rfl
  | var x => simp [Term.res, RTerm.den, Term.under, suffix]

theorem key_nil (t : Term) (depth : QVar → Nat) : t.key depth [] = t.keyUnder := by
  cases t with
  | const c => rfl
  | var x => simp [Term.key, Term.keyUnder, suffix]

theorem nm_nil (x : QVar) (n : Nat) : x ++ suffix (([] : List Scope).take n) = x := by simp [suffix]

theorem Exactly.congr {q : Query} {P Q : Asg → Prop} (h : Exactly d nodes xs q P) (e : ∀ σ, P σ ↔ Q σ) :
    Exactly d nodes xs q Q := by
  have : P = Q := funext fun σ => propext (e σ)
  rwa [this] at h

theorem Fits.perm {a : Atom} {Γ Γ' : List QVar} {stack : List Scope} (h : a.Fits d nodes T Γ stack)
    (hs : ∀ x ∈ Γ, x ∈ Γ') : a.Fits d nodes T Γ' stack :=
  { h with vars := fun x hx => hs x (h.vars x hx) }

theorem closed_query {q : Query} (hg : q.Good d nodes T depth) :
    Exactly d nodes (q.names d T []) q (fun σ => q.sem d T depth σ []) := by
  intro s hs
  obtain ⟨c, s', e, hw, -, -, -, -, hf⟩ := good_query hg hs
  exact ⟨c, s', e, hw, hf⟩

theorem closed_body {q : Query} (hd : 0 < d) (hf : q.Fits d nodes T (fun _ => 0) xs.reverse []) (hn : q.names d T [] = [])
    (hc : Hygienic d T xs (q.uses d T (fun _ => 0) [])) :
    Exactly d nodes xs (declare xs q) (fun σ => q.sem d T (fun _ => 0) σ []) := by
  have hn : (declare xs q).names d T [] = xs := by rw [declare_names, hn, List.append_nil]
  have hg : (declare xs q).Good d nodes T (fun _ => 0) := by
    refine ⟨hd, declare_fits _ xs [] (by simpa using hf), ?_⟩
    rw [hn, declare_uses]
    exact hc
  have := closed_query hg
  rw [hn] at this
  exact this.congr fun σ => declare_sem q _ σ xs

theorem closed_pair {a1 a2 : Atom} (hd : 0 < d) (h1 : a1.Fits d nodes T xs []) (h2 : a2.Fits d nodes T xs [])
    (hc : Hygienic d T xs (a1.uses (fun _ => 0) [] ++ a2.uses (fun _ => 0) [])) :
    Exactly d nodes xs (declare xs (.and (.atom a1) (.atom a2)))
      (fun σ => a1.says d T (Term.under σ) ∧ a2.says d T (Term.under σ)) ∧
    Exactly d nodes xs (declare xs (.and (.atom a1) (.not (.atom a2))))
      (fun σ => a1.says d T (Term.under σ) ∧ ¬ a2.says d T (Term.under σ)) := by
  have e : ∀ (σ : Asg) (a : Atom), (a.says d T fun t => (t.res (fun _ => 0) []).den σ) = a.says d T (Term.under σ) := by
    intro σ a
    rw [show (fun t : Term => (t.res (fun _ => 0) []).den σ) = Term.under σ from funext fun t => res_nil t _ σ]
  have h1' := Fits.perm h1 (Γ' := xs.reverse) fun x hx => by simpa using hx
  have h2' := Fits.perm h2 (Γ' := xs.reverse) fun x hx => by simpa using hx
  constructor
  · refine (closed_body (q := .and (.atom a1) (.atom a2)) (T := T) hd ⟨h1', h2'⟩ rfl hc).congr fun σ => ?_
    simp only [Query.sem, e]
  · refine (closed_body (q := .and (.atom a1) (.not (.atom a2))) (T := T) hd ⟨h1', h2'⟩ rfl hc).congr fun σ => ?_
    simp only [Query.sem, e]

theorem closed_atom {a : Atom} (hd : 0 < d) (hf : a.Fits d nodes T xs [])
    (hc : Hygienic d T xs (a.uses (fun _ => 0) [])) :
    Exactly d nodes xs (declare xs (.atom a)) (fun σ => a.says d T (Term.under σ)) := by
  have hn : (declare xs (.atom a)).names d T [] = xs := by rw [declare_names]; simp [Query.names]
  have hg : (declare xs (.atom a)).Good d nodes T (fun _ => 0) := by
    refine ⟨hd, declare_fits _ xs [] (Fits.perm hf fun x hx => by simpa using hx), ?_⟩
    rw [hn, declare_uses]
    exact hc
  have := closed_query hg
  rw [hn] at this
  refine this.congr fun σ => ?_
  rw [declare_sem]
  show (a.says d T fun t => (t.res (fun _ => 0) []).den σ) ↔ _
  rw [show (fun t : Term => (t.res (fun _ => 0) []).den σ) = Term.under σ from funext fun t => res_nil t _ σ]

theorem term_vars_ok {t : Term} (h : t.Ok d xs) : ∀ x ∈ t.vars, x ∈ xs := by
  cases t with
  | const c => simp [Term.vars]
  | var y => simpa [Term.vars, Term.Ok] using h

theorem term_consts_ok {t : Term} (h : t.Ok d xs) : ∀ c ∈ Spec.Term.consts t,
    (resolve [] c).length = d ∧ ValidVals (resolve [] c) := by
  cases t with
  | const c => simpa [Spec.Term.consts, resolve, Term.Ok] using h
  | var y => simp [Spec.Term.consts]

end Goexpdt

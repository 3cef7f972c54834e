import Verif.Spec.Laws
import Verif.Lemmas.Optim
/- Laws of logic. -/
namespace Goexpdt
namespace Laws
open Spec

variable {d : Nat} {nodes : List Node} {T : DTree} {depth : QVar → Nat}

/-- What a query says is the same on both sides of a law. -/
theorem sem_iff {q q' : Query} (h : Law q q') : ∀ (σ : Asg) (stack : List Scope), q.sem d T depth σ stack ↔ q'.sem d T depth σ stack := by
  induction h with
  | refl q => intro σ stack; exact Iff.rfl
  | symm _ ih => intro σ stack; exact (ih σ stack).symm
  | trans _ _ i1 i2 => intro σ stack; exact (i1 σ stack).trans (i2 σ stack)
  | and _ _ i1 i2 => intro σ stack; exact and_congr (i1 σ stack) (i2 σ stack)
  | or _ _ i1 i2 => intro σ stack; exact or_congr (i1 σ stack) (i2 σ stack)
  | not _ ih => intro σ stack; exact not_congr (ih σ stack)
  | withVar x _ ih => intro σ stack; exact ih σ stack
  | forallG c _ ih => intro σ stack; exact forall_congr' fun g => forall_congr' fun _ => ih σ _
  | guardAnd c p q =>
    intro σ stack
    exact ⟨fun h => ⟨fun g hg => (h g hg).1, fun g hg => (h g hg).2⟩, fun h g hg => ⟨h.1 g hg, h.2 g hg⟩⟩
  | _ => intro σ stack; simp only [Query.sem] <;> grind

theorem names_iff {q q' : Query} (h : Law q q') : ∀ (stack : List Scope) (n : QVar), n ∈ q.names d T stack ↔ n ∈ q'.names d T stack := by
  induction h with
  | refl q => intro stack n; exact Iff.rfl
  | symm _ ih => intro stack n; exact (ih stack n).symm
  | trans _ _ i1 i2 => intro stack n; exact (i1 stack n).trans (i2 stack n)
  | forallG c _ ih => intro stack n; simp only [Query.names, List.mem_flatMap, ih]
  | guardAnd c p q => intro stack n; simp only [Query.names, List.mem_flatMap, List.mem_append]; grind
  | not _ ih => intro stack n; exact ih stack n
  | _ => intro stack n; simp only [Query.names, List.mem_append, List.mem_cons] <;> grind

theorem uses_iff {q q' : Query} (h : Law q q') : ∀ (stack : List Scope) (u : QVar × Role),
    u ∈ q.uses d T depth stack ↔ u ∈ q'.uses d T depth stack := by
  induction h with
  | refl q => intro stack n; exact Iff.rfl
  | symm _ ih => intro stack n; exact (ih stack n).symm
  | trans _ _ i1 i2 => intro stack n; exact (i1 stack n).trans (i2 stack n)
  | forallG c _ ih => intro stack n; simp only [Query.uses, List.mem_flatMap, ih]
  | guardAnd c p q => intro stack n; simp only [Query.uses, List.mem_flatMap, List.mem_append]; grind
  | not _ ih => intro stack n; exact ih stack n
  | withVar x _ ih => intro stack n; exact ih stack n
  | _ => intro stack n; simp only [Query.uses, List.mem_append] <;> grind

/-- Only the declarations of variables that the query is about matter. -/
theorem fits_congr (q : Query) : ∀ (Γ Γ' : List QVar) (stack : List Scope), (∀ a ∈ q.atoms, ∀ x ∈ a.vars, x ∈ Γ → x ∈ Γ') →
    q.Fits d nodes T depth Γ stack → q.Fits d nodes T depth Γ' stack := by
  induction q with
  | nil => intro _ _ _ _ h; exact h
  | atom a =>
    intro Γ Γ' stack hm h
    exact { h with vars := fun x hx => hm a (by simp [Query.atoms]) x hx (h.vars x hx) }
  | and p q i1 i2 =>
    intro Γ Γ' stack hm h
    exact ⟨i1 _ _ _ (fun a ha => hm a (by simp [Query.atoms, ha])) h.1, i2 _ _ _ (fun a ha => hm a (by simp [Query.atoms, ha])) h.2⟩
  | or p q i1 i2 =>
    intro Γ Γ' stack hm h
    exact ⟨i1 _ _ _ (fun a ha => hm a (by simp [Query.atoms, ha])) h.1, i2 _ _ _ (fun a ha => hm a (by simp [Query.atoms, ha])) h.2⟩
  | not p ih => intro Γ Γ' stack hm h; exact ih _ _ _ hm h
  | withVar x p ih =>
    intro Γ Γ' stack hm h
    refine ⟨h.1, ih _ _ _ (fun a ha y hy hm' => ?_) h.2⟩
    rcases List.mem_cons.1 hm' with rfl | hm'
    · simp
    · exact List.mem_cons_of_mem _ (hm a ha y hy hm')
  | forallG c p ih => intro Γ Γ' stack hm h; exact ⟨h.1, h.2.1, fun g hg => ih _ _ _ hm (h.2.2 g hg)⟩

theorem fits_without {x : QVar} {q : Query} (h : q.Without x) (Γ : List QVar) (stack : List Scope) :
    q.Fits d nodes T depth Γ stack ↔ q.Fits d nodes T depth (x :: Γ) stack := by
  refine ⟨fits_congr q _ _ _ fun a _ y _ hy => List.mem_cons_of_mem _ hy, fits_congr q _ _ _ fun a ha y hy hm => ?_⟩
  rcases List.mem_cons.1 hm with rfl | hm
  · exact absurd hy (h a ha)
  · exact hm

theorem fits_iff {q q' : Query} (h : Law q q') : ∀ (Γ : List QVar) (stack : List Scope),
    q.Fits d nodes T depth Γ stack ↔ q'.Fits d nodes T depth Γ stack := by
  induction h with
  | refl q => intro Γ stack; exact Iff.rfl
  | symm _ ih => intro Γ stack; exact (ih Γ stack).symm
  | trans _ _ i1 i2 => intro Γ stack; exact (i1 Γ stack).trans (i2 Γ stack)
  | and _ _ i1 i2 => intro Γ stack; exact and_congr (i1 Γ stack) (i2 Γ stack)
  | or _ _ i1 i2 => intro Γ stack; exact and_congr (i1 Γ stack) (i2 Γ stack)
  | not _ ih => intro Γ stack; exact ih Γ stack
  | withVar x _ ih => intro Γ stack; exact and_congr Iff.rfl (ih _ stack)
  | forallG c _ ih => intro Γ stack; simp only [Query.Fits, ih]
  | swapVar x y p =>
    intro Γ stack
    have : ∀ x y : QVar, p.Fits d nodes T depth (y :: x :: Γ) stack → p.Fits d nodes T depth (x :: y :: Γ) stack := fun x y =>
      fits_congr p _ _ _ (by simp only [List.mem_cons]; grind)
    exact ⟨fun ⟨h1, h2, h3⟩ => ⟨h2, h1, this _ _ h3⟩, fun ⟨h1, h2, h3⟩ => ⟨h2, h1, this _ _ h3⟩⟩
  | andVar x p h => intro Γ stack; simp only [Query.Fits, ← fits_without h Γ stack]; grind
  | orVar x p h => intro Γ stack; simp only [Query.Fits, ← fits_without h Γ stack]; grind
  | guardAnd c p q => intro Γ stack; simp only [Query.Fits]; grind
  | _ => intro Γ stack; simp only [Query.Fits] <;> grind

theorem hygienic_congr {names names' : List QVar} {uses uses' : List (QVar × Role)} (h1 : ∀ n, n ∈ names ↔ n ∈ names')
    (h2 : ∀ u, u ∈ uses ↔ u ∈ uses') (h : Hygienic d T names uses) : Hygienic d T names' uses' :=
  fun u hu => ⟨fun hn => (h u ((h2 u).2 hu)).1 ((h1 _).2 hn), fun u' hu' => (h u ((h2 u).2 hu)).2 u' ((h2 u').2 hu')⟩

theorem good {q q' : Query} (h : Law q q') (hg : q.Good d nodes T depth) : q'.Good d nodes T depth :=
  ⟨hg.dim, (fits_iff h _ _).1 hg.fits, hygienic_congr (names_iff h _) (uses_iff h _) hg.clean⟩

theorem ready {names names' : List QVar} {s : Ctx} (h1 : ∀ n, n ∈ names ↔ n ∈ names') (h : Ready d nodes names s) : Ready d nodes names' s :=
  ⟨h.vm, h.dim, h.nodes, h.scopes, h.vars, fun n hn => h.fresh n ((h1 n).2 hn)⟩

end Laws
end Goexpdt

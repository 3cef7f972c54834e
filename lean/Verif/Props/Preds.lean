import Verif.Lemmas.ClosedAtom
import Verif.Lemmas.ClosedLeh
import Verif.Props.Encode
import Verif.Props.Query
import Verif.Model.Gen
/-
Properties of the predicates: C25–C27, C29–C34.

For each predicate there are two theorems. The first one (`…_captures`) is the contract of components
(Spec/Contract.lean): it holds in all positions of all queries, in particular where constants are bound
by guarded quantifiers and variables are declared inside of them. The second one is about the
predicate with its variables declared at the top: in every context over the model where the variables
have not been declared, the encoding is faithful (Spec/Meaning.lean): its models are exactly the
assignments of partial instances for which the predicate holds.
-/
namespace Goexpdt.Props
open Goexpdt Spec

variable {W : World} {T : DTree} {Γ : List QVar} {stack : List Scope}
variable {d : Nat} {nodes : List Node} {xs : List QVar}

/-- The instance a term stands for, in the scopes `stack` of the world. -/
abbrev inst (W : World) (stack : List Scope) (σ : Asg) (t : Term) : PInst := (t.res W.depth stack).den σ

/-! ### C25 -/

/-- C25, contract. -/
theorem C25_captures {t1 t2 : Term} (h : (Atom.subs t1 t2).Fits W.dim W.nodes T Γ stack) :
    Captures W Γ stack (Atom.subs t1 t2).encode
      (fun σ => Subsumes W.dim (inst W stack σ t1) (inst W stack σ t2)) := subs_captures h

/-- C25: subsumption of variables and constants, all four types. -/
theorem C25_subsumption (hd : 0 < d) {t1 t2 : Term} (h1 : t1.Ok d xs) (h2 : t2.Ok d xs) :
    Exactly d nodes xs (declare xs (.atom (.subs t1 t2)))
      (fun σ => Subsumes d (t1.under σ) (t2.under σ)) := by
  refine closed_atom (T := .leaf 0 false) hd ⟨?_, ?_, rfl, trivial, trivial, trivial, by simp [Atom.onModel]⟩ ?_
  · simp only [Atom.vars, List.mem_append]
    exact fun x h => h.elim (term_vars_ok h1 x) (term_vars_ok h2 x)
  · simp only [Spec.Atom.consts, List.mem_append]
    exact fun c h => h.elim (term_consts_ok h1 c) (term_consts_ok h2 c)
  · intro u hu; simp [Atom.uses] at hu

example : Exactly 2 exNodes [['x'], ['y']] (.withVar ['x'] (.withVar ['y'] (.atom (.subs (.var ['x']) (.var ['y'])))))
    (fun σ => Subsumes 2 (σ ['x']) (σ ['y'])) ∧
    Subsumes 2 (den [BOT, ONE]) (den [ZERO, ONE]) ∧ ¬ Subsumes 2 (den [ZERO, ONE]) (den [BOT, ONE]) := by
  refine ⟨C25_subsumption (xs := [['x'], ['y']]) (by omega) (by simp [Term.Ok]) (by simp [Term.Ok]), ?_, ?_⟩
  · intro i hi; have : i = 0 ∨ i = 1 := by omega
    rcases this with rfl | rfl <;> decide
  · intro h; exact absurd (h 0 (by omega)) (by decide)

/-! ### C26 -/

/-- C26, contract. -/
theorem C26_captures {t1 t2 : Term} {g : Option (QVar → QVar)} (h : (Atom.lel t1 t2 g).Fits W.dim W.nodes T Γ stack)
    (hu : ∀ u ∈ (Atom.lel t1 t2 g).uses W.depth stack, Plays W T u.1 u.2) :
    Captures W Γ stack (Atom.lel t1 t2 g).encode
      (fun σ => LEL W.dim (inst W stack σ t1) (inst W stack σ t2)) := lel_captures h hu

/-- C26: comparison of levels, all four types. -/
theorem C26_lel (hd : 0 < d) {t1 t2 : Term} {g : QVar → QVar} (h1 : t1.Ok d xs) (h2 : t2.Ok d xs)
    (hg : FreshGen xs g) :
    Exactly d nodes xs (declare xs (.atom (.lel t1 t2 (some g))))
      (fun σ => numBot d (t2.under σ) ≤ numBot d (t1.under σ)) := by
  refine closed_atom (T := .leaf 0 false) hd ⟨?_, ?_, by simp [Spec.Atom.nilGen], trivial, trivial, trivial,
    by simp [Atom.onModel]⟩ ?_
  · simp only [Atom.vars, List.mem_append]
    exact fun x h => h.elim (term_vars_ok h1 x) (term_vars_ok h2 x)
  · simp only [Spec.Atom.consts, List.mem_append]
    exact fun c h => h.elim (term_consts_ok h1 c) (term_consts_ok h2 c)
  · have key : ∀ u ∈ (Atom.lel t1 t2 (some g)).uses (fun _ => 0) [], ∃ x ∈ xs, u = (g x, .bots x) := by
      intro u hu
      simp only [Atom.uses, List.mem_flatMap, List.mem_cons, List.not_mem_nil, or_false] at hu
      obtain ⟨t, ht, hu⟩ := hu
      have hok : t.Ok d xs := by rcases ht with rfl | rfl <;> assumption
      cases t with
      | const c => simp [Term.res] at hu
      | var x =>
        simp only [Term.res, nm_nil, List.mem_singleton] at hu
        exact ⟨x, hok, hu⟩
    refine Hygienic.of_eq fun u hu => ?_
    obtain ⟨x, hx, rfl⟩ := key u hu
    refine ⟨(hg x hx).1, fun u' hu' he => ?_⟩
    obtain ⟨y, hy, rfl⟩ := key u' hu'
    rw [(hg x hx).2 y hy he]

example : Exactly 2 exNodes [['x']] (.withVar ['x'] (.atom (.lel (.var ['x']) (.const { val := [BOT, ONE] })
      (some fun v => 'b' :: v)))) (fun σ => 1 ≤ numBot 2 (σ ['x'])) :=
  (C26_lel (xs := [['x']]) (by omega) (by simp [Term.Ok]) (by simp [Term.Ok, ValidVals])
    (by simp [FreshGen])).congr fun σ => by
      rw [show Term.under σ (.const { val := [BOT, ONE] }) = den [BOT, ONE] from rfl,
        show numBot 2 (den [BOT, ONE]) = 1 by decide]
      rfl

/-! ### C27 -/

/-- C27, contract. -/
theorem C27_captures {t : Term} {g : Option (QVar → QVar)} (h : (Atom.isnode t g).Fits W.dim W.nodes T Γ stack)
    (hu : ∀ u ∈ (Atom.isnode t g).uses W.depth stack, Plays W T u.1 u.2) :
    Captures W Γ stack (Atom.isnode t g).encode (fun σ => IsNode W.dim T (inst W stack σ t)) := isnode_captures h hu

/-- C27: nodes of the tree, both types. -/
theorem C27_isnode (hd : 0 < d) (hT : IsTree d nodes T) (hC : Covers nodes T) {t : Term} {g : QVar → QVar}
    (h : t.Ok d xs) (hg : ∀ x ∈ xs, g x ∉ xs) :
    Exactly d nodes xs (declare xs (.atom (.isnode t (some g)))) (fun σ => IsNode d T (t.under σ)) := by
  refine closed_atom hd ⟨?_, ?_, by simp [Spec.Atom.nilGen], trivial, trivial, trivial, fun _ => ⟨hT, hC⟩⟩ ?_
  · simp only [Atom.vars]; exact term_vars_ok h
  · simp only [Spec.Atom.consts]; exact term_consts_ok h
  · cases t with
    | const c => intro u hu; simp [Atom.uses] at hu
    | var x =>
      refine Hygienic.of_eq ?_
      simp only [Atom.uses, nm_nil, List.mem_singleton, forall_eq]
      exact ⟨hg x h, fun _ => trivial⟩

theorem exNodes_covers : Covers exNodes exTree := by unfold Covers; decide

example : Exactly 2 exNodes [['x']] (.withVar ['x'] (.atom (.isnode (.var ['x']) (some fun v => 'r' :: v))))
      (fun σ => IsNode 2 exTree (σ ['x'])) ∧
    IsNode 2 exTree (den [BOT, ONE]) ∧ ¬ IsNode 2 exTree (den [ONE, ONE]) := by
  refine ⟨C27_isnode (xs := [['x']]) (by omega) exNodes_isTree exNodes_covers (by simp [Term.Ok]) (by simp), ?_, ?_⟩
  · refine ⟨(1, bot.set 1 true), by simp [exTree, DTree.nodeInsts], fun i hi => ?_⟩
    have : i = 0 ∨ i = 1 := by omega
    rcases this with rfl | rfl <;> decide
  · rintro ⟨p, hp, hs⟩
    have h0 := hs 0 (by omega)
    have h1 := hs 1 (by omega)
    simp only [exTree, DTree.nodeInsts, List.mem_cons, List.mem_append, List.not_mem_nil, or_false] at hp
    rcases hp with rfl | (rfl | rfl | rfl) | rfl <;> revert h0 h1 <;> decide

/-! ### C29 -/

/-- C29, contract. -/
theorem C29_captures {t : Term} (h : (Atom.full t).Fits W.dim W.nodes T Γ stack) :
    Captures W Γ stack (Atom.full t).encode (fun σ => Full W.dim (inst W stack σ t)) := full_captures h

/-- C29: full instances, both types. -/
theorem C29_full (hd : 0 < d) {t : Term} (h : t.Ok d xs) :
    Exactly d nodes xs (declare xs (.atom (.full t))) (fun σ => ∀ i < d, t.under σ i ≠ none) := by
  refine closed_atom (T := .leaf 0 false) hd ⟨?_, ?_, rfl, trivial, trivial, trivial, by simp [Atom.onModel]⟩ ?_
  · simp only [Atom.vars]; exact term_vars_ok h
  · simp only [Spec.Atom.consts]; exact term_consts_ok h
  · intro u hu; simp [Atom.uses] at hu

example : Exactly 3 [] [['x'], ['y']] (.withVar ['x'] (.withVar ['y'] (.atom (.full (.var ['y'])))))
    (fun σ => ∀ i < 3, σ ['y'] i ≠ none) :=
  C29_full (xs := [['x'], ['y']]) (by omega) (by simp [Term.Ok])

/-! ### C30 -/

/-- C30, contract. -/
theorem C30_captures {t1 t2 : Term} (h : (Atom.cons t1 t2).Fits W.dim W.nodes T Γ stack) :
    Captures W Γ stack (Atom.cons t1 t2).encode
      (fun σ => Cons W.dim (inst W stack σ t1) (inst W stack σ t2)) := cons_captures h

/-- C30: consistent instances, all four types. -/
theorem C30_cons (hd : 0 < d) {t1 t2 : Term} (h1 : t1.Ok d xs) (h2 : t2.Ok d xs) :
    Exactly d nodes xs (declare xs (.atom (.cons t1 t2)))
      (fun σ => ∀ i < d, t1.under σ i ≠ none → t2.under σ i ≠ none → t1.under σ i = t2.under σ i) := by
  refine closed_atom (T := .leaf 0 false) hd ⟨?_, ?_, rfl, trivial, trivial, trivial, by simp [Atom.onModel]⟩ ?_
  · simp only [Atom.vars, List.mem_append]
    exact fun x h => h.elim (term_vars_ok h1 x) (term_vars_ok h2 x)
  · simp only [Spec.Atom.consts, List.mem_append]
    exact fun c h => h.elim (term_consts_ok h1 c) (term_consts_ok h2 c)
  · intro u hu; simp [Atom.uses] at hu

example : Exactly 3 [] [['x']] (.withVar ['x'] (.atom (.cons (.const { val := [ONE, BOT, ZERO] }) (.var ['x']))))
    (fun σ => Cons 3 (den [ONE, BOT, ZERO]) (σ ['x'])) :=
  C30_cons (xs := [['x']]) (by omega) (by simp [Term.Ok, ValidVals]) (by simp [Term.Ok])

/-! ### C31 -/

/-- C31, contract. -/
theorem C31_captures {t : Term} {b : Bool} {g : Option (QVar → QVar)}
    (h : (Atom.allcomp t b g).Fits W.dim W.nodes T Γ stack)
    (hu : ∀ u ∈ (Atom.allcomp t b g).uses W.depth stack, Plays W T u.1 u.2) :
    Captures W Γ stack (Atom.allcomp t b g).encode (fun σ => AllComp W.dim T b (inst W stack σ t)) :=
  allcomp_captures h hu

/-- C31: all completions have class `b`, both types. -/
theorem C31_allcomp (hd : 0 < d) (hT : IsTree d nodes T) (hC : Covers nodes T) {t : Term} {b : Bool} {g : QVar → QVar}
    (h : t.Ok d xs) (hg : ∀ x ∈ xs, g x ∉ xs) :
    Exactly d nodes xs (declare xs (.atom (.allcomp t b (some g))))
      (fun σ => ∀ x, Completes d x (t.under σ) → T.classify x = b) := by
  refine closed_atom hd ⟨?_, ?_, by simp [Spec.Atom.nilGen], trivial, trivial, trivial, fun _ => ⟨hT, hC⟩⟩ ?_
  · simp only [Atom.vars]; exact term_vars_ok h
  · simp only [Spec.Atom.consts]; exact term_consts_ok h
  · cases t with
    | const c => intro u hu; simp [Atom.uses] at hu
    | var x =>
      refine Hygienic.of_eq ?_
      simp only [Atom.uses, nm_nil, List.mem_singleton, forall_eq]
      exact ⟨hg x h, fun _ => trivial⟩

example : Exactly 2 exNodes [['x']] (.withVar ['x'] (.atom (.allcomp (.var ['x']) true (some fun v => 'r' :: v))))
      (fun σ => AllComp 2 exTree true (σ ['x'])) ∧
    AllComp 2 exTree true (den [BOT, ONE]) ∧ ¬ AllComp 2 exTree true (den [ZERO, BOT]) := by
  refine ⟨C31_allcomp (xs := [['x']]) (by omega) exNodes_isTree exNodes_covers (by simp [Term.Ok]) (by simp), ?_, ?_⟩
  · intro x hx
    have := hx 1 (by omega) true (by decide)
    simp [exTree, DTree.classify, this]
  · intro h
    have := h (fun _ => false) (by
      intro i hi b hb
      have : i = 0 ∨ i = 1 := by omega
      rcases this with rfl | rfl <;> revert hb <;> cases b <;> decide)
    simp [exTree, DTree.classify] at this

/-! ### C32 -/

/-- C32, contract. -/
theorem C32_captures {t : Term} (h : (Atom.dfs t).Fits W.dim W.nodes T Γ stack) :
    Captures W Γ stack (Atom.dfs t).encode (fun σ => DFS W.dim T (inst W stack σ t)) := dfs_captures h

/-- C32: sufficient sets of features, both types. -/
theorem C32_dfs (hd : 0 < d) (hT : IsTree d nodes T) (hC : Covers nodes T) {t : Term} (h : t.Ok d xs) :
    Exactly d nodes xs (declare xs (.atom (.dfs t)))
      (fun σ => ∀ e', (∀ i < d, e' i = none ↔ t.under σ i = none) →
        ∃ b, ∀ x, Completes d x e' → T.classify x = b) := by
  refine closed_atom hd ⟨?_, ?_, rfl, trivial, trivial, trivial, fun _ => ⟨hT, hC⟩⟩ ?_
  · simp only [Atom.vars]; exact term_vars_ok h
  · simp only [Spec.Atom.consts]; exact term_consts_ok h
  · intro u hu; simp [Atom.uses] at hu

example : Exactly 2 exNodes [['x']] (.withVar ['x'] (.atom (.dfs (.var ['x'])))) (fun σ => DFS 2 exTree (σ ['x'])) ∧
    ¬ DFS 2 exTree (den [BOT, ONE]) := by
  refine ⟨C32_dfs (xs := [['x']]) (by omega) exNodes_isTree exNodes_covers (by simp [Term.Ok]), ?_⟩
  intro h
  obtain ⟨b, hb⟩ := h (den [BOT, ZERO]) (by
    intro i hi
    have : i = 0 ∨ i = 1 := by omega
    rcases this with rfl | rfl <;> decide)
  have h0 := hb (fun _ => false) (by
    intro i hi b hb
    have : i = 0 ∨ i = 1 := by omega
    rcases this with rfl | rfl <;> revert hb <;> cases b <;> decide)
  have h1 := hb (fun i => i == 0) (by
    intro i hi b hb
    have : i = 0 ∨ i = 1 := by omega
    rcases this with rfl | rfl <;> revert hb <;> cases b <;> decide)
  rw [← h1] at h0
  simp [exTree, DTree.classify] at h0

/-! ### C33 -/

/-- C33, contract. The preference order must not be empty if one of the arguments is a variable. -/
theorem C33_captures_partial {t1 t2 : Term} {p : List Int} {g : Option (QVar → QVar → QVar → QVar)}
    (h : (Atom.hepr t1 t2 p g).Fits W.dim W.nodes T Γ stack)
    (hu : ∀ u ∈ (Atom.hepr t1 t2 p g).uses W.depth stack, Plays W T u.1 u.2) :
    Captures W Γ stack (Atom.hepr t1 t2 p g).encode
      (fun σ => HEPR (p.map Int.toNat) (inst W stack σ t1) (inst W stack σ t2)) := hepr_captures h hu

/-- C33: comparison by preferences, all four types. Missing: the empty preference order (see
`C33_empty_panics`). -/
theorem C33_hepr_partial (hd : 0 < d) {t1 t2 : Term} {p : List Nat} {g : QVar → QVar → QVar → QVar}
    (h1 : t1.Ok d xs) (h2 : t2.Ok d xs) (hp : ∀ i ∈ p, i < d) (hn : p.Nodup)
    (hne : p ≠ [] ∨ Spec.Term.isVar t1 = false ∧ Spec.Term.isVar t2 = false)
    (hg : g (prefVar (p.map Int.ofNat)) t1.keyUnder t2.keyUnder ∉ xs) :
    Exactly d nodes xs (declare xs (.atom (.hepr t1 t2 (p.map Int.ofNat) (some g))))
      (fun σ => HEPR p (t1.under σ) (t2.under σ)) := by
  have hmap : (p.map Int.ofNat).map Int.toNat = p := by
    rw [List.map_map]
    conv => rhs; rw [← List.map_id p]
    exact List.map_congr_left fun i _ => rfl
  have hpo : (Atom.hepr t1 t2 (p.map Int.ofNat) (some g)).PrefOk d := by
    refine ⟨?_, List.Pairwise.map _ (fun a b h => by simpa [Int.ofNat_inj] using h) hn⟩
    intro i hi
    obtain ⟨k, hk, rfl⟩ := List.mem_map.1 hi
    have := hp k hk
    simp only [Int.ofNat_eq_natCast]
    omega
  refine (closed_atom (a := .hepr t1 t2 (p.map Int.ofNat) (some g)) (T := .leaf 0 false) hd
    ⟨?_, ?_, by simp [Spec.Atom.nilGen], hpo, ?_, trivial, by simp [Atom.onModel]⟩ ?_).congr fun σ => ?_
  · simp only [Atom.vars, List.mem_append]
    exact fun x h => h.elim (term_vars_ok h1 x) (term_vars_ok h2 x)
  · simp only [Spec.Atom.consts, List.mem_append]
    exact fun c h => h.elim (term_consts_ok h1 c) (term_consts_ok h2 c)
  · cases t1 <;> cases t2 <;> simp [Spec.Atom.PrefsNonempty] <;> simp [Spec.Term.isVar] at hne <;> exact hne
  · refine Hygienic.of_eq ?_
    cases t1 <;> cases t2 <;> simp only [Atom.uses, List.mem_singleton, forall_eq, List.not_mem_nil, false_imp_iff,
      implies_true, key_nil, and_true] <;> try exact hg
  · show HEPR _ _ _ ↔ _
    rw [hmap]

/-- C33 fails for the empty preference order: it makes the predicate true, but the encoding of a type
with a variable panics. -/
theorem C33_empty_panics :
    (∀ e1 e2, HEPR [] e1 e2) ∧
    ∀ (x : QVar) (c : QConst) (g : QVar → QVar → QVar → QVar) (t1 t2 : Term),
      c.val.length = 2 → (t1, t2) = (.var x, .var x) ∨ (t1, t2) = (.const c, .var x) ∨ (t1, t2) = (.var x, .const c) →
      ((Query.atom (.hepr t1 t2 [] (some g))).encode (BasicQContext 2 exNodes)).1 = .error (.panic "index out of range") := by
  refine ⟨?_, ?_⟩
  · intro e1 e2 pre f post h; simp at h
  · intro x c g t1 t2 hc h
    obtain ⟨id, val⟩ := c
    match val, hc with
    | [a, b], _ => rcases h with h | h | h <;> cases h <;> rfl

example : Exactly 3 [] [['x']] (.withVar ['x'] (.atom (.hepr (.var ['x']) (.const { val := [ONE, BOT, ZERO] }) [2, 0]
      (some fun p v1 v2 => 'p' :: p ++ '.' :: v1 ++ '.' :: v2))))
    (fun σ => HEPR [2, 0] (σ ['x']) (den [ONE, BOT, ZERO])) :=
  C33_hepr_partial (xs := [['x']]) (p := [2, 0]) (by omega) (by simp [Term.Ok]) (by simp [Term.Ok, ValidVals])
    (by simp) (by simp) (by simp) (by simp)

/-- C33: the package comment (query/extensions/hepr/hepr.go:1-7) describes a smaller relation: what it says implies what is encoded, but not
conversely, for instance if both arguments are bottom. What it says is not reflexive, so not an order. -/
theorem C33_comment_differs :
    (∀ p e1 e2, HEPRComment p e1 e2 → HEPR p e1 e2) ∧
    (HEPR [0] (den [BOT]) (den [BOT]) ∧ ¬ HEPRComment [0] (den [BOT]) (den [BOT])) ∧
    ((Query.atom (.hepr (.const { val := [BOT] }) (.const { val := [BOT] }) [0] none)).encode (BasicQContext 1 [])).1 = .ok TrueCNF ∧
    ∀ p e, HEPRComment p e e ↔ ∀ f ∈ p, e f ≠ none := by
  refine ⟨?_, ⟨?_, ?_⟩, by decide +kernel, ?_⟩
  · rintro p e1 e2 (h | ⟨pre, f, post, rfl, h1, h2, h3⟩) pre' f' post' he hp hf
    · exact (h f' (by simp [he])).1 hf.1
    · rcases List.append_eq_append_iff.1 he with ⟨l, rfl, h⟩ | ⟨l, rfl, h⟩
      · cases l with
        | nil => cases h; exact h3 hf.1
        | cons g l =>
          cases h
          have := hp f (by simp)
          rcases h2 with h2 | h2
          · exact h3 h2
          · exact h3 (this.2 h2)
      · cases l with
        | nil => cases h; exact h3 hf.1
        | cons g l => cases h; exact (h1 f' (by simp)).1 hf.1
  · intro pre f post he _ hf
    cases pre with
    | nil => cases he; exact hf.2 rfl
    | cons g pre => simp at he
  · rintro (h | ⟨pre, f, post, he, -, -, h⟩)
    · exact (h 0 (by simp)).1 rfl
    · cases pre with
      | nil => cases he; exact h rfl
      | cons g pre => simp at he
  · intro p e
    constructor
    · rintro (h | ⟨pre, f, post, rfl, -, h, h'⟩) g hg
      · exact (h g hg).1
      · exact absurd (h.elim id id) h'
    · intro h
      exact .inl fun f hf => ⟨h f hf, h f hf⟩

/-! ### C34 -/

/-- C34, contract. Missing: two corner cases (`Atom.Regular`). -/
theorem C34_captures_partial {t1 t2 t3 : Term} {g eg : Option (QVar → QVar → QVar)}
    (h : (Atom.leh t1 t2 t3 g eg).Fits W.dim W.nodes T Γ stack)
    (hu : ∀ u ∈ (Atom.leh t1 t2 t3 g eg).uses W.depth stack, Plays W T u.1 u.2) :
    Captures W Γ stack (Atom.leh t1 t2 t3 g eg).encode
      (fun σ => LEH W.dim (inst W stack σ t1) (inst W stack σ t2) (inst W stack σ t3)) := leh_captures h hu

/-- C34: comparison of Hamming distances, all eight types. Missing: `ConstConstVar` with equal
constants and `ConstVarConst` with constants that differ everywhere (see `C34_ccv_wrong`,
`C34_cvc_wrong`). -/
theorem C34_leh_partial (hd : 0 < d) {t1 t2 t3 : Term} {ks : List QVar} {g e : QVar → QVar → QVar}
    (h1 : t1.Ok d xs) (h2 : t2.Ok d xs) (h3 : t3.Ok d xs) (hg : LehGens xs [t1, t2, t3] ks g e)
    (hreg : ∀ c c' x, ((t1, t2, t3) = (.const c, .const c', .var x) → hamming d (den c.val) (den c'.val) ≠ 0) ∧
      ((t1, t2, t3) = (.const c, .var x, .const c') → hamming d (den c.val) (den c'.val) ≠ d)) :
    Exactly d nodes xs (declare xs (.atom (.leh t1 t2 t3 (some g) (some e))))
      (fun σ => Full d (t1.under σ) ∧ Full d (t2.under σ) ∧ Full d (t3.under σ) ∧
        hamming d (t1.under σ) (t2.under σ) ≤ hamming d (t1.under σ) (t3.under σ)) := by
  refine closed_atom (T := .leaf 0 false) hd ⟨?_, ?_, by simp [Spec.Atom.nilGen], trivial, trivial, ?_,
    by simp [Atom.onModel]⟩ (leh_clean h1 h2 h3 hg)
  · simp only [Atom.vars, List.mem_append]
    exact fun x h => h.elim (fun h => h.elim (term_vars_ok h1 x) (term_vars_ok h2 x)) (term_vars_ok h3 x)
  · simp only [Spec.Atom.consts, List.mem_append]
    exact fun c h => h.elim (fun h => h.elim (term_consts_ok h1 c) (term_consts_ok h2 c)) (term_consts_ok h3 c)
  · cases t1 <;> cases t2 <;> cases t3 <;> simp only [Atom.Regular, resolve, List.find?_nil]
    · exact fun _ _ => (hreg _ _ _).1 rfl
    · exact fun _ _ => (hreg _ _ _).2 rfl

/-- Concrete case, with the generators of the library's tests: `x` is at most as far from 011 as
`y`. -/
example : Exactly 3 [] [['x'], ['y']] (.withVar ['x'] (.withVar ['y'] (.atom (.leh (.const { val := [ZERO, ONE, ONE] })
      (.var ['x']) (.var ['y']) (some VarGenHammingDistance) (some VarGenEqualFeat)))))
    (fun σ => LEH 3 (den [ZERO, ONE, ONE]) (σ ['x']) (σ ['y'])) := by
  refine C34_leh_partial (xs := [['x'], ['y']]) (ks := [['x'], ['y'], ['0', '1', '1']]) (by omega)
    (by simp [Term.Ok, ValidVals]) (by simp [Term.Ok]) (by simp [Term.Ok])
    ⟨?_, ?_, ?_, ?_, ?_, ?_⟩ (by simp)
  · decide
  · unfold PairGen; decide
  · unfold PairGen; decide
  · decide
  · decide
  · intro c hc
    simp only [List.mem_cons, Term.const.injEq, reduceCtorEq, List.not_mem_nil, or_false] at hc
    subst hc
    decide

end Goexpdt.Props

import Verif.Lemmas.RenamingQuery
import Verif.Lemmas.Tidy
namespace Goexpdt
open Spec

/-- Starts with the separator, or is empty. -/
def Tail (s : List Char) : Prop := s = [] ∨ ∃ r, s = sep :: r

theorem split_sep {a b s s' : List Char} (ha : sep ∉ a) (hb : sep ∉ b) (hs : Tail s) (hs' : Tail s') (h : a ++ s = b ++ s') :
    a = b ∧ s = s' := by
  induction a generalizing b with
  | nil =>
    cases b with
    | nil => exact ⟨rfl, h⟩
    | cons c b =>
      rcases hs with rfl | ⟨r, rfl⟩
      · cases h
      · injection h with h1 h2
        exact absurd (h1 ▸ List.mem_cons_self) hb
  | cons c a ih =>
    cases b with
    | nil =>
      rcases hs' with rfl | ⟨r, rfl⟩
      · cases h
      · injection h with h1 h2
        exact absurd (h1 ▸ List.mem_cons_self) ha
    | cons c' b =>
      injection h with h1 h2
      obtain ⟨e1, e2⟩ := ih (fun h => ha (.tail _ h)) (fun h => hb (.tail _ h)) h2
      exact ⟨by rw [h1, e1], e2⟩

section
variable {V : QVar → QVar → Prop} {K : List Char → List Char → Prop}

theorem suffixR_shape (t r : List Char) (i : Int) : [sep] ++ t ++ [sep] ++ itoa i ++ r = sep :: (t ++ (sep :: (itoa i ++ r))) := by
  simp only [List.append_assoc, List.cons_append, List.nil_append]

theorem SuffixR.tail {s s' : List Char} (h : SuffixR K s s') : Tail s := by
  cases h with
  | nil => exact .inl rfl
  | cons i _ _ => exact .inr ⟨_, suffixR_shape _ _ _⟩

theorem SuffixR.flip {s s' : List Char} (h : SuffixR K s s') : SuffixR (fun a b => K b a) s' s := by
  induction h with
  | nil => exact .nil
  | cons i hk _ ih => exact .cons i hk ih

theorem SuffixR.no_RS (hK : ∀ {i j}, K i j → recSep ∉ i) {s s' : List Char} (h : SuffixR K s s') : recSep ∉ s := by
  induction h with
  | nil => exact List.not_mem_nil
  | @cons t t' r r' i hk _ ih =>
    have h1 : recSep ≠ sep := by decide
    have h2 := itoa_no_RS i
    have h3 := hK hk
    simp [h1, h2, h3, ih]

theorem SuffixR.right (hK : ∀ {i j j'}, K i j → K i j' → j = j') (hs : ∀ {i j}, K i j → sep ∉ i) {s s' : List Char} (h : SuffixR K s s') :
    ∀ {u u'}, SuffixR K u u' → s = u → s' = u' := by
  induction h with
  | nil =>
    intro u u' h2 e
    cases h2 with
    | nil => rfl
    | cons i hk h => rw [suffixR_shape] at e; cases e
  | @cons t t' r r' i hk hr ih =>
    intro u u' h2 e
    cases h2 with
    | nil => rw [suffixR_shape] at e; cases e
    | @cons t2 t2' r2 r2' j hk2 hr2 =>
      rw [suffixR_shape, suffixR_shape] at e
      injection e with _ e
      obtain ⟨e1, e2⟩ := split_sep (hs hk) (hs hk2) (.inr ⟨_, rfl⟩) (.inr ⟨_, rfl⟩) e
      injection e2 with _ e2
      obtain ⟨e3, e4⟩ := split_sep (US_not_mem_itoa i) (US_not_mem_itoa j) hr.tail hr2.tail e2
      have := itoa_inj e3
      subst this e1
      rw [hK hk hk2, ih hr2 e4]

/-- Names of related variables. -/
def FullR (V : QVar → QVar → Prop) (K : List Char → List Char → Prop) (a a' : QVar) : Prop := ∃ x x', V x x' ∧ VarNameR K x x' a a'

/-- What generators get. -/
inductive ArgR (V : QVar → QVar → Prop) (K : List Char → List Char → Prop) : QVar → QVar → Prop where
  | name {a a'} : FullR V K a a' → ArgR V K a a'
  | vals (c : QConst) : ArgR V K c.asString c.asString

/-- All names of queries with the generators of the tags `t` and `t'`. -/
inductive TagR (t t' : Tags) (V : QVar → QVar → Prop) (K : List Char → List Char → Prop) : QVar → QVar → Prop where
  | name {a a'} : FullR V K a a' → TagR t t' V K a a'
  | count {a a'} : ArgR V K a a' → TagR t t' V K (tagged1 t.count a) (tagged1 t'.count a')
  | node {a a'} : ArgR V K a a' → TagR t t' V K (tagged1 t.node a) (tagged1 t'.node a')
  | comp {a a'} : ArgR V K a a' → TagR t t' V K (tagged1 t.comp a) (tagged1 t'.comp a')
  | pref {a a' b b'} (p : List Int) : ArgR V K a a' → ArgR V K b b' →
      TagR t t' V K (tagged3 t.pref (prefVar p) a b) (tagged3 t'.pref (prefVar p) a' b')
  | dist {a a' b b'} : ArgR V K a a' → ArgR V K b b' → TagR t t' V K (tagged2 t.dist a b) (tagged2 t'.dist a' b')
  | same {a a' b b'} : ArgR V K a a' → ArgR V K b b' → TagR t t' V K (tagged2 t.same a b) (tagged2 t'.same a' b')

theorem FullR.flip {a a' : QVar} (h : FullR V K a a') : FullR (fun a b => V b a) (fun a b => K b a) a' a := by
  obtain ⟨x, x', hx, s, s', hs, rfl, rfl⟩ := h
  exact ⟨x', x, hx, s', s, hs.flip, rfl, rfl⟩

theorem ArgR.flip {a a' : QVar} (h : ArgR V K a a') : ArgR (fun a b => V b a) (fun a b => K b a) a' a := by
  cases h with
  | name h => exact .name h.flip
  | vals c => exact .vals c

theorem TagR.flip {t t' : Tags} {a a' : QVar} (h : TagR t t' V K a a') : TagR t' t (fun a b => V b a) (fun a b => K b a) a' a := by
  cases h with
  | name h => exact .name h.flip
  | count h => exact .count h.flip
  | node h => exact .node h.flip
  | comp h => exact .comp h.flip
  | pref p h h2 => exact .pref p h.flip h2.flip
  | dist h h2 => exact .dist h.flip h2.flip
  | same h h2 => exact .same h.flip h2.flip

/-- The names on the left determine those on the right. -/
structure LeftOk (V : QVar → QVar → Prop) (K : List Char → List Char → Prop) : Prop where
  var : ∀ {x x'}, V x x' → NameOk x ∧ sep ∉ x
  id : ∀ {i j}, K i j → IdOk i
  vright : ∀ {a b b'}, V a b → V a b' → b = b'
  kright : ∀ {a b b'}, K a b → K a b' → b = b'

variable (H : LeftOk V K)
include H

theorem FullR.right {a a' b b' : QVar} (h : FullR V K a a') (h2 : FullR V K b b') (e : a = b) : a' = b' := by
  obtain ⟨x, x', hx, s, s', hs, rfl, rfl⟩ := h
  obtain ⟨y, y', hy, u, u', hu, rfl, rfl⟩ := h2
  obtain ⟨e1, e2⟩ := split_sep (H.var hx).2 (H.var hy).2 hs.tail hu.tail e
  subst e1
  have e3 := H.vright hx hy
  have e4 := SuffixR.right (K := K) H.kright (fun h => (H.id h).2) hs hu e2
  rw [e3, e4]

theorem FullR.nameOk {a a' : QVar} (h : FullR V K a a') : NameOk a := by
  obtain ⟨x, x', hx, s, s', hs, rfl, rfl⟩ := h
  exact (H.var hx).1.append (hs.no_RS fun h => (H.id h).1)

theorem ArgR.right {a a' b b' : QVar} (h : ArgR V K a a') (h2 : ArgR V K b b') (e : a = b) : a' = b' := by
  cases h with
  | name h =>
    cases h2 with
    | name h2 => exact h.right H h2 e
    | vals c => exact absurd e (key_unique_aux (h.nameOk H) c)
  | vals c =>
    cases h2 with
    | name h2 => exact absurd e.symm (key_unique_aux (h2.nameOk H) c)
    | vals c2 => exact e

theorem ArgR.no_RS {a a' : QVar} (h : ArgR V K a a') : recSep ∉ a := by
  cases h with
  | name h => exact (h.nameOk H).1
  | vals c => exact asString_no_RS c

end

theorem tagged2_comm (t : List Char) (a b : QVar) : tagged2 t a b = tagged2 t b a := by
  unfold tagged2
  by_cases h : a < b
  · rw [if_pos h, if_neg (List.lt_asymm h)]
  · by_cases h' : b < a
    · rw [if_neg h, if_pos h']
    · rw [if_neg h, if_neg h', List.le_antisymm (List.not_lt.1 h') (List.not_lt.1 h)]

section
variable {V : QVar → QVar → Prop} {K : List Char → List Char → Prop} {t t' : Tags}

theorem other_tag {x y : List Char} {a b : QVar} (hx : recSep ∉ x) (hy : recSep ∉ y) (h1 : HasTag x a) (h2 : HasTag y b) (hne : x ≠ y) : a ≠ b :=
  fun e => hne (hasTag_unique hx hy (e ▸ h1) h2)

theorem tag2_right (H : LeftOk V K) {x : List Char} (y : List Char) (hx : recSep ∉ x) {a a' b b' u u' w w' : QVar} (ha : ArgR V K a a')
    (hb : ArgR V K b b') (hu : ArgR V K u u') (hw : ArgR V K w w') (e : tagged2 x a b = tagged2 x u w) : tagged2 y a' b' = tagged2 y u' w' := by
  rcases tagged2_inj hx (ha.no_RS H) (hb.no_RS H) (hu.no_RS H) (hw.no_RS H) e with ⟨e1, e2⟩ | ⟨e1, e2⟩
  · rw [ha.right H hu e1, hb.right H hw e2]
  · rw [ha.right H hw e1, hb.right H hu e2, tagged2_comm]

theorem TagR.right (H : LeftOk V K) (hok : t.Ok) (hnc : t.node = t.comp → t'.node = t'.comp) {a a' b b' : QVar} (h : TagR t t' V K a a')
    (h2 : TagR t t' V K b b') (e : a = b) : a' = b' := by
  have hs := hok.sep
  simp only [List.mem_cons, List.not_mem_nil, or_false, forall_eq_or_imp, forall_eq] at hs
  obtain ⟨s1, s2, s3, s4, s5, s6⟩ := hs
  have n1 := hok.node
  have n2 := hok.comp
  simp only [List.nodup_cons, List.mem_cons, List.not_mem_nil, or_false, not_or, not_false_eq_true, List.nodup_nil, and_true] at n1 n2
  cases h with
  | name h =>
    have hn := (h.nameOk H).1
    cases h2 with
    | name h2 => exact h.right H h2 e
    | count => exact absurd (e ▸ hasTag_mem hasTag1) hn
    | node => exact absurd (e ▸ hasTag_mem hasTag1) hn
    | comp => exact absurd (e ▸ hasTag_mem hasTag1) hn
    | pref => exact absurd (e ▸ hasTag_mem hasTag3) hn
    | dist => exact absurd (e ▸ hasTag_mem hasTag2) hn
    | same => exact absurd (e ▸ hasTag_mem hasTag2) hn
  | count h =>
    cases h2 with
    | name h2 => exact absurd (e ▸ hasTag_mem hasTag1) (h2.nameOk H).1
    | count h2 => rw [h.right H h2 (tagged1_inj s1 s1 e).2]
    | node => exact absurd e (other_tag s1 s2 hasTag1 hasTag1 n1.1.1)
    | comp => exact absurd e (other_tag s1 s3 hasTag1 hasTag1 n2.1.1)
    | pref => exact absurd e (other_tag s1 s4 hasTag1 hasTag3 n1.1.2.1)
    | dist => exact absurd e (other_tag s1 s5 hasTag1 hasTag2 n1.1.2.2.1)
    | same => exact absurd e (other_tag s1 s6 hasTag1 hasTag2 n1.1.2.2.2)
  | node h =>
    cases h2 with
    | name h2 => exact absurd (e ▸ hasTag_mem hasTag1) (h2.nameOk H).1
    | count => exact absurd e (other_tag s2 s1 hasTag1 hasTag1 (Ne.symm n1.1.1))
    | node h2 => rw [h.right H h2 (tagged1_inj s2 s2 e).2]
    | comp h2 =>
      obtain ⟨e1, e2⟩ := tagged1_inj s2 s3 e
      rw [hnc e1, h.right H h2 e2]
    | pref => exact absurd e (other_tag s2 s4 hasTag1 hasTag3 n1.2.1.1)
    | dist => exact absurd e (other_tag s2 s5 hasTag1 hasTag2 n1.2.1.2.1)
    | same => exact absurd e (other_tag s2 s6 hasTag1 hasTag2 n1.2.1.2.2)
  | comp h =>
    cases h2 with
    | name h2 => exact absurd (e ▸ hasTag_mem hasTag1) (h2.nameOk H).1
    | count => exact absurd e (other_tag s3 s1 hasTag1 hasTag1 (Ne.symm n2.1.1))
    | node h2 =>
      obtain ⟨e1, e2⟩ := tagged1_inj s3 s2 e
      rw [← hnc e1.symm, h.right H h2 e2]
    | comp h2 => rw [h.right H h2 (tagged1_inj s3 s3 e).2]
    | pref => exact absurd e (other_tag s3 s4 hasTag1 hasTag3 n2.2.1.1)
    | dist => exact absurd e (other_tag s3 s5 hasTag1 hasTag2 n2.2.1.2.1)
    | same => exact absurd e (other_tag s3 s6 hasTag1 hasTag2 n2.2.1.2.2)
  | pref p h1 h =>
    cases h2 with
    | name h2 => exact absurd (e ▸ hasTag_mem hasTag3) (h2.nameOk H).1
    | count => exact absurd e (other_tag s4 s1 hasTag3 hasTag1 (Ne.symm n1.1.2.1))
    | node => exact absurd e (other_tag s4 s2 hasTag3 hasTag1 (Ne.symm n1.2.1.1))
    | comp => exact absurd e (other_tag s4 s3 hasTag3 hasTag1 (Ne.symm n2.2.1.1))
    | pref p' h1' h' =>
      obtain ⟨e1, e2, e3⟩ := tagged3_inj s4 (prefVar_no_RS _) (prefVar_no_RS _) (h1.no_RS H) (h1'.no_RS H) e
      rw [e1, h1.right H h1' e2, h.right H h' e3]
    | dist => exact absurd e (other_tag s4 s5 hasTag3 hasTag2 n1.2.2.1.1)
    | same => exact absurd e (other_tag s4 s6 hasTag3 hasTag2 n1.2.2.1.2)
  | dist h1 h =>
    cases h2 with
    | name h2 => exact absurd (e ▸ hasTag_mem hasTag2) (h2.nameOk H).1
    | count => exact absurd e (other_tag s5 s1 hasTag2 hasTag1 (Ne.symm n1.1.2.2.1))
    | node => exact absurd e (other_tag s5 s2 hasTag2 hasTag1 (Ne.symm n1.2.1.2.1))
    | comp => exact absurd e (other_tag s5 s3 hasTag2 hasTag1 (Ne.symm n2.2.1.2.1))
    | pref => exact absurd e (other_tag s5 s4 hasTag2 hasTag3 (Ne.symm n1.2.2.1.1))
    | dist h1' h' => exact tag2_right H _ s5 h1 h h1' h' e
    | same => exact absurd e (other_tag s5 s6 hasTag2 hasTag2 n1.2.2.2)
  | same h1 h =>
    cases h2 with
    | name h2 => exact absurd (e ▸ hasTag_mem hasTag2) (h2.nameOk H).1
    | count => exact absurd e (other_tag s6 s1 hasTag2 hasTag1 (Ne.symm n1.1.2.2.2))
    | node => exact absurd e (other_tag s6 s2 hasTag2 hasTag1 (Ne.symm n1.2.1.2.2))
    | comp => exact absurd e (other_tag s6 s3 hasTag2 hasTag1 (Ne.symm n2.2.1.2.2))
    | pref => exact absurd e (other_tag s6 s4 hasTag2 hasTag3 (Ne.symm n1.2.2.1.2))
    | dist => exact absurd e (other_tag s6 s5 hasTag2 hasTag2 (Ne.symm n1.2.2.2))
    | same h1' h' => exact tag2_right H _ s6 h1 h h1' h' e

theorem tag_naming (hl : LeftOk V K) (hr : LeftOk (fun a b => V b a) (fun a b => K b a)) (h1 : t.Ok) (h2 : t'.Ok)
    (hnc : t.node = t.comp ↔ t'.node = t'.comp) : Naming V K (TagR t t' V K) where
  ids := ⟨hl.kright, hr.kright⟩
  names := ⟨fun a b => a.right hl h1 hnc.1 b rfl, fun a b => a.flip.right hr h2 hnc.2 b.flip rfl⟩
  var h1 h2 := .name ⟨_, _, h1, h2⟩

/-! ### Renaming -/

variable {ρ : QVar → QVar} {κ : List Char → List Char}

theorem term_rename {T : Term} (hv : ∀ x ∈ T.varNames, V x (ρ x)) (hi : ∀ i ∈ T.idNames, K i (κ i)) : TermR V K T (T.rename ρ κ) := by
  cases T with
  | var x => exact hv x (by simp [Term.varNames])
  | const c => exact ⟨hi c.id (by simp [Term.idNames]), rfl⟩

theorem key_arg {T : Term} (hv : ∀ x ∈ T.varNames, V x (ρ x)) {a a' : QVar} (h : KeyR K T (T.rename ρ κ) a a') : ArgR V K a a' := by
  cases T with
  | var x => exact .name ⟨_, _, hv x (by simp [Term.varNames]), h⟩
  | const c => obtain ⟨k, rfl, rfl⟩ := h; exact .vals k

theorem varKey_arg {T : Term} (hv : ∀ x ∈ T.varNames, V x (ρ x)) {a a' : QVar} (h : VarKeyR K T (T.rename ρ κ) a a') : ArgR V K a a' := by
  cases T with
  | var x => exact .name ⟨_, _, hv x (by simp [Term.varNames]), h⟩
  | const c => exact h.elim

theorem atom_rename {a : Atom} (ht : a.TaggedBy t) (hv : ∀ x ∈ a.args.flatMap Term.varNames, V x (ρ x))
    (hi : ∀ i ∈ a.args.flatMap Term.idNames, K i (κ i)) : AtomR V K (TagR t t' V K) a (a.rename ρ κ t') := by
  have hv' : ∀ T ∈ a.args, ∀ x ∈ T.varNames, V x (ρ x) := fun T hT x hx => hv x (List.mem_flatMap.2 ⟨T, hT, hx⟩)
  have hi' : ∀ T ∈ a.args, ∀ x ∈ T.idNames, K x (κ x) := fun T hT x hx => hi x (List.mem_flatMap.2 ⟨T, hT, hx⟩)
  have tr : ∀ T ∈ a.args, TermR V K T (T.rename ρ κ) := fun T hT => term_rename (hv' T hT) (hi' T hT)
  have ka : ∀ T ∈ a.args, ∀ {a a'}, KeyR K T (T.rename ρ κ) a a' → ArgR V K a a' := fun T hT => key_arg (hv' T hT)
  have va : ∀ T ∈ a.args, ∀ {a a'}, VarKeyR K T (T.rename ρ κ) a a' → ArgR V K a a' := fun T hT => varKey_arg (hv' T hT)
  clear hv hi hv' hi'
  cases a with
  | subs t1 t2 => exact ⟨tr t1 (by simp [Atom.args]), tr t2 (by simp [Atom.args])⟩
  | lel t1 t2 g =>
    refine ⟨tr t1 (by simp [Atom.args]), tr t2 (by simp [Atom.args]), fun hg => ?_⟩
    rw [ht hg]
    exact fun a a' h => .count (h.elim (va t1 (by simp [Atom.args])) (va t2 (by simp [Atom.args])))
  | isnode t1 g =>
    refine ⟨tr t1 (by simp [Atom.args]), fun hg => ?_⟩
    rw [ht hg]
    exact fun a a' h => .node (va t1 (by simp [Atom.args]) h)
  | full t1 => exact tr t1 (by simp [Atom.args])
  | cons t1 t2 => exact ⟨tr t1 (by simp [Atom.args]), tr t2 (by simp [Atom.args])⟩
  | allcomp t1 b g =>
    refine ⟨tr t1 (by simp [Atom.args]), rfl, fun hg => ?_⟩
    rw [ht hg]
    exact fun a a' h => .comp (va t1 (by simp [Atom.args]) h)
  | dfs t1 => exact tr t1 (by simp [Atom.args])
  | hepr t1 t2 p g =>
    refine ⟨tr t1 (by simp [Atom.args]), tr t2 (by simp [Atom.args]), rfl, fun hg => ?_⟩
    rw [ht hg]
    exact fun a a' b b' h h' => .pref p (ka t1 (by simp [Atom.args]) h) (ka t2 (by simp [Atom.args]) h')
  | leh t1 t2 t3 g e =>
    have m1 : t1 ∈ (Atom.leh t1 t2 t3 g e).args := by simp [Atom.args]
    have m2 : t2 ∈ (Atom.leh t1 t2 t3 g e).args := by simp [Atom.args]
    have m3 : t3 ∈ (Atom.leh t1 t2 t3 g e).args := by simp [Atom.args]
    refine ⟨tr t1 m1, tr t2 m2, tr t3 m3, fun hg => ?_, fun hg => ?_⟩
    · rw [ht.1 hg]
      rintro a a' b b' (⟨h, h' | h'⟩ | ⟨h, h' | h'⟩ | ⟨h, h'⟩)
      · exact .dist (va t1 m1 h) (ka t2 m2 h')
      · exact .dist (va t1 m1 h) (ka t3 m3 h')
      · exact .dist (va t2 m2 h) (ka t1 m1 h')
      · exact .dist (va t2 m2 h) (ka t3 m3 h')
      · exact .dist (va t3 m3 h) (ka t1 m1 h')
    · rw [ht.2 hg]
      rintro a a' b b' h (h' | h')
      · exact .same (va t1 m1 h) (va t2 m2 h')
      · exact .same (va t1 m1 h) (va t3 m3 h')

theorem query_rename {q : Query} (ht : ∀ a ∈ q.atoms, a.TaggedBy t) (hv : ∀ x ∈ q.varNames, V x (ρ x)) (hi : ∀ i ∈ q.idNames, K i (κ i)) :
    QueryR V K (TagR t t' V K) q (q.rename ρ κ t') := by
  induction q with
  | nil => exact trivial
  | atom a => exact atom_rename (ht a (by simp [Query.atoms])) hv hi
  | and q1 q2 i1 i2 =>
    exact ⟨i1 (fun a h => ht a (List.mem_append_left _ h)) (fun x h => hv x (List.mem_append_left _ h)) (fun x h => hi x (List.mem_append_left _ h)),
      i2 (fun a h => ht a (List.mem_append_right _ h)) (fun x h => hv x (List.mem_append_right _ h)) (fun x h => hi x (List.mem_append_right _ h))⟩
  | or q1 q2 i1 i2 =>
    exact ⟨i1 (fun a h => ht a (List.mem_append_left _ h)) (fun x h => hv x (List.mem_append_left _ h)) (fun x h => hi x (List.mem_append_left _ h)),
      i2 (fun a h => ht a (List.mem_append_right _ h)) (fun x h => hv x (List.mem_append_right _ h)) (fun x h => hi x (List.mem_append_right _ h))⟩
  | not q i1 => exact i1 ht hv hi
  | withVar x q i1 => exact ⟨hv x List.mem_cons_self, i1 ht (fun y h => hv y (.tail _ h)) hi⟩
  | forallG c q i1 => exact ⟨hi c.id List.mem_cons_self, i1 ht hv fun y h => hi y (.tail _ h)⟩

end

end Goexpdt

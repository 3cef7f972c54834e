import Verif.Lemmas.IfaceEnd
import Verif.Lemmas.RenamingTag
/- Names made by the generators of the tests, from the names of any context. -/
namespace Goexpdt
open Spec

section
variable {F : QVar → QVar → Prop} {t : Tags}

/-- What generators get, if `F` relates the names of variables. -/
inductive ArgG (F : QVar → QVar → Prop) : QVar → QVar → Prop where
  | name {a a'} : F a a' → ArgG F a a'
  | vals (c : QConst) : ArgG F c.asString c.asString

/-- All names of queries with the generators of the tags `t`. -/
inductive TagG (t : Tags) (F : QVar → QVar → Prop) : QVar → QVar → Prop where
  | name {a a'} : F a a' → TagG t F a a'
  | count {a a'} : ArgG F a a' → TagG t F (tagged1 t.count a) (tagged1 t.count a')
  | node {a a'} : ArgG F a a' → TagG t F (tagged1 t.node a) (tagged1 t.node a')
  | comp {a a'} : ArgG F a a' → TagG t F (tagged1 t.comp a) (tagged1 t.comp a')
  | pref {a a' b b'} (p : List Int) : ArgG F a a' → ArgG F b b' →
      TagG t F (tagged3 t.pref (prefVar p) a b) (tagged3 t.pref (prefVar p) a' b')
  | dist {a a' b b'} : ArgG F a a' → ArgG F b b' → TagG t F (tagged2 t.dist a b) (tagged2 t.dist a' b')
  | same {a a' b b'} : ArgG F a a' → ArgG F b b' → TagG t F (tagged2 t.same a b) (tagged2 t.same a' b')

theorem ArgG.flip {a a' : QVar} (h : ArgG F a a') : ArgG (fun a b => F b a) a' a := by
  cases h with
  | name h => exact .name h
  | vals c => exact .vals c

theorem TagG.flip {a a' : QVar} (h : TagG t F a a') : TagG t (fun a b => F b a) a' a := by
  cases h with
  | name h => exact .name h
  | count h => exact .count h.flip
  | node h => exact .node h.flip
  | comp h => exact .comp h.flip
  | pref p h h2 => exact .pref p h.flip h2.flip
  | dist h h2 => exact .dist h.flip h2.flip
  | same h h2 => exact .same h.flip h2.flip

/-- The names on the left determine those on the right. -/
structure FullOk (F : QVar → QVar → Prop) : Prop where
  ok : ∀ {a a'}, F a a' → NameOk a
  right : ∀ {a b b'}, F a b → F a b' → b = b'

theorem ArgG.right (H : FullOk F) {a a' b b' : QVar} (h : ArgG F a a') (h2 : ArgG F b b') (e : a = b) : a' = b' := by
  cases h with
  | name h =>
    cases h2 with
    | name h2 => exact H.right (e ▸ h) h2
    | vals c => exact absurd e (key_unique_aux (H.ok h) c)
  | vals c =>
    cases h2 with
    | name h2 => exact absurd e.symm (key_unique_aux (H.ok h2) c)
    | vals c2 => exact e

theorem ArgG.no_RS (H : FullOk F) {a a' : QVar} (h : ArgG F a a') : recSep ∉ a := by
  cases h with
  | name h => exact (H.ok h).1
  | vals c => exact asString_no_RS c

theorem tagG2_right (H : FullOk F) {x : List Char} (y : List Char) (hx : recSep ∉ x) {a a' b b' u u' w w' : QVar} (ha : ArgG F a a')
    (hb : ArgG F b b') (hu : ArgG F u u') (hw : ArgG F w w') (e : tagged2 x a b = tagged2 x u w) : tagged2 y a' b' = tagged2 y u' w' := by
  rcases tagged2_inj hx (ha.no_RS H) (hb.no_RS H) (hu.no_RS H) (hw.no_RS H) e with ⟨e1, e2⟩ | ⟨e1, e2⟩
  · rw [ha.right H hu e1, hb.right H hw e2]
  · rw [ha.right H hw e1, hb.right H hu e2, tagged2_comm]

theorem TagG.right (H : FullOk F) (hok : t.Ok) {a a' b b' : QVar} (h : TagG t F a a')
    (h2 : TagG t F b b') (e : a = b) : a' = b' := by
  have hs := hok.sep
  simp only [List.mem_cons, List.not_mem_nil, or_false, forall_eq_or_imp, forall_eq] at hs
  obtain ⟨s1, s2, s3, s4, s5, s6⟩ := hs
  have n1 := hok.node
  have n2 := hok.comp
  simp only [List.nodup_cons, List.mem_cons, List.not_mem_nil, or_false, not_or, not_false_eq_true, List.nodup_nil, and_true] at n1 n2
  cases h with
  | name h =>
    have hn := (H.ok h).1
    cases h2 with
    | name h2 => exact H.right (e ▸ h) h2
    | count => exact absurd (e ▸ hasTag_mem hasTag1) hn
    | node => exact absurd (e ▸ hasTag_mem hasTag1) hn
    | comp => exact absurd (e ▸ hasTag_mem hasTag1) hn
    | pref => exact absurd (e ▸ hasTag_mem hasTag3) hn
    | dist => exact absurd (e ▸ hasTag_mem hasTag2) hn
    | same => exact absurd (e ▸ hasTag_mem hasTag2) hn
  | count h =>
    cases h2 with
    | name h2 => exact absurd (e ▸ hasTag_mem hasTag1) (H.ok h2).1
    | count h2 => rw [h.right H h2 (tagged1_inj s1 s1 e).2]
    | node => exact absurd e (other_tag s1 s2 hasTag1 hasTag1 n1.1.1)
    | comp => exact absurd e (other_tag s1 s3 hasTag1 hasTag1 n2.1.1)
    | pref => exact absurd e (other_tag s1 s4 hasTag1 hasTag3 n1.1.2.1)
    | dist => exact absurd e (other_tag s1 s5 hasTag1 hasTag2 n1.1.2.2.1)
    | same => exact absurd e (other_tag s1 s6 hasTag1 hasTag2 n1.1.2.2.2)
  | node h =>
    cases h2 with
    | name h2 => exact absurd (e ▸ hasTag_mem hasTag1) (H.ok h2).1
    | count => exact absurd e (other_tag s2 s1 hasTag1 hasTag1 (Ne.symm n1.1.1))
    | node h2 => rw [h.right H h2 (tagged1_inj s2 s2 e).2]
    | comp h2 =>
      obtain ⟨e1, e2⟩ := tagged1_inj s2 s3 e
      rw [e1, h.right H h2 e2]
    | pref => exact absurd e (other_tag s2 s4 hasTag1 hasTag3 n1.2.1.1)
    | dist => exact absurd e (other_tag s2 s5 hasTag1 hasTag2 n1.2.1.2.1)
    | same => exact absurd e (other_tag s2 s6 hasTag1 hasTag2 n1.2.1.2.2)
  | comp h =>
    cases h2 with
    | name h2 => exact absurd (e ▸ hasTag_mem hasTag1) (H.ok h2).1
    | count => exact absurd e (other_tag s3 s1 hasTag1 hasTag1 (Ne.symm n2.1.1))
    | node h2 =>
      obtain ⟨e1, e2⟩ := tagged1_inj s3 s2 e
      rw [e1, h.right H h2 e2]
    | comp h2 => rw [h.right H h2 (tagged1_inj s3 s3 e).2]
    | pref => exact absurd e (other_tag s3 s4 hasTag1 hasTag3 n2.2.1.1)
    | dist => exact absurd e (other_tag s3 s5 hasTag1 hasTag2 n2.2.1.2.1)
    | same => exact absurd e (other_tag s3 s6 hasTag1 hasTag2 n2.2.1.2.2)
  | pref p h1 h =>
    cases h2 with
    | name h2 => exact absurd (e ▸ hasTag_mem hasTag3) (H.ok h2).1
    | count => exact absurd e (other_tag s4 s1 hasTag3 hasTag1 (Ne.symm n1.1.2.1))
    | node => exact absurd e (other_tag s4 s2 hasTag3 hasTag1 (Ne.symm n1.2.1.1))
    | comp => exact absurd e (other_tag s4 s3 hasTag3 hasTag1 (Ne.symm n2.2.1.1))
    | pref p' h1' h' =>
      obtain ⟨e1, e2, e3⟩ := tagged3_inj s4 (prefVar_no_RS _) (prefVar_no_RS _) (h1.no_RS H) (h1'.no_RS H) e
      rw [e1, h1.right H h1' e2, h.right H h' e3]
    | dist => exact absurd e (other_tag s4 s5 hasTag3 hasTag2 n1.2.2.1.1)
    | same => exact absurd e (other_tag s4 s6 hasTag3 hasTag2 n1.2.2.1.2)
  | dist h1 h =>
    cases h2 with
    | name h2 => exact absurd (e ▸ hasTag_mem hasTag2) (H.ok h2).1
    | count => exact absurd e (other_tag s5 s1 hasTag2 hasTag1 (Ne.symm n1.1.2.2.1))
    | node => exact absurd e (other_tag s5 s2 hasTag2 hasTag1 (Ne.symm n1.2.1.2.1))
    | comp => exact absurd e (other_tag s5 s3 hasTag2 hasTag1 (Ne.symm n2.2.1.2.1))
    | pref => exact absurd e (other_tag s5 s4 hasTag2 hasTag3 (Ne.symm n1.2.2.1.1))
    | dist h1' h' => exact tagG2_right H _ s5 h1 h h1' h' e
    | same => exact absurd e (other_tag s5 s6 hasTag2 hasTag2 n1.2.2.2)
  | same h1 h =>
    cases h2 with
    | name h2 => exact absurd (e ▸ hasTag_mem hasTag2) (H.ok h2).1
    | count => exact absurd e (other_tag s6 s1 hasTag2 hasTag1 (Ne.symm n1.1.2.2.2))
    | node => exact absurd e (other_tag s6 s2 hasTag2 hasTag1 (Ne.symm n1.2.1.2.2))
    | comp => exact absurd e (other_tag s6 s3 hasTag2 hasTag1 (Ne.symm n2.2.1.2.2))
    | pref => exact absurd e (other_tag s6 s4 hasTag2 hasTag3 (Ne.symm n1.2.2.1.2))
    | dist => exact absurd e (other_tag s6 s5 hasTag2 hasTag2 (Ne.symm n1.2.2.2))
    | same h1' h' => exact tagG2_right H _ s6 h1 h h1' h' e

theorem tagG_oneOne (hl : FullOk F) (hr : FullOk fun a b => F b a) (hok : t.Ok) : OneOne (TagG t F) :=
  ⟨fun a b => a.right hl hok b rfl, fun a b => a.flip.right hr hok b.flip rfl⟩

end

/-! ### The names of a context -/

section
variable {name : QVar → ScopePath → QVar} {q : Query} {t : Tags}

theorem suffix_cons' (g : Scope) (gs : List Scope) : suffix (g :: gs) = [sep] ++ g.target ++ [sep] ++ itoa g.vIdx ++ suffix gs := by
  rw [suffix_cons, suffixR_shape]

theorem suffix_path : ∀ {gs hs : List Scope}, (∀ g ∈ gs, sep ∉ g.target) → (∀ g ∈ hs, sep ∉ g.target) → suffix gs = suffix hs → pathOf gs = pathOf hs
  | [], [], _, _, _ => rfl
  | [], h :: hs, _, _, e => by rw [suffix_cons', suffixR_shape] at e; cases e
  | g :: gs, [], _, _, e => by rw [suffix_cons', suffixR_shape] at e; cases e
  | g :: gs, h :: hs, hg, hh, e => by
    rw [suffix_cons', suffix_cons', suffixR_shape, suffixR_shape] at e
    injection e with _ e
    obtain ⟨e1, e2⟩ := split_sep (hg g List.mem_cons_self) (hh h List.mem_cons_self) (.inr ⟨_, rfl⟩) (.inr ⟨_, rfl⟩) e
    injection e2 with _ e2
    obtain ⟨e3, e4⟩ := split_sep (US_not_mem_itoa _) (US_not_mem_itoa _) (suffix_tail gs) (suffix_tail hs) e2
    have := suffix_path (fun x hx => hg x (.tail _ hx)) (fun x hx => hh x (.tail _ hx)) e4
    unfold pathOf at this ⊢
    rw [List.map_cons, List.map_cons, e1, itoa_inj e3, this]
where suffix_tail : ∀ gs : List Scope, Tail (suffix gs)
  | [] => .inl rfl
  | g :: gs => .inr ⟨_, by rw [suffix_cons', suffixR_shape]⟩

/-- The names of the variables of the query. -/
def FullG (name : QVar → ScopePath → QVar) (q : Query) (a a' : QVar) : Prop := ∃ x ∈ q.varNames, NameR name q.idNames x a a'

theorem suffix_no_RS' : ∀ {gs : List Scope}, (∀ g ∈ gs, recSep ∉ g.target) → recSep ∉ suffix gs
  | [], _ => List.not_mem_nil
  | g :: gs, h => by
    rw [suffix_cons']
    have h1 : recSep ≠ sep := by decide
    have h2 := itoa_no_RS g.vIdx
    have h3 := h g List.mem_cons_self
    have h4 := suffix_no_RS' (gs := gs) fun x hx => h x (.tail _ hx)
    simp [h1, h2, h3, h4]

theorem fullG_left (hp : q.Plainly) : FullOk (FullG name q) := by
  constructor
  · rintro a a' ⟨x, hx, gs, h1, rfl, rfl⟩
    exact (hp.vars x hx).1.append (suffix_no_RS' fun g hg => (hp.ids _ (h1 g hg)).1)
  · rintro a b b' ⟨x, hx, gs, h1, rfl, rfl⟩ ⟨y, hy, hs, h2, e, rfl⟩
    obtain ⟨e1, e2⟩ := split_sep (hp.vars x hx).2 (hp.vars y hy).2 (suffix_path.suffix_tail gs) (suffix_path.suffix_tail hs) e
    rw [e1, suffix_path (fun g hg => (hp.ids _ (h1 g hg)).2) (fun g hg => (hp.ids _ (h2 g hg)).2) e2]

theorem suffix_eq_of_path : ∀ {gs hs : List Scope}, pathOf gs = pathOf hs → suffix gs = suffix hs
  | [], [], _ => rfl
  | [], _ :: _, e => by cases e
  | _ :: _, [], e => by cases e
  | g :: gs, h :: hs, e => by
    unfold pathOf at e
    rw [List.map_cons, List.map_cons] at e
    injection e with e1 e2
    injection e1 with e3 e4
    rw [suffix_cons', suffix_cons', e3, e4, suffix_eq_of_path (gs := gs) (hs := hs) e2]

theorem pathOf_mem {gs : List Scope} {ids : List (List Char)} (h : ∀ g ∈ gs, g.target ∈ ids) : ∀ g ∈ pathOf gs, g.1 ∈ ids := by
  intro g hg
  obtain ⟨x, hx, rfl⟩ := List.mem_map.1 hg
  exact h x hx

theorem fullG_right (ha : NamesApart name q.varNames q.idNames) : FullOk fun a b => FullG name q b a := by
  constructor
  · rintro a a' ⟨x, hx, gs, h1, rfl, rfl⟩
    exact ha.ok x hx _ (pathOf_mem h1)
  · rintro a b b' ⟨x, hx, gs, h1, rfl, rfl⟩ ⟨y, hy, hs, h2, rfl, e⟩
    obtain ⟨e1, e2⟩ := ha.inj x hx y hy _ _ (pathOf_mem h1) (pathOf_mem h2) e
    rw [e1, suffix_eq_of_path e2]

theorem varNames_of_atom {a : Atom} : ∀ {q : Query}, a ∈ q.atoms → ∀ T ∈ a.args, ∀ x ∈ T.varNames, x ∈ q.varNames
  | .nil, h, _, _, _, _ => by cases h
  | .atom b, h, T, hT, x, hx => by
    rw [List.mem_singleton.1 h] at hT
    exact List.mem_flatMap.2 ⟨T, hT, hx⟩
  | .and q1 q2, h, T, hT, x, hx =>
    (List.mem_append.1 h).elim (fun h => List.mem_append_left _ (varNames_of_atom h T hT x hx)) fun h => List.mem_append_right _ (varNames_of_atom h T hT x hx)
  | .or q1 q2, h, T, hT, x, hx =>
    (List.mem_append.1 h).elim (fun h => List.mem_append_left _ (varNames_of_atom h T hT x hx)) fun h => List.mem_append_right _ (varNames_of_atom h T hT x hx)
  | .not q, h, T, hT, x, hx => varNames_of_atom (q := q) h T hT x hx
  | .withVar _ q, h, T, hT, x, hx => List.mem_cons_of_mem _ (varNames_of_atom (q := q) h T hT x hx)
  | .forallG _ q, h, T, hT, x, hx => varNames_of_atom (q := q) h T hT x hx

theorem key_argG {T : Term} (hv : ∀ x ∈ T.varNames, x ∈ q.varNames) {a a' : QVar} (h : T.KeyG name q.idNames a a') : ArgG (FullG name q) a a' := by
  cases T with
  | var x => exact .name ⟨x, hv x (by simp [Term.varNames]), h⟩
  | const c => obtain ⟨k, rfl, rfl⟩ := h; exact .vals k

theorem atom_gens {a : Atom} (ha : a ∈ q.atoms) (ht : a.TaggedBy t) : a.GensR name q.idNames (TagG t (FullG name q)) := by
  have ka : ∀ T ∈ a.args, ∀ {u u'}, T.KeyG name q.idNames u u' → ArgG (FullG name q) u u' :=
    fun T hT _ _ h => key_argG (varNames_of_atom ha T hT) h
  clear ha
  cases a with
  | lel t1 t2 g =>
    cases g with
    | none => trivial
    | some g =>
      intro T hT hv a a' h
      have e : g = tagged1 t.count := by
        have := ht (by
          simp only [List.mem_cons, List.not_mem_nil, or_false] at hT
          rcases hT with rfl | rfl
          · exact .inl hv
          · exact .inr hv)
        injection this
      rw [e]
      exact .count (ka T hT h)
  | isnode t1 g =>
    cases g with
    | none => trivial
    | some g =>
      intro hv a a' h
      have e := ht hv
      injection e with e
      rw [e]
      exact .node (ka t1 (by simp [Atom.args]) h)
  | allcomp t1 b g =>
    cases g with
    | none => trivial
    | some g =>
      intro hv a a' h
      have e := ht hv
      injection e with e
      rw [e]
      exact .comp (ka t1 (by simp [Atom.args]) h)
  | hepr t1 t2 p g =>
    cases g with
    | none => trivial
    | some g =>
      intro hv a a' b b' h h'
      have e := ht hv
      injection e with e
      rw [e]
      exact .pref p (ka t1 (by simp [Atom.args]) h) (ka t2 (by simp [Atom.args]) h')
  | leh t1 t2 t3 g e =>
    refine ⟨fun g' hg' T hT U hU hv a a' b b' h h' => ?_, fun e' he' T hT hv1 hv a a' b b' h h' => ?_⟩
    · have e2 := ht.1 (by
        simp only [List.mem_cons, List.not_mem_nil, or_false] at hT
        rcases hT with rfl | rfl | rfl
        · exact .inl hv
        · exact .inr (.inl hv)
        · exact .inr (.inr hv))
      rw [hg'] at e2
      injection e2 with e2
      rw [e2]
      exact .dist (ka T hT h) (ka U hU h')
    · have e2 := ht.2 ⟨hv1, by
        simp only [List.mem_cons, List.not_mem_nil, or_false] at hT
        rcases hT with rfl | rfl
        · exact .inl hv
        · exact .inr hv⟩
      rw [he'] at e2
      injection e2 with e2
      rw [e2]
      exact .same (ka t1 (by simp [Atom.args]) h) (ka T (List.mem_cons_of_mem _ hT) h')
  | _ => trivial

/-- Queries with the generators of the tests, over contexts with other names. -/
theorem namesFit_tagged (hok : t.Ok) (ht : ∀ a ∈ q.atoms, a.TaggedBy t) (hp : q.Plainly) (ha : NamesApart name q.varNames q.idNames) :
    q.NamesFit name (TagG t (FullG name q)) where
  oneOne := tagG_oneOne (fullG_left hp) (fullG_right ha) hok
  var x hx _ _ h := .name ⟨x, hx, h⟩
  gens a h := atom_gens h (ht a h)

end

end Goexpdt

import Verif.Lemmas.CaptureBind
/- The names an encoding declares. -/
namespace Goexpdt
open Spec

variable {W : World} {Γ : List QVar} {stack : List Scope}

/-! ### declared names -/

/-- After a successful encoding the names `ns` are declared. -/
def Declares (W : World) (Γ : List QVar) (stack : List Scope) (act : M CNF) (ns : QVar → Prop) : Prop :=
  ∀ s, Pre W Γ s → s.scopes = stack → ∀ n, ns n → Declared (act s).2 n

section
variable {q q1 q2 : M CNF} {P P1 P2 : Asg → Prop} {ns ns1 ns2 : QVar → Prop}

theorem declared_updateTopV {s : Ctx} {v : Int} {n : QVar} (h : Declared s n) :
    Declared (s.updateTopV v).2 n := by
  have hm : (s.updateTopV v).2.vmap = s.vmap := by
    unfold Ctx.updateTopV; split <;> rfl
  exact (Named.of_vm hm).2 h

theorem Declares.encAnd (h1 : Captures W Γ stack q1 P1) (h2 : Captures W Γ stack q2 P2)
    (d1 : Declares W Γ stack q1 ns1) (d2 : Declares W Γ stack q2 ns2) :
    Declares W Γ stack (encAnd (some q1) (some q2)) (fun n => ns1 n ∨ ns2 n) := by
  intro s hp hs n hn
  obtain ⟨c1, s1, e1, p1⟩ := h1 s hp hs
  have hs1 := p1.moves.scopes.trans hs
  obtain ⟨c2, s2, e2, p2⟩ := h2 s1 p1.moves.pre hs1
  have hst : (Goexpdt.encAnd (some q1) (some q2) s).2 = s2 := by
    unfold Goexpdt.encAnd
    rw [wrapErr_snd]
    show (andBuild q1 q2 s).2 = _
    unfold andBuild
    rw [M_bind_ok (wrapErr_ok e1), M_bind_ok (wrapErr_ok e2)]; rfl
  rw [hst]
  rcases hn with hn | hn
  · have := d1 s hp hs n hn
    rw [e1] at this
    exact this.ext p2.moves.ext
  · have := d2 s1 p1.moves.pre hs1 n hn
    rw [e2] at this
    exact this

theorem Declares.encOr (h1 : Captures W Γ stack q1 P1) (h2 : Captures W Γ stack q2 P2)
    (d1 : Declares W Γ stack q1 ns1) (d2 : Declares W Γ stack q2 ns2) :
    Declares W Γ stack (encOr (some q1) (some q2)) (fun n => ns1 n ∨ ns2 n) := by
  intro s hp hs n hn
  obtain ⟨c1, s1, e1, p1⟩ := h1 s hp hs
  have hs1 := p1.moves.scopes.trans hs
  obtain ⟨c2, s2, e2, p2⟩ := h2 s1 p1.moves.pre hs1
  have hd : Declared s2 n := by
    rcases hn with hn | hn
    · have := d1 s hp hs n hn
      rw [e1] at this
      exact this.ext p2.moves.ext
    · have := d2 s1 p1.moves.pre hs1 n hn
      rw [e2] at this
      exact this
  unfold Goexpdt.encOr
  rw [wrapErr_snd]
  simp only [orBuild_eq]
  rw [M_bind_ok (wrapErr_ok e1), M_bind_ok (wrapErr_ok e2), M_bind_ok (negStep_eq c1 s2),
    M_bind_ok (negStep_eq c2 _), negStep_eq]
  exact declared_updateTopV (declared_updateTopV (declared_updateTopV hd))

theorem Declares.encNot (h : Captures W Γ stack q P) (d : Declares W Γ stack q ns) :
    Declares W Γ stack (encNot (some q)) ns := by
  intro s hp hs n hn
  obtain ⟨c1, s1, e1, p1⟩ := h s hp hs
  have hd := d s hp hs n hn
  rw [e1] at hd
  unfold Goexpdt.encNot
  rw [wrapErr_snd]
  simp only [notBuild_eq]
  rw [M_bind_ok e1, negStep_eq]
  exact declared_updateTopV hd

theorem Declares.encWithVar {x : QVar} (hd : W.depth x = stack.length) (hin : W.isInst (W.nm stack x))
    (hmay : W.may (W.nm stack x)) (h : Captures W (x :: Γ) stack q P) (hD : Declares W (x :: Γ) stack q ns) :
    Declares W Γ stack (encWithVar x (some q)) (fun n => n = W.nm stack x ∨ ns n) := by
  intro s hp hs n hn
  subst hs
  obtain ⟨m1, hv, hvars⟩ := addVar_pre hp hd
  obtain ⟨a, b, c⟩ := addVar_other s x
  obtain ⟨c1, s1, e1, p1⟩ := encodeI_post (x := x) m1.pre (by rw [a.scopes]; exact hd)
    (by rw [a.scopes]; exact hv) hvars (by rw [a.scopes]; exact hin)
    (by rw [a.scopes]; exact hmay)
  have hs1 := p1.moves.scopes.trans a.scopes
  obtain ⟨c2, s2, e2, p2⟩ := h s1 p1.moves.pre hs1
  have hst : (Goexpdt.encWithVar x (some q) s).2 = s2 := by
    unfold Goexpdt.encWithVar
    rw [wrapErr_snd]
    show ((M.addVar x >>= fun _ => withVarBuild x q) s).2 = _
    have e0 : M.addVar x s = (.ok (), s.addVar x) := rfl
    rw [M_bind_ok e0, withVarBuild_eq, M_bind_ok e1, M_bind_ok e2]; rfl
  rw [hst]
  rcases hn with rfl | hn
  · have := (p2.moves.pre.free x (by simp)).2.2.2
    rw [p2.moves.scopes, hs1] at this
    exact this
  · have := hD s1 p1.moves.pre hs1 n hn
    rw [e2] at this
    exact this

theorem forallFold_declares {tgt : List Char} {Ps : Nat → Asg → Prop} {nss : Nat → QVar → Prop}
    (hΓ : ∀ x ∈ Γ, W.depth x ≤ stack.length) (ts : List (List FeatV)) :
    ∀ (i : Nat) (ncnf : CNF) (s : Ctx) (g : Scope),
      (∀ j t, ts[j]? = some t → Captures W Γ (stack ++ [⟨tgt, t, ((i + j : Nat) : Int)⟩]) q (Ps (i + j)) ∧
        Declares W Γ (stack ++ [⟨tgt, t, ((i + j : Nat) : Int)⟩]) q (nss (i + j))) →
      s.scopes = stack ++ [g] → g.target = tgt → Pre W Γ s →
      ∀ n, (Declared s n ∨ ∃ j < ts.length, nss (i + j) n) → Declared (forallFold q ts i ncnf s).2 n := by
  induction ts with
  | nil =>
    intro i ncnf s g _ hs _ hp n hn
    rcases hn with hn | ⟨j, hj, -⟩
    · exact hn
    · simp at hj
  | cons t ts ih =>
    intro i ncnf s g hch hs hg hp n hn
    have hp1 := hp.rescope (g' := { g with vIdx := (i : Nat), value := t }) hs hΓ
    obtain ⟨hc, hD⟩ := hch 0 t (by simp)
    obtain ⟨c2, s2, e2, p2⟩ := hc _ hp1 (by simp [← hg])
    have h2 : s2.scopes = stack ++ [{ g with vIdx := (i : Nat), value := t }] := p2.moves.scopes
    have key := ih (i + 1) (ncnf.conjunction c2) s2 { g with vIdx := (i : Nat), value := t } (by
        intro j t' hj
        have := hch (j + 1) t' (by simpa using hj)
        rw [show i + 1 + j = i + (j + 1) by omega]
        exact this) h2 hg p2.moves.pre n
    simp only [forallFold]
    rw [M_bind_ok (setScope_append hs (i : Nat) t), M_bind_ok e2]
    apply key
    rcases hn with hn | ⟨j, hj, hn⟩
    · exact .inl (Declared.ext p2.moves.ext hn)
    · cases j with
      | zero =>
        have := hD _ hp1 (by simp [← hg]) n hn
        rw [e2] at this
        exact .inl this
      | succ j =>
        refine .inr ⟨j, by simpa using hj, ?_⟩
        rw [show i + 1 + j = i + (j + 1) by omega]
        exact hn

theorem Declares.encForall {k : QConst} {Ps : Nat → Asg → Prop} {nss : Nat → QVar → Prop} {ws : List WalkSt}
    (hok : newNodeAsValuesIter W.dim W.nodes = .ok (WalkSt.init W.dim W.nodes.length))
    (hws : Iterates W.nodes (WalkSt.init W.dim W.nodes.length) ws)
    (hch : ∀ i w, ws[i]? = some w → Captures W Γ (stack ++ [⟨k.id, w.t, (i : Nat)⟩]) q (Ps i) ∧
      Declares W Γ (stack ++ [⟨k.id, w.t, (i : Nat)⟩]) q (nss i)) :
    Declares W Γ stack (encForall k (some q)) (fun n => ∃ i < ws.length, nss i n) := by
  intro s hp hs n hn
  subst hs
  have hΓ : ∀ x ∈ Γ, W.depth x ≤ s.scopes.length := fun x hx => (hp.free x hx).2.1
  have hp0 := hp.addScope k.id
  have hch' : ∀ j t, (ws.map (·.t))[j]? = some t →
      Captures W Γ (s.scopes ++ [⟨k.id, t, ((0 + j : Nat) : Int)⟩]) q (Ps (0 + j)) ∧
        Declares W Γ (s.scopes ++ [⟨k.id, t, ((0 + j : Nat) : Int)⟩]) q (nss (0 + j)) := by
    intro j t hj
    simp only [List.getElem?_map, Option.map_eq_some_iff] at hj
    obtain ⟨w, hw, rfl⟩ := hj
    simpa using hch j w hw
  obtain ⟨c, s', g', e, p⟩ := forallFold_captures (q := q) (Ps := Ps) (tgt := k.id) hΓ (ws.map (·.t)) 0 {}
    (s.addScope k.id) (s.addScope k.id) { target := k.id } (fun _ => True)
    (fun j t hj => (hch' j t hj).1) rfl rfl (.true hp0)
  have hbody : forallBody q (s.addScope k.id) = (.ok c, s') := by
    rcases forallBody_eq q (s.addScope k.id) with ⟨e', h1, -⟩ | ⟨ws', h1, -, h2⟩
    · rw [hp0.dim, hp0.nodes, hok] at h1; simp at h1
    · rw [hp0.dim, hp0.nodes] at h1
      rw [h2, h1.unique hws]
      exact e
  have hsc : s'.scopes = s.scopes ++ [g'] := p.moves.scopes
  have hne : s'.scopes ≠ [] := by rw [hsc]; simp
  have p2 : s'.popScope.2.vmap = s'.vmap := by unfold Ctx.popScope; split <;> rfl
  unfold Goexpdt.encForall
  rw [wrapErr_snd]
  show Declared (forallBuild k q s).2 n
  rw [forallBuild_of hbody hne]
  refine (Named.of_vm p2).2 ?_
  have := forallFold_declares (q := q) (Ps := Ps) (nss := nss) (tgt := k.id) hΓ (ws.map (·.t)) 0 {}
    (s.addScope k.id) { target := k.id } hch' rfl rfl hp0 n (.inr (by simpa using hn))
  rw [e] at this
  exact this

end

end Goexpdt

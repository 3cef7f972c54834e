import Verif.Lemmas.Halts
import Verif.Lemmas.FactsExt
import Verif.Spec.Valid
/- Which queries are encoded. -/
namespace Goexpdt
open Spec

/-- Not an error value. -/
def NM {α : Type} (r : Except Err α) : Prop := ∀ m, r ≠ .error (.msg m)

section
variable {s : Ctx}

theorem NM.ok {α : Type} (a : α) : NM (.ok a : Except Err α) := by intro m; simp
theorem NM.panic {α : Type} (m : String) : NM (.error (.panic m) : Except Err α) := by intro m; simp
theorem NM.diverge {α : Type} : NM (.error .diverge : Except Err α) := by intro m; simp

theorem nm_emit (st : List Step) : NM (emit st s).1 := by
  obtain ⟨k, s', e, -⟩ := emitFrom_keeps st {} s
  rw [emit, e]; exact .ok k
theorem nm_emitF (cls : List SClause) (st : List Step) : NM (emitF cls st s).1 := by
  rw [emitF_eq]; exact nm_emit _

theorem nm_lift {α : Type} {r : Except Err α} {f : α → M CNF} (hr : NM r)
    (h : ∀ a, r = .ok a → NM (f a s).1) : NM ((M.lift r >>= f) s).1 := by
  cases r with
  | ok a => exact h a rfl
  | error e =>
    have e1 : M.lift (.error e : Except Err α) s = (.error e, s) := rfl
    rw [M_bind_error e1]
    intro m h'
    exact hr m (by simpa using h')

theorem scopeVar_nm (s : Ctx) (v : QVar) : NM (s.scopeVar v) := by
  unfold Ctx.scopeVar
  repeat' split
  all_goals first | exact .ok _ | exact .panic _

theorem nm_scopeVar {v : QVar} {f : QVar → M CNF} (h : ∀ a, NM (f a s).1) : NM ((M.scopeVar v >>= f) s).1 := by
  have : ((M.scopeVar v >>= f) s) = (M.lift (s.scopeVar v) >>= f) s := rfl
  rw [this]
  exact nm_lift (scopeVar_nm s v) fun a _ => h a
theorem nm_scopeConst {c : QConst} {f : QConst → M CNF} (h : NM (f (s.scopeConst c).1 s).1) :
    NM ((M.scopeConst c >>= f) s).1 := h
theorem nm_dim {f : Nat → M CNF} (h : NM (f s.dim s).1) : NM ((M.dim >>= f) s).1 := h
theorem nm_nodes {f : List Node → M CNF} (h : NM (f s.nodes s).1) : NM ((M.nodes >>= f) s).1 := h

theorem validate_ok {d : Nat} {cs : List QConst} (h : ∀ c ∈ cs, c.val.length = d) : ValidateConstsDim d cs = .ok () := by
  have : ∀ (cs : List QConst) i, (∀ c ∈ cs, c.val.length = d) → validateConstsDimFrom d i cs = .ok () := by
    intro cs
    induction cs with
    | nil => intro i _; rfl
    | cons a cs ih =>
      intro i h
      simp only [validateConstsDimFrom]
      rw [if_neg (by simpa using h a (by simp))]
      exact ih _ fun c hc => h c (by simp [hc])
  exact this cs 0 h

theorem nm_validate {cs : List QConst} {f : Unit → M CNF} (hl : ∀ c ∈ cs, c.val.length = s.dim) (h : NM (f () s).1) :
    NM ((validateM cs >>= f) s).1 :=
  nm_lift (s := s) (f := f) (by rw [validate_ok hl]; exact .ok _) fun _ _ => h

theorem nm_pref {p : List Int} {d : Nat} {f : Unit → M CNF} (hp : (∀ i ∈ p, 0 ≤ i ∧ i < d) ∧ p.Nodup) (h : NM (f () s).1) :
    NM ((M.lift (validatePref p d) >>= f) s).1 :=
  nm_lift (by rw [validatePref_ok.2 hp]; exact .ok _) fun _ _ => h

theorem indexed_nm (is : List Int) (cs : List QConst) : NM (indexed is cs) := by
  rcases indexed_cases is cs with hx | hx <;> rw [hx]
  · exact .ok _
  · exact .panic _

theorem hdCC_nm {c1 c2 : QConst} (h : c1.val.length = c2.val.length) : NM (hammingDistCC c1 c2) := by
  unfold hammingDistCC
  rw [if_neg (by simpa using h)]
  exact .ok _

theorem hdVC_nm {d : Nat} {v : QVar} {c : QConst} {w : QVar} (h : c.val.length = d) : NM (hammingDistVC d v c w) := by
  unfold hammingDistVC
  rw [validate_ok (by simpa using h)]
  simp only
  rcases indexed_cases (0 :: upto d) [c] with hx | hx <;> rw [hx]
  · exact .ok _
  · exact .panic _

theorem isnodeLoop_nm {d : Nat} {sc : QConst} {nodes : List Node} (hv : Valid d nodes) (fuel : Nat) :
    ∀ n v, n ∈ nodes → NM (isnodeLoop d sc nodes fuel n v) := by
  induction fuel with
  | zero => intro n v _; exact .diverge
  | succ k ih =>
    intro n v hn
    obtain ⟨i, hi⟩ := List.mem_iff_getElem?.1 hn
    simp only [isnodeLoop]
    split
    · exact .ok _
    · next hl =>
      obtain ⟨f1, f2, z1, z2, o1, o2⟩ := hv i n hi (by simpa using hl)
      have hz : ¬ (n.zChild < 0 ∨ n.zChild ≥ nodes.length) := by omega
      have ho : ¬ (n.oChild < 0 ∨ n.oChild ≥ nodes.length) := by omega
      rw [if_neg (by omega)]
      rcases indexed_cases [n.feat] [sc] with hx | hx <;> rw [hx] <;> simp only [if_neg hz, if_neg ho]
      · repeat' split
        · exact .ok _
        · exact ih _ _ (List.mem_of_getElem? (getElem?_nodeAt (by omega)))
        · exact ih _ _ (List.mem_of_getElem? (getElem?_nodeAt (by omega)))
      · exact .panic _

theorem acLoop_nm {d : Nat} {sc : QConst} {b : Bool} {nodes : List Node} (hv : Valid d nodes) (fuel : Nat) :
    ∀ vis stk, (∀ n ∈ stk, n ∈ nodes) → NM (acLoop d sc b nodes fuel vis stk) := by
  induction fuel with
  | zero => intro vis stk _; exact .diverge
  | succ k ih =>
    intro vis stk hs
    cases stk with
    | nil => exact .ok _
    | cons n stk =>
      have hsk : ∀ m ∈ stk, m ∈ nodes := fun m hm => hs m (List.mem_cons_of_mem _ hm)
      obtain ⟨i, hi⟩ := List.mem_iff_getElem?.1 (hs n (List.mem_cons_self ..))
      simp only [acLoop]
      split
      · split
        · exact .ok _
        · exact ih _ _ hsk
      · next hl =>
        obtain ⟨f1, f2, z1, z2, o1, o2⟩ := hv i n hi (by simpa using hl)
        rw [if_neg (by omega)]
        rcases indexed_cases [n.feat] [sc] with hx | hx <;> rw [hx] <;> simp only
        · split
          · obtain ⟨r, e, h1⟩ := acPush_valid (vis := vis) ⟨z1, z2⟩ hsk
            obtain ⟨r', e', h1'⟩ := acPush_valid (vis := r.1) ⟨o1, o2⟩ h1
            rw [e]
            simp only [e']
            exact ih _ _ h1'
          · split
            · obtain ⟨r, e, h1⟩ := acPush_valid (vis := vis) ⟨z1, z2⟩ hsk
              rw [e]
              exact ih _ _ h1
            · split
              · obtain ⟨r, e, h1⟩ := acPush_valid (vis := vis) ⟨o1, o2⟩ hsk
                rw [e]
                exact ih _ _ h1
              · exact ih _ _ hsk
        · exact .panic _

theorem nodeAt_mem {nodes : List Node} {i : Nat} (h : i < nodes.length) : nodeAt nodes i ∈ nodes :=
  List.mem_of_getElem? (getElem?_nodeAt h)

/-- In a valid acyclic model a leaf can be reached. -/
theorem leaf_reached {d : Nat} {nodes : List Node} (hne : nodes ≠ []) (hv : Valid d nodes) (ha : Acyclic nodes) :
    ∃ i, Reach nodes i ∧ (nodeAt nodes i).isLeaf = true := by
  refine Classical.byContradiction fun hno => ?_
  have hlen : 0 < nodes.length := List.length_pos_iff.2 hne
  let sc : QConst := { val := List.replicate d ZERO }
  have hstep : ∀ i, i < nodes.length → Reach nodes i →
      ∃ j, isnodeNext d sc nodes i = some j ∧ j < nodes.length ∧ Reach nodes j := by
    intro i hi hr
    have hl : (nodeAt nodes i).isLeaf = false := by
      cases h : (nodeAt nodes i).isLeaf with
      | false => rfl
      | true => exact absurd ⟨i, hr, h⟩ hno
    obtain ⟨f1, f2, z1, z2, o1, o2⟩ := hv i _ (getElem?_nodeAt hi) hl
    have hat : sc.at (nodeAt nodes i).feat.toNat = ZERO := by
      simp only [QConst.at, sc, List.getD_eq_getElem?_getD, List.getElem?_replicate]
      rw [if_pos (by omega)]; rfl
    refine ⟨(nodeAt nodes i).zChild.toNat, ?_, by omega, .zero hr (getElem?_nodeAt hi) hl (by omega)⟩
    unfold isnodeNext
    simp only
    rw [if_neg (by simp [hl]), if_neg (by omega), if_neg (by rw [indexed_ok (by simp [sc]; omega)]; simp), hat,
      if_neg (by decide), if_pos rfl, if_neg (by omega)]
  have hall : ∀ k i, i < nodes.length → Reach nodes i → (isnodeIter d sc nodes k i).isSome = true := by
    intro k
    induction k with
    | zero => intro i _ _; rfl
    | succ k ih =>
      intro i hi hr
      obtain ⟨j, h1, h2, h3⟩ := hstep i hi hr
      simp only [isnodeIter, h1, Option.bind_some]
      exact ih j h2 h3
  exact isnodeLoop_halts (dim := d) (sc := sc) (vis := []) ha hlen (Nat.le_refl _)
    ((isnodeLoop_diverge _ _ _).2 (hall nodes.length 0 hlen .root))

/-- What `leafsAsConsts` gives. -/
theorem leafs_some {d : Nat} {nodes : List Node} (hne : nodes ≠ []) (hv : Valid d nodes) (ha : Acyclic nodes) :
    ∃ p n, leafsAsConsts d nodes = .ok (p, n) ∧ ¬ (p.length = 0 ∧ n.length = 0) ∧ ∀ c ∈ p ++ n, c.val.length = d := by
  obtain ⟨ws, a, b, -, hr, hl⟩ := iterates_init hne hv
  unfold leafsAsConsts
  rw [validate_of_valid hv]
  simp only [if_neg (show ¬ nodes.length = 0 by simpa using hne)]
  rw [leafsLoop_spec a _ _ _ (by omega)]
  refine ⟨_, _, rfl, ?_, ?_⟩
  · obtain ⟨i, h1, h2⟩ := leaf_reached hne hv ha
    obtain ⟨w, hw, rfl⟩ := List.mem_map.1 ((hr i).2 h1)
    rintro ⟨e1, e2⟩
    simp only [List.nil_append, List.length_map, List.length_eq_zero_iff, List.filter_eq_nil_iff] at e1 e2
    have h3 := e1 w hw
    have h4 := e2 w hw
    simp only [h2, Bool.true_and] at h3 h4
    cases hx : (nodeAt nodes w.cp).value <;> simp [hx] at h3 h4
  · intro c hc
    simp only [List.nil_append, List.mem_append, List.mem_map, List.mem_filter] at hc
    rcases hc with ⟨w, ⟨hw, -⟩, rfl⟩ | ⟨w, ⟨hw, -⟩, rfl⟩ <;> exact hl w hw

theorem dfsOuter_nm {sc : QConst} {ns ps : List QConst} (h : ∀ c ∈ ps ++ ns, c.val.length = sc.val.length) :
    NM (dfsOuter sc ns ps) := by
  have hi : ∀ p, p.val.length = sc.val.length → ∀ ns : List QConst, (∀ c ∈ ns, c.val.length = sc.val.length) → NM (dfsInner sc p ns) := by
    intro p hp ns
    induction ns with
    | nil => intro _; exact .ok _
    | cons n ns ih =>
      intro hn
      have := hn n (by simp)
      simp only [dfsInner, leafCompare]
      rw [if_neg (by omega), indexed_upto (by simp; omega)]
      simp only [Except.map]
      split
      · next he => simp at he
      · exact .ok _
      · exact ih fun c hc => hn c (by simp [hc])
  induction ps with
  | nil => exact .ok _
  | cons p ps ih =>
    simp only [dfsOuter]
    have h1 := hi p (h p (by simp)) ns fun c hc => h c (by simp [hc])
    split
    · next e he => rw [he] at h1; intro m hm; simp only [Except.error.injEq] at hm; exact h1 m (by rw [hm])
    · exact .ok _
    · exact ih fun c hc => h c (by grind)

theorem dfsClauses_nm {d : Nat} {v : QVar} {ls : List (QConst × QConst)} (h : ∀ p ∈ ls, p.1.val.length = d ∧ p.2.val.length = d) :
    NM (dfsClauses d v ls) := by
  induction ls with
  | nil => exact .ok _
  | cons p ls ih =>
    obtain ⟨p, n⟩ := p
    obtain ⟨h1, h2⟩ := h (p, n) (by simp)
    simp only at h1 h2
    simp only [dfsClauses, notAWitnessClause]
    rw [if_neg (by omega), indexed_upto (by simp; omega)]
    simp only [Except.map]
    have := ih fun q hq => h q (by simp [hq])
    split
    · next e he => rw [he] at this; intro m hm; simp only [Except.error.injEq] at hm; exact this m (by rw [hm])
    · exact .ok _

theorem nm_ite {p : Prop} [Decidable p] {x y : M CNF} (hx : p → NM (x s).1)
    (hy : ¬ p → NM (y s).1) : NM ((if p then x else y) s).1 := by
  split
  · next h => exact hx h
  · next h => exact hy h

theorem nm_pure (c : CNF) : NM ((pure c : M CNF) s).1 := .ok c
theorem nm_panic (m : String) : NM ((M.throw (.panic m) : M CNF) s).1 := .panic m
theorem nm_true : NM (retTrue s).1 := .ok _
theorem nm_false : NM (retFalse s).1 := .ok _

end

macro "clean" : tactic => `(tactic| repeat' (first
  | with_reducible refine nm_ite (fun _ => ?_) (fun _ => ?_)
  | with_reducible exact nm_pure _
  | with_reducible exact nm_panic _
  | with_reducible exact nm_true
  | with_reducible exact nm_false
  | with_reducible exact nm_emit _
  | with_reducible exact nm_emitF _ _
  | with_reducible refine nm_scopeVar fun _ => ?_
  | with_reducible refine nm_scopeConst ?_
  | with_reducible refine nm_dim ?_
  | with_reducible refine nm_nodes ?_
  | with_reducible refine nm_validate (by grind) ?_
  | with_reducible refine nm_pref ‹_› ?_
  | with_reducible refine nm_lift (indexed_nm _ _) fun _ _ => ?_
  | with_reducible refine nm_lift (hdCC_nm (by grind)) fun _ _ => ?_
  | with_reducible refine nm_lift (hdVC_nm (by grind)) fun _ _ => ?_))

theorem Atom.nm (a : Atom) {s : Ctx} (hs : Sane s) (hac : Acyclic s.nodes) (hg : Spec.Atom.nilGen a = false)
    (hd : ∀ c ∈ Spec.Atom.consts a, (s.scopeConst c).1.val.length = s.dim) (hp : a.PrefOk s.dim) : NM (a.encode s).1 := by
  have hlen : 0 < s.nodes.length := List.length_pos_iff.2 hs.ne
  obtain ⟨lp, ln, hleafs, hsome, hdims⟩ := leafs_some hs.ne hs.valid hac
  unfold Atom.encode
  split <;> simp only [Spec.Atom.consts, Spec.Term.consts, List.cons_append, List.nil_append, List.append_nil, List.mem_cons, List.not_mem_nil,
    or_false, forall_eq_or_imp, forall_eq, false_implies, implies_true] at hd
  · unfold subsConstConst; clean
  · unfold subsConstVar; clean
  · unfold subsVarConst; clean
  · unfold subsVarVar; clean
  · unfold lelConstConst; clean
  · next g => unfold lelConstVar; cases g <;> first | (simp [Spec.Atom.nilGen, Spec.Term.isVar] at hg; done) | (simp only; clean)
  · next g => unfold lelVarConst; cases g <;> first | (simp [Spec.Atom.nilGen, Spec.Term.isVar] at hg; done) | (simp only; clean)
  · next g => unfold lelVarVar; cases g <;> first | (simp [Spec.Atom.nilGen, Spec.Term.isVar] at hg; done) | (simp only; clean)
  · unfold isnodeConst
    refine nm_scopeConst (nm_validate (by grind) (nm_dim (nm_nodes ?_)))
    refine nm_ite (fun h => absurd h (by omega)) fun _ => ?_
    refine nm_lift (isnodeLoop_nm hs.valid _ _ _ (nodeAt_mem hlen)) fun _ _ => ?_
    clean
  · next g =>
    unfold isnodeVar
    cases g
    · simp [Spec.Atom.nilGen, Spec.Term.isVar] at hg
    · refine nm_nodes (nm_ite (fun h => absurd h (by omega)) fun _ => ?_)
      clean
  · unfold fullConst; clean
  · unfold fullVar; clean
  · unfold consConstConst; try unfold consConstRet
    clean
  · unfold consConstVar; try unfold consConstRet
    clean
  · unfold consVarConst; try unfold consConstRet
    clean
  · unfold consVarVar; try unfold consConstRet
    clean
  · unfold allcompConst
    refine nm_scopeConst (nm_validate (by grind) (nm_dim (nm_nodes ?_)))
    refine nm_ite (fun h => absurd h (by omega)) fun _ => ?_
    refine nm_lift (acLoop_nm hs.valid _ _ _ fun n hn => ?_) fun _ _ => ?_
    · simp only [List.mem_cons, List.not_mem_nil, or_false] at hn
      subst hn
      exact nodeAt_mem hlen
    · clean
  · next g =>
    unfold allcompVar
    cases g
    · simp [Spec.Atom.nilGen, Spec.Term.isVar] at hg
    · refine nm_nodes (nm_ite (fun h => absurd h (by omega)) fun _ => ?_)
      clean
  · unfold dfsConst
    refine nm_scopeConst (nm_validate (by grind) (nm_dim (nm_nodes ?_)))
    rw [hleafs]
    refine nm_lift (.ok _) fun a ha => ?_
    simp only [Except.ok.injEq] at ha
    subst ha
    refine nm_ite (fun h => absurd h hsome) fun _ => ?_
    refine nm_lift (dfsOuter_nm fun c hc => (hdims c hc).trans hd.symm) fun _ _ => ?_
    clean
  · unfold dfsVar
    refine nm_scopeVar fun v => nm_dim (nm_nodes ?_)
    rw [hleafs]
    refine nm_lift (.ok _) fun a ha => ?_
    simp only [Except.ok.injEq] at ha
    subst ha
    refine nm_ite (fun h => absurd h hsome) fun _ => ?_
    refine nm_lift (dfsClauses_nm fun c hc => ?_) fun _ _ => ?_
    · simp only [List.mem_flatMap, List.mem_map] at hc
      obtain ⟨p, hp, n, hn, rfl⟩ := hc
      exact ⟨hdims p (by simp [hp]), hdims n (by simp [hn])⟩
    · clean
  · simp only [Atom.PrefOk] at hp; unfold heprConstConst; clean
  · next g => simp only [Atom.PrefOk] at hp; unfold heprConstVar; cases g <;> first | (simp [Spec.Atom.nilGen, Spec.Term.isVar] at hg; done) | (simp only; clean)
  · next g => simp only [Atom.PrefOk] at hp; unfold heprVarConst; cases g <;> first | (simp [Spec.Atom.nilGen, Spec.Term.isVar] at hg; done) | (simp only; clean)
  · next g => simp only [Atom.PrefOk] at hp; unfold heprVarVar; cases g <;> first | (simp [Spec.Atom.nilGen, Spec.Term.isVar] at hg; done) | (simp only; clean)
  · unfold lehConstConstConst; clean
    next c1 c2 c3 _ _ _ =>
    cases hammingDistCC (s.scopeConst c1).1 (s.scopeConst c2).1 <;>
      cases hammingDistCC (s.scopeConst c1).1 (s.scopeConst c3).1 <;> simp only <;> clean
  · next g _ => unfold lehConstConstVar; cases g <;> first | (simp [Spec.Atom.nilGen, Spec.Term.isVar] at hg; done) | (simp only; clean)
  · next g _ => unfold lehConstVarConst; cases g <;> first | (simp [Spec.Atom.nilGen, Spec.Term.isVar] at hg; done) | (simp only; clean)
  · next g _ => unfold lehConstVarVar; cases g <;> first | (simp [Spec.Atom.nilGen, Spec.Term.isVar] at hg; done) | (simp only; clean)
  · next g _ => unfold lehVarConstConst; cases g <;> first | (simp [Spec.Atom.nilGen, Spec.Term.isVar] at hg; done) | (simp only; clean)
  · next g e => unfold lehVarConstVar; cases g <;> cases e <;> first | (simp [Spec.Atom.nilGen, Spec.Term.isVar] at hg; done) | (simp only; clean)
  · next g e => unfold lehVarVarConst; cases g <;> cases e <;> first | (simp [Spec.Atom.nilGen, Spec.Term.isVar] at hg; done) | (simp only; clean)
  · next g e => unfold lehVarVarVar; cases g <;> cases e <;> first | (simp [Spec.Atom.nilGen, Spec.Term.isVar] at hg; done) | (simp only; clean)


/-! ### The converse -/

theorem Atom.rej_pref (a : Atom) (s : Ctx) (h : ¬ a.PrefOk s.dim) : ∃ e, (a.encode s).1 = .error e := by
  cases a with
  | hepr t1 t2 p g =>
    have hbad : ∀ u, validatePref p s.dim ≠ .ok u := fun _ hv => h (validatePref_ok.1 hv)
    have key : ∀ f : Unit → M CNF, ∃ e, ((M.dim >>= fun d => M.lift (validatePref p d) >>= f) s).1 = .error e := by
      intro f
      show ∃ e, ((M.lift (validatePref p s.dim) >>= f) s).1 = .error e
      refine bind_error_left ?_
      cases hv : validatePref p s.dim with
      | ok u => exact absurd hv (hbad u)
      | error e => exact ⟨e, rfl⟩
    cases t1 <;> cases t2
    · exact key _
    · cases g
      · exact ⟨_, rfl⟩
      · exact key _
    · cases g
      · exact ⟨_, rfl⟩
      · exact key _
    · cases g
      · exact ⟨_, rfl⟩
      · exact key _
  | _ => simp [Atom.PrefOk] at h

theorem Atom.rej_empty (a : Atom) (s : Ctx) (h : ¬ Spec.Atom.PrefsNonempty a) : ∃ e, (a.encode s).1 = .error e := by
  cases a with
  | hepr t1 t2 p g =>
    have hp : p = [] := by
      cases t1 <;> cases t2 <;> simp [Spec.Atom.PrefsNonempty] at h <;> exact h
    subst hp
    cases t1 <;> cases t2
    · simp [Spec.Atom.PrefsNonempty] at h
    · cases g
      · exact ⟨_, rfl⟩
      · exact bind_error_right fun _ _ _ => bind_error_right fun _ _ _ => bind_error_right fun _ _ _ => bind_error_right fun _ _ _ =>
          bind_error_right fun _ _ _ => bind_error_right fun _ _ _ => ⟨_, rfl⟩
    · cases g
      · exact ⟨_, rfl⟩
      · exact bind_error_right fun _ _ _ => bind_error_right fun _ _ _ => bind_error_right fun _ _ _ => bind_error_right fun _ _ _ =>
          bind_error_right fun _ _ _ => bind_error_right fun _ _ _ => ⟨_, rfl⟩
    · cases g
      · exact ⟨_, rfl⟩
      · exact bind_error_right fun _ _ _ => bind_error_right fun _ _ _ => bind_error_right fun _ _ _ => bind_error_right fun _ _ _ => ⟨_, rfl⟩
  | _ => simp [Spec.Atom.PrefsNonempty] at h

/-- The names and the lengths of the values of scopes. -/
def opens (sc : List Scope) : List (List Char × Nat) := sc.map fun g => (g.target, g.value.length)

theorem lengthIn_opens (s : Ctx) (c : QConst) : lengthIn (opens s.scopes) c = (s.scopeConst c).1.val.length := by
  have : ∀ sc : List Scope, lengthIn (opens sc) c = (Ctx.scopeConstLoop c sc).1.val.length := by
    intro sc
    induction sc with
    | nil => rfl
    | cons g gs ih =>
      simp only [Ctx.scopeConstLoop]
      split
      · next h => simp [lengthIn, opens, h]
      · next h =>
        rw [← ih]
        simp [lengthIn, opens, h]
  exact this s.scopes

theorem ok_of {r : Except Err CNF} (h1 : NP r) (h2 : ND r) (h3 : NM r) : ∃ k, r = .ok k := by
  cases r with
  | ok k => exact ⟨k, rfl⟩
  | error e =>
    cases e with
    | msg m => exact absurd rfl (h3 m)
    | panic m => exact absurd rfl (h1 m)
    | diverge => exact absurd rfl h2

theorem not_ok {r : Except Err CNF} (h : ∃ e, r = .error e) : ¬ ∃ k, r = .ok k := by
  rintro ⟨k, hk⟩
  obtain ⟨e, he⟩ := h
  rw [hk] at he
  simp at he

theorem Atom.ok_iff (a : Atom) {s : Ctx} (hs : Sane s) (hac : Acyclic s.nodes) :
    (∃ k, (a.encode s).1 = .ok k) ↔ Spec.Atom.Valid s.dim (opens s.scopes) a := by
  constructor
  · intro h
    refine ⟨?_, fun c hc => ?_, ?_, ?_⟩
    · cases hg : Spec.Atom.nilGen a with
      | false => rfl
      | true =>
        obtain ⟨m, e⟩ := a.rej_nilGen s hg
        exact absurd h (not_ok ⟨_, by rw [e]⟩)
    · refine Classical.byContradiction fun hl => ?_
      rw [lengthIn_opens] at hl
      obtain ⟨e, h1, -⟩ := a.rej_dim s ⟨c, hc, hl⟩
      exact absurd h (not_ok ⟨_, by rw [h1]⟩)
    · exact Classical.byContradiction fun hp => absurd h (not_ok (a.rej_pref s hp))
    · exact Classical.byContradiction fun hp => absurd h (not_ok (a.rej_empty s hp))
  · intro h
    exact ok_of (a.np s hs h.prefne) (a.nd s fun _ => hac)
      (a.nm hs hac h.gens (fun c hc => (lengthIn_opens s c).symm.trans (h.dims c hc)) h.pref)

/-! ### Queries -/

theorem wrapErr_okI {pre : String} {x : M CNF} {s : Ctx} : (∃ k, (M.wrapErr pre x s).1 = .ok k) ↔ ∃ k, (x s).1 = .ok k := by
  unfold M.wrapErr
  split
  · next hx => rw [hx]
  · next hx => rw [hx]; simp

theorem bind_ok_iff {x : M CNF} {f : CNF → M CNF} {s : Ctx} {P : Prop} (hf : ∀ a, (∃ k, (f a (x s).2).1 = .ok k) ↔ P) :
    (∃ k, ((x >>= f) s).1 = .ok k) ↔ (∃ k, (x s).1 = .ok k) ∧ P := by
  cases h : x s with
  | mk r s' =>
    rw [h] at hf
    cases r with
    | ok a => rw [M_bind_ok h, hf a]; simp
    | error e => rw [M_bind_error h]; simp

theorem bind_ok_iff' {x : M CNF} {f : CNF → M CNF} {s : Ctx} (hf : ∀ a s, ∃ k, (f a s).1 = .ok k) :
    (∃ k, ((x >>= f) s).1 = .ok k) ↔ ∃ k, (x s).1 = .ok k := by
  rw [bind_ok_iff (P := True) fun a => by simpa using hf a _]
  simp

theorem forallFold_ok {q : M CNF} (hq : Tame q) {dim : Nat} {nodes : List Node} {base : List Scope} {tgt : List Char} {P : Prop}
    (hc : ∀ s, Sane s → s.dim = dim → s.nodes = nodes → opens s.scopes = opens base ++ [(tgt, dim)] → ((∃ k, (q s).1 = .ok k) ↔ P))
    (ts : List (List FeatV)) : ∀ (i : Int) (c : CNF) (s : Ctx) (g : Scope), (∀ t ∈ ts, t.length = dim) → s.dim = dim → s.nodes = nodes →
      s.scopes = base ++ [g] → g.target = tgt → Sane s → ((∃ k, (forallFold q ts i c s).1 = .ok k) ↔ (ts ≠ [] → P)) := by
  induction ts with
  | nil => intro i c s g _ _ _ _ _ _; exact ⟨fun _ h => absurd rfl h, fun _ => ⟨_, rfl⟩⟩
  | cons t ts ih =>
    intro i c s g hts hd hn hg htg hs
    simp only [forallFold]
    rw [M_bind_ok (setScope_append hg i t)]
    generalize hs1 : ({ s with scopes := base ++ [{ g with vIdx := i, value := t }] } : Ctx) = s1
    have hsc1 : s1.scopes = base ++ [{ g with vIdx := i, value := t }] := by rw [← hs1]
    have hs1' : Sane s1 := by
      refine ⟨?_, ?_, ?_, ?_, ?_⟩
      · intro v k hk
        rw [show s1.vars = s.vars by rw [← hs1]] at hk
        have := hs.scope v k hk
        rw [hg] at this
        rw [hsc1]
        simpa using this
      · intro v k hk
        rw [show s1.vars = s.vars by rw [← hs1]] at hk ⊢
        exact hs.fn v k hk
      · rw [← hs1]; exact hs.dim
      · rw [← hs1]; exact hs.ne
      · rw [← hs1]; exact hs.valid
    have hd1 : s1.dim = dim := by rw [← hs1]; exact hd
    have hn1 : s1.nodes = nodes := by rw [← hs1]; exact hn
    have hk := hq.keep s1
    have hqs := hc s1 hs1' hd1 hn1 (by rw [hsc1]; simp [opens, htg, hts t (by simp)])
    rw [bind_ok_iff (fun a => ih (i + 1) _ (q s1).2 { g with vIdx := i, value := t } (fun t ht => hts t (by simp [ht]))
      (hk.dim.trans hd1) (hk.nodes.trans hn1) (hk.scopes.trans hsc1) htg (hq.sane hs1')), hqs]
    simp only [ne_eq, reduceCtorEq, not_false_eq_true, forall_const, and_iff_left_iff_imp]
    exact fun h _ => h

theorem forallBuild_ok {q : M CNF} (hq : Tame q) {c : QConst} {s : Ctx} (hs : Sane s) {P : Prop}
    (hc : ∀ s', Sane s' → s'.dim = s.dim → s'.nodes = s.nodes → opens s'.scopes = opens s.scopes ++ [(c.id, s.dim)] →
      ((∃ k, (q s').1 = .ok k) ↔ P)) :
    (∃ k, (forallBuild c q s).1 = .ok k) ↔ P := by
  have hsc : (s.addScope c.id).scopes = s.scopes ++ [{ target := c.id }] := rfl
  have hs1 : Sane (s.addScope c.id) := by
    refine ⟨fun v k hk => ?_, hs.fn, hs.dim, hs.ne, hs.valid⟩
    have := hs.scope v k hk
    rw [hsc, List.length_append]
    simp only [List.length_cons, List.length_nil]
    omega
  have hw : newNodeAsValuesIter s.dim s.nodes = .ok (WalkSt.init s.dim s.nodes.length) := by
    unfold newNodeAsValuesIter
    rw [if_neg (by simpa using hs.ne), validate_of_valid hs.valid]
  rcases forallBody_eq q (s.addScope c.id) with ⟨e, h, -⟩ | ⟨ws, hi, -, h⟩
  · rw [show (s.addScope c.id).dim = s.dim from rfl,
      show (s.addScope c.id).nodes = s.nodes from rfl, hw] at h
    simp at h
  · have hL := forallFold_tame (V := False) hq s.scopes (ws.map (·.t)) 0 {} (s.addScope c.id)
      ⟨_, hsc⟩ (fun h => h.elim) (fun h => h.elim)
    obtain ⟨g, hg⟩ := hL.scopes
    rw [forallBuild_of h (by rw [hg]; simp)]
    obtain ⟨ws', hi', -, -, hr, hlen⟩ := iterates_init hs.ne hs.valid
    obtain rfl := hi.unique hi'
    show (∃ k, (forallFold q (ws.map (·.t)) 0 {} (s.addScope c.id)).1 = .ok k) ↔ P
    rw [forallFold_ok (dim := s.dim) (nodes := s.nodes) (base := s.scopes) (tgt := c.id) hq hc _ _ _ (s.addScope c.id) { target := c.id }
      (fun t ht => by obtain ⟨w, hw, rfl⟩ := List.mem_map.1 ht; exact hlen w hw) rfl rfl hsc rfl hs1]
    have hne : ws.map (·.t) ≠ [] := by
      have := (hr 0).2 .root
      cases ws with
      | nil => simp at this
      | cons w ws => simp
    exact ⟨fun h => h hne, fun h _ => h⟩

theorem negStep_ok (c : CNF) (s : Ctx) : ∃ k, (negStep c s).1 = .ok k := ⟨_, rfl⟩

theorem encodeI_ok {x : QVar} {s : Ctx} (hs : Sane s) : ∃ k, (encodeI x s).1 = .ok k := by
  refine ok_of (np_encodeI hs) nd_encodeI ?_
  unfold encodeI
  refine nm_scopeVar fun v => ?_
  show NM ((if s.cnfVarExists ⟨v, 0, BOT⟩ = true then pure {} else
    M.dim >>= fun d => reqAllFeats v 0 d >>= fun cls => reqOnePerFeat v 0 d
      (({} : CNF).appendConsistency cls)) s).1
  refine nm_ite (fun _ => nm_pure _) fun _ => nm_dim ?_
  rw [encodeI_new]
  exact nm_emit _

theorem Query.ok_iff (q : Query) : ∀ x, q.comp = some x → ∀ s, Sane s → Acyclic s.nodes →
    ((∃ k, (x s).1 = .ok k) ↔ Spec.Query.Valid s.dim (opens s.scopes) q) := by
  have nilEq : ∀ q : Query, q.comp = none → q = .nil := by
    intro q hq; cases q <;> simp_all [Query.comp]
  induction q with
  | nil => intro x hx; simp [Query.comp] at hx
  | atom a =>
    intro x hx s hs ha
    simp only [Query.comp, Option.some.injEq] at hx
    subst hx
    exact a.ok_iff hs ha
  | and q1 q2 h1 h2 =>
    intro x hx s hs hac
    simp only [Query.comp, Option.some.injEq] at hx
    subst hx
    refine wrapErr_okI.trans ?_
    cases ha : q1.comp with
    | none => rw [nilEq _ ha]; simp [Spec.Query.Valid, M.throw]
    | some a =>
    cases hb : q2.comp with
    | none => rw [nilEq _ hb]; simp [Spec.Query.Valid, M.throw]
    | some b =>
      have hk := (q1.comp_tame _ ha).keep s
      refine (bind_ok_iff (P := Spec.Query.Valid s.dim (opens s.scopes) q2) fun c1 => ?_).trans
        (and_congr (wrapErr_okI.trans (h1 _ ha s hs hac)) Iff.rfl)
      refine (bind_ok_iff' fun _ _ => ⟨_, rfl⟩).trans (wrapErr_okI.trans ?_)
      rw [wrapErr_snd]
      have := h2 _ hb (a s).2 ((q1.comp_tame _ ha).sane hs) (by rw [hk.nodes]; exact hac)
      rw [hk.dim, hk.scopes] at this
      exact this
  | or q1 q2 h1 h2 =>
    intro x hx s hs hac
    simp only [Query.comp, Option.some.injEq] at hx
    subst hx
    refine wrapErr_okI.trans ?_
    cases ha : q1.comp with
    | none => rw [nilEq _ ha]; simp [Spec.Query.Valid, M.throw]
    | some a =>
    cases hb : q2.comp with
    | none => rw [nilEq _ hb]; simp [Spec.Query.Valid, M.throw]
    | some b =>
      show (∃ k, (orBuild a b s).1 = .ok k) ↔ _
      rw [orBuild_eq]
      have hk := (q1.comp_tame _ ha).keep s
      refine (bind_ok_iff (P := Spec.Query.Valid s.dim (opens s.scopes) q2) fun c1 => ?_).trans
        (and_congr (wrapErr_okI.trans (h1 _ ha s hs hac)) Iff.rfl)
      refine (bind_ok_iff' fun _ _ => ⟨_, rfl⟩).trans (wrapErr_okI.trans ?_)
      rw [wrapErr_snd]
      have := h2 _ hb (a s).2 ((q1.comp_tame _ ha).sane hs) (by rw [hk.nodes]; exact hac)
      rw [hk.dim, hk.scopes] at this
      exact this
  | not q h1 =>
    intro x hx s hs hac
    simp only [Query.comp, Option.some.injEq] at hx
    subst hx
    refine wrapErr_okI.trans ?_
    cases ha : q.comp with
    | none => rw [nilEq _ ha]; simp [Spec.Query.Valid, M.throw]
    | some a => exact (bind_ok_iff' fun c s => negStep_ok c s).trans (h1 _ ha s hs hac)
  | withVar v q h1 =>
    intro x hx s hs hac
    simp only [Query.comp, Option.some.injEq] at hx
    subst hx
    refine wrapErr_okI.trans ?_
    cases ha : q.comp with
    | none => rw [nilEq _ ha]; simp [Spec.Query.Valid, M.throw]
    | some a =>
      show (∃ k, (withVarBuild v a (s.addVar v)).1 = .ok k) ↔ _
      have e1 := (addVar_other s v).1
      have e2 := addVar_varsExt v hs.fn
      have hs1 : Sane (s.addVar v) := ⟨e2.scopeOk hs.scope e1.scopes, e2.fn, by rw [e1.dim]; exact hs.dim,
        by rw [e1.nodes]; exact hs.ne, by rw [e1.dim, e1.nodes]; exact hs.valid⟩
      have hk := (encodeI_tame v).keep (s.addVar v)
      refine (bind_ok_iff (P := Spec.Query.Valid s.dim (opens s.scopes) q) fun c1 => ?_).trans
        (and_iff_right (encodeI_ok hs1))
      refine (bind_ok_iff' fun _ _ => ⟨_, rfl⟩).trans ?_
      have := h1 _ ha (encodeI v (s.addVar v)).2 ((encodeI_tame v).sane hs1) (by rw [hk.nodes, e1.nodes]; exact hac)
      rw [hk.dim, hk.scopes, e1.dim, e1.scopes] at this
      exact this
  | forallG c q h1 =>
    intro x hx s hs hac
    simp only [Query.comp, Option.some.injEq] at hx
    subst hx
    refine wrapErr_okI.trans ?_
    cases ha : q.comp with
    | none => rw [nilEq _ ha]; simp [Spec.Query.Valid, M.throw]
    | some a =>
      refine forallBuild_ok (q.comp_tame _ ha) hs fun s' hs' hd hn ho => ?_
      have := h1 _ ha s' hs' (by rw [hn]; exact hac)
      rw [ho, hd] at this
      exact this

end Goexpdt

import Verif.Spec.Immutable
/- Lemmas for C08: slices whose arrays are shared only where nothing can be appended in place. -/
namespace Goexpdt.Alias
open Goexpdt Spec

section
variable {α : Type} {mem : List (List α)} {all live : List Sl}

/-- The slice fits its array. -/
def Wf (mem : List (List α)) (s : Sl) : Prop :=
  s.arr < mem.length ∧ (mem.getD s.arr []).length = s.cap ∧ s.len ≤ s.cap

/-- Two slices of one array have no spare capacity. -/
def Apart (s t : Sl) : Prop := s.arr = t.arr → s.len = s.cap ∧ t.len = t.cap

theorem Apart.symm {s t : Sl} (h : Apart s t) : Apart t s := fun e => (h e.symm).symm

/-- `all`: the slices that may still be read; `live`: those that may still be appended to. -/
structure Inv (mem : List (List α)) (all live : List Sl) : Prop where
  wf : ∀ s ∈ all, Wf mem s
  sub : ∀ s ∈ live, s ∈ all
  tip : ∀ s ∈ live, s.len < s.cap → ∀ t ∈ all, t.arr = s.arr → t.len ≤ s.len
  sep : live.Pairwise Apart

theorem Inv.live_perm {live' : List Sl} (h : Inv mem all live) (p : live.Perm live') : Inv mem all live' where
  wf := h.wf
  sub s hs := h.sub s (p.mem_iff.mpr hs)
  tip s hs := h.tip s (p.mem_iff.mpr hs)
  sep := (p.pairwise_iff fun h => Apart.symm h).mp h.sep

theorem Inv.live_sub {live' : List Sl} (h : Inv mem all live) (p : live'.Sublist live) : Inv mem all live' where
  wf := h.wf
  sub s hs := h.sub s (p.subset hs)
  tip s hs := h.tip s (p.subset hs)
  sep := h.sep.sublist p

theorem Inv.all_dup {s : Sl} (h : Inv mem all live) (hs : s ∈ all) : Inv mem (s :: all) live := by
  have e : ∀ t, t ∈ s :: all ↔ t ∈ all := by
    intro t
    simp only [List.mem_cons]
    exact ⟨fun h => h.elim (fun h => h ▸ hs) id, .inr⟩
  refine ⟨?_, ?_, ?_, h.sep⟩
  · intro t ht; exact h.wf t ((e t).mp ht)
  · intro t ht; exact (e t).mpr (h.sub t ht)
  · intro r hr hlt t ht; exact h.tip r hr hlt t ((e t).mp ht)

theorem view_length {s : Sl} (h : Wf mem s) : (view mem s).length = s.len := by
  obtain ⟨-, h2, h3⟩ := h
  simp only [view, List.length_take, h2]
  omega

theorem Inv.push {xs : List α} {len : Nat} (h : Inv mem all live) (hl : len ≤ xs.length) :
    Inv (mem ++ [xs]) (⟨mem.length, len, xs.length⟩ :: all) (⟨mem.length, len, xs.length⟩ :: live) ∧
    (∀ t ∈ all, view (mem ++ [xs]) t = view mem t) := by
  have hw : ∀ t ∈ all, (mem ++ [xs]).getD t.arr [] = mem.getD t.arr [] := by
    intro t ht
    have := (h.wf t ht).1
    simp [List.getD_eq_getElem?_getD, List.getElem?_append_left this]
  refine ⟨⟨?_, ?_, ?_, ?_⟩, fun t ht => by simp only [view, hw t ht]⟩
  · intro t ht
    rcases List.mem_cons.mp ht with rfl | ht
    · refine ⟨by simp, ?_, hl⟩
      simp [List.getD_eq_getElem?_getD]
    · obtain ⟨h1, h2, h3⟩ := h.wf t ht
      exact ⟨by simp; omega, by rw [hw t ht]; exact h2, h3⟩
  · intro t ht
    rcases List.mem_cons.mp ht with rfl | ht
    · exact List.mem_cons_self
    · exact List.mem_cons_of_mem _ (h.sub t ht)
  · intro r hr hlt t ht e
    rcases List.mem_cons.mp hr with rfl | hr
    · rcases List.mem_cons.mp ht with rfl | ht
      · exact Nat.le_refl _
      · have := (h.wf t ht).1; simp only at e; omega
    · rcases List.mem_cons.mp ht with rfl | ht
      · have := (h.wf r (h.sub r hr)).1; simp only at e; omega
      · exact h.tip r hr hlt t ht e
  · refine List.pairwise_cons.mpr ⟨fun r hr e => ?_, h.sep⟩
    have := (h.wf r (h.sub r hr)).1; simp only at e; omega

variable [Inhabited α]

theorem Inv.new {mem' : List (List α)} {s' : Sl} {xs : List α} {spare : Nat} (h : Inv mem all live)
    (e : goNew mem xs spare = (mem', s')) :
    Inv mem' (s' :: all) (s' :: live) ∧ (∀ t ∈ all, view mem' t = view mem t) ∧ view mem' s' = xs := by
  unfold goNew at e
  simp only [Prod.mk.injEq] at e
  obtain ⟨rfl, rfl⟩ := e
  have := h.push (xs := xs ++ List.replicate spare default) (len := xs.length) (by simp)
  simp only [List.length_append, List.length_replicate] at this
  refine ⟨this.1, this.2, ?_⟩
  simp [view, List.getD_eq_getElem?_getD]

theorem Inv.append {g : Grow} {mem' : List (List α)} {s s' : Sl} {xs : List α} (h : Inv mem all (s :: live))
    (e : goAppend g mem s xs = (mem', s')) :
    Inv mem' (s' :: all) (s' :: live) ∧ (∀ t ∈ all, view mem' t = view mem t) ∧
    view mem' s' = view mem s ++ xs := by
  have hs : s ∈ all := h.sub s List.mem_cons_self
  obtain ⟨w1, w2, w3⟩ := h.wf s hs
  unfold goAppend at e
  split at e
  · next h0 =>
    simp only [Prod.mk.injEq] at e
    obtain ⟨rfl, rfl⟩ := e
    refine ⟨h.all_dup hs, fun _ _ => rfl, ?_⟩
    rw [List.length_eq_zero_iff.mp h0, List.append_nil]
  · next h0 =>
    split at e
    · next h1 =>
      simp only [Prod.mk.injEq] at e
      obtain ⟨rfl, rfl⟩ := e
      have hgd : ∀ i, (mem.modify s.arr fun a => a.take s.len ++ xs ++ a.drop (s.len + xs.length)).getD i [] =
          if i = s.arr then (mem.getD s.arr []).take s.len ++ xs ++ (mem.getD s.arr []).drop (s.len + xs.length)
          else mem.getD i [] := by
        intro i
        simp only [List.getD_eq_getElem?_getD, List.getElem?_modify]
        by_cases hi : s.arr = i
        · subst hi; simp [List.getElem?_eq_getElem w1]
        · simp [hi, Ne.symm hi]
      have htip := h.tip s List.mem_cons_self (by omega)
      have hview : ∀ t ∈ all, view (mem.modify s.arr fun a => a.take s.len ++ xs ++ a.drop (s.len + xs.length)) t
          = view mem t := by
        intro t ht
        simp only [view, hgd]
        split
        · next e =>
          have := htip t ht e
          rw [e, List.append_assoc, List.take_append_of_le_length (by rw [List.length_take, w2]; omega),
            List.take_take, Nat.min_eq_left this]
        · rfl
      have hlen : ∀ i, ((mem.modify s.arr fun a => a.take s.len ++ xs ++ a.drop (s.len + xs.length)).getD i []).length
          = (mem.getD i []).length := by
        intro i
        rw [hgd]
        split
        · next e => subst e; simp only [List.length_append, List.length_take, List.length_drop, w2]; omega
        · rfl
      have hsep := List.pairwise_cons.mp h.sep
      refine ⟨⟨?_, ?_, ?_, ?_⟩, hview, ?_⟩
      · intro t ht
        unfold Wf
        rw [hlen, List.length_modify]
        rcases List.mem_cons.mp ht with rfl | ht
        · exact ⟨w1, w2, h1⟩
        · exact h.wf t ht
      · intro t ht
        rcases List.mem_cons.mp ht with rfl | ht
        · exact List.mem_cons_self
        · exact List.mem_cons_of_mem _ (h.sub t (List.mem_cons_of_mem _ ht))
      · intro r hr hlt t ht e
        rcases List.mem_cons.mp hr with rfl | hr
        · rcases List.mem_cons.mp ht with rfl | ht
          · exact Nat.le_refl _
          · have := htip t ht e; simp only; omega
        · rcases List.mem_cons.mp ht with rfl | ht
          · have := (hsep.1 r hr e).2; omega
          · exact h.tip r (List.mem_cons_of_mem _ hr) hlt t ht e
      · refine List.pairwise_cons.mpr ⟨fun r hr e => ?_, hsep.2⟩
        have := (hsep.1 r hr e).1; omega
      · simp only [view, hgd, if_true]
        rw [List.take_append_of_le_length (by simp only [List.length_append, List.length_take, w2]; omega),
          List.take_of_length_le (by simp only [List.length_append, List.length_take, w2]; omega)]
    · next h1 =>
      simp only [Prod.mk.injEq] at e
      obtain ⟨rfl, rfl⟩ := e
      have hvl := view_length ⟨w1, w2, w3⟩
      have hl : (view mem s ++ xs ++ List.replicate (max (g s.cap (s.len + xs.length)) (s.len + xs.length) - (s.len + xs.length)) default : List α).length
          = max (g s.cap (s.len + xs.length)) (s.len + xs.length) := by
        simp only [List.length_append, List.length_replicate, hvl]; omega
      have := (h.live_sub (List.sublist_cons_self s live)).push
        (xs := view mem s ++ xs ++ List.replicate (max (g s.cap (s.len + xs.length)) (s.len + xs.length) - (s.len + xs.length)) default)
        (len := s.len + xs.length) (by rw [hl]; omega)
      rw [hl] at this
      refine ⟨this.1, this.2, ?_⟩
      simp only [view, List.getD_eq_getElem?_getD, List.getElem?_concat_length, Option.getD_some]
      rw [List.take_append_of_le_length (by
          have : ((mem[s.arr]?.getD []).take s.len).length = s.len := by
            simpa [view, List.getD_eq_getElem?_getD] using hvl
          simp only [List.length_append, this]; omega)]
      rw [List.take_of_length_le (by
          have : ((mem[s.arr]?.getD []).take s.len).length = s.len := by
            simpa [view, List.getD_eq_getElem?_getD] using hvl
          simp only [List.length_append, this]; omega)]

end

/-! ### both kinds of arrays -/

/-- The invariant of the memory: `aI`, `lI` for clauses, `aO`, `lO` for lists of clauses. -/
structure HI (h : Heap) (aI lI aO lO : List Sl) : Prop where
  ints : Inv h.ints aI lI
  outs : Inv h.outs aO lO
  cover : ∀ o ∈ aO, ∀ s ∈ h.hdrs o, s ∈ aI

/-- From one state of the memory to a later one: what could be read can still be read. -/
structure Ext (h : Heap) (aI aO : List Sl) (h' : Heap) (aI' aO' : List Sl) : Prop where
  subI : ∀ s ∈ aI, s ∈ aI'
  subO : ∀ s ∈ aO, s ∈ aO'
  clause : ∀ s ∈ aI, h'.clause s = h.clause s
  hdrs : ∀ o ∈ aO, h'.hdrs o = h.hdrs o

theorem Ext.refl (h : Heap) (aI aO : List Sl) : Ext h aI aO h aI aO :=
  ⟨fun _ h => h, fun _ h => h, fun _ _ => rfl, fun _ _ => rfl⟩

theorem Ext.trans {h h' h'' : Heap} {aI aO aI' aO' aI'' aO'' : List Sl} (e1 : Ext h aI aO h' aI' aO')
    (e2 : Ext h' aI' aO' h'' aI'' aO'') : Ext h aI aO h'' aI'' aO'' where
  subI s hs := e2.subI s (e1.subI s hs)
  subO s hs := e2.subO s (e1.subO s hs)
  clause s hs := (e2.clause s (e1.subI s hs)).trans (e1.clause s hs)
  hdrs s hs := (e2.hdrs s (e1.subO s hs)).trans (e1.hdrs s hs)

variable {h h' : Heap} {aI lI aO lO aI' aO' : List Sl} {g : Grow}

theorem Ext.clauses (e : Ext h aI aO h' aI' aO') (hi : HI h aI lI aO lO) {o : Sl} (ho : o ∈ aO) :
    h'.clauses o = h.clauses o := by
  unfold Heap.clauses
  rw [e.hdrs o ho]
  exact List.map_congr_left fun s hs => e.clause s (hi.cover o ho s hs)

theorem HI.perm {lI' lO' : List Sl} (hi : HI h aI lI aO lO) (p : lI.Perm lI') (q : lO.Perm lO') :
    HI h aI lI' aO lO' := ⟨hi.ints.live_perm p, hi.outs.live_perm q, hi.cover⟩

theorem HI.sub {lI' lO' : List Sl} (hi : HI h aI lI aO lO) (p : lI'.Sublist lI) (q : lO'.Sublist lO) :
    HI h aI lI' aO lO' := ⟨hi.ints.live_sub p, hi.outs.live_sub q, hi.cover⟩

theorem HI.appendInts {s s' : Sl} {xs : List Int} (hi : HI h aI (s :: lI) aO lO)
    (e : h.appendInts g s xs = (h', s')) :
    HI h' (s' :: aI) (s' :: lI) aO lO ∧ Ext h aI aO h' (s' :: aI) aO ∧ h'.clause s' = h.clause s ++ xs := by
  unfold Heap.appendInts at e
  simp only [Prod.mk.injEq] at e
  obtain ⟨rfl, rfl⟩ := e
  obtain ⟨h1, h2, h3⟩ := hi.ints.append (g := g) (xs := xs) rfl
  exact ⟨⟨h1, hi.outs, fun o ho s hs => List.mem_cons_of_mem _ (hi.cover o ho s hs)⟩,
    ⟨fun s hs => List.mem_cons_of_mem _ hs, fun _ h => h, h2, fun _ _ => rfl⟩, h3⟩

theorem HI.newInts {s' : Sl} {xs : List Int} {spare : Nat} (hi : HI h aI lI aO lO)
    (e : h.newInts xs spare = (h', s')) :
    HI h' (s' :: aI) (s' :: lI) aO lO ∧ Ext h aI aO h' (s' :: aI) aO ∧ h'.clause s' = xs := by
  unfold Heap.newInts at e
  simp only [Prod.mk.injEq] at e
  obtain ⟨rfl, rfl⟩ := e
  obtain ⟨h1, h2, h3⟩ := hi.ints.new (xs := xs) (spare := spare) rfl
  exact ⟨⟨h1, hi.outs, fun o ho s hs => List.mem_cons_of_mem _ (hi.cover o ho s hs)⟩,
    ⟨fun s hs => List.mem_cons_of_mem _ hs, fun _ h => h, h2, fun _ _ => rfl⟩, h3⟩

theorem HI.appendOuts {o o' : Sl} {xs : List Sl} (hi : HI h aI lI aO (o :: lO)) (hx : ∀ s ∈ xs, s ∈ aI)
    (e : h.appendOuts g o xs = (h', o')) :
    HI h' aI lI (o' :: aO) (o' :: lO) ∧ Ext h aI aO h' aI (o' :: aO) ∧ h'.hdrs o' = h.hdrs o ++ xs := by
  unfold Heap.appendOuts at e
  simp only [Prod.mk.injEq] at e
  obtain ⟨rfl, rfl⟩ := e
  obtain ⟨h1, h2, h3⟩ := hi.outs.append (g := g) (xs := xs) rfl
  refine ⟨⟨hi.ints, h1, ?_⟩, ⟨fun _ h => h, fun s hs => List.mem_cons_of_mem _ hs, fun _ _ => rfl, h2⟩, h3⟩
  intro t ht s hs
  rcases List.mem_cons.mp ht with rfl | ht
  · have : s ∈ h.hdrs o ++ xs := h3 ▸ hs
    rcases List.mem_append.mp this with h | h
    · exact hi.cover o (hi.outs.sub o List.mem_cons_self) s h
    · exact hx s h
  · have : s ∈ h.hdrs t := by
      have h4 := h2 t ht
      simp only [Heap.hdrs] at hs ⊢
      rw [← h4]; exact hs
    exact hi.cover t ht s this

theorem HI.newOuts {o' : Sl} {xs : List Sl} {spare : Nat} (hi : HI h aI lI aO lO) (hx : ∀ s ∈ xs, s ∈ aI)
    (e : h.newOuts xs spare = (h', o')) :
    HI h' aI lI (o' :: aO) (o' :: lO) ∧ Ext h aI aO h' aI (o' :: aO) ∧ h'.hdrs o' = xs := by
  unfold Heap.newOuts at e
  simp only [Prod.mk.injEq] at e
  obtain ⟨rfl, rfl⟩ := e
  obtain ⟨h1, h2, h3⟩ := hi.outs.new (xs := xs) (spare := spare) rfl
  refine ⟨⟨hi.ints, h1, ?_⟩, ⟨fun _ h => h, fun s hs => List.mem_cons_of_mem _ hs, fun _ _ => rfl, h2⟩, h3⟩
  intro t ht s hs
  rcases List.mem_cons.mp ht with rfl | ht
  · exact hx s (h3 ▸ hs)
  · have : s ∈ h.hdrs t := by
      have h4 := h2 t ht
      simp only [Heap.hdrs] at hs ⊢
      rw [← h4]; exact hs
    exact hi.cover t ht s this

theorem HI.newClauses (cls : List (Clause × Nat)) : ∀ {h : Heap} {aI lI : List Sl}, HI h aI lI aO lO →
    ∀ {h' hs}, h.newClauses cls = (h', hs) →
    ∃ aI', HI h' aI' (hs ++ lI) aO lO ∧ Ext h aI aO h' aI' aO ∧ hs.map h'.clause = cls.map (·.1) ∧
      ∀ s ∈ hs, s ∈ aI' := by
  induction cls with
  | nil =>
    intro h aI lI hi h' hs e
    simp only [Heap.newClauses, Prod.mk.injEq] at e
    obtain ⟨rfl, rfl⟩ := e
    exact ⟨aI, hi, .refl _ _ _, rfl, by simp⟩
  | cons c cls ih =>
    intro h aI lI hi h' hs e
    obtain ⟨c, spare⟩ := c
    rcases hr : h.newInts c spare with ⟨k1, s1⟩
    rcases hr' : k1.newClauses cls with ⟨k2, s2⟩
    simp only [Heap.newClauses, hr, hr', Prod.mk.injEq] at e
    obtain ⟨rfl, rfl⟩ := e
    obtain ⟨h1, h2, h3⟩ := hi.newInts hr
    obtain ⟨aI', i1, i2, i3, i4⟩ := ih h1 hr'
    refine ⟨aI', i1.perm ?_ (.refl _), h2.trans i2, ?_, ?_⟩
    · exact List.perm_middle
    · simp only [List.map_cons, i3, i2.clause _ List.mem_cons_self, h3]
    · intro s hs
      rcases List.mem_cons.mp hs with rfl | hs
      · exact i2.subI _ List.mem_cons_self
      · exact i4 s hs

/-! ### the operations -/

macro "perm" : tactic => `(tactic|
  (refine List.perm_iff_count.mpr fun _ => ?_
   simp only [List.count_append, List.count_cons, List.count_nil] <;> omega))

theorem map_clause (e : Ext h aI aO h' aI' aO') {hs : List Sl} (hh : ∀ s ∈ hs, s ∈ aI) :
    hs.map h'.clause = hs.map h.clause := List.map_congr_left fun s hs => e.clause s (hh s hs)

theorem clause_length (hi : HI h aI lI aO lO) {s : Sl} (hs : s ∈ aI) : (h.clause s).length = s.len :=
  view_length (hi.ints.wf s hs)

theorem hdrs_length (hi : HI h aI lI aO lO) {s : Sl} (hs : s ∈ aO) : (h.hdrs s).length = s.len :=
  view_length (hi.outs.wf s hs)

theorem tseytinClause_spec {st : Heap.TSt} {cl : Sl} {H L : List Sl}
    (hi : HI st.h aI (st.enclits :: (cl :: H ++ (st.clauses ++ L))) aO lO) :
    ∃ aI', HI (Heap.tseytinClause g st cl).h aI' ((Heap.tseytinClause g st cl).enclits ::
        (H ++ ((Heap.tseytinClause g st cl).clauses ++ L))) aO lO ∧
      Ext st.h aI aO (Heap.tseytinClause g st cl).h aI' aO ∧
      (Heap.tseytinClause g st cl).tv = st.tv + 1 ∧
      (Heap.tseytinClause g st cl).clauses.map (Heap.tseytinClause g st cl).h.clause =
        st.clauses.map st.h.clause ++ (st.h.clause cl).map (fun lit => [-lit, -(st.tv + 1)]) ++
          [st.h.clause cl ++ [st.tv + 1]] ∧
      (Heap.tseytinClause g st cl).h.clause (Heap.tseytinClause g st cl).enclits =
        st.h.clause st.enclits ++ [st.tv + 1] := by
  unfold Heap.tseytinClause
  rcases e1 : st.h.newClauses ((st.h.clause cl).map fun lit => ([-lit, -(st.tv + 1)], 0)) with ⟨k1, hs⟩
  rcases e2 : k1.appendInts g cl [st.tv + 1] with ⟨k2, cl'⟩
  rcases e3 : k2.appendInts g st.enclits [st.tv + 1] with ⟨k3, en'⟩
  simp only [e1, e2, e3]
  have hcl : cl ∈ aI := hi.ints.sub _ (by simp)
  have hen : st.enclits ∈ aI := hi.ints.sub _ (by simp)
  have hcs : ∀ s ∈ st.clauses, s ∈ aI := fun s hs => hi.ints.sub _ (by simp [hs])
  obtain ⟨a1, i1, x1, m1, m1'⟩ := hi.newClauses _ e1
  have i1' := i1.perm (lI' := cl :: (hs ++ st.enclits :: (H ++ (st.clauses ++ L)))) (by perm) (.refl _)
  obtain ⟨i2, x2, m2⟩ := i1'.appendInts e2
  have i2' := i2.perm (lI' := st.enclits :: (cl' :: (hs ++ (H ++ (st.clauses ++ L))))) (by perm) (.refl _)
  obtain ⟨i3, x3, m3⟩ := i2'.appendInts e3
  refine ⟨_, i3.perm (by perm) (.refl _), (x1.trans x2).trans x3, trivial, ?_, ?_⟩
  · have y1 := map_clause ((x1.trans x2).trans x3) hcs
    have y2 := map_clause (x2.trans x3) m1'
    have y3 := x3.clause cl' List.mem_cons_self
    simp only [List.map_append, y1, y2, m1, List.map_cons, List.map_nil, y3, m2, x1.clause cl hcl, List.map_map]
    rfl
  · rw [m3, x2.clause _ (x1.subI _ hen), x1.clause _ hen]

theorem tseytinLoop_spec {L : List Sl} (H : List Sl) : ∀ {st : Heap.TSt} {aI : List Sl},
    HI st.h aI (st.enclits :: (H ++ (st.clauses ++ L))) aO lO →
    (∃ st' aI', Heap.tseytinLoop g st H = .error st' ∧ HI st'.h aI' L aO lO ∧ Ext st.h aI aO st'.h aI' aO ∧
      CNF.tseytinLoop st.tv (st.clauses.map st.h.clause) (st.h.clause st.enclits) (H.map st.h.clause) = .error st'.tv) ∨
    (∃ st' aI', Heap.tseytinLoop g st H = .ok st' ∧ HI st'.h aI' (st'.enclits :: (st'.clauses ++ L)) aO lO ∧
      Ext st.h aI aO st'.h aI' aO ∧
      CNF.tseytinLoop st.tv (st.clauses.map st.h.clause) (st.h.clause st.enclits) (H.map st.h.clause) =
        .ok (st'.tv, st'.clauses.map st'.h.clause, st'.h.clause st'.enclits)) := by
  induction H with
  | nil => intro st aI hi; exact .inr ⟨st, aI, rfl, hi, .refl _ _ _, rfl⟩
  | cons cl H ih =>
    intro st aI hi
    have hH : ∀ s ∈ H, s ∈ aI := fun s hs => hi.ints.sub _ (by simp [hs])
    have hcs : ∀ s ∈ st.clauses, s ∈ aI := fun s hs => hi.ints.sub _ (by simp [hs])
    rcases hc : st.h.clause cl with _ | ⟨l, _ | ⟨l', ls⟩⟩
    · refine .inl ⟨st, aI, ?_, hi.sub ?_ (List.Sublist.refl _), .refl _ _ _, ?_⟩
      · simp only [Heap.tseytinLoop, hc]
      · exact List.Sublist.cons _ ((List.sublist_append_right _ _).trans (List.sublist_append_right _ _))
      · simp only [List.map_cons, hc, CNF.tseytinLoop]
    · rcases e : st.h.appendInts g st.enclits [-l] with ⟨k, en⟩
      obtain ⟨i1, x1, m1⟩ := hi.appendInts e
      have i1' : HI k (en :: aI) (en :: (H ++ (st.clauses ++ L))) aO lO := i1.sub (by simp) (List.Sublist.refl _)
      have := ih (st := { st with h := k, enclits := en }) i1'
      simp only [Heap.tseytinLoop, hc, e, List.map_cons, CNF.tseytinLoop]
      simp only [m1, map_clause x1 hH, map_clause x1 hcs] at this
      rcases this with ⟨st', a, h1, h2, h3, h4⟩ | ⟨st', a, h1, h2, h3, h4⟩
      · exact .inl ⟨st', a, h1, h2, x1.trans h3, h4⟩
      · exact .inr ⟨st', a, h1, h2, x1.trans h3, h4⟩
    · obtain ⟨a1, i1, x1, y1, y2, y3⟩ := tseytinClause_spec (g := g) hi
      have := ih i1
      simp only [Heap.tseytinLoop, hc, List.map_cons, CNF.tseytinLoop]
      simp only [y1, y2, y3, hc, map_clause x1 hH] at this
      rcases this with ⟨st', a, h1, h2, h3, h4⟩ | ⟨st', a, h1, h2, h3, h4⟩
      · exact .inl ⟨st', a, h1, h2, x1.trans h3, h4⟩
      · exact .inr ⟨st', a, h1, h2, x1.trans h3, h4⟩

theorem iffLoop_spec {auxv : Int} (lits : List Int) : ∀ {h : Heap} {c : Sl} {aI aO LI : List Sl},
    HI h aI (h.hdrs c ++ LI) aO (c :: lO) → ∀ {h' c'}, Heap.iffLoop g h c auxv lits = (h', c') →
    ∃ aI' aO', HI h' aI' (h'.hdrs c' ++ LI) aO' (c' :: lO) ∧ Ext h aI aO h' aI' aO' ∧
      h'.clauses c' = h.clauses c ++ lits.map (fun lit => [-lit, auxv]) := by
  induction lits with
  | nil =>
    intro h c aI aO LI hi h' c' e
    simp only [Heap.iffLoop, Prod.mk.injEq] at e
    obtain ⟨rfl, rfl⟩ := e
    exact ⟨aI, aO, hi, .refl _ _ _, by simp⟩
  | cons lit lits ih =>
    intro h c aI aO LI hi h' c' e
    rcases e1 : h.newInts [-lit, auxv] 0 with ⟨k1, s⟩
    rcases e2 : k1.appendOuts g c [s] with ⟨k2, c2⟩
    simp only [Heap.iffLoop, e1, e2] at e
    have hcO : c ∈ aO := hi.outs.sub _ (by simp)
    obtain ⟨i1, x1, m1⟩ := hi.newInts e1
    obtain ⟨i2, x2, m2⟩ := i1.appendOuts (by simp) e2
    have i2' : HI k2 (s :: aI) (k2.hdrs c2 ++ LI) (c2 :: aO) (c2 :: lO) := by
      refine i2.perm ?_ (.refl _)
      rw [m2, x1.hdrs c hcO]
      perm
    obtain ⟨a, b, i3, x3, m3⟩ := ih i2' e
    refine ⟨a, b, i3, (x1.trans x2).trans x3, ?_⟩
    rw [m3]
    have : k2.clauses c2 = h.clauses c ++ [[-lit, auxv]] := by
      unfold Heap.clauses
      rw [m2, x1.hdrs c hcO, List.map_append]
      congr 1
      · exact map_clause (x1.trans x2) (hi.cover c hcO)
      · simp [x2.clause s List.mem_cons_self, m1]
    rw [this]
    simp

/-- The value `v` may be used, besides others whose slices are in `LI` and `lO`. -/
def Usable (h : Heap) (aI aO LI lO : List Sl) (v : HCNF) : Prop :=
  HI h aI (h.hdrs v.s ++ (h.hdrs v.c ++ LI)) aO (v.s :: v.c :: lO)

variable {LI : List Sl} {v w r : HCNF}

theorem Usable.s_mem (u : Usable h aI aO LI lO v) : v.s ∈ aO := u.outs.sub _ (by simp)
theorem Usable.c_mem (u : Usable h aI aO LI lO v) : v.c ∈ aO := u.outs.sub _ (by simp)

theorem cnf_ext (e : Ext h aI aO h' aI' aO') (hi : HI h aI lI aO lO) (hs : v.s ∈ aO) (hc : v.c ∈ aO) :
    h'.cnf v = h.cnf v := by
  unfold Heap.cnf
  rw [e.clauses hi hs, e.clauses hi hc]

theorem appendSemantics_spec {xs : List Sl} (hi : HI h aI (h.hdrs v.s ++ (h.hdrs v.c ++ (xs ++ LI))) aO (v.s :: v.c :: lO))
    (e : h.appendSemantics g v xs = (h', r)) :
    ∃ aO', Usable h' aI aO' LI lO r ∧ Ext h aI aO h' aI aO' ∧
      h'.cnf r = (h.cnf v).appendSemantics (xs.map h.clause) ∧ r.c = v.c := by
  rcases e1 : h.appendOuts g v.s xs with ⟨k, s'⟩
  simp only [Heap.appendSemantics, e1, Prod.mk.injEq] at e
  obtain ⟨rfl, rfl⟩ := e
  have hx : ∀ s ∈ xs, s ∈ aI := fun s hs => hi.ints.sub _ (by simp [hs])
  have hs : v.s ∈ aO := hi.outs.sub _ (by simp)
  have hc : v.c ∈ aO := hi.outs.sub _ (by simp)
  obtain ⟨i1, x1, m1⟩ := hi.appendOuts hx e1
  refine ⟨_, ?_, x1, ?_, rfl⟩
  · unfold Usable
    simp only
    rw [m1, x1.hdrs _ hc]
    exact i1.perm (by perm) (by perm)
  · have hcc := x1.clauses hi hc
    simp only [Heap.cnf, CNF.appendSemantics, hcc]
    simp only [Heap.clauses, m1, List.map_append]
    rw [map_clause x1 (hi.cover _ hs), map_clause x1 hx]

theorem appendConsistency_spec {xs : List Sl} (hi : HI h aI (h.hdrs v.s ++ (h.hdrs v.c ++ (xs ++ LI))) aO (v.s :: v.c :: lO))
    (e : h.appendConsistency g v xs = (h', r)) :
    ∃ aO', Usable h' aI aO' LI lO r ∧ Ext h aI aO h' aI aO' ∧
      h'.cnf r = (h.cnf v).appendConsistency (xs.map h.clause) := by
  rcases e1 : h.appendOuts g v.c xs with ⟨k, c'⟩
  simp only [Heap.appendConsistency, e1, Prod.mk.injEq] at e
  obtain ⟨rfl, rfl⟩ := e
  have hx : ∀ s ∈ xs, s ∈ aI := fun s hs => hi.ints.sub _ (by simp [hs])
  have hs : v.s ∈ aO := hi.outs.sub _ (by simp)
  have hc : v.c ∈ aO := hi.outs.sub _ (by simp)
  obtain ⟨i1, x1, m1⟩ := (hi.perm (.refl _) (lO' := v.c :: v.s :: lO) (by perm)).appendOuts hx e1
  refine ⟨_, ?_, x1, ?_⟩
  · unfold Usable
    simp only
    rw [m1, x1.hdrs _ hs]
    exact i1.perm (by perm) (by perm)
  · have hcc := x1.clauses hi hs
    simp only [Heap.cnf, CNF.appendConsistency, hcc]
    simp only [Heap.clauses, m1, List.map_append]
    rw [map_clause x1 (hi.cover _ hc), map_clause x1 hx]

theorem conjunction_spec
    (hi : HI h aI (h.hdrs v.s ++ (h.hdrs v.c ++ (h.hdrs w.s ++ (h.hdrs w.c ++ LI)))) aO (v.s :: v.c :: lO))
    (hwc : w.c ∈ aO) (e : h.conjunction g v w = (h', r)) :
    ∃ aO', Usable h' aI aO' LI lO r ∧ Ext h aI aO h' aI aO' ∧ h'.cnf r = (h.cnf v).conjunction (h.cnf w) := by
  rcases e1 : h.appendSemantics g v (h.hdrs w.s) with ⟨k, r1⟩
  rcases e2 : k.appendConsistency g r1 (k.hdrs w.c) with ⟨k2, r2⟩
  obtain ⟨a1, i1, x1, m1, c1⟩ := appendSemantics_spec hi e1
  have hr : ({ r1 with c := v.c } : HCNF) = r1 := by rw [← c1]
  simp only [Heap.conjunction, e1, hr, e2, Prod.mk.injEq] at e
  obtain ⟨rfl, rfl⟩ := e
  have hwc' := x1.hdrs _ hwc
  obtain ⟨a2, i2, x2, m2⟩ := appendConsistency_spec (xs := k.hdrs w.c) (LI := LI) (by
    unfold Usable at i1; rw [hwc']; exact i1) e2
  refine ⟨a2, i2, x1.trans x2, ?_⟩
  rw [m2, m1]
  unfold CNF.conjunction
  have : (k.hdrs w.c).map k.clause = h.clauses w.c := x1.clauses hi hwc
  rw [this]
  rfl

theorem addIff_spec {en : Sl} {X : List Sl} (hi : HI h aI (h.hdrs v.c ++ (en :: LI)) aO (X ++ (v.c :: lO)))
    (e : h.addNegationIFFClauses g v en = (h', r)) :
    ∃ aI' aO', Usable h' aI' aO' LI lO r ∧ Ext h aI aO h' aI' aO' ∧
      h'.cnf r = CNF.addNegationIFFClauses ⟨v.tv, [], h.clauses v.c⟩ (h.clause en) := by
  have hi := hi.sub (List.Sublist.refl _) (List.sublist_append_right X (v.c :: lO))
  rcases e1 : h.iffLoop g v.c (v.tv + 1) (h.clause en) with ⟨k1, c1⟩
  rcases e2 : k1.appendInts g en [-(v.tv + 1)] with ⟨k2, en2⟩
  rcases e3 : k2.appendOuts g c1 [en2] with ⟨k3, c3⟩
  rcases e4 : k3.newInts [v.tv + 1] 0 with ⟨k4, one⟩
  rcases e5 : k4.newOuts [one] 0 with ⟨k5, s5⟩
  simp only [Heap.addNegationIFFClauses, e1, e2, e3, e4, e5, Prod.mk.injEq] at e
  obtain ⟨rfl, rfl⟩ := e
  have hen : en ∈ aI := hi.ints.sub _ (by simp)
  obtain ⟨a1, b1, i1, x1, m1⟩ := iffLoop_spec _ hi e1
  obtain ⟨i2, x2, m2⟩ := (i1.perm (lI' := en :: (k1.hdrs c1 ++ LI)) (by perm) (.refl _)).appendInts e2
  obtain ⟨i3, x3, m3⟩ := i2.appendOuts (by simp) e3
  obtain ⟨i4, x4, m4⟩ := i3.newInts e4
  obtain ⟨i5, x5, m5⟩ := i4.newOuts (by simp) e5
  have hc1 : c1 ∈ b1 := i1.outs.sub _ (by simp)
  have hc3 : k5.hdrs c3 = k1.hdrs c1 ++ [en2] := by
    rw [(x4.trans x5).hdrs c3 List.mem_cons_self, m3, x2.hdrs c1 hc1]
  refine ⟨_, _, ?_, (((x1.trans x2).trans x3).trans x4).trans x5, ?_⟩
  · unfold Usable
    simp only
    rw [m5, hc3]
    exact i5.perm (by perm) (by perm)
  · simp only [Heap.cnf, CNF.addNegationIFFClauses, Heap.clauses, m5, hc3, List.map_cons, List.map_nil, List.map_append]
    rw [x5.clause one List.mem_cons_self, m4, (x3.trans (x4.trans x5)).clause en2 List.mem_cons_self, m2,
      x1.clause en hen, map_clause (x2.trans (x3.trans (x4.trans x5))) (i1.cover c1 hc1)]
    have := m1
    unfold Heap.clauses at this
    rw [this]

theorem Inv.full {α : Type} {mem : List (List α)} {all live : List Sl} {s : Sl} (hi : Inv mem all live)
    (hs : s ∈ all) (hf : s.len = s.cap) : Inv mem all (s :: live) := by
  refine ⟨hi.wf, ?_, ?_, ?_⟩
  · intro t ht
    rcases List.mem_cons.mp ht with rfl | ht
    · exact hs
    · exact hi.sub t ht
  · intro r hr hlt
    rcases List.mem_cons.mp hr with rfl | hr
    · omega
    · exact hi.tip r hr hlt
  · refine List.pairwise_cons.mpr ⟨fun t ht e => ⟨hf, ?_⟩, hi.sep⟩
    have w1 := hi.wf s hs
    have w2 := hi.wf t (hi.sub t ht)
    obtain ⟨-, w1, -⟩ := w1
    obtain ⟨-, w2, w3⟩ := w2
    rw [e] at w1
    by_cases h : t.len < t.cap
    · have := hi.tip t ht h s hs e
      omega
    · omega

theorem clause_nil (h : Heap) : h.clause nilSl = [] := rfl
theorem hdrs_nil (h : Heap) : h.hdrs nilSl = [] := rfl

theorem tseytin_spec {tv : Int} (hn : nilSl ∈ aI) (hnO : nilSl ∈ aO)
    (hi : HI h aI (h.hdrs v.s ++ (h.hdrs v.c ++ LI)) aO (v.s :: v.c :: lO))
    (e : h.tseytinNegation g v tv = (h', r)) :
    ∃ aI' aO', Usable h' aI' aO' LI lO r ∧ Ext h aI aO h' aI' aO' ∧ h'.cnf r = (h.cnf v).tseytinNegation tv := by
  have hc : v.c ∈ aO := hi.outs.sub _ (by simp)
  have hi' : HI h aI (nilSl :: (h.hdrs v.s ++ ([] ++ (h.hdrs v.c ++ LI)))) aO (v.s :: v.c :: lO) :=
    ⟨hi.ints.full hn rfl, hi.outs, hi.cover⟩
  have hp : (h.cnf v).sClauses = (h.hdrs v.s).map h.clause := rfl
  rcases tseytinLoop_spec (g := g) (st := ⟨h, tv, [], nilSl⟩) _ hi' with ⟨st, a, h1, h2, h3, h4⟩ | ⟨st, a, h1, h2, h3, h4⟩
  · simp only [Heap.tseytinNegation, h1, Prod.mk.injEq] at e
    obtain ⟨rfl, rfl⟩ := e
    refine ⟨a, aO, ?_, h3, ?_⟩
    · unfold Usable
      simp only [hdrs_nil, List.nil_append]
      rw [h3.hdrs _ hc]
      exact ⟨h2.ints, (h2.outs.live_sub (List.sublist_cons_self _ _)).full hnO rfl, h2.cover⟩
    · simp only [clause_nil, List.map_nil] at h4
      simp only [CNF.tseytinNegation, hp, h4]
      simp only [Heap.cnf, h3.clauses hi hc]
      rfl
  · simp only [clause_nil, List.map_nil] at h4
    have hen : st.enclits ∈ a := h2.ints.sub _ (by simp)
    have hlen := clause_length h2 hen
    rcases e1 : st.h.appendOuts g v.c st.clauses with ⟨k, c'⟩
    have h2' := h2.perm (lI' := st.clauses ++ (h.hdrs v.c ++ (st.enclits :: LI))) (lO' := v.c :: v.s :: lO) (by perm) (by perm)
    obtain ⟨i1, x1, m1⟩ := h2'.appendOuts (fun s hs => h2'.ints.sub _ (by simp [hs])) e1
    rw [h3.hdrs _ hc] at m1
    have hcl : k.clauses c' = h.clauses v.c ++ st.clauses.map st.h.clause := by
      unfold Heap.clauses
      rw [m1, List.map_append, map_clause (h3.trans x1) (hi.cover _ hc)]
      congr 1
      exact map_clause x1 fun s hs => h2'.ints.sub _ (by simp [hs])
    have hencl := x1.clause _ hen
    simp only [Heap.tseytinNegation, h1, e1] at e
    simp only [CNF.tseytinNegation, hp, h4]
    split at e
    · next hone =>
      rcases e2 : k.newOuts [st.enclits] 0 with ⟨k2, s2⟩
      simp only [e2, Prod.mk.injEq] at e
      obtain ⟨rfl, rfl⟩ := e
      obtain ⟨i2, x2, m2⟩ := i1.newOuts (by simpa using hen) e2
      rw [if_pos (by omega)]
      have hk2 : k2.clauses c' = h.clauses v.c ++ st.clauses.map st.h.clause := by
        rw [x2.clauses i1 List.mem_cons_self, hcl]
      refine ⟨_, _, ?_, (h3.trans x1).trans x2, ?_⟩
      · unfold Usable
        simp only
        rw [m2, x2.hdrs c' List.mem_cons_self, m1]
        refine HI.perm (i2.sub (List.Sublist.refl _) (lO' := s2 :: c' :: lO) ?_) (by perm) (.refl _)
        exact .cons_cons _ (.cons_cons _ (List.sublist_cons_self _ _))
      · simp only [Heap.cnf, hk2]
        simp only [Heap.clauses, m2, List.map_cons, List.map_nil]
        rw [x2.clause _ hen, hencl]
    · next hone =>
      rw [if_neg (by omega)]
      have i1' : HI k a (k.hdrs c' ++ (st.enclits :: LI)) (c' :: aO) ([] ++ (c' :: lO)) := by
        rw [m1]
        refine HI.perm (i1.sub (List.Sublist.refl _) (lO' := c' :: lO) ?_) (by perm) (.refl _)
        exact .cons_cons _ (List.sublist_cons_self _ _)
      obtain ⟨a2, b2, u2, x2, m2⟩ := addIff_spec (v := { v with c := c', tv := st.tv }) i1' e
      refine ⟨a2, b2, u2, (h3.trans x1).trans x2, ?_⟩
      rw [m2]
      simp only [hcl, hencl]
      rfl

theorem negate_spec {o : Option Int} (hn : nilSl ∈ aI) (hnO : nilSl ∈ aO) (u : Usable h aI aO LI lO v)
    (e : h.negate g v o = (h', r)) :
    ∃ aI' aO', Usable h' aI' aO' LI lO r ∧ Ext h aI aO h' aI' aO' ∧ h'.cnf r = (h.cnf v).negate o := by
  have hs := u.s_mem
  have hc := u.c_mem
  have hi : HI h aI (h.hdrs v.s ++ (h.hdrs v.c ++ LI)) aO (v.s :: v.c :: lO) := u
  have hl : (h.cnf v).sClauses.length = v.s.len := by
    simp only [Heap.cnf, Heap.clauses, List.length_map]; exact hdrs_length u hs
  have hany : (h.cnf v).hasEmptySemanticClause = (h.hdrs v.s).any fun cl => cl.len == 0 := by
    simp only [CNF.hasEmptySemanticClause, Heap.cnf, Heap.clauses, List.any_map]
    rw [Bool.eq_iff_iff]
    simp only [List.any_eq_true, Function.comp]
    refine ⟨fun ⟨x, hx, h1⟩ => ⟨x, hx, ?_⟩, fun ⟨x, hx, h1⟩ => ⟨x, hx, ?_⟩⟩
    · rw [← clause_length hi (hi.cover _ hs x hx)]; exact h1
    · rw [clause_length hi (hi.cover _ hs x hx)]; exact h1
  unfold Heap.negate at e
  unfold CNF.negate
  simp only [hl, hany]
  by_cases h0 : v.s.len = 0
  · simp only [if_pos h0] at e ⊢
    rcases e1 : h.appendSemantics g v [nilSl] with ⟨k, r1⟩
    simp only [e1, Prod.mk.injEq] at e
    obtain ⟨rfl, rfl⟩ := e
    obtain ⟨b, u1, x1, m1, -⟩ := appendSemantics_spec (LI := LI) (xs := [nilSl])
      ⟨((hi.ints.full hn rfl).live_perm (by perm)), hi.outs, hi.cover⟩ e1
    refine ⟨aI, b, u1, x1, ?_⟩
    simp only [List.map_cons, List.map_nil, clause_nil] at m1
    rw [← m1]
    cases o <;> rfl
  · simp only [if_neg h0] at e ⊢
    by_cases h1 : ((h.hdrs v.s).any fun cl => cl.len == 0) = true
    · simp only [if_pos h1] at e ⊢
      simp only [Prod.mk.injEq] at e
      obtain ⟨rfl, rfl⟩ := e
      refine ⟨aI, aO, ?_, .refl _ _ _, ?_⟩
      · unfold Usable
        simp only [hdrs_nil, List.nil_append]
        exact ⟨hi.ints.live_sub (List.sublist_append_right _ _),
          (hi.outs.live_sub (List.sublist_cons_self _ _)).full hnO rfl, hi.cover⟩
      · cases o <;> rfl
    · simp only [if_neg h1] at e ⊢
      obtain ⟨a, b, u1, x1, m1⟩ := tseytin_spec hn hnO (v := { v with tv := _ }) hi e
      refine ⟨a, b, u1, x1, m1.trans ?_⟩
      cases o <;> rfl

/-! ### histories -/

/-- The slices of the values, as lists of clauses and as clauses. -/
def outsOf (vs : List HCNF) : List Sl := vs.flatMap fun v => [v.s, v.c]
/-- See `outsOf`. -/
def intsOf (h : Heap) (vs : List HCNF) : List Sl := vs.flatMap fun v => h.hdrs v.s ++ h.hdrs v.c

/-- The values at the positions that are not in `used`; positions are counted from `k` on. -/
def unusedFrom (k : Nat) (used : List Nat) : List HCNF → List HCNF
  | [] => []
  | v :: vs => if k ∈ used then unusedFrom (k + 1) used vs else v :: unusedFrom (k + 1) used vs

/-- The values at the positions that are not in `used`. -/
def unused (used : List Nat) (vals : List HCNF) : List HCNF := unusedFrom 0 used vals

theorem unusedFrom_late {i : Nat} {used : List Nat} (vals : List HCNF) : ∀ k, i < k →
    unusedFrom k (i :: used) vals = unusedFrom k used vals := by
  induction vals with
  | nil => intro k _; rfl
  | cons w vs ih =>
    intro k hk
    simp only [unusedFrom, List.mem_cons, show ¬ k = i by omega, false_or, ih (k + 1) (by omega)]

theorem unusedFrom_perm {used : List Nat} (vals : List HCNF) : ∀ k i, k + i ∉ used → vals[i]? = some v →
    (v :: unusedFrom k ((k + i) :: used) vals).Perm (unusedFrom k used vals) := by
  induction vals with
  | nil => intro k i _ h; simp at h
  | cons w vs ih =>
    intro k i hi h
    cases i with
    | zero =>
      simp only [List.getElem?_cons_zero, Option.some.injEq] at h
      subst h
      simp only [Nat.add_zero] at hi ⊢
      simp only [unusedFrom, List.mem_cons, true_or, if_true, hi, if_false]
      rw [unusedFrom_late vs (k + 1) (by omega)]
    | succ i =>
      simp only [List.getElem?_cons_succ] at h
      have := ih (k + 1) i (by rw [show k + 1 + i = k + (i + 1) by omega]; exact hi) h
      rw [show k + 1 + i = k + (i + 1) by omega] at this
      simp only [unusedFrom, List.mem_cons, show ¬ k = k + (i + 1) by omega, false_or]
      split
      · exact this
      · exact (List.Perm.swap _ _ _).trans (this.cons w)

theorem unusedFrom_mono {used used' : List Nat} (hu : ∀ i ∈ used, i ∈ used') (vals : List HCNF) : ∀ k,
    (unusedFrom k used' vals).Sublist (unusedFrom k used vals) := by
  induction vals with
  | nil => intro k; exact .slnil
  | cons w vs ih =>
    intro k
    simp only [unusedFrom]
    by_cases h : k ∈ used
    · simp only [h, hu k h, if_true]; exact ih _
    · simp only [h, if_false]
      split
      · exact (ih _).cons _
      · exact (ih _).cons_cons _

theorem unusedFrom_concat {used : List Nat} (vals : List HCNF) : ∀ k,
    (unusedFrom k used (vals ++ [r])).Sublist (unusedFrom k used vals ++ [r]) := by
  induction vals with
  | nil =>
    intro k
    simp only [List.nil_append, unusedFrom]
    split
    · exact List.nil_sublist _
    · exact List.Sublist.refl _
  | cons w vs ih =>
    intro k
    simp only [List.cons_append, unusedFrom]
    split
    · exact ih _
    · exact (ih _).cons_cons _

theorem unusedFrom_mem {used : List Nat} (vals : List HCNF) : ∀ k, ∀ w ∈ unusedFrom k used vals, w ∈ vals := by
  induction vals with
  | nil => intro k w h; exact h
  | cons x vs ih =>
    intro k w h
    simp only [unusedFrom] at h
    split at h
    · exact List.mem_cons_of_mem _ (ih _ w h)
    · rcases List.mem_cons.mp h with rfl | h
      · exact List.mem_cons_self
      · exact List.mem_cons_of_mem _ (ih _ w h)

theorem sublist_flatMap {f : HCNF → List Sl} {l1 l2 : List HCNF} (h : l1.Sublist l2) :
    (l1.flatMap f).Sublist (l2.flatMap f) := by
  induction h with
  | slnil => exact .slnil
  | cons a _ ih =>
    simp only [List.flatMap_cons]
    exact ih.trans (List.sublist_append_right _ _)
  | cons_cons a _ ih =>
    simp only [List.flatMap_cons]
    exact ih.append_left _

/-- The invariant of a history. -/
def Sound (st : St) (used : List Nat) (pure : List CNF) : Prop :=
  ∃ aI aO, HI st.h aI (intsOf st.h (unused used st.vals)) aO (outsOf (unused used st.vals)) ∧
    (∀ v ∈ st.vals, v.s ∈ aO ∧ v.c ∈ aO) ∧ nilSl ∈ aI ∧ nilSl ∈ aO ∧ (⟨1, 1, 1⟩ : Sl) ∈ aO ∧
    st.h.hdrs ⟨1, 1, 1⟩ = [nilSl] ∧ st.vals.map st.h.cnf = pure

theorem intsOf_congr {vs : List HCNF} (hh : ∀ v ∈ vs, h'.hdrs v.s = h.hdrs v.s ∧ h'.hdrs v.c = h.hdrs v.c) :
    intsOf h' vs = intsOf h vs := by
  induction vs with
  | nil => rfl
  | cons x vs ih =>
    have h1 := hh x List.mem_cons_self
    have h2 := ih fun v hv => hh v (List.mem_cons_of_mem _ hv)
    unfold intsOf at h2 ⊢
    simp only [List.flatMap_cons, h1.1, h1.2, h2]

theorem Sound.mono {st : St} {used used' : List Nat} {pure : List CNF} (hu : ∀ i ∈ used, i ∈ used')
    (hs : Sound st used pure) : Sound st used' pure := by
  obtain ⟨aI, aO, hi, hr⟩ := hs
  have := unusedFrom_mono hu st.vals 0
  exact ⟨aI, aO, hi.sub (sublist_flatMap this) (sublist_flatMap this), hr⟩

/-- A new value. -/
theorem sound_add {vals : List HCNF} {used : List Nat} {pure : List CNF} {lI' lO' : List Sl}
    (hi : HI h aI lI' aO lO') (hv : ∀ v ∈ vals, v.s ∈ aO ∧ v.c ∈ aO)
    (hn : nilSl ∈ aI) (hnO : nilSl ∈ aO) (hf : (⟨1, 1, 1⟩ : Sl) ∈ aO) (hff : h.hdrs ⟨1, 1, 1⟩ = [nilSl])
    (hp : vals.map h.cnf = pure) (x : Ext h aI aO h' aI' aO')
    (u : Usable h' aI' aO' (intsOf h (unused used vals)) (outsOf (unused used vals)) r) :
    Sound ⟨h', vals ++ [r]⟩ used (pure ++ [h'.cnf r]) := by
  refine ⟨aI', aO', ?_, ?_, x.subI _ hn, x.subO _ hnO, x.subO _ hf, (x.hdrs _ hf).trans hff, ?_⟩
  · have hsub := unusedFrom_concat (r := r) (used := used) vals 0
    refine HI.sub (lI := intsOf h' (unused used vals ++ [r])) (lO := outsOf (unused used vals ++ [r])) ?_
      (sublist_flatMap hsub) (sublist_flatMap hsub)
    have : intsOf h' (unused used vals) = intsOf h (unused used vals) := by
      refine intsOf_congr fun v hv' => ?_
      have := hv v (unusedFrom_mem vals 0 v hv')
      exact ⟨x.hdrs _ this.1, x.hdrs _ this.2⟩
    unfold Usable at u
    rw [← this] at u
    unfold intsOf outsOf at u ⊢
    simp only [List.flatMap_append, List.flatMap_cons, List.flatMap_nil, List.append_nil]
    exact u.perm (by perm) (by perm)
  · intro v hv'
    rcases List.mem_append.mp hv' with h1 | h1
    · exact ⟨x.subO _ (hv v h1).1, x.subO _ (hv v h1).2⟩
    · simp only [List.mem_singleton] at h1
      subst h1
      exact ⟨u.s_mem, u.c_mem⟩
  · simp only [List.map_append, List.map_cons, List.map_nil, ← hp]
    congr 1
    exact List.map_congr_left fun v hv' => cnf_ext x hi (hv v hv').1 (hv v hv').2

theorem sound_step {st : St} {used : List Nat} {pure : List CNF} (hs : Sound st used pure) (op : Op)
    (hnd : (Op.uses op).Nodup) (hd : ∀ i ∈ Op.uses op, i ∉ used) :
    Sound (step g st op) (Op.uses op ++ used) (pureStep pure op) := by
  obtain ⟨h, vals⟩ := st
  have hs0 := hs
  obtain ⟨aI, aO, hi, hv, hn, hnO, hf, hff, hp⟩ := hs
  simp only at hi hv hff hp
  have hget : ∀ i : Nat, pure[i]? = (vals[i]?).map h.cnf := by intro i; rw [← hp, List.getElem?_map]
  cases op with
  | zero =>
    refine sound_add hi hv hn hnO hf hff hp (.refl _ _ _) ?_
    unfold Usable
    exact ⟨hi.ints, (hi.outs.full hnO rfl).full hnO rfl, hi.cover⟩
  | falseCNF =>
    have : h.cnf falseCNF = FalseCNF := by
      simp only [Heap.cnf, Heap.clauses, falseCNF, hff]; rfl
    simp only [step, pureStep]
    rw [← this]
    refine sound_add hi hv hn hnO hf hff hp (.refl _ _ _) ?_
    unfold Usable
    simp only [falseCNF, hff, hdrs_nil, List.nil_append]
    exact ⟨hi.ints.full hn rfl, (hi.outs.full hnO rfl).full hf rfl, hi.cover⟩
  | fromClauses cls spare =>
    rcases e1 : h.newClauses cls with ⟨k1, hs⟩
    rcases e2 : k1.newOuts hs spare with ⟨k2, o⟩
    obtain ⟨a1, i1, x1, m1, m1'⟩ := hi.newClauses _ e1
    obtain ⟨i2, x2, m2⟩ := i1.newOuts m1' e2
    have hcl : k2.clauses o = cls.map (·.1) := by
      unfold Heap.clauses; rw [m2, map_clause x2 m1', m1]
    have : k2.cnf (k2.fromClauses o) = FromClauses (cls.map (·.1)) := by
      simp only [Heap.cnf, Heap.fromClauses, FromClauses, hcl]
      rfl
    simp only [step, pureStep, e1, e2]
    rw [← this]
    refine sound_add hi hv hn hnO hf hff hp (x1.trans x2) ?_
    unfold Usable
    simp only [Heap.fromClauses, m2, hdrs_nil, List.nil_append]
    have := i2.outs.full (x2.subO _ (x1.subO _ hnO)) rfl
    exact ⟨i2.ints, this.live_perm (List.Perm.swap _ _ _), i2.cover⟩
  | appendSemantics i cls =>
    simp only [step, pureStep, hget]
    cases hvi : vals[i]? with
    | none => exact hs0.mono (by intro j hj; simp [hj])
    | some v =>
      have hvm := hv v (List.mem_of_getElem? hvi)
      rcases e1 : h.newClauses cls with ⟨k1, hs⟩
      rcases e2 : k1.appendSemantics g v hs with ⟨k2, r⟩
      obtain ⟨a1, i1, x1, m1, m1'⟩ := hi.newClauses _ e1
      have hpm := unusedFrom_perm (used := used) vals 0 i (by rw [Nat.zero_add]; exact hd i (by simp [Op.uses])) hvi
      rw [Nat.zero_add] at hpm
      have i1' : HI k1 a1 (k1.hdrs v.s ++ (k1.hdrs v.c ++ (hs ++ intsOf h (unused (i :: used) vals)))) aO
          (v.s :: v.c :: outsOf (unused (i :: used) vals)) := by
        rw [x1.hdrs _ hvm.1, x1.hdrs _ hvm.2]
        refine i1.perm ?_ (hpm.flatMap_right _).symm
        refine ((hpm.flatMap_right _).symm.append_left _).trans ?_
        simp only [List.flatMap_cons, intsOf, unused]
        perm
      obtain ⟨b, u, x2, m2, -⟩ := appendSemantics_spec i1' e2
      simp only [Option.map_some, e2]
      have : k2.cnf r = (h.cnf v).appendSemantics (cls.map (·.1)) := by
        rw [m2, m1, cnf_ext x1 hi hvm.1 hvm.2]
      rw [← this]
      exact sound_add hi hv hn hnO hf hff hp (x1.trans x2) u
  | appendConsistency i cls =>
    simp only [step, pureStep, hget]
    cases hvi : vals[i]? with
    | none => exact hs0.mono (by intro j hj; simp [hj])
    | some v =>
      have hvm := hv v (List.mem_of_getElem? hvi)
      rcases e1 : h.newClauses cls with ⟨k1, hs⟩
      rcases e2 : k1.appendConsistency g v hs with ⟨k2, r⟩
      obtain ⟨a1, i1, x1, m1, m1'⟩ := hi.newClauses _ e1
      have hpm := unusedFrom_perm (used := used) vals 0 i (by rw [Nat.zero_add]; exact hd i (by simp [Op.uses])) hvi
      rw [Nat.zero_add] at hpm
      have i1' : HI k1 a1 (k1.hdrs v.s ++ (k1.hdrs v.c ++ (hs ++ intsOf h (unused (i :: used) vals)))) aO
          (v.s :: v.c :: outsOf (unused (i :: used) vals)) := by
        rw [x1.hdrs _ hvm.1, x1.hdrs _ hvm.2]
        refine i1.perm ?_ (hpm.flatMap_right _).symm
        refine ((hpm.flatMap_right _).symm.append_left _).trans ?_
        simp only [List.flatMap_cons, intsOf, unused]
        perm
      obtain ⟨b, u, x2, m2⟩ := appendConsistency_spec i1' e2
      simp only [Option.map_some, e2]
      have : k2.cnf r = (h.cnf v).appendConsistency (cls.map (·.1)) := by
        rw [m2, m1, cnf_ext x1 hi hvm.1 hvm.2]
      rw [← this]
      exact sound_add hi hv hn hnO hf hff hp (x1.trans x2) u
  | conjunction i j =>
    simp only [step, pureStep, hget]
    cases hvi : vals[i]? with
    | none => exact hs0.mono (by intro j hj; simp [hj])
    | some v =>
    cases hvj : vals[j]? with
    | none => exact hs0.mono (by intro j hj; simp [hj])
    | some w =>
      have hvm := hv v (List.mem_of_getElem? hvi)
      have hwm := hv w (List.mem_of_getElem? hvj)
      rcases e1 : h.conjunction g v w with ⟨k, r⟩
      have hij : i ≠ j := by simpa [Op.uses] using hnd
      have hpj := unusedFrom_perm (used := used) vals 0 j (by rw [Nat.zero_add]; exact hd j (by simp [Op.uses])) hvj
      have hpi := unusedFrom_perm (used := j :: used) vals 0 i (by
        rw [Nat.zero_add]; simp only [List.mem_cons, not_or]; exact ⟨hij, hd i (by simp [Op.uses])⟩) hvi
      rw [Nat.zero_add] at hpi hpj
      have hpm := (hpi.cons w).trans hpj
      have hi' : HI h aI (h.hdrs v.s ++ (h.hdrs v.c ++ (h.hdrs w.s ++ (h.hdrs w.c ++ intsOf h (unused (i :: j :: used) vals)))))
          aO (v.s :: v.c :: outsOf (unused (i :: j :: used) vals)) := by
        have q := hi.perm (lI' := intsOf h (w :: v :: unused (i :: j :: used) vals))
          (lO' := outsOf (w :: v :: unused (i :: j :: used) vals))
          (hpm.flatMap_right _).symm (hpm.flatMap_right _).symm
        simp only [intsOf, outsOf, List.flatMap_cons] at q ⊢
        refine HI.sub (q.perm (lI' := h.hdrs v.s ++ (h.hdrs v.c ++ (h.hdrs w.s ++ (h.hdrs w.c ++ intsOf h (unused (i :: j :: used) vals))))) ?_ (.refl _)) (List.Sublist.refl _) ?_
        · simp only [intsOf]; perm
        · exact .cons _ (.cons _ (List.Sublist.refl _))
      obtain ⟨b, u, x, m⟩ := conjunction_spec hi' hwm.2 e1
      simp only [Option.map_some, e1]
      rw [← m]
      exact sound_add hi hv hn hnO hf hff hp x u
  | negate i o =>
    simp only [step, pureStep, hget]
    cases hvi : vals[i]? with
    | none => exact hs0.mono (by intro j hj; simp [hj])
    | some v =>
      rcases e1 : h.negate g v o with ⟨k, r⟩
      have hpm := unusedFrom_perm (used := used) vals 0 i (by rw [Nat.zero_add]; exact hd i (by simp [Op.uses])) hvi
      rw [Nat.zero_add] at hpm
      have u0 : Usable h aI aO (intsOf h (unused (i :: used) vals)) (outsOf (unused (i :: used) vals)) v := by
        unfold Usable
        have q := hi.perm (hpm.flatMap_right _).symm (hpm.flatMap_right _).symm
        simp only [List.flatMap_cons] at q
        simp only [intsOf, outsOf, unused]
        exact q.perm (by perm) (by perm)
      obtain ⟨a, b, u, x, m⟩ := negate_spec hn hnO u0 e1
      simp only [Option.map_some, e1]
      rw [← m]
      exact sound_add hi hv hn hnO hf hff hp x u

theorem sound_start : Sound {} [] [] := by
  refine ⟨[nilSl], [nilSl, ⟨1, 1, 1⟩], ⟨⟨?_, ?_, ?_, ?_⟩, ⟨?_, ?_, ?_, ?_⟩, ?_⟩, ?_, ?_, ?_, ?_, rfl, rfl⟩
  all_goals simp [intsOf, outsOf, unused, unusedFrom, Heap.start, Wf, nilSl, Heap.hdrs, view]

theorem sound_run {st : St} {used : List Nat} {pure : List CNF} (ops : List Op) : Sound st used pure →
    (ops.flatMap Op.uses).Nodup → (∀ i ∈ ops.flatMap Op.uses, i ∉ used) →
    ∃ used', Sound (ops.foldl (step g) st) used' (ops.foldl pureStep pure) := by
  induction ops generalizing st used pure with
  | nil => intro hs _ _; exact ⟨used, hs⟩
  | cons op ops ih =>
    intro hs hnd hd
    simp only [List.flatMap_cons] at hnd hd
    have hn := List.nodup_append.mp hnd
    refine ih (sound_step hs op hn.1 fun i hi => hd i (List.mem_append_left _ hi)) hn.2.1 ?_
    intro i hi hm
    rcases List.mem_append.mp hm with h1 | h1
    · exact hn.2.2 i h1 i hi rfl
    · exact hd i (List.mem_append_right _ hi) h1

end Goexpdt.Alias

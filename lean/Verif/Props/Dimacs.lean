import Verif.Lemmas.Itoa
import Verif.Props.CNF
/-
C06, C07: the DIMACS text of a formula and its file.
-/
namespace Goexpdt.Props
open Goexpdt Spec

/-- Reading back the bytes of a formula without literal 0. -/
theorem readDimacs_toBytes (c : CNF) (hw : WF c) : readDimacs c.toBytes =
    some (c.tv, ((c.sClauses ++ c.cClauses).length : Int), c.sClauses ++ c.cClauses) := by
  have ht : tokens [] c.toBytes = ['p'] :: ['c', 'n', 'f'] :: itoa c.tv ::
      itoa ((c.sClauses.length + c.cClauses.length : Nat) : Int) ::
      tokens [] (c.sClauses.flatMap (fun cl => clauseToDIMACS cl ++ ['\n']) ++
        (c.cClauses.flatMap (fun cl => clauseToDIMACS cl ++ ['\n']) ++ [])) := by
    have h1 := fun r => tokens_sep (w := ['p']) (by simp) (by simp) (s := ' ') (.inl rfl) r
    have h2 := fun r => tokens_sep (w := ['c', 'n', 'f']) (by simp) (by simp) (s := ' ') (.inl rfl) r
    simp only [List.cons_append, List.nil_append] at h1 h2
    simp only [CNF.toBytes, dimacsHeader, List.cons_append, List.nil_append, List.append_assoc,
      List.append_nil]
    rw [h1, h2, tokens_itoa _ (.inl rfl), tokens_itoa _ (.inr rfl)]
  rw [readDimacs, ht]
  simp only [readInt_itoa]
  rw [readClauses_lines _ hw.sNonZero, readClauses_lines _ hw.cNonZero]
  simp [tokens, readClauses]

/-- C06. Reading back the bytes of `ToBytes` gives exactly the clauses, in order, the declared number
of clauses is right and the declared number of variables bounds every variable. -/
theorem C06_dimacs_roundtrip (c : CNF) (hc : Built c) :
    ∃ nv : Int, readDimacs c.toBytes =
      some (nv, ((c.sClauses ++ c.cClauses).length : Int), c.sClauses ++ c.cClauses) ∧
      nv = c.topV ∧ ∀ cl ∈ c.sClauses ++ c.cClauses, ∀ l ∈ cl, (l.natAbs : Int) ≤ nv := by
  refine ⟨c.tv, readDimacs_toBytes c hc.wf, rfl, fun cl hcl l hl => ((C03_topV_bounds c hc).2 cl hcl l hl).2⟩

/-- The reader on the text of the example formula. -/
example : Built exCNF ∧ readDimacs exCNF.toBytes =
    some (4, 4, [[1, 2], [-1, 3], [2], [-3, 4]]) := ⟨exCNF_built, by decide⟩

/-- C06: the restriction to literals other than 0 is needed; with one the text reads differently. -/
example : readDimacs (FromClauses [[1, 0, 2]]).toBytes ≠ some (2, 1, [[1, 0, 2]]) := by
  decide

/-- The lines of a text, as `ToFile` writes them. -/
private def lines (c : CNF) : List (List Char) :=
  dimacsHeader c :: (c.sClauses ++ c.cClauses).map (fun cl => clauseToDIMACS cl ++ ['\n'])

private theorem flatMap_eq (cls : List Clause) :
    cls.flatMap (fun cl => clauseToDIMACS cl ++ ['\n']) =
      (cls.map (fun cl => clauseToDIMACS cl ++ ['\n'])).flatten := by
  rw [List.flatMap]

private theorem writeClauses_none (cls : List Clause) (content : List Char) :
    writeClauses ⟨content, none⟩ cls =
      (true, ⟨content ++ (cls.map (fun cl => clauseToDIMACS cl ++ ['\n'])).flatten, none⟩) := by
  induction cls generalizing content with
  | nil => simp [writeClauses]
  | cons cl cls ih => simp [writeClauses, FileSt.write, ih]

private theorem writeClauses_some (cls : List Clause) (content : List Char) (k p : Nat) (h : cls.length ≤ k) :
    writeClauses ⟨content, some (k, p)⟩ cls =
      (true, ⟨content ++ (cls.map (fun cl => clauseToDIMACS cl ++ ['\n'])).flatten, some (k - cls.length, p)⟩) := by
  induction cls generalizing content k with
  | nil => simp [writeClauses]
  | cons cl cls ih =>
    cases k with
    | zero => simp at h
    | succ k => simp [writeClauses, FileSt.write, ih _ _ (by simpa using h)]

private theorem writeClauses_fail (cls : List Clause) (content : List Char) (k p : Nat) (h : k < cls.length) :
    ∃ f, writeClauses ⟨content, some (k, p)⟩ cls = (false, f) ∧
      f.content = content ++ ((cls.map (fun cl => clauseToDIMACS cl ++ ['\n'])).take k).flatten ++
        (clauseToDIMACS cls[k] ++ ['\n']).dropLast.take p := by
  induction cls generalizing content k with
  | nil => simp at h
  | cons cl cls ih =>
    cases k with
    | zero => simp [writeClauses, FileSt.write]
    | succ k =>
      obtain ⟨f, h1, h2⟩ := ih (content ++ (clauseToDIMACS cl ++ ['\n'])) k (by simpa using h)
      refine ⟨f, by simpa [writeClauses, FileSt.write] using h1, ?_⟩
      rw [h2]
      simp

private theorem clauseLine_shape (cl : Clause) : '\n' ∉ clauseToDIMACS cl := by
  unfold clauseToDIMACS
  simp only [List.mem_append, List.mem_flatMap, List.mem_singleton, not_or, not_exists, not_and]
  refine ⟨fun v _ => ⟨fun h => (itoa_ne_ws v _ h).2 rfl, by decide⟩, by decide⟩

/-- C07. `ToFile`, at every failure point. The text of `ToBytes` is a sequence of lines, one for
the header and one per clause. If the file cannot be created, `ToFile` reports an error. If no write
fails, it returns nil and the file holds the bytes of `ToBytes`. If the write after `k` successful
ones fails, it reports an error exactly when `k` is less than the number of lines, and the file then
holds the first `k` lines and the part of the next line that was written, which is a proper prefix of the
bytes of `ToBytes`. -/
theorem C07_toFile (c : CNF) :
    ∃ ls : List (List Char), ls.flatten = c.toBytes ∧
      ls.length = 1 + (c.sClauses ++ c.cClauses).length ∧
      (∀ l ∈ ls, ∃ w : List Char, l = w ++ ['\n'] ∧ '\n' ∉ w) ∧
      c.toFile none = (false, none) ∧
      (∃ f, c.toFile (some none) = (true, some f) ∧ f.content = c.toBytes) ∧
      (∀ k p, ls.length ≤ k →
        ∃ f, c.toFile (some (some (k, p))) = (true, some f) ∧ f.content = c.toBytes) ∧
      (∀ k p, k < ls.length →
        ∃ f, c.toFile (some (some (k, p))) = (false, some f) ∧
          (∃ w l, ls[k]? = some l ∧ w <+: l ∧ w.length = min p (l.length - 1) ∧
            f.content = (ls.take k).flatten ++ w) ∧
          f.content <+: c.toBytes ∧ f.content ≠ c.toBytes) := by
  have hflat : (lines c).flatten = c.toBytes := by
    simp only [lines, CNF.toBytes, flatMap_eq, List.map_append, List.flatten_cons,
      List.flatten_append, List.append_assoc]
  have hlen : (lines c).length = 1 + (c.sClauses ++ c.cClauses).length := by
    simp [lines]; omega
  have hshape : ∀ l ∈ lines c, ∃ w : List Char, l = w ++ ['\n'] ∧ '\n' ∉ w := by
    intro l hl
    simp only [lines, List.mem_cons, List.mem_map] at hl
    rcases hl with rfl | ⟨cl, _, rfl⟩
    · refine ⟨_, rfl, ?_⟩
      simp only [List.mem_append, not_or]
      refine ⟨⟨⟨by decide, fun h => (itoa_ne_ws _ _ h).2 rfl⟩, by decide⟩,
        fun h => (itoa_ne_ws _ _ h).2 rfl⟩
    · exact ⟨_, rfl, clauseLine_shape cl⟩
  refine ⟨lines c, hflat, hlen, hshape, rfl, ?_, ?_, ?_⟩
  · rw [← hflat]
    simp [CNF.toFile, FileSt.write, writeClauses_none, lines]
  · intro k p hk
    rw [← hflat]
    cases k with
    | zero => simp [lines] at hk
    | succ k =>
      have h1 : c.sClauses.length ≤ k := by simp [lines] at hk; omega
      have h2 : c.cClauses.length ≤ k - c.sClauses.length := by simp [lines] at hk; omega
      simp only [CNF.toFile, FileSt.write, writeClauses_some _ _ _ _ h1, writeClauses_some _ _ _ _ h2]
      exact ⟨_, rfl, by simp [lines]⟩
  · intro k p hk
    have hres : ∃ f, c.toFile (some (some (k, p))) = (false, some f) ∧
        f.content = ((lines c).take k).flatten ++ (lines c)[k].dropLast.take p := by
      cases k with
      | zero => simp [CNF.toFile, FileSt.write, lines]
      | succ k =>
        have hk' : k < c.sClauses.length + c.cClauses.length := by simpa [lines] using hk
        by_cases h1 : c.sClauses.length ≤ k
        · have h2 : k - c.sClauses.length < c.cClauses.length := by omega
          simp only [CNF.toFile, FileSt.write, writeClauses_some _ _ _ _ h1]
          obtain ⟨f, h3, h4⟩ := writeClauses_fail c.cClauses ([] ++ dimacsHeader c ++
            (c.sClauses.map (fun cl => clauseToDIMACS cl ++ ['\n'])).flatten) _ p h2
          rw [h3]
          refine ⟨f, rfl, ?_⟩
          have h5 : (lines c)[k + 1] = clauseToDIMACS c.cClauses[k - c.sClauses.length] ++ ['\n'] := by
            simp [lines, List.getElem_append, Nat.not_lt.2 h1]
          rw [h4, h5]
          simp only [lines, List.take_succ_cons, List.map_append, List.take_append, List.length_map,
            List.flatten_cons, List.flatten_append, List.nil_append, List.append_assoc]
          rw [List.take_of_length_le (l := c.sClauses.map _) (by simpa using h1)]
        · have h2 : k < c.sClauses.length := by omega
          simp only [CNF.toFile, FileSt.write]
          obtain ⟨f, h3, h4⟩ := writeClauses_fail c.sClauses ([] ++ dimacsHeader c) _ p h2
          rw [h3]
          refine ⟨f, rfl, ?_⟩
          have h5 : (lines c)[k + 1] = clauseToDIMACS c.sClauses[k] ++ ['\n'] := by
            simp [lines, h2]
          rw [h4, h5]
          have : k - c.sClauses.length = 0 := by omega
          simp [lines, List.take_append, this]
    obtain ⟨f, hf1, hf2⟩ := hres
    obtain ⟨w, hw, -⟩ := hshape _ (List.getElem_mem hk)
    have hpre : (lines c)[k].dropLast.take p <+: (lines c)[k] :=
      (List.take_prefix _ _).trans (List.dropLast_prefix _)
    have hlt : ((lines c)[k].dropLast.take p).length < (lines c)[k].length := by
      have : 0 < (lines c)[k].length := by rw [hw]; simp
      simp only [List.length_take, List.length_dropLast]
      omega
    have hsplit : (lines c).flatten = ((lines c).take k).flatten ++ ((lines c)[k] ++ ((lines c).drop (k + 1)).flatten) := by
      rw [← List.flatten_cons, ← List.drop_eq_getElem_cons hk, ← List.flatten_append, List.take_append_drop]
    refine ⟨f, hf1, ⟨_, _, List.getElem?_eq_getElem hk, hpre, by simp, hf2⟩, ?_, ?_⟩
    · rw [hf2, ← hflat, hsplit]
      obtain ⟨r, hr⟩ := hpre
      refine ⟨r ++ ((lines c).drop (k + 1)).flatten, ?_⟩
      rw [List.append_assoc, ← List.append_assoc (List.take p _), hr]
    · intro h
      rw [hf2, ← hflat, hsplit] at h
      have h := congrArg List.length (List.append_cancel_left h)
      rw [List.length_append] at h
      omega

/-- A failure of the third write on the example formula, after two characters: the file holds the first two
lines and these. -/
example : ∃ f, exCNF.toFile (some (some (2, 2))) = (false, some f) ∧
    f.content = "p cnf 4 4\n1 2 0\n-1".toList := by
  exact ⟨_, rfl, by decide⟩

end Goexpdt.Props

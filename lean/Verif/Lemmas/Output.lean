import Verif.Spec.Output
import Verif.Lemmas.Brute
import Verif.Lemmas.Values
import Verif.Lemmas.Numeral
/- What `Values` makes of an output. -/
namespace Goexpdt
open Spec Props

/-! ### splitting and joining -/

theorem splitOn_joinWords {ws : List (List Char)} (h : ∀ w ∈ ws, ' ' ∉ w) (hne : ws ≠ []) : splitOn ' ' (joinWords ws) = ws := by
  induction ws with
  | nil => exact absurd rfl hne
  | cons w ws ih =>
    cases ws with
    | nil => simpa [joinWords] using splitOn_self (h w (by simp))
    | cons w' ws =>
      simp only [joinWords]
      rw [splitOn_append (h w (by simp)), ih (fun k hk => h k (by simp [hk])) (by simp)]

theorem splitOn_cons_ne {sep c : Char} {t : List Char} (h : c ≠ sep) :
    ∃ p ps, splitOn sep t = p :: ps ∧ splitOn sep (c :: t) = (c :: p) :: ps := by
  cases hs : splitOn sep t with
  | nil => exact absurd hs (splitOn_ne_nil _ _)
  | cons p ps =>
    refine ⟨p, ps, rfl, ?_⟩
    rw [splitOn, if_neg h, hs]

theorem splitOn_free {sep : Char} (t : List Char) : ∀ p ∈ splitOn sep t, sep ∉ p := by
  induction t with
  | nil => simp [splitOn]
  | cons c t ih =>
    by_cases h : c = sep
    · rw [splitOn, if_pos h]
      intro p hp
      rcases List.mem_cons.1 hp with rfl | hp
      · simp
      · exact ih p hp
    · obtain ⟨p, ps, e, e'⟩ := splitOn_cons_ne (t := t) h
      rw [e']
      rw [e] at ih
      intro q hq
      rcases List.mem_cons.1 hq with rfl | hq
      · have := ih p (by simp)
        simp only [List.mem_cons, not_or]
        exact ⟨fun e => h e.symm, this⟩
      · exact ih q (by simp [hq])

theorem joinLines_splitOn (t : List Char) : joinLines (splitOn '\n' t) = t := by
  induction t with
  | nil => rfl
  | cons c t ih =>
    by_cases h : c = '\n'
    · rw [splitOn, if_pos h]
      cases hs : splitOn '\n' t with
      | nil => exact absurd hs (splitOn_ne_nil _ _)
      | cons p ps => rw [hs] at ih; simp [joinLines, ih, h]
    · obtain ⟨p, ps, e, e'⟩ := splitOn_cons_ne (t := t) h
      rw [e']
      rw [e] at ih
      cases ps with
      | nil => simpa [joinLines] using ih
      | cons q ps => simpa [joinLines] using ih

theorem joinWords_splitOn (t : List Char) : joinWords (splitOn ' ' t) = t := by
  induction t with
  | nil => rfl
  | cons c t ih =>
    by_cases h : c = ' '
    · rw [splitOn, if_pos h]
      cases hs : splitOn ' ' t with
      | nil => exact absurd hs (splitOn_ne_nil _ _)
      | cons p ps => rw [hs] at ih; simp [joinWords, ih, h]
    · obtain ⟨p, ps, e, e'⟩ := splitOn_cons_ne (t := t) h
      rw [e']
      rw [e] at ih
      cases ps with
      | nil => simpa [joinWords] using ih
      | cons q ps => simpa [joinWords] using ih

theorem joinWords_mem {c : Char} {ws : List (List Char)} (h : c ∈ joinWords ws) : c = ' ' ∨ ∃ w ∈ ws, c ∈ w := by
  induction ws with
  | nil => simp [joinWords] at h
  | cons w ws ih =>
    cases ws with
    | nil => exact .inr ⟨w, by simp, by simpa [joinWords] using h⟩
    | cons w' ws =>
      simp only [joinWords, List.mem_append, List.mem_cons] at h
      rcases h with h | h | h
      · exact .inr ⟨w, by simp, h⟩
      · exact .inl h
      · rcases ih h with h | ⟨x, hx, h⟩
        · exact .inl h
        · exact .inr ⟨x, by simp [hx], h⟩

theorem numeral_chars {w : List Char} {v : Int} (h : Numeral w v) : ' ' ∉ w ∧ '\n' ∉ w := by
  obtain ⟨ds, ⟨-, hd⟩, h⟩ := h
  have h1 : ' ' ∉ ds := fun h => absurd (hd _ h) (by decide)
  have h2 : '\n' ∉ ds := fun h => absurd (hd _ h) (by decide)
  rcases h with ⟨rfl | rfl, -⟩ | ⟨rfl, -⟩ <;> simp [h1, h2]

/-! ### scanning -/

theorem scanLits_words (vf : List Int) (ws : List (List Char × Int)) (h : ∀ w ∈ ws, Numeral w.1 w.2) : ∀ vval,
    scanLits vf vval (ws.map (·.1)) = .ok (record vf vval (ws.map (·.2))) := by
  induction ws with
  | nil => intro vval; rfl
  | cons w ws ih =>
    intro vval
    have ih := ih fun k hk => h k (by simp [hk])
    simp only [List.map_cons, scanLits, (atoi_iff w.1 w.2).2 (h w (by simp)), record]
    split <;> exact ih _

/-- The words of a line are numerals, or reading them is an error. -/
theorem scanLits_cases (vf : List Int) (ws : List (List Char)) : (∃ ns : List (List Char × Int), ns.map (·.1) = ws ∧ ∀ w ∈ ns, Numeral w.1 w.2) ∨
    ∀ vval, scanLits vf vval ws = .error (.msg "strconv.Atoi: invalid syntax") := by
  induction ws with
  | nil => exact .inl ⟨[], rfl, by simp⟩
  | cons w ws ih =>
    cases hw : atoi w with
    | error e =>
      refine .inr fun vval => ?_
      have : e = .msg "strconv.Atoi: invalid syntax" := by
        unfold atoi at hw
        split at hw
        · split at hw <;> cases hw <;> rfl
        · split at hw <;> cases hw <;> rfl
        · cases hw; rfl
        · split at hw <;> cases hw <;> rfl
      rw [scanLits, hw, this]
    | ok n =>
      rcases ih with ⟨ns, rfl, hns⟩ | h
      · refine .inl ⟨(w, n) :: ns, rfl, fun x hx => ?_⟩
        rcases List.mem_cons.1 hx with rfl | hx
        · exact (atoi_iff _ _).1 hw
        · exact hns x hx
      · refine .inr fun vval => ?_
        simp only [scanLits, hw]
        split <;> exact h _

theorem anyText_no_newline {l : AnyLine} (h : l.Ok) : '\n' ∉ l.text := by
  cases l with
  | other t => exact h.1
  | vals c ws =>
    obtain ⟨h1, -, h3⟩ := h
    simp only [AnyLine.text, List.mem_cons, not_or]
    refine ⟨by decide, fun e => h1 e.symm, fun hm => ?_⟩
    rcases joinWords_mem hm with h | ⟨w, hw, h⟩
    · exact absurd h (by decide)
    · obtain ⟨x, hx, rfl⟩ := List.mem_map.1 hw
      exact (numeral_chars (h3 x hx)).2 h

/-- Lines that are as they should be are skipped or recorded. -/
theorem scanLines_good (vf : List Int) (rest : List (List Char)) (ls : List AnyLine) (h : ∀ l ∈ ls, l.Ok) : ∀ vval,
    scanLines vf vval (ls.map AnyLine.text ++ rest) = scanLines vf (record vf vval (ls.flatMap AnyLine.lits)) rest := by
  induction ls with
  | nil => intro vval; rfl
  | cons l ls ih =>
    intro vval
    have ih := ih fun k hk => h k (by simp [hk])
    have hl := h l (by simp)
    simp only [List.map_cons, List.flatMap_cons, List.cons_append]
    rw [record_append]
    cases l with
    | other t =>
      cases t with
      | nil => exact ih vval
      | cons c cs =>
        have hc : c ≠ 'v' := fun e => hl.2 (by simp [e])
        simp only [AnyLine.text, scanLines, if_pos hc]
        exact ih vval
    | vals c ws =>
      obtain ⟨-, h2, h3⟩ := hl
      simp only [AnyLine.text, scanLines, ne_eq, not_true_eq_false, if_false]
      rw [splitOn_joinWords _ (by simpa using h2), scanLits_words _ _ h3]
      · exact ih _
      · intro w hw
        obtain ⟨x, hx, rfl⟩ := List.mem_map.1 hw
        exact (numeral_chars (h3 x hx)).1

/-- The lines of an output: all are as they should be, or the first that is not is `v` alone, or it contains a word that is not a numeral. -/
theorem lines_cases (vf : List Int) (lines : List (List Char)) (hn : ∀ l ∈ lines, '\n' ∉ l) :
    (∃ ls : List AnyLine, lines = ls.map AnyLine.text ∧ ∀ l ∈ ls, l.Ok) ∨
    (∃ (ls : List AnyLine) (rest : List (List Char)), lines = ls.map AnyLine.text ++ ['v'] :: rest ∧ (∀ l ∈ ls, l.Ok)) ∨
    (∃ (ls : List AnyLine) (bad : List Char) (rest : List (List Char)), lines = ls.map AnyLine.text ++ bad :: rest ∧ (∀ l ∈ ls, l.Ok) ∧ bad ≠ ['v'] ∧
      ∀ vval, scanLines vf vval (bad :: rest) = .error (.msg "strconv.Atoi: invalid syntax")) := by
  induction lines with
  | nil => exact .inl ⟨[], rfl, by simp⟩
  | cons l lines ih =>
    have hl := hn l (by simp)
    have key : (∃ a : AnyLine, l = a.text ∧ a.Ok) → (∃ ls : List AnyLine, l :: lines = ls.map AnyLine.text ∧ ∀ l ∈ ls, l.Ok) ∨
        (∃ (ls : List AnyLine) (rest : List (List Char)), l :: lines = ls.map AnyLine.text ++ ['v'] :: rest ∧ (∀ l ∈ ls, l.Ok)) ∨
        (∃ (ls : List AnyLine) (bad : List Char) (rest : List (List Char)), l :: lines = ls.map AnyLine.text ++ bad :: rest ∧ (∀ l ∈ ls, l.Ok) ∧ bad ≠ ['v'] ∧
          ∀ vval, scanLines vf vval (bad :: rest) = .error (.msg "strconv.Atoi: invalid syntax")) := by
      rintro ⟨a, rfl, ha⟩
      have hc : ∀ ls : List AnyLine, (∀ l ∈ ls, l.Ok) → ∀ l ∈ a :: ls, l.Ok := fun ls h k hk => by
        rcases List.mem_cons.1 hk with rfl | hk
        · exact ha
        · exact h k hk
      rcases ih fun k hk => hn k (by simp [hk]) with ⟨ls, rfl, h⟩ | ⟨ls, rest, rfl, h⟩ | ⟨ls, bad, rest, rfl, h, h'⟩
      · exact .inl ⟨a :: ls, rfl, hc ls h⟩
      · exact .inr (.inl ⟨a :: ls, rest, rfl, hc ls h⟩)
      · exact .inr (.inr ⟨a :: ls, bad, rest, rfl, hc ls h, h'⟩)
    match l, hl with
    | [], hl => exact key ⟨.other [], rfl, by simp [AnyLine.Ok]⟩
    | c :: cs, hl =>
      by_cases hc : c = 'v'
      · subst hc
        match cs, hl with
        | [], _ => exact .inr (.inl ⟨[], lines, rfl, by simp⟩)
        | c :: cs, hl =>
          rcases scanLits_cases vf (splitOn ' ' cs) with ⟨ns, e, h⟩ | h
          · refine key ⟨.vals c ns, ?_, ?_, ?_, h⟩
            · simp only [AnyLine.text, e, joinWords_splitOn]
            · rintro rfl; simp at hl
            · rintro rfl; exact splitOn_ne_nil _ _ e.symm
          · refine .inr (.inr ⟨[], 'v' :: c :: cs, lines, rfl, by simp, by simp, fun vval => ?_⟩)
            simp only [scanLines, ne_eq, not_true_eq_false, if_false, h]
      · exact key ⟨.other (c :: cs), rfl, hl, by simpa using hc⟩

theorem out_lines {ls : List (List Char)} (h : ∀ l ∈ ls, '\n' ∉ l) {out : List Char} (e : out = joinLines ls) :
    splitOn '\n' out = ls ∨ ls = [] ∧ splitOn '\n' out = [[]] := by
  cases ls with
  | nil => exact .inr ⟨rfl, by rw [e]; rfl⟩
  | cons l ls => exact .inl (by rw [e]; exact splitOn_joinLines h (by simp))

theorem map_text_newline {ls : List AnyLine} (h : ∀ l ∈ ls, l.Ok) : ∀ t ∈ ls.map AnyLine.text, '\n' ∉ t := by
  intro t ht
  obtain ⟨a, ha, rfl⟩ := List.mem_map.1 ht
  exact anyText_no_newline (h a ha)

theorem scan_reports (vf : List Int) {lits : List Int} {out : List Char} (h : Reports lits out) :
    scanLines vf [] (splitOn '\n' out) = .ok (record vf [] lits) := by
  obtain ⟨ls, e, hok, rfl⟩ := h
  rcases out_lines (map_text_newline hok) e with e1 | ⟨e1, e2⟩
  · rw [e1]
    have := scanLines_good vf [] ls hok []
    rwa [List.append_nil] at this
  · rw [e2]
    obtain rfl := List.map_eq_nil_iff.1 e1
    rfl

theorem scan_bare (vf : List Int) {out : List Char} (h : BareV out) :
    scanLines vf [] (splitOn '\n' out) = .error (.panic "slice bounds out of range") := by
  obtain ⟨ls, rest, e, h1, h2⟩ := h
  rw [e, splitOn_joinLines _ (by simp), scanLines_good _ _ _ h1]
  · rfl
  · intro l hl
    rcases List.mem_append.1 hl with hl | hl
    · exact map_text_newline h1 l hl
    · rcases List.mem_cons.1 hl with rfl | hl
      · decide
      · exact h2 l hl

/-- The three cases of an output. -/
theorem scan_cases (out : List Char) : (∃ lits, Reports lits out) ∨ BareV out ∨
    ∀ vf, scanLines vf [] (splitOn '\n' out) = .error (.msg "strconv.Atoi: invalid syntax") := by
  rcases lines_cases [] (splitOn '\n' out) (splitOn_free out) with ⟨ls, e, h⟩ | ⟨ls, rest, e, h⟩ | ⟨ls, bad, rest, e, h, hb, -⟩
  · exact .inl ⟨_, ls, by rw [← e, joinLines_splitOn], h, rfl⟩
  · refine .inr (.inl ⟨ls, rest, by rw [← e, joinLines_splitOn], h, fun l hl => ?_⟩)
    exact splitOn_free out l (by rw [e]; simp [hl])
  · by_cases hr : ∃ lits, Reports lits out
    · exact .inl hr
    · by_cases hbv : BareV out
      · exact .inr (.inl hbv)
      · refine .inr (.inr fun vf => ?_)
        rcases lines_cases vf (splitOn '\n' out) (splitOn_free out) with ⟨ls, e, h⟩ | ⟨ls, rest, e, h⟩ | ⟨ls, bad, rest, e, h, hb, hs⟩
        · exact absurd ⟨_, ls, by rw [← e, joinLines_splitOn], h, rfl⟩ hr
        · exact absurd ⟨ls, rest, by rw [← e, joinLines_splitOn], h, fun l hl => splitOn_free out l (by rw [e]; simp [hl])⟩ hbv
        · rw [e, scanLines_good _ _ _ h, hs]

/-- How reading one variable ends depends on how scanning the output ends. -/
theorem varValue_outcome {s : Ctx} (hv : VMok s) (out : List Char) (v : QVar) : ∃ vf,
    (∀ vval, scanLines vf [] (splitOn '\n' out) = .ok vval → ∃ k, (varValueFromBytes out v s).1 = .ok k) ∧
    ∀ e, scanLines vf [] (splitOn '\n' out) = .error e → (varValueFromBytes out v s).1 = .error e := by
  obtain ⟨fs, s1, e1, h1⟩ := variableFilter_spec (v := v) (List.range s.dim) hv
  have e0 : M.dim s = (.ok s.dim, s) := rfl
  refine ⟨fs, fun vval hs => ?_, fun e hs => ?_⟩
  · obtain ⟨gs, e2⟩ := readFeats_state (s := s1) (v := v) (vval := vval) (List.range s.dim) fun i hi k hk =>
      (h1.named _).2 (.inr ⟨i, hi, k, hk, rfl⟩)
    have e3 : (M.lift (.ok vval) : M _) s1 = (.ok vval, s1) := rfl
    unfold varValueFromBytes
    rw [M_bind_ok e0, M_bind_ok e1, hs, M_bind_ok e3, M_bind_ok e2]
    exact ⟨_, rfl⟩
  · unfold varValueFromBytes
    rw [M_bind_ok e0, M_bind_ok e1, hs]
    rfl

theorem loop_ok {out : List Char} {lits : List Int} (h : Reports lits out) (vs : List QVar) : ∀ {s : Ctx}, VMok s →
    ∃ ks, (binValuesLoop out vs s).1 = .ok ks := by
  induction vs with
  | nil => exact fun _ => ⟨[], rfl⟩
  | cons v vs ih =>
    intro s hv
    obtain ⟨vf, h1, -⟩ := varValue_outcome hv out v
    obtain ⟨k, hk⟩ := h1 _ (scan_reports vf h)
    have h2 := varValue_alloc hv out v
    rcases hq : varValueFromBytes out v s with ⟨r, s1⟩
    rw [hq] at hk h2
    subst hk
    obtain ⟨ks, hks⟩ := ih h2.ok
    unfold binValuesLoop
    rw [M_bind_ok hq]
    rcases hq2 : binValuesLoop out vs s1 with ⟨r, s2⟩
    rw [hq2] at hks
    subst hks
    rw [M_bind_ok hq2]
    exact ⟨_, rfl⟩

theorem loop_error {out : List Char} {e : Err} (h : ∀ vf, scanLines vf [] (splitOn '\n' out) = .error e) {vs : List QVar} (hne : vs ≠ [])
    {s : Ctx} (hv : VMok s) : (binValuesLoop out vs s).1 = .error e := by
  cases vs with
  | nil => exact absurd rfl hne
  | cons v vs =>
    obtain ⟨vf, -, h1⟩ := varValue_outcome hv out v
    have hk := h1 _ (h vf)
    rcases hq : varValueFromBytes out v s with ⟨r, s1⟩
    rw [hq] at hk
    subst hk
    unfold binValuesLoop
    rw [M_bind_error hq]

/-! ### partial solutions -/

/-- Everything that is not printed is false. -/
def printed (lits : List Int) : Val := fun k => decide ((k : Int) ∈ lits)

theorem printed_true {lits : List Int} (h : ∀ k ∈ lits, k ≠ 0 → -k ∉ lits) {l : Int} (hl : l ∈ lits) (h0 : l ≠ 0) : litTrue (printed lits) l := by
  unfold litTrue printed
  by_cases hp : l > 0
  · have : (l.natAbs : Int) = l := by omega
    simp [hp, this, hl]
  · have e : (l.natAbs : Int) = -l := by omega
    have := h l hl h0
    simp only [hp, if_false, e, this, decide_false]

theorem printed_clauses {lits : List Int} {cls : List Clause} (h : Implicant lits cls) (hz : NonZero cls) : clausesTrue (printed lits) cls := by
  intro cl hcl
  obtain ⟨l, h1, h2⟩ := h.covers cl hcl
  exact ⟨l, h1, printed_true h.consistent h2 (hz cl hcl l h1)⟩

theorem varValue_printed {s : Ctx} (hv : VMok s) {lits : List Int} {out : List Char} (hp : Reports lits out)
    (hcon : ∀ k ∈ lits, k ≠ 0 → -k ∉ lits) {v : QVar} {e : PInst}
    (hnm : ∀ i < s.dim, ∀ k ∈ featVals, Named s ⟨v, (i : Nat), k⟩) (hr : Reads s.dim s (printed lits) v e) :
    varValueFromBytes out v s = (.ok { val := valsOf s.dim e }, s) := by
  obtain ⟨fs, ef, hf⟩ := variableFilter_named (v := v) (List.range s.dim)
    (fun i hi => hnm i (List.mem_range.1 hi))
  have e0 : M.dim s = (.ok s.dim, s) := rfl
  have e1 : (M.lift (scanLines fs [] (splitOn '\n' out)) : M _) s = (.ok (record fs [] lits), s) := by
    rw [scan_reports _ hp]; rfl
  have e2 := readFeats_named (s := s) (v := v) (vval := record fs [] lits) (e := e) (List.range s.dim)
    (fun i hi => hnm i (List.mem_range.1 hi)) (by
      intro i hi k hk
      have hi' := List.mem_range.1 hi
      rw [← hr i hi' k hk]
      obtain ⟨m, hm⟩ := hnm i hi' k hk
      have hnum : num s ⟨v, (i : Nat), k⟩ = m := num_eq hm
      have hm1 := (hv.range _ _ hm).1
      have hmf : m ∈ fs := by rw [← hnum]; exact hf i hi k hk
      unfold symVal
      rw [hnum, record_get hm1 hmf _ fun l hl h0 => printed_true hcon hl h0]
      split
      · rfl
      · next hno =>
        have : (m.natAbs : Int) = m := by omega
        have hno : m ∉ lits := fun h => hno (.inl h)
        simp [mapGet, printed, this, hno])
  unfold varValueFromBytes
  rw [M_bind_ok e0, M_bind_ok ef, M_bind_ok e1, M_bind_ok e2]
  rfl

theorem binValues_printed {s : Ctx} (hv : VMok s) {lits : List Int} {st : BinSt} (hp : Reports lits st.output)
    (hcon : ∀ k ∈ lits, k ≠ 0 → -k ∉ lits) (vs : List QVar) (es : QVar → PInst)
    (h : ∀ v ∈ vs, (∀ i < s.dim, ∀ k ∈ featVals, Named s ⟨v, (i : Nat), k⟩) ∧ Reads s.dim s (printed lits) v (es v)) :
    binValues vs st s = (.ok (vs.map fun v => { val := valsOf s.dim (es v) }), st, s) := by
  have : binValuesLoop st.output vs s = (.ok (vs.map fun v => { val := valsOf s.dim (es v) }), s) := by
    induction vs with
    | nil => rfl
    | cons v vs ih =>
      have hh := h v (by simp)
      unfold binValuesLoop
      rw [M_bind_ok (varValue_printed hv hp hcon hh.1 hh.2), M_bind_ok (ih fun w hw => h w (by simp [hw]))]
      rfl
  unfold binValues
  rw [this]

theorem answers_correct {env : Nat → Env} (h : ∀ k, Answers (env k).run) : Correct (binSolver env) := by
  intro act st s s' c e hw hv
  rw [show (binSolver env).step (some act) st s = binStep (env st.calls) (some act) st s from rfl]
  unfold binStep
  cases (env st.calls).temp with
  | some msg => trivial
  | none =>
    simp only [e]
    rcases ht : c.toFile (env st.calls).create with ⟨ok, f⟩
    match ok, f with
    | false, _ => trivial
    | true, none => trivial
    | true, some f =>
      simp only
      rw [toFile_content ht]
      rcases h st.calls _ _ _ _ (readDimacs_toBytes c hw) hw.bounded hw.nonZero with ⟨out, err, lits, h1, h2, h3⟩ | ⟨out, err, h1, h2⟩
      · rw [h1]
        exact ⟨rfl, printed lits, models_iff_clauses.1 (printed_clauses h2 hw.nonZero), fun vs es hr =>
          ⟨_, binValues_printed hv h3 h2.consistent vs es hr⟩⟩
      · rw [h1]
        exact ⟨rfl, fun ⟨β, hβ⟩ => h2 ⟨β, models_iff_clauses.2 hβ⟩⟩

theorem answers_judges {run : List Char → Run} (h : Answers run) : Judges run := by
  intro text n m cls h1 h2 h3
  rcases h text n m cls h1 h2 h3 with ⟨out, err, lits, e, hi, -⟩ | h
  · exact .inl ⟨out, err, e, printed lits, printed_clauses hi h3⟩
  · exact .inr h

theorem lits_numeral (l : Int) : Numeral (itoa l) l := (atoi_iff _ _).1 (atoi_itoa l)

theorem joinWords_lits (k : Int) (ks : List Int) : joinWords ((k :: ks).map itoa) = itoa k ++ ks.flatMap fun l => ' ' :: itoa l := by
  induction ks generalizing k with
  | nil => simp [joinWords]
  | cons k' ks ih =>
    have := ih k'
    simp only [List.map_cons] at this
    simp [joinWords, this]

theorem reports_of_lines {ls : List OutLine} (h : ∀ l ∈ ls, l.Ok) : Reports (ls.flatMap OutLine.lits) (joinLines (ls.map OutLine.text)) := by
  have key : ∀ l : OutLine, l.Ok → ∃ a : AnyLine, a.text = l.text ∧ a.Ok ∧ a.lits = l.lits := by
    intro l hl
    cases l with
    | other t => exact ⟨.other t, rfl, hl, rfl⟩
    | vals lits =>
      cases lits with
      | nil => exact absurd rfl hl
      | cons k ks =>
        refine ⟨.vals ' ' ((k :: ks).map fun l => (itoa l, l)), ?_, ⟨by decide, by simp, ?_⟩, ?_⟩
        · have := joinWords_lits k ks
          simp only [AnyLine.text, OutLine.text, List.map_map, List.flatMap_cons, List.cons_append]
          exact congrArg (fun t => 'v' :: ' ' :: t) this
        · intro w hw
          obtain ⟨l, -, rfl⟩ := List.mem_map.1 hw
          exact lits_numeral l
        · show ((k :: ks).map fun l => (itoa l, l)).map (·.2) = k :: ks
          rw [List.map_map]
          exact List.map_id' _
  have : ∃ as : List AnyLine, as.map AnyLine.text = ls.map OutLine.text ∧ (∀ a ∈ as, a.Ok) ∧ as.flatMap AnyLine.lits = ls.flatMap OutLine.lits := by
    induction ls with
    | nil => exact ⟨[], rfl, by simp, rfl⟩
    | cons l ls ih =>
      obtain ⟨as, e1, e2, e3⟩ := ih fun k hk => h k (by simp [hk])
      obtain ⟨a, e4, e5, e6⟩ := key l (h l (by simp))
      refine ⟨a :: as, by simp [e1, e4], fun b hb => ?_, by simp [e3, e6]⟩
      rcases List.mem_cons.1 hb with rfl | hb
      · exact e5
      · exact e2 b hb
  obtain ⟨as, e1, e2, e3⟩ := this
  exact ⟨as, by rw [e1], e2, e3.symm⟩

theorem solves_answers {run : List Char → Run} (h : Solves run) : Answers run := by
  intro text n m cls h1 h2 h3
  rcases h text n m cls h1 h2 h3 with ⟨out, err, β, e, ht, ls, rfl, hok, hall, htrue⟩ | h
  · refine .inl ⟨_, err, ls.flatMap OutLine.lits, e, ⟨?_, ?_⟩, reports_of_lines hok⟩
    · intro k hk h0 hk'
      have a := (htrue k hk h0).2
      have b := (htrue (-k) hk' (by omega)).2
      unfold litTrue at a b
      rw [Int.natAbs_neg] at b
      by_cases hp : k > 0
      · rw [if_pos hp] at a; rw [if_neg (by omega), a] at b; cases b
      · rw [if_neg hp] at a; rw [if_pos (by omega), a] at b; cases b
    · intro cl hcl
      obtain ⟨l, hl, hb⟩ := ht cl hcl
      have h0 := h3 cl hcl l hl
      have hbd := h2 cl hcl l hl
      refine ⟨l, hl, ?_⟩
      rcases hall l.natAbs (by omega) hbd with hm | hm
      · by_cases hp : l > 0
        · rwa [show (l.natAbs : Int) = l by omega] at hm
        · have := (htrue _ hm (by omega)).2
          unfold litTrue at this hb
          rw [if_pos (by omega), Int.natAbs_natCast] at this
          rw [if_neg hp, this] at hb
          cases hb
      · by_cases hp : l > 0
        · have := (htrue _ hm (by omega)).2
          unfold litTrue at this hb
          rw [if_neg (by omega), Int.natAbs_neg, Int.natAbs_natCast] at this
          rw [if_pos hp, this] at hb
          cases hb
        · rwa [show -(l.natAbs : Int) = l by omega] at hm
  · exact .inr h

/-! ### exit codes only -/

theorem judges_step {env : Env} (h : Judges env.run) (ht : env.temp = none) (hc : env.create = some none) {act : M CNF} {st : BinSt}
    {s s' : Ctx} {c : CNF} (e : act s = (.ok c, s')) (hw : WF c) :
    (∃ st', binStep env (some act) st s = (.ok (), st', s') ∧ Satisfiable c) ∨
    ∃ st', binStep env (some act) st s = (.error .unsat, st', s') ∧ ¬ Satisfiable c := by
  unfold binStep
  obtain ⟨_, -, -, -, -, ⟨f, hf, hf'⟩, -⟩ := C07_toFile c
  simp only [e, ht, hc, hf, hf']
  rcases h _ _ _ _ (readDimacs_toBytes c hw) hw.bounded hw.nonZero with ⟨out, err, h1, β, hβ⟩ | ⟨out, err, h1, h2⟩
  · rw [h1]
    exact .inl ⟨_, rfl, β, models_iff_clauses.1 hβ⟩
  · rw [h1]
    exact .inr ⟨_, rfl, fun ⟨β, hβ⟩ => h2 ⟨β, models_iff_clauses.2 hβ⟩⟩

theorem judges_reliable {env : Nat → Env} (h : ∀ k, Judges (env k).run) (ht : ∀ k, (env k).temp = none)
    (hc : ∀ k, (env k).create = some none) : Reliable (binSolver env) := by
  intro act st s s' c e hw hv err he
  have he : (binStep (env st.calls) (some act) st s).1 = .error (.other err) := he
  rcases judges_step (st := st) (h st.calls) (ht _) (hc _) e hw with ⟨st', h1, -⟩ | ⟨st', h1, -⟩ <;> rw [h1] at he <;> cases he

/-! ### an executable that prints less than a solution -/

/-- One true literal of every clause. -/
def oneEach (β : Val) (cls : List Clause) : List Int := cls.filterMap fun cl => cl.find? fun l => decide (litTrue β l)

/-- Tries all valuations, and prints one true literal of every clause, every one on a line of its own, with colons instead of spaces. -/
def sparseRun (text : List Char) : Run :=
  match readDimacs text with
  | none => .exited 1 [] []
  | some (n, _, cls) =>
    match (boolLists n.toNat).find? fun bs => decide (clausesTrue (valList bs) cls) with
    | none => .exited 20 [] []
    | some bs => .exited 10 (joinLines ((oneEach (valList bs) cls).map fun l => 'v' :: ':' :: itoa l)) []

theorem sparseRun_answers : Answers sparseRun := by
  intro text n m cls hr hb hz
  have hs := bruteRun_solves text n m cls hr hb hz
  unfold bruteRun at hs
  unfold sparseRun
  rw [hr] at hs ⊢
  simp only at hs ⊢
  cases hf : (boolLists n.toNat).find? fun bs => decide (clausesTrue (valList bs) cls) with
  | none =>
    rw [hf] at hs
    rcases hs with ⟨_, _, _, h, _⟩ | ⟨_, _, -, h⟩
    · simp at h
    · exact .inr ⟨_, _, rfl, h⟩
  | some bs =>
    have h1 := List.find?_some hf
    simp only [decide_eq_true_eq] at h1
    have ht : ∀ k ∈ oneEach (valList bs) cls, litTrue (valList bs) k := by
      intro k hk
      obtain ⟨cl, -, h⟩ := List.mem_filterMap.1 hk
      simpa using List.find?_some h
    refine .inl ⟨_, _, oneEach (valList bs) cls, rfl, ⟨fun k hk h0 hk' => ?_, fun cl hcl => ?_⟩,
      (oneEach (valList bs) cls).map fun l => .vals ':' [(itoa l, l)], ?_, ?_, ?_⟩
    · have a := ht k hk
      have b := ht _ hk'
      unfold litTrue at a b
      rw [Int.natAbs_neg] at b
      by_cases hp : k > 0
      · rw [if_pos hp] at a; rw [if_neg (by omega), a] at b; cases b
      · rw [if_neg hp] at a; rw [if_pos (by omega), a] at b; cases b
    · obtain ⟨l, hl, hlt⟩ := h1 cl hcl
      cases hfd : cl.find? fun l => decide (litTrue (valList bs) l) with
      | none => exact absurd hlt (by simpa using List.find?_eq_none.1 hfd l hl)
      | some k => exact ⟨k, List.mem_of_find?_eq_some hfd, List.mem_filterMap.2 ⟨cl, hcl, hfd⟩⟩
    · rw [List.map_map]; rfl
    · intro l hl
      obtain ⟨k, -, rfl⟩ := List.mem_map.1 hl
      refine ⟨by decide, by simp, fun w hw => ?_⟩
      obtain rfl := List.mem_singleton.1 hw
      exact lits_numeral k
    · rw [List.flatMap_map]
      show _ = (oneEach (valList bs) cls).flatMap fun k => [k]
      simp

/-- Exits with the right code and prints nothing. -/
def silentRun (text : List Char) : Run :=
  match bruteRun text with
  | .exited k _ _ => .exited k [] []
  | r => r

theorem silentRun_judges : Judges silentRun := by
  intro text n m cls hr hb hz
  unfold silentRun
  rcases bruteRun_solves text n m cls hr hb hz with ⟨out, err, β, h, ht, -⟩ | ⟨out, err, h, hn⟩ <;> rw [h]
  · exact .inl ⟨_, _, rfl, β, ht⟩
  · exact .inr ⟨_, _, rfl, hn⟩

end Goexpdt

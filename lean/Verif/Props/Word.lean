import Verif.Lemmas.WordCompute
import Verif.Props.Size
import Verif.Props.Meaning
import Verif.Props.Concurrent
/-
C91: the integers of Go have 64 bits.
-/
namespace Goexpdt.Props
open Goexpdt Spec

variable {d : Nat} {nodes : List Node} {T : DTree} {depth : QVar → Nat} {v : QVar} {s : Ctx} {st : BinSt} {env : Nat → Env} {q f : Query}
  {o : QConst → Query}

/-! ### Formulas and contexts -/

/-- C91: addition of Go gives the exact result if this is an integer of 64 bits, and in any case one of 64 bits that differs by a multiple of
2^64. -/
theorem C91_wrap (v : Int) : (-2 ^ 63 ≤ wrap v ∧ wrap v < 2 ^ 63) ∧ (∃ k : Int, wrap v = v + k * 2 ^ 64) ∧
    (-2 ^ 63 ≤ v → v < 2 ^ 63 → wrap v = v) := by
  refine ⟨?_, ⟨-((v + 2 ^ 63) / 2 ^ 64), ?_⟩, Word.wrap_id⟩ <;> unfold wrap <;> omega

/-- C91: `CNFVar` with integers of 64 bits, as long as the next number fits. -/
theorem C91_cnfVar (vr : VarRep) (h1 : -2 ^ 63 ≤ s.topV) (h2 : s.topV < 2 ^ 63 - 1) : Word.cnfVar s vr = s.cnfVar vr := by
  refine Word.cnfVar_eq s vr h1 ?_
  have h2 : s.topv < 2 ^ 63 - 1 := h2
  unfold Ctx.cnfVar
  split
  · show s.topv < _; omega
  · show s.topv + 1 < _; omega

/-- C91: `Negate` with integers of 64 bits, as long as its top variable fits. -/
theorem C91_negate (c : CNF) (top : Option Int) (h1 : -2 ^ 63 ≤ c.tv) (h2 : (c.negate top).topV < 2 ^ 63) :
    Word.negate c top = c.negate top := by
  refine Word.negate_eq c top ?_ h2
  cases top with
  | none => exact h1
  | some t => simp only [Word.base]; omega

/-- C91: for every query and every context, the encoding with integers of 64 bits is that with exact ones (the formula or the error, and the
context), unless the latter ends with a top variable of at least 2^63. -/
theorem C91_encode (q : Query) (s : Ctx) (h1 : -2 ^ 63 ≤ s.topV) (h2 : (q.encode s).2.topV < 2 ^ 63) : Word.encode q s = q.encode s :=
  Word.encode_eq q s h1 h2

/-- C91, with C57: that is so if the bound of C57 on the size of the encoding is below 2^63. -/
theorem C91_size (hs : Reachable d nodes s) {c : CNF} {s' : Ctx} (h : q.encode s = (.ok c, s'))
    (hb : s.topV + (1500 * q.size * (d + nodes.length + 1) ^ (q.rank + 3) : Nat) < 2 ^ 63) : Word.encode q s = (.ok c, s') := by
  rw [← h]
  refine C91_encode q s ?_ ?_
  · have := (reachable_vm hs).topv_nonneg
    show _ ≤ s.topv
    omega
  · obtain ⟨h1, -⟩ := C57_no_overflow d nodes s s' hs q c h hb
    rw [h]
    exact h1

/-- C91, with C39: so the formula has the meaning of the query. -/
theorem C91_meaning (hg : q.Good d nodes T depth) (hs : Ready d nodes (q.names d T []) s)
    (hb : s.topV + (1500 * q.size * (d + nodes.length + 1) ^ (q.rank + 3) : Nat) < 2 ^ 63) :
    ∃ c s', Word.encode q s = (.ok c, s') ∧ WF c ∧ Faithful d (q.names d T []) (fun σ => q.sem d T depth σ []) s' c := by
  obtain ⟨c, s', e, hw, -, -, -, -, hf⟩ := good_query hg hs
  refine ⟨c, s', ?_, hw, hf⟩
  have h1 := Word.topv_bound hs.vm hs.dim hs.nodes e
  have h0 := hs.vm.topv_nonneg
  have hb : s.topv + _ < 2 ^ 63 := hb
  rw [← e]
  exact C91_encode q s (by show _ ≤ s.topv; omega) (by rw [e]; show s'.topv < _; omega)

-- The query `nodeQuery` on the tree of the tests, from a new context and from one with a billion variables.
example : ∃ c s', Word.encode nodeQuery (BasicQContext 2 exNodes) = (.ok c, s') ∧ WF c ∧
    Faithful 2 (nodeQuery.names 2 exTree []) (fun σ => nodeQuery.sem 2 exTree nodeDepth σ []) s' c :=
  C91_meaning nodeQuery_good (Ready.fresh_ctx _ _ _) (by decide)

example : ∃ c s', Word.encode nodeQuery { BasicQContext 2 exNodes with topv := 1000000000 } = (.ok c, s') ∧ WF c ∧
    Faithful 2 (nodeQuery.names 2 exTree []) (fun σ => nodeQuery.sem 2 exTree nodeDepth σ []) s' c :=
  C91_meaning nodeQuery_good ⟨⟨by decide, by intro vr n h; simp [BasicQContext] at h, by intro a b n h; simp [BasicQContext] at h⟩, rfl, rfl, rfl, rfl,
    by rintro n _ ⟨k, hk⟩; simp [BasicQContext] at hk⟩ (by decide)

-- A negation with numbers just below the limit.
example : Word.negate { tv := 4, sClauses := [[1, 2], [3, 4]], cClauses := [] } (some (2 ^ 63 - 4)) =
    CNF.negate { tv := 4, sClauses := [[1, 2], [3, 4]], cClauses := [] } (some (2 ^ 63 - 4)) :=
  C91_negate _ _ (by decide) (by decide)

/-- C91: beyond the limit the program does not do what is said elsewhere of it. After `UpdateTopV(math.MaxInt64)`, `CNFVar` returns a
negative number and the top variable of the context falls; after `Negate(math.MaxInt64)` the top variable of the formula is negative. -/
theorem C91_overflow (d : Nat) (nodes : List Node) (vr : VarRep) :
    let s := (Op.updateTopV (2 ^ 63 - 1)).exec (BasicQContext d nodes)
    (Word.cnfVar s vr).1 = -2 ^ 63 ∧ (Word.cnfVar s vr).2.topV < s.topV ∧
    (Word.negate { tv := 4, sClauses := [[1, 2], [3, 4]], cClauses := [] } (some (2 ^ 63 - 1))).topV = -2 ^ 63 + 2 := by
  refine ⟨rfl, ?_, by decide⟩
  show (-2 ^ 63 : Int) < 2 ^ 63 - 1
  decide

/-! ### Outputs of solvers -/

/-- C91: `strconv.Atoi` reads the numerals of integers of 64 bits. -/
theorem C91_atoi (w : List Char) (n : Int) : Word.atoi w = .ok n ↔ Numeral w n ∧ -2 ^ 63 ≤ n ∧ n < 2 ^ 63 := by
  rw [← atoi_iff]
  unfold Word.atoi
  cases h : atoi w with
  | error e => simp
  | ok m =>
    dsimp only
    split
    · constructor
      · intro h'
        cases h'
        exact ⟨rfl, by assumption⟩
      · rintro ⟨h', -⟩
        exact h'
    · constructor
      · intro h'; cases h'
      · rintro ⟨h', hn⟩
        cases h'
        contradiction

/-- C91: `Values` with integers of 64 bits, for an output whose numbers fit (and so do their negatives) and a context that does not grow too
much. -/
theorem C91_values {lits : List Int} (h : Reports lits st.output) (hl : ∀ l ∈ lits, Fits64 l) (vs : List QVar) (h1 : -2 ^ 63 ≤ s.topV)
    (h2 : (binValues vs st s).2.2.topV < 2 ^ 63) : Word.binValues vs st s = binValues vs st s :=
  Word.values_eq (env := fun _ => ⟨none, none, fun _ => .failed ""⟩) h hl vs h1 h2

-- The numbers of the features of `x` are 1 to 3.
example : ∃ s, Word.binValues [['x']] ⟨['v', ' ', '1', ' ', '-', '2', ' ', '+', '3', ' ', '0'], 0⟩ (BasicQContext 1 []) =
    (.ok [{ val := [BOT] }], ⟨['v', ' ', '1', ' ', '-', '2', ' ', '+', '3', ' ', '0'], 0⟩, s) := by
  rw [C91_values (lits := [1, -2, 3, 0])]
  · exact ⟨_, rfl⟩
  · exact ⟨[.vals ' ' [(['1'], 1), (['-', '2'], -2), (['+', '3'], 3), (['0'], 0)]], rfl, by
      intro l hl
      rw [List.mem_singleton.1 hl]
      refine ⟨by decide, by simp, ?_⟩
      intro w hw
      refine (atoi_iff _ _).1 ?_
      simp only [List.mem_cons, List.not_mem_nil, or_false] at hw
      rcases hw with rfl | rfl | rfl | rfl <;> rfl, rfl⟩
  · decide
  · decide
  · decide

/-- C91: if a number in the output is none of 64 bits, then `Values` fails with the error of `Atoi`. -/
theorem C91_out_of_range {lits : List Int} (h : Reports lits st.output) (hl : ∃ l ∈ lits, ¬ (-2 ^ 63 ≤ l ∧ l < 2 ^ 63)) (v : QVar)
    (vs : List QVar) : (Word.binValues (v :: vs) st s).1 = .error (.msg "strconv.Atoi: value out of range") := by
  have key : (Word.binValuesLoop st.output (v :: vs) s).1 = .error (.msg "strconv.Atoi: value out of range") := by
    have hv : ∀ (is : List Nat) (t : Ctx), ∃ vf t', Over.variableFilter Word.wordI v is t = (.ok vf, t') := by
      intro is
      induction is with
      | nil => intro t; exact ⟨_, _, rfl⟩
      | cons i is ih =>
        intro t
        obtain ⟨vf, t', e⟩ := ih (Word.cnfVar (Word.cnfVar (Word.cnfVar t ⟨v, i, BOT⟩).2 ⟨v, i, ZERO⟩).2 ⟨v, i, ONE⟩).2
        refine ⟨(Word.cnfVar t ⟨v, i, BOT⟩).1 :: (Word.cnfVar (Word.cnfVar t ⟨v, i, BOT⟩).2 ⟨v, i, ZERO⟩).1 ::
          (Word.cnfVar (Word.cnfVar (Word.cnfVar t ⟨v, i, BOT⟩).2 ⟨v, i, ZERO⟩).2 ⟨v, i, ONE⟩).1 :: vf, t', ?_⟩
        have hc : ∀ (t : Ctx) (vr : VarRep), Over.cnfVar Word.wordI vr t = (.ok (Word.cnfVar t vr).1, (Word.cnfVar t vr).2) := fun _ _ => rfl
        unfold Over.variableFilter
        rw [Over.MG_bind_ok (hc _ _), Over.MG_bind_ok (hc _ _), Over.MG_bind_ok (hc _ _), Over.MG_bind_ok e]
        rfl
    obtain ⟨vf, t', e⟩ := hv (List.range s.dim) s
    have e1 : Word.varValueFromBytes st.output v s = (.error (.msg "strconv.Atoi: value out of range"), t') := by
      unfold Word.varValueFromBytes
      rw [Over.MG_bind_ok (m := Over.dim Word.wordI) (s' := s) (a := s.dim) rfl, Over.MG_bind_ok e, Word.scan_large vf h hl]
      rfl
    show (MG.bind' (Word.varValueFromBytes st.output v) _ s).1 = _
    unfold MG.bind'
    rw [e1]
  unfold Word.binValues
  rcases hq : Word.binValuesLoop st.output (v :: vs) s with ⟨r, s'⟩
  rw [hq] at key
  exact key

-- 9223372036854775808 is 2^63.
example : (Word.binValues [['x']] ⟨"v 9223372036854775808 0".toList, 0⟩ (BasicQContext 1 [])).1 =
    .error (.msg "strconv.Atoi: value out of range") := by decide +kernel

/-! ### Computations -/

/-- C91: `Step` with integers of 64 bits. -/
theorem C91_step (q : Query) (st : BinSt) (h1 : -2 ^ 63 ≤ s.topV) (h2 : (q.encode s).2.topV < 2 ^ 63) :
    (Word.binSolver env).step (Word.comp q) st s = (binSolver env).step q.comp st s :=
  Word.step_eq q st s h1 h2

/-- C91: `Sat` with integers of 64 bits. -/
theorem C91_sat (q : Query) (negated : Bool) (st : BinSt) (h1 : -2 ^ 63 ≤ s.topV) (h2 : (q.encode s).2.topV < 2 ^ 63) :
    Word.atomSat env q negated st s = atomSat (binSolver env) q.comp negated st s := by
  unfold Word.atomSat Over.atomSat atomSat
  rw [C91_step q st h1 h2]
  rcases (binSolver env).step q.comp st s with ⟨(_ | _) | _, _, _⟩ <;> rfl

/-- C91: `ComputeOptim` with integers of 64 bits, and a solver that solves, is `ComputeOptim` with exact integers, if the bounds of C57 on the
sizes of its queries are below 2^63. -/
theorem C91_optim (h : ∀ k, Solves (env k).run) (ho : Optimises d nodes T depth v f o)
    (hs : Ready d nodes ((Query.withVar v f).names d T []) s)
    (hb0 : s.topV + (1500 * (Query.withVar v f).size * (d + nodes.length + 1) ^ ((Query.withVar v f).rank + 3) : Nat) < 2 ^ 63)
    (hb : ∀ b, GoodVals d b → 1500 * (Query.withVar v (.and f (o { val := b }))).size *
      (d + nodes.length + 1) ^ ((Query.withVar v (.and f (o { val := b }))).rank + 3) < 2 ^ 63) (tmp : Bool) (fuel : Nat) (st : BinSt) :
    Word.computeOptim env f o v tmp fuel st s =
      computeOptim (binSolver env) (fun _ => f.comp) (fun _ k => (o k).comp) v tmp fuel st s :=
  Word.computeOptim_eq h ho hs hb0 hb tmp fuel st

/-- C91, with C46: so what it finds is an optimum. -/
theorem C91_optimum (h : ∀ k, Solves (env k).run) (ho : Optimises d nodes T depth v f o)
    (hs : Ready d nodes ((Query.withVar v f).names d T []) s)
    (hb0 : s.topV + (1500 * (Query.withVar v f).size * (d + nodes.length + 1) ^ ((Query.withVar v f).rank + 3) : Nat) < 2 ^ 63)
    (hb : ∀ b, GoodVals d b → 1500 * (Query.withVar v (.and f (o { val := b }))).size *
      (d + nodes.length + 1) ^ ((Query.withVar v (.and f (o { val := b }))).rank + 3) < 2 ^ 63) {tmp : Bool} {fuel : Nat} {r : OptOutput}
    {st' : BinSt} {s' : Ctx} (he : Word.computeOptim env f o v tmp fuel st s = (.ok r, st', s')) (hf : r.found = true) :
    r.value.val.length = d ∧ f.about d T v (den r.value.val) ∧ ∀ e, f.about d T v e → ¬ (o { val := r.value.val }).about d T v e := by
  rw [C91_optim h ho hs hb0 hb] at he
  obtain ⟨h1, -, h2⟩ := C46_queries (binSolver_correct h) ho hs he hf
  exact ⟨h1, h2⟩

/-- Concrete case of C91, the test of compute/optimum_test.go. -/
theorem C91_test {e : EnvP} (he : Works e) : ∃ r st' s',
    Word.computeOptim e.env (testFormula ['x']) (strictLel VarGenBotCount ['x']) ['x'] true 4 {} (BasicQContext 3 []) = (.ok r, st', s') ∧
      r.found = true ∧ (r.value.val = [BOT, BOT, ONE] ∨ r.value.val = [BOT, ONE, BOT] ∨ r.value.val = [ONE, BOT, BOT]) := by
  have hh : Hygienic 3 exTree ((Query.withVar ['x'] (testFormula ['x'])).names 3 exTree [])
      ((VarGenBotCount ['x'], .bots ['x']) :: (Query.withVar ['x'] (testFormula ['x'])).uses 3 exTree (fun _ => 0) []) :=
    .of_eq (by decide)
  rw [C91_optim (fun k => (he k).1) (optimises_lel testFormula_good testFormula_plain hh) (Ready.fresh_ctx _ _ _) (by decide)
    (fun b _ => by simp [testFormula, strictLel, Query.size, Query.rank])]
  obtain ⟨r, st', s', h1, h2, -, h3⟩ := C46_test (st := {}) (binSolver_correct fun k => (he k).1)
    (binSolver_reliable (fun k => (he k).1) (fun k => (he k).2.1) fun k => (he k).2.2.1)
  exact ⟨r, st', s', h1, h2, h3⟩

end Goexpdt.Props

import Verif.Lemmas.Size
import Verif.Lemmas.Fail
/- The size of the encodings of predicates and of queries. -/
namespace Goexpdt
open Spec

/-- The cube of the size of the model. -/
def cube (d n : Nat) : Nat := (d + n + 1) * (d + n + 1) * (d + n + 1)

theorem cube_ge (d n : Nat) : 1 ≤ cube d n ∧ d ≤ cube d n ∧ n ≤ cube d n ∧ d * d ≤ cube d n ∧ d * n ≤ cube d n ∧
    n * n * d ≤ cube d n ∧ n * n ≤ cube d n := by
  have hm : 1 ≤ d + n + 1 := by omega
  have hd : d ≤ d + n + 1 := by omega
  have hn : n ≤ d + n + 1 := by omega
  unfold cube
  generalize d + n + 1 = m at *
  have h3 : ∀ a b c, a ≤ m → b ≤ m → c ≤ m → a * b * c ≤ m * m * m := fun a b c h1 h2 h3 =>
    Nat.mul_le_mul (Nat.mul_le_mul h1 h2) h3
  refine ⟨?_, ?_, ?_, ?_, ?_, ?_, ?_⟩
  · simpa using h3 1 1 1 hm hm hm
  · simpa using h3 d 1 1 hd hm hm
  · simpa using h3 n 1 1 hn hm hm
  · simpa using h3 d d 1 hd hd hm
  · simpa using h3 d n 1 hd hn hm
  · exact h3 n n d hn hn hd
  · simpa using h3 n n 1 hn hn hm

theorem sw_flatMap' {α : Type} {l : List α} {f : α → List SClause} {k m : Nat} (hl : l.length ≤ k)
    (h : ∀ a ∈ l, sw (f a) ≤ m) : sw (l.flatMap f) ≤ k * m :=
  Nat.le_trans (sw_flatMap h) (Nat.mul_le_mul_right _ hl)

theorem sw_map' {α : Type} {l : List α} {f : α → SClause} {k m : Nat} (hl : l.length ≤ k)
    (h : ∀ a ∈ l, (f a).length + 1 ≤ m) : sw (l.map f) ≤ k * m :=
  Nat.le_trans (sw_map h) (Nat.mul_le_mul_right _ hl)

theorem rng_le {a b k : Nat} (h : b ≤ k + a) : (rng a b).length ≤ k := by rw [length_rng]; omega

section
variable {d : Nat} (n : Nat)

theorem subsCV_w (sc : QConst) (sv : QVar) : sw (subsConstVarClauses d sc sv) ≤ 2 * cube d n := by
  have := sw_flatMap' (l := rng 0 d) (f := fun i => if sc.at i ≠ BOT then [[P sv i (sc.at i)]] else [])
    (k := d) (m := 2) (rng_le (by omega)) (by intro a _; split <;> simp [sw])
  have := cube_ge d n
  unfold subsConstVarClauses
  omega

theorem subsVC_w (sc : QConst) (sv : QVar) : sw (subsVarConstClauses d sv sc) ≤ 4 * cube d n := by
  have : sw (subsVarConstClauses d sv sc) ≤ d * 4 := by
    refine sw_flatMap' (rng_le (by omega)) ?_
    intro a _
    split
    · simp [sw]
    · split <;> simp [sw]
  have := cube_ge d n
  omega

theorem subsVV_w (v w : QVar) : sw (subsVarVarClauses d v w) ≤ 6 * cube d n := by
  have : sw (subsVarVarClauses d v w) ≤ d * 6 := by
    refine sw_flatMap' (rng_le (by omega)) ?_
    intro a _
    simp [sw]
  have := cube_ge d n
  omega

theorem tooBig_w (cv : QVar) : sw (countTooBig d cv) ≤ d * (d * 2) := by
  refine sw_flatMap' (rng_le (by omega)) fun i _ => ?_
  exact sw_map' (rng_le (by omega)) fun j _ => by simp

theorem botCount_w (v cv : QVar) : sw (varBotCountClauses d v cv) ≤ 40 * cube d n := by
  have h1 : sw ((rng 1 d).flatMap (botCountStep v cv)) ≤ d * (10 + d * 16) := by
    refine sw_flatMap' (rng_le (by omega)) fun i hi => ?_
    have hi := (mem_rng.1 hi).2
    unfold botCountStep
    rw [sw_append]
    refine Nat.add_le_add (by simp [sw]) (sw_flatMap' (rng_le (by omega)) fun j _ => by simp [sw])
  have h2 := tooBig_w (d := d) cv
  have := cube_ge d n
  unfold varBotCountClauses
  rw [sw_append, sw_append]
  have : sw [[N cv 0 1, P v 0 BOT], [N v 0 BOT, P cv 0 1], [N cv 0 0, N v 0 BOT], [P v 0 BOT, P cv 0 0]] = 12 := rfl
  rw [Nat.mul_add, ← Nat.mul_assoc] at h1
  rw [← Nat.mul_assoc] at h2
  omega

theorem lelCV_w (sc : QConst) (cv : QVar) : sw (lelConstVarSem d sc cv) ≤ 2 * cube d n := by
  have : sw (lelConstVarSem d sc cv) ≤ d * 2 := sw_map' (rng_le (by omega)) fun j _ => by simp
  have := cube_ge d n
  omega

theorem botCount_le (c : QConst) : c.botCount ≤ c.val.length := by
  have key : ∀ (l : List FeatV) n,
      l.foldl (fun count ft => if ft = BOT then count + 1 else count) n ≤ n + l.length := by
    intro l
    induction l with
    | nil => intro n; simp
    | cons a l ih =>
      intro n
      simp only [List.foldl_cons, List.length_cons]
      have := ih (if a = BOT then n + 1 else n)
      have : (if a = BOT then n + 1 else n) ≤ n + 1 := by split <;> omega
      omega
  have := key c.val 0
  unfold QConst.botCount
  omega

theorem lelVC_w (sc : QConst) (cv : QVar) (h : sc.val.length = d) : sw (lelVarConstSem d sc cv) ≤ 2 * cube d n := by
  have : sw (lelVarConstSem d sc cv) ≤ d * 2 := by
    refine sw_map' (rng_le ?_) fun j _ => by simp
    have := botCount_le sc
    omega
  have := cube_ge d n
  omega

theorem lelVV_w (v w : QVar) : sw (lelVarVarSem d v w) ≤ 3 * cube d n := by
  have : sw (lelVarVarSem d v w) ≤ d * (d + 2) := by
    refine sw_map' (rng_le (by omega)) fun i hi => ?_
    have hi := (mem_rng.1 hi).2
    simp [length_rng]
    omega
  rw [Nat.mul_add] at this
  have := cube_ge d n
  omega

theorem isnodeFcl_w (nodes : List Node) (v w : QVar) (h : nodes.length = n) : sw (isnodeFcl d nodes v w) ≤ 3 * cube d n := by
  have : sw (isnodeFcl d nodes v w) ≤ d * (n + 2) := by
    refine sw_map' (rng_le (by omega)) fun i hi => ?_
    have := List.length_filter_le (fun j => !(nodeAt nodes j).isLeaf && (nodeAt nodes j).feat == (i : Int)) (rng 0 nodes.length)
    rw [length_rng] at this
    simp only [List.length_cons, List.length_map]
    omega
  rw [Nat.mul_add] at this
  have := cube_ge d n
  omega

theorem isnodeFclOrder_w (nodes : List Node) (v w : QVar) (h : nodes.length = n) :
    sw (isnodeFclOrder d nodes v w) ≤ 4 * cube d n := by
  have h1 : sw ((rng 0 d).map (fun (f : Nat) => [P v f BOT])) ≤ d * 2 := sw_map' (rng_le (by omega)) fun i hi => by simp
  have h2 : sw (((rng 0 nodes.length).filter fun i => !(nodeAt nodes i).isLeaf).map fun (i : Nat) => [P w 0 i]) ≤ n * 2 := by
    refine sw_map' ?_ fun i hi => by simp
    have := List.length_filter_le (fun j => !(nodeAt nodes j).isLeaf) (rng 0 nodes.length)
    rw [length_rng] at this
    omega
  have := cube_ge d n
  unfold isnodeFclOrder
  rw [sw_append]
  omega

theorem isnodeProp_w (nodes : List Node) (v w : QVar) (h : nodes.length = n) :
    sw (isnodeProp nodes v w) ≤ 20 * cube d n := by
  have : sw (isnodeProp nodes v w) ≤ n * 20 := by
    refine sw_flatMap' (rng_le (by omega)) fun i hi => ?_
    simp only
    split <;> simp [sw]
  have := cube_ge d n
  omega

theorem full_w (v : QVar) : sw (varFullClauses d v) ≤ 2 * cube d n := by
  have : sw (varFullClauses d v) ≤ d * 2 := sw_map' (rng_le (by omega)) fun i hi => by simp
  have := cube_ge d n
  omega

theorem consC_w (sc : QConst) (sv : QVar) : sw (consConstClauses d sc sv) ≤ 2 * cube d n := by
  have : sw (consConstClauses d sc sv) ≤ d * 2 := by
    refine sw_flatMap' (rng_le (by omega)) fun i hi => ?_
    split <;> simp [sw]
  have := cube_ge d n
  omega

theorem consVV_w (v w : QVar) : sw (consVarVarClauses d v w) ≤ 6 * cube d n := by
  have : sw (consVarVarClauses d v w) ≤ d * 6 := by
    refine sw_flatMap' (rng_le (by omega)) fun i hi => by simp [sw]
  have := cube_ge d n
  omega

theorem allcomp_w (leaf : Bool) (nodes : List Node) (v w : QVar) (h : nodes.length = n) :
    stepsW ((rng 0 nodes.length).map (allcompStep leaf nodes v w)) ≤ 30 * cube d n := by
  have h1 := stepsW_map (l := rng 0 nodes.length) (f := allcompStep leaf nodes v w) (m := 30) (by
    intro i _
    unfold allcompStep
    simp only
    split
    · simp only [stepW]; split <;> simp [sw]
    · simp [stepW, sw])
  rw [length_rng] at h1
  have := cube_ge d n
  omega

theorem hd_w (vd : QVar) (eq : Nat → VarRep) : sw (hdClauses d vd eq) ≤ 40 * cube d n := by
  have h1 : sw ((rng 1 d).flatMap fun (i : Nat) =>
      [[N vd i 0, P vd (i - 1) 0], [N vd i 0, ⟨true, eq i⟩],
       [N vd (i - 1) 0, ⟨false, eq i⟩, P vd i 0]] ++
      (rng 1 (i + 2)).flatMap fun (j : Nat) =>
        [[N vd i j, P vd (i - 1) (j - 1), ⟨true, eq i⟩],
         [N vd i j, P vd (i - 1) j, ⟨false, eq i⟩],
         [P vd i j, N vd (i - 1) (j - 1), ⟨true, eq i⟩],
         [P vd i j, N vd (i - 1) j, ⟨false, eq i⟩]]) ≤ d * (10 + d * 16) := by
    refine sw_flatMap' (rng_le (by omega)) fun i hi => ?_
    have hi := (mem_rng.1 hi).2
    rw [sw_append]
    refine Nat.add_le_add (by simp [sw]) (sw_flatMap' (rng_le (by omega)) fun j _ => by simp [sw])
  have h2 := tooBig_w (d := d) vd
  have := cube_ge d n
  unfold hdClauses
  rw [sw_append, sw_append]
  have : sw [[N vd 0 0, ⟨true, eq 0⟩], [⟨false, eq 0⟩, P vd 0 0],
    [N vd 0 1, ⟨false, eq 0⟩], [⟨true, eq 0⟩, P vd 0 1]] = 12 := rfl
  rw [Nat.mul_add, ← Nat.mul_assoc] at h1
  rw [← Nat.mul_assoc] at h2
  omega

theorem hdVC_w {v vcd : QVar} {c : QConst} {cls : List SClause} (h : hammingDistVC d v c vcd = .ok cls) :
    sw cls ≤ 40 * cube d n := by
  unfold hammingDistVC at h
  split at h
  · simp at h
  · rcases indexed_cases (0 :: upto d) [c] with hx | hx <;> rw [hx] at h <;>
      simp only [Except.map, Except.ok.injEq, reduceCtorEq] at h
    subst h
    exact hd_w n _ _

theorem hdVV_w (v w : QVar) : sw (hammingDistVV d v w) ≤ 40 * cube d n := hd_w n _ _

theorem fullEq_w (v w u : QVar) : sw (fullVarEqualClauses d v w u) ≤ 16 * cube d n := by
  have : sw (fullVarEqualClauses d v w u) ≤ d * 16 := by
    refine sw_flatMap' (rng_le (by omega)) fun i hi => by simp [sw]
  have := cube_ge d n
  omega

theorem hdLe_w (a b : QVar) : sw (hdLeSem d a b) ≤ 3 * cube d n := by
  have : sw (hdLeSem d a b) ≤ d * (d * 3) := by
    refine sw_flatMap' (rng_le (by omega)) fun i hi => ?_
    have hi := (mem_rng.1 hi).2
    exact sw_map' (rng_le (by omega)) fun j _ => by simp
  rw [← Nat.mul_assoc] at this
  have := cube_ge d n
  omega

theorem pref_le {pref : List Int} (h : validatePref pref d = .ok ()) : pref.length ≤ d := by
  obtain ⟨h1, h2⟩ := validatePref_ok.1 h
  have hsub : pref ⊆ (List.range d).map fun (i : Nat) => (i : Int) := by
    intro i hi
    have := h1 i hi
    exact List.mem_map.2 ⟨i.toNat, List.mem_range.2 (by omega), by omega⟩
  simpa using h2.length_le_of_subset hsub

theorem downFrom_le {k : Nat} (h : k ≤ d) : (downFrom k).length ≤ d := by
  simp only [downFrom, List.length_reverse, length_rng]; omega

theorem heprCV_w (sc : QConst) (sv cvp : QVar) {pref : List Int} (h : pref.length ≤ d) :
    sw (heprConstVarCon sc sv cvp pref) ≤ 40 * cube d n := by
  have := cube_ge d n
  unfold heprConstVarCon
  simp only
  rw [sw_append]
  refine Nat.le_trans (Nat.add_le_add (b := 6) ?_ (sw_flatMap' (m := 10) (downFrom_le h) fun i hi => ?_)) (by omega)
  · split <;> simp [sw]
  · split <;> simp [sw]

theorem heprVC_w (sc : QConst) (sv cvp : QVar) {pref : List Int} (h : pref.length ≤ d) :
    sw (heprVarConstCon sv sc cvp pref) ≤ 40 * cube d n := by
  have := cube_ge d n
  unfold heprVarConstCon
  simp only
  rw [sw_append]
  refine Nat.le_trans (Nat.add_le_add (b := 6) ?_ (sw_flatMap' (m := 10) (downFrom_le h) fun i hi => ?_)) (by omega)
  · split <;> simp [sw]
  · split <;> simp [sw]

theorem heprVV_w (v w cvp : QVar) {pref : List Int} (h : pref.length ≤ d) :
    sw (heprVarVarCon v w cvp pref) ≤ 40 * cube d n := by
  have := cube_ge d n
  unfold heprVarVarCon
  simp only
  rw [sw_append]
  refine Nat.le_trans (Nat.add_le_add (b := 10) ?_ (sw_flatMap' (m := 24) (downFrom_le h) fun i hi => ?_)) (by omega)
  · simp [sw]
  · simp [sw]

theorem leafs_le {nodes : List Node} {l : List QConst × List QConst} (h : leafsAsConsts d nodes = .ok l) :
    l.1.length ≤ nodes.length ∧ l.2.length ≤ nodes.length := by
  have key : ∀ (fuel : Nat) (w : WalkSt) (p q : List QConst) (l : List QConst × List QConst),
      leafsLoop nodes fuel w p q = .ok l → l.1.length + 1 ≤ p.length + fuel ∧ l.2.length + 1 ≤ q.length + fuel := by
    intro fuel
    induction fuel with
    | zero => intro w p q l h; simp [leafsLoop] at h
    | succ fuel ih =>
      intro w p q l h
      rw [leafsLoop] at h
      split at h
      · simp at h
      · simp only [Except.ok.injEq] at h; subst h; simp
      · simp only at h
        split at h
        · have := ih _ _ _ _ h; omega
        · split at h
          · have := ih _ _ _ _ h; simp at this; omega
          · have := ih _ _ _ _ h; simp at this; omega
  unfold leafsAsConsts at h
  split at h
  · simp at h
  · split at h
    · simp at h
    · have := key _ _ _ _ _ h
      simp at this; omega

theorem dfs_w {v : QVar} {nodes : List Node} {l : List QConst × List QConst} {cls : List SClause} (hn : nodes.length = n)
    (h : leafsAsConsts d nodes = .ok l)
    (h' : dfsClauses d v (l.1.flatMap fun p => l.2.map fun n => (p, n)) = .ok cls) : sw cls ≤ 2 * cube d n := by
  have key : ∀ (ps : List (QConst × QConst)) (cls : List SClause), dfsClauses d v ps = .ok cls →
      sw cls ≤ ps.length * (d + 1) := by
    intro ps
    induction ps with
    | nil => intro cls h; simp [dfsClauses] at h; subst h; simp [sw_nil]
    | cons p ps ih =>
      obtain ⟨p, q⟩ := p
      intro cls h
      rw [dfsClauses] at h
      split at h
      · simp at h
      · next cl hcl =>
        split at h
        · simp at h
        · next cls' h2 =>
          simp only [Except.ok.injEq] at h
          subst h
          have h3 := ih _ h2
          have h4 : cl.length ≤ d := by
            unfold notAWitnessClause at hcl
            split at hcl
            · simp at hcl
            · rcases indexed_cases (upto d) [p, q] with hx | hx <;> rw [hx] at hcl <;>
                simp only [Except.map, Except.ok.injEq, reduceCtorEq] at hcl
              subst hcl
              have := List.length_filter_le (fun i => decide (p.at i ≠ BOT ∧ q.at i ≠ BOT ∧ p.at i ≠ q.at i)) (rng 0 d)
              rw [length_rng] at this
              simp only [List.length_map]
              omega
          rw [sw_cons, List.length_cons, Nat.add_mul]
          omega
  have h1 := key _ _ h'
  obtain ⟨a, b⟩ := leafs_le h
  have hl : (l.1.flatMap fun p => l.2.map fun n => (p, n)).length ≤ n * n := by
    have : ∀ xs : List QConst, (xs.flatMap fun p => l.2.map fun n => (p, n)).length = xs.length * l.2.length := by
      intro xs
      induction xs with
      | nil => simp
      | cons x xs ih => simp only [List.flatMap_cons, List.length_append, List.length_map, ih, List.length_cons, Nat.add_mul]; omega
    rw [this]
    exact Nat.mul_le_mul (by omega) (by omega)
  have h2 := Nat.le_trans h1 (Nat.mul_le_mul_right (d + 1) hl)
  rw [Nat.mul_add] at h2
  have := cube_ge d n
  omega

theorem hdCC_le {c1 c2 : QConst} {k : Nat} (h1 : c1.val.length = d) (h : hammingDistCC c1 c2 = .ok k) : k ≤ d := by
  have key : ∀ a b : List FeatV, hdCount a b ≤ a.length := by
    intro a
    induction a with
    | nil => intro b; simp [hdCount]
    | cons x a ih =>
      intro b
      cases b with
      | nil => simp [hdCount]
      | cons y b =>
        have := ih b
        simp only [hdCount, List.length_cons]
        split <;> omega
  unfold hammingDistCC at h
  split at h
  · simp at h
  · simp only [Except.ok.injEq] at h
    have := key c1.val c2.val
    omega

end

variable {d n : Nat}

theorem Cost.validate {B : Nat} {cs : List QConst} {f : Unit → M CNF}
    (h : (∀ c ∈ cs, c.val.length = d) → Cost d n B (f ())) : Cost d n B (validateM cs >>= f) := by
  intro s c hv hd hn hc
  have hr : validateM cs s = (ValidateConstsDim d cs, s) := by rw [← hd]; rfl
  cases hx : ValidateConstsDim d cs with
  | error e =>
    rw [hx] at hr
    rw [M_bind_error hr] at hc
    simp at hc
  | ok u =>
    rw [hx] at hr
    rw [M_bind_ok hr] at hc ⊢
    refine h (fun c' hc' => Classical.byContradiction fun hl => ?_) s c hv hd hn hc
    obtain ⟨m, hm⟩ := validate_wrong hc' hl
    rw [hm] at hx
    simp at hx

/-- Decomposes a component. -/
macro "cost" : tactic => `(tactic| repeat' (first
  | exact Cost.throw _
  | exact Cost.retTrue
  | refine Cost.retFalse ?_
  | refine Cost.pure ?_
  | refine Cost.emit ?_
  | refine Cost.emitF ?_
  | refine Cost.dim ?_
  | refine Cost.nodes fun _ _ => ?_
  | refine Cost.lift fun _ _ => ?_
  | refine Cost.validate fun _ => ?_
  | refine Cost.read (readOnly_scopeVar _) fun _ => ?_
  | refine Cost.read (readOnly_scopeConst _) fun _ => ?_
  | refine Cost.ite (fun _ => ?_) (fun _ => ?_)
  | split))

theorem one_w (v : QVar) (a b : Int) : sw [[P v a b]] = 2 := rfl

theorem near_w {d : Nat} (n : Nat) (v : QVar) (i : Int) {k : Nat} (h : k ≤ d) :
    sw ((rng 0 k).map fun (j : Nat) => [N v i j]) ≤ 2 * cube d n := by
  have : sw ((rng 0 k).map fun (j : Nat) => [N v i j]) ≤ d * 2 := sw_map' (rng_le (by omega)) fun j _ => by simp
  have := cube_ge d n
  omega

theorem far_w {d : Nat} (n : Nat) (v : QVar) (i : Int) (k : Nat) :
    sw ((rng (k + 1) (d + 1)).map fun (j : Nat) => [N v i j]) ≤ 2 * cube d n := by
  have : sw ((rng (k + 1) (d + 1)).map fun (j : Nat) => [N v i j]) ≤ d * 2 := sw_map' (rng_le (by omega)) fun j _ => by simp
  have := cube_ge d n
  omega

theorem subsConstConst_cost (c : QConst) (c' : QConst) : Cost d n (1500 * cube d n) (subsConstConst c c') := by
  unfold subsConstConst
  have := cube_ge d n
  cost
  all_goals grind [stepsW_cons, stepsW_nil, stepW]

theorem subsConstVar_cost (c : QConst) (x : QVar) : Cost d n (1500 * cube d n) (subsConstVar c x) := by
  unfold subsConstVar
  have := cube_ge d n
  have := @subsCV_w d n
  cost
  all_goals grind [stepsW_cons, stepsW_nil, stepW]

theorem subsVarConst_cost (x : QVar) (c : QConst) : Cost d n (1500 * cube d n) (subsVarConst x c) := by
  unfold subsVarConst
  have := cube_ge d n
  have := @subsVC_w d n
  cost
  all_goals grind [stepsW_cons, stepsW_nil, stepW]

theorem subsVarVar_cost (x : QVar) (y : QVar) : Cost d n (1500 * cube d n) (subsVarVar x y) := by
  unfold subsVarVar
  have := cube_ge d n
  have := @subsVV_w d n
  cost
  all_goals grind [stepsW_cons, stepsW_nil, stepW]

theorem lelConstConst_cost (c : QConst) (c' : QConst) : Cost d n (1500 * cube d n) (lelConstConst c c') := by
  unfold lelConstConst
  have := cube_ge d n
  cost
  all_goals grind [stepsW_cons, stepsW_nil, stepW]

theorem lelConstVar_cost (c : QConst) (x : QVar) (g : Option (QVar → QVar)) : Cost d n (1500 * cube d n) (lelConstVar c x g) := by
  unfold lelConstVar
  have := cube_ge d n
  have := @botCount_w d n
  have := @lelCV_w d n
  cost
  all_goals grind [stepsW_cons, stepsW_nil, stepW]

theorem lelVarConst_cost (x : QVar) (c : QConst) (g : Option (QVar → QVar)) : Cost d n (1500 * cube d n) (lelVarConst x c g) := by
  unfold lelVarConst
  have := cube_ge d n
  have := @botCount_w d n
  have := @lelVC_w d n
  cost
  all_goals grind [stepsW_cons, stepsW_nil, stepW]

theorem lelVarVar_cost (x : QVar) (y : QVar) (g : Option (QVar → QVar)) : Cost d n (1500 * cube d n) (lelVarVar x y g) := by
  unfold lelVarVar
  have := cube_ge d n
  have := @botCount_w d n
  have := @lelVV_w d n
  cost
  all_goals grind [stepsW_cons, stepsW_nil, stepW]

theorem isnodeConst_cost (c : QConst) : Cost d n (1500 * cube d n) (isnodeConst c) := by
  unfold isnodeConst
  have := cube_ge d n
  cost
  all_goals grind [stepsW_cons, stepsW_nil, stepW]

theorem isnodeVar_cost (x : QVar) (g : Option (QVar → QVar)) : Cost d n (1500 * cube d n) (isnodeVar x g) := by
  unfold isnodeVar
  have := cube_ge d n
  have := @isnodeFcl_w d n
  have := @isnodeFclOrder_w d n
  have := @isnodeProp_w d n
  have := one_w
  cost
  all_goals grind [stepsW_cons, stepsW_nil, stepW]

theorem fullConst_cost (c : QConst) : Cost d n (1500 * cube d n) (fullConst c) := by
  unfold fullConst
  have := cube_ge d n
  cost
  all_goals grind [stepsW_cons, stepsW_nil, stepW]

theorem fullVar_cost (x : QVar) : Cost d n (1500 * cube d n) (fullVar x) := by
  unfold fullVar
  have := cube_ge d n
  have := @full_w d n
  cost
  all_goals grind [stepsW_cons, stepsW_nil, stepW]

theorem consConstConst_cost (c : QConst) (c' : QConst) : Cost d n (1500 * cube d n) (consConstConst c c') := by
  unfold consConstConst
  have := cube_ge d n
  cost
  all_goals grind [stepsW_cons, stepsW_nil, stepW]

theorem consConstVar_cost (c : QConst) (x : QVar) : Cost d n (1500 * cube d n) (consConstVar c x) := by
  unfold consConstVar consConstRet
  have := cube_ge d n
  have := @consC_w d n
  cost
  all_goals grind [stepsW_cons, stepsW_nil, stepW]

theorem consVarConst_cost (x : QVar) (c : QConst) : Cost d n (1500 * cube d n) (consVarConst x c) := by
  unfold consVarConst consConstRet
  have := cube_ge d n
  have := @consC_w d n
  cost
  all_goals grind [stepsW_cons, stepsW_nil, stepW]

theorem consVarVar_cost (x : QVar) (y : QVar) : Cost d n (1500 * cube d n) (consVarVar x y) := by
  unfold consVarVar
  have := cube_ge d n
  have := @consVV_w d n
  cost
  all_goals grind [stepsW_cons, stepsW_nil, stepW]

theorem allcompConst_cost (c : QConst) (b : Bool) : Cost d n (1500 * cube d n) (allcompConst c b) := by
  unfold allcompConst
  have := cube_ge d n
  cost
  all_goals grind [stepsW_cons, stepsW_nil, stepW]

theorem allcompVar_cost (x : QVar) (b : Bool) (g : Option (QVar → QVar)) : Cost d n (1500 * cube d n) (allcompVar x b g) := by
  unfold allcompVar
  have := cube_ge d n
  have := @allcomp_w d n
  have := one_w
  cost
  all_goals grind [stepsW_cons, stepsW_nil, stepW]

theorem dfsConst_cost (c : QConst) : Cost d n (1500 * cube d n) (dfsConst c) := by
  unfold dfsConst
  have := cube_ge d n
  cost
  all_goals grind [stepsW_cons, stepsW_nil, stepW]

theorem dfsVar_cost (x : QVar) : Cost d n (1500 * cube d n) (dfsVar x) := by
  unfold dfsVar
  have := cube_ge d n
  have := @dfs_w d n
  cost
  all_goals grind [stepsW_cons, stepsW_nil, stepW]

theorem heprConstConst_cost (c : QConst) (c' : QConst) (p : List Int) : Cost d n (1500 * cube d n) (heprConstConst c c' p) := by
  unfold heprConstConst
  have := cube_ge d n
  cost
  all_goals grind [stepsW_cons, stepsW_nil, stepW]

theorem heprConstVar_cost (c : QConst) (x : QVar) (p : List Int) (g3 : Option (QVar → QVar → QVar → QVar)) : Cost d n (1500 * cube d n) (heprConstVar c x p g3) := by
  unfold heprConstVar
  have := cube_ge d n
  have := @heprCV_w d n
  have := @pref_le d
  have := one_w
  cost
  all_goals grind [stepsW_cons, stepsW_nil, stepW]

theorem heprVarConst_cost (x : QVar) (c : QConst) (p : List Int) (g3 : Option (QVar → QVar → QVar → QVar)) : Cost d n (1500 * cube d n) (heprVarConst x c p g3) := by
  unfold heprVarConst
  have := cube_ge d n
  have := @heprVC_w d n
  have := @pref_le d
  have := one_w
  cost
  all_goals grind [stepsW_cons, stepsW_nil, stepW]

theorem heprVarVar_cost (x : QVar) (y : QVar) (p : List Int) (g3 : Option (QVar → QVar → QVar → QVar)) : Cost d n (1500 * cube d n) (heprVarVar x y p g3) := by
  unfold heprVarVar
  have := cube_ge d n
  have := @heprVV_w d n
  have := @pref_le d
  have := one_w
  cost
  all_goals grind [stepsW_cons, stepsW_nil, stepW]

theorem lehConstConstConst_cost (c : QConst) (c' : QConst) (c2 : QConst) : Cost d n (1500 * cube d n) (lehConstConstConst c c' c2) := by
  unfold lehConstConstConst
  have := cube_ge d n
  cost
  all_goals grind [stepsW_cons, stepsW_nil, stepW]

theorem lehConstConstVar_cost (c : QConst) (c' : QConst) (x : QVar) (g2 : Option (QVar → QVar → QVar)) :
    Cost d n (1500 * cube d n) (lehConstConstVar c c' x g2) := by
  unfold lehConstConstVar
  have := cube_ge d n
  have := @full_w d n
  have := @hdVC_w d n
  cost
  · omega
  · next gen sc1 sc2 sv hl _ k hk _ cls hc =>
    have h1 := near_w n (gen sv sc1.asString) (d - 1) (hdCC_le (hl _ (by simp)) hk)
    have h2 := full_w n (d := d) sv
    have h3 := hdVC_w n hc
    simp only [stepsW_cons, stepsW_nil, stepW]
    omega

theorem lehConstVarConst_cost (c : QConst) (x : QVar) (c' : QConst) (g2 : Option (QVar → QVar → QVar)) :
    Cost d n (1500 * cube d n) (lehConstVarConst c x c' g2) := by
  unfold lehConstVarConst
  have := cube_ge d n
  have := @full_w d n
  have := @hdVC_w d n
  cost
  · omega
  · next gen sc1 sc2 sv hl _ k hk _ cls hc =>
    have h1 := far_w (d := d) n (gen sv sc2.asString) (d - 1) k
    have h2 := full_w n (d := d) sv
    have h3 := hdVC_w n hc
    simp only [stepsW_cons, stepsW_nil, stepW]
    omega

theorem lehConstVarVar_cost (c : QConst) (x : QVar) (y : QVar) (g2 : Option (QVar → QVar → QVar)) : Cost d n (1500 * cube d n) (lehConstVarVar c x y g2) := by
  unfold lehConstVarVar
  have := cube_ge d n
  have := @full_w d n
  have := @hdVC_w d n
  have := @hdLe_w d n
  cost
  all_goals grind [stepsW_cons, stepsW_nil, stepW]

theorem lehVarConstConst_cost (x : QVar) (c : QConst) (c' : QConst) (g2 : Option (QVar → QVar → QVar)) : Cost d n (1500 * cube d n) (lehVarConstConst x c c' g2) := by
  unfold lehVarConstConst
  have := cube_ge d n
  have := @full_w d n
  have := @hdVC_w d n
  have := @hdLe_w d n
  cost
  all_goals grind [stepsW_cons, stepsW_nil, stepW]

theorem lehVarConstVar_cost (x : QVar) (c : QConst) (y : QVar) (g2 : Option (QVar → QVar → QVar)) (e2 : Option (QVar → QVar → QVar)) : Cost d n (1500 * cube d n) (lehVarConstVar x c y g2 e2) := by
  unfold lehVarConstVar
  have := cube_ge d n
  have := @full_w d n
  have := @hdVC_w d n
  have := @hdLe_w d n
  have := @fullEq_w d n
  have := @hdVV_w d n
  cost
  all_goals grind [stepsW_cons, stepsW_nil, stepW]

theorem lehVarVarConst_cost (x : QVar) (y : QVar) (c : QConst) (g2 : Option (QVar → QVar → QVar)) (e2 : Option (QVar → QVar → QVar)) : Cost d n (1500 * cube d n) (lehVarVarConst x y c g2 e2) := by
  unfold lehVarVarConst
  have := cube_ge d n
  have := @full_w d n
  have := @hdVC_w d n
  have := @hdLe_w d n
  have := @fullEq_w d n
  have := @hdVV_w d n
  cost
  all_goals grind [stepsW_cons, stepsW_nil, stepW]

theorem lehVarVarVar_cost (x : QVar) (y : QVar) (z : QVar) (g2 : Option (QVar → QVar → QVar)) (e2 : Option (QVar → QVar → QVar)) : Cost d n (1500 * cube d n) (lehVarVarVar x y z g2 e2) := by
  unfold lehVarVarVar
  have := cube_ge d n
  have := @full_w d n
  have := @hdLe_w d n
  have := @fullEq_w d n
  have := @hdVV_w d n
  cost
  all_goals grind [stepsW_cons, stepsW_nil, stepW]

/-- The size of the encoding of every predicate. -/
theorem Atom.cost (a : Atom) : Cost d n (1500 * cube d n) a.encode := by
  unfold Atom.encode
  split
  · exact subsConstConst_cost _ _
  · exact subsConstVar_cost _ _
  · exact subsVarConst_cost _ _
  · exact subsVarVar_cost _ _
  · exact lelConstConst_cost _ _
  · exact lelConstVar_cost _ _ _
  · exact lelVarConst_cost _ _ _
  · exact lelVarVar_cost _ _ _
  · exact isnodeConst_cost _
  · exact isnodeVar_cost _ _
  · exact fullConst_cost _
  · exact fullVar_cost _
  · exact consConstConst_cost _ _
  · exact consConstVar_cost _ _
  · exact consVarConst_cost _ _
  · exact consVarVar_cost _ _
  · exact allcompConst_cost _ _
  · exact allcompVar_cost _ _ _
  · exact dfsConst_cost _
  · exact dfsVar_cost _
  · exact heprConstConst_cost _ _ _
  · exact heprConstVar_cost _ _ _ _
  · exact heprVarConst_cost _ _ _ _
  · exact heprVarVar_cost _ _ _ _
  · exact lehConstConstConst_cost _ _ _
  · exact lehConstConstVar_cost _ _ _ _
  · exact lehConstVarConst_cost _ _ _ _
  · exact lehConstVarVar_cost _ _ _ _
  · exact lehVarConstConst_cost _ _ _ _
  · exact lehVarConstVar_cost _ _ _ _ _
  · exact lehVarVarConst_cost _ _ _ _ _
  · exact lehVarVarVar_cost _ _ _ _ _

/-! ### queries -/

/-- The bound on the size of the encoding of a query. -/
def sizeBound (m : Nat) (q : Query) : Nat := 1500 * q.size * m ^ (q.rank + 3)

theorem Query.cost (q : Query) : ∀ x, q.comp = some x → Cost d n (sizeBound (d + n + 1) q) x := by
  have hm : 1 ≤ d + n + 1 := by omega
  have mono : ∀ {a b : Nat}, a ≤ b → (d + n + 1) ^ (a + 3) ≤ (d + n + 1) ^ (b + 3) := fun h =>
    Nat.pow_le_pow_right hm (by omega)
  have one : ∀ a, 1 ≤ (d + n + 1) ^ a := fun a => Nat.one_le_pow _ _ hm
  induction q with
  | nil => intro x h; simp [Query.comp] at h
  | atom a =>
    intro x h
    simp only [Query.comp, Option.some.injEq] at h
    subst h
    refine a.cost.mono (Nat.le_of_eq ?_)
    simp only [sizeBound, Query.size, Query.rank, cube, Nat.pow_succ, Nat.pow_zero, Nat.zero_add, Nat.one_mul, Nat.mul_one]
  | and q1 q2 h1 h2 =>
    intro x h; simp only [Query.comp, Option.some.injEq] at h; subst h
    unfold encAnd
    refine .wrapErr _ ?_
    split
    · exact .throw _
    · exact .throw _
    · next x1 x2 e1 e2 =>
      refine (Cost.andBuild (q1.comp_tame _ e1) (h1 _ e1) (h2 _ e2)).mono ?_
      have a := Nat.mul_le_mul_left (1500 * q1.size) (mono (Nat.le_max_left q1.rank q2.rank))
      have b := Nat.mul_le_mul_left (1500 * q2.size) (mono (Nat.le_max_right q1.rank q2.rank))
      simp only [sizeBound, Query.size, Query.rank, Nat.mul_add, Nat.add_mul]
      omega
  | or q1 q2 h1 h2 =>
    intro x h; simp only [Query.comp, Option.some.injEq] at h; subst h
    unfold encOr
    refine .wrapErr _ ?_
    split
    · exact .throw _
    · exact .throw _
    · next x1 x2 e1 e2 =>
      refine (Cost.orBuild (q1.comp_tame _ e1) (q2.comp_tame _ e2) (h1 _ e1) (h2 _ e2)).mono ?_
      have a := Nat.mul_le_mul_left (1500 * q1.size) (mono (Nat.le_max_left q1.rank q2.rank))
      have b := Nat.mul_le_mul_left (1500 * q2.size) (mono (Nat.le_max_right q1.rank q2.rank))
      have := one (max q1.rank q2.rank + 3)
      simp only [sizeBound, Query.size, Query.rank, Nat.mul_add, Nat.add_mul]
      omega
  | not q h1 =>
    intro x h; simp only [Query.comp, Option.some.injEq] at h; subst h
    unfold encNot
    refine .wrapErr _ ?_
    split
    · exact .throw _
    · next x1 e1 =>
      refine (Cost.notBuild (q.comp_tame _ e1) (h1 _ e1)).mono ?_
      have := one (q.rank + 3)
      simp only [sizeBound, Query.size, Query.rank, Nat.mul_add, Nat.add_mul]
      omega
  | withVar v q h1 =>
    intro x h; simp only [Query.comp, Option.some.injEq] at h; subst h
    unfold encWithVar
    refine .wrapErr _ ?_
    split
    · exact .throw _
    · next x1 e1 =>
      intro s c hv hd hn hc
      have e : M.addVar v s = (.ok (), s.addVar v) := rfl
      rw [M_bind_ok e] at hc ⊢
      obtain ⟨k, b1, b2⟩ := addVar_other s v
      have := (h1 _ e1).withVarBuild v (s.addVar v) c (hv.of_vm_eq b1 b2) (k.dim.trans hd) (by rw [k.nodes]; exact hn) hc
      have p : d ≤ (d + n + 1) ^ (q.rank + 3) := by
        have := Nat.pow_le_pow_right hm (show 1 ≤ q.rank + 3 by omega)
        rw [Nat.pow_one] at this
        omega
      simp only [sizeBound, Query.size, Query.rank, Nat.mul_add, Nat.add_mul] at *
      omega
  | forallG k q h1 =>
    intro x h; simp only [Query.comp, Option.some.injEq] at h; subst h
    unfold encForall
    refine .wrapErr _ ?_
    split
    · exact .throw _
    · next x1 e1 =>
      refine (Cost.forallBuild k (q.comp_tame _ e1) (h1 _ e1)).mono ?_
      refine Nat.le_trans (Nat.mul_le_mul_right _ (show n ≤ d + n + 1 by omega)) ?_
      simp only [sizeBound, Query.size, Query.rank]
      rw [Nat.mul_comm, Nat.mul_assoc, ← Nat.pow_succ]
      exact Nat.mul_le_mul_right _ (by omega)

end Goexpdt

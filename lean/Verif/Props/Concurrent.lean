import Verif.Lemmas.Concurrent
import Verif.Props.Compute
/-
C90: goroutines that use the package at the same time, each with a context and a solver of its own.
-/
namespace Goexpdt.Props
open Spec Conc

variable {α : Type} {theirs : Path → Prop} {gs : List (Goroutine α)} {d0 d : Disk} {ps : List (Prog α)}

/-- C90: in all executions, the result of a goroutine that has ended is its result without the others, and without files. -/
theorem C90_results (h : Execution theirs d0 (gs.map (·.prog)) d ps) {i : Nat} {a : α} (hi : ps[i]? = some (.ret a)) :
    ∃ g, gs[i]? = some g ∧ a = g.alone := by
  obtain ⟨own, used, hI⟩ := Execution.inv rfl h
  obtain ⟨g, h1, h2, -⟩ := hI.rest i _ hi
  exact ⟨g, h1, h2⟩

/-- C90: at any time all files that were there at the beginning, and that other processes do not use, are unchanged; what is there besides
them and the files of other processes are finitely many. -/
theorem C90_files (h : Execution theirs d0 (gs.map (·.prog)) d ps) :
    (∀ p c, ¬ theirs p → d0 p = some c → d p = some c) ∧
    ∃ new : List Path, ∀ p, ¬ theirs p → d p ≠ d0 p → p ∈ new ∧ d0 p = none := by
  obtain ⟨own, used, hI⟩ := Execution.inv rfl h
  have key : ∀ p, ¬ theirs p → d p ≠ d0 p → p ∈ used ∧ d0 p = none := fun p hp hd => by
    have : ¬ ∀ i, own i p = none := fun hn => hd (hI.same p hp hn)
    obtain ⟨i, hi⟩ := Classical.not_forall.1 this
    exact ⟨(hI.known i p hi).2.2.2, (hI.known i p hi).2.2.1⟩
  refine ⟨fun p c hp hc => ?_, used, key⟩
  refine Classical.byContradiction fun hn => ?_
  have := (key p hp (by rw [hc]; exact hn)).2
  rw [hc] at this
  simp at this

/-- C90: when all goroutines have ended, and none of their calls ran forever and all removals succeeded, the files are as at the beginning. -/
theorem C90_clean (h : Execution theirs d0 (gs.map (·.prog)) d ps) (hd : AllDone ps) (hc : ∀ g ∈ gs, g.Clean) (p : Path)
    (hp : ¬ theirs p) : d p = d0 p := by
  obtain ⟨own, used, hI⟩ := Execution.inv rfl h
  refine hI.same p hp fun i => ?_
  by_cases hi : i < ps.length
  · obtain ⟨a, ha⟩ := hd ps[i] (List.getElem_mem _)
    obtain ⟨g, h1, -, h3⟩ := hI.rest i (.ret a) (by rw [List.getElem?_eq_getElem hi, ha])
    rw [h3 (hc g (List.mem_of_getElem? h1))]
  · exact hI.outside i p (by omega)

/-- C90: no goroutine waits for another: at any time, each that has not ended can do its next operation. -/
theorem C90_progress (h : Execution theirs d0 (gs.map (·.prog)) d ps) (hf : ∀ l : List Path, ∃ p, p ∉ l ∧ d0 p = none ∧ ¬ theirs p)
    {p : Prog α} (_hp : p ∈ ps) (hr : ∀ a, p ≠ .ret a) : ∃ d' p', DiskOp theirs d p d' p' := by
  obtain ⟨own, used, hI⟩ := Execution.inv rfl h
  exact DiskOp.exists (hI.free hf) p hr

/-- C90: the turns of the goroutines come to an end in every execution, whatever others do in between. -/
theorem C90_ends : WellFounded fun ps' ps : List (Prog α) => ∃ theirs d d', OurTurn theirs d ps d' ps' :=
  ⟨fun ps => Subrelation.accessible (fun ⟨_, _, _, h⟩ => OurTurn.next h) (nextOf_acc ps)⟩

private theorem Execution.trans {d1 d2 d3 : Disk} {ps1 ps2 ps3 : List (Prog α)} (h1 : Execution theirs d1 ps1 d2 ps2)
    (h2 : Execution theirs d2 ps2 d3 ps3) : Execution theirs d1 ps1 d3 ps3 := by
  induction h2 with
  | refl => exact h1
  | ours _ ht ih => exact .ours (ih h1) ht
  | others _ hs ih => exact .others (ih h1) hs

/-- C90: so from every state there is a continuation in which all goroutines end; and an execution that cannot be continued by a goroutine is
one in which all have ended. -/
theorem C90_finishes (h : Execution theirs d0 (gs.map (·.prog)) d ps) (hf : ∀ l : List Path, ∃ p, p ∉ l ∧ d0 p = none ∧ ¬ theirs p) :
    (∃ d' ps', Execution theirs d ps d' ps' ∧ AllDone ps') ∧
    ((¬ ∃ d' ps', OurTurn theirs d ps d' ps') → AllDone ps) := by
  have key : ∀ {d ps}, Execution theirs d0 (gs.map (·.prog)) d ps → (¬ ∃ d' ps', OurTurn theirs d ps d' ps') → AllDone ps := by
    intro d ps h hn p hp
    refine Classical.byContradiction fun hr => ?_
    obtain ⟨d', p', ho⟩ := C90_progress h hf hp fun a ha => hr ⟨a, ha⟩
    obtain ⟨i, hi⟩ := List.getElem?_of_mem hp
    exact hn ⟨d', _, .mk i d ps p d' p' hi ho⟩
  refine ⟨?_, key h⟩
  have hw := (C90_ends (α := α)).apply ps
  induction hw generalizing d with
  | intro ps _ ih =>
    by_cases hn : ∃ d' ps', OurTurn theirs d ps d' ps'
    · obtain ⟨d', ps', ht⟩ := hn
      obtain ⟨d'', ps'', h1, h2⟩ := ih ps' ⟨theirs, d, d', ht⟩ (.ours h ht)
      exact ⟨d'', ps'', Execution.trans (.ours (.refl d ps) ht) h1, h2⟩
    · exact ⟨d, ps, .refl d ps, key h hn⟩

/-- C90, with C46: what `ComputeOptim` finds in a goroutine is an optimum, whatever the others do. -/
theorem C90_optimum {gs : List (Goroutine (Except Err OptOutput))} {ps : List (Prog (Except Err OptOutput))}
    (h : Execution theirs d0 (gs.map (·.prog)) d ps) {i : Nat} {temp : Option String} {rm : Bool} {e : EnvP} {n : Nat} {nodes : List Node}
    {T : DTree} {depth : QVar → Nat} {v : QVar} {f : Query} {ord : QConst → Query} {fuel : Nat} {st : BinSt} {s : Ctx}
    (hi : gs[i]? = some (.optim temp rm e (fun _ => f.comp) (fun _ k => (ord k).comp) v fuel st s fun r => .done r.1))
    (hsv : ∀ k, Solves (e.env k).run) (ho : Optimises n nodes T depth v f ord)
    (hs : Ready n nodes ((Query.withVar v f).names n T []) s) {o : OptOutput} (hr : ps[i]? = some (.ret (.ok o))) (hf : o.found = true) :
    f.about n T v (den o.value.val) ∧ ∀ e, f.about n T v e → ¬ (ord { val := o.value.val }).about n T v e := by
  obtain ⟨g, h1, h2⟩ := C90_results h hr
  rw [hi] at h1
  cases h1
  simp only [Goroutine.alone] at h2
  rcases hc : computeOptim (binSolver e.env) (fun _ => f.comp) (fun _ k => (ord k).comp) v temp.isNone fuel st s with ⟨r, st', s'⟩
  rw [hc] at h2
  subst h2
  exact (C46_queries (binSolver_correct hsv) ho hs hc hf).2.2

/-- A goroutine that runs the test in compute/optimum_test.go:24-66. -/
def testGoroutine (e : EnvP) : Goroutine (Except Err OptOutput) :=
  .optim none true e (fun _ => (testFormula ['x']).comp) (fun _ k => (strictLel VarGenBotCount ['x'] k).comp) ['x'] 4 {}
    (BasicQContext 3 []) fun r => .done r.1

/-- The executable solves, and nothing fails. -/
def Works (e : EnvP) : Prop :=
  ∀ k, Solves (e.env k).run ∧ (e.env k).temp = none ∧ (e.env k).create = some none ∧ e.rm k = true

private theorem testGoroutine_result {e : EnvP} (he : Works e) : ∃ o, (testGoroutine e).alone = .ok o ∧ o.found = true ∧
    (o.value.val = [BOT, BOT, ONE] ∨ o.value.val = [BOT, ONE, BOT] ∨ o.value.val = [ONE, BOT, BOT]) ∧ (testGoroutine e).Clean := by
  obtain ⟨o, st', s', h1, h2, -, h3⟩ := C46_test (st := {}) (binSolver_correct fun k => (he k).1)
    (binSolver_reliable (fun k => (he k).1) (fun k => (he k).2.1) fun k => (he k).2.2.1)
  refine ⟨o, ?_, h2, h3, rfl, fun k => (he k).2.2.2, ?_, trivial⟩
  · simp only [testGoroutine, Goroutine.alone, Option.isNone_none]
    rw [h1]
  · simp only [Option.isNone_none]
    rw [h1]
    simp

example : Works ⟨fun _ => ⟨none, some none, bruteRun⟩, fun _ => true⟩ := fun _ => ⟨bruteRun_solves, rfl, rfl, rfl⟩

/-- C90: the test may run in any number of goroutines at the same time, beside a file of the user: they all end, with a right result, and
no file is left. -/
theorem C90_test {e : EnvP} (he : Works e) (n : Nat) :
    let mine : Disk := fun p => if p = ['m', 'y'] then some ['a'] else none
    let start := (List.replicate n (testGoroutine e)).map (·.prog)
    (∃ d ps, Execution (fun _ => False) mine start d ps ∧ AllDone ps) ∧
    ∀ d ps, Execution (fun _ => False) mine start d ps → AllDone ps → d = mine ∧
      ps.length = n ∧ ∀ p ∈ ps, ∃ o, p = .ret (.ok o) ∧ o.found = true ∧
        (o.value.val = [BOT, BOT, ONE] ∨ o.value.val = [BOT, ONE, BOT] ∨ o.value.val = [ONE, BOT, BOT]) := by
  intro mine start
  have hfree : ∀ l : List Path, ∃ p, p ∉ l ∧ mine p = none ∧ ¬ False := by
    intro l
    refine ⟨List.replicate ((l.map List.length).sum + 3) 'x', fun hm => ?_, ?_, id⟩
    · have : ∀ l : List Path, ∀ p ∈ l, p.length ≤ (l.map List.length).sum := by
        intro l
        induction l with
        | nil => simp
        | cons q l ih =>
          intro p hp
          rcases List.mem_cons.1 hp with h | h
          · simp [h]
          · have := ih p h
            simp only [List.map_cons, List.sum_cons]
            omega
      have := this l _ hm
      simp only [List.length_replicate] at this
      omega
    · simp only [mine]
      rw [if_neg]
      intro he
      have := congrArg List.length he
      simp at this
  refine ⟨(C90_finishes (gs := List.replicate n (testGoroutine e)) (.refl _ _) hfree).1, fun d ps h hd => ⟨?_, ?_, fun p hp => ?_⟩⟩
  · funext p
    exact C90_clean (gs := List.replicate n (testGoroutine e)) h hd (fun g hg => (List.mem_replicate.1 hg).2 ▸ (testGoroutine_result he).choose_spec.2.2.2) p id
  · rw [Execution.length h]
    simp [start]
  · obtain ⟨a, rfl⟩ := hd p hp
    obtain ⟨i, hi⟩ := List.getElem?_of_mem hp
    obtain ⟨g, h1, rfl⟩ := C90_results (gs := List.replicate n (testGoroutine e)) h hi
    rw [(List.mem_replicate.1 (List.mem_of_getElem? h1)).2]
    obtain ⟨o, h2, h3, h4, -⟩ := testGoroutine_result he
    exact ⟨o, by rw [h2], h3, h4⟩

-- Turns in which the second goroutine begins between two operations of the first, and takes its path when it has been removed.
example :
    let e : EnvP := ⟨fun _ => ⟨none, none, fun _ => .failed ""⟩, fun _ => true⟩
    let g : Nat → Goroutine Nat := fun n => .step e none {} (BasicQContext 1 []) fun _ => .done n
    ∃ d, Execution (fun _ => False) (fun _ => none) ([g 1, g 2].map (·.prog)) d [.ret 1, .ret 2] ∧ (d = fun _ => none) := by
  intro e g
  have h1 : Execution (fun _ => False) (fun _ => none) ([g 1, g 2].map (·.prog)) _ [.remove ['a'] (.ret 1), (g 2).prog] :=
    .ours (.refl _ _) (.mk 0 _ _ _ _ _ rfl (.temp _ _ ['a'] rfl id))
  have h2 : Execution (fun _ => False) (fun _ => none) ([g 1, g 2].map (·.prog)) _ [.remove ['a'] (.ret 1), .remove ['b'] (.ret 2)] :=
    .ours h1 (.mk 1 _ _ _ _ _ rfl (.temp _ _ ['b'] rfl id))
  have h3 : Execution (fun _ => False) (fun _ => none) ([g 1, g 2].map (·.prog)) _ [.ret 1, .remove ['b'] (.ret 2)] :=
    .ours h2 (.mk 0 _ _ _ _ _ rfl (.remove _ _ _))
  have h4 : Execution (fun _ => False) (fun _ => none) ([g 1, g 2].map (·.prog)) _ [.ret 1, .ret 2] :=
    .ours h3 (.mk 1 _ _ _ _ _ rfl (.remove _ _ _))
  refine ⟨_, h4, ?_⟩
  funext p
  simp only [Disk.put]
  split <;> simp_all

private theorem writes_run {β : Type} {p : Path} {f : Bool → Prog β} {i : Nat} (ts : List (List Char)) {d : Disk} {ps : List (Prog β)}
    {c : List Char} (hi : ps[i]? = some ((writesP p none ts).bind f)) (hd : d p = some c) :
    Execution theirs d ps (d.put p (some (c ++ ts.flatten))) (ps.set i (f true)) := by
  have hil : i < ps.length := (List.getElem?_eq_some_iff.1 hi).1
  induction ts generalizing d ps c with
  | nil =>
    have h1 : d.put p (some (c ++ ([] : List (List Char)).flatten)) = d := by simp [← hd, Disk.put_self]
    have h2 : ps.set i (f true) = ps := by
      obtain ⟨_, h⟩ := List.getElem?_eq_some_iff.1 hi
      simp only [writesP, Prog.bind] at h
      rw [← h, List.set_getElem_self]
    rw [h1, h2]
    exact .refl _ _
  | cons t ts ih =>
    have h1 := OurTurn.mk (theirs := theirs) i d ps _ _ _ hi (DiskOp.write d p t _)
    have h2 := ih (d := d.put p ((d p).map (· ++ t))) (ps := ps.set i ((writesP p none ts).bind f)) (c := c ++ t)
      (by rw [List.getElem?_set_self hil]) (by simp [Disk.put_same, hd]) (by simpa using hil)
    have h3 := Execution.trans (.ours (.refl _ _) h1) h2
    rw [Disk.put_put, List.set_set] at h3
    simpa using h3

private theorem texts_flatten (c : CNF) : c.texts.flatten = c.toBytes := by
  simp [CNF.texts, CNF.toBytes, List.flatMap_def, List.map_append]

/-- C90, that `os.CreateTemp` matters: if CNFs were written to a file with a fixed name, a goroutine's solver would read its own CNF when it
is alone, and there would be executions in which it reads that of another. -/
theorem C90_fixed_name (p : Path) (c c' : CNF) :
    let prog : CNF → Prog (Option (List Char)) := fun c => (toFileP (some none) p c).bind fun _ => .read p .ret
    (∃ d, Execution (fun _ => False) (fun _ => none) [prog c] d [.ret (some c.toBytes)]) ∧
    ∃ d, Execution (fun _ => False) (fun _ => none) [prog c, prog c'] d [.ret (some c'.toBytes), .ret (some c'.toBytes)] := by
  intro prog
  have one : ∀ (c : CNF) (i : Nat) (d : Disk) (ps : List (Prog (Option (List Char)))), ps[i]? = some (prog c) →
      Execution (fun _ => False) d ps (d.put p (some c.toBytes)) (ps.set i (.read p .ret)) := by
    intro c i d ps hi
    have hil : i < ps.length := (List.getElem?_eq_some_iff.1 hi).1
    have h1 := OurTurn.mk (theirs := fun _ => False) i d ps _ _ _ hi (DiskOp.create d p _)
    have h2 := writes_run (theirs := fun _ => False) (f := fun _ => .read p .ret) (i := i) c.texts (d := d.put p (some []))
      (List.getElem?_set_self (a := (writesP p none c.texts).bind fun _ => .read p .ret) hil) (Disk.put_same _ _ _)
    have h3 := Execution.trans (.ours (.refl _ _) h1) h2
    rw [Disk.put_put, List.set_set, texts_flatten] at h3
    simpa using h3
  constructor
  · have h := Execution.ours (one c 0 (fun _ => none) [prog c] rfl) (.mk 0 _ _ _ _ _ rfl (.read _ p _))
    rw [Disk.put_same] at h
    exact ⟨_, h⟩
  · have h := Execution.trans (one c 0 (fun _ => none) [prog c, prog c'] rfl) (one c' 1 _ _ rfl)
    have h := Execution.ours (Execution.ours h (.mk 0 _ _ _ _ _ rfl (.read _ p _))) (.mk 1 _ _ _ _ _ rfl (.read _ p _))
    rw [Disk.put_same] at h
    exact ⟨_, h⟩

/-- C90, that every goroutine needs a solver of its own: with one for both, a call of `Step` of the other comes between `Step` and `Values`,
and `Values` returns an instance that does not satisfy the query of the first. (Every call is taken as one turn here; the interface says
that `Values` is about the last call of `Step`.) -/
theorem C90_shared_solver :
    let f : FeatV → Query := fun k => .atom (.subs (.const { val := [k] }) (.var ['x']))
    let a := bruteSolver.step (Query.withVar ['x'] (f ONE)).comp {} (BasicQContext 1 [])
    let b := bruteSolver.step (Query.withVar ['x'] (f ZERO)).comp a.2.1 (BasicQContext 1 [])
    a.1 = .ok () ∧ b.1 = .ok () ∧
    (bruteSolver.values [['x']] a.2.1 a.2.2).1 = .ok [{ val := [ONE] }] ∧
    (bruteSolver.values [['x']] b.2.1 a.2.2).1 = .ok [{ val := [ZERO] }] ∧
    (∀ T, (f ONE).about 1 T ['x'] (den [ONE])) ∧ ∀ T, ¬ (f ONE).about 1 T ['x'] (den [ZERO]) := by
  refine ⟨by decide +kernel, by decide +kernel, by decide +kernel, by decide +kernel, fun T => ?_, fun T => ?_⟩
  · simp only [Query.about, Query.fo, Atom.says, Term.val, upd]
    unfold Subsumes
    decide
  · simp only [Query.about, Query.fo, Atom.says, Term.val, upd]
    unfold Subsumes
    decide

end Goexpdt.Props

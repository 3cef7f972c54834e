import Verif.Model.Iface
import Verif.Model.Compute
/-
The package compute over an arbitrary context: `Step`, `Values`, `Sat` and `ComputeOptim` get a value of the interface type
`query.QContext`. The functions below are those of `Model/Compute.lean` word by word, with the methods of the context `I` in place of those of
the basic one; with `I` the basic context they are the same functions (`C89_basic`).

Simplifications: the same as there and in `Model/Iface.lean`.
-/
namespace Goexpdt
namespace Over

variable {σ : Type}

/-- compute/solver.go:25-34 `type Solver interface`, as used with contexts with state `σ`. -/
structure SolverG (S σ : Type) where
  values : List QVar → S → σ → Except Err (List QConst) × S × σ
  step : CompG σ → S → σ → Except StepErr Unit × S × σ

/-! ### binSolver -/

/-- compute/solver.go:56-92 `binSolver.Step`, in environment `env`. -/
def binStep (env : Env) (q : CompG σ) (st : BinSt) (s : σ) : Except StepErr Unit × BinSt × σ :=
  let st := { st with calls := st.calls + 1 }
  match env.temp with
  | some msg => (.error (.other (.msg msg)), st, s)
  | none =>
    match q with
    | none => (.error (.other (.panic "nil pointer dereference")), st, s)
    | some act =>
      match act s with
      | (.error e, s) => (.error (.other e), st, s)
      | (.ok c, s) =>
        match c.toFile env.create with
        | (true, some f) =>
          match runSolver (env.run f.content) with
          | .error e => (.error (.other e), st, s)
          | .ok (code, output) =>
            if code = 20 then (.error .unsat, st, s)
            else (.ok (), { st with output := output }, s)
        | _ => (.error (.other (.msg "write error")), st, s)

/-- compute/solver.go:182-193 `variableFilter`; the result lists the keys. `is` are the loop indexes. -/
def variableFilter (I : QContext σ) (v : QVar) : List Nat → MG σ (List Int)
  | [] => pure []
  | i :: is => do
    let a ← cnfVar I ⟨v, i, BOT⟩
    let b ← cnfVar I ⟨v, i, ZERO⟩
    let c ← cnfVar I ⟨v, i, ONE⟩
    let rest ← variableFilter I v is
    pure (a :: b :: c :: rest)

/-- compute/solver.go:164-177, the loop over the features. A missing map entry reads as false. -/
def readFeats (I : QContext σ) (v : QVar) (vval : List (Int × Bool)) : List Nat → MG σ (List FeatV)
  | [] => pure []
  | i :: is => do
    let a ← cnfVar I ⟨v, i, BOT⟩
    if (mapGet vval a).getD false then do
      let rest ← readFeats I v vval is
      pure (BOT :: rest)
    else do
      let b ← cnfVar I ⟨v, i, ONE⟩
      if (mapGet vval b).getD false then do
        let rest ← readFeats I v vval is
        pure (ONE :: rest)
      else do
        let c ← cnfVar I ⟨v, i, ZERO⟩
        if (mapGet vval c).getD false then do
          let rest ← readFeats I v vval is
          pure (ZERO :: rest)
        else readFeats I v vval is

/-- compute/solver.go:137-180 `varValueFromBytes`. -/
def varValueFromBytes (I : QContext σ) (out : List Char) (v : QVar) : MG σ QConst := do
  let d ← dim I
  let vfilter ← variableFilter I v (List.range d)
  let vval ← MG.lift (scanLines vfilter [] (splitOn '\n' out))
  let feats ← readFeats I v vval (List.range d)
  pure { val := feats }

/-- compute/solver.go:120-135 `binSolver.Values`: the loop. -/
def binValuesLoop (I : QContext σ) (out : List Char) : List QVar → MG σ (List QConst)
  | [] => pure []
  | v :: vs => do
    let c ← varValueFromBytes I out v
    let rest ← binValuesLoop I out vs
    pure (c :: rest)

/-- compute/solver.go:120-135 `binSolver.Values`. -/
def binValues (I : QContext σ) (vs : List QVar) (st : BinSt) (s : σ) : Except Err (List QConst) × BinSt × σ :=
  match binValuesLoop I st.output vs s with
  | (r, s) => (r, st, s)

/-- compute/solver.go:56-135, the methods of `*binSolver`: the solver in an environment that behaves as `env k` during the `k`-th call of
`Step`. -/
def binSolver (I : QContext σ) (env : Nat → Env) : SolverG BinSt σ where
  values := binValues I
  step q st s := binStep (env st.calls) q st s

/-! ### Boolean combinations -/

/-- compute/boolcomb.go:9-15 `type QDTFCombinator interface`. -/
abbrev SatG (S σ : Type) := S → σ → Except Err Bool × S × σ

/-- compute/boolcomb.go:20-33 `AndCombinator.Sat`. A nil element is `none`. -/
def andSat {S : Type} : List (Option (SatG S σ)) → SatG S σ
  | [], st, s => (.ok true, st, s)
  | none :: _, st, s => (.error (.panic "nil pointer dereference"), st, s)
  | some elem :: es, st, s =>
    match elem st s with
    | (.error e, st, s) => (.error e, st, s)
    | (.ok sat, st, s) => if !sat then (.ok false, st, s) else andSat es st s

/-- compute/boolcomb.go:38-51 `OrCombinator.Sat`. -/
def orSat {S : Type} : List (Option (SatG S σ)) → SatG S σ
  | [], st, s => (.ok false, st, s)
  | none :: _, st, s => (.error (.panic "nil pointer dereference"), st, s)
  | some elem :: es, st, s =>
    match elem st s with
    | (.error e, st, s) => (.error e, st, s)
    | (.ok sat, st, s) => if sat then (.ok true, st, s) else orSat es st s

/-- compute/boolcomb.go:53-79 `QDTFAtom.Sat`. -/
def atomSat {S : Type} (sv : SolverG S σ) (q : CompG σ) (negated : Bool) : SatG S σ := fun st s =>
  match sv.step q st s with
  | (.error .unsat, st, s) => (.ok negated, st, s)
  | (.error (.other e), st, s) => (.error e, st, s)
  | (.ok (), st, s) => (.ok (!negated), st, s)

/-! ### ComputeOptim -/

/-- compute/optimum.go:67-95, the loop and the final return, see `Goexpdt.optimLoop`. (`bm[0]` is evaluated after `Reset`.) -/
def optimLoop {S : Type} (I : QContext σ) (sv : SolverG S σ) (fg : QVar → CompG σ) (og : QVar → QConst → CompG σ) (v : QVar) :
    Nat → Nat → S → σ → Except Err OptOutput × S × σ
  | 0, _, st, s => (.error .diverge, st, s)
  | fuel + 1, steps, st, s =>
    let steps := steps + 1
    match sv.values [v] st s with
    | (.error e, st, s) => (.error e, st, s)
    | (.ok bm, st, s) =>
      match I.reset s with
      | (.error e, s) => (.error e, st, s)
      | (.ok (), s) =>
        match bm with
        | [] => (.error (.panic "index out of range"), st, s)
        | b :: _ =>
          match sv.step (some (encWithVar I v (some (encAnd (fg v) (og v b))))) st s with
          | (.error .unsat, st, s) => (.ok ⟨true, b, steps⟩, st, s)
          | (.error (.other e), st, s) => (.error e, st, s)
          | (.ok (), st, s) => optimLoop I sv fg og v fuel steps st s

/-- compute/optimum.go:36-96 `ComputeOptim`. `tmp` is whether `os.CreateTemp` succeeds (line 48); when it does not, the code returns no
error. `fg` and `og` are Go functions that return an `Encodable`, or nil. -/
def computeOptim {S : Type} (I : QContext σ) (sv : SolverG S σ) (fg : QVar → CompG σ) (og : QVar → QConst → CompG σ) (v : QVar)
    (tmp : Bool) (fuel : Nat) (st : S) (s : σ) : Except Err OptOutput × S × σ :=
  if !tmp then (.ok {}, st, s)
  else
    match sv.step (some (encWithVar I v (fg v))) st s with
    | (.error .unsat, st, s) => (.ok ⟨false, {}, 1⟩, st, s)
    | (.error (.other e), st, s) => (.error e, st, s)
    | (.ok (), st, s) => optimLoop I sv fg og v fuel 1 st s

end Over
end Goexpdt

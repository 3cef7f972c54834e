# A formal model of jtcaraball/goexpdt in Lean 4

Everything is under `lean/Verif`:

| directory | content |
|---|---|
| `Verif/Model` | executable model of the Go code, definition by definition, each citing the Go lines |
| `Verif/Spec`  | what things mean, independent of the model: valuations, partial instances, decision trees, the predicates of DT-FOIL, first-order semantics of queries, a DIMACS reader, correct SAT solvers |
| `Verif/Lemmas` | proofs |
| `Verif/Props` | the property theorems (one file per area) with non-vacuity examples |
| `Verif/Cases` | more theorems applied to concrete cases that meet their hypotheses; nothing depends on these files |

`properties.jsonl` lists the properties, `MANIFEST.json` the theorems per property, `seeded/LOG.jsonl` the
attempts to break the model and what the theorems did about it.

## Trusted base

* The Lean kernel (version 4.33.0).
* The axioms `propext`, `Classical.choice` and `Quot.sound`. No theorem depends on any other axiom; there is no
  `sorry`, `native_decide`, `bv_decide`, `implemented_by` or `unsafe`. Concrete witnesses are checked by `decide`,
  with `+kernel` where they are large.
* The reading of the Go code in `Verif/Model`. The code cannot be run here, so the tie between model and code is
  that every definition cites the lines it models and follows them statement by statement. In addition the
  repository's own tests are run on the model by the build (`Verif/Tests`, see the last section).
* The specifications in `Verif/Spec` say what was intended. They do not mention clauses, encodings or contexts,
  except for `Spec/Contract.lean`, `Spec/State.lean` and `Spec/Symb.lean`, which are the interface between the
  proofs, and `Spec/Meaning.lean`, where `Faithful` relates a CNF to a statement about instances.
* Assumptions on the outside world are hypotheses of the theorems that need them: `Solves` (an executable that
  decides every DIMACS text and prints a solution in the usual format), `Correct` and `Reliable` (an implementation
  of the interface `Solver` that never errs, and never fails). `C44_solver_exists` shows that they can be met.

## What is modelled

All non-test Go code, and the helpers of query/internal/test that the tests use:

| Go | Lean |
|---|---|
| cnf/cnf.go | `Model/CNF.lean`; memory behind slices in `Model/Alias.lean`; the calls that encodings make, with this memory, in `Model/Calls.lean` |
| query/varmanager.go, scoper.go, context.go, instances.go, model.go | `Model/Query.lean` |
| query/logop (and, or, not, with_var) | `Model/LogOp.lean` |
| query/logop/forallguarded.go (iterator over the nodes) | `Model/Walk.lean`, `Model/LogOp.lean` |
| query/predicates | `Model/Preds.lean` |
| query/extensions | `Model/Ext.lean` |
| query/internal/test/auxvar.go | `Model/Gen.lean` |
| query/internal/test/clauses.go, mocktree.go, trivial.go | `Model/Helpers.lean` |
| query/internal/test/solver.go, and the queries of the table tests | `Model/TestRun.lean` |
| compute | `Model/Compute.lean`; temporary files behind it in `Model/Files.lean`; goroutines that use it at the same time in `Model/Concurrent.lean` |
| what errors wrap, and `errors.Is` in the package compute | `Model/Wrapped.lean` |
| examples, the query of README.md | `Model/Examples.lean` |
| the components over any implementation of the interface `QContext` | `Model/Iface.lean` |
| the package compute over any implementation of the interface `QContext` | `Model/IfaceCompute.lean` |
| the arrays behind scopes, constants and the iterators over nodes | `Model/Shared.lean` |
| the variable manager, `Negate`, and reading outputs, with integers of 64 bits | `Model/Word.lean` |

`Model/Syntax.lean` is the type of queries built from the library's types; `Query.encode` maps it to the modelled
`Encoding` methods. (The logical operators are modelled for arbitrary components, not only for these.)
`Model/Sym.lean` has the bounds checks, and the clause generators with variables by name (used by the proofs only).

Not modelled:

* overflow of 64 bit integers, except for the numbers of variables: `int` is `Int`. `Model/Word.lean` has the functions that count variables
  and read outputs again, with integers of 64 bits, and C91 says when they do the same (C57 bounds the numbers of an encoding); lengths, loop
  indexes and counters are exact there too, and so is the negation of a number, which differs for -2^63 only;
* encodings of characters: a `Char` of a file or of an output stands for a byte (all that the library writes is ASCII);
* memory behind slices, except for those of `cnf` (`Model/Alias.lean`, `Model/Calls.lean`) and those of feature values (`Model/Shared.lean`; the
  rest of the model treats them as values, which C88 justifies); slices of nodes are never written to. In `Model/Calls.lean` the clauses that a
  predicate passes to a call are new slices, with any spare capacity, and their lists may be passed in several calls, cut anywhere;
* garbage collection, time and memory use;
* the operating system: the outcomes of creating, writing and running are parameters; a write happens in full or
  fails, possibly after part of its text is written, and no other process changes the files; files and handles
  are modelled in `Model/Files.lean` only (the rest of the proofs uses the model without files, C64 relates them);
* concurrency in memory (the library starts no goroutines, and its only global variables are constant; contexts and solvers are not safe for
  concurrent use, so `Model/Concurrent.lean` gives every goroutine its own, and only files are shared; there, file handles are left out and the
  solver's process reads its input in one turn);
* texts of errors of the operating system (those of the library are modelled, see C71) and of panics;
* the order in which Go iterates over maps: the only such loop (query/scoper.go `PopScope`) deletes entries one by one, so
  the order does not matter;
* slices that a context of the user's own (`Model/Iface.lean`) shares with its caller;
* models that change between calls: `Dim()` and `Nodes()` of the interface `Model` return the same values always, and `Dim()`
  is not negative.

## Shape of the model

* Strings are `List Char`, slices are `List`, maps are association lists, `Dim()` is a `Nat`.
* Every `Encoding(ctx)` method is a function `Ctx → Except Err CNF × Ctx` (monad `M`): the context is mutated
  also when an error is returned. `Err` distinguishes a returned error, a run-time panic and divergence.
* Loops over ranges become structural recursion over the list of loop indexes, in the same order, so the integers
  handed out by `CNFVar` are the ones the Go program hands out.
* Loops that are not bounded by their syntax (model walks, `ComputeOptim`) take fuel and yield `diverge` when
  it runs out; theorems show when it cannot run out.
* An index into the value of a constant panics in the model if it is out of range (`indexed`), except where the line
  before compares the lengths or the loop ranges over the constant itself. Indices into the node slice are
  cases too, except in the iterator of ForAllGuarded, which validates the nodes first.
* A nil interface, a nil function and a nil context are explicit cases.
* SAT solver, file system and process exit are parameters, quantified over in the theorems.

## How the encodings are proved

1. *Symbolic clauses.* Each clause generator is shown to return the image, under the numbering in the final
   context, of an explicit list of clauses over named variables `(QVar, int, int)`, and to extend the numbering
   without changing it.
2. *Atoms.* About the symbolic clauses we show (A) every valuation satisfying the consistency clauses and
   reading the query variables as instances satisfies the semantic clauses iff the documented predicate
   holds; (B) the canonical valuation of the auxiliary variables satisfies the consistency clauses.
3. *Contract.* (A) and (B) plus bookkeeping (freshness, scope stack, declared variables) form a contract which And,
   Or, Not, WithVar and ForAllGuarded preserve, for arbitrary components. Negation introduces anonymous
   variables above `TopV()`; contracts quantify over their values on the interval of integers reserved.
4. *Queries.* Induction over query syntax gives soundness and completeness.
5. *Compute.* Atom evaluation, combinators and the optimisation loop on top of 4.

The conditions of 4 (`Query.Good`, `Spec/Meaning.lean`) say that variables are declared where they are used, constants
have the model's dimension, the nodes form a decision tree without repeated features on a path and without
nodes outside of the tree, and auxiliary names do not clash. C54 derives the last one from syntactic conditions.
`Query.Sound` (`Spec/Ground.lean`, C65) weakens the first: variables may be declared several times, and what an occurrence
refers to is decided by the state of the context. `Query.Encodable` (`Spec/Settle.lean`, C75) drops the last: auxiliary names may
clash, and the assignments for which the clash is a contradiction are excluded. For this the contract has a domain of assignments (`World.dom`), for
which every auxiliary name has one meaning; (B) is shown for those only. It also admits the cases of `leh` excluded by `Query.Sound`, in which
the code answers true without looking at the variable; what such queries say is `Ground.encoded` (`Spec/Encoded.lean`).

## Where the code does not do what it should

Each of these is a theorem about the model with a concrete witness; a `_partial` theorem says what does hold.

| where | what happens | theorem |
|---|---|---|
| cnf/cnf.go, append to slices of a shared array | two results derived from one CNF overwrite each other; after `Negate` the formula is wrong | `C08_append_twice_refuted`, `C08_consistency_twice_refuted`, `C08_negate_twice_refuted` |
| query/scoper.go:11-15, the condition on `ScopeVar` | a context that meets it may give a variable one name in all scopes, and then a true query has an unsatisfiable CNF (`BasicQContext` does not do this) | `C87_documented_not_enough` |
| compute/optimum.go:71, `Values([]query.QVar{v}, ctx)` | the variable is asked for under its own name and not under that of `ScopeVar`: with a context that keeps the contract but renames variables outside of scopes too, the call fails on satisfiable formulas (`BasicQContext` does not rename them) | `C89_own_name` |
| query/logop with a component of the user's that keeps its CNF and returns it twice | `And` loses clauses, for the same reason; the library's own components do not do this (C58) | `C58_cached_component_refuted` |
| query/scoper.go `Reset` | variables recorded by `AddVar` stay; a later `ScopeVar` can panic | `C14_*` |
| query/logop/with_var.go | a variable that the context already knows gets no consistency clauses, so a second evaluation on one context can be wrong | `C51_or_refuted`, `C51_optim_refuted` |
| compute/solver.go `variableFilter` | `Values` for a variable that the context does not know returns a constant without values and no error, and gives it numbers, so a later evaluation that declares it can be wrong, for the reason above | `C70_unknown`, `C70_refuted` |
| query/extensions/hepr | the types with a variable panic on an empty preference | `C33_empty_panics` |
| query/extensions/leh/const_const_var.go, const_var_const.go | true is returned for some full constants without looking at the variable, which need not be full | `C34_ccv_wrong`, `C34_cvc_wrong`, `C75_blind` |
| query/extensions/leh/const_var_const.go | the distance to the first constant is named after the third; two such components clash | `C37_wrong`, `C75_first` |
| the same, used as the order of `ComputeOptim` | the closest instance is missed: a farther one is reported as optimal | `C61_names_clash` |
| compute/optimum.go:23-29, README.md:20-23 | exponentially many solver calls are possible without `ForAllGuarded`, with the strict order of a preference | `C60_exponential`, `C60_not_polynomial` |
| query/extensions/hepr/util.go `prefVar` | features are written without separator, so [1, 2] and [12] have one name | `C38_wrong`, `C38_collision`, `C75_preferences` |
| isnode.Var and allcomp.Var with one `ReachNodeVarGen` | the shared variables have two meanings; README.md recommends sharing | `C36_shared_wrong`, `C75_leaf` |
| compute/optimum.go:48 | the error of `CreateTemp` is dropped: "not found" is returned | `C47_temp_fails` |
| compute/boolcomb.go:71, compute/optimum.go:58,88 `errors.Is(err, UnsatError)` | an error of the encoding that wraps `UnsatError` (a component of the user's that asks a solver and passes its error on) is taken for the answer "not satisfiable", also where that means that an optimum is found; the executable is not run | `C96_sat_not`, `C96_optim_not` |
| compute/solver.go:43-54 `BinSolver` | only `os.Stat` is called: what is not a SAT solver is accepted, also if it then answers wrongly | `C63_not_checked`, `C63_refuted` |
| query/predicates/isnode/const.go | does not end on models with a cycle | `C28_cyclic_diverges` |
| query/extensions/dfs/utils.go, query/logop/forallguarded.go | the walks visit every node once, so on models with shared nodes (which pass validation) instances of paths are missed: dfs.Const and ForAllGuarded answer wrongly | `C77_dfs_wrong`, `C77_quantifier_wrong` |
| query/extensions/dfs/utils.go, query/logop/forallguarded.go | on trees that decide on a feature twice on a path (which pass validation) the walks overwrite and forget decisions: dfs.Const and ForAllGuarded answer wrongly; allcomp follows ways that no instance takes, so its answer no may be wrong | `C85_dfs_wrong`, `C85_quantifier_wrong`, `C39_tree_needed`, `C18_read_once_needed` |
| query/predicates/isnode/var.go, query/extensions/allcomp/var.go | a node is marked only if all its parents are, so on models with shared nodes (which pass validation) true instances are missing, from the predicate and from its negation; nodes that cannot be reached may be marked too, so isnode may be true of what is not a node | `C97_missing`, `C97_stray` |
| compute/optimum.go with dfs, examples/evaluation.go | on models with shared nodes a set of features is returned, or accepted, as a smallest sufficient set that is not sufficient, and a smallest sufficient set is rejected | `C99_dfs_wrong` |
| compute/optimum.go with dfs, examples/evaluation.go | on trees that decide on a feature twice on a path "not found" is returned although there are sufficient sets, and a smallest sufficient set is rejected; what is returned is sufficient (`C100_found`) | `C100_dfs_wrong` |
| query/extensions/dfs/var.go, query/extensions/dfs/const.go | a model that has nodes, but no leaf that can be reached, is reported as empty | `C100_leafless` |
| compute/optimum.go with such predicates, examples/computation.go | for the reason above, on models with shared nodes "not found" is returned although there are sufficient reasons, or one that is not minimal is returned as minimal | `C98_missed`, `C98_not_minimal` |
| query/internal/test/clauses.go | `ValidClauses` takes all negative literals for the same, and overlooks missing clauses if others are repeated, so tests pass with wrong clauses | `C72_negative_refuted`, `C72_repeated_refuted` |
| query/internal/test/mocktree.go | children are not checked | `C73_refuted` |
| query/internal/test/auxvar.go and other generators | a variable named like the value of a constant shares its auxiliary variables | `C54_name_needed` |

Behaviour that a user may not expect, also proved: `Not` over `WithVar` is "there is a value such that not"
(`C40_not_withVar`); two `WithVar` of one name in sibling positions are one variable (`C40_declared_twice`);
the top variable of a context or formula may be raised to 2^63 - 1, and then the next variable is negative (`C91_overflow`);
the negation of `leh` on two variables has several models for one solution (`C94_not`), and a solver has to search for one even if the instances
are fixed (`C95_not`);
a name declared again inside a guarded quantifier hides the outer variable until the end of that quantifier, also in
its next iterations, or is the same variable if the outer one is itself declared in a quantifier
(`C40_redeclared_in_loop`, `C66_lexical_needed`); nodes that cannot be reached, shared nodes and features that are tested twice on a
path make encodings wrong (`C39_tree_needed`);
an order that holds between equal instances makes `ComputeOptim` run forever (`C49_reflexive`); the example
program for sufficient reasons returns the empty instance for constants whose class is not determined
(`C55_undetermined`); `Values` panics, fails or returns too few features on output that is not in the expected
format (`C44_malformed`); models of dimension 0, with children or features out of range, and contexts after `Reset`
lead to panics (C52).

Comments that differ from the code: "DFS" in examples/evaluation.go:24-25 (`C56_comment_differs`); the query of
README.md asks for negative completions where the text says positive (`C56_readme`); the package comment of hepr
describes a smaller relation (`C33_comment_differs`); the examples say that the path of the solver is stored in an environment variable, but
pass the literal string `path_to_solver_binary` to `BinSolver`; README.md:20-23 promises polynomially many solver calls, which depends on
the order (C59 gives the exact worst case, C48 and C60 what this means for the orders of the library).

## Plan per property

* **C01** Negate is exact: valuations as Nat → Bool; induction over the clause loop of the Tseytin step.
* **C02** Negate is a conservative extension: explicit construction of the auxiliary values, same induction.
* **C03** TopV bounds every variable and new variables are fresh: inductive type of CNFs built by operations; invariant by induction.
* **C04** Conjunction means AND and keeps the two clause kinds apart: direct, from list append.
* **C05** TriviallyTrue and TriviallyFalse are sound: direct.
* **C06** DIMACS output round-trips: a DIMACS reader as separate specification; decimal print/parse round trip; induction over clauses.
* **C07** ToFile writes the DIMACS text or reports an error, at every failure point: file as list of characters, failure oracle choosing the failing call and how much of its text is still written; induction over the writes.
* **C08** CNF operations do not disturb their operands: separate heap model of slices (backing arrays, len, cap); refinement for affine use, refutation otherwise.
* **C09** CNFVar is an injective, stable, positive numbering: operation histories; invariant (injective, within 1..topv) by induction.
* **C10** UpdateTopV reserves variables and never lowers TopV: same invariant.
* **C11** ScopeVar keeps distinct variables apart under all stacks: prefix up to the first separator determines the variable.
* **C12** ScopeVar separates iterations and shares outer variables: decimal numerals contain no separator; list induction.
* **C13** Scope push/pop is balanced and never panics: operation histories as a state machine; invariant: levels ≤ stack height. The loop over the map in `PopScope` is order-independent (`C13_map_order`).
* **C14** Reset returns a context to its original state: refutation for the scoper's variable table with a panic witness; partial theorem for balanced histories; exact condition (no variable is left declared in a scope that was not closed).
* **C15** ScopeConst resolves a constant to the enclosing quantifier's current value: list induction.
* **C16** Constant helpers agree with their definition: list induction.
* **C17** Guarded iteration terminates and visits each reachable node once: walk as a step relation; invariant: prev-chain from current node to root is duplicate free; lexicographic measure.
* **C18** Guarded iteration yields exactly the instances of the tree's nodes: induction over the tree laid out in the slice.
* **C19** And, Or and Not mean what they say for arbitrary components: contract preservation lemmas.
* **C20** WithVar makes its variable denote exactly one partial instance: clause analysis.
* **C21** Redeclaring a variable is harmless: state equality.
* **C22** ForAllGuarded is the conjunction over the tree's nodes: contract preservation by induction over the iteration.
* **C23** Encoding leaves the scope stack as it found it: induction over query syntax for all outcomes.
* **C24** Nil inputs are errors, not panics: case analysis over query types.
* **C25** Subsumption is encoded exactly: symbolic clauses.
* **C26** Less-or-equal-level is encoded exactly: induction along the counting circuit.
* **C27** IsNode is encoded exactly: induction over the tree.
* **C28** isnode.Const terminates on acyclic models: fuel never runs out on acyclic slices; witness of divergence on a cyclic one.
* **C29** Full is encoded exactly: symbolic clauses.
* **C30** Consistent is encoded exactly: symbolic clauses.
* **C31** AllComp is encoded exactly: induction over the tree; stack/visited invariant for the constant version.
* **C32** DFS is encoded exactly: leaf collection by C18's walk; construction of two completions.
* **C33** HEPR is encoded exactly: induction along the preference; panic witness for the empty sequence.
* **C34** LEH is encoded exactly: counting circuit as for lel; refutation for two corner cases.
* **C35** Wrong dimensions are reported without side effects: case analysis.
* **C36** Components may share a reachability generator: refutation by a concrete conjunction; positive theorem for components of the same kind.
* **C37** Distance variables stand for the distance they are named after: refutation by a concrete conjunction; positive theorem when no ConstVarConst is mixed in.
* **C38** Preference names identify preferences: refutation ([1,2] against [12]); names are unique exactly up to dimension ten; positive theorem when names differ.
* **C39** Encoding is sound and complete for every query: induction over query syntax using the contracts.
* **C40** Encoding agrees with first-order semantics: Skolemisation argument over scoped names.
* **C41** Encodings are well-formed DIMACS: invariant over query syntax for all outcomes.
* **C42** Evaluation of an atom is correct: C39/C40 + solver specification.
* **C43** Combinators compute AND and OR with short-circuit and error propagation: list induction with call log.
* **C44** Values returns the instance the solver found: parsing model of the solver's v lines.
* **C45** Solver outcomes are mapped faithfully: case analysis over the outcomes.
* **C46** ComputeOptim returns an optimum: loop invariant.
* **C47** ComputeOptim reports absence faithfully: loop invariant.
* **C48** ComputeOptim terminates for strict orders: well-founded descent; rank bound.
* **C49** ComputeOptim does not terminate for reflexive orders: induction on fuel.
* **C50** Calls counts the solver calls: ghost counter in the solver.
* **C51** A context can be reused for a further evaluation: refutation by a concrete history; positive theorem with disjoint names or Reset.
* **C52** Encoding does not panic: class of total, panic-free actions closed under the monad; induction over query syntax; witness for each condition.
* **C53** Encoding terminates: fuel bounds for the walks from acyclicity, or from the visited set.
* **C54** Test generators never cause clashes: names as tag and parts with separators; injectivity by parsing; induction over query syntax with the open scopes.
* **C55** The computation example finds a minimal sufficient reason: C46–C48 for its formula, whose variable is declared twice, so from C39 rather than C40.
* **C56** The evaluation example decides least determinant feature sets: C42 for its query.
* **C57** Encodings have polynomial size: a potential that negation increases by a constant only; induction over query syntax; nested quantifiers as the lower bound.
* **C58** Encodings are not disturbed by shared memory: the encodings as programs that make calls of the heap model of C08; refinement of the encodings with immutable values, with a frame of CNFs not yet used; induction over query syntax.
* **C59** The worst case of ComputeOptim is the longest improving sequence: loop invariant carrying the sequence; a solver that follows a given sequence.
* **C60** ComputeOptim needs polynomially many steps without ForAllGuarded: refuted by C59 with binary counting; positive theorem for the other orders.
* **C61** ComputeOptim finds a closest instance: the order as encoded, including the irregular cases of C34; refutation by the name clash of C37.
* **C62** Exactly the valid queries are encoded: no error values for valid predicates (a leaf is reached on acyclic models), with C52 and C53 a CNF; induction over query syntax with the lengths of the values of open scopes.
* **C63** BinSolver rejects what is not a solver: refuted; what happens with other programs by case analysis from C45.
* **C64** Temporary files are removed: a step on a file system is the step of C45 with one file more, by case analysis; relations kept by every step are kept by ComputeOptim.
* **C65** Names are resolved by the state of the context: the contract of C39 with the recorded depths as a parameter that changes along the query; induction over query syntax, with the expanded query as meaning.
* **C66** Variables may be declared again in quantifiers: names of declarations determine the declaration and the iterations, so assignments to names are choices of witnesses; induction over query syntax.
* **C67** Exactly when ComputeOptim ends: C59 with the pigeonhole principle; a solver that follows a cycle forever; a solver that goes to a minimal instance at once.
* **C68** On a used context only positive answers can be wrong: the contract `Post` also holds where names have been declared before; the valuation that gives every triple its intended value satisfies the CNF.
* **C69** Generated names are what the comments say: the names of `Spec/Tidy.lean`, with Lean's order on lists of characters, against the comparison written in Go's order of evaluation.
* **C70** Values only reads: the triples to which `Values` gives numbers, exactly; false for variables that the context does not know.
* **C71** Errors say what is wrong and where: the text, as a function of the query and the open scopes (`Spec/Trouble.lean`), independent of the context otherwise; a user's component below an operator is any function on contexts that fails.
* **C72** The tests' comparison of clauses sees every difference: refuted; the identifier of a clause determines its length and the characters of its literals, which gives exactly what is accepted.
* **C73** The tests' model constructor rejects invalid models: refuted; exact condition by case analysis.
* **C74** What ComputeOptim returns on a used context: nothing is known about the solution of the first step, but the context is reset before the second, so the loop invariant of C46 holds from there on; a first value of the wrong length makes the order's encoding fail.
* **C75** What shared auxiliary variables say: the contract of C65 restricted to assignments under which no auxiliary variable has two meanings; conversely the consistency clauses of a predicate fix its auxiliary variables (`Lemmas/Settle.lean`), by a second induction over query syntax. The predicates as encoded (`Lemmas/Encoded.lean`) take the place of the predicates, so that no use of `leh` is excluded.
* **C76** Programs that make several calls on one context: calls as transformers of solver and context with a set of names they need and a set they may declare; soundness of one call from C66, C44, C46 and C48, then induction over the program. The order given to `ComputeOptim` is strict, its fuel is at least 3^d, which suffices for every solver (C48).
* **C77** Constants on decision diagrams: the search of allcomp.Const for a leaf of the other class, as a set of nodes that may be reached (no tree is needed); the walk of isnode.Const as in C28, along the paths; witnesses for what walks over all nodes miss.
* **C78** What queries read of the model: two encodings are compared step by step on models with the same contents; a relation on computations with closure lemmas for every construct of the model.
* **C79** What the table tests check: the solver run by case analysis, as in C45; pins are equalities, so the assignments that satisfy them agree on the pinned variables, then C80.
* **C80** Queries below scopes opened by hand: the contract of C39 is stated for any open scopes; here it is used with a stack that no quantifier made. The step to first-order semantics is that of C40, with the scopes' values as environment.
* **C81** Shift of the numbers: a relation between two runs (`Moved` for contexts, `CNFR` for CNFs) is shown to be kept by every component, by recursion over the monadic code; it needs no condition on the query. If `WithVar` finds its variable known in the used context only, the run without numbers numbers a triple of the used context, against the hypothesis (in dimension 0 it makes no difference).
* **C82** Names: three relations (`V` variables, `K` constants and quantifiers, `R` all names that get numbers) instead of a renaming function, since auxiliary names are built from names below quantifiers by arbitrary generators. The conditions are that `R` is one-to-one and that generators give related names; every component keeps the relation of contexts `CtxR`, and results are equal, not just related (errors contain no names of variables). `tag_naming` discharges the conditions for generators of the form of C54, which includes the library's. The answers are those of `binSolver` in any environment, not of an arbitrary `Solver`, which could look at names.
* **C83** Outputs of solvers: an output is split into lines, and every line is of the form in `AnyLine`, or `v`, or has a word that is not a numeral (`lines_cases`); reading depends on nothing else. For solvers that print part of a solution, the model of the CNF that `Values` is compared with makes everything false that is not printed. README.md says that any solver complying with the format works; the code is a little stricter than the format of the competitions, which allows any white space between literals (`C83_format` says exactly what is read, and the example after `C83_errors` that a space at the end of a line is an error).
* **C84** Predicates of the user's own: `Pred` is any component with what it says, its terms, its auxiliary variables and where it may be used; `Pred.Meets` (Spec/Own.lean) is the contract of C19 for it, in every world in which its auxiliary variables mean what they are meant to. `OQuery` is the type of queries over such predicates; the induction of C39 and C40 is done again for it (Lemmas/Own.lean), and C39 for the library's predicates is the case of `C84_library`. `C84_every` builds the clauses by excluding, for each variable, all values of the dimension. `C84_needed` is a component that is right at the top of a query and wrong below `Not`: the comment at cnf/cnf.go:4-16 explains that consistency clauses are never negated, but no comment says what a component has to guarantee.
* **C85** Trees that decide on a feature several times: `IsRawTree` is `IsTree` without the condition `ReadOnce`. Spec/Repeats.lean has the ways to the nodes, with all their decisions, and what isnode and allcomp say in terms of them; the clauses that propagate along edges say this without any condition on features (`prop_iff`), so the two predicates meet the contract of C84 with this meaning, and C84 gives the rest. `C85_dfs_wrong` and `C85_quantifier_wrong` are about the walks (see C18).
* **C86** Explanation notions: Spec/Notions.lean defines them with instances, classes and distances only; the formulas (Lemmas/Notions.lean) are shown to define them for full constants, and then C46, C47, C48 and C61 give the result. The reversed order by distance meets the corner cases of C34 in the other position and is treated as in C61. The formulas, except for that of examples/computation.go, are ours.
* **C87** Contexts of the user's own: Model/Iface.lean has the components again, over any implementation of `QContext` (a state and what the methods do with it); `C87_basic` says that with the basic context they are the functions of the rest of the model. The contract (Spec/Iface.lean) is in terms of a view of the state: the open scopes, where variables were declared, the numbers of triples, the largest number. The proof is a simulation (Lemmas/Iface*.lean): the numbers of the two contexts are related one to one at all times, and so are the CNFs; C39 then gives faithfulness. Names need only be related one to one (`NamesFit`), which holds for all generators if `ScopeVar` names as the basic context does (`C87_names_basic`) and for the generators of the tests if names are apart (`C87_tidy`). The comment on `TopV` expects a positive value, but the basic context starts with 0; the contract asks for 0 or more. `Reset` is not called by components and not part of the contract.
* **C88** Shared arrays: in Model/Shared.lean a slice of feature values is an address, scopes hold addresses, and the iterator writes to its array. The components are those of Model/Iface.lean over this context (`refI`), so the proof is a relation between two runs for every component (`Loads`: same result, same context when the arrays are read now, older arrays unchanged), as for `C87_basic`; for ForAllGuarded the contexts differ, between two `SetScope`, in the values of the innermost scope, which nobody reads then (`Near`).
* **C89** Computations over contexts of the user's own: Model/IfaceCompute.lean has the functions of Model/Compute.lean again, over any implementation of `QContext` (`C89_basic`: with the basic context they are the same). The answers of a solver may depend on the numbers, so runs with two contexts cannot be compared step by step; the results are characterised by what the queries say. `After` are the states of a context after some queries; each of them corresponds to a state of the basic context in which the same queries have been encoded (`After.ghost`, by the simulation of C87), so that the theorems on the basic context say what the next query's CNF means (`After.next`). `CorrectIn` is `Correct` for other contexts; only the numbers of variables that are read have to be positive. `OptimisesIn.self` (the variable has its own name outside of scopes) is needed, see `C89_own_name`.
* **C90** Goroutines at the same time: a call is a program whose steps are single file operations (Model/Concurrent.lean), and an execution any sequence of turns of the goroutines and of other processes (Spec/Concurrent.lean). A weakest precondition (`wp`) over the files that a goroutine has created says that a call gives the result of Model/Compute.lean, changes no other file and leaves none; an invariant of executions says that the goroutines' files are disjoint, are as their owners left them, and that the rest is as at the beginning.
* **C91** Integers of 64 bits: Model/Word.lean repeats `CNFVar`, `Negate` and the reading of outputs with additions that wrap around and numerals that may be out of range; all other components are those of Model/Iface.lean over this context (`wordI`). `Fits` relates two runs: the exact one does not lower the top variable, and if it ends below 2^63 then the other gives the same; it is kept by binding and by all components, so `C91_encode` is for all queries and contexts. With C57 a bound on sizes suffices. For `ComputeOptim`, which resets the context, the loop is followed step by step: every query is within the bound, and the numbers in a solution are those of the CNF.
* **C92** Laws of logic: `Law` (Spec/Laws.lean) is the least congruence on queries with the laws. Both sides have the same truth value under every assignment, the same names, the same uses of auxiliary variables (as sets), and fit under the same declarations (a declaration that no predicate mentions does not matter, `Laws.fits_congr`); so C39, C42 and C46 apply to both. That Or is encoded with Tseytin variables and And is not makes the formulas themselves quite different.
* **C93** Symmetries: `Symmetry d` (Spec/Symmetry.lean) acts on instances, total instances, value lists, trees, node slices and queries. Each predicate of Spec/Preds.lean is invariant (counts because a permutation of `range d` permutes the counted features, `AllComp` and `DFS` because the action on total and partial instances is onto), the instances of nodes are mapped onto each other, so first-order truth is invariant by induction on the query; C40, C42, C46 and C47 then give the statements about the code.
* **C94** Uniqueness of models (Spec/Sole.lean, Lemmas/Sole.lean). `Sole.On` says that valuations agree on the variables of clauses. For `Negate` the two implications of every Tseytin variable determine it (`Force.negate`, `negate_det`). For predicates, all triples that occur in their clauses are instance triples or triples of their auxiliary variables within the range of the role (`Cov`, `atom_occ`: clause generator by clause generator); C75's lemmas give their values (`Fix`, now for all roles that are `Role.clear` under the assignment, which includes the equality variables of `leh` for full instances). `query_finds` carries this through the operators and the iterations of `ForAllGuarded`. That instance triples occur in the CNF is shown by flipping one: the result would still satisfy the consistency clauses, but not read as an instance (`reads_occur`). `C94_count` compares numbers without assuming finiteness: `AtLeast k` on both sides, for all `k`. `C94_not`: in `leh.VarVarConst` under `Not`, `fullVarEqualClauses` leaves the equality variable of a feature open if it is undefined in both instances, and the distance counter with it.
* **C95** Unit propagation (Spec/Propagate.lean: an inductive definition of the literals it finds, independent of any order of propagation). `Force.LS L cls` says that a set of literals is closed under unit propagation with clauses; `Force.Dec` that it has a literal of every variable. Lemmas/Force.lean shows, for each group of clauses (counters, equality and distance, marks of nodes, ranks, Tseytin variables), that a closed set with the features of the instances has the right literals of the auxiliary variables; the lemmas of C75 and C94 (`Fix`, `Occ`) are stated for closed sets and have the statements about valuations as instances (what is true in a valuation that satisfies the clauses is closed). `C95_decides`: without conflict, what is found is itself a model; with a model, nothing false is found. `C95_chosen` (Lemmas/Once.lean): by induction on the query, every name it declares comes with the clauses that forbid two values of a feature; they survive negation, as `Negate` keeps the consistency clauses.
* **C96** Errors and answers: Model/Wrapped.lean has the operators, `Step`, `Sat` and `ComputeOptim` again, with errors that keep what they wrap and components of the user's with arbitrary errors. `Quiet` (no error wraps `UnsatError`) is kept by all operators; for quiet queries the model is that of Model/Compute.lean with the errors' texts (`C96_same`), so the other properties carry over; for others the claim is refuted for every query that fails so.
* **C97** Models that are not trees: the consistency clauses of isnode.Var and allcomp.Var say, edge by edge, that the marked nodes are a `Marking` (Spec/Marking.lean), whatever the nodes are (`isnodeCon_any`, `allcompCon_any`). Their semantic clauses read the marks; `Drawn` carries this through And, Or and Not with all generated names as further names; those of marks may be shared in any way. The auxiliary variables of lel, hepr and leh have, where the clauses hold, the values that they are meant to have on every model (`lel_aside`, `hepr_aside`, `leh_aside`), so these predicates say what they say on trees. The markings for one instance are closed under union and intersection, so the smallest one (`Linked`) and the largest one (`Free`) decide the single predicates. On a diagram in which all nodes can be reached a marking, if there is one, marks exactly the nodes to which the instance leads (`Marking.hits_iff`).
* **C98** Computations on models that are not trees: by C97 every query of the fragment is a statement that its CNF says (`C98_decides`), which is all that C46–C48 ask of formula and order (`marks_poses`). What is said of an instance does not depend on features outside of the model (`marks_said_congr`). For the sufficient reasons of examples/computation.go, that nodes can be marked is `Free` at the root, and on a diagram what is told is the formula (`reason_says`); the order is as on trees, so the number of undefined features bounds the calls. The same number is the order itself in `C98_level`, where the formula is any of the fragment.
* **C99** Walks over decision diagrams: `firstOf` keeps the entries of the pre-order list of paths that no entry for the same node comes before. The invariant of the walk (`DiagPre`, `DiagPost`, `Left`) says that a node which has been visited and is not above the current one has been left with everything below it, so what is skipped there had been reported; since a diagram has no cycles and paths decide on features once, the array of values is the instance of the current path (`diag_steps`, `diagram_values`). `query_on` repeats the induction of C39 with these paths as the range of quantifiers, without use of the tree. A leaf that is left out has a first path with the same leaf, so a sufficient set passes all comparisons (`dfs_apart`). Computations (Props/DiagramOptim.lean) follow as in C98 from what the queries say; `C99_dfs_wrong` is on the diagram of C77.
* **C100** Walks over any model: `query_in` is the induction of C99 once more, with any list of reported instances as the range of quantifiers; that values are proper is kept by every turn of the walk (`reported_good`). Trees that decide on a feature several times: `DTree.kept` (Spec/Reported.lean) is the pre-order list where coming back to a node makes its feature unknown. The invariant of the walk is that of C18 without the condition that features of a subtree are unknown when it is entered (`raw_steps`). What is left after a subtree was there before (`kept_sub`), so what a leaf is reported with agrees with every instance that goes to the leaf (`kept_leaf`): two leafs that differ in a feature cannot be reached by instances which agree on it. This is why dfs never accepts too much here, while on diagrams it never rejects too much (C99).
* **C101** The induction of C84 with any list of reported instances as the range of quantifiers (`own_over`), so the predicates can be of any kind. The library's predicates on trees that decide on a feature several times are then given as such predicates (`keptPred`): C85 has the contract for all but dfs, C100 the one for dfs. `Query.keptSem` (Spec/OwnReported.lean) says what a query means there, without reference to them. allcomp.Const is such a predicate on every model (`followPred`, from C77). Not covered: isnode.Var and allcomp.Var below or beside quantifiers on models that are not such trees (C97 has them without quantifiers). isnode.Const on any model is in C102.
* **C102** isnode.Const on any model: `Leads` (Spec/Descend.lean) follows the edges for the values of the constant. Each turn of the loop either stops or follows the only such edge (`isnodeLoop_turn`); that the fuel of the model suffices where the way ends is the pigeonhole argument of C28 (`isnodeLoop_forever`).


## Tests against wrong programs

`seeded/LOG.jsonl` has one line per experiment: an edit of a model definition, made in a copy outside of this
directory, and what happens to the theorems. How to read a line:

* `theorems_failed`: theorems of the manifest whose own proof is rejected after the edit.
* `lemmas_failed`, `theorems_resting_on_failed_lemmas`: a lemma is rejected, and these theorems use it. This alone
  does not show that the theorem excludes the edited program: the lemma's proof may only be brittle. Control `k05`,
  an edit that breaks no claim, also has such failures.
* `refuting_input`: an input, found by running the edited model, that meets the hypotheses of the claim's theorem
  and on which its conclusion is false. So the theorem is false of the edited program. The search compares the
  encodings with a specification written separately, over all instances of dimensions 1 to 3 on four small trees;
  on the unedited model it finds nothing. It is a test of the theorems, not part of any proof.
* `verdict` is "undecided" if there is neither a failed theorem of the claim nor a refuting input.

Experiments in which the build was stopped for lack of memory have no result and are not logged until repeated.

## The repository's tests, run on the model

`Verif/Tests` transcribes the tests of the repository; `#guard` runs them during the build. They prove nothing and
no theorem depends on them. They check the reading of the code: the authors expect these answers of the Go code, and
the model gives them.

* `Tests/Tables.lean`: the 278 rows of the tables of query/predicates and query/extensions, each with every choice
  between literal constants, constants of a scope and variables, with a small SAT solver in place of kissat.
* `Tests/Units.lean`: cnf/cnf_test.go, query/logop/*_test.go, compute/*_test.go. Clauses are compared as lists.

All pass. Reading the tests showed some that check less than they seem to:

* `variable_clauses` (query/logop/forallguarded_test.go:12-24) builds `-1 + 3*i` where `-(1 + 3*i)` is meant, so the
  clauses it expects are wrong for i ≥ 1. The tests that use it can pass nevertheless, since `clauseId` (query/internal/test/clauses.go:
  36-45) writes a literal with `WriteRune`, which maps every negative number to the same character, and
  `equalClauseSlice` only checks that the keys of the first list are among those of the second, not the converse.
  `Tests/Units.lean` uses the clauses that are meant.
* `NewMockTree` (query/internal/test/mocktree.go:14-24) computes `invC` from `Feat` instead of the children, so
  invalid children are accepted.
* the row "(1,0,0):(_,_,_)" of `SubsumptionPTT` has the second value (1,0,1), the same as the row before it.

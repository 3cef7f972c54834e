{"id": "C01", "title": "Negate is exact", "statement": "For a CNF c and n := c.Negate(topv), every valuation that satisfies the consistency clauses of n satisfies the consistency clauses of c, and satisfies the semantic clauses of n exactly when it falsifies some semantic clause of c.", "quantifier": "every CNF built through the API, every optional topv, every valuation of the CNF variables", "why_tests_cant": "Ranges over all clause lists (empty CNF, empty clause, unit, long clauses in any mixture) and over all valuations; tests compare a few clause lists syntactically.", "anchors": ["cnf/cnf.go:CNF.Negate", "cnf/cnf.go:CNF.tseytinNegation", "cnf/cnf.go:CNF.addNegationIFFClauses"]}
{"id": "C02", "title": "Negate is a conservative extension", "statement": "Every valuation satisfying the consistency clauses of c can be changed on variables above max(c.TopV(), topv) only, so as to satisfy the consistency clauses of c.Negate(topv); hence c.Negate is satisfiable iff some valuation satisfies c's consistency clauses and falsifies its semantic clauses.", "quantifier": "every CNF, every topv, every valuation", "why_tests_cant": "Equisatisfiability is a claim about all valuations of unboundedly many variables.", "anchors": ["cnf/cnf.go:CNF.Negate", "cnf/cnf.go:CNF.tseytinNegation"]}
{"id": "C03", "title": "TopV bounds every variable and new variables are fresh", "statement": "In every CNF obtained from FromClauses, AppendSemantics, AppendConsistency, Conjunction and Negate, in any order, every variable occurring in a clause is at most TopV(); the variables Negate introduces are larger than both the old TopV() and the passed topv; Negate and the Append methods never lower TopV().", "quantifier": "every finite sequence of CNF operations", "why_tests_cant": "A history property: the bound must survive any composition of operations.", "anchors": ["cnf/cnf.go:CNF.TopV", "cnf/cnf.go:maxVar", "cnf/cnf.go:CNF.Negate", "cnf/cnf.go:CNF.Conjunction"]}
{"id": "C04", "title": "Conjunction means AND and keeps the two clause kinds apart", "statement": "A valuation satisfies the semantic (resp. consistency) clauses of c.Conjunction(d) iff it satisfies those of c and those of d.", "quantifier": "every pair of CNFs and every valuation", "why_tests_cant": "Ranges over all CNFs and valuations.", "anchors": ["cnf/cnf.go:CNF.Conjunction", "cnf/cnf.go:CNF.AppendSemantics", "cnf/cnf.go:CNF.AppendConsistency"]}
{"id": "C05", "title": "TriviallyTrue and TriviallyFalse are sound", "statement": "If TriviallyTrue() returns true, every valuation satisfies the formula; if TriviallyFalse() returns true, none does; a TrueCNF/FalseCNF value is recognised as such and negating one yields the other's truth value.", "quantifier": "every CNF and valuation", "why_tests_cant": "Universal over valuations.", "anchors": ["cnf/cnf.go:CNF.TriviallyTrue", "cnf/cnf.go:CNF.TriviallyFalse", "cnf/cnf.go:TrueCNF", "cnf/cnf.go:FalseCNF"]}
{"id": "C06", "title": "DIMACS output round-trips", "statement": "Reading the bytes of ToBytes with a standard DIMACS reader gives back exactly the clause list (semantic clauses first, then consistency clauses), the header's clause count equals the number of clauses and its variable count bounds every variable, provided no literal is 0.", "quantifier": "every CNF whose literals are non-zero", "why_tests_cant": "An encode/decode round trip over unboundedly many inputs.", "anchors": ["cnf/cnf.go:CNF.ToBytes", "cnf/cnf.go:clauseToDIMACS"]}
{"id": "C07", "title": "ToFile writes the DIMACS text or reports an error, at every failure point", "statement": "If creating the file and every write succeed, ToFile returns nil and the file holds exactly the bytes of ToBytes; if creating or the k-th write fails, ToFile returns that error and the file holds a proper prefix of those bytes: the lines written before, and what the failing call wrote of the next one.", "quantifier": "every CNF and every point at which file creation or a write can fail", "why_tests_cant": "Failure points cannot be enumerated by tests.", "anchors": ["cnf/cnf.go:CNF.ToFile", "cnf/cnf.go:CNF.ToBytes"]}
{"id": "C08", "title": "CNF operations do not disturb their operands", "statement": "The CNF methods return a new value and leave every CNF value obtained earlier unchanged (its Clauses() and its meaning), so that two results can be derived from the same CNF.", "quantifier": "every history of CNF operations, including ones that use one CNF value twice", "why_tests_cant": "The failure (shared spare capacity of append) depends on allocation history and capacity growth.", "anchors": ["cnf/cnf.go:CNF.AppendSemantics", "cnf/cnf.go:CNF.AppendConsistency", "cnf/cnf.go:CNF.Negate", "cnf/cnf.go:CNF.tseytinNegation"]}
{"id": "C09", "title": "CNFVar is an injective, stable, positive numbering", "statement": "In every history of VarManager calls, CNFVar returns the same integer for the same triple as long as Reset is not called, different integers for different triples, and only integers between 1 and TopV(); CNFVarExists is true exactly for triples already numbered.", "quantifier": "every sequence of VarManager operations on a basic context", "why_tests_cant": "A history invariant.", "anchors": ["query/varmanager.go:baseVarManager"]}
{"id": "C10", "title": "UpdateTopV reserves variables and never lowers TopV", "statement": "UpdateTopV(v) returns true iff v >= TopV(); TopV never decreases without a Reset; after a successful UpdateTopV(v) every triple numbered later gets an integer > v, so auxiliary variables reserved by a negation never collide with query variables.", "quantifier": "every sequence of VarManager operations", "why_tests_cant": "A history invariant.", "anchors": ["query/varmanager.go:baseVarManager.UpdateTopV", "query/varmanager.go:baseVarManager.CNFVar"]}
{"id": "C11", "title": "ScopeVar keeps distinct variables apart under all stacks", "statement": "For any two different variables u, v without the unit separator character and any two scoper states reachable without Reset, ScopeVar(u) in the first differs from ScopeVar(v) in the second (the contract stated in the Scoper interface).", "quantifier": "every pair of variables, every pair of scope stacks (targets and value indexes arbitrary)", "why_tests_cant": "Ranges over all stacks and names.", "anchors": ["query/scoper.go:baseScoper.ScopeVar", "query/scoper.go:Scoper"]}
{"id": "C12", "title": "ScopeVar separates iterations and shares outer variables", "statement": "A variable declared at depth k gets different scoped names in two iterations of its k enclosing guarded quantifiers that differ in some value index, and the same scoped name in all iterations of quantifiers below its declaration.", "quantifier": "every stack of scopes, every declaration depth, every pair of iterations", "why_tests_cant": "Ranges over unbounded nesting and indexes.", "anchors": ["query/scoper.go:baseScoper.ScopeVar", "query/scoper.go:baseScoper.AddVar"]}
{"id": "C13", "title": "Scope push/pop is balanced and never panics", "statement": "For every balanced sequence of AddScope, SetScope, AddVar, ScopeVar, ScopeConst and PopScope on a scoper, the scope stack and the variable table are afterwards what they were before the sequence (up to variables declared at the outer level); in every state reachable without Reset ScopeVar does not index out of range; PopScope and SetScope return an error exactly when the stack is empty.", "quantifier": "every sequence of Scoper operations without Reset", "why_tests_cant": "A history invariant.", "anchors": ["query/scoper.go:baseScoper"]}
{"id": "C14", "title": "Reset returns a context to its original state", "statement": "After Reset a context behaves like a newly built BasicQContext on the same model.", "quantifier": "every history of context operations before the Reset and every history after it", "why_tests_cant": "A history property.", "anchors": ["query/context.go:baseQContext.Reset", "query/scoper.go:baseScoper.Reset", "query/varmanager.go:baseVarManager.Reset"]}
{"id": "C15", "title": "ScopeConst resolves a constant to the enclosing quantifier's current value", "statement": "ScopeConst(c) returns (ID, current value) of a scope whose target is c's ID and ok = true if there is one, and c itself with ok = false if there is none; with distinct target names the answer is the value last set for that target.", "quantifier": "every scoper state and constant", "why_tests_cant": "Ranges over all stacks.", "anchors": ["query/scoper.go:baseScoper.ScopeConst", "query/scoper.go:baseScoper.SetScope"]}
{"id": "C16", "title": "Constant helpers agree with their definition", "statement": "IsFull holds iff BotCount is 0; BotCount counts the bottom features; EqualValue is equality of the value lists; AsString is injective on valid values; AllBotConst(d) is the all-bottom constant of dimension d; ValidateConstsDim errs iff some constant has another length and names the first such.", "quantifier": "every constant and dimension", "why_tests_cant": "Unbounded lists.", "anchors": ["query/instances.go"]}
{"id": "C17", "title": "Guarded iteration terminates and visits each reachable node once", "statement": "For every node slice that passes validation, including ones with shared or cyclic children, iterating over the model in a guarded quantifier terminates, never indexes out of range, and visits every node reachable from node 0 exactly once and no other node.", "quantifier": "every finite node slice that passes validation, every dimension", "why_tests_cant": "Termination over arbitrary graphs.", "anchors": ["query/logop/forallguarded.go:nodeAsValuesIter.Next", "query/logop/forallguarded.go:newNodeAsValuesIter"]}
{"id": "C18", "title": "Guarded iteration yields exactly the instances of the tree's nodes", "statement": "If the node slice lays out a decision tree in which no path decides twice on a feature, the values given to the guarded constant are, in pre-order, the partial instances e_u of all nodes u.", "quantifier": "every decision tree of any size and shape, every layout of it in the node slice", "why_tests_cant": "Unbounded trees.", "anchors": ["query/logop/forallguarded.go:nodeAsValuesIter.Next", "query/logop/forallguarded.go:ForAllGuarded.Encoding"]}
{"id": "C19", "title": "And, Or and Not mean what they say for arbitrary components", "statement": "If the encodings of the children capture propositions P1 and P2 (their consistency clauses always can be satisfied and under them the semantic clauses hold iff P does), then the encodings of And, Or and Not capture P1 and P2, P1 or P2, and not P.", "quantifier": "every pair of components satisfying the contract (built in or user written), every context state", "why_tests_cant": "Higher-order over components and states.", "anchors": ["query/logop/and.go", "query/logop/or.go", "query/logop/not.go"]}
{"id": "C20", "title": "WithVar makes its variable denote exactly one partial instance", "statement": "Every valuation satisfying the consistency clauses of a WithVar encoding gives every feature of its variable exactly one of the values ZERO, ONE, BOT; and every partial instance is represented by some valuation of these clauses.", "quantifier": "every context, variable and dimension", "why_tests_cant": "All valuations, all dimensions.", "anchors": ["query/logop/with_var.go:WithVar.encodeI"]}
{"id": "C21", "title": "Redeclaring a variable is harmless", "statement": "Encoding WithVar for an already declared variable adds no clauses and allocates no variables; WithVar x (WithVar x q) means the same as WithVar x q.", "quantifier": "every context and query", "why_tests_cant": "All contexts.", "anchors": ["query/logop/with_var.go:WithVar.encodeI"]}
{"id": "C22", "title": "ForAllGuarded is the conjunction over the tree's nodes", "statement": "If the child's encoding captures P(e) whenever the guarded constant has value e, the encoding of ForAllGuarded captures: for every node u of the model, P(e_u), with one copy of the variables declared below per node.", "quantifier": "every child component satisfying the contract, every decision tree", "why_tests_cant": "Unbounded trees and components.", "anchors": ["query/logop/forallguarded.go:ForAllGuarded.Encoding"]}
{"id": "C23", "title": "Encoding leaves the scope stack as it found it", "statement": "Whatever the outcome of Encoding (a CNF or an error), the scope stack of the context is afterwards the one before the call.", "quantifier": "every query, context and outcome", "why_tests_cant": "All error points.", "anchors": ["query/logop/forallguarded.go:ForAllGuarded.buildEncoding"]}
{"id": "C24", "title": "Nil inputs are errors, not panics", "statement": "Encoding with a nil context, with a nil child or with a nil variable generator returns an error for every query type; it does not panic and adds no clauses.", "quantifier": "every query type and child", "why_tests_cant": "Ranges over all query values.", "anchors": ["query/logop", "query/predicates", "query/extensions"]}
{"id": "C25", "title": "Subsumption is encoded exactly", "statement": "Each of the four subsumption components is true exactly when for every feature i, e1[i] != bottom implies e1[i] = e2[i], where e1 and e2 are the values denoted by its arguments.", "quantifier": "all positive dimensions, all pairs of partial instances, variables and constants (also guarded)", "why_tests_cant": "3^d pairs for every d.", "anchors": ["query/predicates/subsumption"]}
{"id": "C26", "title": "Less-or-equal-level is encoded exactly", "statement": "Each of the four lel components is true exactly when e1 has at least as many bottom features as e2.", "quantifier": "all positive dimensions and pairs of instances", "why_tests_cant": "The counting circuit must be right for every d.", "anchors": ["query/predicates/lel"]}
{"id": "C27", "title": "IsNode is encoded exactly", "statement": "isnode.Const and isnode.Var are true exactly when the instance equals the partial instance e_u of some node u of the decision tree.", "quantifier": "all decision trees, all layouts, all instances", "why_tests_cant": "Unbounded trees.", "anchors": ["query/predicates/isnode"]}
{"id": "C28", "title": "isnode.Const terminates on acyclic models", "statement": "isnode.Const returns on every model whose child pointers are acyclic.", "quantifier": "every node slice", "why_tests_cant": "Termination.", "anchors": ["query/predicates/isnode/const.go"]}
{"id": "C29", "title": "Full is encoded exactly", "statement": "full.Const and full.Var are true exactly when no feature is bottom.", "quantifier": "all positive dimensions and instances", "why_tests_cant": "Unbounded dimension.", "anchors": ["query/extensions/full"]}
{"id": "C30", "title": "Consistent is encoded exactly", "statement": "Each of the four cons components is true exactly when e1 and e2 agree on every feature on which both are not bottom.", "quantifier": "all positive dimensions and pairs of instances", "why_tests_cant": "Unbounded dimension.", "anchors": ["query/extensions/cons"]}
{"id": "C31", "title": "AllComp is encoded exactly", "statement": "allcomp.Const and allcomp.Var with leaf value b are true exactly when every completion of the instance is classified as b by the decision tree.", "quantifier": "all decision trees without repeated features on a path, all layouts, all instances, both leaf values", "why_tests_cant": "2^d completions, unbounded trees.", "anchors": ["query/extensions/allcomp"]}
{"id": "C32", "title": "DFS is encoded exactly", "statement": "dfs.Const and dfs.Var are true exactly when, for every instance e' with the same bottom features, all completions of e' receive the same classification.", "quantifier": "all decision trees without repeated features on a path, all instances", "why_tests_cant": "Quantifies over all instances and completions.", "anchors": ["query/extensions/dfs"]}
{"id": "C33", "title": "HEPR is encoded exactly", "statement": "Each of the four hepr components is true exactly when, at the first feature of the preference sequence on which exactly one of e1 and e2 is bottom, it is e2 that is bottom (or there is no such feature).", "quantifier": "all preference sequences without duplicates (including the empty one), all instances", "why_tests_cant": "Unbounded sequences.", "anchors": ["query/extensions/hepr"]}
{"id": "C34", "title": "LEH is encoded exactly", "statement": "Each of the eight leh components is true exactly when its three instances are full and the Hamming distance between the first and the second is at most that between the first and the third.", "quantifier": "all positive dimensions and triples of instances", "why_tests_cant": "Unbounded dimension.", "anchors": ["query/extensions/leh"]}
{"id": "C35", "title": "Wrong dimensions are reported without side effects", "statement": "A component given a constant whose resolved value has a length other than the model's dimension returns an error and leaves the variable manager unchanged.", "quantifier": "every component with a constant, every constant and context", "why_tests_cant": "All constants.", "anchors": ["query/instances.go:ValidateConstsDim"]}
{"id": "C36", "title": "Components may share a reachability generator", "statement": "Components that encode reachability for the same variable can be given the same ReachNodeVarGen: a query that combines them has a satisfiable encoding whenever an instance satisfies the query.", "quantifier": "every pair of components taking ReachNodeVarGen and every tree", "why_tests_cant": "Needs the semantics of all combined encodings.", "anchors": ["query/predicates/isnode/var.go", "query/extensions/allcomp/var.go", "README.md"]}
{"id": "C37", "title": "Distance variables stand for the distance they are named after", "statement": "leh components that use an injective HammingDistanceVarGen can be combined in one query: the conjunction is satisfiable whenever an instance satisfies all of them.", "quantifier": "every pair of leh components", "why_tests_cant": "Interaction of components.", "anchors": ["query/extensions/leh/const_var_const.go"]}
{"id": "C38", "title": "Preference names identify preferences", "statement": "hepr components with different preference sequences in one query do not interfere, given an injective FeaturePreferenceRankVarGen.", "quantifier": "every pair of preference sequences", "why_tests_cant": "Interaction of components.", "anchors": ["query/extensions/hepr/util.go:prefVar"]}
{"id": "C39", "title": "Encoding is sound and complete for every query", "statement": "For every closed query with non-conflicting names over a decision tree, encoding succeeds from a fresh context and the CNF is satisfiable iff some assignment of partial instances to its declared variables (one per iteration of the enclosing guarded quantifiers) makes the query true; every satisfying valuation encodes such an assignment.", "quantifier": "all queries of any depth, all trees, all valuations", "why_tests_cant": "Unbounded queries and trees.", "anchors": ["query/logop", "query/predicates", "query/extensions"]}
{"id": "C40", "title": "Encoding agrees with first-order semantics", "statement": "If in addition no WithVar occurs below a Not and no variable is declared twice, the CNF is satisfiable iff the query is true in first-order semantics, with WithVar read as 'there is a partial instance' and ForAllGuarded as 'for every node of the tree'.", "quantifier": "all such queries, all trees", "why_tests_cant": "Unbounded queries.", "anchors": ["query/logop"]}
{"id": "C41", "title": "Encodings are well-formed DIMACS", "statement": "For every query and context for which Encoding returns a CNF, every literal is a non-zero integer whose absolute value is at most the CNF's TopV() and at most the context's TopV().", "quantifier": "all queries, all contexts reachable by public calls", "why_tests_cant": "All queries.", "anchors": ["query/logop", "cnf/cnf.go"]}
{"id": "C42", "title": "Evaluation of an atom is correct", "statement": "With a correct SAT solver and a context not yet holding the query's variables, QDTFAtom{Query,Negated}.Sat returns true iff the query's truth value differs from Negated, and no error.", "quantifier": "all queries, trees and correct solvers", "why_tests_cant": "All queries, all solvers.", "anchors": ["compute/boolcomb.go:QDTFAtom.Sat", "compute/solver.go"]}
{"id": "C43", "title": "Combinators compute AND and OR with short-circuit and error propagation", "statement": "AndCombinator/OrCombinator return the conjunction/disjunction of their elements, stop at the first deciding element, return the first error met before that, and are true/false on the empty list.", "quantifier": "all lists of elements (nested), all solver outcomes", "why_tests_cant": "All lists.", "anchors": ["compute/boolcomb.go"]}
{"id": "C44", "title": "Values returns the instance the solver found", "statement": "After a satisfiable Step, Values on a declared variable returns a constant of the model's dimension whose features are those of the solver's valuation.", "quantifier": "all queries, all solver outputs in DIMACS format", "why_tests_cant": "All outputs.", "anchors": ["compute/solver.go:varValueFromBytes"]}
{"id": "C45", "title": "Solver outcomes are mapped faithfully", "statement": "Step returns nil exactly when the encoding succeeded, the file was written and the solver exited with 10, and then Values reads that run's output; it returns UnsatError exactly for exit code 20; every other outcome is another error and leaves the recorded output unchanged.", "quantifier": "all outcomes of encoding, file system and solver process", "why_tests_cant": "All failure points.", "anchors": ["compute/solver.go:binSolver.Step", "compute/solver.go:runSolver"]}
{"id": "C46", "title": "ComputeOptim returns an optimum", "statement": "If ComputeOptim returns Found = true with value e, then e satisfies the formula and no instance satisfying the formula is strictly below e in the given order.", "quantifier": "all formulas, orders, trees and correct solvers", "why_tests_cant": "All instances.", "anchors": ["compute/optimum.go:ComputeOptim"]}
{"id": "C47", "title": "ComputeOptim reports absence faithfully", "statement": "ComputeOptim returns Found = false without error iff no instance satisfies the formula.", "quantifier": "all formulas, trees and correct solvers", "why_tests_cant": "All instances.", "anchors": ["compute/optimum.go:ComputeOptim"]}
{"id": "C48", "title": "ComputeOptim terminates for strict orders", "statement": "If the order is a strict partial order, ComputeOptim terminates; if every step down the order lowers a rank bounded by B, it makes at most B + 2 solver calls. In particular at most dim + 2 for strict subsumption and for strict LEL.", "quantifier": "all strict orders, all solver choices", "why_tests_cant": "Termination under every solver behaviour.", "anchors": ["compute/optimum.go:ComputeOptim"]}
{"id": "C49", "title": "ComputeOptim does not terminate for reflexive orders", "statement": "If the order holds between equal instances and the formula is satisfiable, ComputeOptim never returns (as its documentation says).", "quantifier": "all such formulas and orders, all correct solvers", "why_tests_cant": "Non-termination.", "anchors": ["compute/optimum.go:VCOrder"]}
{"id": "C50", "title": "Calls counts the solver calls", "statement": "The Calls field of the result equals the number of Step calls made.", "quantifier": "all executions that end without error", "why_tests_cant": "All executions.", "anchors": ["compute/optimum.go:ComputeOptim"]}
{"id": "C51", "title": "A context can be reused for a further evaluation", "statement": "Evaluating the same query, or another one, a second time on the same context gives the correct answer.", "quantifier": "every sequence of evaluations on one context", "why_tests_cant": "History property.", "anchors": ["compute/boolcomb.go", "query/logop/with_var.go:WithVar.encodeI", "compute/optimum.go"]}
{"id": "C52", "title": "Encoding does not panic", "statement": "Encoding a query never panics in a context built by public calls other than Reset from a model of positive dimension whose nodes pass validation, provided no preference order is empty; each of these conditions is necessary.", "quantifier": "all queries (with any error in them), all contexts reachable without Reset", "why_tests_cant": "Absence of panics on all inputs.", "anchors": ["query/logop", "query/predicates", "query/extensions", "query/scoper.go:ScopeVar"]}
{"id": "C53", "title": "Encoding terminates", "statement": "Encoding a query, with any error in it, in any context ends if the child pointers of the model are acyclic; without isnode.Const in the query it ends on every node slice. The condition is needed for isnode.Const.", "quantifier": "all queries, all contexts, all node slices", "why_tests_cant": "Termination on all inputs.", "anchors": ["query/logop/forallguarded.go", "query/predicates/isnode/const.go", "query/extensions/allcomp/const.go", "query/extensions/dfs"]}
{"id": "C54", "title": "Test generators never cause clashes", "statement": "If all components of a query take the generators of query/internal/test/auxvar.go (or others of the same form), variable names contain no separator and do not begin with a character used in the keys of constants, leh.ConstVarConst does not occur, isnode and allcomp do not share a reachability generator, and preference sequences have different names, then no auxiliary variables clash: over every decision tree the query is encoded without error and exactly, under any nesting of guarded quantifiers. The condition on variable names is needed.", "quantifier": "all queries meeting the syntactic conditions, all trees, all depths of nesting", "why_tests_cant": "Absence of name clashes for all queries.", "anchors": ["query/internal/test/auxvar.go", "query/scoper.go:ScopeVar"]}
{"id": "C55", "title": "The computation example finds a minimal sufficient reason", "statement": "The program of examples/computation.go, run on any decision tree and any full constant, finds an instance that is subsumed by the constant, all of whose completions have the constant's class, and such that no other such instance is subsumed by it; it makes at most dim + 2 solver calls. On its own tree and constant it prints (0, _, _).", "quantifier": "all decision trees, layouts, full constants, variables and solver choices", "why_tests_cant": "All trees and all solutions a solver may choose.", "anchors": ["examples/computation.go", "compute/optimum.go:ComputeOptim", "query/extensions/allcomp"]}
{"id": "C56", "title": "The evaluation example decides least determinant feature sets", "statement": "The program of examples/evaluation.go, run on any decision tree and constant c, returns true iff c is a determinant feature set and no instance with fewer defined features is one; on its own tree and constant it prints true. The query of README.md evaluates to true iff some instance that is not full has only negative completions.", "quantifier": "all decision trees, layouts, constants and solver choices", "why_tests_cant": "All trees and instances.", "anchors": ["examples/evaluation.go", "README.md", "compute/boolcomb.go:QDTFAtom.Sat", "query/extensions/dfs"]}
{"id": "C57", "title": "Encodings have polynomial size", "statement": "The size of an encoding (the numbers in its DIMACS lines and the variables it adds to the context) is at most 1500 |q| n^(r+3), where |q| is the number of operators and predicates of the query, n is the dimension plus the number of nodes plus one, and r is the nesting depth of guarded quantifiers: in particular Or and Not do not blow up the formula. So the 64 bit numbers of the program do not overflow if the bound is below 2^63. The exponent is needed: r nested quantifiers can give n^r clauses.", "quantifier": "all queries, models (trees or not), generators and reachable contexts", "why_tests_cant": "A bound for all queries and models.", "anchors": ["cnf/cnf.go:Negate", "query/logop", "query/predicates", "query/extensions"]}
{"id": "C58", "title": "Encodings are not disturbed by shared memory", "statement": "Although results of package cnf can share arrays (C08), encoding never lets this happen: for any sequence of encodings, of any queries in any contexts, whatever append allocates and whatever spare capacity the slices have, all resulting CNFs are at the end what they would be if slices were immutable. This needs components that do not return the same CNF twice: a user's component that does makes And lose clauses.", "quantifier": "all lists of queries and contexts, all allocation policies and capacities", "why_tests_cant": "Allocation policies and capacities are not under the control of a test.", "anchors": ["cnf/cnf.go", "query/logop", "query/predicates", "query/extensions"]}
{"id": "C59", "title": "The worst case of ComputeOptim is the longest improving sequence", "statement": "If the longest sequence of instances that satisfy the formula, each strictly better than the one before, has length L, then ComputeOptim makes at most L + 1 solver calls whatever solutions the solver chooses, and for some solver that never errs it makes exactly L + 1. For strict subsumption on the formula that all instances satisfy this is dim + 2.", "quantifier": "all formulas, orders, models and correct solvers", "why_tests_cant": "Quantifies over all solutions a solver may choose; the worst case is not what a given solver does.", "anchors": ["compute/optimum.go:ComputeOptim"]}
{"id": "C60", "title": "ComputeOptim needs polynomially many steps without ForAllGuarded", "statement": "If the formula and the order contain no ForAllGuarded operator and the order is strict, the number of solver calls is bounded by a polynomial in the dimension (the comment of VCOrder suggests this, README.md promises it).", "quantifier": "all such formulas and orders, all correct solvers", "why_tests_cant": "A bound for all dimensions and solver choices.", "anchors": ["compute/optimum.go:VCOrder", "README.md", "query/extensions/hepr"]}
{"id": "C61", "title": "ComputeOptim finds a closest instance", "statement": "With the strict order built from leh (v closer to c than k is), the value ComputeOptim returns for a formula that only full instances satisfy is at minimal Hamming distance from c, also if the formula contains leh components with the same injective generator.", "quantifier": "all formulas, trees, constants and correct solvers", "why_tests_cant": "All instances and all solver choices; interaction of components.", "anchors": ["compute/optimum.go:ComputeOptim", "query/extensions/leh"]}
{"id": "C62", "title": "Exactly the valid queries are encoded", "statement": "Encoding returns a CNF exactly if nothing in the query is nil, every constant has the dimension of the model where it is used (the constant of an enclosing guarded quantifier always has it), and every preference sequence consists of different features of the model and is not empty if there is a variable. Every other query (except the nil interface value and empty preferences, which panic) gives an error value. It does not matter what was encoded before.", "quantifier": "all queries, all acyclic models of positive dimension that pass validation, all contexts reachable without Reset", "why_tests_cant": "All queries and contexts, both directions.", "anchors": ["query/logop", "query/predicates", "query/extensions", "query/instances.go:ValidateConstsDim", "query/extensions/hepr/util.go:validatePref"]}
{"id": "C63", "title": "BinSolver rejects what is not a solver", "statement": "BinSolver returns an error if the path does not correspond to a valid SAT solver executable, as its comment says.", "quantifier": "all paths and programs", "why_tests_cant": "All programs that may be at a path.", "anchors": ["compute/solver.go:BinSolver", "compute/solver.go:runSolver"]}
{"id": "C64", "title": "Temporary files are removed and others untouched", "statement": "Whatever its outcome (a result, an error or a panic), a call of Step or ComputeOptim leaves no temporary file and no open handle behind, provided that os.Remove succeeds, and changes no file that existed before. If os.Remove fails, the handles are closed, other files are untouched, and there is at most one file more for every call of Step, and one for ComputeOptim. Reading and writing the CNF through the file does not change any result.", "quantifier": "all queries, contexts, file systems, failures of the operating system and solver outputs", "why_tests_cant": "All failure points, including panics in components.", "anchors": ["compute/solver.go:binSolver.Step", "compute/optimum.go:ComputeOptim", "cnf/cnf.go:CNF.ToFile"]}
{"id": "C65", "title": "Names are resolved by the state of the context", "statement": "Encoding is sound and complete also for queries that declare a variable several times, or use it outside of its declaration: if in the order of encoding every name is declared before it is used, the query is encoded without error and the CNF is faithful to the query in which quantifiers are expanded and every occurrence of a variable has the name that the recorded depths give to it (the depth of the first declaration inside of a quantifier, until that quantifier ends).", "quantifier": "all queries meeting the condition, all trees, all contexts in which the names are not declared", "why_tests_cant": "Unbounded queries; depends on the order of all calls of AddVar and PopScope.", "anchors": ["query/scoper.go:ScopeVar", "query/scoper.go:AddVar", "query/scoper.go:PopScope", "query/logop"]}
{"id": "C66", "title": "Variables may be declared again in quantifiers", "statement": "For queries as in C65, the CNF is satisfiable iff the query is true in first-order semantics, also if variables are declared several times, as long as no two declarations of a variable have the same quantifiers around them, every occurrence gets the name of the innermost declaration around it, and no variable is declared below a Not. The condition on occurrences is needed.", "quantifier": "all such queries, all trees", "why_tests_cant": "Unbounded queries.", "anchors": ["query/scoper.go", "query/logop"]}
{"id": "C67", "title": "Exactly when ComputeOptim ends", "statement": "ComputeOptim ends with every solver that never errs, whatever solutions it chooses, exactly if no sequence of instances satisfying the formula, each better than the one before, comes back to an instance; the order need not be transitive. It ends with some such solver exactly if no instance satisfies the formula or there is one that no other is better than.", "quantifier": "all formulas, orders, models and correct solvers", "why_tests_cant": "Quantifies over all infinite executions and all solver choices.", "anchors": ["compute/optimum.go:ComputeOptim", "compute/optimum.go:VCOrder"]}
{"id": "C68", "title": "On a used context only positive answers can be wrong", "statement": "Evaluating a query on a context on which any queries have been evaluated before (with names that no auxiliary variable has) gives no error, and its CNF still allows every assignment that makes the query true: the answer that comes from an unsatisfiable formula is right, also for nested combinations of queries none of which is negated, and ComputeOptim returns Found = false only if no instance satisfies the formula. What makes the other answer wrong is that the consistency clauses of the first evaluation are missing: with them, the second CNF is faithful.", "quantifier": "all queries, all sequences of earlier evaluations, all correct solvers", "why_tests_cant": "All histories of a context.", "anchors": ["query/logop/with_var.go:WithVar.encodeI", "compute/boolcomb.go", "compute/optimum.go:ComputeOptim"]}
{"id": "C69", "title": "Generated names are what the comments say", "statement": "The generators of query/internal/test/auxvar.go give the names that their comments describe: prefix and arguments separated by the record separator, pairs in sorted order, so that a pair has one name in either order; different arguments (or pairs) without separators get different names; different generators never give the same name.", "quantifier": "all variable names", "why_tests_cant": "All names.", "anchors": ["query/internal/test/auxvar.go"]}
{"id": "C70", "title": "Values only reads", "statement": "Values returns a value for every given variable, or an error, and changes neither the solver nor the context, so that later evaluations do not depend on whether it has been called.", "quantifier": "all variables, recorded outputs and contexts", "why_tests_cant": "All contexts, outputs and later evaluations.", "anchors": ["compute/solver.go:binSolver.Values", "compute/solver.go:varValueFromBytes", "compute/solver.go:variableFilter", "query/logop/with_var.go:WithVar.encodeI"]}
{"id": "C71", "title": "Errors say what is wrong and where", "statement": "If a query cannot be encoded, the error names the first thing that is wrong with it (a nil part, a missing generator, an entry of a preference, a constant and its dimension), preceded by the operators and positions around it; evaluating the query gives this error. The first one is that of the leftmost part, except that an operator looks for nil in both parts first, and a predicate looks at generators, then preferences, then constants. An error of a user's own component is passed on with the same labels.", "quantifier": "all queries, all acyclic models of positive dimension that pass validation, all contexts reachable without Reset, all components below operators", "why_tests_cant": "All queries with any number of mistakes.", "anchors": ["query/logop", "query/instances.go:ValidateConstsDim", "query/extensions/hepr/util.go:validatePref", "query/extensions", "query/predicates", "compute/solver.go:binSolver.Step"]}
{"id": "C72", "title": "The tests' comparison of clauses sees every difference", "statement": "ValidClauses, with which the tests compare CNFs to expected ones, accepts two lists of clauses only if they have the same clauses; it accepts them in any order.", "quantifier": "all lists of clauses", "why_tests_cant": "It is what the tests rely on.", "anchors": ["query/internal/test/clauses.go"]}
{"id": "C73", "title": "The tests' model constructor rejects invalid models", "statement": "NewMockTree returns an error exactly if a node has a feature or a child out of range, as encoding does.", "quantifier": "all dimensions and node slices", "why_tests_cant": "It is what the tests rely on.", "anchors": ["query/internal/test/mocktree.go", "query/logop/forallguarded.go:validateNode"]}
{"id": "C74", "title": "What ComputeOptim returns on a used context", "statement": "On a context on which other queries have been evaluated, a value that ComputeOptim returns has the dimension of the model, and no instance that satisfies the formula is better. It satisfies the formula itself, and so is an optimum, if more than two solver calls were made. With two calls it need not satisfy the formula.", "quantifier": "all formulas, orders that compare with a constant, sequences of earlier evaluations, correct solvers", "why_tests_cant": "All histories of a context and all solver choices.", "anchors": ["compute/optimum.go:ComputeOptim", "query/logop/with_var.go:WithVar.encodeI", "compute/solver.go:binSolver"]}
{"id": "C75", "title": "What shared auxiliary variables say", "statement": "If components give one name to auxiliary variables with different purposes, encoding still gives no error, and the CNF says the query and that the purposes do not contradict each other, and nothing else. So isnode and allcomp on one variable with one generator say in addition that the variable follows a path to a leaf, which is harmless if the query says that it is full; two leh.ConstVarConst with the same third constant say that the first constants are equal; two preferences with one name say that both compare alike. The two corner cases of leh in which the code answers true without looking at the variable (C34) count as true, in any position of a query.", "quantifier": "all queries whose predicates fit (including all uses of leh) and whose names are declared before use, all generators that do not give names of query variables, all trees and contexts", "why_tests_cant": "All queries and all interactions of components.", "anchors": ["query/predicates/isnode/var.go", "query/extensions/allcomp/var.go", "query/extensions/leh", "query/extensions/hepr", "README.md"]}
{"id": "C76", "title": "Programs that make several calls on one context", "statement": "A program that makes any number of calls on one context with one solver (evaluations of queries and of nested combinations of queries, searches for an instance with Step and Values or for an optimal one with ComputeOptim, in any order, with Reset wherever it likes) gets only right answers, if no call needs a name that a call since the last Reset has declared; this is the condition that compute/boolcomb.go states for sub-queries. If the solver never errs, all calls are answered.", "quantifier": "all programs of such calls, all decision trees, all correct solvers and solver choices", "why_tests_cant": "All sequences of calls and all solver choices.", "anchors": ["compute/boolcomb.go", "compute/optimum.go:ComputeOptim", "compute/solver.go:binSolver.Step", "query/context.go"]}
{"id": "C77", "title": "Constants are checked correctly on decision diagrams", "statement": "allcomp.Const and isnode.Const are also right on models in which nodes have several parents or cannot be reached (decision diagrams): the CNF is true if all completions have the class, respectively if the constant is the instance of a path from the root, and unsatisfiable otherwise; if features are decided on several times on a path, only the negative answer can be wrong. On any model that passes validation, also with cycles, allcomp.Const says whether all leafs to which the constant may lead have the class. dfs.Const and ForAllGuarded are not right on decision diagrams: their walk visits every node once.", "quantifier": "all constants, all node slices that lay out a tree of paths (all validated ones for allcomp.Const), all contexts", "why_tests_cant": "All models and constants.", "anchors": ["query/extensions/allcomp/const.go", "query/predicates/isnode/const.go", "query/extensions/dfs/utils.go:leafsAsConsts", "query/logop/forallguarded.go"]}
{"id": "C78", "title": "What queries read of the model", "statement": "The outcome of encoding, CNF, context and error alike, depends only on the dimension, on feature and children of the nodes with a child, and on the class of the others. Queries without isnode, allcomp, dfs and ForAllGuarded do not read the nodes at all, so they are encoded faithfully on every model, also with no nodes or with cycles.", "quantifier": "all queries, contexts and pairs of models", "why_tests_cant": "All pairs of models.", "anchors": ["query/model.go", "query/context.go", "query/logop/forallguarded.go", "query/predicates", "query/extensions"]}
{"id": "C79", "title": "What the table tests check", "statement": "A test of test.EncodeAndRun passes only if the formula was encoded, the whole CNF was written and the solver ended with the expected code 10 or 20. With a right solver it passes exactly if the CNF is satisfiable and 10 is expected or it is not and 20 is expected; and a test that pins variables to constants and then asks a predicate or its negation, in plain or in scoped form, passes exactly if the row expects what the predicate says about the constants.", "quantifier": "all rows, predicates that fit, pinned variables, open scopes, solvers and file-system outcomes", "why_tests_cant": "It is what the tests rely on.", "anchors": ["query/internal/test/solver.go", "query/predicates/subsumption/var_var_test.go", "query/predicates/lel/var_const_test.go"]}
{"id": "C80", "title": "Queries below scopes opened by hand", "statement": "A program that opens any scopes with AddScope and SetScope and then encodes a closed query gets no error and a CNF faithful to the query in which constants with the name of a scope have its value (the outermost scope with the name counts); in first-order semantics too. When it closes the scopes with PopScope the context is usable for further queries, and names that are not the query's are not declared.", "quantifier": "all queries that fit, all lists of scopes with any names, indices and values, all contexts on which the names are new", "why_tests_cant": "All queries and scopes.", "anchors": ["query/scoper.go", "query/logop/with_var.go", "query/predicates/lel/var_const_test.go"]}
{"id": "C81", "title": "Earlier use of a context only shifts the numbers", "statement": "If encoding a query gives no number to a triple that already has one in the context, the outcome is that of a context without numbers, with all variables larger by the top variable: the same error or panic, or the same clauses in the same order up to this shift, and the models are the shifted models. The numbers that the context had are kept. With a shared triple this is false: a variable that is declared again has no consistency clauses.", "quantifier": "all queries (also those that fail), all contexts with any open scopes, declared variables and models", "why_tests_cant": "All histories of a context, and the CNFs are compared literally.", "anchors": ["query/varmanager.go", "query/logop", "query/predicates", "query/extensions", "cnf/cnf.go:Negate"]}
{"id": "C82", "title": "Only equality of names matters", "statement": "Two queries that differ only in the names of variables, of constants and quantifiers and of auxiliary variables, such that different names stay different, are encoded to literally the same CNF, or give the same error. So the solver gets the same file, decisions are the same, and ComputeOptim returns the same instance after the same number of calls. For generators that build names as those of the library do, it suffices that the renaming is injective on the names of the query and uses no separators. If two variables get the same name, the CNF changes.", "quantifier": "all queries (also those that fail), all contexts that differ by names, all models, all environments of the solver", "why_tests_cant": "All names; the runs are compared literally.", "anchors": ["query/varmanager.go", "query/scoper.go", "query/logop", "query/predicates", "query/extensions", "query/internal/test/auxvar.go", "compute/solver.go", "compute/optimum.go:ComputeOptim"]}
{"id": "C83", "title": "Any solver that answers in the standard format works", "statement": "Values succeeds exactly on outputs in which every line that begins with v goes on with one character and decimal numerals separated by single spaces; it panics exactly if the first line that is not so is v alone, and otherwise returns the error of Atoi. A solver need not print whole solutions: if it exits with 10 and prints, in any order and on any number of such lines, literals that do not contradict each other and make every clause true, or exits with 20 if there is no solution, then all answers that the library computes with it are right. For evaluating queries and their combinations the exit code suffices, whatever is printed; for values it does not.", "quantifier": "all outputs, executables, queries and contexts", "why_tests_cant": "All outputs of all solvers.", "anchors": ["README.md", "compute/solver.go:binSolver.Values", "compute/solver.go:varValueFromBytes", "compute/solver.go:runSolver", "compute/boolcomb.go"]}
{"id": "C84", "title": "Predicates of the user's own are encoded faithfully", "statement": "The interfaces are public, so a query may contain components that are not the library's. If each of them meets a contract (it reads only features of its terms, and wherever its variables are declared and its auxiliary variables are not used for anything else, its semantic clauses say what it says under its consistency clauses, which exclude nothing), then any query over them and the library's predicates, with And, Or, Not, WithVar and ForAllGuarded, is encoded without error to a CNF faithful to it; in first-order semantics too; evaluating it and searching for an optimum give right answers. The library's predicates meet the contract, and so do all predicates given by clauses over features; every property of finitely many instances can be given so. A component that puts its condition among the consistency clauses is right at the top of a query, but not below Not.", "quantifier": "all components that meet the contract, all queries over them, all trees, contexts and correct solvers", "why_tests_cant": "Components that have not been written yet.", "anchors": ["compute/solver.go:Encodable", "query/logop", "cnf/cnf.go:Negate", "compute/boolcomb.go", "compute/optimum.go:ComputeOptim", "README.md"]}
{"id": "C85", "title": "Trees that decide on a feature several times", "statement": "On models in which a path decides on a feature several times (nothing excludes them), every query without deterministic.DFS and ForAllGuarded is encoded without error, and its CNF is satisfiable exactly if the query is true where isnode says that the instance makes exactly the decisions on the way to some node, and allcomp that it allows only ways to leafs of the class (an undefined feature allows both decisions, every time). So the answer yes of allcomp is right, and both answers are right about total instances; a query that uses isnode and allcomp only positively is true if its CNF is satisfiable, and one that uses them only negatively is false if it is not. DFS and ForAllGuarded are not right on such models: their walk loses decisions.", "quantifier": "all such queries, all trees with any features on the paths, all contexts", "why_tests_cant": "All models.", "anchors": ["query/predicates/isnode", "query/extensions/allcomp", "query/extensions/dfs/utils.go:leafsAsConsts", "query/logop/forallguarded.go", "query/model.go"]}
{"id": "C86", "title": "Explanation notions of the literature are computed", "statement": "README.md says that the library can compute a substantial number of the explanation notions studied in the literature. For every full instance, ComputeOptim with the formula of examples/computation.go and the order by the number of defined features finds a sufficient reason with the fewest features; with the formula 'full and of the other class' and the order by Hamming distance it finds an instance of the other class at the least distance, and says that there is none exactly if all instances have the same class (minimum change required); with 'full and of the same class' and the reversed order it finds a farthest instance of the same class (maximum change allowed). With deterministic.DFS and these orders it finds a determinant feature set with the fewest features, or a minimal one. Each time there are at most dim + 2 calls of the solver.", "quantifier": "all decision trees, full instances, variables, generators that do not clash, correct solvers and solver choices", "why_tests_cant": "All trees, instances and solver choices; the definitions of the notions do not mention the library.", "anchors": ["README.md", "compute/optimum.go:ComputeOptim", "query/extensions/leh", "query/extensions/allcomp", "query/extensions/dfs", "query/predicates/lel", "examples/computation.go"]}
{"id": "C87", "title": "Contexts of the user's own", "statement": "QContext is a public interface, so a program may encode with a context that is not BasicQContext. If it keeps the contract of its methods (Dim and Nodes constant; scopes are opened, set and closed as a stack; ScopeVar gives a name that depends on the variable and on the scopes around its declaration; AddVar and PopScope record and forget declarations; CNFVar gives every triple one number, larger than all numbers in use when it is new) and its names are different for different variables and places, then every query has the same outcome as with BasicQContext: the same error, or CNFs that differ by a one-to-one renaming of numbers, and what is encoded is faithful to the query. What query/scoper.go asks of ScopeVar is not enough: with a context that gives a variable the same name in all scopes a true query gets an unsatisfiable CNF.", "quantifier": "all contexts that keep the contract, all queries, models and generators whose names do not clash", "why_tests_cant": "Contexts that have not been written yet.", "anchors": ["query/context.go", "query/scoper.go:Scoper", "query/varmanager.go:VarManager", "query/model.go", "query/logop", "query/predicates", "query/extensions"]}
{"id": "C88", "title": "Arrays shared by scopes, iterators and constants", "statement": "Slices are references. ForAllGuarded writes all instances of its iteration into one array, to which the scope in the context refers, so that the values of scopes change while the iterator moves; constants of a query are references to arrays of the caller. None of this changes what is encoded: every query is encoded as with values, namely those that are in the arrays of its constants when Encoding is called, with the same CNF, error and context, also when quantifiers are nested or fail. No array that was in use before is written to, so constants of the caller keep their values. The constants of the leafs (leafsAsConsts) have new arrays, different from each other.", "quantifier": "all queries (also those that fail), contexts, contents of arrays and places of constants", "why_tests_cant": "All states of the memory, and aliasing between scopes, iterators and constants.", "anchors": ["query/logop/forallguarded.go:nodeAsValuesIter.Next", "query/logop/forallguarded.go:ForAllGuarded.buildEncoding", "query/scoper.go:baseScoper.SetScope", "query/scoper.go:baseScoper.ScopeConst", "query/extensions/dfs/utils.go:leafsAsConsts"]}
{"id": "C89", "title": "Computations with contexts of the user's own", "statement": "Solver.Step, Solver.Values, the combinators' Sat and ComputeOptim get a value of the interface QContext. With any context that keeps the contract of C87, whose Reset leaves an unused context, and that gives a variable its own name outside of all scopes: binSolver (with an executable that solves DIMACS texts) is a correct solver; Values returns the instances of the variables; an atom, a conjunction and a disjunction of queries, one after the other on one context, give the truth value; ComputeOptim returns Found = true only with an optimal instance, Found = false exactly if there is none, reports the number of calls, and returns after at most 3^dim + 1 calls for strict orders. That the context gives a variable its own name outside of scopes is asked for nowhere, and is needed: ComputeOptim calls Values with the variable and not with ScopeVar of it, so with a context that puts a prefix before all names the call fails although the formula is satisfiable.", "quantifier": "all contexts that keep the contract, all correct solvers, queries, orders and states of the context after earlier queries", "why_tests_cant": "Contexts and solvers that have not been written yet.", "anchors": ["compute/solver.go:binSolver", "compute/boolcomb.go", "compute/optimum.go:ComputeOptim", "query/context.go", "query/varmanager.go:VarManager.Reset"]}
{"id": "C90", "title": "Goroutines that compute at the same time", "statement": "Programs may call Step, Sat and ComputeOptim in several goroutines, or processes, at the same time, each with a context and a solver of its own; they share the directory of temporary files. In all interleavings of their file operations (creating, each single write, reading by the solver's process, removing), and whatever other processes do to files of their own in between: every goroutine returns what it returns alone; files that were there before are not changed; when all have ended, no call ran forever and removals succeeded, the files are as before; and no goroutine waits for another. One solver must not be shared: Values is about the last call of Step, also if that was another goroutine's.", "quantifier": "all numbers of goroutines, all sequences of calls in each (which may depend on earlier results), all interleavings, all failures of file operations, all paths that CreateTemp may choose", "why_tests_cant": "All interleavings.", "anchors": ["compute/solver.go:binSolver.Step", "compute/optimum.go:ComputeOptim", "compute/boolcomb.go", "cnf/cnf.go:CNF.ToFile"]}
{"id": "C91", "title": "Integers of 64 bits", "statement": "With integers of 64 bits, whose additions wrap around, encoding any query in any context gives the formula or error and the context that exact integers give, as long as the top variable of the latter stays below 2^63; the bound of C57 is a condition on the sizes of query and model for this. So do Step, Sat and Values, if the numbers in the output fit too, and ComputeOptim with a solver that solves, if the bounds for its queries are below 2^63. A number in the output that does not fit is an error. Beyond the limit the program goes wrong: after UpdateTopV(math.MaxInt64), CNFVar returns a negative number and the top variable falls.", "quantifier": "all queries, all models, all contexts, all outputs, all solvers", "why_tests_cant": "Tests never come near 2^63 variables; the theorem says that nothing else differs.", "anchors": ["query/varmanager.go:baseVarManager.CNFVar", "cnf/cnf.go:CNF.Negate", "cnf/cnf.go:CNF.tseytinNegation", "compute/solver.go:varValueFromBytes", "compute/optimum.go:ComputeOptim"]}
{"id": "C92", "title": "Laws of logic hold for queries", "statement": "Queries that differ by laws of logic, applied anywhere in them and any number of times (commutativity, associativity, idempotence, distributivity of And and Or, De Morgan, double negation, ForAllGuarded over And, moving a declaration outwards past a part that does not mention the variable or past another declaration), are encoded without error or not under the same conditions, to formulas faithful to the same statement about the same instances; one is satisfiable exactly if the other is. Evaluating them gives the same answer with whatever correct solvers, and an instance that ComputeOptim finds for one formula and order is optimal for the others. So a query that has a first-order meaning by C40 keeps it under rewriting, also if the result has declarations below a negation.", "quantifier": "all queries, all rewritings, trees, contexts and solvers", "why_tests_cant": "All queries and all sequences of rewriting steps.", "anchors": ["query/logop", "cnf/cnf.go:CNF.Negate", "cnf/cnf.go:CNF.Conjunction", "compute/boolcomb.go", "compute/optimum.go:ComputeOptim"]}
{"id": "C93", "title": "Presentations of a model do not matter", "statement": "Features may be numbered differently, the two values of any features may be exchanged, the two classes may be exchanged, and nodes may stand at other places of the slice. If model and query are changed accordingly (children exchanged where the values of a feature are; constants, preference orders and the class of allcomp rewritten), then the query is true before exactly if it is true after; the CNFs are both satisfiable or both not; evaluations give the same answer; an instance that ComputeOptim finds after the change is, translated back, an optimum before it; and Found is false for both or for none.", "quantifier": "all permutations of features, exchanges of values and classes, renumberings of nodes; all queries with a first-order meaning, all trees and solvers", "why_tests_cant": "All symmetries of all inputs.", "anchors": ["query/model.go", "query/predicates", "query/extensions", "query/logop/forallguarded.go", "compute/boolcomb.go", "compute/optimum.go:ComputeOptim"]}
{"id": "C94", "title": "One model for every solution", "statement": "For any query that can be encoded in which no leh compares the distance of two variables, or in which the instances it compares are full wherever the query is true, the models of the CNF and the solutions of the query correspond one to one: two models agree on all variables that occur in the CNF exactly if they are the same assignment of instances. The variables that Negate, counters, marks and ranks introduce have one possible truth value each. So the number of models is the number of solutions, and a solver that is asked for further models gives further solutions. For a negated leh on two variables this is false: one solution can have several models.", "quantifier": "all queries, models, contexts, valuations and numbers of models", "why_tests_cant": "Tests look at satisfiability only; one model too many would not be noticed, and all pairs of valuations are concerned.", "anchors": ["cnf/cnf.go:Negate", "cnf/cnf.go:tseytinNegation", "query/extensions/leh", "query/predicates/lel", "query/logop/with_var.go", "query/extensions/leh/utils.go:fullVarEqualClauses"]}
{"id": "C95", "title": "Checking an instance needs no search", "statement": "Once the instances of the query variables are fixed by unit clauses, unit propagation, the inference that SAT solvers do without making decisions, finds the truth value of every variable that occurs in the CNF from the consistency clauses alone; with all clauses it ends in a conflict exactly if the instances are not an answer of the query, and otherwise finds exactly the literals that are true in the model of the answer. This holds for all queries if the instances are full, and for all instances if no leh of the query compares the distance of two variables. One unit clause per feature, for the value it has, is enough: unit propagation then finds the same literals, including those of the values it does not have. For a query without variables, unit propagation alone tells whether the CNF has a model. For a negated leh on two variables with undefined features there are variables that it leaves open.", "quantifier": "all queries that can be encoded, all models, contexts and instances", "why_tests_cant": "Tests look at satisfiability; an encoding that is right but that a solver can only check by search looks the same.", "anchors": ["cnf/cnf.go:Negate", "cnf/cnf.go:tseytinNegation", "query/extensions/leh", "query/extensions/hepr", "query/extensions/allcomp/var.go", "query/predicates/isnode/var.go", "query/predicates/lel", "query/logop"]}
{"id": "C96", "title": "An error is not taken for an answer", "statement": "Sat and ComputeOptim answer \"not satisfiable\", \"satisfiable\", \"no solution\" or \"this is the optimum\" only if the query was encoded without an error and the solver's executable was run on it and ended with the exit code of that answer. An error of the encoding, whatever it wraps, is returned.", "quantifier": "all queries, with components of the user that may return any error, all environments, contexts and solver states", "why_tests_cant": "All errors that user components can build with %w and errors.Join, at any place of any query.", "anchors": ["compute/boolcomb.go:QDTFAtom.Sat", "compute/optimum.go:ComputeOptim", "compute/solver.go:binSolver.Step", "query/logop"]}
{"id": "C97", "title": "What the node predicates say on models that are not trees", "statement": "Models with shared nodes, cycles or nodes that cannot be reached pass validation. On all of them, queries without quantifiers made from subsumption, full, cons, lel, hepr, leh, isnode.Var, allcomp.Var and allcomp.Const, which may declare their variables again, are encoded without error, and the CNF says exactly that nodes can be marked such that the root is marked and a child exactly if its parent, for each of its parents, is marked and the value is followed, and what the query tells of instances and marked nodes. For the two predicates alone and negated this is a condition on the instance and the edges of the model. On decision diagrams in which all nodes can be reached, every model of the CNF represents instances that make the query true, but instances that make it true may be represented by none; with nodes that cannot be reached a model may represent an instance that does not make it true.", "quantifier": "all models that pass validation, queries of the fragment in which the names for marks may be shared in any way and other generated names have one purpose each, and contexts that are ready", "why_tests_cant": "The tests of the predicates have trees only; a test has one model and one instance, and the condition is about all of them.", "anchors": ["query/predicates/isnode/var.go", "query/extensions/allcomp/var.go", "query/logop/not.go"]}
{"id": "C98", "title": "What computations return on models that are not trees", "statement": "On every model that passes validation, Sat for queries of the fragment of C97 answers whether instances and marked nodes exist as the query says, and what ComputeOptim returns satisfies its formula in this sense with no better instance, for formulas and orders of the fragment; it returns nothing exactly if no instance satisfies the formula in this sense. With the order of the number of undefined features it ends after at most dim + 2 calls of the solver, with an instance that has the most undefined features of those that satisfy the formula in this sense. On decision diagrams in which all nodes can be reached a returned value therefore satisfies the formula, but better instances whose nodes cannot be marked are missed. The program of examples/computation.go ends there after at most dim + 2 calls of the solver; for a full constant it returns a sufficient reason that is minimal among those whose nodes can be marked, and nothing if there are none; with the other order it returns one with the fewest features among these. There is a diagram on which it returns nothing although the constant is a sufficient reason of itself, and one on which what it returns is not minimal, whatever the solver.", "quantifier": "all models that pass validation (diagrams for the later parts), formulas and orders of the fragment, full constants, variables, ready contexts, and solvers that are correct (and do not fail, where an answer is claimed)", "why_tests_cant": "A test has one model, usually a tree, and one solver; the statement is about all models and all solutions that solvers can choose.", "anchors": ["compute/optimum.go", "compute/boolcomb.go", "examples/computation.go", "query/extensions/allcomp/var.go", "query/predicates/isnode/var.go"]}
{"id": "C99", "title": "Quantifiers and dfs on decision diagrams", "statement": "On models in which nodes may have several parents but every path decides on a feature once, the iterator of ForAllGuarded and of leafsAsConsts reports exactly the paths that no other path to the same node comes before, in the order of the paths, with the instance of each; one for every node that can be reached. A closed query with And, Or, Not, WithVar, ForAllGuarded and all predicates except the two that mark nodes (isnode.Var, allcomp.Var) is encoded without error to a CNF that is faithful to it, if quantifiers are read to range over these paths and dfs to compare these paths to leafs of different class. So dfs rejects no set of features that is sufficient, though it may accept others (C77). On trees all paths are first paths, and the meaning is that of C39. Sat decides these queries in this sense and ComputeOptim finds optima in this sense. So with dfs and the orders of C86, ComputeOptim ends after at most dim + 2 calls with a set of features that tells the first paths apart and has the fewest features, or no proper part that does; it has not more features than any sufficient set, or no sufficient proper part; and examples/evaluation.go decides whether the constant is such a smallest set. These sets need not be sufficient: there is a diagram with two features on which both computations return one of them, whatever the solver, although only both are sufficient, and on which the evaluation is wrong in both directions.", "quantifier": "all decision diagrams, queries of the fragment, assignments, ready contexts and correct solvers", "why_tests_cant": "The tests have trees only; nested quantifiers over shared nodes have more cases than can be listed.", "anchors": ["query/logop/forallguarded.go:nodeAsValuesIter", "query/logop/forallguarded.go:ForAllGuarded.buildEncoding", "query/extensions/dfs/utils.go:leafsAsConsts", "query/extensions/dfs", "query/model.go", "compute/boolcomb.go", "compute/optimum.go:ComputeOptim", "examples/evaluation.go"]}
{"id": "C100", "title": "Quantifiers and dfs on any model", "statement": "On every model that passes validation, also with cycles, shared nodes and paths that decide on a feature several times, what the walk reports is determined, and a closed query with And, Or, Not, WithVar, ForAllGuarded and all predicates except isnode and allcomp is encoded without error to a CNF that is faithful to it, if quantifiers are read to range over what is reported and dfs to compare the leafs as they are reported (where no leaf is reported, dfs returns the error for an empty model). Sat decides these queries in this sense and ComputeOptim finds optima in this sense; with dfs and the orders of C86 it ends after at most dim + 2 calls, finds a set of features exactly if one tells the reported leafs of different class apart, and then one with the fewest features, or without a proper part, that does; examples/evaluation.go decides whether a constant is such a smallest set. On trees that decide on a feature several times the nodes are reported in pre-order with the decisions on the way, where coming back to a node makes its feature unknown; so what is known is part of the last decisions on the way. So on these trees every set of features that dfs accepts, that a computation with dfs returns, or of which the evaluation says yes, is sufficient. Sufficient sets may be rejected: there is a tree with two features on which one is sufficient, but both computations return no set and the evaluation says no for it.", "quantifier": "all models that pass validation, all queries of the fragment, contexts that have not used the names, correct solvers; trees of any shape with any features", "why_tests_cant": "All graphs of nodes, all queries and all instances.", "anchors": ["query/logop/forallguarded.go:nodeAsValuesIter.Next", "query/extensions/dfs/utils.go:leafsAsConsts", "query/extensions/dfs/var.go:Var.Encoding", "query/extensions/dfs/const.go:Const.Encoding", "compute/optimum.go:ComputeOptim", "examples/evaluation.go"]}
{"id": "C101", "title": "All queries on trees that decide on a feature several times", "statement": "On every model that passes validation, a closed query with And, Or, Not, WithVar, ForAllGuarded and predicates of any kind (also ones that are not of the library) that meet the contract of C84 is encoded without error to a CNF that is faithful to it, if quantifiers are read to range over what the walk reports. allcomp.Const meets the contract on all of these models, read to be about the leafs to which the constant may lead. On trees in which a path may decide on a feature several times all predicates of the library meet the contract, if isnode and allcomp are read to be about the ways to nodes and leafs (C85), and dfs to compare the leafs as they are reported (C100). So on these trees every closed query of the library, with all its predicates and quantifiers, has a CNF that is faithful to what it says in this sense; Sat decides it in this sense, and ComputeOptim returns optima in this sense. Where no path decides on a feature twice this is the intended meaning. On all these trees, a query without quantifiers that uses isnode, allcomp and dfs only positively (below an even number of negations) is never said to be satisfiable unless it is in the intended meaning; one that uses them only negatively is never said to be unsatisfiable unless it is.", "quantifier": "all models and all queries over predicates that meet the contract; all queries of the library, all such trees in which all nodes are reachable, all formulas and orders, all correct solvers", "why_tests_cant": "All models, all queries and all predicates.", "anchors": ["query/logop/forallguarded.go", "query/predicates/isnode", "query/extensions/allcomp", "query/extensions/dfs", "query/model.go", "compute/boolcomb.go", "compute/optimum.go:ComputeOptim"]}
{"id": "C102", "title": "isnode.Const on any model", "statement": "On every model that passes validation, also with cycles, shared nodes and paths that decide on a feature several times, isnode.Const returns exactly if the way that the constant takes down from the root ends in a leaf or in a node that decides on an undefined feature. Then its CNF is true if every defined feature of the constant is decided on on this way, and unsatisfiable otherwise. If the way does not end the loop does not end after any number of turns. The way is unique. Where the way ends for the constants of all iterations, isnode.Const can be used below quantifiers on any model as in C101.", "quantifier": "all models that pass validation, all constants of their dimension, all contexts", "why_tests_cant": "All models and constants; non-termination cannot be observed.", "anchors": ["query/predicates/isnode/const.go:Const.Encoding", "query/logop/forallguarded.go"]}

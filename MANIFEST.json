{
 "claims": [
  {
   "property": "C01",
   "status": "proved",
   "theorems": [
    "Goexpdt.Props.C01_negate_exact",
    "Goexpdt.Props.C01_double_negation"
   ],
   "note": ""
  },
  {
   "property": "C02",
   "status": "proved",
   "theorems": [
    "Goexpdt.Props.C02_negate_conservative",
    "Goexpdt.Props.C02_negate_satisfiable_iff"
   ],
   "note": ""
  },
  {
   "property": "C03",
   "status": "proved",
   "theorems": [
    "Goexpdt.Props.C03_topV_bounds",
    "Goexpdt.Props.C03_negate_fresh",
    "Goexpdt.Props.C03_topV_monotone",
    "Goexpdt.Props.C03_conjunction_topV_can_drop"
   ],
   "note": ""
  },
  {
   "property": "C04",
   "status": "proved",
   "theorems": [
    "Goexpdt.Props.C04_conjunction",
    "Goexpdt.Props.C04_append"
   ],
   "note": ""
  },
  {
   "property": "C05",
   "status": "proved",
   "theorems": [
    "Goexpdt.Props.C05_trivial_sound",
    "Goexpdt.Props.C05_constants"
   ],
   "note": ""
  },
  {
   "property": "C06",
   "status": "proved",
   "theorems": [
    "Goexpdt.Props.C06_dimacs_roundtrip"
   ],
   "note": ""
  },
  {
   "property": "C07",
   "status": "proved",
   "theorems": [
    "Goexpdt.Props.C07_toFile"
   ],
   "note": ""
  },
  {
   "property": "C08",
   "status": "partial",
   "theorems": [
    "Goexpdt.Props.C08_linear_partial",
    "Goexpdt.Props.C08_unchanged_partial",
    "Goexpdt.Props.C08_append_twice_refuted",
    "Goexpdt.Props.C08_consistency_twice_refuted",
    "Goexpdt.Props.C08_negate_twice_refuted",
    "Goexpdt.Props.C08_refuted"
   ],
   "note": "False for the code: results derived from one CNF can share memory, so a later call changes an earlier result (witnesses for AppendSemantics, AppendConsistency and Negate; in the last one the formula becomes wrong). It holds for all histories in which every result is used as an operand at most once, for every allocation policy."
  },
  {
   "property": "C09",
   "status": "proved",
   "theorems": [
    "Goexpdt.Props.C09_stable",
    "Goexpdt.Props.C09_injective",
    "Goexpdt.Props.C09_range",
    "Goexpdt.Props.C09_exists"
   ],
   "note": ""
  },
  {
   "property": "C10",
   "status": "proved",
   "theorems": [
    "Goexpdt.Props.C10_updateTopV",
    "Goexpdt.Props.C10_topV_monotone",
    "Goexpdt.Props.C10_reserved"
   ],
   "note": ""
  },
  {
   "property": "C11",
   "status": "proved",
   "theorems": [
    "Goexpdt.Props.C11_distinct_vars",
    "Goexpdt.Props.C11_separator_needed"
   ],
   "note": "C11_separator_needed shows that the condition on the separator character is necessary."
  },
  {
   "property": "C12",
   "status": "proved",
   "theorems": [
    "Goexpdt.Props.C12_names_iff",
    "Goexpdt.Props.C12_iterations",
    "Goexpdt.Props.C12_shared_below"
   ],
   "note": ""
  },
  {
   "property": "C13",
   "status": "proved",
   "theorems": [
    "Goexpdt.Props.C13_balanced",
    "Goexpdt.Props.C13_scopeVar_total",
    "Goexpdt.Props.C13_errors",
    "Goexpdt.Props.C13_map_order"
   ],
   "note": ""
  },
  {
   "property": "C14",
   "status": "partial",
   "theorems": [
    "Goexpdt.Props.C14_reset_partial",
    "Goexpdt.Props.C14_reset_iff",
    "Goexpdt.Props.C14_reset_refuted",
    "Goexpdt.Props.C14_reset_refuted_name"
   ],
   "note": "The claim is false for the code: Reset does not clear the variable levels (two witnesses). It holds when the history before Reset closed every scope it opened. C14_reset_iff says exactly when it holds: if no variable is left declared in a scope that was not closed."
  },
  {
   "property": "C15",
   "status": "proved",
   "theorems": [
    "Goexpdt.Props.C15_scopeConst",
    "Goexpdt.Props.C15_current_value",
    "Goexpdt.Props.C15_no_shadowing",
    "Goexpdt.Props.C15_anonymous_capture"
   ],
   "note": "The outermost scope wins when two scopes share a target; anonymous constants are captured by a scope with empty target."
  },
  {
   "property": "C16",
   "status": "proved",
   "theorems": [
    "Goexpdt.Props.C16_isFull",
    "Goexpdt.Props.C16_botCount",
    "Goexpdt.Props.C16_isFull_iff_botCount",
    "Goexpdt.Props.C16_equalValue",
    "Goexpdt.Props.C16_asString_injective",
    "Goexpdt.Props.C16_asString_invalid",
    "Goexpdt.Props.C16_allBotConst",
    "Goexpdt.Props.C16_validate"
   ],
   "note": ""
  },
  {
   "property": "C17",
   "status": "proved",
   "theorems": [
    "Goexpdt.Props.C17_terminates",
    "Goexpdt.Props.C17_in_range",
    "Goexpdt.Props.C17_checked",
    "Goexpdt.Props.C17_validation",
    "Goexpdt.Props.C17_dfs_walk",
    "Goexpdt.Props.C17_dfs_walk_empty"
   ],
   "note": "Also for the copy of the walk in the dfs extension, which panics (instead of reporting an error) on a model without nodes."
  },
  {
   "property": "C18",
   "status": "proved",
   "theorems": [
    "Goexpdt.Props.C18_values",
    "Goexpdt.Props.C18_accepted",
    "Goexpdt.Props.C18_read_once_needed"
   ],
   "note": "C18_read_once_needed shows that the condition that no path decides twice on a feature is necessary."
  },
  {
   "property": "C19",
   "status": "proved",
   "theorems": [
    "Goexpdt.Props.C19_and",
    "Goexpdt.Props.C19_or",
    "Goexpdt.Props.C19_not",
    "Goexpdt.Props.C19_trivial"
   ],
   "note": "For components with arbitrary Encoding methods that satisfy the contract of Spec/Contract.lean; isOne_captures is a user-written component that does."
  },
  {
   "property": "C20",
   "status": "proved",
   "theorems": [
    "Goexpdt.Props.C20_exactly_one",
    "Goexpdt.Props.C20_every_instance"
   ],
   "note": ""
  },
  {
   "property": "C21",
   "status": "proved",
   "theorems": [
    "Goexpdt.Props.C21_redeclared",
    "Goexpdt.Props.C21_nested",
    "Goexpdt.Props.C21_sibling"
   ],
   "note": ""
  },
  {
   "property": "C22",
   "status": "proved",
   "theorems": [
    "Goexpdt.Props.C22_forall",
    "Goexpdt.Props.C22_scopes"
   ],
   "note": ""
  },
  {
   "property": "C23",
   "status": "proved",
   "theorems": [
    "Goexpdt.Props.C23_scopes_restored",
    "Goexpdt.Props.C23_names_restored",
    "Goexpdt.Props.C23_any_child"
   ],
   "note": ""
  },
  {
   "property": "C24",
   "status": "proved",
   "theorems": [
    "Goexpdt.Props.C24_nil_context",
    "Goexpdt.Props.C24_nil_context_says",
    "Goexpdt.Props.C24_nil_child",
    "Goexpdt.Props.C24_nil_generator",
    "Goexpdt.Props.C24_anywhere"
   ],
   "note": ""
  },
  {
   "property": "C25",
   "status": "proved",
   "theorems": [
    "Goexpdt.Props.C25_captures",
    "Goexpdt.Props.C25_subsumption"
   ],
   "note": ""
  },
  {
   "property": "C26",
   "status": "proved",
   "theorems": [
    "Goexpdt.Props.C26_captures",
    "Goexpdt.Props.C26_lel"
   ],
   "note": ""
  },
  {
   "property": "C27",
   "status": "proved",
   "theorems": [
    "Goexpdt.Props.C27_captures",
    "Goexpdt.Props.C27_isnode"
   ],
   "note": ""
  },
  {
   "property": "C28",
   "status": "proved",
   "theorems": [
    "Goexpdt.Props.C28_fuel",
    "Goexpdt.Props.C28_acyclic",
    "Goexpdt.Props.C28_cyclic_diverges",
    "Goexpdt.Props.C28_noChild",
    "Goexpdt.Props.C28_tree"
   ],
   "note": "C28_cyclic_diverges shows that acyclicity is needed."
  },
  {
   "property": "C29",
   "status": "proved",
   "theorems": [
    "Goexpdt.Props.C29_captures",
    "Goexpdt.Props.C29_full"
   ],
   "note": ""
  },
  {
   "property": "C30",
   "status": "proved",
   "theorems": [
    "Goexpdt.Props.C30_captures",
    "Goexpdt.Props.C30_cons"
   ],
   "note": ""
  },
  {
   "property": "C31",
   "status": "proved",
   "theorems": [
    "Goexpdt.Props.C31_captures",
    "Goexpdt.Props.C31_allcomp",
    "Goexpdt.Props.C31_const_terminates"
   ],
   "note": ""
  },
  {
   "property": "C32",
   "status": "proved",
   "theorems": [
    "Goexpdt.Props.C32_captures",
    "Goexpdt.Props.C32_dfs"
   ],
   "note": ""
  },
  {
   "property": "C33",
   "status": "partial",
   "theorems": [
    "Goexpdt.Props.C33_captures_partial",
    "Goexpdt.Props.C33_hepr_partial",
    "Goexpdt.Props.C33_empty_panics",
    "Goexpdt.Props.C33_comment_differs"
   ],
   "note": "Exact for non-empty preference sequences. False for the empty one: the types with a variable panic."
  },
  {
   "property": "C34",
   "status": "partial",
   "theorems": [
    "Goexpdt.Props.C34_captures_partial",
    "Goexpdt.Props.C34_leh_partial",
    "Goexpdt.Props.C34_ccv_wrong",
    "Goexpdt.Props.C34_cvc_wrong",
    "Goexpdt.Props.C34_true_without_looking"
   ],
   "note": "C34_true_without_looking says exactly what happens in the two cases, C75_blind what queries with them say. Exact except for two corner cases in which the code answers true without looking at the variable; for these the claim is refuted."
  },
  {
   "property": "C35",
   "status": "proved",
   "theorems": [
    "Goexpdt.Props.C35_wrong_dimension"
   ],
   "note": ""
  },
  {
   "property": "C36",
   "status": "partial",
   "theorems": [
    "Goexpdt.Props.C36_same_kind_partial",
    "Goexpdt.Props.C36_shared_wrong"
   ],
   "note": "False for isnode.Var together with allcomp.Var (witness). Holds for components of the same kind. The general statement about clashing auxiliary names is C75."
  },
  {
   "property": "C37",
   "status": "partial",
   "theorems": [
    "Goexpdt.Props.C37_pair_partial",
    "Goexpdt.Props.C37_wrong"
   ],
   "note": "False for ConstVarConst, which names a distance after the wrong constant (witness). Holds for the other types. See also C75_first."
  },
  {
   "property": "C38",
   "status": "partial",
   "theorems": [
    "Goexpdt.Props.C38_names_partial",
    "Goexpdt.Props.C38_names_iff",
    "Goexpdt.Props.C38_pair_partial",
    "Goexpdt.Props.C38_wrong",
    "Goexpdt.Props.C38_collision"
   ],
   "note": "False when a feature index has two digits (witness). C38_names_iff: names identify preference sequences exactly up to dimension ten, also if only sequences that rank all features are considered. C38_pair_partial: components whose preference sequences are equal or have different names do not interfere. See also C75_preferences."
  },
  {
   "property": "C39",
   "status": "proved",
   "theorems": [
    "Goexpdt.Props.C39_faithful",
    "Goexpdt.Props.C39_tree_needed"
   ],
   "note": "C39_tree_needed: the conditions on the tree are necessary."
  },
  {
   "property": "C40",
   "status": "proved",
   "theorems": [
    "Goexpdt.Props.C40_first_order",
    "Goexpdt.Props.C40_not_withVar",
    "Goexpdt.Props.C40_declared_twice",
    "Goexpdt.Props.C40_redeclared_in_loop"
   ],
   "note": "The last three show that both conditions are necessary."
  },
  {
   "property": "C41",
   "status": "proved",
   "theorems": [
    "Goexpdt.Props.C41_wellformed",
    "Goexpdt.Props.C41_dimacs",
    "Goexpdt.Props.C41_extends"
   ],
   "note": ""
  },
  {
   "property": "C42",
   "status": "proved",
   "theorems": [
    "Goexpdt.Props.C42_atom",
    "Goexpdt.Props.C42_first_order",
    "Goexpdt.Props.C42_error"
   ],
   "note": ""
  },
  {
   "property": "C43",
   "status": "proved",
   "theorems": [
    "Goexpdt.Props.C43_and_true",
    "Goexpdt.Props.C43_and_false",
    "Goexpdt.Props.C43_and_error",
    "Goexpdt.Props.C43_or_true",
    "Goexpdt.Props.C43_or_false",
    "Goexpdt.Props.C43_or_error",
    "Goexpdt.Props.C43_values"
   ],
   "note": ""
  },
  {
   "property": "C44",
   "status": "proved",
   "theorems": [
    "Goexpdt.Props.C44_binSolver",
    "Goexpdt.Props.C44_reliable",
    "Goexpdt.Props.C44_values",
    "Goexpdt.Props.C44_solver_exists",
    "Goexpdt.Props.C44_numbers",
    "Goexpdt.Props.C44_malformed"
   ],
   "note": "C44_malformed records what happens on output that is not in the expected format."
  },
  {
   "property": "C45",
   "status": "proved",
   "theorems": [
    "Goexpdt.Props.C45_step",
    "Goexpdt.Props.C45_context"
   ],
   "note": ""
  },
  {
   "property": "C46",
   "status": "proved",
   "theorems": [
    "Goexpdt.Props.C46_optimum",
    "Goexpdt.Props.C46_queries",
    "Goexpdt.Props.C46_errors",
    "Goexpdt.Props.C46_test",
    "Goexpdt.Props.C46_scoped"
   ],
   "note": ""
  },
  {
   "property": "C47",
   "status": "partial",
   "theorems": [
    "Goexpdt.Props.C47_absent_partial",
    "Goexpdt.Props.C47_temp_fails",
    "Goexpdt.Props.C47_scoped_partial"
   ],
   "note": "False for the code: the error of CreateTemp is dropped, so a failure is reported as absence (witness). It holds where the temporary file is created."
  },
  {
   "property": "C48",
   "status": "proved",
   "theorems": [
    "Goexpdt.Props.C48_rank",
    "Goexpdt.Props.C48_strict",
    "Goexpdt.Props.C48_subsumption",
    "Goexpdt.Props.C48_supersumption",
    "Goexpdt.Props.C48_lel",
    "Goexpdt.Props.C48_scoped"
   ],
   "note": ""
  },
  {
   "property": "C49",
   "status": "proved",
   "theorems": [
    "Goexpdt.Props.C49_no_minimum",
    "Goexpdt.Props.C49_reflexive"
   ],
   "note": ""
  },
  {
   "property": "C50",
   "status": "proved",
   "theorems": [
    "Goexpdt.Props.C50_calls"
   ],
   "note": ""
  },
  {
   "property": "C51",
   "status": "partial",
   "theorems": [
    "Goexpdt.Props.C51_same_query_twice",
    "Goexpdt.Props.C51_or_refuted",
    "Goexpdt.Props.C51_optim_refuted",
    "Goexpdt.Props.C51_reset_partial",
    "Goexpdt.Props.C51_atom_partial",
    "Goexpdt.Props.C51_and_partial",
    "Goexpdt.Props.C51_or_partial"
   ],
   "note": "False for the code: evaluating a query again on the same context can give the wrong answer (three witnesses, for every correct solver). It holds with Reset in between, and for queries and nested combinations of queries that share no variable names (C76: any program of calls)."
  },
  {
   "property": "C52",
   "status": "proved",
   "theorems": [
    "Goexpdt.Props.C52_no_panic",
    "Goexpdt.Props.C52_walks_checked",
    "Goexpdt.Props.C52_conditions_needed"
   ],
   "note": "C52_conditions_needed gives a panic for each condition that is dropped."
  },
  {
   "property": "C53",
   "status": "proved",
   "theorems": [
    "Goexpdt.Props.C53_terminates",
    "Goexpdt.Props.C53_any_model",
    "Goexpdt.Props.C53_condition_needed"
   ],
   "note": ""
  },
  {
   "property": "C54",
   "status": "proved",
   "theorems": [
    "Goexpdt.Props.C54_faithful",
    "Goexpdt.Props.C54_first_order",
    "Goexpdt.Props.C54_test_generators",
    "Goexpdt.Props.C54_small",
    "Goexpdt.Props.C54_name_needed"
   ],
   "note": "C54_small discharges the condition on preference names for dimension at most 10."
  },
  {
   "property": "C55",
   "status": "proved",
   "theorems": [
    "Goexpdt.Props.C55_computation",
    "Goexpdt.Props.C55_undetermined",
    "Goexpdt.Props.C55_example",
    "Goexpdt.Props.C55_prints",
    "Goexpdt.Props.C55_no_solver",
    "Goexpdt.Props.C55_prints_no_file",
    "Goexpdt.Props.C55_panics",
    "Goexpdt.Props.C55_example_prints"
   ],
   "note": "C55_undetermined: what the program returns for constants whose completions have different classes."
  },
  {
   "property": "C56",
   "status": "proved",
   "theorems": [
    "Goexpdt.Props.C56_evaluation",
    "Goexpdt.Props.C56_example",
    "Goexpdt.Props.C56_prints",
    "Goexpdt.Props.C56_panics",
    "Goexpdt.Props.C56_example_prints",
    "Goexpdt.Props.C56_comment_differs",
    "Goexpdt.Props.C56_readme"
   ],
   "note": "C56_comment_differs: with the reading of DFS that the program's comment gives, the answer would be different."
  },
  {
   "property": "C57",
   "status": "proved",
   "theorems": [
    "Goexpdt.Props.C57_size",
    "Goexpdt.Props.C57_no_overflow",
    "Goexpdt.Props.C57_rank_needed"
   ],
   "note": "C57_rank_needed shows that the exponent has to grow with the nesting depth."
  },
  {
   "property": "C58",
   "status": "proved",
   "theorems": [
    "Goexpdt.Props.C58_encodings_undisturbed",
    "Goexpdt.Props.C58_linear",
    "Goexpdt.Props.C58_cached_component_refuted"
   ],
   "note": "C58_cached_component_refuted shows that the claim does not extend to components that return the same CNF twice."
  },
  {
   "property": "C59",
   "status": "proved",
   "theorems": [
    "Goexpdt.Props.C59_at_most",
    "Goexpdt.Props.C59_at_least",
    "Goexpdt.Props.C59_worst_case",
    "Goexpdt.Props.C59_subsumption"
   ],
   "note": ""
  },
  {
   "property": "C60",
   "status": "partial",
   "theorems": [
    "Goexpdt.Props.C60_linear_partial",
    "Goexpdt.Props.C60_hepr",
    "Goexpdt.Props.C60_exponential",
    "Goexpdt.Props.C60_not_polynomial"
   ],
   "note": "False for the code: with the strict order of a preference sequence some correct solver makes 2^dim + 1 calls (C60_exponential; C60_hepr is the matching upper bound). Linear for the other orders of the library."
  },
  {
   "property": "C61",
   "status": "partial",
   "theorems": [
    "Goexpdt.Props.C61_closest_partial",
    "Goexpdt.Props.C61_minimal_distance_partial",
    "Goexpdt.Props.C61_ends_partial",
    "Goexpdt.Props.C61_counterfactual",
    "Goexpdt.Props.C61_names_clash"
   ],
   "note": "False for the code when the formula has a leh component whose distance has the name that leh.ConstVarConst uses for another (C61_names_clash: a correct solver, a value that is not closest). Holds if auxiliary names do not clash, counting the name that the order gives to its distance."
  },
  {
   "property": "C62",
   "status": "proved",
   "theorems": [
    "Goexpdt.Props.C62_succeeds",
    "Goexpdt.Props.C62_rejects",
    "Goexpdt.Props.C62_independent",
    "Goexpdt.Props.C62_tree",
    "Goexpdt.Props.C62_condition_needed"
   ],
   "note": "C62_condition_needed: on cyclic models valid queries can fail."
  },
  {
   "property": "C63",
   "status": "partial",
   "theorems": [
    "Goexpdt.Props.C63_partial",
    "Goexpdt.Props.C63_not_checked",
    "Goexpdt.Props.C63_refuted"
   ],
   "note": "False for the code (which has a TODO there): only os.Stat is called. A program that is not a solver can make true queries evaluate to false (C63_refuted). Holds for paths without a file; programs that cannot be executed or do not exit with 10 or 20 are reported by every evaluation."
  },
  {
   "property": "C64",
   "status": "proved",
   "theorems": [
    "Goexpdt.Props.C64_step",
    "Goexpdt.Props.C64_same_as_without_files",
    "Goexpdt.Props.C64_solver",
    "Goexpdt.Props.C64_optim",
    "Goexpdt.Props.C64_optim_result",
    "Goexpdt.Props.C64_exclusive_needed"
   ],
   "note": "Assumes that os.CreateTemp never takes a path in use (C64_exclusive_needed) and that no other process changes the files."
  },
  {
   "property": "C65",
   "status": "proved",
   "theorems": [
    "Goexpdt.Props.C65_dynamic",
    "Goexpdt.Props.C65_generalises"
   ],
   "note": "Includes the queries of C39."
  },
  {
   "property": "C66",
   "status": "proved",
   "theorems": [
    "Goexpdt.Props.C66_first_order",
    "Goexpdt.Props.C66_generalises",
    "Goexpdt.Props.C66_lexical_needed"
   ],
   "note": "Includes the queries of C40. That the other conditions are needed is shown by C40_not_withVar and C40_declared_twice."
  },
  {
   "property": "C67",
   "status": "proved",
   "theorems": [
    "Goexpdt.Props.C67_ends",
    "Goexpdt.Props.C67_forever",
    "Goexpdt.Props.C67_ends_iff",
    "Goexpdt.Props.C67_may_end_iff"
   ],
   "note": ""
  },
  {
   "property": "C68",
   "status": "proved",
   "theorems": [
    "Goexpdt.Props.C68_permits",
    "Goexpdt.Props.C68_missing",
    "Goexpdt.Props.C68_atom",
    "Goexpdt.Props.C68_and",
    "Goexpdt.Props.C68_or",
    "Goexpdt.Props.C68_optim"
   ],
   "note": "The counterpart of the refutation of C51."
  },
  {
   "property": "C69",
   "status": "proved",
   "theorems": [
    "Goexpdt.Props.C69_pairs",
    "Goexpdt.Props.C69_sorted",
    "Goexpdt.Props.C69_others",
    "Goexpdt.Props.C69_apart",
    "Goexpdt.Props.C69_separator_needed"
   ],
   "note": "Strings are lists of characters; Go compares bytes, which for UTF-8 is the same order."
  },
  {
   "property": "C70",
   "status": "partial",
   "theorems": [
    "Goexpdt.Props.C70_declared_partial",
    "Goexpdt.Props.C70_numbers",
    "Goexpdt.Props.C70_unknown",
    "Goexpdt.Props.C70_refuted"
   ],
   "note": "False for the code: for a variable that the context does not know, Values returns a constant without values and no error, and gives it numbers; a later WithVar for it then omits the consistency clauses and a false query evaluates to true (C70_refuted). Proved for declared variables."
  },
  {
   "property": "C71",
   "status": "proved",
   "theorems": [
    "Goexpdt.Props.C71_text",
    "Goexpdt.Props.C71_tree",
    "Goexpdt.Props.C71_none_iff",
    "Goexpdt.Props.C71_evaluation",
    "Goexpdt.Props.C71_operators",
    "Goexpdt.Props.C71_declaration",
    "Goexpdt.Props.C71_quantifier"
   ],
   "note": "Panics (nil interface value, empty preference) are part of the statement; their texts are not."
  },
  {
   "property": "C72",
   "status": "partial",
   "theorems": [
    "Goexpdt.Props.C72_exactly",
    "Goexpdt.Props.C72_valid",
    "Goexpdt.Props.C72_accepts",
    "Goexpdt.Props.C72_partial",
    "Goexpdt.Props.C72_negative_refuted",
    "Goexpdt.Props.C72_repeated_refuted"
   ],
   "note": "False for the code: all negative literals are written as the same character, and only one inclusion is tested. C72_exactly says what is accepted (for literals below 55296). C72_partial: it holds without negative literals and repeated clauses."
  },
  {
   "property": "C73",
   "status": "partial",
   "theorems": [
    "Goexpdt.Props.C73_exactly",
    "Goexpdt.Props.C73_accepts_partial",
    "Goexpdt.Props.C73_refuted"
   ],
   "note": "False for the code: children are not tested (the condition on features is written twice), and features of leaves are, which encoding does not look at. C73_exactly says what is accepted."
  },
  {
   "property": "C74",
   "status": "proved",
   "theorems": [
    "Goexpdt.Props.C74_found",
    "Goexpdt.Props.C74_optimum_iff",
    "Goexpdt.Props.C74_binSolver",
    "Goexpdt.Props.C74_orders",
    "Goexpdt.Props.C74_two_calls"
   ],
   "note": "C68_optim says when nothing is found. The solver must not go on after an encoding error and must return constants of features; C74_binSolver shows that binSolver does."
  },
  {
   "property": "C75",
   "status": "proved",
   "theorems": [
    "Goexpdt.Props.C75_shared",
    "Goexpdt.Props.C75_generalises",
    "Goexpdt.Props.C75_blind",
    "Goexpdt.Props.C75_exact",
    "Goexpdt.Props.C75_nodes",
    "Goexpdt.Props.C75_full",
    "Goexpdt.Props.C75_leaf",
    "Goexpdt.Props.C75_first",
    "Goexpdt.Props.C75_preferences"
   ],
   "note": "C36, C37 and C38 show that sharing can be wrong; this says what the result means. C75_blind: the same for the corner cases of C34. For leh between two variables the consistency clauses fix the auxiliary variables only as far as both are defined, so there C75_shared gives two bounds and C75_exact needs its condition."
  },
  {
   "property": "C76",
   "status": "proved",
   "theorems": [
    "Goexpdt.Props.C76_query",
    "Goexpdt.Props.C76_and",
    "Goexpdt.Props.C76_or",
    "Goexpdt.Props.C76_sat",
    "Goexpdt.Props.C76_find",
    "Goexpdt.Props.C76_optim",
    "Goexpdt.Props.C76_session"
   ],
   "note": "Queries may declare variables several times, as in C66; orders given to ComputeOptim are strict. C51 shows what goes wrong when calls share names."
  },
  {
   "property": "C77",
   "status": "proved",
   "theorems": [
    "Goexpdt.Props.C77_allcomp_any",
    "Goexpdt.Props.C77_allcomp",
    "Goexpdt.Props.C77_isnode",
    "Goexpdt.Props.C77_dfs_wrong",
    "Goexpdt.Props.C77_quantifier_wrong"
   ],
   "note": "C77_dfs_wrong and C77_quantifier_wrong are witnesses that dfs.Const and ForAllGuarded need a tree; C39_tree_needed shows this for the types with a variable."
  },
  {
   "property": "C78",
   "status": "proved",
   "theorems": [
    "Goexpdt.Props.C78_content",
    "Goexpdt.Props.C78_content_read",
    "Goexpdt.Props.C78_model_free",
    "Goexpdt.Props.C78_exact"
   ],
   "note": "C78_content_read: each part of the content does matter."
  },
  {
   "property": "C79",
   "status": "proved",
   "theorems": [
    "Goexpdt.Props.C79_passed",
    "Goexpdt.Props.C79_verdict",
    "Goexpdt.Props.C79_complaints",
    "Goexpdt.Props.C79_pinned",
    "Goexpdt.Props.C79_lel_rows"
   ],
   "note": "C79_lel_rows: the instance for one of the test files, for every row it can be given."
  },
  {
   "property": "C80",
   "status": "proved",
   "theorems": [
    "Goexpdt.Props.C80_scopes",
    "Goexpdt.Props.C80_first_order"
   ],
   "note": ""
  },
  {
   "property": "C81",
   "status": "proved",
   "theorems": [
    "Goexpdt.Props.C81_shift",
    "Goexpdt.Props.C81_new_context",
    "Goexpdt.Props.C81_models",
    "Goexpdt.Props.C81_shared_names"
   ],
   "note": "C81_shared_names: the condition on the names is needed. The top variable of the CNF is shifted too, unless it is 0 in both."
  },
  {
   "property": "C82",
   "status": "proved",
   "theorems": [
    "Goexpdt.Props.C82_encode",
    "Goexpdt.Props.C82_sat",
    "Goexpdt.Props.C82_search",
    "Goexpdt.Props.C82_rename",
    "Goexpdt.Props.C82_rename_answers",
    "Goexpdt.Props.C82_merged"
   ],
   "note": "C82_merged: different names must stay different."
  },
  {
   "property": "C83",
   "status": "proved",
   "theorems": [
    "Goexpdt.Props.C83_format",
    "Goexpdt.Props.C83_errors",
    "Goexpdt.Props.C83_nothing",
    "Goexpdt.Props.C83_correct",
    "Goexpdt.Props.C83_reliable",
    "Goexpdt.Props.C83_solves",
    "Goexpdt.Props.C83_more",
    "Goexpdt.Props.C83_decision",
    "Goexpdt.Props.C83_silent"
   ],
   "note": "C83_correct is the hypothesis of the theorems on evaluations and searches (C42, C44, C46, C76 and others), so these hold for such solvers. C83_silent: for values the exit code does not suffice."
  },
  {
   "property": "C84",
   "status": "proved",
   "theorems": [
    "Goexpdt.Props.C84_faithful",
    "Goexpdt.Props.C84_first_order",
    "Goexpdt.Props.C84_atom",
    "Goexpdt.Props.C84_optimum",
    "Goexpdt.Props.C84_optim_ends",
    "Goexpdt.Props.C84_library",
    "Goexpdt.Props.C84_clauses",
    "Goexpdt.Props.C84_every",
    "Goexpdt.Props.C84_needed"
   ],
   "note": "C84_needed is a witness that the contract cannot be weakened to being right at the top of a query."
  },
  {
   "property": "C85",
   "status": "proved",
   "theorems": [
    "Goexpdt.Props.C85_meets",
    "Goexpdt.Props.C85_first_order",
    "Goexpdt.Props.C85_allcomp",
    "Goexpdt.Props.C85_once",
    "Goexpdt.Props.C85_isnode",
    "Goexpdt.Props.C85_sound",
    "Goexpdt.Props.C85_answers",
    "Goexpdt.Props.C85_dfs_wrong",
    "Goexpdt.Props.C85_quantifier_wrong"
   ],
   "note": "C85_dfs_wrong and C85_quantifier_wrong are witnesses for the last part of the statement."
  },
  {
   "property": "C86",
   "status": "proved",
   "theorems": [
    "Goexpdt.Props.C86_minimum_reason",
    "Goexpdt.Props.C86_least_dfs",
    "Goexpdt.Props.C86_minimal_dfs",
    "Goexpdt.Props.C86_minimum_change",
    "Goexpdt.Props.C86_maximum_change",
    "Goexpdt.Props.C86_generators"
   ],
   "note": "The minimal sufficient reason is C55. The formulas other than that of examples/computation.go are not in the repository; they are what a user would write for these notions. C86_generators: the conditions on names hold for the generators of query/internal/test."
  },
  {
   "property": "C87",
   "status": "proved",
   "theorems": [
    "Goexpdt.Props.C87_basic",
    "Goexpdt.Props.C87_same",
    "Goexpdt.Props.C87_faithful",
    "Goexpdt.Props.C87_first_order",
    "Goexpdt.Props.C87_names_basic",
    "Goexpdt.Props.C87_tidy",
    "Goexpdt.Props.C87_other",
    "Goexpdt.Props.C87_documented_not_enough"
   ],
   "note": "C87_other: a context other than the basic one that keeps the contract. C87_documented_not_enough: the condition on ScopeVar in query/scoper.go:11-15 does not suffice. Slices that a context shares with the caller are not modelled."
  },
  {
   "property": "C88",
   "status": "proved",
   "theorems": [
    "Goexpdt.Props.C88_same",
    "Goexpdt.Props.C88_untouched",
    "Goexpdt.Props.C88_constants",
    "Goexpdt.Props.C88_faithful",
    "Goexpdt.Props.C88_leafs",
    "Goexpdt.Props.C88_slices_change"
   ],
   "note": "C88_slices_change: the sharing is visible to a component of the user's own that keeps the slice of a scoped constant and reads it later. A predicate reads a constant's values when it calls ScopeConst."
  },
  {
   "property": "C89",
   "status": "proved",
   "theorems": [
    "Goexpdt.Props.C89_basic",
    "Goexpdt.Props.C89_resets",
    "Goexpdt.Props.C89_binSolver",
    "Goexpdt.Props.C89_reliable",
    "Goexpdt.Props.C89_values",
    "Goexpdt.Props.C89_query",
    "Goexpdt.Props.C89_and",
    "Goexpdt.Props.C89_or",
    "Goexpdt.Props.C89_optimum",
    "Goexpdt.Props.C89_absent",
    "Goexpdt.Props.C89_rank",
    "Goexpdt.Props.C89_strict",
    "Goexpdt.Props.C89_usable",
    "Goexpdt.Props.C89_optimises",
    "Goexpdt.Props.C89_usable_fit",
    "Goexpdt.Props.C89_solver_exists",
    "Goexpdt.Props.C89_test",
    "Goexpdt.Props.C89_own_name"
   ],
   "note": "C89_basic: with the basic context these are the functions of C43 to C48. C89_absent is for executions in which the temporary file can be created (the exception is that of C47). C89_own_name is the witness for the last part of the statement."
  },
  {
   "property": "C90",
   "status": "proved",
   "theorems": [
    "Goexpdt.Props.C90_results",
    "Goexpdt.Props.C90_files",
    "Goexpdt.Props.C90_clean",
    "Goexpdt.Props.C90_progress",
    "Goexpdt.Props.C90_ends",
    "Goexpdt.Props.C90_finishes",
    "Goexpdt.Props.C90_optimum",
    "Goexpdt.Props.C90_test",
    "Goexpdt.Props.C90_fixed_name",
    "Goexpdt.Props.C90_shared_solver"
   ],
   "note": "CreateTemp chooses a path that no file has and that no other process uses (the standard library opens with O_EXCL). Computations in memory are no turns: nothing in memory is shared. C90_ends: the loop of ComputeOptim is cut off after any given number of rounds, as in C48 and C49. C90_shared_solver is the witness for the last part of the statement."
  },
  {
   "property": "C91",
   "status": "proved",
   "theorems": [
    "Goexpdt.Props.C91_wrap",
    "Goexpdt.Props.C91_cnfVar",
    "Goexpdt.Props.C91_negate",
    "Goexpdt.Props.C91_encode",
    "Goexpdt.Props.C91_size",
    "Goexpdt.Props.C91_meaning",
    "Goexpdt.Props.C91_overflow",
    "Goexpdt.Props.C91_atoi",
    "Goexpdt.Props.C91_values",
    "Goexpdt.Props.C91_out_of_range",
    "Goexpdt.Props.C91_step",
    "Goexpdt.Props.C91_sat",
    "Goexpdt.Props.C91_optim",
    "Goexpdt.Props.C91_optimum",
    "Goexpdt.Props.C91_test"
   ],
   "note": "C91_overflow is the witness for the last part of the statement. Lengths, loop indexes and counters are exact, and so is the negation of a number (it differs for -2^63 only)."
  },
  {
   "property": "C92",
   "status": "proved",
   "theorems": [
    "Goexpdt.Props.C92_meaning",
    "Goexpdt.Props.C92_good",
    "Goexpdt.Props.C92_faithful",
    "Goexpdt.Props.C92_answer",
    "Goexpdt.Props.C92_not",
    "Goexpdt.Props.C92_first_order",
    "Goexpdt.Props.C92_about",
    "Goexpdt.Props.C92_optimum"
   ],
   "note": "Moving a declaration out of a negation is a law of the encoding (WithVar only declares), not of first-order logic; C92_first_order therefore speaks of the query that meets the conditions of C40. C92_about and C92_optimum need these conditions on both sides."
  },
  {
   "property": "C93",
   "status": "proved",
   "theorems": [
    "Goexpdt.Props.C93_meaning",
    "Goexpdt.Props.C93_classify",
    "Goexpdt.Props.C93_model",
    "Goexpdt.Props.C93_good",
    "Goexpdt.Props.C93_satisfiable",
    "Goexpdt.Props.C93_answer",
    "Goexpdt.Props.C93_optimum",
    "Goexpdt.Props.C93_found"
   ],
   "note": "The conditions of C39 on names are asked for in both presentations, because names of auxiliary variables contain values of constants and features of preferences; C93_good: by C54 they follow from conditions that do not change, except that different preferences need different names. C93_found is for executions in which the temporary file can be created (the exception is that of C47)."
  },
  {
   "property": "C94",
   "status": "proved",
   "theorems": [
    "Goexpdt.Props.C94_negate",
    "Goexpdt.Props.C94_unique",
    "Goexpdt.Props.C94_reads",
    "Goexpdt.Props.C94_models",
    "Goexpdt.Props.C94_count",
    "Goexpdt.Props.C94_sound",
    "Goexpdt.Props.C94_measures",
    "Goexpdt.Props.C94_not"
   ],
   "note": "C94_not is the witness for the last part of the statement. The variables that count are those that occur in the CNF: the header of the file may announce further ones (numbers given out before), on which any valuation will do."
  },
  {
   "property": "C95",
   "status": "proved",
   "theorems": [
    "Goexpdt.Props.C95_negate",
    "Goexpdt.Props.C95_finds",
    "Goexpdt.Props.C95_decides",
    "Goexpdt.Props.C95_measures",
    "Goexpdt.Props.C95_full",
    "Goexpdt.Props.C95_closed",
    "Goexpdt.Props.C95_chosen",
    "Goexpdt.Props.C95_decides_chosen",
    "Goexpdt.Props.C95_not"
   ],
   "note": "fixedTo adds unit clauses with all three literals of every feature of every query variable (which value it has and which it does not have); by C95_chosen the positive ones are enough. C95_not is the witness for the last part of the statement."
  },
  {
   "property": "C96",
   "status": "partial",
   "theorems": [
    "Goexpdt.Props.C96_is",
    "Goexpdt.Props.C96_quiet",
    "Goexpdt.Props.C96_sat_partial",
    "Goexpdt.Props.C96_sat_library",
    "Goexpdt.Props.C96_optim_partial",
    "Goexpdt.Props.C96_same",
    "Goexpdt.Props.C96_same_optim",
    "Goexpdt.Props.C96_library",
    "Goexpdt.Props.C96_carry",
    "Goexpdt.Props.C96_sat_not",
    "Goexpdt.Props.C96_optim_not"
   ],
   "note": "Proved for all queries of the library, and with components of the user whose errors do not wrap UnsatError. For others the claim is false: errors.Is takes the error of the encoding for the answer of the solver (C96_sat_not, C96_optim_not)."
  },
  {
   "property": "C97",
   "status": "proved",
   "theorems": [
    "Goexpdt.Props.C97_any",
    "Goexpdt.Props.C97_isnode",
    "Goexpdt.Props.C97_not_isnode",
    "Goexpdt.Props.C97_allcomp",
    "Goexpdt.Props.C97_not_allcomp",
    "Goexpdt.Props.C97_diagram",
    "Goexpdt.Props.C97_missing",
    "Goexpdt.Props.C97_stray"
   ],
   "note": "C97_missing and C97_stray are witnesses for the last two parts of the statement. Queries with dfs, isnode.Const and quantifiers are not in the fragment of this property (isnode.Const on diagrams is in C77). The two cases of leh in which the code is wrong (C34) and lists of preferences that are empty, repeat a feature or have one out of range (C33) are excluded, as in C39."
  },
  {
   "property": "C98",
   "status": "proved",
   "theorems": [
    "Goexpdt.Props.C98_decides",
    "Goexpdt.Props.C98_sat",
    "Goexpdt.Props.C98_optimum",
    "Goexpdt.Props.C98_diagram",
    "Goexpdt.Props.C98_level",
    "Goexpdt.Props.C98_computation",
    "Goexpdt.Props.C98_minimum",
    "Goexpdt.Props.C98_missed",
    "Goexpdt.Props.C98_not_minimal"
   ],
   "note": "C98_missed and C98_not_minimal are witnesses for the last part of the statement. That ComputeOptim ends is shown for the program of examples/computation.go and, with the order of the number of undefined features, for all formulas of the fragment; for other formulas and orders C48 applies. That nothing is returned exactly if no instance satisfies the formula is for executions in which the temporary file can be created (the exception is that of C47)."
  },
  {
   "property": "C99",
   "status": "proved",
   "theorems": [
    "Goexpdt.Props.C99_walk",
    "Goexpdt.Props.C99_first",
    "Goexpdt.Props.C99_query",
    "Goexpdt.Props.C99_dfs",
    "Goexpdt.Props.C99_tree",
    "Goexpdt.Props.C99_sat",
    "Goexpdt.Props.C99_optimum",
    "Goexpdt.Props.C99_least_dfs",
    "Goexpdt.Props.C99_minimal_dfs",
    "Goexpdt.Props.C99_evaluation",
    "Goexpdt.Props.C99_dfs_wrong"
   ],
   "note": "C99_dfs_wrong is the witness for the last part of the statement. The predicates that mark nodes are those of C97 and C98. Witnesses that the meaning differs from the intended one on diagrams are in C77 (C77_dfs_wrong, C77_quantifier_wrong). The conditions on preferences and on leh are those of C39."
  },
  {
   "property": "C100",
   "status": "proved",
   "theorems": [
    "Goexpdt.Props.C100_query",
    "Goexpdt.Props.C100_sat",
    "Goexpdt.Props.C100_optimum",
    "Goexpdt.Props.C100_least_dfs",
    "Goexpdt.Props.C100_minimal_dfs",
    "Goexpdt.Props.C100_evaluation",
    "Goexpdt.Props.C100_leafless",
    "Goexpdt.Props.C100_walk",
    "Goexpdt.Props.C100_kept",
    "Goexpdt.Props.C100_dfs",
    "Goexpdt.Props.C100_found",
    "Goexpdt.Props.C100_dfs_wrong"
   ],
   "note": "C100_dfs_wrong is the witness for the last part of the statement. isnode and allcomp on such models are in C77, C85, C97 and C98. Together with C85 this covers what all predicates say on trees that decide on a feature several times. That nothing is returned exactly if no instance satisfies the formula is for executions in which the temporary file can be created (the exception is that of C47). The conditions on preferences and on leh are those of C39."
  },
  {
   "property": "C101",
   "status": "proved",
   "theorems": [
    "Goexpdt.Props.C101_own",
    "Goexpdt.Props.C101_const",
    "Goexpdt.Props.C101_meets",
    "Goexpdt.Props.C101_query",
    "Goexpdt.Props.C101_sat",
    "Goexpdt.Props.C101_optimum",
    "Goexpdt.Props.C101_once",
    "Goexpdt.Props.C101_sound",
    "Goexpdt.Props.C101_answers"
   ],
   "note": "Quantifiers range over what C100_walk says is reported. Names of auxiliary variables must not clash (C75 is about clashes). That nothing is returned exactly if no instance satisfies the formula is for executions in which the temporary file can be created (the exception is that of C47). The conditions on preferences and on leh are those of C39. How this meaning relates to the intended one: C85 (isnode, allcomp) and C100 (dfs, quantifiers)."
  },
  {
   "property": "C102",
   "status": "proved",
   "theorems": [
    "Goexpdt.Props.C102_isnode",
    "Goexpdt.Props.C102_way",
    "Goexpdt.Props.C102_meets"
   ],
   "note": "The model of the loop has len(nodes) + 1 turns of fuel; the second part of C102_isnode is for any number of turns, and by C28_fuel more turns change nothing where it ends."
  }
 ]
}
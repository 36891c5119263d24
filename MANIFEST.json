{
 "claims": [
  {
   "property": "C01",
   "status": "proved",
   "theorems": [
    "Verif.Props.C01_atoms_unique",
    "Verif.Props.C01_any_schedule",
    "Verif.Props.C01_value_is_equal_not_identical"
   ],
   "note": "C01_atoms_unique: executions in which setdefault acts atomically per key (see C03); C01_any_schedule: all executions, uniqueness for the values without a race. Finding: Integer(True) may return the atom whose value is 1."
  },
  {
   "property": "C02",
   "status": "proved",
   "theorems": [
    "Verif.Props.C02_identity_is_structural",
    "Verif.Props.C02_any_schedule",
    "Verif.Props.C02_constructors"
   ],
   "note": "C02_identity_is_structural: executions in which setdefault acts atomically per key (see C03); the others: all executions, uniqueness for what is built without a race."
  },
  {
   "property": "C03",
   "status": "partial",
   "theorems": [
    "Verif.Props.C03_concurrent_construction_partial",
    "Verif.Props.C03_single_threaded",
    "Verif.Props.C03_duplicates_need_race",
    "Verif.Props.C03_concurrent_construction_false"
   ],
   "note": "Refuted as stated: WeakValueDictionary.setdefault is two dict operations, so two threads can get different objects. Proved when no two threads are inside setdefault for the same key; C03_duplicates_need_race: in every execution, duplicates only come from two threads inside setdefault for the same key."
  },
  {
   "property": "C04",
   "status": "proved",
   "theorems": [
    "Verif.Props.C04_stores",
    "Verif.Props.C04_collectable",
    "Verif.Props.C04_created_afresh"
   ],
   "note": "All executions, whatever the schedule."
  },
  {
   "property": "C05",
   "status": "proved",
   "theorems": [
    "Verif.Props.C05_topological_sort"
   ],
   "note": ""
  },
  {
   "property": "C06",
   "status": "proved",
   "theorems": [
    "Verif.Props.C06_topological_sort_exclude"
   ],
   "note": ""
  },
  {
   "property": "C07",
   "status": "proved",
   "theorems": [
    "Verif.Props.C07_topological_sort_order"
   ],
   "note": ""
  },
  {
   "property": "C08",
   "status": "proved",
   "theorems": [
    "Verif.Props.C08_topological_sort_linear"
   ],
   "note": "Iterations of the loop, counted by an instrumented copy of the loop; cost of one iteration not modelled."
  },
  {
   "property": "C09",
   "status": "proved",
   "theorems": [
    "Verif.Props.C09_topological_split"
   ],
   "note": ""
  },
  {
   "property": "C10",
   "status": "proved",
   "theorems": [
    "Verif.Props.C10_forward_graph_replay",
    "Verif.Props.C10_docstring_claim_false"
   ],
   "note": "The docstring's stronger claim (replayed list == topological_sort) is refuted."
  },
  {
   "property": "C11",
   "status": "partial",
   "theorems": [
    "Verif.Props.C11_subs_simultaneous_partial",
    "Verif.Props.C11_whole_expression",
    "Verif.Props.C11_whole_expression_false"
   ],
   "note": "Full statement refuted when the whole expression is itself a parameter other than the last one: the code returns the last value (C11_whole_expression_false). Proved in every other case."
  },
  {
   "property": "C12",
   "status": "proved",
   "theorems": [
    "Verif.Props.C12_subs_total"
   ],
   "note": ""
  },
  {
   "property": "C13",
   "status": "partial",
   "theorems": [
    "Verif.Props.C13_xreplace_subst_partial",
    "Verif.Props.C13_xreplace_empty",
    "Verif.Props.C13_xreplace_absent",
    "Verif.Props.C13_xreplace_self_partial",
    "Verif.Props.C13_xreplace_self_false",
    "Verif.Props.C13_xreplace_eliminates_partial",
    "Verif.Props.C13_rename_roundtrip",
    "Verif.Props.C13_xreplace_exact",
    "Verif.Props.C13_xreplace_compose",
    "Verif.Props.C13_xreplace_commute"
   ],
   "note": "Same exception as C11: e.xreplace({e: ..., other: ...})."
  },
  {
   "property": "C14",
   "status": "proved",
   "theorems": [
    "Verif.Props.C14_evaluation_structural",
    "Verif.Props.C14_no_values",
    "Verif.Props.C14_supplied_values"
   ],
   "note": ""
  },
  {
   "property": "C15",
   "status": "partial",
   "theorems": [
    "Verif.Props.C15_forward_recursive_agree_partial",
    "Verif.Props.C15_compound_value_false",
    "Verif.Props.C15_none_value_false",
    "Verif.Props.C15_recursive_exact",
    "Verif.Props.C15_recursive_which_exception"
   ],
   "note": "Agreement proved when values are supplied for atoms only and no supplied value is None; both exceptions refuted with witnesses."
  },
  {
   "property": "C16",
   "status": "proved",
   "theorems": [
    "Verif.Props.C16_missing_rules",
    "Verif.Props.C16_exceptions_propagate",
    "Verif.Props.C16_degenerate",
    "Verif.Props.C16_which_exception"
   ],
   "note": ""
  },
  {
   "property": "C17",
   "status": "proved",
   "theorems": [
    "Verif.Props.C17_depends_only_on_occurring",
    "Verif.Props.C17_adding_rules"
   ],
   "note": ""
  },
  {
   "property": "C18",
   "status": "proved",
   "theorems": [
    "Verif.Props.C18_each_evaluated_once"
   ],
   "note": ""
  },
  {
   "property": "C19",
   "status": "proved",
   "theorems": [
    "Verif.Props.C19_transformer_rewrites",
    "Verif.Props.C19_transformer_identity"
   ],
   "note": ""
  },
  {
   "property": "C20",
   "status": "proved",
   "theorems": [
    "Verif.Props.C20_bin_expand_nests",
    "Verif.Props.C20_bin_expand_raises",
    "Verif.Props.C20_bin_expand_binary",
    "Verif.Props.C20_bin_expand_idempotent",
    "Verif.Props.C20_bin_expand_value",
    "Verif.Props.C20_bin_expand_eval_f64",
    "Verif.Props.C20_real_arithmetic"
   ],
   "note": ""
  },
  {
   "property": "C21",
   "status": "proved",
   "theorems": [
    "Verif.Props.C21_counts",
    "Verif.Props.C21_documented_growth"
   ],
   "note": ""
  },
  {
   "property": "C22",
   "status": "proved",
   "theorems": [
    "Verif.Props.C22_diff_is_derivative",
    "Verif.Props.C22_diff_is_derivative_at",
    "Verif.Props.C22_derivative_evaluates",
    "Verif.Props.C22_pow_zero_at_zero"
   ],
   "note": "Exact real arithmetic with Python's pow domain errors; derivative within the domain of e, ordinary derivative at interior points. Rounding and overflow are not modelled."
  },
  {
   "property": "C23",
   "status": "proved",
   "theorems": [
    "Verif.Props.C23_constant_derivative_zero",
    "Verif.Props.C23_zero_only_if_constant"
   ],
   "note": ""
  },
  {
   "property": "C24",
   "status": "proved",
   "theorems": [
    "Verif.Props.C24_diff_fails_iff"
   ],
   "note": "Also raises TypeError when a rule exists for another number of arguments."
  },
  {
   "property": "C25",
   "status": "proved",
   "theorems": [
    "Verif.Props.C25_repeated",
    "Verif.Props.C25_nth_derivative"
   ],
   "note": ""
  },
  {
   "property": "C26",
   "status": "proved",
   "theorems": [
    "Verif.Props.C26_compound_variable"
   ],
   "note": "Distributive (List) heads are kept, so excluded by hypothesis."
  },
  {
   "property": "C27",
   "status": "partial",
   "theorems": [
    "Verif.Props.C27_rule_assignment",
    "Verif.Props.C27_rule_instantiated_partial",
    "Verif.Props.C27_rule_is_parameter_false",
    "Verif.Props.C27_literals_are_parameters",
    "Verif.Props.C27_other_heads_unaffected"
   ],
   "note": "Instantiation refuted when the right-hand side is one of the pattern arguments other than the last (inherited from C11); proved otherwise."
  },
  {
   "property": "C28",
   "status": "proved",
   "theorems": [
    "Verif.Props.C28_distributive"
   ],
   "note": ""
  },
  {
   "property": "C29",
   "status": "proved",
   "theorems": [
    "Verif.Props.C29_matrix_entries",
    "Verif.Props.C29_matrix_rejects"
   ],
   "note": ""
  },
  {
   "property": "C30",
   "status": "proved",
   "theorems": [
    "Verif.Props.C30_indexing",
    "Verif.Props.C30_tolist"
   ],
   "note": "Matrices made by the constructor, binop/addition and diff (with List distributive)."
  },
  {
   "property": "C31",
   "status": "proved",
   "theorems": [
    "Verif.Props.C31_addition"
   ],
   "note": "Operands unchanged: see C49."
  },
  {
   "property": "C32",
   "status": "partial",
   "theorems": [
    "Verif.Props.C32_binop_entries",
    "Verif.Props.C32_binop_elementwise_partial",
    "Verif.Props.C32_binop_any_operation_false"
   ],
   "note": "Exact behaviour proved for every f (C32_binop_entries); elementwise meaning proved when 0 is neutral for f; refuted for Mul."
  },
  {
   "property": "C33",
   "status": "proved",
   "theorems": [
    "Verif.Props.C33_diff_elementwise",
    "Verif.Props.C33_zero_variable",
    "Verif.Props.C33_sequence"
   ],
   "note": "Exactly when, for x other than Integer(0); at x = Integer(0) refuted by C33_zero_variable."
  },
  {
   "property": "C34",
   "status": "proved",
   "theorems": [
    "Verif.Props.C34_ssa",
    "Verif.Props.C34_bad_names_false"
   ],
   "note": "Exact characterisation by the printed parameter names; four kinds of bad names refuted."
  },
  {
   "property": "C35",
   "status": "proved",
   "theorems": [
    "Verif.Props.C35_computes_expression",
    "Verif.Props.C35_generated",
    "Verif.Props.C35_bin_expand_same"
   ],
   "note": "For an arbitrary arithmetic of the machine; LLVM's optimiser and code generator are not modelled."
  },
  {
   "property": "C36",
   "status": "proved",
   "theorems": [
    "Verif.Props.C36_ssa",
    "Verif.Props.C36_fills_array",
    "Verif.Props.C36_writes_once",
    "Verif.Props.C36_generated",
    "Verif.Props.C36_call",
    "Verif.Props.C36_exceptions_false"
   ],
   "note": "For an arbitrary machine arithmetic. Exceptions refuted with witnesses: parameter named _out, more than 2^31 entries (the gep offset is an i32), Integer(0) as a parameter."
  },
  {
   "property": "C37",
   "status": "partial",
   "theorems": [
    "Verif.Props.C37_accepted_iff",
    "Verif.Props.C37_refused",
    "Verif.Props.C37_not_implemented",
    "Verif.Props.C37_malformed_arity_false",
    "Verif.Props.C37_lambdify",
    "Verif.Props.C37_matrix_accepted_iff"
   ],
   "note": "Acceptance and the error are characterised exactly. The clause that malformed arities are refused is refuted: superfluous arguments of sin, cos and pow are silently ignored."
  },
  {
   "property": "C38",
   "status": "partial",
   "theorems": [
    "Verif.Props.C38_lambdify_partial",
    "Verif.Props.C38_bin_expand_partial",
    "Verif.Props.C38_exact_partial",
    "Verif.Props.C38_sums_false",
    "Verif.Props.C38_raises_false",
    "Verif.Props.C38_matrix_partial",
    "Verif.Props.C38_matrix_exact_partial"
   ],
   "note": "Agreement proved whenever eval_f64 returns, for arithmetics in which fsum of the occurring numbers of terms is repeated fadd; always for e.bin_expand(); always without rounding. Refuted in general: fsum rounds once (Add(10**16,1,-10**16)), and eval_f64 raises where the compiled code returns (0**-1, sin(x, y))."
  },
  {
   "property": "C39",
   "status": "proved",
   "theorems": [
    "Verif.Props.C39_rule_accepted_iff",
    "Verif.Props.C39_wrapper_arity",
    "Verif.Props.C39_builtin_rules_accepted"
   ],
   "note": ""
  },
  {
   "property": "C40",
   "status": "proved",
   "theorems": [
    "Verif.Props.C40_operators",
    "Verif.Props.C40_operators_injective",
    "Verif.Props.C40_operator_values"
   ],
   "note": ""
  },
  {
   "property": "C41",
   "status": "proved",
   "theorems": [
    "Verif.Props.C41_expressify",
    "Verif.Props.C41_call"
   ],
   "note": ""
  },
  {
   "property": "C42",
   "status": "partial",
   "theorems": [
    "Verif.Props.C42_unambiguous_partial",
    "Verif.Props.C42_exact",
    "Verif.Props.C42_readable_prints",
    "Verif.Props.C42_ambiguous_false"
   ],
   "note": "Injective on readable expressions (names as symbols, sums of at least 2 terms, no power as a base, no bare functions); C42_exact says for all expressions with proper names exactly which print alike: those equal up to the bracketing of powers of powers, Add/Mul of fewer than two terms, and a Function as argument in place of the Symbol; refuted in general, e.g. (x**y)**z and x**(y**z) both print x**y**z."
  },
  {
   "property": "C43",
   "status": "proved",
   "theorems": [
    "Verif.Props.C43_from_sympy",
    "Verif.Props.C43_unconvertible",
    "Verif.Props.C43_to_sympy",
    "Verif.Props.C43_round_trip_sympy",
    "Verif.Props.C43_round_trip",
    "Verif.Props.C43_round_trip_false"
   ],
   "note": "SymPy's constructors are an arbitrary parameter (they may rewrite or raise); equality of SymPy objects is structural. C43_round_trip_false lists what does not round-trip: functions without arguments, calls of calls, assumptions, undefined functions named like built-in heads, bare functions (TypeError)."
  },
  {
   "property": "C44",
   "status": "proved",
   "theorems": [
    "Verif.Props.C44_to_sympy",
    "Verif.Props.C44_from_sympy",
    "Verif.Props.C44_round_trip",
    "Verif.Props.C44_zero_matrix_false"
   ],
   "note": "sympy.Tuple keeps its arguments and Integer(0) is 0; everything else of SymPy arbitrary. Every order of todok(). C44_zero_matrix_false: a matrix of zeros cannot come back."
  },
  {
   "property": "C45",
   "status": "proved",
   "theorems": [
    "Verif.Props.C45_exact",
    "Verif.Props.C45_nearest",
    "Verif.Props.C45_too_large"
   ],
   "note": ""
  },
  {
   "property": "C46",
   "status": "proved",
   "theorems": [
    "Verif.Props.C46_repr",
    "Verif.Props.C46_latex",
    "Verif.Props.C46_repr_returns",
    "Verif.Props.C46_latex_returns",
    "Verif.Props.C46_matrix"
   ],
   "note": "For proper expressions, i.e. without the degenerate Tree() inside."
  },
  {
   "property": "C47",
   "status": "proved",
   "theorems": [
    "Verif.Props.C47_substitution"
   ],
   "note": "For every evaluator; the proviso on heads and on e itself is in the statement of the property."
  },
  {
   "property": "C48",
   "status": "proved",
   "theorems": [
    "Verif.Props.C48_topological_sort",
    "Verif.Props.C48_forward_graph",
    "Verif.Props.C48_subs",
    "Verif.Props.C48_diff",
    "Verif.Props.C48_diff_symbols",
    "Verif.Props.C48_evaluate",
    "Verif.Props.C48_eval_f64",
    "Verif.Props.C48_bin_expand"
   ],
   "note": ""
  },
  {
   "property": "C49",
   "status": "proved",
   "theorems": [
    "Verif.Props.C49_new",
    "Verif.Props.C49_binop",
    "Verif.Props.C49_diff",
    "Verif.Props.C49_getitem",
    "Verif.Props.C49_tolist",
    "Verif.Props.C49_immutable",
    "Verif.Props.C49_sharing"
   ],
   "note": "Heap model of Python lists and dicts; programs do not assign to the attributes elements/entrymap of a matrix themselves (C49_sharing says what would happen)."
  },
  {
   "property": "C50",
   "status": "proved",
   "theorems": [
    "Verif.Props.C50_text",
    "Verif.Props.C50_text_matrix",
    "Verif.Props.C50_text_computes",
    "Verif.Props.C50_text_fills",
    "Verif.Props.C50_names_not_escaped_false"
   ],
   "note": "Spec/LLVMText.lean is a lexer and parser for the fragment of LLVM assembly. C50_names_not_escaped_false: a name with quotes in it turns the text into that of another valid function (names are not escaped), hence the condition on names."
  },
  {
   "property": "C51",
   "status": "proved",
   "theorems": [
    "Verif.Props.C51_eval_f64",
    "Verif.Props.C51_no_values",
    "Verif.Props.C51_raises",
    "Verif.Props.C51_total_arithmetic"
   ],
   "note": "For an arbitrary arithmetic (rounding is not modelled)."
  },
  {
   "property": "C52",
   "status": "proved",
   "theorems": [
    "Verif.Props.C52_diff_exact",
    "Verif.Props.C52_builtin",
    "Verif.Props.C52_which_exception"
   ],
   "note": ""
  },
  {
   "property": "C53",
   "status": "proved",
   "theorems": [
    "Verif.Props.C53_right_rules",
    "Verif.Props.C53_builtin",
    "Verif.Props.C53_new_function",
    "Verif.Props.C53_unary",
    "Verif.Props.C53_rule_is_parameter_false"
   ],
   "note": "Exact real arithmetic. Rules must have atoms as pattern arguments that do not occur in heads, and a right-hand side that is neither 0 nor a pattern argument: C53_rule_is_parameter_false shows that the property fails for the latter."
  },
  {
   "property": "C54",
   "status": "proved",
   "theorems": [
    "Verif.Props.C54_total",
    "Verif.Props.C54_eval_repr",
    "Verif.Props.C54_eval_repr_sym",
    "Verif.Props.C54_injective",
    "Verif.Props.C54_simplecas",
    "Verif.Props.C54_same_name_false"
   ],
   "note": "Atom values int and str without lone surrogates. C54_same_name_false: two atom types may have the same name (funcs_symbols makes new ones at every call), then different trees print the same; hence the condition on the scope."
  },
  {
   "property": "C55",
   "status": "proved",
   "theorems": [
    "Verif.Props.C55_rules_decide",
    "Verif.Props.C55_raises"
   ],
   "note": ""
  },
  {
   "property": "C56",
   "status": "proved",
   "theorems": [
    "Verif.Props.C56_diff",
    "Verif.Props.C56_diff_builtin",
    "Verif.Props.C56_diff_repeated",
    "Verif.Props.C56_subs",
    "Verif.Props.C56_xreplace",
    "Verif.Props.C56_bin_expand",
    "Verif.Props.C56_code",
    "Verif.Props.C56_code_matrix",
    "Verif.Props.C56_matrix_diff",
    "Verif.Props.C56_bin_expand_edges"
   ],
   "note": ""
  },
  {
   "property": "C57",
   "status": "proved",
   "theorems": [
    "Verif.Props.C57_diff_xreplace",
    "Verif.Props.C57_builtin",
    "Verif.Props.C57_dependent_false",
    "Verif.Props.C57_bare_false"
   ],
   "note": "the two _false theorems show that the conditions on c are needed"
  },
  {
   "property": "C58",
   "status": "proved",
   "theorems": [
    "Verif.Props.C58_order_of_differentiation",
    "Verif.Props.C58_mixed_partials",
    "Verif.Props.C58_matrix"
   ],
   "note": "built-in differentiator, exact real arithmetic with Python's domain errors"
  },
  {
   "property": "C59",
   "status": "proved",
   "theorems": [
    "Verif.Props.C59_expression",
    "Verif.Props.C59_matrix",
    "Verif.Props.C59_arrays",
    "Verif.Props.C59_wrong_arguments",
    "Verif.Props.C59_parameter_limit",
    "Verif.Props.C59_failure",
    "Verif.Props.C59_never_freed",
    "Verif.Props.C59_shape"
   ],
   "note": "LLVM is a parameter that is assumed to accept well-formed modules and to compile them correctly (PlatformOK); legal parameter names as in C34. C59_never_freed: compiled code is never released, also when no function refers to it."
  },
  {
   "property": "C60",
   "status": "proved",
   "theorems": [
    "Verif.Props.C60_parameters",
    "Verif.Props.C60_composition",
    "Verif.Props.C60_matrix_entries"
   ],
   "note": "Under PlatformOK (LLVM compiles correctly), legal parameter names as in C34; C60_composition with the proviso of C13 (the expression is not itself one of several replaced symbols)."
  },
  {
   "property": "C61",
   "status": "proved",
   "theorems": [
    "Verif.Props.C61_compilable",
    "Verif.Props.C61_derivative",
    "Verif.Props.C61_matrix",
    "Verif.Props.C61_elementary",
    "Verif.Props.C61_nth",
    "Verif.Props.C61_elementary_nth",
    "Verif.Props.C61_low_exponent_boundary",
    "Verif.Props.C61_matrix_nth"
   ],
   "note": "Exact real arithmetic (integer constants as the doubles they become), under PlatformOK; 'no domain error' is that eval_f64 returns."
  },
  {
   "property": "C62",
   "status": "proved",
   "theorems": [
    "Verif.Props.C62_lambdify",
    "Verif.Props.C62_eval_f64",
    "Verif.Props.C62_agree",
    "Verif.Props.C62_matrix",
    "Verif.Props.C62_binary64",
    "Verif.Props.C62_binary64_python"
   ],
   "note": "For every arithmetic of the given accuracy; C62_binary64 and C62_binary64_python: IEEE-754 doubles (sums and products rounded to nearest, pow, sin and cos within one unit in the last place) are such. Under PlatformOK, as C59."
  },
  {
   "property": "C63",
   "status": "proved",
   "theorems": [
    "Verif.Props.C63_latex_unambiguous",
    "Verif.Props.C63_latex_exact"
   ],
   "note": "Names: a letter or underscore followed by letters, digits and underscores (ASCII letters)."
  },
  {
   "property": "C64",
   "status": "proved",
   "theorems": [
    "Verif.Props.C64_derivative",
    "Verif.Props.C64_matrix",
    "Verif.Props.C64_nth",
    "Verif.Props.C64_order",
    "Verif.Props.C64_order_poles"
   ],
   "note": "Under PlatformOK; arithmetics as in C62. C64_order and C64_order_poles: integers up to 2^53, arithmetic of sufficient range; C64_order_poles: u up to a U > 0 that depends on the expression and the point, and the bases of powers with exponents below n are not 0 there."
  },
  {
   "property": "C65",
   "status": "proved",
   "theorems": [
    "Verif.Props.C65_topological_sort",
    "Verif.Props.C65_topological_split",
    "Verif.Props.C65_forward_graph",
    "Verif.Props.C65_subsfunc",
    "Verif.Props.C65_subs_call",
    "Verif.Props.C65_diff",
    "Verif.Props.C65_rules",
    "Verif.Props.C65_evaluate",
    "Verif.Props.C65_sym_evaluate",
    "Verif.Props.C65_history"
   ],
   "note": "Lists, sets and dicts are objects on a heap. The caller is arbitrary but does not write to the attributes of SubsFunc and DiffProperties objects; evaluator functions add no rules while the evaluator runs. C65_evaluate: the functions leave the values dict alone (SymEvaluator copies it, so C65_sym_evaluate needs no such assumption)."
  },
  {
   "property": "C66",
   "status": "proved",
   "theorems": [
    "Verif.Props.C66_sort",
    "Verif.Props.C66_sort_graph",
    "Verif.Props.C66_forward_graph",
    "Verif.Props.C66_eval",
    "Verif.Props.C66_bin_expand",
    "Verif.Props.C66_subs_new",
    "Verif.Props.C66_subs_call",
    "Verif.Props.C66_diff",
    "Verif.Props.C66_diff_builtin",
    "Verif.Props.C66_shared",
    "Verif.Props.C66_shared_diff",
    "Verif.Props.C66_sum_diff",
    "Verif.Props.C66_recursive",
    "Verif.Props.C66_to_llvm",
    "Verif.Props.C66_to_llvm_search",
    "Verif.Props.C66_to_llvm_matrix",
    "Verif.Props.C66_matrix_diff",
    "Verif.Props.C66_matrix_binop"
   ],
   "note": "Steps as defined in Model/Time.lean: dictionary and set operations on trees (hash = identity) take one step, Tree(*children) one for each child; the time of rules supplied by the user is a parameter. The counting functions are proved to return what the functions without counter return. Code generation (Model/TimeLLVM.lean): a line or operand of the text counts as one step whatever its length."
  },
  {
   "property": "C67",
   "status": "proved",
   "theorems": [
    "Verif.Props.C67_programs",
    "Verif.Props.C67_programs_exclusive",
    "Verif.Props.C67_deterministic",
    "Verif.Props.C67_no_compare",
    "Verif.Props.C67_completes",
    "Verif.Props.C67_objects_have_values",
    "Verif.Props.C67_topological_sort",
    "Verif.Props.C67_forward_graph",
    "Verif.Props.C67_subs",
    "Verif.Props.C67_subs_call_races",
    "Verif.Props.C67_diff_forward",
    "Verif.Props.C67_diff",
    "Verif.Props.C67_diff_times",
    "Verif.Props.C67_diff_runs",
    "Verif.Props.C67_others_run",
    "Verif.Props.C67_race_false"
   ],
   "note": "A condition on races for the objects involved is needed (C67_race_false) except for programs that compare nothing. C67_completes: from a state without races in which no thread is inside a constructor."
  },
  {
   "property": "C68",
   "status": "proved",
   "theorems": [
    "Verif.Props.C68_session",
    "Verif.Props.C68_session_identity",
    "Verif.Props.C68_session_runs",
    "Verif.Props.C68_import",
    "Verif.Props.C68_evaluate",
    "Verif.Props.C68_evaluate_data",
    "Verif.Props.C68_evaluate_runs",
    "Verif.Props.C68_transform",
    "Verif.Props.C68_transform_runs",
    "Verif.Props.C68_sym_evaluate",
    "Verif.Props.C68_call_races",
    "Verif.Props.C68_operators_races",
    "Verif.Props.C68_xreplace",
    "Verif.Props.C68_diff",
    "Verif.Props.C68_bin_expand",
    "Verif.Props.C68_count_ops",
    "Verif.Props.C68_api_runs"
   ],
   "note": "The condition on races is needed for diff, xreplace and so on (C67_race_false). Operators on two ints are no protosym code (TypeError in Spec/ClientScript.lean). Assigning rules to a SymEvaluator and eval_recursive are not written as programs on objects."
  },
  {
   "property": "C69",
   "status": "proved",
   "theorems": [
    "Verif.Props.C69_never_blocked",
    "Verif.Props.C69_bounded",
    "Verif.Props.C69_fair",
    "Verif.Props.C69_never_blocked_races",
    "Verif.Props.C69_bounded_races",
    "Verif.Props.C69_fair_races",
    "Verif.Props.C69_solo",
    "Verif.Props.C69_constructor",
    "Verif.Props.C69_session",
    "Verif.Props.C69_fair_runs",
    "Verif.Props.C69_fair_runs_races",
    "Verif.Props.C69_bound_reached",
    "Verif.Props.C69_interactive"
   ],
   "note": "Programs that compare objects: executions without a race for their objects, as in C67; the others (constructors, calls, operators): all executions. Steps of the interpreter's own lock (GIL), of the allocator and of the collector are not modelled."
  },
  {
   "property": "C70",
   "status": "proved",
   "theorems": [
    "Verif.Props.C70_graph",
    "Verif.Props.C70_build",
    "Verif.Props.C70_evaluate",
    "Verif.Props.C70_bin_expand",
    "Verif.Props.C70_diff",
    "Verif.Props.C70_replace",
    "Verif.Props.C70_count",
    "Verif.Props.C70_print",
    "Verif.Props.C70_eval_f64",
    "Verif.Props.C70_to_llvm",
    "Verif.Props.C70_str_repr",
    "Verif.Props.C70_eval_recursive",
    "Verif.Props.C70_from_sympy",
    "Verif.Props.C70_recursion_false",
    "Verif.Props.C70_heads_false",
    "Verif.Props.C70_matrix",
    "Verif.Props.C70_matrix_repr",
    "Verif.Props.C70_compile",
    "Verif.Props.C70_to_sympy",
    "Verif.Props.C70_from_sympy_matrix",
    "Verif.Props.C70_rules"
   ],
   "note": "The frames that the interpreter and the library take for a comprehension, a weak dictionary and a call back from C are a parameter (FrameUse). C70_recursion_false and C70_heads_false: the promise of the source (no limit on the recursion depth) does not extend to str/repr of trees, eval_recursive, from_sympy and to heads."
  },
  {
   "property": "C71",
   "status": "proved",
   "theorems": [
    "Verif.Props.C71_session",
    "Verif.Props.C71_seen",
    "Verif.Props.C71_session_identity",
    "Verif.Props.C71_session_runs",
    "Verif.Props.C71_import",
    "Verif.Props.C71_rule",
    "Verif.Props.C71_compiled"
   ],
   "note": "The condition on races is needed (C67_race_false). Operands of a wrong kind raise as Spec/ClientUser.lean says (the exception is simplified there in a few cases). Callables of rules are functions on plain data. SymPy objects are values. In a session each compiled function has a process of its own; C71_compiled says that this makes no difference. The functions on values that the statements are compared with are those of Model/."
  },
  {
   "property": "C72",
   "status": "proved",
   "theorems": [
    "Verif.Props.C72_collector_bounded",
    "Verif.Props.C72_collector_ends",
    "Verif.Props.C72_no_leak",
    "Verif.Props.C72_objects",
    "Verif.Props.C72_size",
    "Verif.Props.C72_same_variables",
    "Verif.Props.C72_expr_size",
    "Verif.Props.C72_shared",
    "Verif.Props.C72_after_program"
   ],
   "note": "Objects are those of Model/Store.lean (atoms, trees, Sym wrappers); lists, dicts and functions that a program makes itself are not counted, the references they hold are variables. The condition on races in C72_objects and the counts is needed: after a race there are two objects for one value (C03_concurrent_construction_false). C72_program_runs and C72_expr_runs show that all hypotheses can be met."
  },
  {
   "property": "C73",
   "status": "proved",
   "theorems": [
    "Verif.Props.C73_count",
    "Verif.Props.C73_each_once",
    "Verif.Props.C73_all_used",
    "Verif.Props.C73_reads",
    "Verif.Props.C73_matrix_once",
    "Verif.Props.C73_matrix_all_used",
    "Verif.Props.C73_matrix_reads",
    "Verif.Props.C73_matrix_count",
    "Verif.Props.C73_small_constants",
    "Verif.Props.C73_hypotheses_false"
   ],
   "note": "The conditions are needed (C73_hypotheses_false): different integers may be the same double, pow/sin/cos ignore surplus arguments."
  },
  {
   "property": "C74",
   "status": "proved",
   "theorems": [
    "Verif.Props.C74_lambdify",
    "Verif.Props.C74_eval_f64",
    "Verif.Props.C74_matrix",
    "Verif.Props.C74_order",
    "Verif.Props.C74_binary64",
    "Verif.Props.C74_binary64_python",
    "Verif.Props.C74_negative_false"
   ],
   "note": "Under PlatformOK; assumptions about overflow in Spec/Overflow.lean (IEEE-754's, with u = 2^-52). The condition on exponents is needed: C74_negative_false."
  },
  {
   "property": "C75",
   "status": "proved",
   "theorems": [
    "Verif.Props.C75_chain_rule",
    "Verif.Props.C75_composition"
   ],
   "note": "built-in differentiator, exact real arithmetic with Python's domain errors; under the proviso of C13 (e is not itself a key, or is the only one)"
  },
  {
   "property": "C76",
   "status": "proved",
   "theorems": [
    "Verif.Props.C76_value_kept",
    "Verif.Props.C76_first_value_wins",
    "Verif.Props.C76_value_was_asked",
    "Verif.Props.C76_exact_value",
    "Verif.Props.C76_held_values",
    "Verif.Props.C76_integers_are_ints",
    "Verif.Props.C76_requested_value_false"
   ],
   "note": "on the process model of Model/Store.lean; C76_requested_value_false shows that the value asked for is not always the one obtained in general"
  },
  {
   "property": "C77",
   "status": "proved",
   "theorems": [
    "Verif.Props.C77_interrupted_call",
    "Verif.Props.C77_retry",
    "Verif.Props.C77_program"
   ],
   "note": "on the process model of Model/Store.lean, where a running call can be cut short at any step (Step.interrupt); the results of later programs under the condition on races of C67"
  },
  {
   "property": "C78",
   "status": "proved",
   "theorems": [
    "Verif.Props.C78_diff",
    "Verif.Props.C78_simplecas",
    "Verif.Props.C78_nothing_missing",
    "Verif.Props.C78_eval_f64",
    "Verif.Props.C78_bin_expand",
    "Verif.Props.C78_xreplace"
   ],
   "note": "C78_xreplace under the proviso of C13 (e is not a key, or the dict has one key)"
  },
  {
   "property": "C79",
   "status": "proved",
   "theorems": [
    "Verif.Props.C79_shared",
    "Verif.Props.C79_immutable",
    "Verif.Props.C79_results",
    "Verif.Props.C79_arguments",
    "Verif.Props.C79_finishes"
   ],
   "note": "threads have the shared matrices and what they made themselves (they do not hand objects to each other after the start); a copy of a list or dict is one operation, as with the GIL"
  },
  {
   "property": "C80",
   "status": "proved",
   "theorems": [
    "Verif.Props.C80_calls",
    "Verif.Props.C80_lambdify",
    "Verif.Props.C80_expression",
    "Verif.Props.C80_matrix",
    "Verif.Props.C80_arrays",
    "Verif.Props.C80_finishes"
   ],
   "note": "LLVM's work on a module is one step (its objects belong to the thread); arguments, expressions and matrices are values here (C65, C67, C79); C80_expression and C80_matrix under PlatformOK"
  },
  {
   "property": "C81",
   "status": "proved",
   "theorems": [
    "Verif.Props.C81_total_derivative",
    "Verif.Props.C81_gradient",
    "Verif.Props.C81_curve",
    "Verif.Props.C81_extremum",
    "Verif.Props.C81_jacobian"
   ],
   "note": "exact real arithmetic, as in C22; where e has values only on one side (at the border of its domain) the derivative is the one within the domain"
  },
  {
   "property": "C82",
   "status": "proved",
   "theorems": [
    "Verif.Props.C82_others",
    "Verif.Props.C82_reads",
    "Verif.Props.C82_unique",
    "Verif.Props.C82_constructors",
    "Verif.Props.C82_copy",
    "Verif.Props.C82_copies_share",
    "Verif.Props.C82_errors",
    "Verif.Props.C82_deepcopy",
    "Verif.Props.C82_pickle",
    "Verif.Props.C82_results"
   ],
   "note": "one thread; pickles of protocol 2 and later"
  },
  {
   "property": "C83",
   "status": "proved",
   "theorems": [
    "Verif.Props.C83_taylor",
    "Verif.Props.C83_same_derivative",
    "Verif.Props.C83_constant",
    "Verif.Props.C83_bound",
    "Verif.Props.C83_increasing",
    "Verif.Props.C83_decreasing",
    "Verif.Props.C83_extremum",
    "Verif.Props.C83_convex",
    "Verif.Props.C83_second_derivative_test",
    "Verif.Props.C83_integral"
   ],
   "note": "exact real arithmetic, as in C22; C83_integral needs e.diff(x, 2) to have values on [s, t] too (so that the derivative is continuous)"
  }
 ]
}
{"id": "C01", "title": "Atoms are unique objects", "statement": "While one atom made by calling an atom type with a value is alive, calling the same atom type with an equal value returns that very object; atoms of different atom types (even with the same name) or of unequal values are different objects; and the returned atom carries the requested type and a value equal to the requested one.", "quantifier": "every history of constructions, reference drops and garbage collections, by any number of threads interleaved at the granularity of dictionary operations (setdefault taken as atomic, as the code comment requires), calls cut short by KeyboardInterrupt or MemoryError included", "why_tests_cant": "the outcome depends on what happens to be alive in a global weak store, so each test sees one history out of unboundedly many", "anchors": ["src/protosym/core/atom.py:Atom.__new__", "src/protosym/core/atom.py:AtomType.__call__", "src/protosym/core/atom.py:_all_atoms"]}
{"id": "C02", "title": "Expression equality is structural equality", "statement": "Two live Tree (or Expr) objects are the same object, hence compare == and hash alike, exactly when they represent the same expression (same atom, or same list of children); so rebuilding any expression piece by piece yields the original object.", "quantifier": "every history of constructions, drops and collections by any number of threads (setdefault taken as atomic per key, as for C01; what remains without this is stated by C03); expressions of any depth", "why_tests_cant": "identity comparison is only sound if the weak store never loses or duplicates an entry for a live object; that is an invariant over all histories", "anchors": ["src/protosym/core/tree.py:Tree.__new__", "src/protosym/core/tree.py:Tree.atom", "src/protosym/core/tree.py:_all_trees", "src/protosym/core/sym.py:Sym.__new__", "src/protosym/core/sym.py:Sym._all_expressions"]}
{"id": "C03", "title": "Concurrent construction returns one object", "statement": "If several threads build the same atom or expression at the same time they all get the same object (the comment above setdefault promises this).", "quantifier": "every interleaving of threads at the granularity of the primitive dict operations that weakref.WeakValueDictionary.setdefault really performs", "why_tests_cant": "a race shows up only under rare schedules", "anchors": ["src/protosym/core/atom.py:Atom.__new__", "src/protosym/core/tree.py:Tree.__new__", "src/protosym/core/tree.py:Tree.atom", "src/protosym/core/sym.py:Sym.__new__"]}
{"id": "C04", "title": "The global stores only hold live objects and never go stale", "statement": "A store entry never outlives its object and a lookup never returns a dead object or one built from other arguments; once an object is collected the store has no entry for it, and the same expression can be created afresh. Values and children of a live object never change.", "quantifier": "every history of constructions, drops and collections", "why_tests_cant": "depends on collection timing", "anchors": ["src/protosym/core/atom.py:_all_atoms", "src/protosym/core/tree.py:_all_trees", "src/protosym/core/sym.py:Sym._all_expressions"]}
{"id": "C05", "title": "topological_sort lists every subexpression exactly once, children first", "statement": "topological_sort(e) contains e and every expression reachable from e through arguments (through head and arguments when heads=True), nothing else, with no repetition; every child counted by the traversal stands before its parent; the last element is e.", "quantifier": "every expression, both values of heads", "why_tests_cant": "the order and de-duplication must hold for every sharing pattern and depth", "anchors": ["src/protosym/core/tree.py:topological_sort"]}
{"id": "C06", "title": "topological_sort honours exclude", "statement": "With exclude=S the result contains exactly the expressions reachable from e by a path that avoids S entirely (so it is empty if e is in S); a subexpression hidden below an excluded one is still listed if reachable elsewhere; the order properties still hold for the children that are not excluded.", "quantifier": "every expression, every exclude set, both values of heads", "why_tests_cant": "interaction of sharing and exclusion", "anchors": ["src/protosym/core/tree.py:topological_sort"]}
{"id": "C07", "title": "topological_sort has one deterministic order", "statement": "The result is the left-to-right depth-first postorder of the expression keeping the first occurrence of each expression.", "quantifier": "every expression, exclude set and heads flag", "why_tests_cant": "exact order for all sharing patterns", "anchors": ["src/protosym/core/tree.py:topological_sort"]}
{"id": "C08", "title": "topological_sort is linear in the graph, not the tree", "statement": "The traversal always terminates, each distinct subexpression is expanded exactly once, and the number of child inspections equals the total number of children of the distinct listed subexpressions, however large the tree form is.", "quantifier": "every expression", "why_tests_cant": "termination and cost over unboundedly many inputs", "anchors": ["src/protosym/core/tree.py:topological_sort"]}
{"id": "C09", "title": "topological_split partitions the sort", "statement": "atoms and nodes are the childless and the compound members of the topological sort in their order, no member is lost or invented, and heads is exactly the set of heads of the nodes.", "quantifier": "every expression and exclude set", "why_tests_cant": "all sharing patterns", "anchors": ["src/protosym/core/tree.py:topological_split"]}
{"id": "C10", "title": "forward_graph rebuilds the expression", "statement": "forward_graph never raises; every operation refers only to earlier positions; replaying the operations from the atoms yields a list that is a duplicate-free topological order of exactly the subexpressions of e and whose last element is e. (The docstring further claims the replayed list equals topological_sort(e).)", "quantifier": "every expression", "why_tests_cant": "a wrong index only shows for particular sharing patterns", "anchors": ["src/protosym/core/tree.py:forward_graph", "src/protosym/core/tree.py:ForwardGraph"]}
{"id": "C11", "title": "SubsFunc performs simultaneous substitution", "statement": "SubsFunc(e, params)(*values) is e with every outermost occurrence of each parameter (atomic or compound, in head or argument position) replaced by its value, all at once, values not being re-substituted; with a repeated parameter the last value wins.", "quantifier": "every expression, every list of parameters (atomic or compound, overlapping, repeated), every list of values", "why_tests_cant": "overlaps, sharing and special cases such as the whole expression being a parameter", "anchors": ["src/protosym/core/tree.py:SubsFunc.__new__", "src/protosym/core/tree.py:SubsFunc.call"]}
{"id": "C12", "title": "SubsFunc checks the argument count and is otherwise total", "statement": "Building a SubsFunc never raises; calling it with the wrong number of values raises TypeError; calling it with the right number returns an expression unless there is nothing to return, and a SubsFunc can be called any number of times with the same result.", "quantifier": "every expression, parameters, values", "why_tests_cant": "absence of KeyError/IndexError for all inputs", "anchors": ["src/protosym/core/tree.py:SubsFunc.__new__", "src/protosym/core/tree.py:SubsFunc.call"]}
{"id": "C13", "title": "Laws of xreplace / as_function", "statement": "xreplace({}) is the identity; replacing expressions that do not occur changes nothing; replacing things by themselves changes nothing; replaced atoms that do not occur in the new values do not occur in the result; substituting twice with fresh symbols composes.", "quantifier": "every expression and mapping", "why_tests_cant": "algebraic laws over all expressions", "anchors": ["src/protosym/simplecas/expr.py:Expr.xreplace", "src/protosym/simplecas/expr.py:Expr.as_function", "src/protosym/simplecas/expr.py:ExprFunction"]}
{"id": "C14", "title": "Evaluation is the structural evaluation of the expression", "statement": "evaluator(e, values) equals the value obtained by recursively evaluating the arguments and applying the rule of the head: a supplied value for an atom, else the atom-type rule, else the generic atom rule; for compound expressions the head rule (argument-wise or as a sequence), else the generic head rule.", "quantifier": "every evaluator (any rules, any result type), expression and values", "why_tests_cant": "the forward graph algorithm must agree with the structural meaning for all sharing patterns", "anchors": ["src/protosym/core/evaluate.py:Evaluator.eval_forward", "src/protosym/core/evaluate.py:Evaluator.eval_atom", "src/protosym/core/evaluate.py:Evaluator.eval_operation", "src/protosym/core/evaluate.py:Evaluator.evaluate", "src/protosym/core/evaluate.py:Evaluator.__call__"]}
{"id": "C15", "title": "eval_forward and eval_recursive agree", "statement": "The two evaluation strategies return the same value whenever either returns one.", "quantifier": "every evaluator, expression and values", "why_tests_cant": "two algorithms over all inputs", "anchors": ["src/protosym/core/evaluate.py:Evaluator.eval_forward", "src/protosym/core/evaluate.py:Evaluator.eval_recursive"]}
{"id": "C16", "title": "Missing rules are reported, never ignored", "statement": "A fresh evaluator without generic rules raises NoEvaluationRuleError exactly when, all callable rules being total, some argument-reachable atom without supplied value has no atom rule or some head has no rule; if no rule is missing a value is returned. A rule's own exception is propagated.", "quantifier": "every evaluator, expression and values", "why_tests_cant": "error behaviour over all inputs", "anchors": ["src/protosym/core/evaluate.py:Evaluator", "src/protosym/core/evaluate.py:_generic_operation_error", "src/protosym/core/evaluate.py:_generic_atom_error"]}
{"id": "C17", "title": "Evaluation depends only on what occurs", "statement": "The result does not depend on values for atoms that do not occur, nor on rules for heads and atom types that do not occur; expressions in head position are never evaluated or replaced; adding a rule replaces exactly the previous rule for that head or atom type.", "quantifier": "every evaluator, expression, values and added rule", "why_tests_cant": "non-interference is a claim about all inputs", "anchors": ["src/protosym/core/evaluate.py:Evaluator.add_atom", "src/protosym/core/evaluate.py:Evaluator.add_op1", "src/protosym/core/evaluate.py:Evaluator.add_opn", "src/protosym/core/evaluate.py:Evaluator.eval_forward"]}
{"id": "C18", "title": "Each distinct subexpression is evaluated once", "statement": "During one evaluation each distinct atom is converted once and each distinct compound subexpression has its rule called exactly once, in an order where arguments come first, all atoms before all operations.", "quantifier": "every evaluator with arbitrary effects and every expression", "why_tests_cant": "number and order of calls over all sharing patterns", "anchors": ["src/protosym/core/evaluate.py:Evaluator.eval_forward"]}
{"id": "C19", "title": "A Transformer without rules is the identity and rules rewrite bottom-up", "statement": "Transformer()(e) is e; with rules each operation is rebuilt from its transformed arguments or rewritten by the rule of its head; supplied values substitute atoms in argument positions simultaneously and leave heads alone.", "quantifier": "every expression, rule set and values", "why_tests_cant": "structural claim over all expressions", "anchors": ["src/protosym/core/evaluate.py:Transformer"]}
{"id": "C20", "title": "bin_expand yields binary sums and products of equal value", "statement": "bin_expand() leaves no Add or Mul with other than two arguments (in argument position), is the left-nested fold of the original arguments, changes nothing else, is idempotent, and preserves the value of the expression in exact arithmetic; it raises only for an empty Add() or Mul().", "quantifier": "every expression", "why_tests_cant": "all arities and nestings", "anchors": ["src/protosym/simplecas/expr.py:bin_expand", "src/protosym/simplecas/expr.py:Expr.bin_expand"]}
{"id": "C21", "title": "Operation counts mean what is documented", "statement": "count_ops_tree counts subexpressions with multiplicity, count_ops_graph counts distinct subexpressions, graph count <= tree count; for the documented family e -> e**2 + e iterated n times from x they are 2n+2 (n>=1) and 2^(n+2)-3 for every n.", "quantifier": "every expression; every n", "why_tests_cant": "documented closed forms are claims about all n", "anchors": ["src/protosym/simplecas/expr.py:Expr.count_ops_graph", "src/protosym/simplecas/expr.py:Expr.count_ops_tree"]}
{"id": "C22", "title": "diff computes the mathematical derivative", "statement": "If e.diff(x) succeeds and both e and e.diff(x) evaluate at a point (exact real arithmetic, Python's domain errors for pow), then the value of e.diff(x) there is the derivative with respect to x of the value of e.", "quantifier": "every expression over integers, symbols, Add, Mul, pow, sin, cos, every point", "why_tests_cant": "calculus over all expressions and real points", "anchors": ["src/protosym/core/differentiate.py:diff_forward", "src/protosym/core/differentiate.py:product_rule_forward", "src/protosym/core/differentiate.py:chain_rule_forward", "src/protosym/simplecas/expr.py:diff"]}
{"id": "C23", "title": "The derivative of an expression without the variable is 0", "statement": "If the variable does not occur in argument position and no List head occurs, e.diff(x) is exactly the integer 0, whatever functions (even unknown ones) e contains; conversely with the built-in rules the result is 0 only if x does not occur.", "quantifier": "every expression and variable", "why_tests_cant": "all expressions", "anchors": ["src/protosym/core/differentiate.py:diff_forward", "src/protosym/simplecas/expr.py:Expr.diff"]}
{"id": "C24", "title": "diff fails exactly when a needed rule is missing", "statement": "diff raises (KeyError) precisely when some function other than Add, Mul and distributive heads has an argument with a non-zero derivative at a position without rule; e.g. x in an exponent; it never returns a silently wrong expression for lack of a rule.", "quantifier": "every expression, variable and rule set", "why_tests_cant": "error behaviour over all expressions", "anchors": ["src/protosym/core/differentiate.py:diff_forward", "src/protosym/core/differentiate.py:chain_rule_forward"]}
{"id": "C25", "title": "Repeated differentiation iterates", "statement": "e.diff(x, n) equals n successive e.diff(x), is e for n <= 0, adds over n (diff(x,n).diff(x,m) = diff(x,n+m)), agrees with diff(e, x, n), and its value is the n-th derivative where everything is defined.", "quantifier": "every expression, variable and integer n", "why_tests_cant": "induction on n", "anchors": ["src/protosym/simplecas/expr.py:Expr.diff", "src/protosym/core/sym.py:SymDifferentiator.__call__"]}
{"id": "C26", "title": "Differentiation with respect to a compound expression", "statement": "diff with respect to an expression that is not atomic returns 0 (structurally: every atom differentiates to 0) rather than treating it as a variable.", "quantifier": "every expression and compound 'variable'", "why_tests_cant": "all expressions", "anchors": ["src/protosym/core/differentiate.py:diff_forward"]}
{"id": "C27", "title": "Differentiation rules are instantiated correctly", "statement": "After diff[f(p1..pn), pi] = rhs, differentiating f(e1..en) with only ei depending on x gives rhs with each pattern argument replaced by the actual argument, times the derivative of ei unless that is 1; malformed patterns are rejected; a later rule for the same head and position replaces the earlier one and affects nothing else.", "quantifier": "every pattern, right hand side and argument list", "why_tests_cant": "substitution over all right-hand sides", "anchors": ["src/protosym/core/sym.py:SymDifferentiator.__setitem__", "src/protosym/core/differentiate.py:chain_rule_forward"]}
{"id": "C28", "title": "Distributive heads map over derivatives", "statement": "For a head registered with add_distributive_rule, diff(f(e1..en), x) = f(diff(e1,x)..diff(en,x)); and sharing subexpressions between the ei does not change any of the component derivatives.", "quantifier": "every head, every argument list", "why_tests_cant": "all sharing patterns", "anchors": ["src/protosym/core/differentiate.py:diff_forward", "src/protosym/core/sym.py:SymDifferentiator.add_distributive_rule"]}
{"id": "C29", "title": "Matrix stores exactly the given entries", "statement": "Matrix(rows) has the given shape, M[i,j] is the (i,j) entry, tolist() gives the rows back (after conversion to Expr); zero entries are not stored; ragged or empty input is rejected.", "quantifier": "every list of lists of entries", "why_tests_cant": "all shapes and zero patterns", "anchors": ["src/protosym/simplecas/matrix.py:Matrix.__new__", "src/protosym/simplecas/matrix.py:Matrix.__getitem__", "src/protosym/simplecas/matrix.py:Matrix.tolist"]}
{"id": "C30", "title": "Matrix indexing is bounds checked", "statement": "M[i,j] raises IndexError for every pair of integers outside 0<=i<nrows, 0<=j<ncols (negative ones included) and returns an Expr for every pair inside, for every matrix obtained from the constructor, addition and differentiation.", "quantifier": "every matrix reachable by the API and every index pair", "why_tests_cant": "invariant of the sparse representation over all operation sequences", "anchors": ["src/protosym/simplecas/matrix.py:Matrix.__getitem__", "src/protosym/simplecas/matrix.py:Matrix._new"]}
{"id": "C31", "title": "Matrix addition is elementwise", "statement": "(A+B)[i,j] is Add(A[i,j], B[i,j]) where both are stored and the stored one (or 0) otherwise, its value is the sum of the values; different shapes raise TypeError; operands are unchanged.", "quantifier": "all matrices of equal shape", "why_tests_cant": "all sparsity patterns", "anchors": ["src/protosym/simplecas/matrix.py:Matrix.__add__", "src/protosym/simplecas/matrix.py:Matrix.binop"]}
{"id": "C32", "title": "Matrix.binop is elementwise for any operation", "statement": "A.binop(B, f)[i,j] has the value of f(A[i,j], B[i,j]) for every position.", "quantifier": "all matrices of equal shape and all binary operations f", "why_tests_cant": "all sparsity patterns and operations", "anchors": ["src/protosym/simplecas/matrix.py:Matrix.binop"]}
{"id": "C33", "title": "Matrix differentiation is elementwise", "statement": "M.diff(x)[i,j] is M[i,j].diff(x) for every position although all entries are differentiated together through one shared graph; the same holds for several derivatives taken one after the other.", "quantifier": "all matrices, all variables", "why_tests_cant": "all sharing patterns", "anchors": ["src/protosym/simplecas/matrix.py:Matrix.diff"]}
{"id": "C34", "title": "Generated LLVM IR is in SSA form", "statement": "In to_llvm_ir output every register is defined once, before its uses, uses refer to parameters or earlier registers, fadd/fmul have exactly two operands, and the returned operand is defined.", "quantifier": "every supported expression and parameter list", "why_tests_cant": "all expressions", "anchors": ["src/protosym/simplecas/lambdification.py:_to_llvm_f64", "src/protosym/simplecas/lambdification.py:_to_llvm_f64_matrix"]}
{"id": "C35", "title": "Generated LLVM IR computes the expression", "statement": "Running the generated instructions on parameter values returns the value of the expression where each symbol is the corresponding parameter, Add/Mul associate to the left and integers are their double constants.", "quantifier": "every supported expression, parameter list, arithmetic and parameter values", "why_tests_cant": "compiler correctness over all programs", "anchors": ["src/protosym/simplecas/lambdification.py:_to_llvm_f64"]}
{"id": "C36", "title": "Generated matrix IR fills the output array correctly", "statement": "The generated function writes, within the nrows*ncols bounds, the value of M[i,j] at offset i*ncols+j for every stored entry, each offset once, and leaves the other offsets (zero entries) untouched.", "quantifier": "every matrix reachable by the API with supported entries", "why_tests_cant": "all shapes and sparsity patterns", "anchors": ["src/protosym/simplecas/lambdification.py:_to_llvm_f64_matrix", "src/protosym/simplecas/lambdification.py:_lambdify_llvm_matrix"]}
{"id": "C37", "title": "Unsupported expressions are refused by lambdify", "statement": "IR generation raises LLVMNotImplementedError exactly when some atom is neither a parameter nor an Integer or some head is not one of Add, Mul, pow, sin, cos, and otherwise produces IR; malformed arities are refused.", "quantifier": "every expression and parameter list", "why_tests_cant": "error behaviour over all expressions", "anchors": ["src/protosym/simplecas/lambdification.py:_to_llvm_f64", "src/protosym/simplecas/lambdification.py:_to_llvm_f64_matrix", "src/protosym/simplecas/lambdification.py:lambdify"]}
{"id": "C38", "title": "lambdify agrees with eval_f64", "statement": "For every supported expression lambdify(args, e)(*vals) equals e.eval_f64(dict(zip(args, vals))).", "quantifier": "every supported expression and values", "why_tests_cant": "all expressions and values", "anchors": ["src/protosym/simplecas/lambdification.py:lambdify", "src/protosym/simplecas/functions.py:eval_f64", "src/protosym/simplecas/expr.py:Expr.eval_f64"]}
{"id": "C39", "title": "Evaluator rules are accepted exactly when well formed", "statement": "evaluator[pattern] = call succeeds iff call is a symbolic call whose arguments match the pattern (starred for sequence functions) and whose function kind fits the pattern kind; a rejected rule raises BadRuleError and leaves the evaluator unchanged; an accepted one installs exactly the given function for that head, atom type or fallback.", "quantifier": "every pattern/call combination", "why_tests_cant": "finite kinds but unbounded expressions in patterns; state must be unchanged on every failure", "anchors": ["src/protosym/core/sym.py:SymEvaluator.__setitem__", "src/protosym/core/sym.py:SymEvaluator.add_op"]}
{"id": "C40", "title": "Arithmetic operators build the documented expressions", "statement": "a+b, a-b, a*b, a/b, a**b, -a, +a and their reflected forms with Python ints build exactly Add(a,b), Add(a,Mul(-1,b)), Mul(a,b), Mul(a,Pow(b,-1)), Pow(a,b), Mul(-1,a), a, are injective in their operands (expressions are inert: never simplified or reordered), reject other operand types with NotImplemented, and have the value of the corresponding real operation.", "quantifier": "all operands", "why_tests_cant": "all expressions", "anchors": ["src/protosym/simplecas/expr.py:Expr.__add__", "src/protosym/simplecas/expr.py:Expr.__sub__", "src/protosym/simplecas/expr.py:Expr.__mul__", "src/protosym/simplecas/expr.py:Expr.__truediv__", "src/protosym/simplecas/expr.py:Expr.__pow__", "src/protosym/simplecas/expr.py:Expr.__neg__", "src/protosym/simplecas/expr.py:expressify_other"]}
{"id": "C41", "title": "expressify is idempotent and faithful", "statement": "expressify(e) is e for expressions, maps ints injectively to Integer atoms, raises ExpressifyError for everything else, and expressify(expressify(v)) = expressify(v).", "quantifier": "all Python values", "why_tests_cant": "all values", "anchors": ["src/protosym/simplecas/expr.py:expressify"]}
{"id": "C42", "title": "Printing is unambiguous", "statement": "Different expressions print differently with str/repr (so that the output can be read back).", "quantifier": "all pairs of expressions", "why_tests_cant": "injectivity over all pairs", "anchors": ["src/protosym/simplecas/functions.py:eval_repr", "src/protosym/simplecas/expr.py:Expr.__repr__"]}
{"id": "C43", "title": "SymPy conversion round-trips", "statement": "For expressions SymPy does not rewrite, from_sympy(to_sympy(e)) is e and to_sympy(from_sympy(s)) is s; the memoising cache never changes the result; unconvertible input raises NotImplementedError.", "quantifier": "all expressions / all SymPy expressions (SymPy modelled with inert constructors)", "why_tests_cant": "all expressions; cache histories", "anchors": ["src/protosym/simplecas/sympy_conversions.py:from_sympy", "src/protosym/simplecas/sympy_conversions.py:_from_sympy_cache", "src/protosym/simplecas/sympy_conversions.py:_from_sympy_cache_args", "src/protosym/simplecas/sympy_conversions.py:to_sympy"]}
{"id": "C44", "title": "SymPy matrix conversion round-trips", "statement": "Matrix.from_sympy(M.to_sympy()) has the same entries as M, and M.to_sympy() has the entries of M converted.", "quantifier": "all matrices", "why_tests_cant": "all sparsity patterns, including all-zero matrices", "anchors": ["src/protosym/simplecas/sympy_conversions.py:to_sympy_matrix", "src/protosym/simplecas/sympy_conversions.py:from_sympy_matrix"]}
{"id": "C45", "title": "Integer constants in IR are exact doubles", "statement": "The hexadecimal constant emitted for an Integer decodes to that integer for every |n| <= 2^53.", "quantifier": "all integers in the range", "why_tests_cant": "2^54 values", "anchors": ["src/protosym/simplecas/lambdification.py:_double_to_hex"]}
{"id": "C46", "title": "Every expression a user can evaluate prints", "statement": "repr/str of an expression returns a string (and eval_latex one for expressions of Integers, Symbols, Functions) that is built compositionally from the printed arguments.", "quantifier": "all expressions", "why_tests_cant": "all expressions", "anchors": ["src/protosym/simplecas/functions.py:eval_repr", "src/protosym/simplecas/functions.py:eval_latex", "src/protosym/simplecas/expr.py:Expr.eval_latex"]}
{"id": "C47", "title": "Substitution commutes with evaluation", "statement": "If r = e.xreplace(reps) where reps replaces atoms that stand in argument position (and e itself is not one of several keys), evaluating r with some values gives v exactly when evaluating e gives v with the values in which each replaced atom has the value of its replacement.", "quantifier": "every expression, replacement dict, evaluator and values", "why_tests_cant": "all expressions, replacements and evaluators", "anchors": ["src/protosym/simplecas/expr.py:Expr.xreplace", "src/protosym/core/evaluate.py:Evaluator.eval_forward"]}
{"id": "C48", "title": "Results do not depend on the choice of names", "statement": "Consistently and injectively renaming symbols (or atoms) in the input renames the output and changes nothing else: topological order, forward graph indices, substitution, derivatives (or the exception raised), evaluation, bin_expand and operation counts.", "quantifier": "every injective renaming and every input", "why_tests_cant": "all renamings and inputs", "anchors": ["src/protosym/core/tree.py:topological_sort", "src/protosym/core/tree.py:forward_graph", "src/protosym/core/tree.py:SubsFunc", "src/protosym/core/differentiate.py:diff_forward", "src/protosym/core/evaluate.py:Evaluator.eval_forward"]}
{"id": "C49", "title": "Operations never change existing matrices", "statement": "Whatever a program does with the lists it passed to Matrix(...) or got from tolist(), and whatever operations (also failing ones) it applies, the shape, the entries and the list of stored elements of an already made matrix stay the same; operations allocate new lists, although M.diff(x) shares its index dict with M.", "quantifier": "every program (sequence of operations), every heap", "why_tests_cant": "aliasing histories are unbounded", "anchors": ["src/protosym/simplecas/matrix.py:Matrix._new", "src/protosym/simplecas/matrix.py:Matrix.binop", "src/protosym/simplecas/matrix.py:Matrix.diff", "src/protosym/simplecas/matrix.py:Matrix.tolist"]}
{"id": "C50", "title": "The IR text denotes the generated function", "statement": "For legal parameter names the text handed to LLVM is a well-formed module (by the LLVM language reference) that declares every function it calls and whose only function has one double parameter per argument, in order; compiling and calling that text returns the value of the expression (or fills the array with the values of the entries).", "quantifier": "every expression/matrix and parameter list, every arithmetic, every argument values", "why_tests_cant": "all texts; quoting, separators and operand order matter for every expression", "anchors": ["src/protosym/simplecas/lambdification.py:_to_llvm_f64", "src/protosym/simplecas/lambdification.py:_to_llvm_f64_matrix", "src/protosym/simplecas/lambdification.py:_llvm_header"]}
{"id": "C51", "title": "eval_f64 computes the expression", "statement": "e.eval_f64(values) returns v exactly when v is the value of e with the given numbers for its symbols, integers as floats, math.fsum for sums, products from left to right, binary powers and sin/cos of one argument; otherwise it raises: NoEvaluationRuleError for an atom without number or an unknown function, TypeError for a wrong number of arguments, or the exception of the arithmetic.", "quantifier": "every expression, values dict and floating point arithmetic", "why_tests_cant": "all expressions and values", "anchors": ["src/protosym/simplecas/functions.py:eval_f64", "src/protosym/simplecas/expr.py:Expr.eval_f64"]}
{"id": "C52", "title": "The derivative is exactly the one the rules give", "statement": "For every differentiator a program can make with SymDifferentiator, diff[pattern, sym] = rhs and add_distributive_rule, e.diff(x) returns d exactly when d follows from e by: atoms, distribution, the sum rule, the product rule and the chain rule with the latest rule for each head and argument, zero terms dropped and factors 1 omitted; and the exception it raises is that of the first failing subexpression.", "quantifier": "every history of rules, every expression and variable", "why_tests_cant": "rule tables and expressions are unbounded; the result is an inert expression whose exact form the user sees", "anchors": ["src/protosym/core/differentiate.py:diff_forward", "src/protosym/core/sym.py:SymDifferentiator.__setitem__", "src/protosym/core/sym.py:SymDifferentiator.__call__", "src/protosym/simplecas/expr.py:Expr.diff"]}
{"id": "C53", "title": "Right rules give right derivatives", "statement": "If every operation of an evaluator is differentiable and the rule diff[h(a,...), a] = rhs given for each head evaluates to its partial derivative (distributive heads being linear, Add the sum and Mul the product), then the value of e.diff(x) is the derivative of the function of x that e evaluates to, wherever both have a value; teaching evaluator and differentiator a further function with its partial derivatives keeps this.", "quantifier": "every evaluator, every rule table right for it, every expression and point", "why_tests_cant": "function sets, expressions and real points are unbounded", "anchors": ["src/protosym/core/differentiate.py:diff_forward", "src/protosym/core/sym.py:SymDifferentiator.__setitem__", "src/protosym/core/evaluate.py:Evaluator.add_op1", "src/protosym/simplecas/expr.py:Expr.diff"]}
{"id": "C54", "title": "The raw representation can be read back", "statement": "eval(repr(t)) == t for every Tree (and Sym) t in which the degenerate Tree() does not occur, in a scope where Tree, Tr (Sym) and the atom types of t are bound to their names: hence different trees print differently; with Tree() inside, repr raises AttributeError.", "quantifier": "every tree, every string and integer as atom value", "why_tests_cant": "all trees and all strings, with quotes, backslashes and unprintable characters", "anchors": ["src/protosym/core/tree.py:Tree.__repr__", "src/protosym/core/atom.py:Atom.__repr__", "src/protosym/core/sym.py:Sym.__repr__"]}
{"id": "C55", "title": "An evaluator is what its rules say", "statement": "After any history of rule assignments ev[pattern] = f(args) on a new Evaluator - refused assignments raise and have no effect, later rules replace earlier ones for the same head or atom type - ev(e, values) returns v exactly when v is the value of e given by the supplied values, the latest rule for each atom type and head and the latest AtomRule/HeadRule for the others; otherwise it raises the exception of a rule that applies.", "quantifier": "every history of assignments, every expression and values", "why_tests_cant": "histories of assignments and expressions are unbounded", "anchors": ["src/protosym/core/sym.py:SymEvaluator.__setitem__", "src/protosym/core/sym.py:SymEvaluator.__call__", "src/protosym/core/evaluate.py:Evaluator.eval_forward"]}
{"id": "C56", "title": "No blow-up", "statement": "The graph of a result is at most linear in the graph of the input: with N distinct subexpressions (count_ops_graph) and E arguments of them, e.diff(x) has at most 2 + 2N + 5E distinct subexpressions (for the rules of another differentiator: 2N + (R+1)E plus the constants, R the size of the largest right-hand side), e.diff(x, n) at most (5k+4)^n N if nothing has more than k >= 2 arguments, substitution at most N plus the sizes of the values, bin_expand at most N + E, and the code generated by lambdify has at most N + E + 1 instructions (plus two per stored entry of a matrix), although the tree forms can be exponential.", "quantifier": "every expression, rule table, replacement and matrix", "why_tests_cant": "sizes are unbounded and the failure (exponential growth) only shows on large inputs", "anchors": ["src/protosym/core/differentiate.py:diff_forward", "src/protosym/core/tree.py:SubsFunc", "src/protosym/simplecas/expr.py:Expr.bin_expand", "src/protosym/simplecas/lambdification.py:_to_llvm_f64", "src/protosym/simplecas/matrix.py:Matrix.diff"]}
{"id": "C57", "title": "Differentiation commutes with substitution for another symbol", "statement": "For every differentiator, every expression e, variable x, other symbol y that the rules do not mention and that is not used as a function, and replacement c whose derivative with respect to x is 0: e.xreplace({y: c}).diff(x) and e.diff(x).xreplace({y: c}) are the same expression or both raise (for rules whose right-hand side is a bare pattern argument, if c is neither 0 nor 1).", "quantifier": "every rule table, expression, variable and replacement", "why_tests_cant": "rule tables and expressions are unbounded; the results are compared as inert expressions, so that simplifications (dropped zero terms, omitted factors 1) must commute as well", "anchors": ["src/protosym/simplecas/expr.py:Expr.xreplace", "src/protosym/simplecas/expr.py:Expr.diff", "src/protosym/core/differentiate.py:diff_forward"]}
{"id": "C58", "title": "The order of differentiation does not matter", "statement": "If e.diff(x) succeeds for every x in a list of symbols, then differentiating with respect to all of them one after the other succeeds in every order, and the results - in general different expressions - have the same value (exact real arithmetic) for all values of the symbols for which both have one; in particular e.diff(x).diff(y) and e.diff(y).diff(x). For matrices the same holds entry by entry.", "quantifier": "every expression, list of variables and permutation, all real values", "why_tests_cant": "expressions, orders and real points are unbounded; the two results are different expressions whose equality is a theorem of analysis", "anchors": ["src/protosym/simplecas/expr.py:Expr.diff", "src/protosym/core/differentiate.py:diff_forward", "src/protosym/simplecas/functions.py:eval_f64"]}
{"id": "C59", "title": "Compiled functions stay valid and independent", "statement": "With at most as many parameters as ctypes supports (1024, the array of a matrix function included) lambdify succeeds for what the code generator supports, and the function it returns can be called at any later time and as often as one likes, whatever else has been compiled, called or garbage-collected in between, and returns the value of its own expression at the given floats or ints; for a matrix every call returns a new array of its shape with the values of the entries, which nothing else changes; too few arguments raise TypeError, arguments that are not numbers raise ctypes.ArgumentError, superfluous arguments that ctypes accepts do not matter, and a lambdify that raises changes nothing that a program can observe.", "quantifier": "every history of lambdify, calls, array writes and garbage collection, every expression, matrix and arguments", "why_tests_cant": "histories are unbounded and a use of freed machine code or of a shared buffer only shows under particular schedules of the collector", "anchors": ["src/protosym/simplecas/lambdification.py:lambdify", "src/protosym/simplecas/lambdification.py:_compile_llvm", "src/protosym/simplecas/lambdification.py:_exe_eng", "src/protosym/simplecas/lambdification.py:_lambdify_llvm", "src/protosym/simplecas/lambdification.py:_lambdify_llvm_matrix"]}
{"id": "C60", "title": "Compiled functions obey substitution", "statement": "Compiled functions behave as functions: the result does not depend on the order of the parameters or on parameters that do not occur; lambdify(args, e.xreplace({k1: g1, ...}))(*vals) is lambdify([k1, ...], e)(lambdify(args, g1)(*vals), ...), in every floating point arithmetic, bit for bit; and the array returned by a compiled matrix holds at [i, j] the number returned by the function compiled from M[i, j].", "quantifier": "every expression, parameter lists, replacement, matrix and arguments, every arithmetic", "why_tests_cant": "expressions, substitutions and arguments are unbounded; the composition must hold exactly, not up to rounding", "anchors": ["src/protosym/simplecas/lambdification.py:lambdify", "src/protosym/simplecas/lambdification.py:_to_llvm_f64", "src/protosym/simplecas/lambdification.py:_lambdify_llvm_matrix", "src/protosym/simplecas/expr.py:Expr.xreplace"]}
{"id": "C61", "title": "The compiled derivative is the derivative of the compiled function", "statement": "If e can be compiled with some parameters, so can e.diff(x); without rounding, lambdify(args, e.diff(x)) is the derivative of lambdify(args, e) with respect to the argument for x wherever no domain error occurs - for expressions built with +, *, sin, cos and literal exponents 1, 2, ... everywhere; for matrices the same holds cell by cell; and lambdify(args, e.diff(x, n)) is the n-th derivative, for such expressions with exponents of at least n everywhere, and for matrices cell by cell.", "quantifier": "every expression and matrix that can be compiled, every parameter and real point", "why_tests_cant": "expressions and points are unbounded; it spans differentiation, code generation and the machine", "anchors": ["src/protosym/simplecas/lambdification.py:lambdify", "src/protosym/simplecas/expr.py:Expr.diff", "src/protosym/simplecas/matrix.py:Matrix.diff", "src/protosym/core/differentiate.py:diff_forward"]}
{"id": "C62", "title": "Rounding errors stay bounded", "statement": "In double precision, for an expression built from symbols and integers with +, *, sin, cos and integer exponents (literals or sums of literals like n + -1), at a point where nothing overflows (and the base of a negative exponent stays away from 0), eval_f64 and the compiled function both return a finite number within ((1+u)^D - 1)*M of the exact value, where M is the value of the expression with everything replaced by its magnitude, D the number of roundings that can pile up and u one unit in the last place; hence they differ by at most twice that, although eval_f64 rounds a sum once and the compiled code after every addition; the same for every cell of a compiled matrix.", "quantifier": "every such expression and point, every arithmetic that rounds to nearest", "why_tests_cant": "expressions and points are unbounded; a test compares with a tolerance chosen by hand at a few points", "anchors": ["src/protosym/simplecas/lambdification.py:lambdify", "src/protosym/simplecas/lambdification.py:_to_llvm_f64", "src/protosym/simplecas/functions.py:eval_f64", "src/protosym/simplecas/lambdification.py:_double_to_hex"]}
{"id": "C63", "title": "LaTeX determines the expression", "statement": "Two expressions built from integers, Symbols and Functions with proper names (Pow with two arguments, sin and cos with one) have the same LaTeX exactly when they are equal up to Add and Mul of fewer than two terms and a Function as an argument in place of the Symbol of that name; in particular, unlike repr, LaTeX keeps (x**y)**z and x**(y**z) apart, and sums of two or more terms, products, powers and calls are never confused.", "quantifier": "all pairs of such expressions", "why_tests_cant": "pairs of expressions are unbounded; ambiguity of a notation is a statement about all pairs", "anchors": ["src/protosym/simplecas/functions.py:eval_latex", "src/protosym/simplecas/expr.py:Expr.eval_latex"]}
{"id": "C64", "title": "Compiled derivatives are numerically right", "statement": "In floating point, lambdify(args, e.diff(x))(...) and lambdify(args, e.diff(x, n))(...) return a number within ((1+u)^D - 1)*M of the true (n-th) derivative of the function that e stands for, M and D belonging to the differentiated expression as for the rounding errors of an ordinary one; likewise every cell of the array of a compiled M.diff(x); and for every expression built with +, *, sin, cos and integer literal exponents, with integers of at most 2^53, at a point where the bases of the powers with exponents below n are not 0, there is a constant K, depending on the expression and the point only, such that in every sufficiently fine arithmetic of sufficient range the compiled n-th derivative and its eval_f64 are within K*u of the true value - no step loses accuracy out of proportion, as a difference quotient would.", "quantifier": "every such expression, parameter, order and point, every arithmetic of accuracy u", "why_tests_cant": "expressions, orders and points are unbounded and the constant has to be the same for all arithmetics; a test compares with a tolerance chosen by hand", "anchors": ["src/protosym/simplecas/lambdification.py:lambdify", "src/protosym/simplecas/expr.py:Expr.diff", "src/protosym/core/differentiate.py:diff_forward", "src/protosym/simplecas/matrix.py:Matrix.diff", "src/protosym/simplecas/functions.py:eval_f64"]}
{"id": "C65", "title": "Calls leave the caller's containers alone", "statement": "topological_sort, topological_split, forward_graph, SubsFunc(e, args), calling a SubsFunc, differentiation and evaluation change no list, set or dict that existed before (exclude, args, values, the containers of other graphs, functions and differentiators) and keep no hold on those passed in; everything returned is new and shares nothing; add_distributive and rule assignments change the differentiator's own table only and a refused assignment changes nothing; functions given to an evaluator may keep or overwrite the argument list they are called with without an effect on the result. So, whatever a program does with its own containers and with those it got from calls, a SubsFunc keeps giving the results it gave when it was made, and a differentiator those of the rules assigned to it.", "quantifier": "every heap of containers with arbitrary sharing, every history of calls and of changes by the caller (who does not write to the attributes of a SubsFunc or DiffProperties object itself)", "why_tests_cant": "aliasing only shows for particular histories of calls and changes, and these are unbounded", "anchors": ["src/protosym/core/tree.py:topological_sort", "src/protosym/core/tree.py:topological_split", "src/protosym/core/tree.py:forward_graph", "src/protosym/core/tree.py:SubsFunc", "src/protosym/core/evaluate.py:Evaluator.eval_forward", "src/protosym/core/differentiate.py:diff_forward", "src/protosym/core/differentiate.py:DiffProperties", "src/protosym/core/sym.py:SymDifferentiator.__setitem__", "src/protosym/core/sym.py:SymEvaluator.__call__"]}
{"id": "C66", "title": "Time linear in the graph", "statement": "The time taken by topological_sort, forward_graph, an evaluation (besides the time of the rules it calls), bin_expand, making and calling a SubsFunc, and a derivative is linear in the number N of distinct subexpressions plus the number E of their arguments, not in the size of the expression written out as a tree: topological_sort takes 1 + 2(N+E) elementary steps, forward_graph 1 + 4(N+E), e.diff(x) at most 1 + 12N + (2k+49)E when no operation other than + (and the list of the entries of a matrix) has more than k arguments, and calling a SubsFunc or differentiation rule takes a time that does not depend on the size of its arguments. For h(e, e) nested n times this is linear in n, where eval_recursive needs more than 2^n steps. M.diff(x) and the generation of LLVM code for an expression or a matrix are linear in the same sense for the graph of all the entries together, except that code generation searches the list of P parameters for each distinct atom (P steps for each constant, no less) and sorts the stored entries of a matrix; adding matrices is linear in the number of their stored entries.", "quantifier": "every expression, exclusion set, evaluator, rule table and depth of sharing", "why_tests_cant": "a bound on the running time is a statement about all sizes; a test can only time a few, and an exponential slip shows only on shared expressions", "anchors": ["src/protosym/core/tree.py:topological_sort", "src/protosym/core/tree.py:forward_graph", "src/protosym/core/tree.py:SubsFunc", "src/protosym/core/evaluate.py:Evaluator.eval_forward", "src/protosym/core/evaluate.py:Evaluator.eval_recursive", "src/protosym/core/differentiate.py:diff_forward", "src/protosym/simplecas/expr.py:Expr.bin_expand", "src/protosym/simplecas/lambdification.py:_to_llvm_f64", "src/protosym/simplecas/lambdification.py:_to_llvm_f64_matrix", "src/protosym/simplecas/matrix.py:Matrix.diff", "src/protosym/simplecas/matrix.py:Matrix.binop"]}
{"id": "C67", "title": "Algorithms on objects", "statement": "topological_sort, forward_graph, SubsFunc and differentiation compare and look up Tree objects by identity, in a process where other threads construct expressions and the garbage collector frees them at the same time. Nevertheless what they return is determined by what their arguments stand for: the objects returned stand for the expressions that the same algorithm gives with structural equality (the postorder, the graph, the simultaneous substitution, the derivative by the rules), the same exceptions are raised, and neither the schedule, nor the collector, nor the history of the process has an influence, unless two threads have raced to construct one of the objects involved. More generally this holds for every program that constructs, compares and inspects expression objects.", "quantifier": "every program on expression objects, every expression and rule table, every interleaving with other threads (whose calls may be interrupted) and with the collector, every history of the process", "why_tests_cant": "interleavings, histories and collection points are unbounded, and identity bugs show only in some of them", "anchors": ["src/protosym/core/tree.py:Tree.__new__", "src/protosym/core/tree.py:Tree.atom", "src/protosym/core/atom.py:Atom.__new__", "src/protosym/core/sym.py:Sym.__new__", "src/protosym/core/tree.py:topological_sort", "src/protosym/core/tree.py:forward_graph", "src/protosym/core/tree.py:SubsFunc", "src/protosym/core/differentiate.py:diff_forward"]}
{"id": "C68", "title": "User programs on objects", "statement": "A program that imports simplecas and calls its API (Symbol, Function, calls, + - * / **, unary minus, diff, xreplace, bin_expand, head, args, count_ops_graph, ==) on Expr objects, while other threads construct expressions and the garbage collector frees them, gives at every step the expression (or number, or exception) that the same call gives mathematically, that is on expressions with structural equality; two results are the same object exactly when they are the same expression; this depends neither on the schedule nor on the collector nor on what the process did before, unless two threads have raced to construct one of the objects involved. Calls and operators do not even need that proviso: in every execution they return an Expr that wraps the right expression. Likewise an evaluator or transformer gives, on objects and with rules that construct and compare objects, what it gives on values.", "quantifier": "every user program of any length, every evaluator and transformer with arbitrary rules, every expression and dictionary of values, every interleaving with other threads (whose calls may be interrupted) and with the collector, every history of the process", "why_tests_cant": "programs, interleavings, histories and collection points are unbounded, and identity bugs show only in some of them", "anchors": ["src/protosym/simplecas/expr.py:Expr", "src/protosym/simplecas/expr.py:ExprFunction", "src/protosym/simplecas/expr.py:expressify", "src/protosym/core/sym.py:Sym", "src/protosym/core/sym.py:SymEvaluator.__call__", "src/protosym/core/sym.py:SymDifferentiator", "src/protosym/core/evaluate.py:Evaluator.eval_forward", "src/protosym/core/evaluate.py:Transformer", "src/protosym/core/tree.py:Tree.__new__", "src/protosym/core/atom.py:Atom.__new__"]}
{"id": "C69", "title": "No thread waits for another", "statement": "Constructing, comparing and inspecting expressions never blocks: while it runs a program that uses the API, a thread that has not finished can always make its next step, whatever the other threads are doing and even if all of them are stopped for ever in the middle of a constructor. The number of steps it makes itself up to the result is bounded by a number that depends on the program only, not on the schedule, the other threads, the collector or the state of the process (at most four steps for a constructor call); so under every fair scheduler it finishes, with the right result.", "quantifier": "every program on expression objects and every user program, every interleaving with other threads (whose calls may be interrupted) and with the collector, every history of the process", "why_tests_cant": "deadlocks and livelocks show only under particular schedules, and these are unbounded; termination under all fair schedules is a statement about infinite executions", "anchors": ["src/protosym/core/tree.py:Tree.__new__", "src/protosym/core/tree.py:Tree.atom", "src/protosym/core/atom.py:Atom.__new__", "src/protosym/core/sym.py:Sym.__new__", "src/protosym/simplecas/expr.py:Expr"]}
{"id": "C70", "title": "No limit on the depth of expressions", "statement": "Python raises RecursionError when calls are nested too deeply. The functions that go through the graph of an expression - calls and operators, topological_sort, forward_graph, evaluation and transformers (besides their rules), bin_expand, diff any number of times, as_function, xreplace, count_ops_graph and count_ops_tree, construction, indexing, tolist, addition and differentiation of matrices, assignment of evaluation and differentiation rules - need a fixed number of stack frames, the same for all expressions however deep, and with fewer frames they raise RecursionError and never return anything else. eval_f64, repr, str, eval_latex, to_llvm_ir, repr and to_llvm_ir of matrices, lambdify and to_sympy (besides what LLVM and SymPy take) format heads and so need frames in proportion to the depth of the heads as well, which is 0 for the functions of simplecas. str and repr of a core tree and eval_recursive need frames in exact proportion to the depth of the expression, and from_sympy at least one for every level: for every recursion limit there is an expression they cannot handle, although it can be evaluated, printed and differentiated.", "quantifier": "every expression of any depth, every recursion limit and stack depth at the call, every rule table and evaluator", "why_tests_cant": "depth is unbounded, and the recursion limit of the process and the depth of the caller's stack are not known to a test", "anchors": ["src/protosym/core/tree.py:topological_sort", "src/protosym/core/tree.py:Tree.__repr__", "src/protosym/core/tree.py:Tree.__str__", "src/protosym/core/tree.py:forward_graph", "src/protosym/core/tree.py:SubsFunc", "src/protosym/core/evaluate.py:Evaluator.eval_forward", "src/protosym/core/evaluate.py:Evaluator.eval_recursive", "src/protosym/core/differentiate.py:diff_forward", "src/protosym/simplecas/functions.py:eval_repr", "src/protosym/simplecas/sympy_conversions.py:from_sympy"]}
{"id": "C71", "title": "Interactive programs on objects", "statement": "A program with loops, decisions and exception handlers of its own uses all of simplecas: expressions, matrices (construction, entries, tolist, addition, binop, diff, repr), functions made with as_function, repr, LaTeX, count_ops_tree, eval_f64, to_llvm_ir, lambdify and calls of the compiled functions, to_sympy and from_sympy of expressions and matrices (with calls of SymPy in between), its own evaluators with rules assigned by patterns, its own differentiators with rules. What it does next depends in any way on what it has seen: numbers, strings, shapes, SymPy objects, exceptions. All this happens on Expr objects that are compared by identity, while other threads construct expressions and the garbage collector frees them. Nevertheless everything the program sees is what the same program sees when it computes with expressions as mathematical values, in every process and at every run; and two Exprs it has got are the same object exactly when they are the same expression. The proviso is that no other thread has raced it in the construction of one of the objects involved. Importing simplecas assigns the rules of its evaluators in the same way and gives the evaluators that their documentation describes.", "quantifier": "every program (a function from what has been seen to the next statement), every number of statements, every arithmetic of floats and every SymPy (its constructors may rewrite or raise), every behaviour of LLVM and ctypes, every interleaving with other threads (whose calls may be interrupted) and with the collector, every history of the process", "why_tests_cant": "programs, interleavings, histories and collection points are unbounded, and an identity bug shows only in some of them", "anchors": ["src/protosym/simplecas/expr.py:Expr", "src/protosym/simplecas/matrix.py:Matrix", "src/protosym/core/sym.py:SymEvaluator.__setitem__", "src/protosym/core/sym.py:SymDifferentiator.__setitem__", "src/protosym/core/sym.py:star", "src/protosym/simplecas/functions.py:eval_f64", "src/protosym/simplecas/functions.py:eval_repr", "src/protosym/simplecas/functions.py:eval_latex", "src/protosym/simplecas/lambdification.py:_to_llvm_f64", "src/protosym/simplecas/lambdification.py:lambdify", "src/protosym/simplecas/sympy_conversions.py:to_sympy", "src/protosym/simplecas/sympy_conversions.py:from_sympy", "src/protosym/core/tree.py:Tree.__new__", "src/protosym/core/atom.py:Atom.__new__"]}
{"id": "C72", "title": "Memory is freed, nothing accumulates", "statement": "At every moment of every execution, the collector that starts there ends (at most two steps for every live object and one for every callback already due), and leaves exactly the objects that the variables of the program and the running calls can get at, unchanged, and exactly the store entries of those: the stores of atoms, trees and expressions keep nothing alive. When no call is running and there was no race, one object is left for every different value that the variables hold or that such a value is made of, and no other: an Expr of e needs one object, one for every different subexpression and one for every different atom, however large e is when written out, so h(e, e) nested n+1 times needs n+6; two moments with equal values in the variables have equally many objects, whatever was computed in between; after a program has ended the memory needed is that of the values it keeps.", "quantifier": "every execution with any number of threads, every order of collections and callbacks, every set of values held, every program", "why_tests_cant": "a leak shows only as growth over unbounded histories; the order of collections is not under the control of a test", "anchors": ["src/protosym/core/atom.py:_all_atoms", "src/protosym/core/tree.py:_all_trees", "src/protosym/core/sym.py:Sym._all_expressions", "src/protosym/core/atom.py:Atom.__new__", "src/protosym/core/tree.py:Tree.__new__", "src/protosym/core/tree.py:Tree.atom", "src/protosym/core/sym.py:Sym.__new__"]}
{"id": "C73", "title": "Compiled code computes everything once and nothing in vain", "statement": "The code that to_llvm_ir and lambdify generate has one instruction for every distinct compound subexpression of the expression with binary sums and products (for a matrix: of all its stored entries together, and two for every stored position), and a ret. No two instructions compute the same from the same operands: a subexpression that occurs many times, in one entry or in several, is computed once. The result of every instruction is used by a later one. A parameter is read exactly when it is an atom that occurs in the expression (in a stored entry).", "quantifier": "every expression and every matrix, every parameter list whose names LLVM accepts; functions without surplus arguments, integers that are different doubles (all up to 2^53)", "why_tests_cant": "sizes and patterns of sharing are unbounded; a wrong share or a dead instruction does not change the value and so no test of values can see it", "anchors": ["src/protosym/simplecas/lambdification.py:_to_llvm_f64", "src/protosym/simplecas/lambdification.py:_to_llvm_f64_matrix", "src/protosym/core/tree.py:forward_graph", "src/protosym/simplecas/expr.py:Expr.bin_expand"]}
{"id": "C74", "title": "A number that comes out is right", "statement": "In double precision, for an expression built from symbols and integers with +, *, sin, cos and exponents that are not negative (or whose bases cannot overflow), whatever the arguments: if lambdify(args, e)(*vals), a cell of a compiled matrix, or e.eval_f64(...) is a number rather than an infinity, a NaN or an exception, then it is within ((1+u)^D - 1)*M of the exact value, even if other subexpressions overflowed. For the n-th derivative of an expression whose exponents are at least n the error is at most K*u, with K depending only on the expression and the point. With negative exponents this fails: ((x*x)**-1*x)*x at x = 2**512 returns 0.0 instead of 1.", "quantifier": "every such expression and matrix, every point, every arithmetic that is accurate in its range and in which infinities and NaNs do not turn into numbers again", "why_tests_cant": "the values that overflow are a null set for random tests, and intermediate overflow depends on the whole expression; the bound has to hold for all real arguments", "anchors": ["src/protosym/simplecas/lambdification.py:lambdify", "src/protosym/simplecas/lambdification.py:_to_llvm_f64", "src/protosym/simplecas/expr.py:Expr.eval_f64", "src/protosym/simplecas/expr.py:eval_f64", "src/protosym/simplecas/expr.py:Expr.diff"]}
{"id": "C75", "title": "The chain rule", "statement": "For every expression e, symbols k1, ..., kn that e does not use as functions, and expressions g1, ..., gn: if e can be differentiated with respect to y and every ki, and every gi with respect to y, then r = e.xreplace({k1: g1, ..., kn: gn}) can be differentiated with respect to y, and in exact real arithmetic the value of r.diff(y) is the sum of e.diff(ki), evaluated at the values of g1, ..., gn, times gi.diff(y), plus e.diff(y) unless y is one of the ki (e itself not being one of several ki, see C13) - for all values of the symbols for which these values exist.", "quantifier": "every expression, list of symbols and replacements, variable, all real values", "why_tests_cant": "expressions, replacements and real values are unbounded; the two sides are different expressions and agree only in value", "anchors": ["src/protosym/simplecas/expr.py:Expr.xreplace", "src/protosym/simplecas/expr.py:Expr.diff", "src/protosym/core/differentiate.py:diff_forward", "src/protosym/core/tree.py:SubsFunc"]}
{"id": "C76", "title": "Which of several equal values an atom carries", "statement": "Python values can be equal and still different (True and 1, 0.0 and -0.0). An atom keeps the value it was made with for as long as it lives; while it is held, every call of its atom type with an equal value returns it, with the value it was made with; an atom never carries a value its type was not called with, and if no other equal value has been asked for, a call returns an atom with exactly the value asked for. As long as simplecas holds Integer(0) and Integer(1), Integer(True) and Integer(False) are those and every Integer of an int or bool carries an int. Without that, what Integer(1) carries (and prints) depends on what was made before.", "quantifier": "every history of constructions, reference drops and garbage collections by any number of threads; for which object is returned, no race for that type and value", "why_tests_cant": "the outcome depends on which of the equal values was made first and is still alive somewhere in the process", "anchors": ["src/protosym/core/atom.py:Atom.__new__", "src/protosym/core/atom.py:AtomType.__call__", "src/protosym/core/atom.py:_all_atoms", "src/protosym/simplecas/expr.py:expressify", "src/protosym/simplecas/expr.py:Integer", "src/protosym/simplecas/expr.py:zero", "src/protosym/simplecas/expr.py:one"]}
{"id": "C77", "title": "An interrupted call does no harm", "statement": "Wherever a call that constructs an atom, a Tree or an Expr is cut short by KeyboardInterrupt or MemoryError, the stores remain valid and C01-C04 go on to hold; an object the call had already made is in no store and referenced by nothing, and the collector frees it; the same call can be made again and, undisturbed, returns an object for the same arguments - the one that the program holds, if it holds one and there was no race for it. A program interrupted anywhere leaves the variables of its caller standing for the same expressions, and every program run with them afterwards (the same once more, for instance) gives the result it would have given without the interruption.", "quantifier": "every state of every execution with any number of threads, every point of every constructor call at which it is cut short, every program interrupted and every program run afterwards", "why_tests_cant": "an asynchronous exception can arrive between any two operations, in any state of the process; a test cannot place it there, and harm to the stores would show only in later calls", "anchors": ["src/protosym/core/atom.py:Atom.__new__", "src/protosym/core/atom.py:_all_atoms", "src/protosym/core/tree.py:Tree.__new__", "src/protosym/core/tree.py:Tree.atom", "src/protosym/core/tree.py:_all_trees", "src/protosym/core/sym.py:Sym.__new__"]}
{"id": "C78", "title": "Where the symbols of a result come from", "statement": "Differentiation invents nothing: every symbol that occurs in e.diff(x, n) occurs in e (in argument position if it does so in the derivative); every other atom is one of e or one of 0, 1, -1, Add, Mul, pow, sin, cos; for a differentiator with other rules, an atom of e or of its constants or of the right-hand side of a rule. So if e.eval_f64(values) gives a number, e.diff(x, n).eval_f64(values) does not fail for want of a value or a rule. bin_expand keeps exactly the atoms (besides an Add or Mul of one argument). After xreplace of atoms, an atom occurs exactly if it occurred and was not replaced, or occurs in what replaces an atom that occurred (with the proviso of C13).", "quantifier": "every expression, variable, order of derivative, differentiator with any rules, every dict of replacements, every dict of values and arithmetic", "why_tests_cant": "expressions and rule tables are unbounded; a symbol that appears (or disappears) would be noticed only by an evaluation or a compilation that fails later", "anchors": ["src/protosym/core/differentiate.py:diff_forward", "src/protosym/simplecas/expr.py:Expr.diff", "src/protosym/core/sym.py:SymDifferentiator.__setitem__", "src/protosym/simplecas/expr.py:Expr.bin_expand", "src/protosym/simplecas/expr.py:Expr.xreplace", "src/protosym/simplecas/functions.py:eval_f64"]}
{"id": "C79", "title": "Matrices can be shared between threads, and operations on them interrupted", "statement": "Matrices are not locked, and need no lock. Let a program make matrices and then start any number of threads that all use them: they build lists, call Matrix(entries), binop (in particular +), diff, tolist and indexing, in any order, on the shared matrices and on what they made themselves; their single operations on lists and dicts are interleaved in any way, and any statement can be cut short anywhere by KeyboardInterrupt. Then no matrix ever changes for any thread; every statement that ends gives the result, or raises the exception, that it gives when nothing else runs; and a running statement never has to wait for another thread.", "quantifier": "all programs of the threads, all interleavings of their steps, all points of interruption", "why_tests_cant": "races and interrupts cannot be enumerated by tests, and CPython rarely produces the unlucky interleaving", "anchors": ["src/protosym/simplecas/matrix.py:Matrix.__new__", "src/protosym/simplecas/matrix.py:Matrix._new", "src/protosym/simplecas/matrix.py:Matrix.__getitem__", "src/protosym/simplecas/matrix.py:Matrix.tolist", "src/protosym/simplecas/matrix.py:Matrix.binop", "src/protosym/simplecas/matrix.py:Matrix.diff"]}
{"id": "C80", "title": "Compiled functions and threads", "statement": "Several threads may compile functions and call any of them at the same time (ctypes releases the GIL while machine code runs), calls may be interrupted by KeyboardInterrupt, and the garbage collector frees whatever it can in between. Every lambdify returns or raises, and every call of a compiled function returns or raises, exactly as in a process with a single thread in which lambdify and the call follow each other: the machine code of a function that has been returned is never freed, not even while other threads compile, and an array that a call returns is a new one with the right contents that no other call works on, and that changes only if a user changes it. No call waits for another thread.", "quantifier": "every platform, all expressions, matrices and arguments, every schedule of any number of threads, interrupts and collections at any point", "why_tests_cant": "the points where threads are switched and memory is freed cannot be chosen in a test; freed machine code usually still works", "anchors": ["src/protosym/simplecas/lambdification.py:lambdify", "src/protosym/simplecas/lambdification.py:_compile_llvm", "src/protosym/simplecas/lambdification.py:_exe_eng", "src/protosym/simplecas/lambdification.py:_lambdify_llvm", "src/protosym/simplecas/lambdification.py:_lambdify_llvm_matrix"]}
{"id": "C81", "title": "The derivatives are the gradient", "statement": "For every expression e and distinct symbols x1, ..., xn: where e and every e.diff(xi) have a value (exact real arithmetic, Python's domain errors for pow), the values of e.diff(x1), ..., e.diff(xn) are together the total derivative of e as a function of x1, ..., xn - not only along each axis: the value of e near the point is its value there plus the sum of e.diff(xi) times the step in xi, up to terms small against the step. So if the symbols move differentiably with t, e changes at the rate given by the sum of e.diff(xi) times the rate of xi; at a local minimum or maximum around which e has values every e.diff(xi) is 0; and the entries of M.diff(x1), ..., M.diff(xn) are the Jacobian of the entries of a matrix M.", "quantifier": "every expression, list of symbols, matrix, point, curve and direction, all values of the other symbols", "why_tests_cant": "partial derivatives do not make a function differentiable in general; all expressions, directions and real points", "anchors": ["src/protosym/simplecas/expr.py:Expr.diff", "src/protosym/core/differentiate.py:diff_forward", "src/protosym/core/differentiate.py:product_rule_forward", "src/protosym/core/differentiate.py:chain_rule_forward", "src/protosym/simplecas/matrix.py:Matrix.diff", "src/protosym/simplecas/functions.py:eval_f64"]}
{"id": "C82", "title": "Copying expressions", "statement": "copy.copy never produces a second object with the content of an expression (which would compare unequal to it). For an Atom or an Expr it raises TypeError and nothing changes, and copy.deepcopy of a Tree (other than Tree() and what is built from it) raises TypeError and changes no object, and so does pickle.loads of a pickle of one, in the same process or another, at any time; what these return otherwise can only be Tree(). For a Tree t copy.copy returns the object that Tree() without arguments returns, and gives it the children (and the atom) of t: that object is not t, and a further copy of anything is the same object and overwrites it. Whatever else is copied, constructed, dropped and freed, all Trees other than that object keep their children and their atom as long as they are alive and read the same through and through, two of them that read the same are the same object, and Tree.atom and Tree(...) go on returning what they are asked for.", "quantifier": "every history of one thread: constructors, copies, deep copies, unpickling of anything, reading of children, references dropped, memory freed at any moment; every object", "why_tests_cant": "the copy silently shares one global object; every history of copies and collections", "anchors": ["src/protosym/core/tree.py:Tree.__new__", "src/protosym/core/tree.py:Tree.atom", "src/protosym/core/atom.py:Atom.__new__", "src/protosym/core/sym.py:Sym.__new__"]}
{"id": "C83", "title": "What the derivatives say about an expression", "statement": "In exact real arithmetic, for an expression e, a symbol x and an interval (of any kind, endpoints included or not) on which e and the derivatives named have values: the value of e at t is given by Taylor's formula from the values of e.diff(x, k) at s, k <= n, with the remainder given by e.diff(x, n+1) at a point between s and t; where e.diff(x) is 0 on the interval e has the same value everywhere on it, and two expressions whose derivatives have the same values differ by a constant; where |e.diff(x)| <= C the values at s and t differ by at most C*|t - s|; where e.diff(x) >= 0 (> 0) e increases (strictly), where it is <= 0 (< 0) e decreases (strictly); at a local minimum or maximum e.diff(x) is 0; where e.diff(x, 2) >= 0 e is convex; a point with e.diff(x) = 0 and e.diff(x, 2) > 0 is a local minimum of e; and the integral of e.diff(x) from s to t is the value of e at t minus that at s (e.diff(x, 2) having values on [s, t] too).", "quantifier": "every expression, symbol, interval, order n and pair of points, all values of the other symbols", "why_tests_cant": "all expressions, orders and real points; a statement about whole intervals", "anchors": ["src/protosym/simplecas/expr.py:Expr.diff", "src/protosym/core/differentiate.py:diff_forward", "src/protosym/core/differentiate.py:product_rule_forward", "src/protosym/core/differentiate.py:chain_rule_forward", "src/protosym/simplecas/functions.py:eval_f64"]}

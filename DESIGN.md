# Formal model of protosym in Lean 4 — design

First written before the proofs; rewritten as the model grew.  The list of properties is
`properties.jsonl`, the theorems that prove them are in `MANIFEST.json`, the wrong programs the
theorems were tried against are in `seeded/LOG.jsonl`.

## Trusted base

* The kernel of Lean 4.33.0.
* The axioms `propext`, `Classical.choice` and `Quot.sound`, which come with Lean.  Every theorem of
  the manifest depends on a subset of these three and on nothing else.  No axiom is added; nothing is
  proved by compiled code.
* The reading of the Python source.  Every definition under `lean/Verif/Model/` cites the file and
  lines it models and says where it simplifies.
* The meaning of the Python built-ins the code uses (`Model/Py.lean`): a `dict` is an association
  list in insertion order, a `set` is used through membership only, an exception is a value
  (`Except PyErr`), `int` is ℤ, `str` is a list of code points.
* The specifications under `lean/Verif/Spec/`, which give the theorems their meaning.  Two of them
  describe something outside protosym: `Spec/LLVM.lean` with `Spec/LLVMText.lean` (a machine, and a
  lexer and parser, for the fragment of LLVM assembly that is generated; after the LLVM language
  reference) and `Spec/Double.lean` (IEEE-754 binary64 values).

## Layout

* `Verif/Model`  — the model, function by function: executable definitions.
* `Verif/Spec`   — small specifications that do not use the functions of the model (they share its
  data types): reachability, postorder, substitution, big-step evaluation, derivation rules, the LLVM
  machine, what a heap object stands for, ….
* `Verif/Lemmas` — helper lemmas.
* `Verif/Props`  — the theorems named after the properties.  Beside each one stands an example that
  meets its hypotheses; theorems whose name ends in `_false` refute a claim of the code, its
  documentation or of the first version of a property by a concrete witness; `_partial` marks a
  theorem that leaves out part of its property (the docstring says which).

## What is modelled

| Source | Model | Notes |
|---|---|---|
| core/atom.py, core/tree.py:1-175, core/sym.py:39-160 (constructors and their weak global stores) | `Model/Store.lean` | a transition system: threads with program counters, strong references, the collector as a step that may happen at any time, `WeakValueDictionary.get` and `setdefault` step by step; a call can be cut short (`KeyboardInterrupt`, `MemoryError`) at every step |
| core/atom.py:87-195, core/tree.py:156-172, core/sym.py:171-190 (raw `repr`/`str`) | `Model/Repr.lean` | Python's `repr` of `str` with escapes; which characters are printable is a parameter |
| core/tree.py:201-542 (topological_sort, topological_split, forward_graph, SubsFunc) | `Model/Tree.lean` | loops as well-founded recursion; trees with structural equality |
| core/evaluate.py (Evaluator, Transformer) | `Model/Evaluate.lean` | callables are arbitrary functions into a monad with exceptions (and any other effect) |
| core/sym.py:243-602 (patterns, SymEvaluator, WildCall, PyOp…) | `Model/Sym.lean` | every branch of `__setitem__` |
| core/differentiate.py, core/sym.py:604-669 | `Model/Diff.lean` | diff_forward, product and chain rule, SymDifferentiator |
| core/tree.py:201-525, core/evaluate.py:124-189, core/differentiate.py, core/sym.py:596-669, once more with mutable containers | `Model/Containers.lean` | lists, sets and dicts are objects on a heap with arbitrary sharing; evaluator functions may change what they can reach; connected with the models on values by C65 |
| core/tree.py:201-525, core/evaluate.py:152-189, core/differentiate.py:47-138, simplecas/expr.py:559-561, once more with a step counter | `Model/Time.lean` | the file says what a step is; results connected with the models without counter by C66 |
| simplecas/lambdification.py:35-82, 151-216, simplecas/matrix.py:48-64, 111-136, once more with a step counter | `Model/TimeLLVM.lean` | a line or operand of the text is one step, whatever its length; `a in symargs` is a search through a list; `sorted` is charged n(log2 n + 1) |
| core/tree.py:118-525, core/evaluate.py:143-260, core/differentiate.py, core/sym.py, simplecas/expr.py, simplecas/functions.py, simplecas/lambdification.py:151-216, simplecas/sympy_conversions.py, once more with stack frames | `Model/Frames.lean` | every Python call takes a frame and raises `RecursionError` when none is left; connected with the models without limit by C70 |
| simplecas/matrix.py, simplecas/lambdification.py:85-251, core/sym.py:430-661, core/differentiate.py:38-44, simplecas/sympy_conversions.py:58-86, once more with stack frames | `Model/FramesMatrix.lean` | the same for matrices, `lambdify`, `to_sympy`, `Matrix.from_sympy` and the assignment of rules; what llvmlite and SymPy take for one call is a parameter, modules imported inside functions count as imported |
| core/tree.py:201-525, core/differentiate.py:47-138, core/sym.py:663-669, once more on objects | `Model/Client.lean`, `Model/ClientTree.lean` | programs that hold object references and compare objects by identity, run by one thread of the process of `Model/Store.lean` while the other threads and the collector go on; connected with the models on values by C67 |
| core/evaluate.py:43-195, core/sym.py:56-59, 134-169, 596-669, simplecas/expr.py:32-88, 171-257, 363-480, 518-531, 534-585, once more on objects | `Model/ClientEval.lean`, `Model/ClientExpr.lean` | evaluators whose rules are programs on objects, the methods of `Expr`, what the import of simplecas makes; connected with the models on values by C68.  Not as programs on objects: `eval_recursive` (it recurses) |
| core/sym.py:240-439, 529-590, simplecas/functions.py:30-98, simplecas/matrix.py, simplecas/lambdification.py, simplecas/sympy_conversions.py, once more on objects | `Model/ClientRules.lean`, `Model/ClientMatrix.lean` | assignment of rules by patterns (arguments compared by identity), what the import of simplecas assigns, matrices, code generation, lambdify, the conversions from and to SymPy; connected with the models on values by C71.  Lists and dicts that hold `Expr`s are values (`Model/MatrixHeap.lean`: as objects); callables of rules are functions on plain data |
| simplecas/expr.py | `Model/Expr.lean`, `Model/Functions.lean` | expressify, operators, xreplace, as_function, printers, counts, eval_f64, bin_expand |
| simplecas/functions.py | `Model/Functions.lean` | all rules of the built-in functions |
| simplecas/matrix.py | `Model/Matrix.lean`, `Model/MatrixHeap.lean`, `Model/MatrixThreads.lean` | as values, on a heap of mutable lists and dicts, and as sequences of single operations on lists and dicts in several threads |
| simplecas/lambdification.py:19-82, 151-216 | `Model/LLVM.lean` | instructions as data, and the text |
| simplecas/lambdification.py:85-149, 219-251 | `Model/Compile.lean`, `Model/CompileThreads.lean` (threads) | lambdify, engines kept by `_exe_eng`, ctypes' argument rules, npfunc's arrays; LLVM itself is a parameter |
| core/tree.py:106-154 with `copy.copy`, `copy.deepcopy`, `pickle` | `Model/Copy.lean` | Python's default copying (`cls.__new__(cls)`, then the attributes are assigned), one thread, constructors and copies as single steps; pickles of protocol 2 and later; that `pickle.dumps` can pickle the value in an `Atom` is assumed |
| simplecas/sympy_conversions.py | `Model/SymPy.lean` | SymPy's constructors are a parameter |

The two layers are connected by C02: in every reachable state of the store layer (without races in
`setdefault`, C03) two live objects are identical exactly when they stand for the same expression.  That is what allows the other modules to
use an inductive type `Tree V` with structural equality and to treat the wrapper `Sym` as its tree.
C67 and C68 prove that this is allowed, for programs in general and for the algorithms of core/tree.py and
core/differentiate.py, for evaluators and for the API of simplecas in particular: run on objects, they do what they do on values.

## What is not modelled

* `rust_protosym`, the optional replacement of `core/tree.py`, `core/atom.py` and
  `core/differentiate.py`; its source is not in the repository.
* LLVM and the processor: what the text does is the trusted `Spec/LLVM.lean`; that LLVM accepts
  well-formed modules and compiles them to code that does this is the hypothesis `PlatformOK` of C59.
  Its optimisations (`opt_level = 2`, which may replace a call of `llvm.pow`) are part of that
  hypothesis.  `_lambdify_llvm_matrix` declares `c_double` as the result type of a `void` function;
  the result is ignored.  The reuse of the address of a freed engine is not modelled (no function that was returned has one: C59_never_freed, C80;
  arrays that have been returned are taken to be kept).  The limit of ctypes on the number of arguments is a parameter (at least 1024).
  `ImportError` when llvmlite or numpy is missing is not modelled.
* Floating point: the arithmetic is a parameter wherever a theorem is about structure (C35, C36, C38,
  C51), and exact real arithmetic with Python's domain errors for C22, C25, C53, C58, C61, C75, C81, C83.  Rounding is
  modelled for integer constants (C45) and, for expressions with integer exponents, in C62 and C64: a float is
  something that stands for a real number or for none (infinities, NaNs), operations have a bounded
  relative error unless they overflow; `Spec/Binary64.lean` says this for IEEE-754 bit patterns.  That
  the processor rounds to nearest and that `pow`, `sin`, `cos` of libm and LLVM are right up to one unit
  in the last place is assumed there.  Of overflow C74 assumes that sums, products, positive powers, sines and
  cosines of infinities and NaNs are not numbers (`Spec/Overflow.lean`); which of them a result is is not modelled.
* SymPy: arbitrary constructors; equality of SymPy objects is taken to be structural.
* Messages of exceptions; memory exhaustion and signals except inside the constructors of objects (C77) and operations on matrices (C79).  The recursion limit is modelled in C70 only (everywhere else calls may be
  nested as deep as one likes); attributes and hashes of SymPy objects and numeric functions written in C take no frame there, the C stack and the callbacks of weak references
  (which run when an object is freed) are not modelled.
* Subclasses of `str`/`int` with a strange `__eq__`/`__hash__` as values of atoms.
* `__main__.py`, type annotations, doctest/fixture code, `Expr._repr_latex_` and `Expr._sympy_` (one-line
  aliases of functions that are modelled), `funcs_symbols` (a helper of the doctests).

## Plan per property

**Store layer.**  C01–C04: an inductive invariant over all interleavings and all points at which the
collector may run (`Lemmas/Store.lean`), with a refinement to `Tree`.  C03 as promised by the comment
in the source is false: `WeakValueDictionary.setdefault` is a lookup followed by an insertion, and
two threads can both insert (`C03_concurrent_construction_false` is such a schedule).  C04, what objects
stand for and what constructors return are proved for every schedule; identity of equal objects for the keys for
which no two threads have been inside `setdefault` at the same time (`History`, `Race`).  Finding:
`Integer(True)` may return the atom whose value is `1` and vice versa (equal, not identical).
C76 (`Spec/AtomValue.lean`, `Props/AtomValue.lean`) says which of the equal values it is: the record of the values asked
for and the set of values held are carried along the execution (`Asked`, `Since`), by induction on its steps.
C77 (`Spec/Interrupt.lean`, `Props/Interrupt.lean`): calls may be cut short anywhere; this is a step of the process model
(`Step.interrupt`), so all theorems on executions cover it; that what the call has made is the call's alone is an invariant.
C78 (`Spec/Symbols.lean`, `Props/Symbols.lean`): where the atoms of derivatives, expansions and substitutions come from, by
induction on the relations of C52, C20 and C11.

**Graphs.**  C05–C08: the explicit-stack loop is proved to produce the postorder with first
occurrences kept; C08 by a copy of the loop that counts.  C09, C10: topological_split, forward_graph and its replay;
the docstring's claim that the replayed list is `topological_sort(e)` is refuted (the atoms come first).

**Substitution.**  C11–C13: SubsFunc against a recursive substitution.  Finding: if the whole expression is itself
a parameter other than the last, the last value is returned; this is inherited by `xreplace` (C13) and
by differentiation rules whose right-hand side is a pattern argument (C27).  C47: substitution lemma
for every evaluator.

**Evaluation.**  C14–C19: eval_forward against a big-step relation; C15 compares with eval_recursive
(they differ when a value is supplied for a compound expression, for `None`, and in which of two
exceptions they report); C18 with recorded calls in an arbitrary monad.  C20: bin_expand.  C21: counts, closed forms by
induction.  C39: decision table of `SymEvaluator.__setitem__`.  C55: any history
of rule assignments against the rules read as a list (`Spec/EvalTable.lean`).  C51: eval_f64 from the expression alone.

**Differentiation.**  C23–C28, C52: diff_forward against derivation rules (`Spec/DiffTable.lean`) for every
differentiator a program can build.  C22, C25: for the built-in rules the value of the result is Mathlib's
`HasDerivWithinAt` of the value of the expression, within its domain of definition.  C53: the same
for any differentiator whose rules are right.  C57: induction on the derivation of C52 (`Spec/DiffSubs.lean`).
C75 (chain rule, `Lemmas/Chain.lean`): in the dual numbers the ε-part of a value is linear in the ε-parts of the leaves, and a substituted
expression is evaluated with the dual values of the replacements; existence of the derivative by induction.  C58: the value of `e.diff(x)` is the ε-part of the value of `e` in the dual numbers over any ring with functions;
over dual numbers of dual numbers the two infinitesimals can be exchanged (`Lemmas/Mixed.lean`).

C81 (gradient, `Spec/Gradient.lean`, `Lemmas/Gradient.lean`): the value of an expression whose symbols depend on a point of a normed space is
shown, by induction on the expression, to have as Fréchet derivative (Mathlib's `HasFDerivWithinAt`) the ε-part of its value in dual numbers
(`Follows`); by C75's `ev_total_derivative` this is the sum of the `e.diff(x_i)` times the variations.  That bases of powers are not 0 where
they must not be follows from the derivatives having values.  Gradient, curves, extrema and Jacobians are instances.

C83 (`Props/Calculus.lean`): by C22 the value of `e`, as a function of `x`, has the value of `e.diff(x)` as derivative within every set on
which both have values; the rest is Mathlib's calculus (Taylor with Lagrange's remainder, mean value theorem, convexity, fundamental theorem).

C82 (copies, `Model/Copy.lean`, `Spec/Copy.lean`, `Lemmas/Copy.lean`): an invariant over all histories says where the entries of the store
lead and that every object but `Tree()` is entered under its own content (`CopyInv`), and that a step changes no other object (`Keeps`).  `copy.deepcopy`, `pickle.dumps` and `pickle.loads` are big-step relations; that the first and the last raise is by induction on what the object reads.

**Sizes.**  C56: a covering argument: every distinct subexpression contributes a bounded list of new ones
(`Spec/Size.lean` counts nodes and edges of the graph).

**Time.**  C66: a writer monad (`Model/Time.lean`: `Timed`) in which every loop turn and every copied element is counted, also
when the computation raises; a potential function for topological_sort, induction for the other loops.  Trusted there: the
price list at the head of the file (hashing and comparing trees by identity in one step).

**Objects.**  C67: a simulation: every step of a thread that runs a program (`Model/Client.lean`: `Prog`, `Run`) is a
step of the program on values (`Spec/Client.lean`: `valueStep`) or leaves it alone, because the invariant of the store layer makes identity of
held objects equality of what they stand for; the other way round a run on values can be carried out in the process.  The
programs for the algorithms (`Model/ClientTree.lean`) are then compared with the functions on values by a small
program logic (`Lemmas/ClientLogic.lean`: `Computes`).  Loops are steps of the program, so nothing has to be assumed about
termination.  `C67_race_false`: with two objects for `x`, `diff` returns 0 for 1.
C68: the same for evaluators, transformers and `Expr`.  Rules of an evaluator are programs on objects themselves; `EvalAt`
(`Spec/ClientEval.lean`) says that they compute what the rules on values compute, and `C68_evaluate_runs`, `C68_transform_runs` that every
evaluator on values has such a counterpart.  `Spec/ClientScript.lean` gives user programs (lists of API calls that refer to earlier
results) two meanings, on values and on objects; C68_session says that they agree.  Calls and operators compare nothing, so
that races do not matter for them.
C71: programs that decide what to do from what they have seen (`User` in `Spec/ClientUser.lean`), with exceptions caught
(`Prog.attempt`), matrices, printing, SymPy, own evaluators and differentiators: the same two meanings, and a relation between the
results that is kept by every statement (`Lemmas/ClientRules.lean`, `ClientMatrix.lean`, `ClientUser.lean`).
C69 (progress): `Spec/Progress.lean` singles out the steps that the thread makes itself (`Own`) and counts them.  The
invariant `Budget` (`Lemmas/Progress.lean`): with `m` steps done on values the thread has made between `m` and `4 * m` + (its place inside the
current call) steps; `own_step`: as long as the program on values has a next step the thread has one.  Endless executions are functions
from `Nat`, fairness is that the thread makes a step, or cannot, again and again.  That `WeakValueDictionary` takes no lock is
part of the model (trusted); locks inside the interpreter are not modelled.
C72 (memory): `Spec/Memory.lean` calls a step that changes neither variables nor threads, but something, a step of the memory
management (`Frees`).  They end because each collection takes an object away and adds at most one callback.  In a state where
none is left (`Settled`), going down from the newest object, every live object is in use: references, those of the keys of the stores
included, point to older objects.  With uniqueness (C02) the live objects then correspond one to one to the parts of the values held.
That CPython finds unreferenced objects and runs the callbacks is part of the model (trusted): the theorems say that the stores of
protosym do not prevent it.

**Containers.**  C65: the functions on the heap refine the functions on values and touch no container that
existed: a weakest-precondition calculus (`Lemmas/Containers.lean`: `Post`), loop invariants for every loop, and an invariant
over all programs (`Spec/Containers.lean`: `Reaches`, in which the caller may at any time do anything to every container it
can reach, in particular to all results).  The attributes of `SubsFunc` and `DiffProperties` objects are not given to
the caller.

**Matrices.**  C29–C33 on values; C49: the same operations on a heap of mutable objects refine the
operations on values and never change an existing matrix (sharing of `entrymap` between a matrix and
its derivative is harmless as long as nobody assigns to it: `C49_sharing`).  C32 is refuted for operations for which 0 is not
neutral (`Mul`).
C79 (`Model/MatrixThreads.lean`): the functions once more as sequences of single operations; they write only to what they have made
themselves (`Keeps`), so that for every thread the rest of a running statement gives, without a break, what the whole gives
(`Busy`), whatever the others do.  Copying a list or dict is one operation there, as under the GIL; threads get the shared matrices when
they are started and hand each other nothing later.

**LLVM.**  C34–C38, C45, C50: the generated function is well formed exactly when the printed parameter names
are usable; it computes the expression on the machine of `Spec/LLVM.lean`; its text parses back to it.  C59: an
invariant over all histories of the process (`Spec/Compile.lean`): an engine in `_exe_eng` is never freed.
C80 (`Model/CompileThreads.lean`, `Spec/CompileThreads.lean`): compiling and calling as single operations of threads, with machine code running
beside other threads; an invariant says what local variables and `_exe_eng` keep alive and that arrays in use are apart (`LInv`).
C60: the value of a substituted expression by induction, transported through C59.  C61: C53 for the exact arithmetic whose constants are the
rounded ones, transported through C38 and C59 (`Spec/LLVMReal.lean`: `DefinedAt`, `Elementary`).  Repeated derivatives of matrices (`Props/MatrixNth.lean`): by induction on the list of variables, entry by entry (C33, C58, C61).
C62: forward error analysis by induction on `ErrBound` (`Spec/Rounding.lean`); IEEE doubles meet its hypotheses because the
double nearest to a number has relative error 2^-53 (`Lemmas/Nearest.lean`) and a tiny sum of doubles is exact.
C64: C25 and C22 in exact arithmetic with the bound of C62; the constant K from a bound on the derivatives of every
subexpression (`Tower`), and near a point that is not a pole from bounds at the point (`Props/CompiledPoles.lean`).  C74: the induction of C62 with "if the result is a number, then"; finite results have finite arguments.
Finding: a negative power of something that overflowed is 0, so that `((x*x)**-1*x)*x` at 2^512 is 0 (C74_negative_false).  Other findings: parameters with the same name
(`Symbol('f')` and `Function('f')`, or the same symbol twice), names like `.0`, names with quotes or backslashes (which are not escaped: a name can
inject instructions), a parameter `_out` of a matrix function, `Integer(0)` as a parameter of a matrix
function, more than 2^31 entries (the offset is an `i32`), integers beyond the range of a double
(OverflowError), superfluous arguments of `sin`, `cos` and `pow` being ignored.  C38: eval_f64 uses `fsum` (one
rounding) where the compiled code adds repeatedly, and raises where the compiled code returns a NaN or
an infinity; equality is proved outside these two cases, for expressions and (`Props/LambdifyMatrix.lean`) for
every element of a matrix function's array.
C73 (`Spec/LLVMWork.lean`): the instructions correspond one to one to the compound subexpressions in graph order (`instrOf`); different
subexpressions have different operands because names, registers and constants are told apart (`ident_inj`), so that equal work means equal
subexpressions; a subexpression other than the root has a parent in the graph, whose instruction comes later and uses it.

**Operators, printing, SymPy.**  C40, C41: operators and expressify.  C42, C46: printing is total on
proper expressions, and injective on readable ones, not in general (`x**y**z`); `C42_exact` says which
expressions with proper names print alike.  C63: LaTeX is unambiguous but for Add/Mul of fewer than two
terms and a Function in place of a Symbol; powers of powers are kept apart.  C54: the raw representation
is injective.  C43, C44: conversions, with the list of what does not round-trip; a matrix
without non-zero entries cannot come back from SymPy.  C48: nothing depends on the choice of names.

Every property of the list can be expressed in the model; where a property is false, the theorem
`…_false` says so, the exact boundary is proved, and the manifest says `partial`.

**Recursion limit.**  C70: `Framed` (`Model/Frames.lean`) is a computation that is given a number of free stack frames and may find
that there are too few; `frame` is a Python call.  Every function is written once more in it, call for call; `Within k x r`
(`Spec/Frames.lean`) says that `x` gives `r` with `k` or more frames and with fewer `r` or `RecursionError`, `Exactly k x r` that it needs them.
The proofs go along the program text; loops by induction with the same number of frames for every turn.  Trusted there: which calls
take a frame (`FrameUse` leaves open how many a comprehension, a weak dictionary operation and a C slot take).

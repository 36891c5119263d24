import Verif.Model.Tree

/-!
# Model of src/protosym/core/evaluate.py

The callables registered by the user may raise and may have side effects: they return in
an arbitrary monad `m` that can raise Python exceptions.  For callables without side
effects take `m := PyM`.
-/

namespace Verif

/-- Raise in `m` what a `PyM` computation raises. -/
def liftPy {m : Type → Type} [Monad m] [MonadExceptOf PyErr m] {α : Type} : PyM α → m α
  | .ok a => pure a
  | .error e => throw e

/-- Which values of the result type are Python's `None` (evaluate.py:176 tests
`value_get is not None`). -/
class HasNone (T : Type) where
  isNone : T → Bool

/-- The pairs `(func, star_args)` of evaluate.py:87, 110, 114, 118.  `star f` is called as
`f(*argvals)`, `seq f` as `f(argvals)`; `f` is the behaviour of the callable on the list of
arguments (a callable of fixed arity raises `TypeError` on any other number of
arguments). -/
inductive OpFunc (m : Type → Type) (T : Type) where
  | star (f : List T → m T)
  | seq (f : List T → m T)

/-- `Evaluator`: evaluate.py:43-96. -/
structure Evaluator (m : Type → Type) (V T : Type) where
  atoms : Dict AtomType (V → m T)
  operations : Dict (Tree V) (OpFunc m T)
  genericOperationFunc : Tree V → List T → m T
  genericAtomFunc : Tree V → m T

namespace Evaluator
variable {m : Type → Type} [Monad m] [MonadExceptOf PyErr m] {V T : Type} [DecidableEq V]

/-- `Evaluator.__init__`: evaluate.py:91-96 with the two fallback rules at 31-40.  Simplified: the
`repr` in the message is taken to succeed (it raises `AttributeError` if `Tree()` occurs in the head). -/
def new : Evaluator m V T where
  atoms := Dict.empty
  operations := Dict.empty
  genericOperationFunc := fun _ _ => throw .noEvaluationRule
  genericAtomFunc := fun _ => throw .noEvaluationRule

omit [DecidableEq V] [MonadExceptOf PyErr m] [Monad m] in
/-- `add_atom`: evaluate.py:98-102. -/
def addAtom (ev : Evaluator m V T) (ty : AtomType) (func : V → m T) : Evaluator m V T :=
  { ev with atoms := ev.atoms.set ty func }

omit [DecidableEq V] [MonadExceptOf PyErr m] [Monad m] in
/-- `add_atom_generic`: evaluate.py:104-106. -/
def addAtomGeneric (ev : Evaluator m V T) (func : Tree V → m T) : Evaluator m V T :=
  { ev with genericAtomFunc := func }

omit [MonadExceptOf PyErr m] [Monad m] in
/-- `add_op1`: evaluate.py:108-110. -/
def addOp1 (ev : Evaluator m V T) (head : Tree V) (func : List T → m T) : Evaluator m V T :=
  { ev with operations := ev.operations.set head (.star func) }

omit [MonadExceptOf PyErr m] [Monad m] in
/-- `add_op2`: evaluate.py:112-114. -/
def addOp2 (ev : Evaluator m V T) (head : Tree V) (func : List T → m T) : Evaluator m V T :=
  { ev with operations := ev.operations.set head (.star func) }

omit [MonadExceptOf PyErr m] [Monad m] in
/-- `add_opn`: evaluate.py:116-118. -/
def addOpN (ev : Evaluator m V T) (head : Tree V) (func : List T → m T) : Evaluator m V T :=
  { ev with operations := ev.operations.set head (.seq func) }

omit [DecidableEq V] [MonadExceptOf PyErr m] [Monad m] in
/-- `add_op_generic`: evaluate.py:120-122. -/
def addOpGeneric (ev : Evaluator m V T) (func : Tree V → List T → m T) : Evaluator m V T :=
  { ev with genericOperationFunc := func }

/-- `eval_atom`: evaluate.py:124-130. Reading `atom.value` raises `AttributeError` on the
degenerate childless `Tree()`. -/
def evalAtom (ev : Evaluator m V T) (atom : Tree V) : m T :=
  match atom.value with
  | .error err => throw err
  | .ok atomValue =>
    match ev.atoms.get? atomValue.atomType with
    | none => ev.genericAtomFunc atom
    | some func => func atomValue.value

/-- `eval_operation`: evaluate.py:132-146. -/
def evalOperation (ev : Evaluator m V T) (head : Tree V) (argvals : List T) : m T :=
  match ev.operations.get? head with
  | none => ev.genericOperationFunc head argvals
  | some (.star f) => f argvals
  | some (.seq f) => f argvals

mutual
/-- `eval_recursive`: evaluate.py:152-165. -/
def evalRecursive (ev : Evaluator m V T) (values : Dict (Tree V) T) : Tree V → m T
  | .atom a =>
    match values.get? (.atom a) with
    | some v => pure v
    | none => ev.evalAtom (.atom a)
  | .node [] =>
    match values.get? (.node []) with
    | some v => pure v
    | none => ev.evalAtom (.node [])
  | .node (head :: args) =>
    match values.get? (.node (head :: args)) with
    | some v => pure v
    | none => do
      let argvals ← evalRecursiveList ev values args
      ev.evalOperation head argvals
/-- The list comprehension at evaluate.py:164. -/
def evalRecursiveList (ev : Evaluator m V T) (values : Dict (Tree V) T) :
    List (Tree V) → m (List T)
  | [] => pure []
  | c :: cs => do
    let v ← evalRecursive ev values c
    let vs ← evalRecursiveList ev values cs
    return v :: vs
end

/-- The value of one atom in `eval_forward`: evaluate.py:175-179. -/
def evalLeaf [HasNone T] (ev : Evaluator m V T) (values : Dict (Tree V) T) (atom : Tree V) : m T :=
  match values.get? atom with
  | some v => if HasNone.isNone v then ev.evalAtom atom else pure v
  | none => ev.evalAtom atom

/-- The first loop of `eval_forward`: evaluate.py:174-180. -/
def evalAtomsLoop [HasNone T] (ev : Evaluator m V T) (values : Dict (Tree V) T)
    (stack : List T) : List (Tree V) → m (List T)
  | [] => pure stack
  | atom :: rest => do
    let value ← ev.evalLeaf values atom
    evalAtomsLoop ev values (stack ++ [value]) rest

/-- The second loop of `eval_forward`: evaluate.py:183-185. -/
def evalOpsLoop (ev : Evaluator m V T) (stack : List T) :
    List (Tree V × List Nat) → m (List T)
  | [] => pure stack
  | (head, indices) :: rest => do
    let argvals ← liftPy (indices.mapM (fun i => pyGet stack i))
    let value ← ev.evalOperation head argvals
    evalOpsLoop ev (stack ++ [value]) rest

/-- `eval_forward`: evaluate.py:167-189. -/
def evalForward [HasNone T] (ev : Evaluator m V T) (expr : Tree V) (values : Dict (Tree V) T) :
    m T := do
  let graph ← liftPy (forwardGraph expr)
  let stack ← ev.evalAtomsLoop values [] graph.atoms
  let stack ← ev.evalOpsLoop stack graph.operations
  liftPy (pyLast stack)

/-- `evaluate`: evaluate.py:148-150, and `__call__`: evaluate.py:191-195 (`values=None` is
the empty dict). -/
def call [HasNone T] (ev : Evaluator m V T) (expr : Tree V)
    (values : Option (Dict (Tree V) T) := none) : m T :=
  match values with
  | none => ev.evalForward expr Dict.empty
  | some values => ev.evalForward expr values

end Evaluator

/-- A tree is never `None`. -/
instance {V : Type} : HasNone (Tree V) := ⟨fun _ => false⟩
/-- A string is never `None`. -/
instance : HasNone String := ⟨fun _ => false⟩
/-- A number is never `None`. -/
instance : HasNone Int := ⟨fun _ => false⟩
/-- A number is never `None`. -/
instance : HasNone Nat := ⟨fun _ => false⟩

/-- `Transformer.__init__`: evaluate.py:198-260. -/
def Transformer.new {m : Type → Type} [Monad m] [MonadExceptOf PyErr m] {V : Type}
    [DecidableEq V] : Evaluator m V (Tree V) :=
  (Evaluator.new.addAtomGeneric (fun atom => pure atom)).addOpGeneric
    (fun head args => pure (head.call args))

/-- A Python callable with exactly one positional parameter, called with a list of
positional arguments. -/
def arity1 {m : Type → Type} [Monad m] [MonadExceptOf PyErr m] {T : Type} (f : T → m T) :
    List T → m T
  | [a] => f a
  | _ => throw .typeError

/-- A Python callable with exactly two positional parameters. -/
def arity2 {m : Type → Type} [Monad m] [MonadExceptOf PyErr m] {T : Type} (f : T → T → m T) :
    List T → m T
  | [a, b] => f a b
  | _ => throw .typeError

end Verif

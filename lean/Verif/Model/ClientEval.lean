import Verif.Model.ClientTree

/-!
# core/evaluate.py as programs on objects

`Model/Evaluate.lean` once more, as programs of `Model/Client.lean`: rules are looked up by the
identity of the head, values by the identity of the atom.  The callables that the rules consist of are
programs themselves: they may call constructors and compare objects.  Not written out as a program:
`eval_recursive` (evaluate.py:152-165), which recurses.
-/

namespace Verif.Store.Prog
variable {V K T : Type}

/-- `Evaluator`: evaluate.py:43-96.  `T` is the type of the values (data that may contain handles).
The dictionaries are lists of pairs, newest first.  The keys of `atoms` are `AtomType`s (compared by
identity, never collected while the evaluator refers to them), those of `operations` are `Tree`s. -/
structure EvalH (V K T : Type) where
  atoms : List (AtomType × (K → Prog V K T))
  operations : List (Nat × (List T → Prog V K T))
  genericOp : Nat → List T → Prog V K T
  genericAtom : Nat → Prog V K T

/-- `Evaluator()`: evaluate.py:91-96 with 31-40. -/
def evalNew : EvalH V K T where
  atoms := []
  operations := []
  genericOp := fun _ _ => .raise .noEvaluationRule
  genericAtom := fun _ => .raise .noEvaluationRule

/-- `add_atom`: evaluate.py:98-102. -/
def EvalH.addAtom (ev : EvalH V K T) (ty : AtomType) (func : K → Prog V K T) : EvalH V K T :=
  { ev with atoms := (ty, func) :: ev.atoms }

/-- `add_atom_generic`: evaluate.py:104-106. -/
def EvalH.addAtomGeneric (ev : EvalH V K T) (func : Nat → Prog V K T) : EvalH V K T :=
  { ev with genericAtom := func }

/-- `add_op1`, `add_op2`, `add_opn`: evaluate.py:108-118.  `func` is the behaviour of the callable on
the list of arguments (one of fixed arity raises `TypeError` on any other number). -/
def EvalH.addOp (ev : EvalH V K T) (head : Nat) (func : List T → Prog V K T) : EvalH V K T :=
  { ev with operations := (head, func) :: ev.operations }

/-- `add_op_generic`: evaluate.py:120-122. -/
def EvalH.addOpGeneric (ev : EvalH V K T) (func : Nat → List T → Prog V K T) : EvalH V K T :=
  { ev with genericOp := func }

/-- The attributes `atom_type` and `value` of an atom: atom.py:163-165. -/
def atomParts (a : Nat) : Prog V K (AtomType × K) :=
  .look a (fun o =>
    match o with
    | .atom ty v => .ret (ty, v)
    | _ => .raise .attributeError)

/-- `atom.value.atom_type` and `atom.value.value` of a `Tree` (evaluate.py:126-130): only a `Tree` made
by `Tree.atom` has a `value` (tree.py:145). -/
def atomValue (h : Nat) : Prog V K (AtomType × K) :=
  .look h (fun o =>
    match o with
    | .treeAtom a => atomParts a
    | _ => .raise .attributeError)

/-- `self.atoms.get(atom_type)`: evaluate.py:127. -/
def atomRule {F : Type 1} (ty : AtomType) : List (AtomType × F) → Option F
  | [] => none
  | (ty', f) :: d => if ty' = ty then some f else atomRule ty d

/-- `eval_atom`: evaluate.py:124-130. -/
def EvalH.evalAtom (ev : EvalH V K T) (atom : Nat) : Prog V K T :=
  atomValue atom >>= fun p =>
    match atomRule p.1 ev.atoms with
    | none => ev.genericAtom atom
    | some func => func p.2

/-- The lookup in `eval_operation`: evaluate.py:135-146. -/
def opRule (head : Nat) (argvals : List T) (other : Prog V K T) :
    List (Nat × (List T → Prog V K T)) → Prog V K T
  | [] => other
  | (h, f) :: d => .same h head (fun s => if s then f argvals else opRule head argvals other d)

/-- `eval_operation`: evaluate.py:132-146. -/
def EvalH.evalOperation (ev : EvalH V K T) (head : Nat) (argvals : List T) : Prog V K T :=
  opRule head argvals (ev.genericOp head argvals) ev.operations

/-- The value of one atom in `eval_forward`: evaluate.py:175-179. -/
def EvalH.evalLeaf [HasNone T] (ev : EvalH V K T) (values : List (Nat × T)) (atom : Nat) :
    Prog V K T := do
  match ← lookup atom values with
  | some v => if HasNone.isNone v then ev.evalAtom atom else .ret v
  | none => ev.evalAtom atom

/-- The first loop of `eval_forward`: evaluate.py:174-180. -/
def EvalH.evalAtomsLoop [HasNone T] (ev : EvalH V K T) (values : List (Nat × T)) (stack : List T) :
    List Nat → Prog V K (List T)
  | [] => .ret stack
  | atom :: rest => do
    let value ← ev.evalLeaf values atom
    ev.evalAtomsLoop values (stack ++ [value]) rest

/-- The second loop of `eval_forward`: evaluate.py:183-185. -/
def EvalH.evalOpsLoop (ev : EvalH V K T) (stack : List T) :
    List (Nat × List Nat) → Prog V K (List T)
  | [] => .ret stack
  | (head, indices) :: rest => do
    let argvals ← each (fun i => ofPy (pyGet stack i)) indices
    let value ← ev.evalOperation head argvals
    ev.evalOpsLoop (stack ++ [value]) rest

/-- `eval_forward`, which is `evaluate` and `__call__`: evaluate.py:148-150, 167-195. -/
def EvalH.call [HasNone T] (ev : EvalH V K T) (expr : Nat) (values : List (Nat × T)) :
    Prog V K T := do
  let g ← graph expr
  let stack ← ev.evalAtomsLoop values [] g.atoms
  let stack ← ev.evalOpsLoop stack g.operations
  ofPy (pyLast stack)

/-- `Transformer()`: evaluate.py:198-260. -/
def transformerNew : EvalH V K Nat :=
  (evalNew.addAtomGeneric .ret).addOpGeneric (fun head args => call head args)

/-! ### Reading a whole expression -/

/-- The loop of `readTree`. -/
def readLoop (d : List (Nat × Tree K)) : List Nat → Prog V K (List (Nat × Tree K))
  | [] => .ret d
  | h :: rest =>
    .look h (fun o =>
      match o with
      | .treeAtom a => atomParts a >>= fun p => readLoop ((h, .atom ⟨p.1, p.2⟩) :: d) rest
      | .tree cs => each (getItem d) cs >>= fun ts => readLoop ((h, .node ts) :: d) rest
      | _ => .raise .attributeError)

/-- Read a `Tree` with all that it is made of, as a callable does that prints it (`str`, `repr`:
tree.py:156-172) or looks into it.  This is no function of the code base: it is the means by which a
rule of an evaluator depends on the head it is given. -/
def readTree (h : Nat) : Prog V K (Tree K) := do
  let subexpressions ← sort true [] h
  let d ← readLoop [] subexpressions
  getItem d h

end Verif.Store.Prog

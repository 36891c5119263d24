import Verif.Model.Store
import Verif.Model.Diff

/-!
# Programs that work on the objects

`Model/Tree.lean` and `Model/Diff.lean` treat expressions as values: `==` and `in` compare
structures.  The code compares *objects* (`Tree` does not define `__eq__`, tree.py:31-172, so `==`,
`in`, sets and dictionaries go by identity) and finds its objects in stores that other threads and
the garbage collector change at the same time.  Here are the same algorithms once more, as programs
that hold object references: `Prog` is what a piece of Python code may do with expression objects,
and `Run` is what happens when a thread of the process of `Model/Store.lean` runs such a program
while the other threads and the collector do as they please.

A program names the objects it has got by handles: handle `n` is the `n`-th object it got (a Python
variable).  `Props/Client.lean` proves that the programs compute what the functions on values say.
-/

namespace Verif.Store

/-- Python code that works with expression objects.  `α` is the type of the result (data that may
contain handles). -/
inductive Prog (V K : Type) : Type → Type 1
  /-- `return a` -/
  | ret {α : Type} (a : α) : Prog V K α
  /-- `raise e` -/
  | raise {α : Type} (e : PyErr) : Prog V K α
  /-- A constructor call: `atom_type(value)`, `Tree.atom(atom)`, `Tree(*children)`, `Expr(tree)`;
  the references in `c` are handles, and the program goes on with the handle of the result. -/
  | make {α : Type} (c : Obj V) (k : Nat → Prog V K α) : Prog V K α
  /-- `x == y` (or `x is y`, or the comparison made by a set or a dictionary): identity. -/
  | same {α : Type} (h h' : Nat) (k : Bool → Prog V K α) : Prog V K α
  /-- Read the attributes of an object: `atom_type` and `value` of an atom, `value` or `children` of
  a `Tree`, `rep` of an `Expr`.  The program goes on with what it saw; the references in it are
  handles.  Values of atoms are seen up to `==`. -/
  | look {α : Type} (h : Nat) (k : Obj K → Prog V K α) : Prog V K α
  /-- A `while` loop with the variables `x`: the body ends with new values of the variables, or
  leaves the loop with a result. -/
  | loop {α σ β : Type} (body : σ → Prog V K (σ ⊕ β)) (x : σ) (k : β → Prog V K α) : Prog V K α

namespace Prog
variable {V K : Type}

/-- One piece of code after another; an exception ends both. -/
def bind {α β : Type} : Prog V K α → (α → Prog V K β) → Prog V K β
  | .ret a, f => f a
  | .raise e, _ => .raise e
  | .make c k, f => .make c (fun h => (k h).bind f)
  | .same h h' k, f => .same h h' (fun b => (k b).bind f)
  | .look h k, f => .look h (fun o => (k o).bind f)
  | .loop body x k, f => .loop body x (fun b => (k b).bind f)

/-- `do` notation for programs. -/
instance : Monad (Prog V K) where
  pure := .ret
  bind := bind

/-- The loop after its body has run once. -/
def again {α σ β : Type} (body : σ → Prog V K (σ ⊕ β)) (k : β → Prog V K α) : σ ⊕ β → Prog V K α
  | .inl x => .loop body x k
  | .inr b => k b

/-- A result or an exception as a finished program. -/
def ofPy {α : Type} : PyM α → Prog V K α
  | .ok a => .ret a
  | .error e => .raise e

end Prog

variable {V K : Type}

/-- The object that a handle refers to; a handle whose variable is gone refers to nothing. -/
def held (hs : List (Option Nat)) (h : Nat) : Option Nat := hs[h]?.join

/-- The call with objects for handles. -/
def resolve (hs : List (Option Nat)) : Obj V → Option (Obj V)
  | .atom ty v => some (.atom ty v)
  | .treeAtom a => (held hs a).map .treeAtom
  | .tree cs => (cs.mapM (held hs)).map .tree
  | .sym c t => (held hs t).map (.sym c)

/-- What reading the attributes shows: the `n`-th handle and those that follow for the objects
referenced, and the value of an atom up to `==`. -/
def Obj.view [PyVal V K] (n : Nat) : Obj V → Obj K
  | .atom ty v => .atom ty (PyVal.key v)
  | .treeAtom _ => .treeAtom n
  | .tree cs => .tree (List.range' n cs.length)
  | .sym c _ => .sym c n

/-- A thread that runs a program: the process, the objects the thread has got, the rest of the
program. -/
structure Cfg (V K α : Type) where
  st : St V K
  hs : List (Option Nat)
  prog : Prog V K α

variable [DecidableEq K] [PyVal V K] {α : Type}

/-- One step of the process while thread `me` runs a program. -/
inductive Run (me : Nat) : Cfg V K α → Cfg V K α → Prop
  /-- Any step of `Model/Store.lean` but the end of a call of `me`: a step of another thread, of the
  collector, of a call that `me` is in.  `me` only begins the call its program has come to, and the
  objects it has in its variables stay referenced.  Other threads may be interrupted; what happens when
  `me` is interrupted itself is said by C77. -/
  | store {s s' hs p} (e : Option (Event V)) :
      Step s e s' → (∀ r i, e ≠ some (.ret me r i)) →
      (s.pc me = .idle → ∀ r, s'.pc me = .missed r → ∃ c k, p = .make c k ∧ resolve hs c = some r) →
      (∀ h i, held hs h = some i → i ∈ s'.roots) →
      (s.pc me ≠ .idle → s'.pc me ≠ .idle) →
      Run me ⟨s, hs, p⟩ ⟨s', hs, p⟩
  /-- The call of `me` returns. -/
  | made {s s' hs c k} (r : Obj V) (i : Nat) :
      resolve hs c = some r → Step s (some (.ret me r i)) s' →
      Run me ⟨s, hs, .make c k⟩ ⟨s', hs ++ [some i], k hs.length⟩
  /-- `me` compares two objects. -/
  | same {s hs h h' k} (i j : Nat) :
      held hs h = some i → held hs h' = some j →
      Run me ⟨s, hs, .same h h' k⟩ ⟨s, hs, k (decide (i = j))⟩
  /-- `me` reads attributes (one `load` step for each object referenced). -/
  | look {s hs h k} (i : Nat) (o : Obj V) :
      held hs h = some i → s.heap i = some o →
      Run me ⟨s, hs, .look h k⟩
        ⟨{ s with roots := o.refs ++ s.roots }, hs ++ o.refs.map some, k (o.view hs.length)⟩
  /-- `me` goes into the body of a loop. -/
  | loop {s hs} {σ β : Type} (body : σ → Prog V K (σ ⊕ β)) (x : σ) (k : β → Prog V K α) :
      Run me ⟨s, hs, .loop body x k⟩ ⟨s, hs, (body x).bind (Prog.again body k)⟩
  /-- A variable of `me` is gone (the reference can then be dropped). -/
  | forget {s hs p} (h : Nat) :
      Run me ⟨s, hs, p⟩ ⟨s, hs.set h none, p⟩

end Verif.Store

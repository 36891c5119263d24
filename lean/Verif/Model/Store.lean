import Verif.Model.Tree

/-!
# Model of the global stores

core/atom.py:30 `_all_atoms`, core/tree.py:28 `_all_trees` and core/sym.py:134
`Sym._all_expressions` are `WeakValueDictionary`s that `Atom.__new__`, `Tree.__new__`,
`Tree.atom` and `Sym.__new__` consult to return an existing object if there is one.

The model is a transition system: objects with identities in a heap, strong references from
objects, program variables, dict keys and running calls, weak references from the stores, a
garbage collector that may free any unreferenced object at any time, and any number of
threads.  One step is one primitive dict or object operation, so `WeakValueDictionary.get`
is one step and `setdefault` is two — that is how CPython's Lib/weakref.py implements it:

    def setdefault(self, key, default=None):
        try:
            o = self.data[key]()
        except KeyError:
            o = None
        if o is not None:
            return o
        else:
            ...
            self.data[key] = KeyedRef(default, self._remove, key)
            return default

A call can be cut short at any of these steps by an exception that Python raises from outside
(`KeyboardInterrupt`) or for lack of memory.

Not modelled: `TypeError` for arguments of the wrong class and for unhashable values (such a
call ends without touching the stores), the `rust_protosym` replacement.
-/

namespace Verif.Store

/-- Values of atoms, compared in a dict by Python's `==`/`hash`: two values are equal when
they have the same key.  (`True == 1` in Python: different values, same key.) -/
class PyVal (V : Type) (K : outParam Type) where
  key : V → K

/-- An object, by what its attributes hold; references are object identities.
`atom`: atom.py:163-165.  `tree`: tree.py:127-128.  `treeAtom`: tree.py:144-146.
`sym`: sym.py:153-154 (`cls` identifies the subclass of `Sym`).

The same type describes a constructor call by its arguments, because every constructor stores
exactly its arguments. -/
inductive Obj (V : Type) where
  | atom (ty : AtomType) (v : V)
  | treeAtom (a : Nat)
  | tree (children : List Nat)
  | sym (cls : Nat) (rep : Nat)
deriving DecidableEq

/-- The objects that an object (or the argument tuple of a call) references. -/
def Obj.refs {V : Type} : Obj V → List Nat
  | .atom _ _ => []
  | .treeAtom a => [a]
  | .tree cs => cs
  | .sym _ t => [t]

/-- Keys of the stores: `(atom_type, value)` in `_all_atoms` (atom.py:157), the atom itself
(tree.py:140) or the tuple of children (tree.py:120) in `_all_trees`, `(cls, tree_expr)` in
`Sym._all_expressions` (sym.py:147).  Atoms, trees, atom types and classes are compared by
identity, atom values by `==`.  The three stores are one map here because their keys are
different constructors. -/
inductive Key (K : Type) where
  | atom (ty : AtomType) (k : K)
  | treeAtom (a : Nat)
  | tree (children : List Nat)
  | sym (cls : Nat) (rep : Nat)
deriving DecidableEq

/-- The objects a key references (strongly: a `WeakValueDictionary` has strong keys). -/
def Key.refs {K : Type} : Key K → List Nat
  | .atom _ _ => []
  | .treeAtom a => [a]
  | .tree cs => cs
  | .sym _ t => [t]

variable {V K : Type}

/-- The key under which the constructor files the object. -/
def Obj.key [PyVal V K] : Obj V → Key K
  | .atom ty v => .atom ty (PyVal.key v)
  | .treeAtom a => .treeAtom a
  | .tree cs => .tree cs
  | .sym c t => .sym c t

/-- Where a thread is in a constructor call. -/
inductive PC (V : Type) where
  /-- not in a constructor -/
  | idle
  /-- `get` returned `None`: atom.py:160, tree.py:121/141, sym.py:150 -/
  | missed (r : Obj V)
  /-- the new object is made: atom.py:163-165, tree.py:127-128/144-146, sym.py:153-154 -/
  | fresh (r : Obj V) (i : Nat)
  /-- inside `setdefault`, having found no live object -/
  | inSetdefault (r : Obj V) (i : Nat)

/-- The objects that a running call references by its arguments. -/
def PC.refs : PC V → List Nat
  | .idle => []
  | .missed r => r.refs
  | .fresh r _ => r.refs
  | .inSetdefault r _ => r.refs

/-- The new object that a running call holds. -/
def PC.own : PC V → Option Nat
  | .fresh _ i => some i
  | .inSetdefault _ i => some i
  | _ => none

/-- A state of the process. -/
structure St (V K : Type) where
  /-- live objects -/
  heap : Nat → Option (Obj V)
  /-- the next object identity (identities are never reused: `is` between objects that are not
  alive at the same time is not observable) -/
  next : Nat
  /-- the stores: the object that the weak reference under this key was made for -/
  table : Key K → Option Nat
  /-- keys for which the callback of a dead weak reference still has to run -/
  pending : List (Key K)
  /-- references held by the variables of the program -/
  roots : List Nat
  /-- the threads -/
  pc : Nat → PC V

/-- Update of a function. -/
def upd {A B : Type} [DecidableEq A] (f : A → B) (a : A) (b : B) : A → B :=
  fun x => if x = a then b else f x

/-- The start of the process. -/
def St.init : St V K := ⟨fun _ => none, 0, fun _ => none, [], [], fun _ => .idle⟩

/-- `data[key]()` with `None` for a missing key or a dead weak reference. -/
def St.deref (s : St V K) (k : Key K) : Option Nat :=
  match s.table k with
  | none => none
  | some i => if (s.heap i).isSome then some i else none

/-- Someone references `i`: a variable, an argument of a running call, a live object, a key of
a store. -/
def St.Referenced (s : St V K) (i : Nat) : Prop :=
  i ∈ s.roots ∨ (∃ t, i ∈ (s.pc t).refs) ∨ (∃ j o, s.heap j = some o ∧ i ∈ o.refs) ∨
  (∃ k, s.table k ≠ none ∧ i ∈ k.refs)

/-- The arguments of the call are of the right class: `Tree.atom` wants an `Atom`
(tree.py:137), `Tree(...)` and `Sym(...)` want `Tree`s (tree.py:124, sym.py:144). -/
def St.WellTyped (s : St V K) : Obj V → Prop
  | .atom _ _ => True
  | .treeAtom a => ∃ ty v, s.heap a = some (.atom ty v)
  | .tree cs => ∀ c ∈ cs, (∃ a, s.heap c = some (.treeAtom a)) ∨ (∃ ds, s.heap c = some (.tree ds))
  | .sym _ t => (∃ a, s.heap t = some (.treeAtom a)) ∨ (∃ ds, s.heap t = some (.tree ds))

/-- What an observer sees: thread `t`'s call of the constructor with arguments `r` returns
the object `i`. -/
inductive Event (V : Type) where
  | ret (t : Nat) (r : Obj V) (i : Nat)

variable [DecidableEq K] [PyVal V K]

/-- One step of the process. -/
inductive Step : St V K → Option (Event V) → St V K → Prop
  /-- A call whose `get` finds a live object returns it: atom.py:157-161, tree.py:120-122,
  tree.py:140-142, sym.py:147-151.  The arguments come from variables. -/
  | getHit (s : St V K) (t : Nat) (r : Obj V) (i : Nat) :
      s.pc t = .idle → (∀ j ∈ r.refs, j ∈ s.roots) → s.WellTyped r → s.deref r.key = some i →
      Step s (some (.ret t r i)) { s with roots := i :: s.roots }
  /-- A call whose `get` finds nothing goes on. -/
  | getMiss (s : St V K) (t : Nat) (r : Obj V) :
      s.pc t = .idle → (∀ j ∈ r.refs, j ∈ s.roots) → s.WellTyped r → s.deref r.key = none →
      Step s none { s with pc := upd s.pc t (.missed r) }
  /-- `object.__new__` and the assignment of the attributes: atom.py:163-165,
  tree.py:127-128, tree.py:144-146, sym.py:153-154. -/
  | alloc (s : St V K) (t : Nat) (r : Obj V) :
      s.pc t = .missed r →
      Step s none { s with heap := upd s.heap s.next (some r), next := s.next + 1,
                           pc := upd s.pc t (.fresh r s.next) }
  /-- `setdefault` (atom.py:172, tree.py:130/148, sym.py:156) finds a live object and returns
  that; the new object is dropped. -/
  | setdefaultHit (s : St V K) (t : Nat) (r : Obj V) (i j : Nat) :
      s.pc t = .fresh r i → s.deref r.key = some j →
      Step s (some (.ret t r j)) { s with roots := j :: s.roots, pc := upd s.pc t .idle }
  /-- `setdefault` finds nothing. -/
  | setdefaultMiss (s : St V K) (t : Nat) (r : Obj V) (i : Nat) :
      s.pc t = .fresh r i → s.deref r.key = none →
      Step s none { s with pc := upd s.pc t (.inSetdefault r i) }
  /-- `setdefault` stores the new object and returns it, without looking again. -/
  | setdefaultStore (s : St V K) (t : Nat) (r : Obj V) (i : Nat) :
      s.pc t = .inSetdefault r i →
      Step s (some (.ret t r i))
        { s with table := upd s.table r.key (some i), roots := i :: s.roots,
                 pc := upd s.pc t .idle }
  /-- The call of thread `t` is cut short, wherever it is: Python raises `KeyboardInterrupt` or
  `MemoryError` between any two operations.  What the call has made is no longer referenced by it.
  (Cut short after `setdefault` has stored: the call returns and the reference is dropped.) -/
  | interrupt (s : St V K) (t : Nat) :
      s.pc t ≠ .idle → Step s none { s with pc := upd s.pc t .idle }
  /-- The program reads an attribute (`value`, `children`, `rep`) of an object it holds. -/
  | load (s : St V K) (i j : Nat) (o : Obj V) :
      i ∈ s.roots → s.heap i = some o → j ∈ o.refs →
      Step s none { s with roots := j :: s.roots }
  /-- The program drops one reference. -/
  | drop (s : St V K) (i : Nat) : Step s none { s with roots := s.roots.erase i }
  /-- An object that nobody references is freed; if the store has a weak reference to it, the
  callback of that weak reference is due. -/
  | collect (s : St V K) (i : Nat) (o : Obj V) :
      s.heap i = some o → ¬ s.Referenced i → (∀ t, (s.pc t).own ≠ some i) →
      Step s none { s with heap := upd s.heap i none,
                           pending := if s.table o.key = some i then o.key :: s.pending
                                      else s.pending }
  /-- The callback (`_remove_dead_weakref`): deletes the entry if its weak reference is dead. -/
  | callback (s : St V K) (k : Key K) :
      k ∈ s.pending →
      Step s none { s with table := if s.deref k = none then upd s.table k none else s.table,
                           pending := s.pending.erase k }

end Verif.Store

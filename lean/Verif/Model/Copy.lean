import Mathlib.Logic.Function.Basic
import Verif.Model.Tree

/-!
# Model of `copy.copy` and unpickling on the objects of core/atom.py, core/tree.py and core/sym.py

None of the classes defines `__copy__`, `__deepcopy__`, `__reduce__` or `__getnewargs__`, so that Python's
default is used: `copy.copy(x)`, `copy.deepcopy(x)` and unpickling call `cls.__new__(cls)` without
arguments, and then assign the attributes of `x` (`__slots__` included, as far as they are set) to the
object this returns.  `Tree.__new__` takes any number of arguments and looks the object up in the global
store: it returns the object `Tree()`, the same as long as it is alive.  `Atom.__new__` and
`Sym.__new__` have required parameters: `TypeError`.

`copy.deepcopy` keeps a memo of the objects it has begun to copy and copies the attributes, in the order of
`__slots__` (`value`, `children`), before it assigns them; a copy of an `Atom` is tried as for `copy.copy`.

Simplifications: one thread, every constructor and every copy is one step, without collections during a
`deepcopy` (`Model/Store.lean` has the steps in between); `Tree`s are addresses, never used twice; `Atom`s and the
values they hold are values (C01 says why).  Pickles are those of protocol 2 and later, of values that can be pickled. -/

namespace Verif.Copy
variable {V : Type} [DecidableEq V]

/-- The attributes of a `Tree`; `value` may be missing: src/protosym/core/tree.py:106-116. -/
structure TObj (V : Type) where
  children : List Nat
  value : Option (Atom V)
deriving DecidableEq

/-- The objects, the global store `_all_trees` (its keys are tuples of `Tree`s, compared by identity, and
`Atom`s), the next address, and the `Tree`s to which the program holds references: tree.py:28. -/
structure CState (V : Type) where
  objs : Nat → Option (TObj V)
  treeOf : List Nat → Option Nat
  atomOf : Atom V → Option Nat
  next : Nat
  held : List Nat

/-- The process at the start: tree.py:28. -/
def CState.start : CState V := ⟨fun _ => none, fun _ => none, fun _ => none, 0, []⟩

/-- The program gets a reference to what a constructor returns: tree.py:122, 132, 142, 150. -/
def CState.hold (s : CState V) (o : Nat) : CState V := { s with held := o :: s.held }

/-- `Tree.__new__(*children)`: tree.py:118-132. -/
def newTree (s : CState V) (children : List Nat) : Nat × CState V :=
  match s.treeOf children with
  | some o => (o, s.hold o)
  | none => (s.next, { s with
      objs := Function.update s.objs s.next (some ⟨children, none⟩)
      treeOf := Function.update s.treeOf children (some s.next)
      next := s.next + 1
      held := s.next :: s.held })

/-- `Tree.atom(value)`: tree.py:134-150. -/
def newAtom (s : CState V) (a : Atom V) : Nat × CState V :=
  match s.atomOf a with
  | some o => (o, s.hold o)
  | none => (s.next, { s with
      objs := Function.update s.objs s.next (some ⟨[], some a⟩)
      atomOf := Function.update s.atomOf a (some s.next)
      next := s.next + 1
      held := s.next :: s.held })

/-- The attributes of `x` are assigned to `y`: `value` only if `x` has one (`__slots__` of tree.py:106-110). -/
def assign (x y : TObj V) : TObj V := ⟨x.children, x.value.or y.value⟩

/-- `copy.copy(t)` for a `Tree` (default of Python, with `Tree.__new__` of tree.py:118-132). -/
def copyTree (s : CState V) (t : Nat) : Nat × CState V :=
  let r := newTree s []
  (r.1, { r.2 with
    objs := Function.update r.2.objs r.1
      (match s.objs t, r.2.objs r.1 with
        | some x, some y => some (assign x y)
        | _, y => y) })

mutual
/-- `copy.deepcopy(t, memo)` for a `Tree` (default of Python, with `Tree.__new__` of tree.py:118-132 and
`Atom.__new__` of atom.py:155): the result and the state and the memo afterwards. -/
inductive DeepCopy : CState V → List (Nat × Nat) → Nat → PyM Nat → CState V → List (Nat × Nat) → Prop
  /-- the object has been copied, or is being copied -/
  | memo {s : CState V} {memo : List (Nat × Nat)} {t r : Nat} : memo.lookup t = some r →
      DeepCopy s memo t (.ok r) s memo
  /-- `Tree()` is called, then a copy of the `Atom` in `value` is tried -/
  | atom {s : CState V} {memo : List (Nat × Nat)} {t : Nat} {x : TObj V} {a : Atom V} :
      memo.lookup t = none → s.objs t = some x → x.value = some a →
      DeepCopy s memo t (.error .typeError) (newTree s []).2 ((t, (newTree s []).1) :: memo)
  /-- `Tree()` is called, the children are copied and assigned -/
  | node {s s' : CState V} {memo memo' : List (Nat × Nat)} {t : Nat} {x y : TObj V} {rs : List Nat} :
      memo.lookup t = none → s.objs t = some x → x.value = none →
      DeepCopies (newTree s []).2 ((t, (newTree s []).1) :: memo) x.children (.ok rs) s' memo' →
      s'.objs (newTree s []).1 = some y →
      DeepCopy s memo t (.ok (newTree s []).1)
        { s' with objs := Function.update s'.objs (newTree s []).1 (some (assign ⟨rs, none⟩ y)) } memo'
  /-- a child cannot be copied -/
  | fails {s s' : CState V} {memo memo' : List (Nat × Nat)} {t : Nat} {x : TObj V} {e : PyErr} :
      memo.lookup t = none → s.objs t = some x → x.value = none →
      DeepCopies (newTree s []).2 ((t, (newTree s []).1) :: memo) x.children (.error e) s' memo' →
      DeepCopy s memo t (.error e) s' memo'
/-- `[deepcopy(a, memo) for a in x]`: tree.py:112. -/
inductive DeepCopies : CState V → List (Nat × Nat) → List Nat → PyM (List Nat) → CState V → List (Nat × Nat) → Prop
  | nil {s : CState V} {memo : List (Nat × Nat)} : DeepCopies s memo [] (.ok []) s memo
  | cons {s s' s'' : CState V} {memo memo' memo'' : List (Nat × Nat)} {t r : Nat} {ts rs : List Nat} :
      DeepCopy s memo t (.ok r) s' memo' → DeepCopies s' memo' ts (.ok rs) s'' memo'' →
      DeepCopies s memo (t :: ts) (.ok (r :: rs)) s'' memo''
  | head {s s' : CState V} {memo memo' : List (Nat × Nat)} {t : Nat} {ts : List Nat} {e : PyErr} :
      DeepCopy s memo t (.error e) s' memo' → DeepCopies s memo (t :: ts) (.error e) s' memo'
  | tail {s s' s'' : CState V} {memo memo' memo'' : List (Nat × Nat)} {t r : Nat} {ts : List Nat} {e : PyErr} :
      DeepCopy s memo t (.ok r) s' memo' → DeepCopies s' memo' ts (.error e) s'' memo'' →
      DeepCopies s memo (t :: ts) (.error e) s'' memo''
end

/-- The references of the program after a `deepcopy` or `pickle.loads`: tree.py:112. -/
def afterDeep (held : List Nat) : PyM Nat → List Nat
  | .ok r => r :: held
  | .error _ => held

/-- What a program can try to copy: objects of the classes of tree.py:31, atom.py:96, sym.py:74. -/
inductive Copied (V : Type) where
  | tree (t : Nat)
  | atom (a : Atom V)
  | sym (rep : Nat)

/-- `copy.copy(x)` for a `Tree`, an `Atom`, a `Sym` (an `Expr` of simplecas): `Atom.__new__` (atom.py:155) and
`Sym.__new__` (sym.py:138) cannot be called without arguments (`copy.deepcopy` of these two, and `pickle.loads` of
pickles of them, do the same). -/
def copyAny (s : CState V) : Copied V → PyM Nat × CState V
  | .tree t => (.ok (copyTree s t).1, (copyTree s t).2)
  | .atom _ => (.error .typeError, s)
  | .sym _ => (.error .typeError, s)

/-- A pickle of a `Tree` (default of Python for the class of tree.py:31): the `Tree`s in it are numbered by
the memo of `pickle`, by which one that has been written before is recalled.  What follows the first `Atom` is
left out, because it is never read. -/
inductive Image where
  | ref (k : Nat)
  | atom (k : Nat)
  | node (k : Nat) (children : List Image)

mutual
/-- `pickle.dumps(t)` for a `Tree`, by a walk through the attributes (default of Python for the class of
tree.py:31): `seen` are those that have been written. -/
inductive Dumps (s : CState V) : List Nat → Nat → Image → List Nat → Prop
  | ref {seen : List Nat} {t : Nat} : t ∈ seen → Dumps s seen t (.ref t) seen
  | atom {seen : List Nat} {t : Nat} {x : TObj V} {a : Atom V} : t ∉ seen → s.objs t = some x →
      x.value = some a → Dumps s seen t (.atom t) (t :: seen)
  | node {seen seen' : List Nat} {t : Nat} {x : TObj V} {ims : List Image} : t ∉ seen → s.objs t = some x →
      x.value = none → DumpsList s (t :: seen) x.children ims seen' → Dumps s seen t (.node t ims) seen'
/-- The items of the tuple `children`: tree.py:112. -/
inductive DumpsList (s : CState V) : List Nat → List Nat → List Image → List Nat → Prop
  | nil {seen : List Nat} : DumpsList s seen [] [] seen
  | cons {seen seen' seen'' : List Nat} {t : Nat} {ts : List Nat} {im : Image} {ims : List Image} :
      Dumps s seen t im seen' → DumpsList s seen' ts ims seen'' → DumpsList s seen (t :: ts) (im :: ims) seen''
end

mutual
/-- `pickle.loads` of the pickle of a `Tree` (default of Python, with `Tree.__new__` of tree.py:118-132 and
`Atom.__new__` of atom.py:155, which are called without arguments); the process and the time may be others than
those of `pickle.dumps`. -/
inductive Loads : CState V → List (Nat × Nat) → Image → PyM Nat → CState V → List (Nat × Nat) → Prop
  /-- the object has been made -/
  | ref {s : CState V} {memo : List (Nat × Nat)} {k r : Nat} : memo.lookup k = some r →
      Loads s memo (.ref k) (.ok r) s memo
  /-- `Tree()` is called, then `Atom()` -/
  | atom {s : CState V} {memo : List (Nat × Nat)} {k : Nat} :
      Loads s memo (.atom k) (.error .typeError) (newTree s []).2 ((k, (newTree s []).1) :: memo)
  /-- `Tree()` is called, the children are made and assigned -/
  | node {s s' : CState V} {memo memo' : List (Nat × Nat)} {k : Nat} {ims : List Image} {y : TObj V}
      {rs : List Nat} :
      LoadsList (newTree s []).2 ((k, (newTree s []).1) :: memo) ims (.ok rs) s' memo' →
      s'.objs (newTree s []).1 = some y →
      Loads s memo (.node k ims) (.ok (newTree s []).1)
        { s' with objs := Function.update s'.objs (newTree s []).1 (some (assign ⟨rs, none⟩ y)) } memo'
  /-- a child cannot be made -/
  | fails {s s' : CState V} {memo memo' : List (Nat × Nat)} {k : Nat} {ims : List Image} {e : PyErr} :
      LoadsList (newTree s []).2 ((k, (newTree s []).1) :: memo) ims (.error e) s' memo' →
      Loads s memo (.node k ims) (.error e) s' memo'
/-- The items of the tuple `children`: tree.py:112. -/
inductive LoadsList : CState V → List (Nat × Nat) → List Image → PyM (List Nat) → CState V → List (Nat × Nat) → Prop
  | nil {s : CState V} {memo : List (Nat × Nat)} : LoadsList s memo [] (.ok []) s memo
  | cons {s s' s'' : CState V} {memo memo' memo'' : List (Nat × Nat)} {im : Image} {ims : List Image} {r : Nat}
      {rs : List Nat} :
      Loads s memo im (.ok r) s' memo' → LoadsList s' memo' ims (.ok rs) s'' memo'' →
      LoadsList s memo (im :: ims) (.ok (r :: rs)) s'' memo''
  | head {s s' : CState V} {memo memo' : List (Nat × Nat)} {im : Image} {ims : List Image} {e : PyErr} :
      Loads s memo im (.error e) s' memo' → LoadsList s memo (im :: ims) (.error e) s' memo'
  | tail {s s' s'' : CState V} {memo memo' memo'' : List (Nat × Nat)} {im : Image} {ims : List Image} {r : Nat}
      {e : PyErr} :
      Loads s memo im (.ok r) s' memo' → LoadsList s' memo' ims (.error e) s'' memo'' →
      LoadsList s memo (im :: ims) (.error e) s'' memo''
end

/-- What can happen, one thread: core/tree.py:118-154 and `copy.copy`. -/
inductive CStep : CState V → CState V → Prop
  /-- `Tree.atom(a)`: tree.py:134-150 -/
  | atom (s : CState V) (a : Atom V) : CStep s (newAtom s a).2
  /-- `Tree(*children)`, `t(*args)`: tree.py:118-132, 152-154 -/
  | tree (s : CState V) (children : List Nat) : (∀ c ∈ children, c ∈ s.held) →
      CStep s (newTree s children).2
  /-- `copy.copy(x)` for something the program has -/
  | copy (s : CState V) (x : Copied V) : (∀ t, x = .tree t → t ∈ s.held) → CStep s (copyAny s x).2
  /-- `copy.deepcopy(t)` -/
  | deepcopy (s s' : CState V) (t : Nat) (res : PyM Nat) (memo : List (Nat × Nat)) : t ∈ s.held →
      DeepCopy s [] t res s' memo → CStep s { s' with held := afterDeep s.held res }
  /-- `pickle.loads` of any pickle of a `Tree` -/
  | unpickle (s s' : CState V) (im : Image) (res : PyM Nat) (memo : List (Nat × Nat)) :
      Loads s [] im res s' memo → CStep s { s' with held := afterDeep s.held res }
  /-- `t.children[i]`: tree.py:112 -/
  | child (s : CState V) (t : Nat) (ob : TObj V) (c : Nat) : t ∈ s.held → s.objs t = some ob →
      c ∈ ob.children → CStep s (s.hold c)
  /-- references are dropped -/
  | drop (s : CState V) (held : List Nat) : (∀ o ∈ held, o ∈ s.held) → CStep s { s with held := held }
  /-- Objects that nobody can reach are freed, cycles included; their entries in the store (a
  `WeakValueDictionary`) disappear: tree.py:28. -/
  | collect (s : CState V) (dead : Nat → Bool) : (∀ o ∈ s.held, dead o = false) →
      (∀ o ob, s.objs o = some ob → dead o = false → ∀ c ∈ ob.children, dead c = false) →
      CStep s { s with
        objs := fun o => if dead o then none else s.objs o
        treeOf := fun k => (s.treeOf k).filter fun o => !dead o
        atomOf := fun k => (s.atomOf k).filter fun o => !dead o }

/-- Any number of steps (core/tree.py:28-154). -/
inductive CSteps : CState V → CState V → Prop
  | refl (s : CState V) : CSteps s s
  | step {s s' s'' : CState V} : CSteps s s' → CStep s' s'' → CSteps s s''

/-- The states that can occur (core/tree.py:28-154). -/
def CHistory (s : CState V) : Prop := CSteps CState.start s

end Verif.Copy

/-!
# Python values used by the model

Exceptions as values, insertion-ordered dictionaries, and the list operations that the
modelled code performs.  Nothing in this file is protosym code: it is the model of the
Python built-ins that protosym uses.
-/

namespace Verif

/-- The exception classes raised by (or passing through) the modelled code.  Messages are
dropped.  `noEvaluationRule`, `badRule`: src/protosym/core/exceptions.py:10-19.
`expressify`, `llvmNotImplemented`: src/protosym/simplecas/exceptions.py:12-21.
`structError` is `struct.error`, `argumentError` is `ctypes.ArgumentError`; the others are Python
built-ins.  `user n` stands for any exception raised inside a
callable supplied by the user. -/
inductive PyErr where
  | typeError | keyError | indexError | attributeError | valueError | overflowError
  | notImplementedError | noEvaluationRule | badRule | expressify | llvmNotImplemented
  | structError | argumentError | runtimeError
  | user (n : Nat)
deriving DecidableEq, Repr

/-- A Python computation that returns a value or raises. -/
abbrev PyM := Except PyErr

/-- Equality of outcomes is decidable (used by the concrete examples). -/
instance instDecidableEqExcept {ε α : Type} [DecidableEq ε] [DecidableEq α] :
    DecidableEq (Except ε α)
  | .ok a, .ok b => if h : a = b then isTrue (h ▸ rfl) else isFalse (by intro e; cases e; exact h rfl)
  | .error a, .error b =>
    if h : a = b then isTrue (h ▸ rfl) else isFalse (by intro e; cases e; exact h rfl)
  | .ok _, .error _ => isFalse (by intro h; cases h)
  | .error _, .ok _ => isFalse (by intro h; cases h)

/-- `l.pop()`: remove and return the last element; `none` for the empty list
(the modelled code only pops non-empty lists). -/
def pyPop {α : Type} (l : List α) : Option (α × List α) :=
  match l.getLast? with
  | some a => some (a, l.dropLast)
  | none => none

/-- `l[i]` for a non-negative index: `IndexError` when out of range. -/
def pyGet {α : Type} (l : List α) (i : Nat) : PyM α :=
  match l[i]? with
  | some a => .ok a
  | none => .error .indexError

/-- `l[-1]`: `IndexError` on the empty list. -/
def pyLast {α : Type} (l : List α) : PyM α :=
  match l.getLast? with
  | some a => .ok a
  | none => .error .indexError

/-- A Python `dict`: association list in insertion order with unique keys. -/
structure Dict (K V : Type) where
  items : List (K × V)
deriving DecidableEq, Repr

namespace Dict
variable {K V : Type} [DecidableEq K]

/-- `{}` -/
def empty : Dict K V := ⟨[]⟩

/-- Lookup in the item list. -/
def lookup (k : K) : List (K × V) → Option V
  | [] => none
  | (k', v) :: r => if k' = k then some v else lookup k r

/-- `d.get(k)` -/
def get? (d : Dict K V) (k : K) : Option V := lookup k d.items

/-- `d[k]` : `KeyError` when absent -/
def getItem (d : Dict K V) (k : K) : PyM V :=
  match d.get? k with
  | some v => .ok v
  | none => .error .keyError

/-- Assignment in the item list: overwrite in place, else append. -/
def assign (k : K) (v : V) : List (K × V) → List (K × V)
  | [] => [(k, v)]
  | (k', v') :: r => if k' = k then (k', v) :: r else (k', v') :: assign k v r

/-- `d[k] = v` -/
def set (d : Dict K V) (k : K) (v : V) : Dict K V := ⟨assign k v d.items⟩

/-- `d.update(pairs)` -/
def update (d : Dict K V) (pairs : List (K × V)) : Dict K V :=
  pairs.foldl (fun d p => d.set p.1 p.2) d

/-- `dict(pairs)` -/
def ofPairs (pairs : List (K × V)) : Dict K V := update empty pairs

/-- `k in d` -/
def contains (d : Dict K V) (k : K) : Bool := (d.get? k).isSome

/-- `list(d)` -/
def keys (d : Dict K V) : List K := d.items.map Prod.fst

/-- `list(d.values())` -/
def vals (d : Dict K V) : List V := d.items.map Prod.snd

end Dict
end Verif

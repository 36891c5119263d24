import Verif.Model.Containers
import Mathlib.Data.List.Forall2

/-!
# Specification for containers on a heap: what an object in the heap stands for, and who may change
what
-/

namespace Verif.Spec
open Mem
variable {V T : Type}

/-- The list at address `r` consists of these expressions. -/
def IsTrees (h : Mem.Heap V T) (r : Nat) (l : List (Tree V)) : Prop :=
  h.objs[r]? = some (.list (l.map .tree))
/-- The list at address `r` consists of these numbers. -/
def IsInts (h : Mem.Heap V T) (r : Nat) (l : List Nat) : Prop :=
  h.objs[r]? = some (.list (l.map .int))
/-- The list at address `r` consists of these values. -/
def IsVals (h : Mem.Heap V T) (r : Nat) (l : List T) : Prop :=
  h.objs[r]? = some (.list (l.map .val))
/-- The set at address `r` has these members. -/
def IsSet (h : Mem.Heap V T) (r : Nat) (l : List (Tree V)) : Prop :=
  h.objs[r]? = some (.set l)

/-- The argument `exclude` (absent, or a set or list of expressions) stands for these. -/
def Excludes (h : Mem.Heap V T) (exclude : Option Nat) (l : List (Tree V)) : Prop :=
  match exclude with
  | none => l = []
  | some r => IsTrees h r l ∨ IsSet h r l

/-- A `ForwardGraph` object stands for a graph. -/
def IsGraph (h : Mem.Heap V T) (g : Mem.Graph) (G : ForwardGraph V) : Prop :=
  IsTrees h g.atoms G.atoms ∧ IsSet h g.heads G.heads ∧
  ∃ cells, h.objs[g.operations]? = some (.list cells) ∧
    List.Forall₂ (fun c op => ∃ r, c = .op op.1 r ∧ IsInts h r op.2) cells G.operations

/-- A `SubsFunc` object stands for a substitution function. -/
def IsSubs (h : Mem.Heap V T) (f : Mem.Subs) (F : SubsFunc V) : Prop :=
  f.nargs = F.nargs ∧ IsTrees h f.atoms F.atoms ∧
  ∃ cells, h.objs[f.operations]? = some (.list cells) ∧
    List.Forall₂ (fun c is => ∃ r, c = .ref r ∧ IsInts h r is) cells F.operations

/-- A `DiffProperties` object stands for a table of differentiation rules. -/
def IsProps (h : Mem.Heap V T) (p : Mem.Props V) (P : DiffProps V) : Prop :=
  p.zero = P.zero ∧ p.one = P.one ∧ p.add = P.add ∧ p.mul = P.mul ∧
  IsSet h p.distributive P.distributive ∧
  ∃ d, h.objs[p.diffRules]? = some (.rules d) ∧
    List.Forall₂ (fun a b => a.1 = b.1 ∧ IsSubs h a.2 b.2) d.items P.diffRules.items

/-- The lists that a cell refers to. -/
def cellRefs : Cell V T → List Nat
  | .op _ r => [r]
  | .ref r => [r]
  | _ => []

/-- The lists that the members of the list at `r` refer to. -/
def innerRefs (h : Mem.Heap V T) (r : Nat) : List Nat :=
  match h.objs[r]? with
  | some (.list cells) => cells.flatMap cellRefs
  | _ => []

/-- The containers of a `ForwardGraph`. -/
def graphRefs (h : Mem.Heap V T) (g : Mem.Graph) : List Nat :=
  [g.atoms, g.heads, g.operations] ++ innerRefs h g.operations

/-- The containers of a `SubsFunc`. -/
def subsRefs (h : Mem.Heap V T) (f : Mem.Subs) : List Nat :=
  [f.atoms, f.operations] ++ innerRefs h f.operations

/-- The containers of the `SubsFunc`s in the dict of rules at `r`. -/
def ruleRefs (h : Mem.Heap V T) (r : Nat) : List Nat :=
  match h.objs[r]? with
  | some (.rules d) => d.items.flatMap (fun a => subsRefs h a.2)
  | _ => []

/-- The containers of a `DiffProperties`. -/
def propsRefs (h : Mem.Heap V T) (p : Mem.Props V) : List Nat :=
  [p.distributive, p.diffRules] ++ ruleRefs h p.diffRules

/-- No container that existed was changed or handed out: there are only new ones. -/
def OnlyNew (h h' : Mem.Heap V T) : Prop := h.objs <+: h'.objs ∧ h'.user = h.user

/-- All these containers are new (did not exist in `h`), and they are different objects. -/
def NewAndDistinct (h : Mem.Heap V T) (rs : List Nat) : Prop :=
  (∀ r ∈ rs, h.objs.length ≤ r) ∧ rs.Nodup

/-- Outside code reaches only containers that exist. -/
def Sound (h : Mem.Heap V T) : Prop := ∀ a ∈ h.user, a < h.objs.length

/-- What arbitrary code outside of the library can do: make containers, and change in any way those
it can reach; of those that existed it can reach no others afterwards. -/
def Outside (h h' : Mem.Heap V T) : Prop :=
  h.objs.length ≤ h'.objs.length ∧
  (∀ a, a < h.objs.length → a ∉ h.user → h'.objs[a]? = h.objs[a]?) ∧
  (∀ a ∈ h'.user, a ∈ h.user ∨ (h.objs.length ≤ a ∧ a < h'.objs.length))

/-- A rule function: whatever it does to the containers outside code can reach (leaving those in
`keep` alone), the value it returns (or exception it raises) is `r`. -/
def Behaves (keep : Nat → Prop) (c : M V T T) (h : Mem.Heap V T) (r : PyM T) : Prop :=
  (c h).1 = r ∧ Outside h (c h).2 ∧ ∀ a, keep a → (c h).2.objs[a]? = h.objs[a]?

/-- The functions given to an evaluator return the values that those of `E` return, whatever else
they do (leaving the containers in `keep` alone). -/
structure Implements [DecidableEq V] (keep : Nat → Prop) (ev : Mem.Evaluator V T)
    (E : Verif.Evaluator PyM V T) : Prop where
  atom : ∀ ty, (∀ f, ev.atoms.get? ty = some f → ∃ F, E.atoms.get? ty = some F ∧
      ∀ v h, Behaves keep (f v) h (F v)) ∧
    (ev.atoms.get? ty = none → E.atoms.get? ty = none)
  star : ∀ head f, ev.operations.get? head = some (.star f) →
    ∃ F, E.operations.get? head = some (.star F) ∧ ∀ vs h, Behaves keep (f vs) h (F vs)
  seq : ∀ head f, ev.operations.get? head = some (.seq f) →
    ∃ F, E.operations.get? head = some (.seq F) ∧
      ∀ vs h r, IsVals h r vs → r ∈ h.user → ¬ keep r → Behaves keep (f r) h (F vs)
  none : ∀ head, ev.operations.get? head = none → E.operations.get? head = none
  genericAtom : ∀ t h, Behaves keep (ev.genericAtomFunc t) h (E.genericAtomFunc t)
  genericOperation : ∀ head vs h r, IsVals h r vs → r ∈ h.user → ¬ keep r →
    Behaves keep (ev.genericOperationFunc head r) h (E.genericOperationFunc head vs)

/-- No container that existed was changed or handed out, except that the one at `r` was changed. -/
def OnlyChanges (r : Nat) (h h' : Mem.Heap V T) : Prop :=
  h.objs.length ≤ h'.objs.length ∧ h'.user = h.user ∧
  ∀ a, a < h.objs.length → a ≠ r → h'.objs[a]? = h.objs[a]?

/-- A program that uses the library: the containers, and the substitution functions and
differentiators it has made. -/
structure Session (T : Type) where
  heap : Mem.Heap Val T
  subs : List Mem.Subs
  diffs : List (Mem.Props Val)

/-- What the substitution functions and differentiators stand for. -/
structure Meanings where
  subs : List (SubsFunc Val)
  diffs : List (DiffProps Val)

/-- A state that a program can reach, with the meanings that its substitution functions were made
with and that its differentiators were given by assignments.  Between the calls anything can happen
to the containers that the program can reach, which include all those that calls have returned. -/
inductive Reaches {T : Type} [HasNone T] : Session T → Meanings → Prop
  | start (h) : Sound h → Reaches ⟨h, [], []⟩ ⟨[], []⟩
  | outside {s t} (h') : Reaches s t → Outside s.heap h' → Reaches { s with heap := h' } t
  | sort {s t} (heads exclude l e r h') : Reaches s t → Excludes s.heap exclude l →
      Mem.topologicalSort heads exclude e s.heap = (.ok r, h') →
      Reaches { s with heap := { h' with user := r :: h'.user } } t
  | split {s t} (exclude l e a b c h') : Reaches s t → Excludes s.heap exclude l →
      Mem.topologicalSplit exclude e s.heap = (.ok (a, b, c), h') →
      Reaches { s with heap := { h' with user := [a, b, c] ++ h'.user } } t
  | graph {s t} (e g h') : Reaches s t → Mem.forwardGraph e s.heap = (.ok g, h') →
      Reaches { s with heap := { h' with user := graphRefs h' g ++ h'.user } } t
  | newSubs {s t} (e args ps f h' F) : Reaches s t → IsTrees s.heap args ps →
      Mem.Subs.new e args s.heap = (.ok f, h') → SubsFunc.new e ps = .ok F →
      Reaches ⟨h', s.subs ++ [f], s.diffs⟩ ⟨t.subs ++ [F], t.diffs⟩
  | callSubs {s t} (f args) : Reaches s t → f ∈ s.subs →
      Reaches { s with heap := (f.call args s.heap).2 } t
  | newDiff {s t} (add mul zero one p h') : Reaches s t →
      Mem.Props.new add mul zero one s.heap = (.ok p, h') →
      Reaches ⟨h', s.subs, s.diffs ++ [p]⟩
        ⟨t.subs, t.diffs ++ [SymDifferentiator.new add mul zero one]⟩
  | addDistributive {s t} (i : Nat) (p : Mem.Props Val) (P head) : Reaches s t → s.diffs[i]? = some p → t.diffs[i]? = some P →
      Reaches { s with heap := (p.addDistributive head s.heap).2 }
        { t with diffs := t.diffs.set i (P.addDistributive head) }
  | assign {s t} (i : Nat) (p : Mem.Props Val) (P expr sym dexpr P') : Reaches s t → s.diffs[i]? = some p →
      t.diffs[i]? = some P → SymDifferentiator.setItem P expr sym dexpr = .ok P' →
      Reaches { s with heap := (p.setItem expr sym dexpr s.heap).2 } { t with diffs := t.diffs.set i P' }
  | assignError {s t} (i : Nat) (p : Mem.Props Val) (P expr sym dexpr err) : Reaches s t → s.diffs[i]? = some p →
      t.diffs[i]? = some P → SymDifferentiator.setItem P expr sym dexpr = .error err →
      Reaches { s with heap := (p.setItem expr sym dexpr s.heap).2 } t
  | diff {s t} (p e sym n) : Reaches s t → p ∈ s.diffs →
      Reaches { s with heap := (p.call e sym n s.heap).2 } t
  | evaluate {s t} (ev E e r d) : Reaches s t → Implements (fun a => a = r) ev E →
      s.heap.objs[r]? = some (.vals d) →
      Reaches { s with heap := (ev.evalForward e r s.heap).2 } t
  | symEvaluate {s t} (ev E e values) : Reaches s t → Implements (fun _ => False) ev E →
      (∀ r, values = some r → ∃ d, s.heap.objs[r]? = some (.vals d)) →
      Reaches { s with heap := (ev.symCall e values s.heap).2 } t

end Verif.Spec

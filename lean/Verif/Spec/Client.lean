import Verif.Spec.Store
import Verif.Model.ClientTree
import Mathlib.Data.List.Forall2

/-!
# Specification of programs on objects

The same program on *values*: every handle is an atom, an expression or a wrapped expression, a
constructor call gives the value with those parts, `same` is equality of values.  No stores, no
identities, no threads, no collector.
-/

namespace Verif.Store

/-- What an object can stand for: an atom, an expression (`Tree`), a wrapped expression (`Expr`). -/
inductive Ex (K : Type) where
  | atom (a : Atom K)
  | tree (t : Tree K)
  | sym (cls : Nat) (t : Tree K)
deriving DecidableEq

variable {V K α : Type}

/-- The value of a handle that holds an expression. -/
def treeAt (vals : List (Ex K)) (h : Nat) : Option (Tree K) :=
  match vals[h]? with
  | some (.tree t) => some t
  | _ => none

/-- The value that a constructor call gives; none if an argument is not of the right class. -/
def valueOf [PyVal V K] (vals : List (Ex K)) : Obj V → Option (Ex K)
  | .atom ty v => some (.atom ⟨ty, PyVal.key v⟩)
  | .treeAtom a =>
    match vals[a]? with
    | some (.atom a) => some (.tree (.atom a))
    | _ => none
  | .tree cs => (cs.mapM (treeAt vals)).map (fun ts => .tree (.node ts))
  | .sym c t => (treeAt vals t).map (.sym c)

/-- The values that a value refers to. -/
def Ex.parts : Ex K → List (Ex K)
  | .atom _ => []
  | .tree (.atom a) => [.atom a]
  | .tree (.node ts) => ts.map .tree
  | .sym _ t => [.tree t]

/-- What reading the attributes shows. -/
def Ex.view (n : Nat) : Ex K → Obj K
  | .atom a => .atom a.atomType a.value
  | .tree (.atom _) => .treeAtom n
  | .tree (.node ts) => .tree (List.range' n ts.length)
  | .sym c _ => .sym c n

/-- One step of a program on values (none: finished, or an argument of the wrong class). -/
def valueStep [DecidableEq K] [PyVal V K] :
    List (Ex K) × Prog V K α → Option (List (Ex K) × Prog V K α)
  | (_, .ret _) => none
  | (_, .raise _) => none
  | (vals, .make c k) => (valueOf vals c).map (fun x => (vals ++ [x], k vals.length))
  | (vals, .same h h' k) =>
    match vals[h]?, vals[h']? with
    | some x, some y => some (vals, k (decide (x = y)))
    | _, _ => none
  | (vals, .look h k) => (vals[h]?).map (fun x => (vals ++ x.parts, k (x.view vals.length)))
  | (vals, .loop body x k) => some (vals, (body x).bind (Prog.again body k))

/-- Any number of steps. -/
inductive ValueRun [DecidableEq K] [PyVal V K] (c : List (Ex K) × Prog V K α) :
    List (Ex K) × Prog V K α → Prop
  | refl : ValueRun c c
  | step {c' c''} : ValueRun c c' → valueStep c' = some c'' → ValueRun c c''

/-- The program, run on values, ends with the result or exception `r`; the handles have the values
`vals'` then. -/
def Yields [DecidableEq K] [PyVal V K] (vals : List (Ex K)) (p : Prog V K α) (r : PyM α)
    (vals' : List (Ex K)) : Prop :=
  ValueRun (vals, p) (vals', .ofPy r)

/-! ### Objects and values -/

/-- The object `i` stands for the value. -/
def Is [PyVal V K] (heap : Nat → Option (Obj V)) (i : Nat) : Ex K → Prop
  | .atom a => ∃ v, heap i = some (.atom a.atomType v) ∧ PyVal.key v = a.value
  | .tree t => Stands heap i t
  | .sym c t => ∃ j, heap i = some (.sym c j) ∧ Stands heap j t

/-- The objects that the handles refer to stand for the values of the handles. -/
def Mean [PyVal V K] (heap : Nat → Option (Obj V)) (hs : List (Option Nat)) (vals : List (Ex K)) : Prop :=
  hs.length = vals.length ∧
  ∀ h i, held hs h = some i → ∃ x, vals[h]? = some x ∧ Is heap i x

/-- Everything the handles refer to is referenced by the variables of the process. -/
def Holds (s : St V K) (hs : List (Option Nat)) : Prop :=
  ∀ h i, held hs h = some i → i ∈ s.roots

/-! ### What a program computes -/

/-- The result of the program agrees with the value (or exception) `x`. -/
def Agree {A : Type} (rel : α → A → Prop) : PyM α → PyM A → Prop
  | .ok a, .ok b => rel a b
  | .error e, .error e' => e = e'
  | _, _ => False

/-- Run on values, the program ends with a result that `rel` relates to `x`, or with the same
exception; the handles it had keep their values. -/
def Computes [DecidableEq K] [PyVal V K] {A : Type} (vals : List (Ex K)) (p : Prog V K α) (rel : List (Ex K) → α → A → Prop)
    (x : PyM A) : Prop :=
  ∃ r vals', Yields vals p r vals' ∧ vals <+: vals' ∧ Agree (rel vals') r x

/-! ### Data that contains handles -/

/-- The handle has the expression as its value. -/
def At (vals : List (Ex K)) (h : Nat) (t : Tree K) : Prop := vals[h]? = some (.tree t)

/-- Pointwise. -/
def Ats (vals : List (Ex K)) : List Nat → List (Tree K) → Prop := List.Forall₂ (At vals)

/-- The result of `topological_split` in handles and in values. -/
structure SplitAt (vals : List (Ex K)) (s : Prog.SplitH) (S : Split K) : Prop where
  atoms : Ats vals s.atoms S.atoms
  heads : Ats vals s.heads S.heads
  nodes : Ats vals s.nodes S.nodes

/-- The operations of a graph. -/
def OpsAt (vals : List (Ex K)) : List (Nat × List Nat) → List (Tree K × List Nat) → Prop :=
  List.Forall₂ (fun p q => At vals p.1 q.1 ∧ p.2 = q.2)

/-- The result of `forward_graph` in handles and in values. -/
structure GraphAt (vals : List (Ex K)) (g : Prog.GraphH) (G : ForwardGraph K) : Prop where
  atoms : Ats vals g.atoms G.atoms
  heads : Ats vals g.heads G.heads
  operations : OpsAt vals g.operations G.operations

/-- A `SubsFunc` in handles and in values. -/
structure SubsAt (vals : List (Ex K)) (f : Prog.SubsH) (F : SubsFunc K) : Prop where
  nargs : f.nargs = F.nargs
  atoms : Ats vals f.atoms F.atoms
  operations : f.operations = F.operations

/-- The rules of a differentiator in handles (the pairs, newest first; an older pair with the same key is
hidden) and in values. -/
def RulesAt [DecidableEq K] (vals : List (Ex K)) (d : List (Nat × Nat × Prog.SubsH))
    (D : Dict (Tree K × Nat) (SubsFunc K)) : Prop :=
  ∃ l : List ((Tree K × Nat) × SubsFunc K),
    List.Forall₂ (fun r R => At vals r.1 R.1.1 ∧ r.2.1 = R.1.2 ∧ SubsAt vals r.2.2 R.2) d l ∧
    ∀ k, Dict.lookup k l = D.get? k

/-- A `DiffProperties` in handles and in values. -/
structure DiffAt [DecidableEq K] (vals : List (Ex K)) (p : Prog.DiffH) (P : DiffProps K) : Prop where
  zero : At vals p.zero P.zero
  one : At vals p.one P.one
  add : At vals p.add P.add
  mul : At vals p.mul P.mul
  distributive : Ats vals p.distributive P.distributive
  diffRules : RulesAt vals p.diffRules P.diffRules

/-- The object that the handle refers to, if it still refers to one, stands for the expression. -/
def StandsAt [PyVal V K] (heap : Nat → Option (Obj V)) (hs : List (Option Nat)) (h : Nat) (t : Tree K) :
    Prop :=
  ∀ i, held hs h = some i → Stands heap i t

/-- How the program ended and what it should compute: both return, and the object returned stands for
the expression; or both raise, and the same exception. -/
def Outcome [PyVal V K] (heap : Nat → Option (Obj V)) (hs : List (Option Nat)) :
    PyM Nat → PyM (Tree K) → Prop
  | .ok h, .ok t => StandsAt heap hs h t
  | .error e, .error e' => e = e'
  | _, _ => False

/-- The program never compares two objects. -/
inductive NoCompare : {α : Type} → Prog V K α → Prop
  | ret {α : Type} (a : α) : NoCompare (.ret a)
  | raise {α : Type} (e : PyErr) : NoCompare (.raise e : Prog V K α)
  | make {α : Type} (c : Obj V) {k : Nat → Prog V K α} : (∀ h, NoCompare (k h)) → NoCompare (.make c k)
  | look {α : Type} (h : Nat) {k : Obj K → Prog V K α} : (∀ o, NoCompare (k o)) → NoCompare (.look h k)
  | loop {α σ β : Type} {body : σ → Prog V K (σ ⊕ β)} (x : σ) {k : β → Prog V K α} :
      (∀ y, NoCompare (body y)) → (∀ b, NoCompare (k b)) → NoCompare (.loop body x k)

variable [DecidableEq K] [PyVal V K]

/-- There has been no race (`R` are the keys for which there was one) for an object that the thread
has got, or for one that such an object is made of. -/
def Clean (R : Key K → Prop) (c : Cfg V K α) : Prop :=
  ∀ h i d o, held c.hs h = some i → Within c.st.heap i d → c.st.heap d = some o → ¬ R o.key

/-- The executions of thread `me` that runs a program, together with everything else that happens in
the process; all states satisfy `P`.  `R` and `R'` are the keys for which there has been a race up to
the first and up to the last state. -/
inductive Exec (me : Nat) (P : (Key K → Prop) → Cfg V K α → Prop) (R : Key K → Prop) (c : Cfg V K α) :
    (Key K → Prop) → Cfg V K α → Prop
  | refl : P R c → Exec me P R c R c
  | step {R' c' c''} : Exec me P R c R' c' → Run me c' c'' →
      P (fun k => R' k ∨ Race c''.st k) c'' → Exec me P R c (fun k => R' k ∨ Race c''.st k) c''

end Verif.Store

import Verif.Model.Store

/-!
# Specification of the stores

Executions, what a program can see, and what an object stands for.
-/

namespace Verif.Store
variable {V K : Type} [DecidableEq K] [PyVal V K]

/-- The states of the executions all of whose states satisfy `P`. -/
inductive Reach (P : St V K → Prop) : St V K → Prop
  | init : P .init → Reach P .init
  | step {s e s'} : Reach P s → Step s e s' → P s' → Reach P s'

/-- No two threads are inside `setdefault` for the same key. -/
def Exclusive (s : St V K) : Prop :=
  ∀ t t' (r r' : Obj V) (i i' : Nat), s.pc t = .inSetdefault r i → s.pc t' = .inSetdefault r' i' →
    r.key = r'.key → t = t'

/-- Two threads are inside `setdefault` for the key `k`, having both found nothing. -/
def Race (s : St V K) (k : Key K) : Prop :=
  ∃ t t' r r' i i', t ≠ t' ∧ s.pc t = .inSetdefault r i ∧ s.pc t' = .inSetdefault r' i' ∧
    r.key = k ∧ r'.key = k

/-- The executions, whatever the schedule: `History R s` if some execution leads to `s` and `R`
are the keys for which there has been a race on the way. -/
inductive History : (Key K → Prop) → St V K → Prop
  | start : History (fun _ => False) .init
  | step {R s e s'} : History R s → Step s e s' → History (fun k => R k ∨ Race s' k) s'

/-- Only thread `0` does anything. -/
def SingleThreaded (s : St V K) : Prop := ∀ t, t ≠ 0 → s.pc t = .idle

/-- Objects the program can get at: through variables and the arguments of running calls, and
from there through attributes. -/
inductive Visible (s : St V K) : Nat → Prop
  | root {i} : i ∈ s.roots → Visible s i
  | arg {t i} : i ∈ (s.pc t).refs → Visible s i
  | attr {i o j} : Visible s i → s.heap i = some o → j ∈ o.refs → Visible s j

/-- `c` is the object `i` or can be reached from it through attributes. -/
inductive Within (heap : Nat → Option (Obj V)) (i : Nat) : Nat → Prop
  | self : Within heap i i
  | attr {c o d} : Within heap i c → heap c = some o → d ∈ o.refs → Within heap i d

mutual
/-- The `Tree` object `i` stands for the expression `t` (atom values up to `==`). -/
def Stands (heap : Nat → Option (Obj V)) : Nat → Tree K → Prop
  | i, .atom a => ∃ j v, heap i = some (.treeAtom j) ∧ heap j = some (.atom a.atomType v) ∧
      PyVal.key v = a.value
  | i, .node ts => ∃ cs, heap i = some (.tree cs) ∧ StandsAll heap cs ts
/-- Pointwise. -/
def StandsAll (heap : Nat → Option (Obj V)) : List Nat → List (Tree K) → Prop
  | [], [] => True
  | c :: cs, t :: ts => Stands heap c t ∧ StandsAll heap cs ts
  | [], _ :: _ => False
  | _ :: _, [] => False
end

/-- `i` is a `Tree` object. -/
def IsTree (s : St V K) (i : Nat) : Prop :=
  (∃ a, s.heap i = some (.treeAtom a)) ∨ (∃ cs, s.heap i = some (.tree cs))

end Verif.Store

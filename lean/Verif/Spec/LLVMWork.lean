import Verif.Spec.LLVM
import Verif.Spec.Size

/-!
# The work that generated code does
-/

namespace Verif.Spec

/-- What an instruction computes and from which operands, without the register for the result. -/
def Instr.work : Instr → Option (String × List String)
  | .arith _ op operands => some (op, operands)
  | .call _ fn args => some (fn, args)
  | _ => none

/-- All the computations of a function, in order. -/
def IRFunction.work (fn : IRFunction) : List (String × List String) :=
  fn.body.filterMap Instr.work

/-- Every register that an instruction defines is used by a later instruction. -/
def AllUsed (fn : IRFunction) : Prop :=
  ∀ pre i post r, fn.body = pre ++ i :: post → Instr.defs i = some r →
    ∃ j ∈ post, r ∈ Instr.uses j

/-- Some instruction uses the operand. -/
def Reads (fn : IRFunction) (r : String) : Prop := ∃ i ∈ fn.body, r ∈ Instr.uses i

/-- The distinct compound subexpressions. -/
def compounds (e : Expr) : List Expr := (distinct e).filter (fun t => !t.children.isEmpty)

/-- `pow` has two arguments, `sin` and `cos` have one. -/
def NoSurplus (e : Expr) : Prop :=
  ∀ h args, ArgSub e (.node (h :: args)) →
    (h = Expr.powH → args.length = 2) ∧ (h = Expr.sinH ∨ h = Expr.cosH → args.length = 1)

/-- Different integers of the expressions `E` (parameters apart) are different doubles. -/
def DistinctConstants (symargs : List Expr) (E : Expr → Prop) : Prop :=
  ∀ m n : Int, Expr.integer m ∉ symargs → Expr.integer n ∉ symargs →
    (∃ e, E e ∧ ArgSub e (Expr.integer m)) → (∃ e, E e ∧ ArgSub e (Expr.integer n)) →
    doubleBits m = doubleBits n → m = n

/-- The stored entries of a matrix. -/
def Entries (m : Mat) (e : Expr) : Prop :=
  ∃ i j : Nat, Stores m i j ∧ m.getItem (.pair i j) = .ok e

end Verif.Spec

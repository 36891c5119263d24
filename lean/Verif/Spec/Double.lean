import Mathlib.Data.Rat.Defs
import Mathlib.Algebra.Order.Field.Rat

/-!
# IEEE-754 binary64 numbers and hexadecimal constants
-/

namespace Verif.Spec

/-- The value of a lower-case hexadecimal digit. -/
def hexDigit (c : Char) : Option Nat :=
  if '0' ≤ c ∧ c ≤ '9' then some (c.toNat - '0'.toNat)
  else if 'a' ≤ c ∧ c ≤ 'f' then some (c.toNat - 'a'.toNat + 10)
  else none

/-- The number written by hexadecimal digits. -/
def hexDigits (ds : List Char) : Option Nat :=
  ds.foldlM (fun acc c => (hexDigit c).map (fun d => 16 * acc + d)) 0

/-- The number written as `0x…`: LLVM reads it as the bits of a `double`. -/
def hexValue (s : String) : Option Nat :=
  match s.toList with
  | '0' :: 'x' :: d :: ds => hexDigits (d :: ds)
  | _ => none

/-- The number a 64-bit pattern stands for in IEEE-754 binary64: 1 sign bit, 11 exponent bits,
52 fraction bits; `none` for infinities and NaNs. -/
def doubleValue (b : Nat) : Option ℚ :=
  let sign : ℚ := if b / 2 ^ 63 % 2 = 1 then -1 else 1
  let e : Nat := b / 2 ^ 52 % 2 ^ 11
  let f : Nat := b % 2 ^ 52
  if e = 2047 then none
  else if e = 0 then some (sign * (f * (2 / 2 ^ 1075)))
  else some (sign * ((2 ^ 52 + f) * (2 ^ e / 2 ^ 1075)))

end Verif.Spec

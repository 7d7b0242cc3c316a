import Verif.Model.Float64
/-
What binary64 numbers and their rounding are (IEEE 754-2019, 3.3 and 4.3.1), independently of how rounding is computed.
-/
namespace Tokengeex
namespace Spec

/-- The multiples of 2^-1074 that are doubles: 53 significant bits, exponents up to 971. -/
def IsDouble (n : Nat) : Prop := ∃ m k, m < 2 ^ 53 ∧ k ≤ 2045 ∧ n = m * 2 ^ k

/-- A double as the hardware has it. -/
def IsF64 : F64 → Prop
  | .num _ n => IsDouble n
  | _ => True

/-- `v` units is the rational `n / d` rounded to nearest, ties to even, with 53 significant bits and no upper limit on the
exponent: `v = q * 2^k` where `q` is a significand, no other number with 53 significant bits is closer, and if another one
is as close, `q` is even. -/
def Nearest (n d v : Nat) : Prop :=
  ∃ q k, v = q * 2 ^ k ∧ q ≤ 2 ^ 53 ∧ (k = 0 ∨ 2 ^ 52 ≤ q) ∧
    ∀ m j, m < 2 ^ 53 →
      ((n : Int) - v * d).natAbs ≤ ((n : Int) - (m * 2 ^ j : Nat) * d).natAbs ∧
      (((n : Int) - v * d).natAbs = ((n : Int) - (m * 2 ^ j : Nat) * d).natAbs → m * 2 ^ j ≠ v → q % 2 = 0)

/-- Not NaN and not positive. -/
def NonPositive (x : F64) : Prop := x ≠ .nan ∧ x.key ≤ 0

/-- Neither NaN nor infinite. -/
def Finite : F64 → Prop
  | .num _ n => IsDouble n
  | _ => False

end Spec
end Tokengeex

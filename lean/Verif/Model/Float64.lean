import Verif.Model.Basic
/-
IEEE 754 binary64, the type `f64` of the scores (src/lib.rs:22 and throughout), with round-to-nearest-even arithmetic.

Every finite double is a whole multiple of 2^-1074, so a finite double is a sign and a natural number: the multiple.  The
payload and the sign of NaNs are not modelled (nothing in /repo looks at them).
-/
namespace Tokengeex

/-- A double: `num neg n` is `n * 2^-1074`, negated if `neg`. -/
inductive F64 where
  | nan
  | inf (neg : Bool)
  | num (neg : Bool) (n : Nat)
  deriving DecidableEq, Repr

namespace F64

/-- Overflow starts at `2^1024`, that is `2^2098` units.  (The exponent has a name to keep the elaborator from evaluating
the power.) -/
@[irreducible] def limitExp : Nat := 2098

def limit : Nat := 2 ^ limitExp

/-- Quotient rounded to the nearest integer, ties to even. -/
def roundDiv (a b : Nat) : Nat :=
  if 2 * (a % b) < b then a / b
  else if b < 2 * (a % b) then a / b + 1
  else a / b + a / b % 2

/-- The exponent `k` such that doubles near `n / d` are spaced by `2^k` units: 53 significant bits, or the fixed spacing of
subnormal numbers. -/
def spacing (n d : Nat) : Nat := Nat.log2 (n / d) - 52

/-- `n / d` rounded to 53 significant bits. -/
def roundMag (n d : Nat) : Nat := roundDiv n (d * 2 ^ spacing n d) * 2 ^ spacing n d

/-- `n / d` units with the given sign, rounded to the nearest double; infinite if it is too large. -/
def round (neg : Bool) (n d : Nat) : F64 := if roundMag n d < limit then num neg (roundMag n d) else inf neg

/-- Change of sign. -/
def neg : F64 → F64
  | nan => nan
  | inf s => inf (!s)
  | num s n => num (!s) n

/-- Addition.  An exact sum of zero is `+0`, except that `-0 + -0 = -0`. -/
def add : F64 → F64 → F64
  | nan, _ => nan
  | _, nan => nan
  | inf s, inf t => if s = t then inf s else nan
  | inf s, num _ _ => inf s
  | num _ _, inf t => inf t
  | num s n, num t m =>
    if s = t then round s (n + m) 1
    else if n = m then num false 0
    else if m < n then round s (n - m) 1
    else round t (m - n) 1

def sub (x y : F64) : F64 := add x (neg y)

/-- Multiplication. -/
def mul : F64 → F64 → F64
  | nan, _ => nan
  | _, nan => nan
  | inf s, inf t => inf (s != t)
  | inf s, num t m => if m = 0 then nan else inf (s != t)
  | num s n, inf t => if n = 0 then nan else inf (s != t)
  | num s n, num t m => round (s != t) (n * m) (2 ^ 1074)

/-- Division. -/
def div : F64 → F64 → F64
  | nan, _ => nan
  | _, nan => nan
  | inf _, inf _ => nan
  | inf s, num t _ => inf (s != t)
  | num s _, inf t => num (s != t) 0
  | num s n, num t m =>
    if m = 0 then (if n = 0 then nan else inf (s != t))
    else round (s != t) (n * 2 ^ 1074) m

/-- `n as f64` for an unsigned integer. -/
def ofNat (n : Nat) : F64 := round false (n * 2 ^ 1074) 1

/-- The position of a number on the extended line; infinities are at the ends. -/
def key : F64 → Int
  | nan => 0
  | inf s => if s then -(limit : Int) else limit
  | num s n => if s then -(n : Int) else n

/-- `<`: false if an operand is NaN. -/
def lt (x y : F64) : Bool := x ≠ nan ∧ y ≠ nan ∧ x.key < y.key

/-- `<=`. -/
def le (x y : F64) : Bool := x ≠ nan ∧ y ≠ nan ∧ x.key ≤ y.key

instance : ScoreOps F64 where
  zero := num false 0
  add := add
  lt := lt
  le := le

end F64
end Tokengeex

import Verif.Model.Number64
import Verif.Model.Prune
/-
The operations on doubles that training uses (src/prune.rs, src/generate.rs, src/merge.rs and src/lattice.rs), other than
those of Model/Float64.lean.
-/
namespace Tokengeex

/-- `f64::exp` and `f64::ln`, which come from the C library of the platform: arbitrary functions. -/
class Elementary where
  exp : F64 → F64
  ln : F64 → F64

namespace F64

/-- `f64::is_nan` (Rust std). -/
def isNan : F64 → Bool
  | nan => true
  | _ => false

/-- `f64::is_normal` (Rust std): not zero, not subnormal, finite. -/
def isNormal : F64 → Bool
  | num _ n => 2 ^ 52 ≤ n
  | _ => false

/-- `f64::max` (Rust std): the other operand if one is NaN.  Of zeros with different signs the first is taken here; Rust
leaves that open. -/
def max (x y : F64) : F64 := if isNan x then y else if isNan y then x else if lt x y then y else x

instance : Mul F64 := ⟨mul⟩

instance [Elementary] : TrainOps F64 where
  sub := sub
  mul := mul
  div := div
  exp := Elementary.exp
  ln := Elementary.ln
  ofNat := ofNat
  isNormal := isNormal
  isNan := isNan
  isInfinite := isInfinite
  max := max

end F64
end Tokengeex

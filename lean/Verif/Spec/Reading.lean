import Verif.Spec.Number64
import Verif.Spec.Rounding
/-
The number that a text in decimal notation denotes.
-/
namespace Tokengeex
namespace Spec

/-- The digits after the point. -/
def NumTok.fraction (t : NumTok) : List Nat := t.frac.getD []

/-- The exponent. -/
def NumTok.exponent (t : NumTok) : Int :=
  match t.exp with
  | none => 0
  | some (positive, ds) => if positive then ofDigits ds else -(ofDigits ds : Int)

/-- The number that a text denotes, in decimal notation. -/
noncomputable def NumTok.denotes (t : NumTok) : ℝ :=
  (if t.negative then -1 else 1) * (ofDigits (t.int ++ fraction t) * (10 : ℝ) ^ (exponent t - (fraction t).length))

/-- Its parts consist of decimal digits. -/
def NumTok.Decimal (t : NumTok) : Prop :=
  (∀ d ∈ t.int, d < 10) ∧ (∀ d ∈ fraction t, d < 10) ∧ ∀ p ds, t.exp = some (p, ds) → ∀ d ∈ ds, d < 10

end Spec

end Tokengeex

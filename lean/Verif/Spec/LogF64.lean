import Mathlib.Analysis.SpecialFunctions.Log.Basic
import Verif.Spec.Rounding
import Verif.Spec.Generate
import Verif.Model.Float64Train
/-
What is assumed of the logarithm of the platform.
-/
namespace Tokengeex.Spec

/-- `ln` computes the natural logarithm of every positive finite double up to an absolute error of `ε`.  (The logarithm of a
positive double is between -745 and 710, where doubles are at most 2^-43 apart.) -/
def LnWithin [Elementary] (ε : ℝ) : Prop :=
  ∀ x, Finite x → 0 < real x → Finite (Elementary.ln x) ∧ |real (Elementary.ln x) - Real.log (real x)| ≤ ε

/-- `ln` never decreases. -/
def LnMonotone [Elementary] : Prop :=
  ∀ x y, Finite x → Finite y → 0 < real x → real x ≤ real y → real (Elementary.ln x) ≤ real (Elementary.ln y)

/-- `ln` computes the double nearest to the natural logarithm of every positive finite double: no other double is closer. -/
def LnRounded [Elementary] : Prop :=
  ∀ x, Finite x → 0 < real x →
    Finite (Elementary.ln x) ∧ ∀ y, Finite y → |real (Elementary.ln x) - Real.log (real x)| ≤ |real y - Real.log (real x)|

/-- `M` is the highest count, or 1 if nothing has been counted. -/
def HighestCount {F : Type} (g : Generator F) (M : Nat) : Prop :=
  (∀ s, frequency g s ≤ M) ∧ ((∃ s, 0 < frequency g s ∧ frequency g s = M) ∨ (M = 1 ∧ ∀ s, frequency g s = 0))

end Tokengeex.Spec

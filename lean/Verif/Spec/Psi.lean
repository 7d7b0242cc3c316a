import Mathlib.Analysis.SpecialFunctions.Gamma.Deriv
import Mathlib.Analysis.Calculus.LogDeriv
/-
The digamma function.
-/
namespace Tokengeex.Spec

/-- The digamma function, the logarithmic derivative `Γ'/Γ` of the Gamma function. -/
noncomputable def psi : ℝ → ℝ := logDeriv Real.Gamma

end Tokengeex.Spec

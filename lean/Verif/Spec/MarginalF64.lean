import Verif.Spec.LogF64
import Verif.Spec.Lattice
import Mathlib.Analysis.SpecialFunctions.Exp
/-
What is assumed of the exponential function of the platform, and the lattice of the real values.
-/
namespace Tokengeex.Spec

/-- `exp` computes the exponential of every finite double that is at most 1 up to an absolute error of `η`.  (These
exponentials are less than 3, where doubles are at most 2^-51 apart.) -/
def ExpWithin [Elementary] (η : ℝ) : Prop :=
  ∀ x, Finite x → real x ≤ 1 → Finite (Elementary.exp x) ∧ |real (Elementary.exp x) - Real.exp (real x)| ≤ η

/-- The tokens of a lattice with the numbers their scores stand for. -/
noncomputable def realEntries (es : List (Entry F64)) : List (Entry ℝ) := es.map fun e => ⟨e.pos, e.id, e.len, real e.score⟩

end Tokengeex.Spec

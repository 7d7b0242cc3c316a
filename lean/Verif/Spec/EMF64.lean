import Verif.Spec.EM
import Verif.Spec.Rounding
import Verif.Model.Float64
/-
The M-step with doubles.
-/
namespace Tokengeex.Spec

/-- `w` are the kept tokens, in their order, where a token of expected frequency `f` (counted as 1/2 if it is less) has a finite
score, `ψ(f) - ψ(total)` up to 10⁻⁷, `ψ` being the digamma function. -/
def ReestimatedDoubles (vocab : List (ScoredToken F64)) (freqs : List ℝ) (w : List (ScoredToken F64)) : Prop :=
  List.Forall₂ (fun p t => Rescored p.1 t ∧ Finite t.score ∧
    |real t.score - (psi (max p.2 (1 / 2)) - psi ((keptBy vocab freqs).map fun p => max p.2 (1 / 2)).sum)| ≤ 1 / 10000000)
    (keptBy vocab freqs) w

end Tokengeex.Spec

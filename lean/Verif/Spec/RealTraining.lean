import Verif.Spec.Real
import Verif.Spec.Prune
/-
Training with real numbers (exact arithmetic).
-/
namespace Tokengeex

/-- Real numbers have no NaN and no infinity; all but 0 are normal. -/
noncomputable instance : TrainOps ℝ where
  isNormal x := decide (x ≠ 0)
  isNan _ := false
  isInfinite _ := false
  max := max

namespace Spec

/-- Real arithmetic is exact. -/
noncomputable def realExact : ExactArith ℝ where
  val x := x
  zero := rfl
  add _ _ := rfl
  lt a b := by simp [ScoreOps.lt]

/-- The estimated loss of removing token `i` from a vocabulary of `n` tokens if its occurrences are replaced by the tokens
`alt`: with `count` the numbers of occurrences, `S` their sum and `f = count i`,
`f / num_samples * ((ln f - ln S) - Σ over a in alt of (ln (count a + f) - ln (S + f * (n - 1))))`. -/
noncomputable def pruneLoss (numSamples n : Nat) (count : Nat → Nat) (i : Nat) (alt : List Nat) : ℝ :=
  let S : ℝ := (((List.range n).map count).sum : ℕ)
  let f : ℝ := count i
  f / numSamples * ((Real.log f - Real.log S) -
    (alt.map fun a => Real.log ((count a : ℝ) + f) - Real.log (S + f * ((n - 1 : ℕ) : ℝ))).sum)

end Spec
end Tokengeex

import Verif.Spec.RealTraining
import Verif.Spec.Prune
import Verif.Spec.Counting
import Verif.Model.Float64
/-
When the losses of a prune step stay clear of the rounding of doubles.
-/
namespace Tokengeex.Spec

/-- Every unprotected token that occurs in the encoded corpus and whose bytes can be cut in another way has at most 1024 bytes; all
the counts that enter its loss are below 2^52, so that doubles represent them exactly; and, per occurrence and sample, its exact
loss is not between -2^-22 and 2^-22, whichever way of cutting its bytes replaces it. -/
def ClearLosses (numSamples : Nat) (vocab : List (ScoredToken F64)) (count : Nat → Nat) : Prop :=
  numSamples < 2 ^ 53 ∧ ∀ i t alt, vocab[i]? = some t → t.keep = false → 0 < count i → Resegments vocab t.value alt →
    t.value.length ≤ 1024 ∧
    ((List.range vocab.length).map count).sum + count i * (vocab.length - 1) < 2 ^ 52 ∧
    (1 / 2) ^ 22 * ((count i : ℝ) / numSamples) ≤ |pruneLoss numSamples vocab.length count i alt|

end Tokengeex.Spec

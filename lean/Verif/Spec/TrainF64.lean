import Verif.Spec.EMF64
import Verif.Spec.History
import Verif.Spec.MarginalF64
/-
Expectation maximisation with doubles: what it is given.
-/
namespace Tokengeex.Spec

/-- A vocabulary and a corpus of a size that expectation maximisation with doubles copes with: at most 2²⁴ tokens of at most 256
bytes, with finite scores between -64 and 64, at most 2⁴⁰ samples of together at most 2⁴⁰ bytes, and every byte of a sample is a
protected token. -/
structure FitForDoubles (vocab : List (ScoredToken F64)) (samples : List Str) : Prop where
  size : vocab.length ≤ 2 ^ 24
  scores : ∀ t ∈ vocab, Finite t.score ∧ |real t.score| ≤ 64
  lengths : ∀ t ∈ vocab, t.value.length ≤ 256
  covered : ∀ s ∈ samples, BytesKept vocab (enc s)
  number : samples.length ≤ 2 ^ 40
  bytes : (samples.map fun s => (enc s).length).sum ≤ 2 ^ 40

/-- Whatever the byte, the tokens that end with it have together a probability of at most 9/10. -/
def Spread (vocab : List (ScoredToken F64)) : Prop :=
  ∀ b : UInt8, ((vocab.filter fun t => t.value.getLast? == some b).map fun t => Real.exp (real t.score)).sum ≤ 9 / 10

/-- The vocabulary with the numbers its scores stand for. -/
noncomputable def realVocabOf (vocab : List (ScoredToken F64)) : List (ScoredToken ℝ) :=
  vocab.map fun t => ⟨t.value, real t.score, t.keep⟩

end Tokengeex.Spec

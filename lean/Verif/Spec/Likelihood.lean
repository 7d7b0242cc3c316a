import Verif.Spec.EM
/-
How likely a corpus is.
-/
namespace Tokengeex.Spec

/-- The logarithm of the probability of the corpus: the probability of a piece of a sample is the sum over all ways of cutting it into tokens
of the products of the probabilities of the tokens. -/
noncomputable def logLikelihood (vocab : List (ScoredToken ℝ)) (pieces : Str → List (List UInt8)) (cuts : List UInt8 → Finset (List Nat))
    (samples : List Str) : ℝ :=
  (samples.map fun s => ((pieces s).map fun p => Real.log (∑ ids ∈ cuts p, cutWeight vocab ids)).sum).sum

end Tokengeex.Spec

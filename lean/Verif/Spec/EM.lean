import Verif.Spec.RealTraining
import Verif.Spec.History
import Verif.Spec.Psi
import Verif.Spec.Prune
/-
Expectation maximisation with real numbers.
-/
namespace Tokengeex.Spec

/-- The scores are logarithms of probabilities that add up to at most 1. -/
def SubProbability (vocab : List (ScoredToken ℝ)) : Prop := (vocab.map fun t => Real.exp t.score).sum ≤ 1

/-- A vocabulary training can work with: no two tokens are equal, none is empty, at least two are protected, the scores are
logarithms of probabilities, and every byte of a token or of a sample is a protected token. -/
structure Trainable (vocab : List (ScoredToken ℝ)) (samples : List Str) : Prop where
  nodup : NoDuplicates vocab
  nonempty : ∀ t ∈ vocab, t.value ≠ []
  several : 2 ≤ vocab.countP (·.keep)
  probability : SubProbability vocab
  tokens : ∀ t ∈ vocab, BytesKept vocab t.value
  samples : ∀ s ∈ samples, BytesKept vocab (enc s)

/-- `ps` are the consecutive pieces of `n` bytes of `bs`, the last one possibly shorter. -/
def CutEvery (n : Nat) (bs : List UInt8) (ps : List (List UInt8)) : Prop :=
  ps.flatten = bs ∧ (∀ p ∈ ps, p ≠ [] ∧ p.length ≤ n) ∧ ∀ p ∈ ps.dropLast, p.length = n

/-- `cuts` is the set of all ways of cutting `bs` into tokens. -/
def AllCuts (vocab : List (ScoredToken ℝ)) (bs : List UInt8) (cuts : Finset (List Nat)) : Prop :=
  ∀ ids, ids ∈ cuts ↔ Spells vocab ids bs

/-- Product of the probabilities of the tokens `ids`. -/
noncomputable def cutWeight (vocab : List (ScoredToken ℝ)) (ids : List Nat) : ℝ := Real.exp ((ids.map (scoreOf vocab)).sum)

/-- The expected number of times token `i` is used if one of the `cuts` is drawn, each with probability proportional to its
weight. -/
noncomputable def expectedUses (vocab : List (ScoredToken ℝ)) (cuts : Finset (List Nat)) (i : Nat) : ℝ :=
  (∑ ids ∈ cuts, cutWeight vocab ids * ids.count i) / ∑ ids ∈ cuts, cutWeight vocab ids

/-- `x` is `y` up to one part in a million. -/
def Nearly (x y : ℝ) : Prop := y * (1 - 1 / 1000000) ≤ x ∧ x ≤ y * (1 + 1 / 1000000)

/-- The tokens with their expected frequencies that the M-step keeps: the protected ones and those expected at least half a
time. -/
noncomputable def keptBy {F : Type} (vocab : List (ScoredToken F)) (freqs : List ℝ) : List (ScoredToken F × ℝ) :=
  (vocab.zip freqs).filter fun p => p.1.keep || decide (1 / 2 ≤ p.2)

/-- `w` are the kept tokens, in their order, where a token of expected frequency `f` (counted as 1/2 if it is less) has the
score `ψ(f) - ψ(total)` up to 10⁻¹⁰, `ψ` being the digamma function. -/
def Reestimated (vocab : List (ScoredToken ℝ)) (freqs : List ℝ) (w : List (ScoredToken ℝ)) : Prop :=
  List.Forall₂ (fun p t => Rescored p.1 t ∧
    |t.score - (psi (max p.2 (1 / 2)) - psi ((keptBy vocab freqs).map fun p => max p.2 (1 / 2)).sum)| ≤ 1 / 10000000000)
    (keptBy vocab freqs) w

end Tokengeex.Spec

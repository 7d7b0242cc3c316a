import Mathlib.Analysis.SpecialFunctions.Log.Basic
import Verif.Model.Marginal
import Verif.Spec.Lattice
/-
Scores as real numbers (exact arithmetic), and the probability model of segmentations.
-/
namespace Tokengeex

noncomputable instance : ScoreOps ℝ where
  zero := 0
  add := (· + ·)
  lt a b := decide (a < b)
  le a b := decide (a ≤ b)

noncomputable instance : RealOps ℝ where
  sub := (· - ·)
  mul := (· * ·)
  div := (· / ·)
  exp := Real.exp
  ln := Real.log
  ofNat n := n

namespace Spec

/-- `js` are the numbers of tokens of the lattice that follow each other without gap from position `a` to `b`. -/
def Run (es : List (Entry ℝ)) : Nat → List Nat → Nat → Prop
  | a, [], b => a = b
  | a, j :: js, b => ∃ e, es[j]? = some e ∧ e.pos = a ∧ Run es (a + e.len) js b

/-- Score of token number `j`. -/
noncomputable def entryScore (es : List (Entry ℝ)) (j : Nat) : ℝ := (es[j]?.map (·.score)).getD 0

/-- Sum of the scores (log-probabilities) of the tokens of a segmentation. -/
noncomputable def runScore (es : List (Entry ℝ)) (js : List Nat) : ℝ := (js.map (entryScore es)).sum

/-- `segs` is the set of all segmentations of a sentence of `n` bytes. -/
def AllSegmentations (n : Nat) (es : List (Entry ℝ)) (segs : Finset (List Nat)) : Prop := ∀ js, js ∈ segs ↔ Run es 0 js n

/-- Probability of the sentence: the sum over its segmentations of the exponential of their score. -/
noncomputable def partition (es : List (Entry ℝ)) (segs : Finset (List Nat)) : ℝ := ∑ js ∈ segs, Real.exp (runScore es js)

/-- Number of tokens with identifier `id` in a segmentation. -/
def occurrences (es : List (Entry ℝ)) (id : Nat) (js : List Nat) : Nat :=
  js.countP (fun j => (es[j]?.map (fun e : Entry ℝ => e.id)) == some id)

/-- Expected number of occurrences of token `id` in a segmentation drawn with probability proportional to the
exponential of its score. -/
noncomputable def expectedCount (es : List (Entry ℝ)) (segs : Finset (List Nat)) (id : Nat) : ℝ :=
  ∑ js ∈ segs, Real.exp (runScore es js) / partition es segs * occurrences es id js

/-- Wherever a token stops (or the sentence starts), another token starts (or the sentence stops). -/
def NoDeadEnds {F : Type} (n : Nat) (es : List (Entry F)) : Prop :=
  ∀ p, (p = 0 ∨ ∃ e ∈ es, e.pos + e.len = p) → p = n ∨ ∃ e ∈ es, e.pos = p

end Spec
end Tokengeex

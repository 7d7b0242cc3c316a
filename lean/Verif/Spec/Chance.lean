import Verif.Spec.Generate
import Mathlib.Data.Real.Basic
import Mathlib.Order.Lattice.Nat
/-
Chances over independent coins, and how many chances a string has in a sample.
-/
namespace Tokengeex.Spec

/-- The mean of `f` over `n` independent coins, each of which shows `true` with chance `p`; further coins show `false`. -/
noncomputable def mean (p : ℝ) : Nat → ((Nat → Bool) → ℝ) → ℝ
  | 0, f => f fun _ => false
  | n + 1, f => p * mean p n (fun c => f (fun k => k.casesOn true c)) + (1 - p) * mean p n (fun c => f (fun k => k.casesOn false c))

open Classical in
/-- The chance of an event over `n` such coins. -/
noncomputable def chance (p : ℝ) (n : Nat) (A : (Nat → Bool) → Prop) : ℝ := mean p n fun c => if A c then 1 else 0

/-- The greatest number of places, none overlapping another, at which `t` stands in `s`: `s` is `t` as often as that, with
something before, between and after. -/
noncomputable def disjointPlaces (t s : Str) : Nat := sSup {n | ∃ gaps : List Str, gaps.length = n + 1 ∧ s = t.intercalate gaps}

/-- The number of places (overlapping or not) at which `t` stands in `s`. -/
def places (t s : Str) : Nat := s.tails.countP fun rest => t.isPrefixOf rest

open Classical in
/-- The number of chances `t` has in a sample. -/
noncomputable def trials {F : Type} [TrainOps F] (g : Generator F) (sample t : Str) : Nat :=
  (if t ≠ [] ∧ (enc t).length ≤ g.maxTokenLength ∧ (∀ allow, g.allow = some allow → allow t = true)
    then ((partsOf g sample).map (places t)).sum else 0) +
  (g.addedTokens ++ g.suggestedTokens).count t * disjointPlaces t sample

end Tokengeex.Spec

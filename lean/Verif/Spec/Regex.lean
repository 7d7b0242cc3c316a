import Verif.Model.Patterns
/-
What regular expressions mean.
-/
namespace Tokengeex.Spec

/-- `k` texts in a row that each satisfy `P`; a predicate on a text is told what is before and after it. -/
def InARow (P : Str → Str → Str → Prop) : Nat → Str → Str → Str → Prop
  | 0, _, w, _ => w = []
  | k + 1, before, w, after => ∃ u v, w = u ++ v ∧ P before u (v ++ after) ∧ InARow P k (before ++ u) v after

/-- The pattern matches the text `w` where `before` precedes it and `after` follows it. -/
def Matches : Re → Str → Str → Str → Prop
  | .empty, _, w, _ => w = []
  | .cls negated ranges, _, w, _ =>
    ∃ c, w = [c] ∧ ((∃ r ∈ ranges, r.1 ≤ c.toNat ∧ c.toNat ≤ r.2) ↔ negated = false)
  | .start, before, w, _ => w = [] ∧ before = []
  | .stop, _, w, after => w = [] ∧ after = []
  | .cat a b, before, w, after =>
    ∃ u v, w = u ++ v ∧ Matches a before u (v ++ after) ∧ Matches b (before ++ u) v after
  | .alt a b, before, w, after => Matches a before w after ∨ Matches b before w after
  | .rep a min max, before, w, after =>
    ∃ k, min ≤ k ∧ (∀ n, max = some n → k ≤ n) ∧ InARow (Matches a) k before w after

/-- The pattern matches somewhere in the text. -/
def MatchesIn (re : Re) (s : Str) : Prop := ∃ before w after, s = before ++ w ++ after ∧ Matches re before w after

/-- The pattern matches the whole text. -/
def FullMatch (re : Re) (s : Str) : Prop := Matches re [] s []

end Tokengeex.Spec

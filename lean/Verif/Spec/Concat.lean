import Verif.Model.Basic
import Verif.Model.Utf8
/-
When texts and tokens do not get mixed up: what allows to encode a text in pieces.
-/
namespace Tokengeex.Spec

/-- No token lies across the boundary between `x` and `y`: none is made of a non-empty end of `x` and a non-empty beginning
of `y`. -/
def Apart {F : Type} (vocab : List (ScoredToken F)) (x y : List UInt8) : Prop :=
  ∀ t ∈ vocab, ∀ p q, p ≠ [] → q ≠ [] → t.value = p ++ q → ¬ (p <:+ x ∧ q <+: y)

/-- The byte `b` occurs in a token only as its last byte. -/
def OnlyAtEnd {F : Type} (vocab : List (ScoredToken F)) (b : UInt8) : Prop :=
  ∀ t ∈ vocab, ∀ p q, t.value = p ++ b :: q → q = []

/-- No special token begins with a character of `u`. -/
def PlainText (specials : List Str) (u : Str) : Prop := ∀ q ∈ specials, ∀ c, q.head? = some c → c ∉ u

/-- No special token is the beginning of another. -/
def PrefixFree (specials : List Str) : Prop := ∀ p ∈ specials, ∀ q ∈ specials, p <+: q → p = q

end Tokengeex.Spec

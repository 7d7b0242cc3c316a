import Verif.Model.Utf8
/-
What it means to split a text at special tokens, independently of the scanning loop.
-/
namespace Tokengeex.Spec

/-- `t` is the first registered special token that the text starts with. -/
def FirstMatch (specials : List Str) (text t : Str) : Prop :=
  t <+: text ∧ ∃ before after, specials = before ++ t :: after ∧ ∀ u ∈ before, ¬ u <+: text

/-- No registered special token starts here. -/
def NoMatch (specials : List Str) (text : Str) : Prop := ∀ u ∈ specials, ¬ u <+: text

/-- The text covered by a list of pieces. -/
def pieceText (pieces : List (Str × Bool)) : Str := (pieces.map Prod.fst).flatten

/-- `pieces` (text, is-special) is the leftmost, first-registered split of `input`. -/
structure IsSplit (specials : List Str) (input : Str) (pieces : List (Str × Bool)) : Prop where
  /-- the pieces, concatenated, are the input -/
  concat : pieceText pieces = input
  /-- no piece is empty -/
  nonempty : ∀ p ∈ pieces, p.1 ≠ []
  /-- a special piece is the first registered special token matching at its position -/
  special : ∀ pre p post, pieces = pre ++ (p, true) :: post → FirstMatch specials (p ++ pieceText post) p
  /-- no special token starts at any position inside an ordinary piece, even one that would extend past it -/
  ordinary : ∀ pre p post, pieces = pre ++ (p, false) :: post →
    ∀ k, k < p.length → NoMatch specials ((p ++ pieceText post).drop k)
  /-- no two consecutive ordinary pieces -/
  alternate : ∀ pre p q post, pieces ≠ pre ++ (p, false) :: (q, false) :: post

end Tokengeex.Spec

import Verif.Model.Utf8
/-
What the shipped allow pattern `data/exact.regex` is documented to accept.
-/
namespace Tokengeex.Spec

def AsciiLower (c : Char) : Prop := 'a' ≤ c ∧ c ≤ 'z'
def AsciiUpper (c : Char) : Prop := 'A' ≤ c ∧ c ≤ 'Z'
def AsciiDigit (c : Char) : Prop := '0' ≤ c ∧ c ≤ '9'
def AsciiPunct (c : Char) : Prop := ('!' ≤ c ∧ c ≤ '/') ∨ (':' ≤ c ∧ c ≤ '@') ∨ ('[' ≤ c ∧ c ≤ '`') ∨ ('{' ≤ c ∧ c ≤ '~')
/-- CJK unified ideographs and extension A. -/
def Chinese (c : Char) : Prop := ('㐀' ≤ c ∧ c ≤ '䶿') ∨ ('一' ≤ c ∧ c ≤ '鿿')

/-- English contractions. -/
def contractions : List String := ["'re", "'ve", "'s", "'d", "'ll", "'t", "'m"]

/-- Operators of programming languages. -/
def codeOperators : List String :=
  ["+", "-", "*", "/", "%", "&", "|", "^", "!", "~", "&&", "||", "==", "!=", "!==", "<", ">", "<=", ">=", "<<", ">>",
    ">>>", "++", "--", "+=", "-=", "*=", "/=", "%=", "&=", "|=", "^=", "=>", "->", ".", "...", "?", "=", ":=", "[]", "()"]

/-- `s` is `w`, possibly with a space before it and possibly with a space after it. -/
def Spaced (w s : Str) : Prop := ∃ a ∈ [[], [' ']], ∃ b ∈ [[], [' ']], s = a ++ w ++ b

/-- The strings of the pattern "exact". -/
def ExactString (s : Str) : Prop :=
  (∃ c, s = [c] ∧ c ≠ '\n') ∨
  (s ≠ [] ∧ ∀ c ∈ s, AsciiLower c) ∨
  (s ≠ [] ∧ ∀ c ∈ s, AsciiUpper c) ∨
  (∃ c w, s = c :: w ∧ AsciiUpper c ∧ w ≠ [] ∧ ∀ d ∈ w, AsciiLower d) ∨
  (∃ w ∈ contractions, s = w.toList) ∨
  (s ≠ [] ∧ ∀ c ∈ s, Chinese c) ∨
  (s ≠ [] ∧ ((∀ c ∈ s, c = ' ') ∨ ∀ c ∈ s, c = '\t')) ∨
  (∃ w ∈ codeOperators, Spaced w.toList s) ∨
  ∃ c, AsciiPunct c ∧ Spaced [c] s

end Tokengeex.Spec

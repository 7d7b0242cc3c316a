import Verif.Spec.Regex
import Verif.Model.Messages
/-
How patterns are written.
-/
namespace Tokengeex.Spec

/-- A character in a pattern or a class: with a backslash if it has a meaning of its own. -/
def writeChar (c : Char) : Str :=
  if c ∈ ['\\', '.', '+', '*', '?', '(', ')', '|', '[', ']', '{', '}', '^', '$', '#', '&', '-', '~'] then ['\\', c] else [c]

/-- The characters from `r.1` to `r.2` in a class: `c` or `c-d`. -/
def writeRange (r : Nat × Nat) : Str :=
  if r.1 = r.2 then writeChar (Char.ofNat r.1) else writeChar (Char.ofNat r.1) ++ '-' :: writeChar (Char.ofNat r.2)

/-- `{m,}` or `{m,n}`. -/
def writeCount (m : Nat) : Option Nat → Str
  | none => '{' :: showNat m ++ [',', '}']
  | some n => '{' :: showNat m ++ ',' :: showNat n ++ ['}']

/-- `(?:p)`. -/
def group (p : Str) : Str := "(?:".toList ++ p ++ [')']

/-- A text for the pattern. -/
def write : Re → Str
  | .empty => []
  | .cls negated ranges => '[' :: ((if negated then ['^'] else []) ++ ranges.flatMap writeRange ++ [']'])
  | .start => ['^']
  | .stop => ['$']
  | .cat a b => group (write a) ++ group (write b)
  | .alt a b => group (write a) ++ '|' :: group (write b)
  | .rep a m n => group (write a) ++ writeCount m n

/-- What can be written: classes are not empty, ranges are between characters in order, and no maximum is less than the
minimum. -/
def Writable : Re → Prop
  | .empty => True
  | .cls _ ranges => ranges ≠ [] ∧ ∀ r ∈ ranges, ∃ c d : Char, c ≤ d ∧ r = (c.toNat, d.toNat)
  | .start => True
  | .stop => True
  | .cat a b => Writable a ∧ Writable b
  | .alt a b => Writable a ∧ Writable b
  | .rep a m n => Writable a ∧ ∀ k, n = some k → m ≤ k

/-- What can follow a group to say how often it is repeated: the text, the minimum and the maximum. -/
inductive Quantifier : Str → Nat → Option Nat → Prop where
  | optional : Quantifier ['?'] 0 (some 1)
  | star : Quantifier ['*'] 0 none
  | plus : Quantifier ['+'] 1 none
  | exactly (m : Nat) : Quantifier ('{' :: showNat m ++ ['}']) m (some m)
  | count (m : Nat) (n : Option Nat) : (∀ k, n = some k → m ≤ k) → Quantifier (writeCount m n) m n

/-- A hexadecimal digit, in lower or upper case. -/
def hexDigit (upper : Bool) (d : Nat) : Char :=
  if d < 10 then Char.ofNat (48 + d) else if upper then Char.ofNat (55 + d) else Char.ofNat (87 + d)

/-- `k` hexadecimal digits. -/
def hexDigits (upper : Bool) : Nat → Nat → Str
  | 0, _ => []
  | k + 1, n => hexDigits upper k (n / 16) ++ [hexDigit upper (n % 16)]

/-- Members of a class that are written in a way of their own: a range, white space, ASCII punctuation, or one of three control
characters. -/
inductive Member where
  | range (c d : Char)
  | space
  | punctuation
  | newline
  | tab
  | return

/-- How the member is written. -/
def Member.text : Member → Str
  | range c d => writeRange (c.toNat, d.toNat)
  | space => ['\\', 's']
  | punctuation => ['[', ':', 'p', 'u', 'n', 'c', 't', ':', ']']
  | newline => ['\\', 'n']
  | tab => ['\\', 't']
  | .return => ['\\', 'r']

/-- Which characters it stands for. -/
def Member.Has : Member → Char → Prop
  | range c d, x => c ≤ x ∧ x ≤ d
  | space, x => x.toNat ∈ [9, 10, 11, 12, 13, 32, 0x85, 0xA0, 0x1680, 0x2028, 0x2029, 0x202F, 0x205F, 0x3000] ∨
      0x2000 ≤ x.toNat ∧ x.toNat ≤ 0x200A
  | punctuation, x => x ∈ "!\"#$%&'()*+,-./:;<=>?@[\\]^_`{|}~".toList
  | newline, x => x = '\n'
  | tab, x => x = '\t'
  | .return, x => x = '\r'

/-- A class as it is written: possibly negated, possibly a bracket first, members, possibly a hyphen last. -/
def classText (negated bracket : Bool) (members : List Member) (hyphen : Bool) : Str :=
  '[' :: ((if negated then ['^'] else []) ++ (if bracket then [']'] else []) ++ members.flatMap Member.text ++
    (if hyphen then ['-'] else []) ++ [']'])

end Tokengeex.Spec

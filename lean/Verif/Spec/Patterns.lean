import Verif.Model.Basic
import Verif.Model.Utf8
/-
What the named patterns of src/regex.rs are meant to accept, in terms of runs of characters.
-/
namespace Tokengeex.Spec

/-- A run of at least `min` and at most `max` characters, each in one of the ranges. -/
structure CharRun where
  chars : List (Char × Char)
  min : Nat := 1
  max : Option Nat := some 1

def CharRun.Has (r : CharRun) (c : Char) : Prop := ∃ x ∈ r.chars, x.1 ≤ c ∧ c ≤ x.2

/-- The string consists of these runs. -/
def Fits : List CharRun → Str → Prop
  | [], s => s = []
  | r :: rest, s => ∃ u v, s = u ++ v ∧ r.min ≤ u.length ∧ (∀ n, r.max = some n → u.length ≤ n) ∧ (∀ c ∈ u, r.Has c) ∧ Fits rest v

namespace CharRun

/-- One character. -/
def one (c : Char) : CharRun := { chars := [(c, c)] }

def lower : List (Char × Char) := [('a', 'z')]
def upper : List (Char × Char) := [('A', 'Z')]
def digits : List (Char × Char) := [('0', '9')]
def letters : List (Char × Char) := [('A', 'Z'), ('a', 'z')]
def space : List (Char × Char) := [(' ', ' ')]
def tab : List (Char × Char) := [('\t', '\t')]
/-- ASCII punctuation. -/
def punct : List (Char × Char) := [('!', '/'), (':', '@'), ('[', '`'), ('{', '~')]
/-- Unicode white space. -/
def white : List (Char × Char) :=
  [(9, 13), (0x20, 0x20), (0x85, 0x85), (0xA0, 0xA0), (0x1680, 0x1680), (0x2000, 0x200A), (0x2028, 0x2029),
    (0x202F, 0x202F), (0x205F, 0x205F), (0x3000, 0x3000)].map fun x => (Char.ofNat x.1, Char.ofNat x.2)

/-- One or more. -/
def many (chars : List (Char × Char)) : CharRun := { chars := chars, min := 1, max := none }
/-- From one up to `n`. -/
def upTo (n : Nat) (chars : List (Char × Char)) : CharRun := { chars := chars, min := 1, max := some n }
/-- Exactly one. -/
def single (chars : List (Char × Char)) : CharRun := { chars := chars }
/-- An optional space. -/
def space? : CharRun := { chars := space, min := 0, max := some 1 }

/-- A fixed text. -/
def text (s : String) : List CharRun := s.toList.map one

end CharRun

open CharRun in
/-- For each name the kinds of strings it accepts. -/
def patternMeaning : List (String × List (List CharRun)) := [
  ("any-char", [[single [('\x00', '\t'), ('\x0b', Char.ofNat 0x10FFFF)]]]),
  ("lowercase-word", [[many lower]]),
  ("space-lowercase-word", [[space?, many lower]]),
  ("uppercase-word", [[many upper]]),
  ("space-uppercase-word", [[space?, many upper]]),
  ("capitalized-word", [[single upper, many lower]]),
  ("space-capitalized-word", [[space?, single upper, many lower]]),
  ("word", [[many letters]]),
  ("space-word", [[space?, many letters]]),
  ("space-english-word", [[space?, many letters, one '\'', upTo 2 [('a', 'z'), ('A', 'Z')]]]),
  ("space-french-word", [[space?, many (letters ++ [('À', 'ÿ')])]]),
  ("chinese-word", [[many [('㐀', '䶿'), ('一', '鿿')]]]),
  ("english-contraction", ["'re", "'ve", "'s", "'d", "'ll", "'t", "'m"].map text),
  ("space-digit", [[one ' ', single digits]]),
  ("short-number", [[upTo 3 digits]]),
  ("space-short-number", [[one ' ', upTo 3 digits]]),
  ("short-decimal-number", [[upTo 3 digits, one '.', single digits]]),
  ("space-short-decimal-number", [[one ' ', upTo 3 digits, one '.', single digits]]),
  ("word-wrapped-in-brackets", [[one '[', many letters, one ']']]),
  ("short-number-wrapped-in-brackets", [[one '[', upTo 3 digits, one ']']]),
  ("word-wrapped-in-quotes", [[single [('\'', '\''), ('"', '"')], many letters, single [('\'', '\''), ('"', '"')]]]),
  ("word-wrapped-in-angle-brackets", [[one '<', many letters, one '>']]),
  ("punct-word", [[single punct, many letters]]),
  ("space-punct-word", [[one ' ', single punct, many letters]]),
  ("word-punct", [[single letters, single punct]]),
  ("dot-short-number", [[one '.', upTo 3 digits]]),
  ("indent", [[many space], [many tab]]),
  ("newline-indent", [[one '\n', many space], [one '\n', many tab]]),
  ("whitespace", [[many white]]),
  ("space-punct-space", [[space?, single punct, space?]]),
  ("repeated-punct", [[many punct]]),
  ("few-repeated-punct", [[upTo 4 punct]]),
  ("repeated-punct-space", [[many (space ++ punct)]]),
  ("few-repeated-punct-space", [[upTo 4 (space ++ punct)]]),
  ("punct-newline", [[many punct, one '\n']]),
  ("repeated-punct-newline-indent", [[many punct, one '\n', many [(' ', ' '), ('\t', '\t')]]]),
  ("space-operator-space",
    ["+", "-", "*", "/", "%", "&", "|", "^", "!", "~", "&&", "||", "==", "!=", "!==", "<", ">", "<=", ">=", "<<", ">>",
      ">>>", "++", "--", "+=", "-=", "*=", "/=", "%=", "&=", "|=", "^=", "=>", "->", ".", "...", "?", "=", ":=", "[]",
      "()"].map fun op => [space?] ++ text op ++ [space?])]

end Tokengeex.Spec

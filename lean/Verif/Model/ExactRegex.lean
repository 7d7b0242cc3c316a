import Verif.Model.Patterns
/-
The allow pattern that the project ships and the commands documented for it.
-/
namespace Tokengeex

/-- data/exact.regex, the whole file. -/
def exactRegexFile : String :=
  "^(?:.)$" ++
  "|^(?:[a-z]+)$" ++
  "|^(?:[A-Z]+)$" ++
  "|^(?:[A-Z][a-z]+)$" ++
  "|^(?:'(?:re|ve|s|d|ll|t|m))$" ++
  "|^(?:[\\u3400-\\u4DBF\\u4E00-\\u9FFF]+)$" ++
  "|^(?:(?:[ ]+)|[\\t]+)$" ++
  "|^(?: ?(?:(?:\\+)|(?:\\-)|(?:\\*)|(?:/)|(?:%)|(?:\\&)|(?:\\|)|(?:\\^)|(?:!)|(?:\\~)|(?:\\&\\&)|(?:\\" ++
  "|\\|)|(?:==)|(?:!=)|(?:!==)|(?:<)|(?:>)|(?:<=)|(?:>=)|(?:<<)|(?:>>)|(?:>>>)|(?:\\+\\+)|(?:\\-\\" ++
  "-)|(?:\\+=)|(?:\\-=)|(?:\\*=)|(?:/=)|(?:%=)|(?:\\&=)|(?:\\|=)|(?:\\^=)|(?:=>)|(?:\\->)|(?:\\.)|(?:" ++
  "\\.\\.\\.)|(?:\\?)|(?:=)|(?::=)|(?:\\[\\])|(?:\\(\\))) ?)$" ++
  "|^(?: ?[[:punct:]] ?)$"

/-- The patterns of the command that README.md:48-51 gives for data/exact.regex. -/
def exactNames : List Str :=
  ["any-char", "lowercase-word", "uppercase-word", "capitalized-word", "english-contraction", "chinese-word", "indent",
    "space-operator-space", "space-punct-space"].map String.toList

/-- The patterns of the command that README.md:57-60 gives for data/fine.regex (which is not shipped). -/
def fineNames : List Str :=
  ["any-char", "lowercase-word", "uppercase-word", "capitalized-word", "english-contraction", "chinese-word", "indent",
    "space-operator-space", "space-punct-space"].map String.toList

end Tokengeex

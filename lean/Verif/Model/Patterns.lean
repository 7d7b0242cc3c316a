import Verif.Model.Regex
import Verif.Model.Sources
/-
src/regex.rs: the named patterns and the patterns built from several.
-/
namespace Tokengeex

/-- A row of `PATTERNS`, src/regex.rs:178-411: name, text of the pattern, and the examples and counterexamples that the unit
test of src/regex.rs:449-480 tries. -/
structure NamedPattern where
  name : Str
  text : Str
  examples : List Str
  counterexamples : List Str

namespace NamedPattern

/-- A row, from literals. -/
def row (name text : String) (examples counterexamples : List String) : NamedPattern :=
  ⟨name.toList, text.toList, examples.map String.toList, counterexamples.map String.toList⟩

/-- The macro `space_anyof_space!`, src/regex.rs:59-80. -/
def spaceAnyofSpace (words : List Str) : Str :=
  " ?(?:".toList ++ List.intercalate ['|'] (words.map fun w => "(?:".toList ++ Re.escape w ++ ")".toList) ++ ") ?".toList

/-- `OPERATORS`, src/regex.rs:84-88. -/
def operators : List Str :=
  ["+", "-", "*", "/", "%", "&", "|", "^", "!", "~", "&&", "||", "==", "!=",
    "!==", "<", ">", "<=", ">=", "<<", ">>", ">>>", "++", "--", "+=", "-=", "*=", "/=", "%=",
    "&=", "|=", "^=", "=>", "->", ".", "...", "?", "=", ":=", "[]", "()"].map String.toList

/-- `PATTERNS`, src/regex.rs:178-411; the texts are the constants of src/regex.rs:3-48. -/
def table : List NamedPattern := [
  row "any-char" "." ["好", "A"] ["123"],
  row "lowercase-word" "[a-z]+" ["hello"] ["Hello", "HELLO"],
  row "space-lowercase-word" " ?[a-z]+" [" hello", " world"] ["Hello", " WORLD"],
  row "uppercase-word" "[A-Z]+" ["HELLO"] ["Hello", " WORLD"],
  row "space-uppercase-word" " ?[A-Z]+" [" HELLO", "WORLD"] ["Hello", " world"],
  row "capitalized-word" "[A-Z][a-z]+" ["Hello"] ["HeLlO"],
  row "space-capitalized-word" " ?[A-Z][a-z]+" [" Hello", "Hello"] ["HeLlO"],
  row "word" "[A-Za-z]+" ["hello", "Hello", "HELLO"] ["123"],
  row "space-word" " ?[A-Za-z]+" [" hello", " Hello", " HeLlO"] ["123"],
  row "space-english-word" " ?[A-Za-z]+'[a-zA-Z]{1,2}" ["don't", " You'll", " He's"] ["ABC'DEF"],
  row "space-french-word" " ?[A-Za-zÀ-ÿ]+" ["Été", " compliqué"] ["مرحبا"],
  row "chinese-word" "[\\u3400-\\u4DBF\\u4E00-\\u9FFF]+" ["你好", "大家好"] ["مرحبا"],
  row "english-contraction" "'(?:re|ve|s|d|ll|t|m)" ["'re", "'ve", "'s", "'d", "'ll", "'t", "'m"] [],
  row "space-digit" " [0-9]" [" 1", " 2", " 3"] [" 10"],
  row "short-number" "[0-9]{1,3}" ["1", "123", "789"] ["1000"],
  row "space-short-number" " [0-9]{1,3}" [" 1", " 123", " 789"] [],
  row "short-decimal-number" "[0-9]{1,3}\\.[0-9]" ["1.1", "123.4", "789.9"] ["123.456", "1000.0"],
  row "space-short-decimal-number" " [0-9]{1,3}\\.[0-9]" [" 1.1", " 123.4", " 789.9"] [" 123.456", " 1000.0"],
  row "word-wrapped-in-brackets" "\\[[A-Za-z]+\\]" ["[abc]", "[VALUE]"] [],
  row "short-number-wrapped-in-brackets" "\\[[0-9]{1,3}\\]" ["[1]", "[123]", "[789]"] [],
  row "word-wrapped-in-quotes" "['\"][A-Za-z]+['\"]" ["'abc'", "\"VALUE\""] [],
  row "word-wrapped-in-angle-brackets" "<[A-Za-z]+>" ["<abc>", "<VALUE>"] [],
  row "punct-word" "[[:punct:]][A-Za-z]+" ["&abc", ":Abc", "+ABC"] [],
  row "space-punct-word" " [[:punct:]][A-Za-z]+" [" &abc", " :Abc", " +ABC"] [],
  row "word-punct" "[A-Za-z][[:punct:]]" ["a&", "B:", "C+"] [],
  row "dot-short-number" "\\.[0-9]{1,3}" [".1", ".123", ".789"] [".1000"],
  row "indent" "(?:[ ]+)|[\\t]+" [" ", "  ", "    ", "\t", "\t\t", "\t\t\t"] ["\t "],
  row "newline-indent" "(?:\\n[ ]+)|(?:\\n[\\t]+)" ["\n ", "\n  ", "\n    ", "\n\t\t", "\n\t\t", "\n\t\t\t"] ["\n\t "],
  row "whitespace" "\\s+" [" ", "  ", "    ", "\n", "\n\n", "\t\t", " \n\t"] [],
  row "space-punct-space" " ?[[:punct:]] ?" [" # ", " ( ", " ) ", " { ", " } ", " != ", ", "] [],
  row "repeated-punct" "[[:punct:]]+" ["####", "()[]{}"] ["\n#\n#\n#"],
  row "few-repeated-punct" "[[:punct:]]{1,4}" ["#", "##", "###", "()", "[]", "{}"] ["#####", "()[]{}"],
  row "repeated-punct-space" "(?: |[[:punct:]])+" [" # ", " ( ", " ) ", " { ", " } ", " != ", ", "] [],
  row "few-repeated-punct-space" "(?: |[[:punct:]]){1,4}" [" # ", " ( ", " ) ", " { ", " } ", " != ", ", "] [],
  row "punct-newline" "[[:punct:]]+\\n" [";\n", "]\n", "}\n"] [";\n\n", "]\n\n", "}\n\n"],
  row "repeated-punct-newline-indent" "[[:punct:]]+\\n[ \\t]+" [");\n\t\t", "]\n    "] [],
  ⟨"space-operator-space".toList, spaceAnyofSpace operators, [" + ", " !=="].map String.toList, [].map String.toList⟩]

/-- `generated_function` of a row, src/regex.rs:50-57 and 59-80: a pattern that does not parse is a panic. -/
def regex (p : NamedPattern) : Res Regex := unwrap (Regex.new p.text)

end NamedPattern

/-- `build_allow_regex`, src/regex.rs:413-425. -/
def buildAllowRegex (regexes : List Regex) : Res Regex :=
  unwrap (Regex.new (List.intercalate ['|'] (regexes.map fun r => "^(?:".toList ++ r.text ++ ")$".toList)))

/-- `build_mine_regex`, src/regex.rs:427-439. -/
def buildMineRegex (regexes : List Regex) : Res Regex :=
  unwrap (Regex.new (List.intercalate ['|'] (regexes.map fun r => "(?:".toList ++ r.text ++ ")".toList)))

/-- One turn of the loop of `load_patterns`, src/cli.rs:339-349. -/
def loadPattern (name : Str) : Res Regex :=
  match NamedPattern.table.find? fun p => p.name == name with
  | some p => p.regex
  | none => unwrap (Regex.new name)

/-- `load_patterns`, src/cli.rs:336-351. -/
def loadPatterns (patterns : List Str) : Res (List Regex) := patterns.mapM loadPattern

/-- What `regex_cmd` writes to the output file, src/cli.rs:527-550. -/
def regexCmd (patterns : List Str) : Res (List UInt8) := do
  let regexes ← loadPatterns patterns
  let re ← buildAllowRegex regexes
  pure (enc re.text)

/-- White space at an end of a string. -/
def isSpace (c : Char) : Bool := Re.inClass false Re.whitespace c

/-- `str::trim` (Rust std). -/
def trim (s : Str) : Str := ((s.dropWhile isSpace).reverse.dropWhile isSpace).reverse

/-- `load_regex`, src/cli.rs:316-324, on the contents of the file. -/
def loadRegex (contents : List UInt8) : Res Regex := do
  let text ← unwrap (fromUtf8 contents)
  unwrap (Regex.new (trim (text.filter fun c => !(c == '\n' || c == '\r'))))

end Tokengeex

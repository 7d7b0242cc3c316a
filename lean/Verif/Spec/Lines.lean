import Verif.Model.Serde
/-
The lines of a text (C125).
-/
namespace Tokengeex.Spec

/-- `ls` are the lines of the text: joined with line breaks they are the text, and none of them contains one. -/
def Lines (text : Str) (ls : List Str) : Prop :=
  ls ≠ [] ∧ text = List.intercalate ['\n'] ls ∧ ∀ l ∈ ls, '\n' ∉ l

/-- The text of a score in a file: its numeral, or `null` when it is not finite. -/
def scoreText {F : Type} (N : NumText F) (x : F) : Str :=
  match N.print x with
  | some numeral => Json.numText numeral
  | none => "null".toList

/-- The lines between the brackets of a list that has `items` lines (and its closing bracket), or none if it is empty:
an empty list is written on the line of its name. -/
def listLines (items : List Nat) : Nat := if items = [] then 0 else items.sum + 1

/-- The lines a base token takes: braces, value, score, and one line for each of the two flags that is set. -/
def tokenLines {F : Type} (t : ScoredToken F) : Nat :=
  4 + (if (fromUtf8 t.value).isNone then 1 else 0) + (if t.keep then 1 else 0)

/-- The lines a processor takes: braces, type, and the form if it has one. -/
def processorLines : Processor → Nat
  | .crlf => 3
  | .unicode _ => 4

end Tokengeex.Spec

import Verif.Model.Utf8
/-
What CRLF normalisation does to a text, position by position.
-/
namespace Tokengeex.Spec

/-- The text without the `\r`s that are directly followed by `\n`. -/
def dropCrBeforeLf (s : Str) : Str :=
  (List.range s.length).filterMap (fun i =>
    if s[i]? = some '\r' ∧ s[i + 1]? = some '\n' then none else s[i]?)

end Tokengeex.Spec

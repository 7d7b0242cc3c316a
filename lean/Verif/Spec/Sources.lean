import Verif.Model.Sources
/-
What reading training data promises.
-/
namespace Tokengeex.Spec

/-- `parts` are what lies between the separators in `whole`: none of them contains a separator, and joined with
separators they are `whole`. -/
def Parts {α : Type} (sep : α) (whole : List α) (parts : List (List α)) : Prop :=
  parts ≠ [] ∧ (∀ part ∈ parts, sep ∉ part) ∧ whole = List.intercalate [sep] parts

/-- The non-empty ones of a list of strings. -/
def nonEmpty (parts : List Str) : List Str := parts.filter fun s => decide (s ≠ [])

end Tokengeex.Spec

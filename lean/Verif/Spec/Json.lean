import Verif.Model.Json
/-
What a reader sees of a written JSON value.
-/
namespace Tokengeex
namespace Spec

/-- A character that JSON cannot hold literally inside a string: the quote, the backslash and control characters. -/
def NeedsEscape (c : Char) : Prop := c = '"' ∨ c = '\\' ∨ c.toNat < 32

instance (c : Char) : Decidable (NeedsEscape c) := by unfold NeedsEscape; infer_instance

/-- The parts of a number as JSON allows them: decimal digits; at least one before the point, without leading zeros; at
least one after the point and in the exponent, if these are present. -/
structure ValidNum (t : NumTok) : Prop where
  int_digits : ∀ d ∈ t.int, d < 10
  int_pos : t.int ≠ []
  no_leading_zero : ∀ more, t.int = 0 :: more → more = []
  frac_digits : ∀ ds, t.frac = some ds → ds ≠ [] ∧ ∀ d ∈ ds, d < 10
  exp_digits : ∀ sign ds, t.exp = some (sign, ds) → ds ≠ [] ∧ ∀ d ∈ ds, d < 10

/-- Every number that is printed at all is printed as a JSON number. -/
def PrintsNumbers {F : Type} (N : NumText F) : Prop := ∀ x t, N.print x = some t → ValidNum t

variable {F : Type}

/-- A string as a reader gets it. -/
def seenStr (s : Str) : RawStr := ⟨s, decide (∃ c ∈ s, NeedsEscape c)⟩

mutual
/-- The value a reader gets: the same tree, except that numbers go through their text (a number that is not finite is
seen as `null`, one whose text is out of range makes reading fail). -/
def seen (N : NumText F) : Json Str F → Option (Json RawStr F)
  | .null => some .null
  | .bool b => some (.bool b)
  | .num x => match N.print x with | none => some .null | some t => (N.value t).map .num
  | .str s => some (.str (seenStr s))
  | .arr xs => (seenItems N xs).map .arr
  | .obj ms => (seenMembers N ms).map .obj
def seenItems (N : NumText F) : List (Json Str F) → Option (List (Json RawStr F))
  | [] => some []
  | x :: xs => (seen N x).bind fun y => (seenItems N xs).map (y :: ·)
def seenMembers (N : NumText F) : List (Str × Json Str F) → Option (List (RawStr × Json RawStr F))
  | [] => some []
  | (k, x) :: ms => (seen N x).bind fun y => (seenMembers N ms).map ((seenStr k, y) :: ·)
end

mutual
/-- How deeply arrays and objects are nested. -/
def nesting : Json Str F → Nat
  | .arr xs => nestingItems xs + 1
  | .obj ms => nestingMembers ms + 1
  | _ => 0
def nestingItems : List (Json Str F) → Nat
  | [] => 0
  | x :: xs => max (nesting x) (nestingItems xs)
def nestingMembers : List (Str × Json Str F) → Nat
  | [] => 0
  | (_, x) :: ms => max (nesting x) (nestingMembers ms)
end

end Spec
end Tokengeex

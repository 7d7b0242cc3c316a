import Verif.Model.Tokenizer
/-
What a tokenizer should hold after a history of calls, in terms of the arguments of those calls only.
-/
namespace Tokengeex.Spec
open Tokenizer
variable {F : Type}

/-- All base tokens ever given, in order. -/
def givenBase (vocab : List (ScoredToken F)) (ops : List (Op F)) : List (ScoredToken F) :=
  vocab ++ ops.flatMap (fun | .addBase ts => ts | .addSpecial _ => [])

/-- All special tokens ever given, in order. -/
def givenSpecial (specials : List Str) (ops : List (Op F)) : List Str :=
  specials ++ ops.flatMap (fun | .addSpecial ts => ts | .addBase _ => [])

/-- `reg` lists the distinct elements of `all`, ordered by first occurrence (so it has no duplicates). -/
def FirstOccurrences (all reg : List Str) : Prop :=
  (∀ s, s ∈ reg ↔ s ∈ all) ∧ reg.Pairwise (fun a b => all.idxOf a < all.idxOf b)

end Tokengeex.Spec

import Verif.Model.Generate
import Verif.Spec.Prune
import Mathlib.Data.List.Infix
/-
What feeding and generating promise.
-/
namespace Tokengeex.Spec
variable {F : Type} [TrainOps F]

/-- The texts whose substrings are candidates: the matches of the split pattern, or the whole sample. -/
def partsOf (g : Generator F) (sample : Str) : List Str :=
  match g.split with
  | some split => split sample
  | none => [sample]

/-- A string that may be counted for a sample: an allowed non-empty substring of a part of at most `max_token_length`
bytes, or an added or suggested token that occurs in the sample. -/
def Candidate (g : Generator F) (sample t : Str) : Prop :=
  (t ≠ [] ∧ (∃ part ∈ partsOf g sample, t <:+: part) ∧ (enc t).length ≤ g.maxTokenLength ∧
    ∀ allow, g.allow = some allow → allow t = true) ∨
  ((t ∈ g.addedTokens ∨ t ∈ g.suggestedTokens) ∧ t <:+: sample)

/-- Number of samples counted for `t`. -/
def frequency (g : Generator F) (t : Str) : Nat := (g.frequencies.get? t).getD 0

/-- `g` is a generator created with this configuration and fed, in any number of calls, the samples `fed`. -/
inductive Fed (max : Nat) (prob : F) (split : Option (Str → List Str)) (allow : Option (Str → Bool))
    (added suggested : List Str) : List Str → Generator F → Prop
  | new : Fed max prob split allow added suggested [] (Generator.new max prob split allow added suggested)
  | feed {fed samples : List Str} {g g' : Generator F} {shard : Str → Nat} :
    Fed max prob split allow added suggested fed g → Generator.Feed g shard samples g' →
    Fed max prob split allow added suggested (fed ++ samples) g'

end Tokengeex.Spec

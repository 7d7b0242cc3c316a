import Verif.Model.Prune
import Verif.Spec.NBest
import Verif.Spec.Training
/-
What pruning promises.
-/
namespace Tokengeex.Spec
variable {F : Type}

/-- `w` is the list of the entries of `vocab` at the positions `ids`. -/
def EntriesAt (vocab : List (ScoredToken F)) (ids : List Nat) (w : List (ScoredToken F)) : Prop :=
  ids.map (fun i => vocab[i]?) = w.map some

/-- The same token up to its score. -/
def Rescored (t u : ScoredToken F) : Prop := u.value = t.value ∧ u.keep = t.keep

/-- `w` is made of entries of `vocab` at different positions, rescored, and every protected entry is among them. -/
def PrunedTo (vocab w : List (ScoredToken F)) : Prop :=
  ∃ ids old, ids.Nodup ∧ EntriesAt vocab ids old ∧ List.Forall₂ Rescored old w ∧
    ∀ i t, vocab[i]? = some t → t.keep = true → i ∈ ids

/-- `alt` cuts the bytes `bs` into at least two non-empty tokens of the vocabulary. -/
def Resegments (vocab : List (ScoredToken F)) (bs : List UInt8) (alt : List Nat) : Prop :=
  1 < alt.length ∧ Spells vocab alt bs ∧ Canonical vocab alt

/-- `alt` is a best way of cutting `bs` into at least two tokens. -/
def BestAlternative [ScoreOps F] (vocab : List (ScoredToken F)) (bs : List UInt8) (alt : List Nat) : Prop :=
  Resegments vocab bs alt ∧
    ∀ other, Resegments vocab bs other → ScoreOps.lt (totalScore vocab alt) (totalScore vocab other) = false

/-- The bytes of the token can be cut in other ways, all of them with a smaller total score. -/
def Replaceable [ScoreOps F] (vocab : List (ScoredToken F)) (t : ScoredToken F) : Prop :=
  (∃ alt, Resegments vocab t.value alt) ∧
    ∀ alt, Resegments vocab t.value alt → ScoreOps.lt (totalScore vocab alt) t.score = true

/-- A token a prune step cannot remove, except if it does not occur in the corpus: it is protected, or not
replaceable. -/
def Forced [ScoreOps F] (vocab : List (ScoredToken F)) (t : ScoredToken F) : Prop :=
  t.keep = true ∨ ¬ Replaceable vocab t

/-- No two tokens are equal, none is empty, and every byte that occurs in a token is a token. -/
structure WellFormed (vocab : List (ScoredToken F)) : Prop where
  nodup : NoDuplicates vocab
  nonempty : ∀ t ∈ vocab, t.value ≠ []
  covered : ∀ t ∈ vocab, BytesCovered vocab t.value

/-- `<=` orders all numbers that are not NaN, and a normal number is not NaN. -/
structure TrainLaws (F : Type) [TrainOps F] : Prop where
  order : OrderLaws F (fun x => TrainOps.isNan x = false)
  normal : ∀ x : F, TrainOps.isNormal x = true → TrainOps.isNan x = false

/-- The laws about the standard library that pruning needs. -/
structure StdLaws [ScoreOps F] (std : Pruner.Std F) : Prop where
  heap : ∃ ok, HeapLaws std.heap ok
  candidates : SortLaws std.sortCandidates
  vocab : SortLaws std.sortVocab

end Tokengeex.Spec

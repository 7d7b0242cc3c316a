import Verif.Spec.Merge
import Verif.Spec.Generate
/-
Histories of training steps.
-/
namespace Tokengeex.Spec
variable {F : Type} [TrainOps F] [Mul F]

/-- A training step that returns: an unforced filter, a call of prune, or a call of merge, with any configuration, corpus,
chunking, schedule, sorting function, hash order and random numbers.  The pruned vocabulary has at most 2³² - 2 tokens. -/
inductive TrainStep : Model F → Model F → Prop
  | filter {m m' : Model F} (f : VocabularyFilter F) (ninf : F) (sorter : Sorter (ScoredToken F)) :
    f.force = false → SortLaws sorter → f.filter ninf sorter m = .ok m' → TrainStep m m'
  | prune {m m' : Model F} (c : Pruner F) (std : Pruner.Std F) (samples : List Str) :
    StdLaws std → m.vocabSize ≤ 4294967294 → Pruner.Returns c std samples m m' → TrainStep m m'
  | merge {m m' : Model F} (c : Merger F) (rnd : Nat → F) (sorter : Sorter ((Nat × Nat) × Nat)) (samples : List Str)
    (listing : Nat → Model F → List ((Nat × Nat) × Nat)) (fuel : Nat) :
    SortLaws sorter → Listings rnd sorter samples listing → c.merge rnd listing samples fuel m = .ok m' → TrainStep m m'

/-- Every byte of `bs` is in the vocabulary as a protected one-byte token. -/
def BytesKept (vocab : List (ScoredToken F)) (bs : List UInt8) : Prop :=
  ∀ b ∈ bs, ∃ t ∈ vocab, t.value = [b] ∧ t.keep = true

end Tokengeex.Spec

import Verif.Model.Merge
import Verif.Spec.Counting
import Verif.Spec.Training
/-
What a round of merging does.
-/
namespace Tokengeex.Spec
variable {F : Type} [ScoreOps F]

/-- Every sample can be encoded, and `idss` are the encodings. -/
def EncodedAs (rnd : Nat → F) (samples : List Str) (vocab : List (ScoredToken F)) (idss : List (List Nat)) : Prop :=
  samples.mapM (fun s => (Model.from_ vocab).encode s ScoreOps.zero rnd) = .ok idss

/-- In every round `listing` returns a value that `pairs` may have after the sort (src/merge.rs:84). -/
def Listings (rnd : Nat → F) (sorter : Sorter ((Nat × Nat) × Nat)) (samples : List Str)
    (listing : Nat → Model F → List ((Nat × Nat) × Nat)) : Prop :=
  ∀ round vocab, (∃ idss, EncodedAs rnd samples vocab idss) →
    Merger.Listing (Model.from_ vocab) rnd sorter samples (listing round (Model.from_ vocab))

/-- `t` is an allowed merge of the pair `p` of vocabulary entries: the concatenation, not too long, matching the pattern,
with the scaled sum of the scores, not protected. -/
def MergeOf [Mul F] (c : Merger F) (vocab : List (ScoredToken F)) (p : Nat × Nat) (t : ScoredToken F) : Prop :=
  ∃ a b, vocab[p.1]? = some a ∧ vocab[p.2]? = some b ∧ t.value = a.value ++ b.value ∧
    t.score = ScoreOps.add a.score b.score * c.scaleFactor ∧ t.keep = false ∧ t.value.length ≤ c.maxTokenLength ∧
    c.allow (lossy t.value) = true

/-- One round: `added` are merges of distinct pairs of neighbours of the encoded samples, the most frequent first, at most
`limit` of them, and a mergeable pair that is left out is not more frequent than those taken, and is left out only because
of the limit. -/
def Round [Mul F] (c : Merger F) (rnd : Nat → F) (samples : List Str) (limit : Nat)
    (vocab added : List (ScoredToken F)) : Prop :=
  ∃ idss pairs, EncodedAs rnd samples vocab idss ∧ List.Forall₂ (MergeOf c vocab) pairs added ∧ pairs.Nodup ∧
    (∀ p ∈ pairs, 0 < pairCount idss p) ∧ pairs.length ≤ limit ∧
    (∀ q t, MergeOf c vocab q t → 0 < pairCount idss q → q ∉ pairs →
      pairs.length = limit ∧ ∀ p ∈ pairs, pairCount idss q ≤ pairCount idss p) ∧
    pairs.Pairwise (fun p q => pairCount idss q ≤ pairCount idss p)

/-- Number of merges a round may make if the vocabulary had `start` entries at first. -/
def roundLimit (c : Merger F) (start : Nat) (vocab : List (ScoredToken F)) : Nat :=
  min c.step (c.numMerges - (vocab.length - start))

/-- `w` results from `v` by rounds of merging. -/
inductive Rounds [Mul F] (c : Merger F) (rnd : Nat → F) (samples : List Str) (start : Nat) :
    List (ScoredToken F) → List (ScoredToken F) → Prop where
  | refl (v : List (ScoredToken F)) : Rounds c rnd samples start v v
  | tail {v w : List (ScoredToken F)} {added : List (ScoredToken F)} : Rounds c rnd samples start v w →
      Round c rnd samples (roundLimit c start w) w added → Rounds c rnd samples start v (w ++ added)

/-- The samples, encoded with `vocab`, contain no mergeable pair. -/
def NoMergeLeft [Mul F] (c : Merger F) (rnd : Nat → F) (samples : List Str) (vocab : List (ScoredToken F)) : Prop :=
  ∃ idss, EncodedAs rnd samples vocab idss ∧ ∀ p t, MergeOf c vocab p t → pairCount idss p = 0

/-- Two pairs of neighbours that may be merged occur equally often only if they are the same. -/
def NoTies [Mul F] (c : Merger F) (rnd : Nat → F) (samples : List Str) (vocab : List (ScoredToken F)) : Prop :=
  ∀ idss, EncodedAs rnd samples vocab idss → ∀ p q t u, MergeOf c vocab p t → MergeOf c vocab q u → 0 < pairCount idss p →
    pairCount idss p = pairCount idss q → p = q

end Tokengeex.Spec

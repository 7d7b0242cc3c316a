import Verif.Model.Sort
import Verif.Model.Model
/-
src/filter.rs
-/
namespace Tokengeex

/-- `VocabularyFilter`, src/filter.rs:3-7. -/
structure VocabularyFilter (F : Type) where
  vocabSize : Nat
  minScore : Option F
  force : Bool

namespace VocabularyFilter
variable {F : Type} [ScoreOps F]

/-- The loop of src/filter.rs:33-44: the kept tokens, given the number of tokens removed so far.  `ninf` is
`f64::NEG_INFINITY`. -/
def filterLoop (f : VocabularyFilter F) (ninf : F) (toRemove : Nat) : Nat → List (ScoredToken F) → List (ScoredToken F)
  | _, [] => []
  | removed, token :: rest =>
    let shouldKeep := decide (removed ≥ toRemove) || (token.keep && !f.force) ||
      ScoreOps.lt (f.minScore.getD ninf) token.score
    if shouldKeep then token :: filterLoop f ninf toRemove removed rest
    else filterLoop f ninf toRemove (removed + 1) rest

/-- `VocabularyFilter::filter`, src/filter.rs:20-49. -/
def filter (f : VocabularyFilter F) (ninf : F) (s : Sorter (ScoredToken F)) (m : Model F) : Res (Model F) := do
  if m.vocabSize ≤ f.vocabSize then pure m
  else do
    let toRemove := m.vocabSize - f.vocabSize
    let vocab ← sortUnwrap s (fun a b => partialCmp a.score b.score) m.vocab
    let newVocab := filterLoop f ninf toRemove 0 vocab
    let newVocab ← sortUnwrap s (fun a b => partialCmp b.score a.score) newVocab
    pure (Model.from_ newVocab)

end VocabularyFilter
end Tokengeex

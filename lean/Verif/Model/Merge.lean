import Verif.Model.Counting
import Verif.Model.Sort
import Verif.Model.Model
/-
src/merge.rs
-/
namespace Tokengeex

/-- `ModelVocabularyMerger`, src/merge.rs:8-14.  The regular expression is an arbitrary predicate on strings. -/
structure Merger (F : Type) where
  allow : Str → Bool
  numMerges : Nat
  step : Nat
  scaleFactor : F
  maxTokenLength : Nat

namespace Merger
variable {F : Type} [ScoreOps F]

/-- The pairs of adjacent ids, src/merge.rs:60-61. -/
def pairsOf (ids : List TokenID) : Res (List (TokenID × TokenID)) :=
  (List.range' 1 (ids.length - 1)).mapM fun i => do
    let a ← idx ids (i - 1)
    let b ← idx ids i
    pure (a, b)

/-- Loop over the samples of a chunk, src/merge.rs:57-66.  `encode(..).unwrap()` panics on an error.  `rnd` is the
random generator, which is not used for a dropout of 0. -/
def countChunk (m : Model F) (rnd : Nat → F) : List Str → FreqTable (TokenID × TokenID) →
    Res (FreqTable (TokenID × TokenID))
  | [], table => .ok table
  | sample :: rest, table =>
    match m.encode sample ScoreOps.zero rnd with
    | .error _ => .error .panic
    | .ok ids => do
      let pairs ← pairsOf ids
      countChunk m rnd rest (pairs.foldl FreqTable.incr table)

/-- A worker of `merge`, src/merge.rs:53-76, that does not panic: its operations on the shared table. -/
def Worker (m : Model F) (rnd : Nat → F) (chunk : List Str) (program : List (Parallel.Op (TokenID × TokenID) Nat)) : Prop :=
  ∃ table entries, countChunk m rnd chunk [] = .ok table ∧ entries.Perm table ∧ program = Parallel.lockedAdds entries

/-- A possible value of `pairs` after src/merge.rs:84, if no worker panics. -/
def Listing (m : Model F) (rnd : Nat → F) (sorter : Sorter ((TokenID × TokenID) × Nat)) (samples : List Str)
    (pairs : List ((TokenID × TokenID) × Nat)) : Prop :=
  ∃ val entries, ParCount (Worker m rnd) samples val ∧ Iteration val entries ∧
    pairs = sorter.run (fun a b => compare b.2 a.2) entries

/-- The token a pair is merged into, src/merge.rs:97-103. -/
def mergedToken [Mul F] (c : Merger F) (a b : ScoredToken F) : ScoredToken F :=
  { value := a.value ++ b.value, score := ScoreOps.add a.score b.score * c.scaleFactor, keep := false }

/-- Loop over the pairs, src/merge.rs:90-126; returns what is left of `merges`.  The set `ignore` only serves logging and
is left out. -/
def mergePairs [Mul F] (c : Merger F) : Nat → Model F → List ((TokenID × TokenID) × Nat) → Res (Nat × Model F)
  | merges, m, [] => .ok (merges, m)
  | merges, m, ((a, b), _) :: rest =>
    if merges = 0 then .ok (merges, m)
    else do
      let a ← idx m.vocab a
      let b ← idx m.vocab b
      let token := c.mergedToken a b
      if decide (token.len > c.maxTokenLength) || !c.allow (lossy token.value) then mergePairs c merges m rest
      else mergePairs c (merges - 1) (m.addTokens [token]) rest

/-- The `while` loop, src/merge.rs:38-135.  `listing r m` is the value of `pairs` in the `r`-th round, `start` is
`start_vocab_size`.  The loop gets fuel. -/
def mergeLoop [Mul F] (c : Merger F) (rnd : Nat → F) (listing : Nat → Model F → List ((TokenID × TokenID) × Nat))
    (samples : List Str) (start : Nat) : Nat → Nat → Model F → Res (Model F)
  | 0, _, _ => .error .diverge
  | fuel + 1, round, m =>
    if m.vocabSize < start + c.numMerges then do
      -- the workers
      let _ ← countChunk m rnd samples []
      let merges := min c.step (c.numMerges - (m.vocabSize - start))
      let r ← mergePairs c merges m (listing round m)
      if r.1 = c.step then .ok r.2 else mergeLoop c rnd listing samples start fuel (round + 1) r.2
    else .ok m

/-- `ModelVocabularyMerger::merge`, src/merge.rs:33-136.  A panic of some worker is the panic of `countChunk` on all
samples: whether some sample cannot be encoded does not depend on the chunks. -/
def merge [Mul F] (c : Merger F) (rnd : Nat → F) (listing : Nat → Model F → List ((TokenID × TokenID) × Nat))
    (samples : List Str) (fuel : Nat) (m : Model F) : Res (Model F) :=
  mergeLoop c rnd listing samples m.vocabSize fuel 0 m

end Merger
end Tokengeex

import Verif.Model.Counting
import Verif.Model.Model
/-
The token frequencies of `ModelVocabularyPruner::prune_vocab`, src/prune.rs:205-246.
-/
namespace Tokengeex.Pruner
variable {F : Type} [ScoreOps F]

/-- `frequencies[id as usize] += 1` for every id, src/prune.rs:223-225. -/
def countIds : List TokenID → List Nat → Res (List Nat)
  | [], freqs => .ok freqs
  | id :: ids, freqs => do
    let old ← idx freqs id
    let freqs ← setIdx freqs id (old + 1)
    countIds ids freqs

/-- Loop over the samples of a chunk, src/prune.rs:217-228.  `map_err` passes on `NoPath` and panics on any other
error. -/
def countChunk (m : Model F) (rnd : Nat → F) : List Str → List Nat → Res (List Nat)
  | [], freqs => .ok freqs
  | sample :: rest, freqs =>
    match m.encode sample ScoreOps.zero rnd with
    | .error (.noPath pos len) => .error (.noPath pos len)
    | .error _ => .error .panic
    | .ok ids => do
      let freqs ← countIds ids freqs
      countChunk m rnd rest freqs

/-- A worker, src/prune.rs:213-241, that returns `Ok`: its operations on the shared vector, whose entry `i` is the value
at key `i`. -/
def CountWorker (m : Model F) (rnd : Nat → F) (chunk : List Str) (program : List (Parallel.Op Nat Nat)) : Prop :=
  ∃ freqs, countChunk m rnd chunk (List.replicate m.vocabSize 0) = .ok freqs ∧
    program = Parallel.lockedAdds (freqs.zipIdx.map fun p => (p.2, p.1))

end Tokengeex.Pruner

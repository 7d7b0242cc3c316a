import Verif.Model.Counting
import Verif.Model.Sort
import Verif.Model.Utf8
/-
src/mine.rs
-/
namespace Tokengeex.Miner

/-- Loop over the samples of a chunk, src/mine.rs:27-34.  `find` is `find_iter` of the pattern: the matched texts, in
order; any function. -/
def countChunk (find : Str → List Str) (chunk : List Str) : FreqTable Str :=
  (chunk.flatMap find).foldl FreqTable.incr []

/-- A worker of `mine`, src/mine.rs:25-39: its operations on the `DashMap`. -/
def Worker (find : Str → List Str) (shard : Str → Nat) (chunk : List Str) (program : List (Parallel.Op Str Nat)) : Prop :=
  ∃ entries, entries.Perm (countChunk find chunk) ∧ program = Parallel.shardedAdds shard entries

/-- A possible result of `IdiomMiner::mine`, src/mine.rs:21-49. -/
def Mine (find : Str → List Str) (shard : Str → Nat) (sorter : Sorter (Str × Nat)) (numIdioms : Nat) (samples : List Str)
    (result : List (Str × Nat)) : Prop :=
  ∃ val entries, ParCount (Worker find shard) samples val ∧ Iteration val entries ∧
    result = (sorter.run (fun a b => compare b.2 a.2) entries).take numIdioms

end Tokengeex.Miner

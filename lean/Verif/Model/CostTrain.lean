import Verif.Model.CostLattice
import Verif.Model.Prune
/-
The E-step of pruning once more, with a counter of elementary steps (see Model/CostLattice.lean).
-/
namespace Tokengeex
namespace Cost
variable {F : Type} [TrainOps F]

/-- Body of the loop over the snippets of a sample, src/prune.rs:83-98: the steps of `populate_nodes` and `populate_marginal`
and one for the check of the result.  Re-initialising the lattice is not counted. -/
def eSnippet (m : Model F) (dropout : F) (rnd : Nat → F) (st : Pruner.EState F) (snippet : List UInt8) : Res (Pruner.EState F) × Nat :=
  andThen (st.lattice.from_ snippet st.pool, 0) fun r =>
  andThen (populateNodes m r.1 dropout (fun i => rnd (st.draws + i))) fun q =>
  andThen (populateMarginal q.1 st.expected) fun e =>
    (if !TrainOps.isNormal e.2 then .error .panic
      else pure { lattice := q.1, pool := r.2, draws := st.draws + q.2, expected := e.1 }, 1)

/-- Loop over the samples of a chunk, src/prune.rs:82-101: one step for each sample. -/
def eChunk (m : Model F) (dropout : F) (rnd : Nat → F) (chunk : List Str) (st : Pruner.EState F) : Res (Pruner.EState F) × Nat :=
  foldCost
    (fun st sample =>
      andThen (.ok (), 1) fun _ => foldCost (eSnippet m dropout rnd) (Parallel.chunks Pruner.maxSampleLength (enc sample)) st)
    chunk st

end Cost
end Tokengeex

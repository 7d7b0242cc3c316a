import Verif.Model.Lattice
/-
`Lattice::populate_marginal` and `log_sum_exp` of src/lattice.rs.
-/
namespace Tokengeex

/-- The further `f64` operations used for training.  As for `ScoreOps`, no laws are assumed; the theorems that need them
use the instance for the real numbers (Spec/Real.lean). -/
class RealOps (F : Type) extends ScoreOps F where
  sub : F → F → F
  mul : F → F → F
  div : F → F → F
  exp : F → F
  ln : F → F
  ofNat : Nat → F

variable {F : Type} [RealOps F]

/-- `log_sum_exp`, src/lattice.rs:321-333. -/
def logSumExp (x y : F) (initMode : Bool) : F :=
  if initMode then y
  else
    let v := if ScoreOps.lt y x then (y, x) else (x, y)
    if ScoreOps.lt (ScoreOps.add v.1 (RealOps.ofNat 50)) v.2 then v.2
    else ScoreOps.add v.2 (RealOps.ln (ScoreOps.add (RealOps.exp (RealOps.sub v.1 v.2)) (RealOps.ofNat 1)))

namespace Lattice

/-- Body of the innermost loops of `populate_marginal`, src/lattice.rs:265-269 (`table` is `alpha`, `target` is `rid`,
`source` is `lid`, `sources` is `end_nodes[pos]`) and 280-284 (`beta`, `lid`, `rid`, `begin_nodes[pos]`). -/
def accSource (nodes : List (LNode F)) (sources : List Nat) (target : Nat) (table : List F) (source : Nat) : Res (List F) := do
  let t ← idx table target
  let s ← idx table source
  let x ← idx nodes source
  let first ← idx sources 0
  setIdx table target (logSumExp t (ScoreOps.add x.score s) (source == first))

/-- The two inner loops of `populate_marginal`, src/lattice.rs:260-271 and 276-286. -/
def accPos (nodes : List (LNode F)) (targets sources : List Nat) (table : List F) : Res (List F) :=
  targets.foldlM (fun table target => sources.foldlM (accSource nodes sources target) table) table

/-- Forward probabilities, src/lattice.rs:255 and 259-272. -/
def forwardTable (l : Lattice F) : Res (List F) :=
  (List.range (l.sentence.length + 1)).foldlM
    (fun table pos => do
      let b ← idx l.beginNodes pos
      let e ← idx l.endNodes pos
      accPos l.nodes b e table)
    (List.replicate l.nodes.length ScoreOps.zero)

/-- Backward probabilities, src/lattice.rs:256 and 275-287. -/
def backwardTable (l : Lattice F) : Res (List F) :=
  (List.range (l.sentence.length + 1)).reverse.foldlM
    (fun table pos => do
      let b ← idx l.beginNodes pos
      let e ← idx l.endNodes pos
      accPos l.nodes e b table)
    (List.replicate l.nodes.length ScoreOps.zero)

/-- Body of the last loop of `populate_marginal`, src/lattice.rs:297-307. -/
def addMarginal (nodes : List (LNode F)) (alpha beta : List F) (z : F) (expected : List F) (nodeIdx : Nat) : Res (List F) := do
  let x ← idx nodes nodeIdx
  let a ← idx alpha nodeIdx
  let b ← idx beta nodeIdx
  let total := RealOps.sub (ScoreOps.add (ScoreOps.add a x.score) b) z
  let old ← idx expected x.tokenId
  setIdx expected x.tokenId (ScoreOps.add old (RealOps.exp total))

/-- `Lattice::populate_marginal`, src/lattice.rs:245-312: the updated `expected` and the returned constant. -/
def populateMarginal (l : Lattice F) (expected : List F) : Res (List F × F) := do
  let alpha ← forwardTable l
  let beta ← backwardTable l
  let z ← idx alpha l.eosIdx
  let expected ← (List.range l.sentence.length).foldlM
    (fun expected pos => do
      let b ← idx l.beginNodes pos
      b.foldlM (addMarginal l.nodes alpha beta z) expected)
    expected
  pure (expected, z)

end Lattice
end Tokengeex

import Verif.Model.Cost
import Verif.Model.Marginal
/-
The loops of src/lattice.rs and of `Model::populate_nodes` once more, with a counter of elementary steps: bytes read from an
iterator, candidates, positions and nodes visited, pairs of nodes looked at, entries of tables initialised.
`Props/CostLattice.lean` proves that the results are those of the functions without the counter, and bounds the counter.
-/
namespace Tokengeex
namespace Cost

/-- One computation after another; the steps add up, and an error stops (the control flow of `?` and of panics). -/
def andThen {α β : Type} (x : Res α × Nat) (f : α → Res β × Nat) : Res β × Nat :=
  match x.1 with
  | .error e => (.error e, x.2)
  | .ok a => ((f a).1, x.2 + (f a).2)

/-- A `for` loop that updates a state. -/
def foldCost {α σ : Type} (f : σ → α → Res σ × Nat) : List α → σ → Res σ × Nat
  | [], s => (.ok s, 0)
  | a :: more, s => andThen (f s a) (foldCost f more)

section
variable {F : Type} [ScoreOps F]

/-- `Model::populate_nodes`, src/model.rs:34-55: one step for each position, each byte read by the search and each
candidate. -/
def populateNodes (m : Model F) (lattice : Lattice F) (dropout : F) (rnd : Nat → F) : Res (Lattice F × Nat) × Nat :=
  foldCost
    (fun st pos =>
      let suffix := lattice.sentence.drop pos
      andThen (.ok (), 1 + drainTicks (suffix.length + 1) ⟨m.trie, [], suffix⟩) fun _ =>
        foldCost (fun st c => (m.populateNode dropout rnd pos st c, 1)) (m.commonPrefixSearch suffix) st)
    (List.range lattice.sentence.length) (lattice, 0)

/-- The loop over `end_nodes[pos]` in `viterbi`, src/lattice.rs:119-129: one step for each node. -/
def bestPrev (nodes : List (LNode F)) (rscore : F) : List Nat → Option Nat × F → Res (Option Nat × F) × Nat
  | [], st => (.ok st, 0)
  | lnode :: rest, st =>
    andThen (idx nodes lnode, 1) fun ln =>
      let score := ScoreOps.add ln.backtrack rscore
      if st.1.isNone || ScoreOps.lt st.2 score then bestPrev nodes rscore rest (some lnode, score)
      else bestPrev nodes rscore rest st

/-- The loop over `begin_nodes[pos]`, src/lattice.rs:116-137: one step for each node, and those of the inner loop. -/
def viterbiNodes (ends : List Nat) : List Nat → List (LNode F) → Res (List (LNode F) × Bool) × Nat
  | [], nodes => (.ok (nodes, true), 0)
  | r :: rest, nodes =>
    andThen (idx nodes r, 1) fun rn =>
    andThen (setIdx nodes r { rn with prev := none }, 0) fun nodes =>
    andThen (bestPrev nodes rn.score ends (none, ScoreOps.zero)) fun best =>
      match best.1 with
      | none => (.ok (nodes, false), 0)
      | some b =>
        andThen (setIdx nodes r { rn with prev := some b, backtrack := best.2 }, 0) fun nodes => viterbiNodes ends rest nodes

/-- The loop over the positions, src/lattice.rs:115-138: one step for each. -/
def viterbiLoop (l : Lattice F) : List Nat → List (LNode F) → Res (List (LNode F) × Bool) × Nat
  | [], nodes => (.ok (nodes, true), 0)
  | pos :: rest, nodes =>
    andThen (idx l.beginNodes pos, 1) fun begins =>
    andThen (idx l.endNodes pos, 0) fun ends =>
    andThen (viterbiNodes ends begins nodes) fun r => if r.2 then viterbiLoop l rest r.1 else (.ok r, 0)

omit [ScoreOps F] in
/-- The backtracking loop of `viterbi`, src/lattice.rs:142-148: two steps for each node, one of them for the reversal. -/
def backtrackNodes (nodes : List (LNode F)) : Nat → Nat → List (LNode F) → Res (List (LNode F)) × Nat
  | 0, _, _ => (.error .diverge, 0)
  | fuel + 1, i, acc =>
    andThen (idx nodes i, 2) fun node =>
      match node.prev with
      | none => (.ok acc, 0)
      | some p => backtrackNodes nodes fuel p (node :: acc)

/-- `Lattice::viterbi`, src/lattice.rs:112-150. -/
def viterbi (l : Lattice F) : Res (Lattice F × List (LNode F)) × Nat :=
  andThen (viterbiLoop l (List.range (l.sentence.length + 1)) l.nodes) fun r =>
    let l' := { l with nodes := r.1 }
    if r.2 then
      andThen (idx l.beginNodes l.sentence.length, 1) fun last =>
      andThen (idx last 0, 0) fun eos =>
      andThen (backtrackNodes r.1 (l.sentence.length + r.1.length + 2) eos []) fun path => (.ok (l', path), 0)
    else (.ok (l', []), 0)

end

section
variable {F : Type} [RealOps F]

/-- The two inner loops of `populate_marginal`, src/lattice.rs:260-271 and 276-286: one step for each target and one for
each pair of a target and a source. -/
def accPos (nodes : List (LNode F)) (targets sources : List Nat) (table : List F) : Res (List F) × Nat :=
  foldCost
    (fun table target =>
      andThen (.ok (), 1) fun _ =>
        foldCost (fun table source => (Lattice.accSource nodes sources target table source, 1)) sources table)
    targets table

/-- Forward probabilities, src/lattice.rs:255 and 259-272: one step for each entry of the new table and for each position. -/
def forwardTable (l : Lattice F) : Res (List F) × Nat :=
  andThen (.ok (), l.nodes.length) fun _ =>
    foldCost
      (fun table pos =>
        andThen (idx l.beginNodes pos, 1) fun b =>
        andThen (idx l.endNodes pos, 0) fun e => accPos l.nodes b e table)
      (List.range (l.sentence.length + 1)) (List.replicate l.nodes.length ScoreOps.zero)

/-- Backward probabilities, src/lattice.rs:256 and 275-287. -/
def backwardTable (l : Lattice F) : Res (List F) × Nat :=
  andThen (.ok (), l.nodes.length) fun _ =>
    foldCost
      (fun table pos =>
        andThen (idx l.beginNodes pos, 1) fun b =>
        andThen (idx l.endNodes pos, 0) fun e => accPos l.nodes e b table)
      (List.range (l.sentence.length + 1)).reverse (List.replicate l.nodes.length ScoreOps.zero)

/-- `Lattice::populate_marginal`, src/lattice.rs:245-312. -/
def populateMarginal (l : Lattice F) (expected : List F) : Res (List F × F) × Nat :=
  andThen (forwardTable l) fun alpha =>
  andThen (backwardTable l) fun beta =>
  andThen (idx alpha l.eosIdx, 1) fun z =>
  andThen
    (foldCost
      (fun expected pos =>
        andThen (idx l.beginNodes pos, 1) fun b =>
          foldCost (fun expected i => (Lattice.addMarginal l.nodes alpha beta z expected i, 1)) b expected)
      (List.range l.sentence.length) expected) fun expected => (.ok (expected, z), 0)

end
end Cost
end Tokengeex

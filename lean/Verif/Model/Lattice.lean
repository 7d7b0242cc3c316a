import Verif.Model.Model
/-
src/lattice.rs (`nbest` is in Model/NBest.lean, `populate_marginal` in Model/Marginal.lean) and
`Model::populate_nodes` of src/model.rs.
-/
namespace Tokengeex

/-- `Node`, src/lattice.rs:13-26. -/
structure LNode (F : Type) where
  pos : Nat
  tokenId : TokenID
  tokenLen : Nat
  score : F
  prev : Option Nat
  backtrack : F
  deriving DecidableEq, Repr

/-- `Node::new`, src/lattice.rs:35-44. -/
def LNode.new {F : Type} [ScoreOps F] (pos : Nat) (tokenId : TokenID) (tokenLen : Nat) (score : F) : LNode F :=
  { pos := pos, tokenId := tokenId, tokenLen := tokenLen, score := score, prev := none, backtrack := ScoreOps.zero }

/-- `TokenID::MAX` (`u32::MAX`). -/
def tokenIdMax : Nat := 4294967295

/-- `VecPool`, src/lattice.rs:380-383. Capacities are not modelled. -/
structure VecPool where
  pool : List (List Nat)
  deriving DecidableEq, Repr

namespace VecPool

/-- `VecPool::with_capacity`, src/lattice.rs:386-390. `a = 0` is `VecPool::default()`. -/
def withCapacity (a : Nat) : VecPool := { pool := List.replicate a [] }

/-- `VecPool::get`, src/lattice.rs:392-394 (`pop` takes the last element). -/
def get (p : VecPool) : List Nat × VecPool :=
  match p.pool.getLast? with
  | some v => (v, { pool := p.pool.dropLast })
  | none => ([], p)

/-- `VecPool::put`, src/lattice.rs:397-400: the vector is cleared, then pushed. -/
def put (p : VecPool) (_vec : List Nat) : VecPool := { pool := p.pool ++ [[]] }

/-- `n` calls of `get`, collected in order (`resize_with(n, || vec_pool.get())` on an empty vector). -/
def getMany : Nat → VecPool → List (List Nat) × VecPool
  | 0, p => ([], p)
  | n + 1, p =>
    let r := p.get
    let r' := getMany n r.2
    (r.1 :: r'.1, r'.2)

end VecPool

/-- `Lattice`, src/lattice.rs:50-64. -/
structure Lattice (F : Type) where
  sentence : List UInt8
  beginNodes : List (List Nat)
  endNodes : List (List Nat)
  nodes : List (LNode F)
  bosIdx : Nat
  eosIdx : Nat
  deriving DecidableEq, Repr

/-- `v[i].push(x)`: panics out of bounds. -/
def pushAt (l : List (List Nat)) (i x : Nat) : Res (List (List Nat)) := do
  let v ← idx l i
  setIdx l i (v ++ [x])

namespace Lattice
variable {F : Type}

/-- `Lattice::new`, src/lattice.rs:67-76. -/
def new : Lattice F := { sentence := [], beginNodes := [], endNodes := [], nodes := [], bosIdx := 0, eosIdx := 0 }

/-- `Lattice::from`, src/lattice.rs:78-103. -/
def from_ [ScoreOps F] (l : Lattice F) (sentence : List UInt8) (pool : VecPool) : Res (Lattice F × VecPool) := do
  let pool := l.beginNodes.foldl VecPool.put pool
  let pool := l.endNodes.foldl VecPool.put pool
  let b := VecPool.getMany (sentence.length + 1) pool
  let e := VecPool.getMany (sentence.length + 1) b.2
  let nodes := [LNode.new 0 (tokenIdMax - 1) 0 ScoreOps.zero, LNode.new sentence.length tokenIdMax 0 ScoreOps.zero]
  let endNodes ← pushAt e.1 0 0
  let beginNodes ← pushAt b.1 sentence.length 1
  pure ({ sentence := sentence, beginNodes := beginNodes, endNodes := endNodes, nodes := nodes, bosIdx := 0, eosIdx := 1 },
    e.2)

/-- `Lattice::insert`, src/lattice.rs:105-110. -/
def insert [ScoreOps F] (l : Lattice F) (pos : Nat) (tokenId : TokenID) (tokenLen : Nat) (score : F) : Res (Lattice F) := do
  let nodeIdx := l.nodes.length
  let beginNodes ← pushAt l.beginNodes pos nodeIdx
  let endNodes ← pushAt l.endNodes (pos + tokenLen) nodeIdx
  pure { l with beginNodes := beginNodes, endNodes := endNodes, nodes := l.nodes ++ [LNode.new pos tokenId tokenLen score] }

variable [ScoreOps F]

/-- The loop over `end_nodes[pos]` in `viterbi`, src/lattice.rs:119-129: `(best_node, best_score)`. -/
def bestPrev (nodes : List (LNode F)) (rscore : F) : List Nat → Option Nat × F → Res (Option Nat × F)
  | [], st => .ok st
  | lnode :: rest, st => do
    let ln ← idx nodes lnode
    let score := ScoreOps.add ln.backtrack rscore
    if st.1.isNone || ScoreOps.lt st.2 score then bestPrev nodes rscore rest (some lnode, score)
    else bestPrev nodes rscore rest st

/-- The loop over `begin_nodes[pos]`, src/lattice.rs:116-137. The flag is false if `viterbi` returns early
(`return vec![]`, line 132). -/
def viterbiNodes (ends : List Nat) : List Nat → List (LNode F) → Res (List (LNode F) × Bool)
  | [], nodes => .ok (nodes, true)
  | r :: rest, nodes => do
    let rn ← idx nodes r
    let nodes ← setIdx nodes r { rn with prev := none }
    let best ← bestPrev nodes rn.score ends (none, ScoreOps.zero)
    match best.1 with
    | none => .ok (nodes, false)
    | some b => do
      let nodes ← setIdx nodes r { rn with prev := some b, backtrack := best.2 }
      viterbiNodes ends rest nodes

/-- The loop over the positions, src/lattice.rs:115-138. -/
def viterbiLoop (l : Lattice F) : List Nat → List (LNode F) → Res (List (LNode F) × Bool)
  | [], nodes => .ok (nodes, true)
  | pos :: rest, nodes => do
    let begins ← idx l.beginNodes pos
    let ends ← idx l.endNodes pos
    let r ← viterbiNodes ends begins nodes
    if r.2 then viterbiLoop l rest r.1 else .ok r

/-- The backtracking loop of `viterbi`, src/lattice.rs:142-148 (the result is in the final order). -/
def backtrackNodes (nodes : List (LNode F)) : Nat → Nat → List (LNode F) → Res (List (LNode F))
  | 0, _, _ => .error .diverge
  | fuel + 1, i, acc => do
    let node ← idx nodes i
    match node.prev with
    | none => .ok acc
    | some p => backtrackNodes nodes fuel p (node :: acc)

/-- `Lattice::viterbi`, src/lattice.rs:112-150: the updated lattice and the path. The fuel of the backtracking loop
exceeds the number of nodes, so it is only exhausted by a cycle of `prev` pointers. -/
def viterbi (l : Lattice F) : Res (Lattice F × List (LNode F)) := do
  let r ← viterbiLoop l (List.range (l.sentence.length + 1)) l.nodes
  let l' := { l with nodes := r.1 }
  if r.2 then do
    let last ← idx l.beginNodes l.sentence.length
    let eos ← idx last 0
    let path ← backtrackNodes r.1 (l.sentence.length + r.1.length + 2) eos []
    pure (l', path)
  else pure (l', [])

end Lattice

namespace Model
variable {F : Type} [ScoreOps F]

/-- The test `len > 1 && dropout > 0.0 && rand::random::<f64>() < dropout` of src/model.rs:48 (true: skip the node),
with the number of draws. -/
def skipNode (dropout : F) (rnd : Nat → F) (len k : Nat) : Bool × Nat :=
  if decide (len > 1) && ScoreOps.lt ScoreOps.zero dropout then (ScoreOps.lt (rnd k) dropout, k + 1) else (false, k)

/-- Body of the inner loop of `populate_nodes`, src/model.rs:46-52. -/
def populateNode (m : Model F) (dropout : F) (rnd : Nat → F) (pos : Nat) (st : Lattice F × Nat) (c : TokenID × Nat) :
    Res (Lattice F × Nat) := do
  let tok ← idx m.vocab c.1
  let s := skipNode dropout rnd c.2 st.2
  if s.1 then pure (st.1, s.2)
  else do
    let l ← st.1.insert pos c.1 c.2 tok.score
    pure (l, s.2)

/-- `Model::populate_nodes`, src/model.rs:34-55, with the number of random draws. -/
def populateNodes (m : Model F) (lattice : Lattice F) (dropout : F) (rnd : Nat → F) : Res (Lattice F × Nat) :=
  (List.range lattice.sentence.length).foldlM
    (fun st pos => (m.commonPrefixSearch (lattice.sentence.drop pos)).foldlM (populateNode m dropout rnd pos) st)
    (lattice, 0)

end Model
end Tokengeex

import Verif.Model.Lattice
/-
`Lattice::nbest` of src/lattice.rs.
-/
namespace Tokengeex

/-- `Hypothesis`, src/lattice.rs:338-343.  The chain of `Rc` pointers `next` is the list of the node indices it reaches
(`None` is the empty list): hypotheses are never modified after they are created. -/
structure Hypo (F : Type) where
  node : Nat
  next : List Nat
  fx : F
  gx : F
  deriving DecidableEq, Repr

/-- `BinaryHeap<Hypothesis>` (type `Agenda`, src/lattice.rs:336), a standard library type: a state is the list of the
elements in their internal order; `push` and `pop` are arbitrary here, what is assumed about them is
`Spec.HeapLaws` / `Spec.HeapMax`. -/
structure Heap (F : Type) where
  push : List (Hypo F) → Hypo F → List (Hypo F)
  pop : List (Hypo F) → Option (Hypo F × List (Hypo F))

namespace Lattice
variable {F : Type} [ScoreOps F]

/-- The loop over `end_nodes[node_pos]`, src/lattice.rs:209-215. -/
def expand (heap : Heap F) (nodes : List (LNode F)) (top : Hypo F) : List Nat → List (Hypo F) → Res (List (Hypo F))
  | [], agenda => .ok agenda
  | lnode :: rest, agenda => do
    let x ← idx nodes lnode
    let fx := ScoreOps.add x.backtrack top.gx
    let gx := ScoreOps.add x.score top.gx
    expand heap nodes top rest (heap.push agenda { node := lnode, next := top.node :: top.next, fx := fx, gx := gx })

/-- The loop that shrinks the agenda, src/lattice.rs:222-227. -/
def shrink (heap : Heap F) : Nat → List (Hypo F) → List (Hypo F) → Res (List (Hypo F))
  | 0, _, new => .ok new
  | k + 1, old, new =>
    match heap.pop old with
    | none => .error .panic
    | some (h, old') => shrink heap k old' (heap.push new h)

/-- `k_max_agenda_size` and `k_min_agenda_size`, src/lattice.rs:219-220. -/
def maxAgenda : Nat := 100000
def minAgenda : Nat := 512

/-- Lines 209-228 of src/lattice.rs: expand a hypothesis, then shrink the agenda if it has become too big. -/
def expandShrink (heap : Heap F) (l : Lattice F) (n : Nat) (top : Hypo F) (pos : Nat) (agenda : List (Hypo F)) :
    Res (List (Hypo F)) := do
  let ends ← idx l.endNodes pos
  let agenda ← expand heap l.nodes top ends agenda
  if agenda.length > maxAgenda then shrink heap (min minAgenda (n * 10)) agenda [] else pure agenda

/-- The main loop of `nbest`, src/lattice.rs:180-230; `found` is `hypotheses`.  The result is the list of index lists to
be turned into nodes (lines 203-206 and 232-235 do the same). -/
def nbestLoop (heap : Heap F) (l : Lattice F) (n : Nat) : Nat → List (Hypo F) → List (List Nat) → Res (List (List Nat))
  | 0, _, _ => .error .diverge
  | fuel + 1, agenda, found =>
    match heap.pop agenda with
    | none => .ok found
    | some (top, agenda) => do
      let x ← idx l.nodes top.node
      let bos ← idx l.nodes l.bosIdx
      if x.tokenId = bos.tokenId then
        match top.next with
        | [] => .error .panic
        | k :: ks =>
          let found := found ++ [(k :: ks).dropLast]
          if found.length = n then .ok found else nbestLoop heap l n fuel agenda found
      else do
        let agenda ← expandShrink heap l n top x.pos agenda
        nbestLoop heap l n fuel agenda found

/-- `Lattice::nbest`, src/lattice.rs:152-238. -/
def nbest (heap : Heap F) (l : Lattice F) (n fuel : Nat) : Res (Lattice F × List (List (LNode F))) :=
  match n with
  | 0 => .ok (l, [])
  | 1 => do
    let r ← l.viterbi
    pure (r.1, [r.2])
  | n => do
    let eos ← idx l.nodes 1
    let hypo : Hypo F := { node := 1, next := [], fx := eos.score, gx := eos.score }
    let agenda := heap.push [] hypo
    let r ← l.viterbi
    let l := r.1
    let found ← nbestLoop heap l n fuel agenda []
    let results ← found.mapM (fun indices => indices.mapM (idx l.nodes))
    pure (l, results)

end Lattice
end Tokengeex

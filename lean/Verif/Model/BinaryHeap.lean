import Verif.Model.NBest
/-
`std::collections::BinaryHeap` (Rust std), recalled from its published source, and the order of `Hypothesis`
(src/lattice.rs:357-379) with which `nbest` uses it.  The `Hole` that the code moves through the vector is written as
exchanges of two elements: the vector is the same once the hole is filled.
-/
namespace Tokengeex

/-- `Hypothesis::cmp`, src/lattice.rs:371-379.  It never answers `Equal`: of two hypotheses with the same `fx`, each is
`Greater` than the other, which breaks the contract of `Ord`. -/
def Hypo.cmp {F : Type} [ScoreOps F] (a b : Hypo F) : Ordering :=
  if ScoreOps.lt a.fx b.fx then .lt else .gt

/-- `a <= b`: `PartialOrd::le` (Rust std) with `partial_cmp` of src/lattice.rs:365-369. -/
def Hypo.le {F : Type} [ScoreOps F] (a b : Hypo F) : Bool :=
  match a.cmp b with
  | .lt | .eq => true
  | .gt => false

namespace BinaryHeap
variable {α : Type}

/-- Exchange of the elements at `i` and `j`. -/
def swap (data : List α) (i j : Nat) : List α :=
  match data[i]?, data[j]? with
  | some x, some y => (data.set i y).set j x
  | _, _ => data

/-- `sift_up(0, pos)` (Rust std).  `fuel` bounds the iterations; `pos` of them are enough. -/
def siftUp (le : α → α → Bool) : Nat → List α → Nat → List α
  | 0, data, _ => data
  | fuel + 1, data, pos =>
    if pos > 0 then
      let parent := (pos - 1) / 2
      match data[pos]?, data[parent]? with
      | some x, some y => if le x y then data else siftUp le fuel (swap data pos parent) parent
      | _, _ => data
    else data

/-- The loop of `sift_down_to_bottom(0)` (Rust std) from position `pos` on, up to the call of `sift_up`: the vector and the
position of the hole. -/
def siftDown (le : α → α → Bool) : Nat → List α → Nat → List α × Nat
  | 0, data, pos => (data, pos)
  | fuel + 1, data, pos =>
    let «end» := data.length
    let child := 2 * pos + 1
    if child ≤ «end» - 2 then
      match data[child]?, data[child + 1]? with
      | some l, some r =>
        let child := if le l r then child + 1 else child
        siftDown le fuel (swap data pos child) child
      | _, _ => (data, pos)
    else if child = «end» - 1 then (swap data pos child, child)
    else (data, pos)

/-- `push` (Rust std). -/
def push (le : α → α → Bool) (data : List α) (item : α) : List α :=
  siftUp le data.length (data ++ [item]) data.length

/-- `pop` (Rust std): the last element takes the place of the first, is moved to the bottom and then up again. -/
def pop (le : α → α → Bool) (data : List α) : Option (α × List α) :=
  match data.getLast? with
  | none => none
  | some item =>
    match data.dropLast with
    | [] => some (item, [])
    | first :: rest =>
      let (down, pos) := siftDown le (rest.length + 1) (item :: rest) 0
      some (first, siftUp le pos down pos)

end BinaryHeap

/-- The agenda of `nbest`: `BinaryHeap<Hypothesis>` (type `Agenda`, src/lattice.rs:336). -/
def agendaHeap (F : Type) [ScoreOps F] : Heap F where
  push := BinaryHeap.push Hypo.le
  pop := BinaryHeap.pop Hypo.le

end Tokengeex

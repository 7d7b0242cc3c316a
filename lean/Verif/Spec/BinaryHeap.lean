import Verif.Spec.NBest
/-
Histories of a priority queue.
-/
namespace Tokengeex.Spec
variable {F : Type}

open Classical in
/-- `state` is the internal state of a queue after some history of `push` and `pop` calls on a new queue, and `bag` is what was
pushed and not popped in that history. -/
inductive QueueHistory (heap : Heap F) : List (Hypo F) → List (Hypo F) → Prop
  | new : QueueHistory heap [] []
  | push {state bag : List (Hypo F)} (h : Hypo F) : QueueHistory heap state bag →
      QueueHistory heap (heap.push state h) (h :: bag)
  | pop {state bag state' : List (Hypo F)} {h : Hypo F} : QueueHistory heap state bag → heap.pop state = some (h, state') →
      QueueHistory heap state' (bag.erase h)

end Tokengeex.Spec

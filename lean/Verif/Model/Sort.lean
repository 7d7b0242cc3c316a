import Verif.Model.Basic
/-
Sorting with the standard library, as the training code uses it.
-/
namespace Tokengeex
variable {F : Type} {α : Type}

/-- `f64::partial_cmp` (Rust std), in terms of `<=`; `none` for NaN operands. -/
def partialCmp [ScoreOps F] (a b : F) : Option Ordering :=
  match ScoreOps.le a b, ScoreOps.le b a with
  | true, true => some .eq
  | true, false => some .lt
  | false, true => some .gt
  | false, false => none

/-- An implementation of `slice::sort_unstable_by` (Rust std).  Unstable sorting leaves the order of equal elements
open, so the sorting function is a parameter; what is assumed about it is `Spec.SortLaws`. -/
structure Sorter (α : Type) where
  run : (α → α → Ordering) → List α → List α

/-- All pairs of elements at different places are comparable. -/
def allComparable (cmp : α → α → Option Ordering) : List α → Bool
  | [] => true
  | a :: l => l.all (fun b => (cmp a b).isSome && (cmp b a).isSome) && allComparable cmp l

/-- `sort_unstable_by(|a, b| cmp(a, b).unwrap())`: every element of a list of at least two elements is compared with
another one, so an incomparable pair (a NaN) panics. -/
def sortUnwrap (s : Sorter α) (cmp : α → α → Option Ordering) (l : List α) : Res (List α) :=
  if allComparable cmp l then .ok (s.run (fun a b => (cmp a b).getD .eq) l) else .error .panic

end Tokengeex

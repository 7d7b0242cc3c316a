import Mathlib.Data.Real.Basic
import Mathlib.Data.Finset.Card
import Verif.Model.NBest
import Verif.Spec.Lattice
/-
What `nbest` relies on and what "the n best segmentations" means.
-/
namespace Tokengeex.Spec
variable {F : Type}

/-- A priority queue neither loses nor invents elements.  `ok` is the set of its possible states. -/
structure HeapLaws (heap : Heap F) (ok : List (Hypo F) → Prop) : Prop where
  nil : ok []
  push : ∀ {l h}, ok l → ok (heap.push l h) ∧ (heap.push l h).Perm (h :: l)
  pop_none : ∀ {l}, ok l → heap.pop l = none → l = []
  pop_some : ∀ {l h l'}, ok l → heap.pop l = some (h, l') → ok l' ∧ l.Perm (h :: l')

/-- `pop` returns an element with the largest `fx`. -/
def HeapMax [ScoreOps F] (heap : Heap F) (ok : List (Hypo F) → Prop) : Prop :=
  ∀ {l h l'}, ok l → heap.pop l = some (h, l') → ∀ x ∈ l, ScoreOps.lt h.fx x.fx = false

/-- Exact arithmetic: scores are (isomorphic to) real numbers with exact addition and comparison. -/
structure ExactArith (F : Type) [ScoreOps F] where
  val : F → ℝ
  zero : val ScoreOps.zero = 0
  add : ∀ a b, val (ScoreOps.add a b) = val a + val b
  lt : ∀ a b, ScoreOps.lt a b = true ↔ val a < val b

/-- `results` are the nodes of the segmentations `paths`. -/
def AreResults (results : List (List (LNode F))) (paths : List (List (Entry F))) : Prop :=
  results.map (fun r => r.map nodeEntry) = paths

/-- The scores do not increase along the list. -/
def NonIncreasing [ScoreOps F] (paths : List (List (Entry F))) : Prop :=
  paths.Pairwise (fun a b => ScoreOps.lt (entriesScore a) (entriesScore b) = false)

/-- The lattice has at most `k` final parts of segmentations: token sequences from any position to the end. -/
def FewEndings (n : Nat) (es : List (Entry F)) (k : Nat) : Prop :=
  ∃ all : Finset (List (Entry F)), (∀ s, (∀ e ∈ s, e ∈ es) → (∃ p, Contiguous p s n) → s ∈ all) ∧ all.card ≤ k

end Tokengeex.Spec

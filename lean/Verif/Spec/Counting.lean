import Verif.Model.Utf8
/-
Counting, sequentially.
-/
namespace Tokengeex.Spec

/-- The pairs of neighbours in a list. -/
def adjacent {α : Type} (l : List α) : List (α × α) := l.zip l.tail

/-- Number of times the neighbours `p` occur, over all segmented samples. -/
def pairCount (idss : List (List Nat)) (p : Nat × Nat) : Nat := (idss.map fun ids => (adjacent ids).count p).sum

/-- Number of times the token `i` occurs, over all segmented samples. -/
def tokenCount (idss : List (List Nat)) (i : Nat) : Nat := (idss.map fun ids => ids.count i).sum

/-- Number of matches with the text `t` over all samples. -/
def matchCount (find : Str → List Str) (samples : List Str) (t : Str) : Nat :=
  (samples.map fun s => (find s).count t).sum

end Tokengeex.Spec

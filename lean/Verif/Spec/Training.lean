import Verif.Model.Filter
import Verif.Spec.Segmentation
/-
What the training steps assume and promise.
-/
namespace Tokengeex.Spec
variable {F : Type} {α : Type}

/-- `<=` is a total preorder on the values `good` (all `f64` but NaN), and `<` is its strict part. -/
structure OrderLaws (F : Type) [ScoreOps F] (good : F → Prop) : Prop where
  total : ∀ {a b : F}, good a → good b → ScoreOps.le a b = true ∨ ScoreOps.le b a = true
  trans : ∀ {a b c : F}, good a → good b → good c → ScoreOps.le a b = true → ScoreOps.le b c = true → ScoreOps.le a c = true
  lt_eq : ∀ {a b : F}, good a → good b → ScoreOps.lt a b = !ScoreOps.le b a

/-- A sorting function permutes its input, and the result is sorted if the comparison is a total preorder on the
elements. -/
def SortLaws (s : Sorter α) : Prop :=
  ∀ (cmp : α → α → Ordering) (l : List α), (s.run cmp l).Perm l ∧
    ((∀ a ∈ l, ∀ b ∈ l, cmp a b ≠ .gt ∨ cmp b a ≠ .gt) →
     (∀ a ∈ l, ∀ b ∈ l, ∀ c ∈ l, cmp a b ≠ .gt → cmp b c ≠ .gt → cmp a c ≠ .gt) →
     (s.run cmp l).Pairwise (fun a b => cmp a b ≠ .gt))

/-- Highest score first. -/
def ScoreSorted [ScoreOps F] (vocab : List (ScoredToken F)) : Prop :=
  vocab.Pairwise (fun a b => ScoreOps.lt a.score b.score = false)

/-- A token the filter may remove: it is not a protected token, and its score is not above the threshold. -/
def Removable [ScoreOps F] (f : VocabularyFilter F) (ninf : F) (t : ScoredToken F) : Prop :=
  (t.keep = true → f.force = true) ∧ ScoreOps.lt (f.minScore.getD ninf) t.score = false

end Tokengeex.Spec

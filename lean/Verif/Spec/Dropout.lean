import Verif.Spec.Chance
import Verif.Spec.Lattice
/-
What dropout promises.
-/
namespace Tokengeex.Spec
variable {F : Type}

/-- The bytes from `i` to `j` are a vocabulary token. -/
def Occurs (vocab : List (ScoredToken F)) (bs : List UInt8) (i j : Nat) : Prop :=
  i < j ∧ j ≤ bs.length ∧ ∃ t ∈ vocab, t.value = (bs.drop i).take (j - i)

/-- Laid out from position `pos` on, none of the tokens covers a struck pair of positions. -/
def Avoids (vocab : List (ScoredToken F)) (struck : Nat → Nat → Prop) : Nat → List Nat → Prop
  | _, [] => True
  | pos, id :: ids => ¬ struck pos (pos + lenOf vocab id) ∧ Avoids vocab struck (pos + lenOf vocab id) ids

/-- `ids` cuts the bytes into non-empty tokens at places that are not struck. -/
def CutsWithout (vocab : List (ScoredToken F)) (struck : Nat → Nat → Prop) (bs : List UInt8) (ids : List Nat) : Prop :=
  Spells vocab ids bs ∧ Canonical vocab ids ∧ Avoids vocab struck 0 ids

/-- The result is a best segmentation among those that use no struck place, or an error because there is none. -/
def BestWithout [ScoreOps F] (vocab : List (ScoredToken F)) (struck : Nat → Nat → Prop) (bs : List UInt8) : Res (List Nat) → Prop
  | .ok ids => CutsWithout vocab struck bs ids ∧
      ∀ other, CutsWithout vocab struck bs other → ScoreOps.lt (totalScore vocab ids) (totalScore vocab other) = false
  | .error e => e = .noPath bs.length bs.length ∧ ¬ ∃ ids, CutsWithout vocab struck bs ids

/-- The members of a list for which the coins show `true`. -/
def Chosen (l : List (Nat × Nat)) (c : Nat → Bool) (i j : Nat) : Prop := ∃ k, l[k]? = some (i, j) ∧ c k = true

end Tokengeex.Spec

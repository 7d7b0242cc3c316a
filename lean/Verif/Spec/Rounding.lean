import Mathlib.Data.Real.Basic
import Verif.Spec.Float64
import Verif.Spec.Lattice
import Verif.Spec.Segmentation
/-
The real number a double stands for, and scores added up without rounding.
-/
namespace Tokengeex.Spec

/-- The real number a finite double stands for; nothing is asked of the others. -/
noncomputable def real : F64 → ℝ
  | .num neg n => (if neg then -(n : ℝ) else n) * (1 / 2) ^ 1074
  | _ => 0

/-- The score of a segmentation, added up exactly. -/
noncomputable def exactScore (path : List (Entry F64)) : ℝ := (path.map fun e => real e.score).sum

/-- The score of a sequence of ids, added up exactly. -/
noncomputable def exactTotal (vocab : List (ScoredToken F64)) (ids : List Nat) : ℝ := (ids.map fun i => real (scoreOf vocab i)).sum

end Tokengeex.Spec

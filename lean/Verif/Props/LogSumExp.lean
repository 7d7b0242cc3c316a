import Verif.Proofs.LogSumExp
/-
C37: accuracy of `log_sum_exp`.
-/
namespace Tokengeex

/-- **C37** Over the real numbers, `log_sum_exp(x, y)` lies between `max x y` and `log (e^x + e^y)`, falls short of the
latter by at most `e^(-50)`, and is symmetric; in initialisation mode it is its second argument. -/
theorem C37_log_sum_exp (x y : ℝ) :
    max x y ≤ logSumExp x y false ∧
    logSumExp x y false ≤ Real.log (Real.exp x + Real.exp y) ∧
    Real.log (Real.exp x + Real.exp y) ≤ logSumExp x y false + Real.exp (-50) ∧
    logSumExp x y false = logSumExp y x false ∧
    logSumExp x y true = y := by
  obtain ⟨h1, h2⟩ := exp_logSumExp x y
  have hpos : 0 < Real.exp x + Real.exp y := by positivity
  have hc : 0 < 1 + Real.exp (-50) := by positivity
  refine ⟨?_, ?_, ?_, ?_, rfl⟩
  · rw [logSumExp_eq]
    split
    · exact le_refl _
    · have : 0 ≤ Real.log (Real.exp (min x y - max x y) + 1) :=
        Real.log_nonneg (by have := Real.exp_pos (min x y - max x y); linarith)
      linarith
  · rw [Real.le_log_iff_exp_le hpos]; exact h2
  · have h3 : Real.log ((Real.exp x + Real.exp y) / (1 + Real.exp (-50))) ≤ logSumExp x y false := by
      rw [Real.log_le_iff_le_exp (by positivity)]; exact h1
    rw [Real.log_div hpos.ne' hc.ne'] at h3
    have h4 : Real.log (1 + Real.exp (-50)) ≤ Real.exp (-50) := by
      have := Real.log_le_sub_one_of_pos hc; linarith
    linarith
  · rw [logSumExp_eq, logSumExp_eq, min_comm, max_comm]

/-- Non-vacuity: equal arguments give `x + log 2`, far apart ones give the larger. -/
example (x : ℝ) : logSumExp x x false = x + Real.log 2 := by
  rw [logSumExp_eq, if_neg (by simp)]; norm_num
example : logSumExp (0 : ℝ) (-51) false = 0 := by rw [logSumExp_eq, if_pos] <;> norm_num

end Tokengeex

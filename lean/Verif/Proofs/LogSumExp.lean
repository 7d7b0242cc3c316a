import Verif.Spec.Real
/-
`log_sum_exp` over the real numbers.
-/
namespace Tokengeex
open Spec

theorem logSumExp_init (x y : ℝ) : logSumExp x y true = y := rfl

/-- What `log_sum_exp` computes when not initialising, with the smaller argument first. -/
theorem logSumExp_eq (x y : ℝ) : logSumExp x y false =
    if min x y + 50 < max x y then max x y else max x y + Real.log (Real.exp (min x y - max x y) + 1) := by
  unfold logSumExp
  simp only [ScoreOps.lt, ScoreOps.add, RealOps.ofNat, RealOps.ln, RealOps.exp, RealOps.sub, Bool.false_eq_true, if_false,
    decide_eq_true_eq]
  by_cases h : y < x
  · rw [if_pos h, min_eq_right h.le, max_eq_left h.le]; norm_num
  · rw [if_neg h, min_eq_left (not_lt.1 h), max_eq_right (not_lt.1 h)]; norm_num

theorem exp_add_exp (x y : ℝ) : Real.exp x + Real.exp y = Real.exp (max x y) * (Real.exp (min x y - max x y) + 1) := by
  rw [mul_add, ← Real.exp_add, mul_one]
  rw [show max x y + (min x y - max x y) = min x y by ring]
  rcases le_total x y with h | h
  · rw [min_eq_left h, max_eq_right h]
  · rw [min_eq_right h, max_eq_left h, add_comm]

theorem exp_logSumExp (x y : ℝ) :
    (Real.exp x + Real.exp y) / (1 + Real.exp (-50)) ≤ Real.exp (logSumExp x y false) ∧
    Real.exp (logSumExp x y false) ≤ Real.exp x + Real.exp y := by
  rw [logSumExp_eq, exp_add_exp]
  have hpos : 0 < Real.exp (min x y - max x y) := Real.exp_pos _
  have hM : 0 < Real.exp (max x y) := Real.exp_pos _
  have he : 0 < Real.exp (-50) := Real.exp_pos _
  by_cases h : min x y + 50 < max x y
  · rw [if_pos h]
    have h1 : Real.exp (min x y - max x y) ≤ Real.exp (-50) := Real.exp_le_exp.2 (by linarith)
    constructor
    · rw [div_le_iff₀ (by linarith)]
      exact mul_le_mul_of_nonneg_left (by linarith) hM.le
    · nlinarith
  · rw [if_neg h, Real.exp_add, Real.exp_log (by linarith)]
    refine ⟨?_, le_refl _⟩
    apply div_le_self (by positivity)
    linarith

end Tokengeex

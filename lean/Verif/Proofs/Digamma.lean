import Verif.Spec.RealTraining
import Verif.Proofs.Monad
import Mathlib.Analysis.SpecialFunctions.Log.Deriv
import Mathlib.Analysis.SpecialFunctions.Exponential
import Mathlib.Analysis.Complex.Exponential
/-
The implemented digamma function, with real numbers.
-/
namespace Tokengeex
open ScoreOps RealOps

namespace Pruner

/-- The asymptotic series without the logarithm, in `q = 1 / (x - 1/2)^2`. -/
noncomputable def digSeries (q : ℝ) : ℝ := 1 / 24 * q - 7 / 960 * (q * q) + 31 / 8064 * (q * q) * q - 127 / 30720 * (q * q) * (q * q)

/-- What `digamma` adds after its loop. -/
noncomputable def digTail (x : ℝ) : ℝ := Real.log (x - 1 / 2) + digSeries (1 / (x - 1 / 2) * (1 / (x - 1 / 2)))

theorem digSeries_bounds {q : ℝ} (h0 : 0 ≤ q) (h1 : q ≤ 1 / 2) : 0 ≤ digSeries q ∧ digSeries q ≤ q / 12 := by
  unfold digSeries
  have hq2 : q * q ≤ q := by nlinarith
  have hq3 : 0 ≤ q * q * q := by positivity
  have hq3' : q * q * q ≤ q := by nlinarith [mul_nonneg h0 h0]
  have hq4 : q * q * (q * q) ≤ q * q * q := by nlinarith
  have hq4' : 0 ≤ q * q * (q * q) := by positivity
  have hq2' : 0 ≤ q * q := by positivity
  constructor <;> nlinarith

theorem exp_digTail {x : ℝ} (h : 7 ≤ x) : x - 1 / 2 ≤ Real.exp (digTail x) ∧ Real.exp (digTail x) < x - 1 / 4 := by
  unfold digTail
  set y := x - 1 / 2 with hy
  have hy1 : 13 / 2 ≤ y := by rw [hy]; linarith
  have hy0 : 0 < y := by linarith
  have hinv : 1 / y ≤ 2 / 13 := by
    rw [div_le_div_iff₀ hy0 (by norm_num)]; linarith
  have hinv0 : 0 < 1 / y := by positivity
  have hq : 1 / y * (1 / y) ≤ 1 / 2 := by nlinarith
  obtain ⟨h1, h2⟩ := digSeries_bounds (q := 1 / y * (1 / y)) (by positivity) hq
  set ε := digSeries (1 / y * (1 / y))
  rw [Real.exp_add, Real.exp_log hy0]
  constructor
  · have := Real.add_one_le_exp ε
    nlinarith
  · have hεy : ε * y ≤ 1 / 12 * (1 / y) := by
      have : 1 / y * (1 / y) * y = 1 / y := by field_simp
      nlinarith
    have hε : ε ≤ 1 / 100 := by nlinarith
    have he : Real.exp ε ≤ 1 / (1 - ε) := by
      rw [le_div_iff₀ (by linarith)]
      have h3 := Real.one_sub_le_exp_neg ε
      calc Real.exp ε * (1 - ε) ≤ Real.exp ε * Real.exp (-ε) := by
            apply mul_le_mul_of_nonneg_left h3 (Real.exp_pos _).le
        _ = 1 := by rw [← Real.exp_add]; simp
    have h4 : x - 1 / 4 = y + 1 / 4 := by rw [hy]; ring
    rw [h4]
    calc y * Real.exp ε ≤ y * (1 / (1 - ε)) := mul_le_mul_of_nonneg_left he hy0.le
      _ < y + 1 / 4 := by
        rw [mul_one_div, div_lt_iff₀ (by linarith)]
        nlinarith

/-- `exp (1/x)` lies between the quotients that the two bounds need. -/
theorem exp_inv_lower {x : ℝ} (h : 1 / 2 ≤ x) : x + 3 / 4 ≤ (x - 1 / 4) * Real.exp (1 / x) := by
  have hx : 0 < x := by linarith
  have h1 := Real.quadratic_le_exp_of_nonneg (x := 1 / x) (by positivity)
  have h2 : 0 < x - 1 / 4 := by linarith
  have h3 : (x - 1 / 4) * (1 + 1 / x + (1 / x) ^ 2 / 2) ≤ (x - 1 / 4) * Real.exp (1 / x) :=
    mul_le_mul_of_nonneg_left h1 h2.le
  refine le_trans ?_ h3
  have hv : 1 / x ≤ 2 := by rw [div_le_iff₀ hx]; linarith
  have hv0 : 0 < 1 / x := by positivity
  have hxv : x * (1 / x) = 1 := by field_simp
  set v := 1 / x
  have hx2 : x * v ^ 2 = v := by rw [sq, ← mul_assoc, hxv, one_mul]
  nlinarith

theorem exp_inv_upper {x : ℝ} (h : 1 / 2 < x) : (x - 1 / 2) * Real.exp (1 / x) ≤ x + 1 / 2 := by
  have hx : 0 < x := by linarith
  have hz : |1 / (2 * x)| < 1 := by
    rw [abs_of_pos (by positivity), div_lt_one (by positivity)]
    linarith
  have hs := Real.hasSum_log_sub_log_of_abs_lt_one hz
  have h0 : 2 * (1 / (2 * ((0 : ℕ) : ℝ) + 1)) * (1 / (2 * x)) ^ (2 * 0 + 1) ≤
      Real.log (1 + 1 / (2 * x)) - Real.log (1 - 1 / (2 * x)) := by
    refine le_hasSum hs 0 ?_
    intro k _
    positivity
  have hzlt : 1 / (2 * x) < 1 := (le_abs_self _).trans_lt hz
  have hzpos : 0 < 1 / (2 * x) := by positivity
  have e1 : 2 * (1 / (2 * ((0 : ℕ) : ℝ) + 1)) * (1 / (2 * x)) ^ (2 * 0 + 1) = 1 / x := by
    simp only [Nat.cast_zero, mul_zero, zero_add, pow_one]
    field_simp
  rw [e1] at h0
  have h1 : Real.exp (1 / x) ≤ (1 + 1 / (2 * x)) / (1 - 1 / (2 * x)) := by
    rw [← Real.le_log_iff_exp_le (div_pos (by linarith) (by linarith)), Real.log_div (by linarith) (by linarith)]
    exact h0
  have e2 : (1 + 1 / (2 * x)) / (1 - 1 / (2 * x)) = (x + 1 / 2) / (x - 1 / 2) := by
    have : x - 1 / 2 ≠ 0 := by linarith
    have h3 : (1 : ℝ) - 1 / (2 * x) ≠ 0 := by linarith
    field_simp
  rw [e2, le_div_iff₀ (by linarith)] at h1
  linarith

theorem digammaLoop_succ (fuel : Nat) (r x : ℝ) :
    digammaLoop (fuel + 1) r x = if x < 7 then digammaLoop fuel (r - 1 / x) (x + 1) else .ok (r, x) := by
  rw [digammaLoop]
  simp only [lt, RealOps.ofNat, sub, div, add, decide_eq_true_eq]
  norm_num

theorem digamma_bind (fuel : Nat) (x : ℝ) : digamma fuel x = (digammaLoop fuel (0 : ℝ) x).bind fun r => .ok (r.1 + digTail r.2) := by
  unfold digamma
  have h0 : (RealOps.ofNat 0 : ℝ) = 0 := by simp [RealOps.ofNat]
  rw [h0]
  show (digammaLoop fuel (0 : ℝ) x).bind _ = _
  congr 1
  funext r
  simp only [res_pure, Except.ok.injEq, sub, div, add, mul, ln, RealOps.ofNat, digTail, digSeries]
  norm_num
  ring

/-- `digamma` returns, and lies between the logarithms of `x - 1/2` and `x - 1/4`. -/
theorem digamma_loop (n : Nat) : ∀ x : ℝ, 1 / 2 ≤ x → 7 - n ≤ x →
    ∃ d, (∀ fuel ≥ n + 1, ∀ r : ℝ, ∃ p, digammaLoop fuel r x = .ok p ∧ p.1 + digTail p.2 = r + d) ∧
      x - 1 / 2 ≤ Real.exp d ∧ Real.exp d < x - 1 / 4 := by
  induction n with
  | zero =>
    intro x _ h7
    have h7' : 7 ≤ x := by simpa using h7
    refine ⟨digTail x, ?_, exp_digTail h7'⟩
    intro fuel hf r
    obtain ⟨k, rfl⟩ : ∃ k, fuel = k + 1 := ⟨fuel - 1, by omega⟩
    exact ⟨(r, x), by rw [digammaLoop_succ, if_neg (by linarith)], rfl⟩
  | succ n ih =>
    intro x hx h7
    by_cases hlt : x < 7
    · obtain ⟨d, h1, h2, h3⟩ := ih (x + 1) (by linarith) (by push_cast at h7; linarith)
      have hx0 : 0 < x := by linarith
      refine ⟨d - 1 / x, ?_, ?_, ?_⟩
      · intro fuel hf r
        obtain ⟨k, rfl⟩ : ∃ k, fuel = k + 1 := ⟨fuel - 1, by omega⟩
        obtain ⟨p, h4, h5⟩ := h1 k (by omega) (r - 1 / x)
        exact ⟨p, by rw [digammaLoop_succ, if_pos hlt, h4], by rw [h5]; ring⟩
      · rcases hx.eq_or_lt with rfl | hx'
        · simpa using (Real.exp_pos _).le
        · rw [Real.exp_sub, le_div_iff₀ (Real.exp_pos _)]
          have := exp_inv_upper hx'
          linarith
      · rw [Real.exp_sub, div_lt_iff₀ (Real.exp_pos _)]
        have := exp_inv_lower hx
        linarith
    · have h7' : 7 ≤ x := by linarith
      refine ⟨digTail x, ?_, exp_digTail h7'⟩
      intro fuel hf r
      obtain ⟨k, rfl⟩ : ∃ k, fuel = k + 1 := ⟨fuel - 1, by omega⟩
      exact ⟨(r, x), by rw [digammaLoop_succ, if_neg hlt], rfl⟩

theorem digamma_ok {x : ℝ} (h : 1 / 2 ≤ x) :
    ∃ d, (∀ fuel ≥ 8, digamma fuel x = .ok d) ∧ x - 1 / 2 ≤ Real.exp d ∧ Real.exp d < x - 1 / 4 := by
  obtain ⟨d, h1, h2, h3⟩ := digamma_loop 7 x h (by norm_num; linarith)
  refine ⟨d, fun fuel hf => ?_, h2, h3⟩
  obtain ⟨p, h4, h5⟩ := h1 fuel (by omega) 0
  rw [digamma_bind, h4]
  show Except.ok (p.1 + digTail p.2) = _
  rw [h5, zero_add]

end Pruner
end Tokengeex

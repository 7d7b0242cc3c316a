import Verif.Proofs.Psi
/-
The digamma function does not decrease, and how fast it grows.
-/
namespace Tokengeex
open Spec Filter

theorem psi_mono_shift {a b : ℝ} (ha : 0 < a) (hab : a ≤ b) (m : Nat) : psi (b + m) - psi (a + m) ≤ psi b - psi a := by
  induction m with
  | zero => simp
  | succ m ih =>
    have hm : (0 : ℝ) ≤ m := Nat.cast_nonneg m
    have h1 := psi_add_one (x := a + m) (by linarith)
    have h2 := psi_add_one (x := b + m) (by linarith)
    rw [add_assoc] at h1 h2
    rw [Nat.cast_succ, h1, h2]
    have : 1 / (b + m) ≤ 1 / (a + m) := one_div_le_one_div_of_le (by linarith) (by linarith)
    linarith

/-- The digamma function does not decrease. -/
theorem psi_mono {a b : ℝ} (ha : 0 < a) (hab : a ≤ b) : psi a ≤ psi b := by
  have key : ∀ n : ℕ, 0 < n → psi a - psi b ≤ 4 / n := by
    intro n hn
    have hn' : (0 : ℝ) < n := by exact_mod_cast hn
    have h1 := psi_mono_shift ha hab n
    have h2 := psi_le_log (x := a + n) (by linarith)
    have h3 := log_le_psi (x := b + n) (by linarith)
    have h4 : Real.log (a + n) ≤ Real.log (b + n) := Real.log_le_log (by linarith) (by linarith)
    have h5 : 1 / (b + n) ≤ 4 / n := by
      rw [div_le_div_iff₀ (by linarith) hn']
      nlinarith
    linarith
  have := Pruner.nonpos_of_small key
  linarith

theorem square_step {a : ℝ} (ha : 0 < a) : 1 / a ^ 2 ≤ (1 / a + 1 / a ^ 2) - (1 / (a + 1) + 1 / (a + 1) ^ 2) := by
  have h : (1 / a + 1 / a ^ 2) - (1 / (a + 1) + 1 / (a + 1) ^ 2) - 1 / a ^ 2 = 1 / (a * (a + 1) ^ 2) := by
    field_simp
    ring
  have : 0 ≤ 1 / (a * (a + 1) ^ 2) := by positivity
  linarith

theorem psi_lip_shift {a b : ℝ} (ha : 0 < a) (hab : a ≤ b) (m : Nat) :
    psi b - psi a ≤ psi (b + m) - psi (a + m) + (b - a) * ((1 / a + 1 / a ^ 2) - (1 / (a + m) + 1 / (a + m) ^ 2)) := by
  induction m with
  | zero => simp
  | succ m ih =>
    have hm : (0 : ℝ) ≤ m := Nat.cast_nonneg m
    have ham : 0 < a + m := by linarith
    have hbm : 0 < b + m := by linarith
    have h1 := psi_add_one ham
    have h2 := psi_add_one hbm
    have h3 := square_step ham
    rw [add_assoc] at h1 h2 h3
    rw [Nat.cast_succ, h1, h2]
    have h4 : 1 / (a + m) - 1 / (b + m) ≤ (b - a) * (1 / (a + m) ^ 2) := by
      have e : 1 / (a + m) - 1 / (b + m) = (b - a) * (1 / ((a + m) * (b + m))) := by
        field_simp
        ring
      rw [e]
      refine mul_le_mul_of_nonneg_left (one_div_le_one_div_of_le (by positivity) ?_) (by linarith)
      nlinarith
    have h5 := mul_le_mul_of_nonneg_left h3 (show 0 ≤ b - a by linarith)
    nlinarith

/-- The digamma function grows by at most five times the relative difference. -/
theorem psi_lip {a b : ℝ} (ha : 1 / 4 ≤ a) (hab : a ≤ b) : psi b - psi a ≤ 5 * (b - a) / a := by
  have ha0 : 0 < a := by linarith
  have key : ∀ n : ℕ, 0 < n → psi b - psi a - 5 * (b - a) / a ≤ (b - a + 1) / n := by
    intro n hn
    have hn' : (0 : ℝ) < n := by exact_mod_cast hn
    have h1 := psi_lip_shift ha0 hab n
    have h2 := psi_le_log (x := b + n) (by linarith)
    have h3 := log_le_psi (x := a + n) (by linarith)
    have h4 : Real.log (b + n) - Real.log (a + n) ≤ (b - a) / (a + n) := by
      rw [← Real.log_div (by linarith) (by linarith)]
      refine (Real.log_le_sub_one_of_pos (div_pos (by linarith) (by linarith))).trans (le_of_eq ?_)
      have : a + n ≠ 0 := by linarith
      field_simp
      ring
    have h5 : (b - a) / (a + n) + 1 / (a + n) ≤ (b - a + 1) / n := by
      rw [← add_div]
      exact div_le_div_of_nonneg_left (by linarith) hn' (by linarith)
    have h6 : (b - a) * ((1 / a + 1 / a ^ 2) - (1 / (a + n) + 1 / (a + n) ^ 2)) ≤ 5 * (b - a) / a := by
      have e : 5 * (b - a) / a = (b - a) * (1 / a + 4 * (1 / a)) := by ring
      rw [e]
      refine mul_le_mul_of_nonneg_left ?_ (by linarith)
      have : 1 / a ^ 2 ≤ 4 * (1 / a) := by
        rw [mul_one_div, div_le_div_iff₀ (by positivity) ha0]
        nlinarith
      have p1 : 0 ≤ 1 / (a + n) := by positivity
      have p2 : 0 ≤ 1 / (a + n) ^ 2 := by positivity
      linarith
    linarith
  have : psi b - psi a - 5 * (b - a) / a ≤ 0 := by
    refine ge_of_tendsto (tendsto_const_div_atTop_nhds_zero_nat (b - a + 1)) ?_
    filter_upwards [eventually_gt_atTop 0] with n hn using key n hn
  linarith

/-- Close arguments have close values. -/
theorem psi_close {a b : ℝ} (ha : 1 ≤ a) (hb : 1 ≤ b) : |psi b - psi a| ≤ 5 * |b - a| := by
  rcases le_total a b with h | h
  · have h1 := psi_mono (by linarith) h
    have h2 := psi_lip (by linarith) h
    rw [abs_of_nonneg (by linarith), abs_of_nonneg (by linarith)]
    refine h2.trans (div_le_self (by linarith) ha)
  · have h1 := psi_mono (by linarith) h
    have h2 := psi_lip (by linarith) h
    rw [abs_of_nonpos (by linarith), abs_of_nonpos (by linarith)]
    have := h2.trans (div_le_self (by linarith) hb)
    linarith

end Tokengeex

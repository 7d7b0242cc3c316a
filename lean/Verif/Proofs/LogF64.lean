import Mathlib.Analysis.SpecialFunctions.Log.Basic
import Verif.Proofs.Rounding
import Verif.Model.Float64Train
/-
Numbers as doubles, sums of positive doubles, and logarithms of both.
-/
namespace Tokengeex
open Spec ScoreOps
namespace F64

theorem mul_pow_le {n k : Nat} (h : n ≤ 2 ^ k) (j : Nat) : n * 2 ^ j ≤ 2 ^ (k + j) := by
  rw [Nat.pow_add]
  exact Nat.mul_le_mul_right _ h

/-- `n as f64` is finite, and its relative error is at most `2^-53`. -/
theorem ofNat_err {n : Nat} (h : n ≤ 2 ^ 64) :
    Finite (ofNat n) ∧ 2 ^ 53 * |real (ofNat n) - n| ≤ n := by
  have hlt : roundMag (n * 2 ^ 1074) 1 < limit := by
    exact roundMag_lt (mul_pow_le h 1074) (by omega)
  have e : ofNat n = num false (roundMag (n * 2 ^ 1074) 1) := by
    unfold ofNat round
    rw [if_pos hlt]
  have hfin : Finite (ofNat n) := by
    rw [e]
    exact isDouble_roundMag (by omega) hlt
  refine ⟨hfin, ?_⟩
  have herr := roundMag_err (n * 2 ^ 1074)
  have hn : (n : ℝ) = ((n * 2 ^ 1074 : Nat) : ℝ) * ulp := by
    unfold ulp
    rw [Nat.cast_mul, Nat.cast_pow, Nat.cast_ofNat, one_div, inv_pow, mul_assoc,
      mul_inv_cancel₀ (pow_ne_zero 1074 (two_ne_zero' ℝ)), mul_one]
  rw [e, real_num, hn]
  generalize n * 2 ^ 1074 = N at *
  have hk : (num false (roundMag N 1)).key = (roundMag N 1 : Int) := rfl
  rw [hk, ← sub_mul, abs_mul, abs_of_pos ulp_pos, ← mul_assoc]
  refine mul_le_mul_of_nonneg_right ?_ ulp_pos.le
  have hR : ((2 ^ 53 * ((N : Int) - roundMag N 1).natAbs : Nat) : ℝ) ≤ ((N : Nat) : ℝ) := Nat.cast_le.2 herr
  rw [Nat.cast_mul, Nat.cast_natAbs, Int.cast_abs, Int.cast_sub, Nat.cast_pow, Nat.cast_ofNat, abs_sub_comm] at hR
  exact hR

/-- Half the distance from 1 to the next double. -/
noncomputable def u : ℝ := (1 / 2) ^ 53

theorem u_pos : 0 < u := by unfold u; positivity

theorem u_le : u ≤ 1 / 2 := by unfold u; norm_num

theorem of_err {x e : ℝ} (h : 2 ^ 53 * |e - x| ≤ |x|) : |e - x| ≤ u * |x| := by
  have : u * (2 ^ 53 * |e - x|) ≤ u * |x| := mul_le_mul_of_nonneg_left h u_pos.le
  have e1 : u * (2 ^ 53 * |e - x|) = |e - x| := by unfold u; ring
  linarith

/-- Adding up doubles that are not negative: the relative error grows with the number of summands. -/
theorem foldl_rel : ∀ (xs : List F64) (a : F64), (∀ x ∈ xs, Finite x ∧ 0 ≤ real x) → Finite a → 0 ≤ real a →
    (real a + (xs.map real).sum) * (1 + u) ^ xs.length ≤ 2 ^ 1000 →
    Finite (xs.foldl add a) ∧ (real a + (xs.map real).sum) * (1 - u) ^ xs.length ≤ real (xs.foldl add a) ∧
      real (xs.foldl add a) ≤ (real a + (xs.map real).sum) * (1 + u) ^ xs.length := by
  intro xs
  have hu := u_pos
  have hu' := u_le
  induction xs with
  | nil => intro a _ ha _ _; exact ⟨ha, by simp⟩
  | cons x xs ih =>
    intro a hxs ha ha0 hbig
    obtain ⟨hx, hx0⟩ := hxs x (by simp)
    have hs0 : 0 ≤ (xs.map real).sum := List.sum_nonneg (by
      intro y hy
      obtain ⟨z, hz, rfl⟩ := List.mem_map.1 hy
      exact (hxs z (by simp [hz])).2)
    simp only [List.map_cons, List.sum_cons, List.length_cons, List.foldl_cons] at *
    have h1 : (1 : ℝ) ≤ (1 + u) ^ xs.length := one_le_pow₀ (by linarith)
    have h2 : (1 : ℝ) ≤ (1 + u) ^ (xs.length + 1) := one_le_pow₀ (by linarith)
    have hax : |real a + real x| ≤ 2 ^ 1000 := by
      rw [abs_of_nonneg (by linarith)]
      have : (real a + (real x + (xs.map real).sum)) * 1 ≤ (real a + (real x + (xs.map real).sum)) * (1 + u) ^ (xs.length + 1) :=
        mul_le_mul_of_nonneg_left h2 (by linarith)
      generalize (2 : ℝ) ^ 1000 = B at *
      linarith
    obtain ⟨f1, f2⟩ := add_err ha hx hax
    have f3 := of_err f2
    rw [abs_of_nonneg (show (0 : ℝ) ≤ real a + real x by linarith)] at f3
    obtain ⟨f4, f5⟩ := abs_le.1 f3
    have hy0 : 0 ≤ real (add a x) := by nlinarith
    have hup : real (add a x) + (xs.map real).sum ≤ (real a + (real x + (xs.map real).sum)) * (1 + u) := by nlinarith
    have hdn : (real a + (real x + (xs.map real).sum)) * (1 - u) ≤ real (add a x) + (xs.map real).sum := by nlinarith
    have hp : 0 ≤ (1 - u) ^ xs.length := pow_nonneg (by linarith) _
    have g1 := mul_le_mul_of_nonneg_right hup (show 0 ≤ (1 + u) ^ xs.length by linarith)
    have g2 := mul_le_mul_of_nonneg_right hdn hp
    rw [pow_succ (1 + u)] at hbig
    rw [pow_succ (1 + u), pow_succ (1 - u)]
    generalize hB : (2 : ℝ) ^ 1000 = B at *
    obtain ⟨i1, i2, i3⟩ := ih (add a x) (fun y hy => hxs y (by simp [hy])) f1 hy0 (by linarith)
    refine ⟨i1, ?_, ?_⟩
    · linarith
    · linarith

theorem log_one_add (n : Nat) : Real.log ((1 + u) ^ n) ≤ n * (2 * u) := by
  rw [Real.log_pow]
  refine mul_le_mul_of_nonneg_left ?_ (Nat.cast_nonneg n)
  have := Real.log_le_sub_one_of_pos (show 0 < 1 + u by have := u_pos; linarith)
  have := u_pos
  linarith

theorem log_one_sub (n : Nat) : -(n * (2 * u)) ≤ Real.log ((1 - u) ^ n) := by
  have hu := u_pos
  have hu' := u_le
  rw [Real.log_pow, ← mul_neg]
  refine mul_le_mul_of_nonneg_left ?_ (Nat.cast_nonneg n)
  have h1 := Real.one_sub_inv_le_log_of_pos (show 0 < 1 - u by linarith)
  have h2 : (1 - u)⁻¹ ≤ 1 + 2 * u := by
    rw [inv_le_comm₀ (by linarith) (by linarith), ← one_div, div_le_iff₀ (by linarith)]
    nlinarith
  linarith

/-- A number within the given relative error has nearly the same logarithm. -/
theorem log_near {x y : ℝ} (n : Nat) (hx : 0 < x) (h1 : x * (1 - u) ^ n ≤ y) (h2 : y ≤ x * (1 + u) ^ n) :
    0 < y ∧ |Real.log y - Real.log x| ≤ n * (2 * u) := by
  have hu := u_pos
  have hu' := u_le
  have hp : 0 < (1 - u) ^ n := pow_pos (by linarith) _
  have hq : 0 < (1 + u) ^ n := pow_pos (by linarith) _
  have hy : 0 < y := lt_of_lt_of_le (mul_pos hx hp) h1
  refine ⟨hy, ?_⟩
  have e1 := Real.log_le_log (mul_pos hx hp) h1
  have e2 := Real.log_le_log hy h2
  rw [Real.log_mul hx.ne' hp.ne'] at e1
  rw [Real.log_mul hx.ne' hq.ne'] at e2
  have e3 := log_one_add n
  have e4 := log_one_sub n
  rw [abs_le]
  constructor <;> linarith

/-- A double is normal if it is not too close to zero. -/
theorem isNormal_of {x : F64} (h : Finite x) (hx : (1 / 2 : ℝ) ^ 1022 ≤ |real x|) : isNormal x = true := by
  cases x with
  | nan => exact h.elim
  | inf s => exact h.elim
  | num s n =>
    unfold isNormal
    rw [decide_eq_true_eq]
    rw [real_num, abs_mul, abs_of_pos ulp_pos] at hx
    have hk : |((F64.num s n).key : ℝ)| = n := by
      unfold key
      cases s <;> simp
    rw [hk] at hx
    have e : (1 / 2 : ℝ) ^ 1022 = 2 ^ 52 * ulp := by
      unfold ulp
      rw [show 1074 = 52 + 1022 from rfl, pow_add, ← mul_assoc, ← mul_pow]
      norm_num
    rw [e] at hx
    have := le_of_mul_le_mul_right hx ulp_pos
    exact_mod_cast this

theorem isNormal_of_far {x : F64} (h : Finite x) (hx : (1 / 2 : ℝ) ^ 14 ≤ |real x|) : isNormal x = true :=
  isNormal_of h (le_trans (pow_le_pow_of_le_one (by norm_num) (by norm_num) (by omega)) hx)

end F64
end Tokengeex

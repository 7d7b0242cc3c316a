import Mathlib.Tactic.Linarith
import Mathlib.Tactic.Ring
import Mathlib.Tactic.NormNum
import Mathlib.Tactic.Positivity
import Mathlib.Algebra.Order.BigOperators.Group.List
import Verif.Spec.Rounding
import Verif.Proofs.Float64
/-
How far a sum of two doubles is from the exact sum.
-/
namespace Tokengeex
open Spec ScoreOps
namespace F64

/-- The value of a unit. -/
noncomputable def ulp : ℝ := (1 / 2) ^ 1074

theorem ulp_pos : 0 < ulp := by unfold ulp; positivity

theorem real_num (s : Bool) (n : Nat) : real (.num s n) = ((F64.num s n).key : ℝ) * ulp := by
  unfold real key ulp
  cases s <;> simp

theorem real_eq {x : F64} (h : Finite x) : real x = (x.key : ℝ) * ulp := by
  cases x with
  | nan => exact h.elim
  | inf s => exact h.elim
  | num s n => exact real_num s n

theorem roundDiv_err {a b : Nat} (hb : 0 < b) : 2 * ((a : Int) - roundDiv a b * b).natAbs ≤ b := by
  have hr := Nat.mod_lt a hb
  have hdiv : a / b * b + a % b = a := Nat.div_add_mod' a b
  have hcast : ((roundDiv a b : Int) * b) = ((roundDiv a b * b : Nat) : Int) := (Int.natCast_mul _ b).symm
  rw [hcast]
  rcases roundDiv_cases (a := a) hb with ⟨h1, h2, h3⟩ | ⟨h1, h2, h3⟩ <;> rw [h1]
  · omega
  · have : (a / b + 1) * b = a / b * b + b := by rw [Nat.add_mul, Nat.one_mul]
    omega

/-- The relative error of rounding a whole number of units is at most `2^-53`. -/
theorem roundMag_err (n : Nat) : 2 ^ 53 * ((n : Int) - roundMag n 1).natAbs ≤ n := by
  have h1 := roundDiv_err (a := n) (mul_pow_pos (d := 1) (by omega) (spacing n 1))
  have h2 : ((roundMag n 1 : Nat) : Int) = (roundDiv n (1 * 2 ^ spacing n 1) : Int) * ((1 * 2 ^ spacing n 1 : Nat) : Int) := by
    unfold roundMag
    rw [Nat.one_mul]
    exact Int.natCast_mul _ _
  rw [← h2] at h1
  by_cases hk : spacing n 1 = 0
  · rw [hk] at h1
    omega
  · have h3 := spacing_le n 1 (by omega) hk
    generalize 1 * 2 ^ spacing n 1 = B at *
    omega

theorem roundMag_lt {n k : Nat} (h : n ≤ 2 ^ k) (hk : k < 2098) : roundMag n 1 < limit := by
  have h1 := roundMag_mono (n := n) (n' := 2 ^ k) (d := 1) (d' := 1) (by omega) (by omega) (by omega)
  have h2 : roundMag (2 ^ k) 1 = 1 * 2 ^ k := roundMag_exact (m := 1) (k := k) (by omega) (by decide) (by omega)
  rw [h2, Nat.one_mul] at h1
  refine Nat.lt_of_le_of_lt h1 ?_
  exact Nat.pow_lt_pow_right (by omega) (by rw [limitExp_eq]; exact hk)

theorem key_zero_num : (F64.num false 0).key = 0 := rfl

/-- The sum of two finite doubles is finite unless it is very big, and its relative error is at most `2^-53`. -/
theorem add_err {x y : F64} (hx : Finite x) (hy : Finite y) (h : |real x + real y| ≤ 2 ^ 1000) :
    Finite (add x y) ∧ 2 ^ 53 * |real (add x y) - (real x + real y)| ≤ |real x + real y| := by
  rcases x with _ | _ | ⟨s, n⟩
  · exact hx.elim
  · exact hx.elim
  rcases y with _ | _ | ⟨t, m⟩
  · exact hy.elim
  · exact hy.elim
  have hu := ulp_pos
  rw [real_num, real_num, ← add_mul, abs_mul, abs_of_pos hu] at h
  have hsum : ((F64.num s n).key : ℝ) + ((F64.num t m).key : ℝ) = (((F64.num s n).key + (F64.num t m).key : Int) : ℝ) := by
    push_cast; ring
  rw [hsum] at h
  have hkey := key_add s t n m
  generalize hz : (F64.num s n).key + (F64.num t m).key = z at *
  have hbig : z.natAbs ≤ 2 ^ 2074 := by
    have h1 : |(z : ℝ)| ≤ 2 ^ 2074 := by
      have e : (2 : ℝ) ^ 1000 = 2 ^ 2074 * ulp := by
        unfold ulp
        rw [one_div, inv_pow, show 2074 = 1000 + 1074 from rfl, pow_add, mul_assoc,
          mul_inv_cancel₀ (pow_ne_zero 1074 (two_ne_zero' ℝ)), mul_one]
      rw [e] at h
      exact le_of_mul_le_mul_right h hu
    have h2 : ((z.natAbs : Nat) : ℝ) ≤ ((2 ^ 2074 : Nat) : ℝ) := by
      rw [Nat.cast_natAbs, Int.cast_abs, Nat.cast_pow, Nat.cast_ofNat]
      exact h1
    exact Nat.cast_le.1 h2
  have hlt := roundMag_lt hbig (by omega)
  have hcap : capped z.natAbs = roundMag z.natAbs 1 := Nat.min_eq_left (Nat.le_of_lt hlt)
  have hfin : Finite (add (num s n) (num t m)) := by
    have h1 := isF64_add (x := num s n) (y := num t m)
    have h2 := add_num_ne_nan s t n m
    cases ha : add (num s n) (num t m) with
    | nan => exact absurd ha h2
    | num u o => rw [ha] at h1; exact h1
    | inf u =>
      exfalso
      rw [ha] at hkey
      unfold keyOfSum at hkey
      rw [hcap] at hkey
      have hl := limit_pos
      unfold key at hkey
      cases u <;> simp only [if_true, Bool.false_eq_true, if_false] at hkey <;> split at hkey <;> omega
  refine ⟨hfin, ?_⟩
  rw [real_eq hfin, hkey, real_num, real_num, ← add_mul, hsum, ← sub_mul, abs_mul, abs_mul, abs_of_pos hu, ← mul_assoc]
  refine mul_le_mul_of_nonneg_right ?_ hu.le
  have herr := roundMag_err z.natAbs
  have hI : 2 ^ 53 * (keyOfSum z - z).natAbs ≤ z.natAbs := by
    unfold keyOfSum
    rw [hcap]
    by_cases hneg : z < 0
    · rw [if_pos hneg]; omega
    · rw [if_neg hneg]; omega
  have hR : ((2 ^ 53 * (keyOfSum z - z).natAbs : Nat) : ℝ) ≤ ((z.natAbs : Nat) : ℝ) := Nat.cast_le.2 hI
  rw [Nat.cast_mul, Nat.cast_natAbs, Nat.cast_natAbs, Int.cast_abs, Int.cast_abs, Int.cast_sub, Nat.cast_pow, Nat.cast_ofNat] at hR
  exact hR

theorem real_zero : real (.num false 0) = 0 := by simp [real]

theorem finite_posZero : Finite (.num false 0) := ⟨0, 0, by decide, by omega, by simp⟩

theorem real_lt {x y : F64} (hx : Finite x) (hy : Finite y) (h : F64.lt x y = false) : real y ≤ real x := by
  have nx : x ≠ nan := by rintro rfl; exact hx
  have ny : y ≠ nan := by rintro rfl; exact hy
  rw [lt_false nx ny] at h
  rw [real_eq hx, real_eq hy]
  exact mul_le_mul_of_nonneg_right (Int.cast_le.2 h) ulp_pos.le

/-- Adding up doubles from the left. -/
theorem foldl_err {B δ : ℝ} (L : Nat) (hδ : ((L : ℝ) + 1) * (B + δ) ≤ 2 ^ 53 * δ) (hB : ((L : ℝ) + 1) * (B + δ) ≤ 2 ^ 1000) (hB0 : 0 ≤ B)
    (hδ0 : 0 ≤ δ) : ∀ (xs : List F64) (a : F64) (k : Nat), (∀ x ∈ xs, Finite x ∧ |real x| ≤ B) → Finite a → |real a| ≤ k * (B + δ) →
      k + xs.length ≤ L →
      Finite (xs.foldl add a) ∧ |real (xs.foldl add a) - (real a + (xs.map real).sum)| ≤ xs.length * δ := by
  intro xs
  induction xs with
  | nil => intro a k _ ha _ _; exact ⟨ha, by simp⟩
  | cons x xs ih =>
    intro a k hxs ha hk hL
    obtain ⟨hx, hxB⟩ := hxs x (by simp)
    have hsum : |real a + real x| ≤ (k + 1) * (B + δ) := by
      have := abs_add_le (real a) (real x)
      nlinarith
    have hkL : ((k : ℝ) + 1) * (B + δ) ≤ (L + 1) * (B + δ) := by
      apply mul_le_mul_of_nonneg_right _ (by linarith)
      have : (k : ℝ) ≤ L := Nat.cast_le.2 (by simp at hL; omega)
      linarith
    obtain ⟨h1, h2⟩ := add_err ha hx (hsum.trans (hkL.trans hB))
    have h3 : |real (add a x) - (real a + real x)| ≤ δ := by
      have h53 : (0 : ℝ) < 2 ^ 53 := by positivity
      have : 2 ^ 53 * |real (add a x) - (real a + real x)| ≤ 2 ^ 53 * δ := by linarith
      exact le_of_mul_le_mul_left this h53
    have h4 : |real (add a x)| ≤ ((k + 1 : Nat) : ℝ) * (B + δ) := by
      have e1 := abs_le.1 h3
      have e2 := abs_le.1 hk
      have e3 := abs_le.1 hxB
      push_cast
      rw [abs_le]
      constructor <;> nlinarith
    obtain ⟨h5, h6⟩ := ih (add a x) (k + 1) (fun y hy => hxs y (by simp [hy])) h1 h4 (by simp at hL; omega)
    refine ⟨h5, ?_⟩
    simp only [List.foldl_cons, List.map_cons, List.sum_cons, List.length_cons]
    have e1 := abs_le.1 h6
    have e2 := abs_le.1 h3
    push_cast
    rw [abs_le]
    constructor <;> nlinarith

end F64
end Tokengeex

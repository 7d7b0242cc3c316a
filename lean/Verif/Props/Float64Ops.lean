import Verif.Props.Float64
import Verif.Proofs.LogF64
/-
C57: multiplication, division and conversion of whole numbers, for IEEE doubles.  (Units are 2^-1074, so the product of `n` and
`m` units is `n * m / 2^1074` units, their quotient `n * 2^1074 / m` units, and the number 1 is `2^1074` units.)
-/
namespace Tokengeex
open Spec

theorem F64.round_near (s : Bool) (n d : Nat) (hd : 0 < d) :
    ∃ v, Nearest n d v ∧ F64.round s n d = if v < 2 ^ 2098 then .num s v else .inf s := by
  refine ⟨F64.roundMag n d, F64.roundMag_nearest n d hd, ?_⟩
  rw [F64.round, F64.limit, F64.limitExp_eq]

/-- **C57**, multiplication: the exact product rounded to the nearest double, infinite from `2^1024` on, negative if the
signs differ. -/
theorem C57_mul (s t : Bool) (n m : Nat) :
    ∃ v, Nearest (n * m) (2 ^ 1074) v ∧
      F64.mul (.num s n) (.num t m) = if v < 2 ^ 2098 then .num (s != t) v else .inf (s != t) :=
  F64.round_near _ _ _ (Nat.pow_pos (by omega))

/-- `-3 * 0.5` is `-1.5`; the square of the smallest double is zero; the square of `2^512` is infinite. -/
example : F64.mul (.num true (3 * 2 ^ 1074)) (.num false (2 ^ 1073)) = .num true (3 * 2 ^ 1073) ∧
    F64.mul (.num true 1) (.num true 1) = .num false 0 ∧
    F64.mul (.num false (2 ^ 1586)) (.num false (2 ^ 1586)) = .inf false := by decide +kernel

/-- **C57**, special values of products: NaN is kept, infinity times zero is NaN, and an infinity times anything else is
infinite. -/
theorem C57_mul_special (x : F64) (s t : Bool) (n : Nat) (hn : n ≠ 0) :
    F64.mul .nan x = .nan ∧ F64.mul x .nan = .nan ∧ F64.mul (.inf s) (.num t 0) = .nan ∧ F64.mul (.num t 0) (.inf s) = .nan ∧
    F64.mul (.inf s) (.num t n) = .inf (s != t) ∧ F64.mul (.num t n) (.inf s) = .inf (t != s) ∧
    F64.mul (.inf s) (.inf t) = .inf (s != t) := by
  refine ⟨by cases x <;> rfl, by cases x <;> rfl, rfl, rfl, ?_, ?_, rfl⟩
  · show (if n = 0 then _ else _) = _
    rw [if_neg hn]
  · show (if n = 0 then _ else _) = _
    rw [if_neg hn]

/-- **C57**, division by a number other than zero: the exact quotient rounded to the nearest double. -/
theorem C57_div (s t : Bool) (n m : Nat) (hm : m ≠ 0) :
    ∃ v, Nearest (n * 2 ^ 1074) m v ∧
      F64.div (.num s n) (.num t m) = if v < 2 ^ 2098 then .num (s != t) v else .inf (s != t) := by
  obtain ⟨v, h1, h2⟩ := F64.round_near (s != t) (n * 2 ^ 1074) m (Nat.pos_of_ne_zero hm)
  refine ⟨v, h1, ?_⟩
  rw [← h2]
  exact if_neg hm

/-- `1 / 3` is the double usually written 0.3333333333333333. -/
example : F64.div (.num false (2 ^ 1074)) (.num false (3 * 2 ^ 1074)) = .num false (6004799503160661 * 2 ^ 1020) := by
  decide +kernel

/-- **C57**, special values of quotients: NaN is kept, zero by zero and infinity by infinity are NaN, another number by zero
is infinite, infinity by a number is infinite and a number by infinity is zero. -/
theorem C57_div_special (x : F64) (s t : Bool) (n : Nat) (hn : n ≠ 0) (k : Nat) :
    F64.div .nan x = .nan ∧ F64.div x .nan = .nan ∧ F64.div (.inf s) (.inf t) = .nan ∧ F64.div (.num s 0) (.num t 0) = .nan ∧
    F64.div (.num s n) (.num t 0) = .inf (s != t) ∧ F64.div (.inf s) (.num t k) = .inf (s != t) ∧
    F64.div (.num s k) (.inf t) = .num (s != t) 0 := by
  refine ⟨by cases x <;> rfl, by cases x <;> rfl, rfl, ?_, ?_, rfl, rfl⟩
  · rfl
  · rw [F64.div, if_pos rfl, if_neg hn]

/-- **C57**, whole numbers as doubles: rounded to the nearest double. -/
theorem C57_of_nat (n : Nat) : ∃ v, Nearest (n * 2 ^ 1074) 1 v ∧ F64.ofNat n = if v < 2 ^ 2098 then .num false v else .inf false :=
  F64.round_near _ _ _ (by omega)

/-- **C57**, normal numbers: `is_normal` accepts exactly the finite doubles that are at least 2⁻¹⁰²² away from zero. -/
theorem C57_normal (x : F64) (h : IsF64 x) : F64.isNormal x = true ↔ Finite x ∧ (1 / 2 : ℝ) ^ 1022 ≤ |real x| := by
  refine ⟨fun h1 => ?_, fun h1 => F64.isNormal_of h1.1 h1.2⟩
  cases x with
  | nan => simp [F64.isNormal] at h1
  | inf s => simp [F64.isNormal] at h1
  | num s n =>
    refine ⟨h, ?_⟩
    have h2 : 2 ^ 52 ≤ n := of_decide_eq_true h1
    have hk : |((F64.num s n).key : ℝ)| = n := by
      unfold F64.key
      cases s <;> simp
    rw [F64.real_num, abs_mul, abs_of_pos F64.ulp_pos, hk]
    have e : (1 / 2 : ℝ) ^ 1022 = 2 ^ 52 * F64.ulp := by
      unfold F64.ulp
      rw [show 1074 = 52 + 1022 from rfl, pow_add, ← mul_assoc, ← mul_pow]
      norm_num
    rw [e]
    exact mul_le_mul_of_nonneg_right (by exact_mod_cast h2) F64.ulp_pos.le

/-- The double 1 is normal, and the smallest double above zero is not. -/
example : IsF64 (.num false (2 ^ 1074)) ∧ F64.isNormal (.num false (2 ^ 1074)) = true ∧
    IsF64 (.num false 1) ∧ F64.isNormal (.num false 1) = false :=
  ⟨⟨1, 1074, by decide, by omega, by rw [Nat.one_mul]⟩, by decide +kernel, ⟨1, 0, by decide, by omega, by decide⟩, by decide +kernel⟩

end Tokengeex

import Verif.Proofs.Reading
import Verif.Proofs.Reread
/-
C123: how accurately numbers are read, with however many digits they are written.
-/
namespace Tokengeex
open Spec

/-- **C123** However a score is written, with any number of digits before and after the point and any exponent, it is read as the
number that the text denotes, up to a relative error of `2⁻⁵⁰`, if that number is between `10⁻²⁸⁰` and `10²⁸⁰` in magnitude. -/
theorem C123_accurate {N : NumText F64} (hN : SerdeDoubles N) (t : NumTok) (ht : NumTok.Decimal t) (hl1 : t.int.length < 2 ^ 30)
    (hl2 : (NumTok.fraction t).length < 2 ^ 30) (h1 : (10 : ℝ) ^ (-280 : Int) ≤ |NumTok.denotes t|)
    (h2 : |NumTok.denotes t| ≤ (10 : ℝ) ^ (280 : Int)) :
    ∃ y, N.value t = some y ∧ Spec.Finite y ∧ |real y - NumTok.denotes t| ≤ (1 / 2) ^ 50 * |NumTok.denotes t| := by
  rw [hN.reading]
  exact F64.ofText_close ht hl1 hl2 h1 h2

/-- **C123** A text that denotes zero is read as zero with the sign that is written, whatever its exponent. -/
theorem C123_zero {N : NumText F64} (hN : SerdeDoubles N) (t : NumTok) (h : NumTok.denotes t = 0) :
    N.value t = some (.num t.negative 0) := by
  rw [hN.reading]
  exact F64.ofText_zero h

/-- **C123** Two numbers that differ by more than the `2⁻⁵⁰`th part of both are read in the right order. -/
theorem C123_order {N : NumText F64} (hN : SerdeDoubles N) (t t' : NumTok)
    (ht : ∀ s ∈ [t, t'], NumTok.Decimal s ∧ s.int.length < 2 ^ 30 ∧ (NumTok.fraction s).length < 2 ^ 30 ∧
      (10 : ℝ) ^ (-280 : Int) ≤ |NumTok.denotes s| ∧ |NumTok.denotes s| ≤ (10 : ℝ) ^ (280 : Int))
    (h : (1 / 2) ^ 50 * (|NumTok.denotes t| + |NumTok.denotes t'|) < NumTok.denotes t' - NumTok.denotes t) :
    ∃ y y', N.value t = some y ∧ N.value t' = some y' ∧ F64.lt y y' = true := by
  obtain ⟨a1, a2, a3, a4, a5⟩ := ht t (by simp)
  obtain ⟨b1, b2, b3, b4, b5⟩ := ht t' (by simp)
  obtain ⟨y, e, f, g⟩ := C123_accurate hN t a1 a2 a3 a4 a5
  obtain ⟨y', e', f', g'⟩ := C123_accurate hN t' b1 b2 b3 b4 b5
  refine ⟨y, y', e, e', ?_⟩
  rw [abs_le] at g g'
  have hlt : real y < real y' := by linarith only [h, g.2, g'.1]
  have n1 : y ≠ .nan := by rintro rfl; exact f
  have n2 : y' ≠ .nan := by rintro rfl; exact f'
  rw [F64.lt_true n1 n2]
  rw [F64.real_eq f, F64.real_eq f'] at hlt
  have := lt_of_mul_lt_mul_right hlt F64.ulp_pos.le
  exact_mod_cast this

/-- `-9.333...3e1` with forty digits after the point. -/
def longText : NumTok := ⟨true, [9], some (List.replicate 40 3), some (true, [1])⟩

theorem longText_denotes : NumTok.denotes longText = -(93333333333333333333333333333333333333333 / 10 ^ 39) := by
  have e : ofDigits (longText.int ++ NumTok.fraction longText) = 93333333333333333333333333333333333333333 := by decide +kernel
  have e2 : NumTok.exponent longText - (NumTok.fraction longText).length = -39 := by decide +kernel
  have e3 : longText.negative = true := rfl
  unfold NumTok.denotes
  rw [e, e2, e3, if_pos rfl, zpow_neg]
  norm_num

/-- The hypotheses are met by a text with more digits than fit an integer of 64 bits. -/
example {N : NumText F64} (hN : SerdeDoubles N) :
    ∃ y, N.value longText = some y ∧ |real y + 93.3333333333333333| ≤ 1 / 10 ^ 10 := by
  have hp : (10 : ℝ) ^ (-280 : Int) ≤ 1 := zpow_le_one_of_nonpos₀ (by norm_num) (by norm_num)
  have hq : (10 : ℝ) ^ (2 : Int) ≤ (10 : ℝ) ^ (280 : Int) := zpow_le_zpow_right₀ (by norm_num) (by norm_num)
  have ha : |NumTok.denotes longText| = 93333333333333333333333333333333333333333 / 10 ^ 39 := by
    rw [longText_denotes, abs_neg, abs_of_pos (by norm_num)]
  obtain ⟨y, h1, _, h2⟩ := C123_accurate hN longText ⟨by decide, by decide, by
      intro p ds h d hd
      have : ds = [1] := by
        have h' : some (true, [1]) = some (p, ds) := h
        injection h' with h'
        injection h' with _ h'
        exact h'.symm
      subst this
      simp at hd
      omega⟩ (by decide) (by decide) (by
        rw [ha]; exact le_trans hp (by norm_num)) (by
        rw [ha]; exact le_trans (by norm_num) hq)
  refine ⟨y, h1, ?_⟩
  rw [ha, longText_denotes, abs_le] at h2
  rw [abs_le]
  constructor
  · have := h2.1; norm_num at this ⊢; linarith
  · have := h2.2; norm_num at this ⊢; linarith

/-- There is such an `N`. -/
example : ∃ N : NumText F64, SerdeDoubles N := serdeDoubles_exists

end Tokengeex

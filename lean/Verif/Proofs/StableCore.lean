import Mathlib.Tactic.Linarith
import Mathlib.Data.Rat.Cast.Order
import Mathlib.Tactic.Ring
import Mathlib.Tactic.NormNum
import Mathlib.Tactic.Qify
/-
The arithmetic behind the stability of scores that have been saved and loaded once.  Positions on the line are scaled so
that the decimals with the given number of digits are the integers: two neighbouring doubles are at `X` and `Y`, their
decimals are `D` and `D'`, and these decimals are rounded to doubles `E` and `E'`, which are multiples of a power of two.
-/
namespace Tokengeex.Stable

/-- `D` and `D'` are rounded to multiples of the same power of two, `2h`. -/
theorem same_grid {h D D' g g' : ℤ} {X Y w : ℚ} (h1 : 1 ≤ h) (hw : 1 < w) (hY : Y = X + w) (hD1 : X - 1 / 2 ≤ D) (hD2 : D ≤ X + 1 / 2)
    (hD1' : Y - 1 / 2 ≤ D') (hD2' : D' ≤ Y + 1 / 2) (hE1 : X + w / 2 ≤ (2 * h * g : ℤ)) (hE2 : (2 * h * g : ℤ) ≤ Y + w / 2)
    (hr1 : 2 * h * g - D ≤ h) (hr2 : D - 2 * h * g ≤ h) (ht : 2 * h * g - D = h → g % 2 = 0)
    (hr1' : 2 * h * g' - D' ≤ h) (hr2' : D' - 2 * h * g' ≤ h) (ht' : 2 * h * g' - D' = h → g' % 2 = 0)
    (hne : w ≠ 2 * h - 1) :
    g' = g ∨ (Y - w / 2 < (2 * h * g' : ℤ) ∧ (2 * h * g' : ℤ) < Y + w / 2) := by
  have hDD : D < D' := by
    have : (D : ℚ) < D' := by linarith
    exact_mod_cast this
  have hge : g ≤ g' := by
    by_contra hlt
    have : h * (g' + 1) ≤ h * g := mul_le_mul_of_nonneg_left (by omega) (by omega)
    nlinarith
  rcases Int.lt_or_eq_of_le hge with hlt | heq
  · right
    obtain ⟨i, rfl⟩ : ∃ i : ℤ, g' = g + 1 + i := ⟨g' - g - 1, by ring⟩
    have hi : 0 ≤ i := by omega
    have hhi : 0 ≤ h * i := mul_nonneg (by omega) hi
    have e : 2 * h * (g + 1 + i) = 2 * h * g + 2 * h + 2 * (h * i) := by ring
    rw [e] at hr1' hr2' ht' ⊢
    generalize hE : 2 * h * g = E at *
    generalize hI : h * i = I at *
    have hq1 : (2 * h : ℚ) - 1 ≤ w := by
      have : ((E + 2 * h + 2 * I : ℤ) : ℚ) - D' ≤ h := by exact_mod_cast hr1'
      push_cast at this
      have hI0 : (0 : ℚ) ≤ I := by exact_mod_cast hhi
      linarith
    have hq2 : (2 * h : ℚ) - 1 < w := lt_of_le_of_ne hq1 (Ne.symm hne)
    have hI0 : (0 : ℚ) ≤ I := by exact_mod_cast hhi
    have hh0 : (1 : ℚ) ≤ h := by exact_mod_cast h1
    refine ⟨by push_cast; linarith, ?_⟩
    by_contra hge
    have hge := not_lt.1 hge
    -- then `D'` is half-way between two multiples
    have htie : E + 2 * h + 2 * I - D' = h := by
      have : (h : ℚ) - 1 < ((E + 2 * h + 2 * I - D' : ℤ) : ℚ) := by push_cast at hge ⊢; linarith
      have : h - 1 < E + 2 * h + 2 * I - D' := by exact_mod_cast this
      omega
    have heven := ht' htie
    have htieq : (E : ℚ) + 2 * h + 2 * I - D' = h := by exact_mod_cast htie
    have hi0 : i = 0 := by
      by_contra hne0
      have : h * 1 ≤ h * i := mul_le_mul_of_nonneg_left (by omega) (by omega)
      rw [hI] at this
      have hIh : (h : ℚ) ≤ I := by
        have : h ≤ I := by omega
        exact_mod_cast this
      push_cast at hge
      linarith
    have hodd : E - D ≠ h := by
      intro hc
      have := ht hc
      omega
    have hED : E - D ≤ h - 1 := by omega
    have hEDq : (E : ℚ) - D ≤ h - 1 := by exact_mod_cast hED
    linarith
  · left; exact heq.symm

/-- A power of two, `Q = 4hq`, lies between `D` and `D'`: from there on the multiples are those of `4h`. -/
theorem upper_grid {h D D' g g' q : ℤ} {X Y w : ℚ} (h1 : 1 ≤ h) (hY : Y = X + w) (hD1 : X - 1 / 2 ≤ D) (hD2 : D ≤ X + 1 / 2)
    (hD1' : Y - 1 / 2 ≤ D') (hD2' : D' ≤ Y + 1 / 2) (hE1 : X + w / 2 ≤ (2 * h * g : ℤ)) (hE2 : (2 * h * g : ℤ) ≤ Y + w / 2)
    (hr1 : 2 * h * g - D ≤ h) (hr2 : D - 2 * h * g ≤ h) (ht : 2 * h * g - D = h → g % 2 = 0)
    (hr1' : 4 * h * g' - D' ≤ 2 * h) (hr2' : D' - 4 * h * g' ≤ 2 * h) (ht' : 4 * h * g' - D' = 2 * h → g' % 2 = 0)
    (hw : 2 * h < w) (hDq : D < 4 * h * q) (hqD : 4 * h * q ≤ D') (hEq : 2 * h * g ≤ 4 * h * q) (hq : q % 2 = 0) :
    4 * h * g' = 2 * h * g := by
  have htie : 2 * h * g - D = h := by
    have : (h : ℚ) - 1 < ((2 * h * g - D : ℤ) : ℚ) := by push_cast at hE1 ⊢; linarith
    have : h - 1 < 2 * h * g - D := by exact_mod_cast this
    omega
  have heven := ht htie
  obtain ⟨i, rfl⟩ : ∃ i, g = 2 * i := ⟨g / 2, by omega⟩
  have e : 2 * h * (2 * i) = 4 * h * i := by ring
  rw [e] at hE1 hE2 hr1 hr2 hEq htie ⊢
  have htieq : ((4 * h * i : ℤ) : ℚ) - D = h := by exact_mod_cast htie
  have hup : D' ≤ 4 * h * i + h + 1 := by
    have : (D' : ℚ) ≤ (4 * h * i : ℤ) + h + 1 := by linarith
    exact_mod_cast this
  have hi : i = q := by
    by_contra hne
    rcases Int.lt_or_gt_of_ne hne with hlt | hgt
    · have : h * (i + 1) ≤ h * q := mul_le_mul_of_nonneg_left (by omega) (by omega)
      nlinarith
    · have : h * (q + 1) ≤ h * i := mul_le_mul_of_nonneg_left (by omega) (by omega)
      nlinarith
  subst hi
  have hlow : i ≤ g' := by
    by_contra hlt
    have : h * (g' + 1) ≤ h * i := mul_le_mul_of_nonneg_left (by omega) (by omega)
    nlinarith
  rcases Int.lt_or_eq_of_le hlow with hlt | heq
  · exfalso
    have h2 : h * (i + 1) ≤ h * g' := mul_le_mul_of_nonneg_left (by omega) (by omega)
    have h3 : 4 * h * i + 2 * h ≤ D' := by nlinarith
    have h4 : h = 1 := by omega
    subst h4
    have : g' % 2 = 0 := ht' (by omega)
    omega
  · rw [heq]

/-- The other direction: `Q = 2kq` lies between `D'` and `D`, and `D'` is rounded to multiples of `2k`, `D` to multiples of
`4k`. -/
theorem lower_grid {k D' E g' q : ℤ} {Y w : ℚ} (h1 : 1 ≤ k) (hD1' : Y - 1 / 2 ≤ D') (hD2' : D' ≤ Y + 1 / 2)
    (hE2 : (E : ℚ) ≤ Y + w / 2)
    (hr1' : 2 * k * g' - D' ≤ k) (hr2' : D' - 2 * k * g' ≤ k) (ht' : 2 * k * g' - D' = k ∨ D' - 2 * k * g' = k → g' % 2 = 0)
    (hw : 2 * k < w) (hDq : D' < 2 * k * q) (hqE : 2 * k * q ≤ E) (hq : q % 2 = 0) :
    (D' ≤ 2 * k * g' ∧ 2 * k * g' ≤ E) ∨ (Y - w / 2 < (2 * k * g' : ℤ) ∧ (2 * k * g' : ℤ) < Y + w / 2) := by
  have hk0 : (1 : ℚ) ≤ k := by exact_mod_cast h1
  have hle : g' ≤ q := by
    by_contra hlt
    have : k * (q + 1) ≤ k * g' := mul_le_mul_of_nonneg_left (by omega) (by omega)
    nlinarith
  by_cases hge : D' ≤ 2 * k * g'
  · left
    refine ⟨hge, le_trans ?_ hqE⟩
    have : k * g' ≤ k * q := mul_le_mul_of_nonneg_left hle (by omega)
    nlinarith
  · right
    have hlt : 2 * k * g' < D' := by omega
    have hltq : ((2 * k * g' : ℤ) : ℚ) < D' := by exact_mod_cast hlt
    refine ⟨?_, by linarith⟩
    by_contra hge
    have hge := not_lt.1 hge
    have htie : D' - 2 * k * g' = k := by
      have : (k : ℚ) - 1 < ((D' - 2 * k * g' : ℤ) : ℚ) := by push_cast at hge ⊢; linarith
      have : k - 1 < D' - 2 * k * g' := by exact_mod_cast this
      omega
    have heven := ht' (.inr htie)
    have hlt2 : g' + 2 ≤ q := by
      by_contra hc
      have : g' = q := by omega
      subst this
      omega
    have h2 : k * (g' + 2) ≤ k * q := mul_le_mul_of_nonneg_left hlt2 (by omega)
    have h3 : D' + 3 * k ≤ E := by nlinarith
    have h3q : (D' : ℚ) + 3 * k ≤ E := by exact_mod_cast h3
    have htieq : (D' : ℚ) - (2 * k * g' : ℤ) = k := by exact_mod_cast htie
    linarith

end Tokengeex.Stable

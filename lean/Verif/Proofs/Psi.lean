import Verif.Spec.Psi
import Verif.Proofs.Digamma
import Mathlib.Analysis.SpecialFunctions.Gamma.BohrMollerup
import Mathlib.Analysis.SpecificLimits.Basic
import Mathlib.Analysis.Calculus.Deriv.ZPow
import Mathlib.Analysis.Calculus.MeanValue
/-
The implemented digamma function is close to the digamma function.
-/
namespace Tokengeex
open Spec Set Filter

/-! ### Recursion and rough bounds -/

theorem psi_eq {x : ℝ} (hx : 0 < x) : psi x = deriv (Real.log ∘ Real.Gamma) x := by
  rw [Function.comp_def, deriv.log (Real.differentiableAt_Gamma fun m => ne_of_gt (by have := m.cast_nonneg (α := ℝ); linarith))
    (Real.Gamma_pos_of_pos hx).ne']
  rfl

theorem logGamma_rec {x : ℝ} (hx : 0 < x) : (Real.log ∘ Real.Gamma) (x + 1) = (Real.log ∘ Real.Gamma) x + Real.log x := by
  simp only [Function.comp_apply, Real.Gamma_add_one hx.ne', Real.log_mul hx.ne' (Real.Gamma_pos_of_pos hx).ne', add_comm]

theorem logGamma_diff {x : ℝ} (hx : 0 < x) : DifferentiableAt ℝ (Real.log ∘ Real.Gamma) x :=
  (Real.differentiableAt_Gamma fun m => ne_of_gt (by have := m.cast_nonneg (α := ℝ); linarith)).log (Real.Gamma_pos_of_pos hx).ne'

theorem psi_add_one {x : ℝ} (hx : 0 < x) : psi (x + 1) = psi x + 1 / x := by
  rw [psi_eq hx, psi_eq (by linarith)]
  rw [← deriv_comp_add_const, one_div, ← Real.deriv_log, ← deriv_add (logGamma_diff hx) (Real.differentiableAt_log hx.ne')]
  apply EventuallyEq.deriv_eq
  filter_upwards [eventually_gt_nhds hx] using fun y hy => logGamma_rec hy

theorem psi_le_log {x : ℝ} (hx : 0 < x) : psi x ≤ Real.log x := by
  rw [psi_eq hx]
  refine (Real.convexOn_log_Gamma.deriv_le_slope (mem_Ioi.2 hx) (mem_Ioi.2 (by linarith : (0 : ℝ) < x + 1)) (by linarith)
    (logGamma_diff hx)).trans (le_of_eq ?_)
  rw [slope_def_field, logGamma_rec hx]
  simp

theorem log_le_psi {x : ℝ} (hx : 0 < x) : Real.log x - 1 / x ≤ psi x := by
  have h : Real.log x ≤ psi (x + 1) := by
    rw [psi_eq (by linarith)]
    refine (le_of_eq ?_).trans (Real.convexOn_log_Gamma.slope_le_deriv (mem_Ioi.2 hx) (mem_Ioi.2 (by linarith : (0 : ℝ) < x + 1))
      (by linarith) (logGamma_diff (by linarith)))
    rw [slope_def_field, logGamma_rec hx]
    simp
  rw [psi_add_one hx] at h
  linarith

/-! ### The series -/

namespace Pruner

theorem psi_tail_rough {y : ℝ} (hy : 7 ≤ y) : |psi y - digTail y| ≤ 2 / (y - 1 / 2) := by
  have hz : 0 < y - 1 / 2 := by linarith
  have hy0 : 0 < y := by linarith
  have h1 := psi_le_log hy0
  have h2 := log_le_psi hy0
  unfold digTail
  set z := y - 1 / 2 with hzd
  have hz1 : 13 / 2 ≤ z := by rw [hzd]; linarith
  have hinv : 1 / z ≤ 2 / 13 := by rw [div_le_div_iff₀ hz (by norm_num)]; linarith
  have hinv0 : 0 < 1 / z := by positivity
  obtain ⟨h3, h4⟩ := digSeries_bounds (q := 1 / z * (1 / z)) (by positivity) (by nlinarith)
  have h5 : Real.log z ≤ Real.log y := Real.log_le_log hz (by linarith)
  have h6 : Real.log y - Real.log z ≤ 1 / 2 * (1 / z) := by
    rw [← Real.log_div hy0.ne' hz.ne']
    refine (Real.log_le_sub_one_of_pos (by positivity)).trans (le_of_eq ?_)
    field_simp
    rw [hzd]; ring
  have h7 : 1 / y ≤ 1 / z := one_div_le_one_div_of_le hz (by linarith)
  have h8 : 2 / z = 2 * (1 / z) := by ring
  rw [h8, abs_le]
  constructor <;> nlinarith

/-- `digTail` as a sum of powers. -/
noncomputable def tailOf (z : ℝ) : ℝ :=
  Real.log z + 1 / 24 * z ^ (-2 : ℤ) - 7 / 960 * z ^ (-4 : ℤ) + 31 / 8064 * z ^ (-6 : ℤ) - 127 / 30720 * z ^ (-8 : ℤ)

noncomputable def tailOf' (z : ℝ) : ℝ :=
  z⁻¹ - 1 / 12 * z ^ (-3 : ℤ) + 7 / 240 * z ^ (-5 : ℤ) - 31 / 1344 * z ^ (-7 : ℤ) + 127 / 3840 * z ^ (-9 : ℤ)

theorem tailOf_eq (y : ℝ) : digTail y = tailOf (y - 1 / 2) := by
  unfold digTail tailOf digSeries
  set z := y - 1 / 2
  have e2 : z ^ (-2 : ℤ) = (1 / z) ^ 2 := by rw [one_div, zpow_neg, inv_pow]; norm_cast
  have e4 : z ^ (-4 : ℤ) = (1 / z) ^ 4 := by rw [one_div, zpow_neg, inv_pow]; norm_cast
  have e6 : z ^ (-6 : ℤ) = (1 / z) ^ 6 := by rw [one_div, zpow_neg, inv_pow]; norm_cast
  have e8 : z ^ (-8 : ℤ) = (1 / z) ^ 8 := by rw [one_div, zpow_neg, inv_pow]; norm_cast
  rw [e2, e4, e6, e8]
  ring

theorem tailOf_deriv {z : ℝ} (hz : 0 < z) : HasDerivAt tailOf (tailOf' z) z := by
  have p := fun m : ℤ => hasDerivAt_zpow m z (Or.inl hz.ne')
  have := ((((Real.hasDerivAt_log hz.ne').add ((p (-2)).const_mul (1 / 24))).sub ((p (-4)).const_mul (7 / 960))).add
    ((p (-6)).const_mul (31 / 8064))).sub ((p (-8)).const_mul (127 / 30720))
  refine this.congr_deriv ?_
  unfold tailOf'
  norm_num
  ring

/-- The step error. -/
noncomputable def stepErr (y : ℝ) : ℝ := y⁻¹ - tailOf (y + 1 / 2) + tailOf (y - 1 / 2)

noncomputable def stepErr' (y : ℝ) : ℝ := -(y ^ 2)⁻¹ - tailOf' (y + 1 / 2) + tailOf' (y - 1 / 2)

theorem stepErr_deriv {y : ℝ} (hy : 1 / 2 < y) : HasDerivAt stepErr (stepErr' y) y := by
  have h1 := (tailOf_deriv (z := y + 1 / 2) (by linarith)).comp_add_const y (1 / 2)
  have h2 := (tailOf_deriv (z := y - 1 / 2) (by linarith)).comp_sub_const y (1 / 2)
  exact ((hasDerivAt_inv (by linarith : y ≠ 0)).sub h1).add h2

/-- The bound. -/
noncomputable def tailErr (z : ℝ) : ℝ := 1 / 100 * z ^ (-10 : ℤ)

noncomputable def tailErr' (z : ℝ) : ℝ := -(1 / 10) * z ^ (-11 : ℤ)

theorem tailErr_deriv {z : ℝ} (hz : 0 < z) : HasDerivAt tailErr (tailErr' z) z := by
  refine ((hasDerivAt_zpow (-10) z (Or.inl hz.ne')).const_mul (1 / 100)).congr_deriv ?_
  unfold tailErr'
  norm_num
  ring

theorem zpow_neg_half {n : ℕ} {x : ℝ} : (x / 2) ^ (-(n : ℤ)) = 2 ^ n / x ^ n := by
  rw [zpow_neg, zpow_natCast, div_pow, inv_div]

theorem stepErr'_form {v : ℝ} (hv : 0 ≤ v) : stepErr' (7 + v / 2) =
    ((531079657157476 * v ^ 0 + 303017676934336 * v ^ 1 + 75656718071504 * v ^ 2 + 10796481166912 * v ^ 3 + 963141950072 * v ^ 4 + 55001144128 * v ^ 5 + 1963480592 * v ^ 6 + 40062400 * v ^ 7 + 357700 * v ^ 8) / 105) / ((14 + v) ^ 2 * (13 + v) ^ 9 * (15 + v) ^ 9) := by
  have h14 : 14 + v ≠ 0 := by positivity
  have h13 : 13 + v ≠ 0 := by positivity
  have h15 : 15 + v ≠ 0 := by positivity
  unfold stepErr' tailOf'
  rw [show (7 + v / 2 + 1 / 2 : ℝ) = (15 + v) / 2 by ring, show (7 + v / 2 - 1 / 2 : ℝ) = (13 + v) / 2 by ring,
    show (7 + v / 2 : ℝ) = (14 + v) / 2 by ring]
  have e := fun (n : ℕ) (x : ℝ) => zpow_neg_half (n := n) (x := x)
  rw [show (-3 : ℤ) = -((3 : ℕ) : ℤ) by norm_num, show (-5 : ℤ) = -((5 : ℕ) : ℤ) by norm_num,
    show (-7 : ℤ) = -((7 : ℕ) : ℤ) by norm_num, show (-9 : ℤ) = -((9 : ℕ) : ℤ) by norm_num]
  simp only [e]
  field_simp
  ring

theorem stepErr'_upper {v : ℝ} (hv : 0 ≤ v) : stepErr' (7 + v / 2) + tailErr' (7 + v / 2 - 1 / 2) - tailErr' (7 + v / 2 + 1 / 2) =
    -(((8708979682366132092 * v ^ 0 + 7150947316435577760 * v ^ 1 + 2697812018212653080 * v ^ 2 + 618562727168942304 * v ^ 3 + 96030245498460292 * v ^ 4 + 10637971128375360 * v ^ 5 + 862506480511056 * v ^ 6 + 51585507019200 * v ^ 7 + 2259397786308 * v ^ 8 + 70691849760 * v ^ 9 + 1500047896 * v ^ 10 + 19385184 * v ^ 11 + 115388 * v ^ 12) / 105) / ((14 + v) ^ 2 * (13 + v) ^ 11 * (15 + v) ^ 11)) := by
  have h14 : 14 + v ≠ 0 := by positivity
  have h13 : 13 + v ≠ 0 := by positivity
  have h15 : 15 + v ≠ 0 := by positivity
  rw [stepErr'_form hv]
  unfold tailErr'
  rw [show (7 + v / 2 + 1 / 2 : ℝ) = (15 + v) / 2 by ring, show (7 + v / 2 - 1 / 2 : ℝ) = (13 + v) / 2 by ring]
  rw [show (-11 : ℤ) = -((11 : ℕ) : ℤ) by norm_num, zpow_neg_half, zpow_neg_half]
  field_simp
  ring

theorem stepErr'_nonneg {y : ℝ} (hy : 7 ≤ y) : 0 ≤ stepErr' y := by
  obtain ⟨v, hv, rfl⟩ : ∃ v : ℝ, 0 ≤ v ∧ y = 7 + v / 2 := ⟨2 * (y - 7), by linarith, by ring⟩
  rw [stepErr'_form hv]
  positivity

theorem stepErr'_nonpos {y : ℝ} (hy : 7 ≤ y) : stepErr' y + tailErr' (y - 1 / 2) - tailErr' (y + 1 / 2) ≤ 0 := by
  obtain ⟨v, hv, rfl⟩ : ∃ v : ℝ, 0 ≤ v ∧ y = 7 + v / 2 := ⟨2 * (y - 7), by linarith, by ring⟩
  rw [stepErr'_upper hv]
  exact neg_nonpos.2 (by positivity)

/-- The difference between the digamma function and the series changes by `stepErr`. -/
theorem psi_tail_step {y : ℝ} (hy : 7 ≤ y) :
    (psi (y + 1) - digTail (y + 1)) - (psi y - digTail y) = stepErr y := by
  rw [psi_add_one (by linarith), tailOf_eq, tailOf_eq, stepErr, show y + 1 - 1 / 2 = y + 1 / 2 by ring]
  ring

/-- A quantity that does not exceed those with larger arguments, which are at most `4 / n`, is not positive. -/
theorem nonpos_of_small {x : ℝ} (h : ∀ n : ℕ, 0 < n → x ≤ 4 / n) : x ≤ 0 := by
  refine ge_of_tendsto (tendsto_const_div_atTop_nhds_zero_nat (4 : ℝ)) ?_
  filter_upwards [eventually_gt_atTop 0] with n hn using h n hn

theorem rough_nat {y : ℝ} (hy : 7 ≤ y) {n : ℕ} (hn : 0 < n) : |psi (y + n) - digTail (y + n)| ≤ 2 / n := by
  have hn' : (0 : ℝ) < n := by exact_mod_cast hn
  exact (psi_tail_rough (by linarith)).trans (div_le_div_of_nonneg_left (by norm_num) hn' (by linarith))

theorem stepErr_nonpos {y : ℝ} (hy : 7 ≤ y) : stepErr y ≤ 0 := by
  have hmono : MonotoneOn stepErr (Ici 7) := by
    refine monotoneOn_of_deriv_nonneg (convex_Ici 7) ?_ ?_ ?_
    · intro x hx
      have : (7 : ℝ) ≤ x := hx
      exact (stepErr_deriv (by linarith)).continuousAt.continuousWithinAt
    · intro x hx
      rw [interior_Ici] at hx
      have : (7 : ℝ) < x := hx
      exact (stepErr_deriv (by linarith)).differentiableAt.differentiableWithinAt
    · intro x hx
      rw [interior_Ici] at hx
      have : (7 : ℝ) < x := hx
      rw [(stepErr_deriv (by linarith)).deriv]
      exact stepErr'_nonneg this.le
  refine nonpos_of_small fun n hn => ?_
  have hn' : (0 : ℝ) < n := by exact_mod_cast hn
  have h1 : stepErr y ≤ stepErr (y + n) := hmono (mem_Ici.2 hy) (mem_Ici.2 (by linarith)) (by linarith)
  have h2 := psi_tail_step (y := y + n) (by linarith)
  have h3 := abs_le.1 (rough_nat hy hn)
  have h4 := abs_le.1 (rough_nat (y := y + 1) (by linarith) hn)
  rw [show y + 1 + (n : ℝ) = y + n + 1 by ring] at h4
  have h5 : (4 : ℝ) / n = 2 / n + 2 / n := by ring
  rw [h5]
  linarith [h3.1, h4.2]

theorem stepErr_lower {y : ℝ} (hy : 7 ≤ y) : tailErr (y + 1 / 2) - tailErr (y - 1 / 2) ≤ stepErr y := by
  have hd : ∀ x : ℝ, 7 ≤ x → HasDerivAt (fun x => stepErr x + tailErr (x - 1 / 2) - tailErr (x + 1 / 2))
      (stepErr' x + tailErr' (x - 1 / 2) - tailErr' (x + 1 / 2)) x := by
    intro x hx
    exact ((stepErr_deriv (by linarith)).add ((tailErr_deriv (z := x - 1 / 2) (by linarith)).comp_sub_const x (1 / 2))).sub
      ((tailErr_deriv (z := x + 1 / 2) (by linarith)).comp_add_const x (1 / 2))
  have hanti : AntitoneOn (fun x => stepErr x + tailErr (x - 1 / 2) - tailErr (x + 1 / 2)) (Ici 7) := by
    refine antitoneOn_of_deriv_nonpos (convex_Ici 7) ?_ ?_ ?_
    · intro x hx
      exact (hd x hx).continuousAt.continuousWithinAt
    · intro x hx
      rw [interior_Ici] at hx
      exact (hd x (le_of_lt hx)).differentiableAt.differentiableWithinAt
    · intro x hx
      rw [interior_Ici] at hx
      rw [(hd x (le_of_lt hx)).deriv]
      exact stepErr'_nonpos (le_of_lt hx)
  have herr : ∀ z z' : ℝ, 0 < z → z ≤ z' → 0 ≤ tailErr z' ∧ tailErr z' ≤ tailErr z := by
    intro z z' hz hzz
    unfold tailErr
    constructor
    · have : 0 < z' := by linarith
      positivity
    · rw [zpow_neg, zpow_neg]
      refine mul_le_mul_of_nonneg_left ?_ (by norm_num)
      refine inv_anti₀ (by positivity) ?_
      exact_mod_cast pow_le_pow_left₀ hz.le hzz 10
  have key : -(stepErr y + tailErr (y - 1 / 2) - tailErr (y + 1 / 2)) ≤ 0 := by
    refine nonpos_of_small fun n hn => ?_
    have hn' : (0 : ℝ) < n := by exact_mod_cast hn
    have h1 := hanti (mem_Ici.2 hy) (mem_Ici.2 (by linarith : (7 : ℝ) ≤ y + n)) (by linarith)
    simp only at h1
    have h2 := psi_tail_step (y := y + n) (by linarith)
    have h3 := abs_le.1 (rough_nat hy hn)
    have h4 := abs_le.1 (rough_nat (y := y + 1) (by linarith) hn)
    rw [show y + 1 + (n : ℝ) = y + n + 1 by ring] at h4
    have h5 : (4 : ℝ) / n = 2 / n + 2 / n := by ring
    obtain ⟨_, h6⟩ := herr (y + n - 1 / 2) (y + n + 1 / 2) (by linarith) (by linarith)
    rw [h5]
    linarith [h3.2, h4.1]
  linarith

/-- The series is a little too small, for arguments from 7 on. -/
theorem psi_tail {y : ℝ} (hy : 7 ≤ y) : 0 ≤ psi y - digTail y ∧ psi y - digTail y ≤ tailErr (y - 1 / 2) := by
  constructor
  · have hdown : ∀ n : ℕ, psi (y + n) - digTail (y + n) ≤ psi y - digTail y := by
      intro n
      induction n with
      | zero => simp
      | succ n ih =>
        have h1 := psi_tail_step (y := y + n) (by have := n.cast_nonneg (α := ℝ); linarith)
        have h2 := stepErr_nonpos (y := y + n) (by have := n.cast_nonneg (α := ℝ); linarith)
        push_cast
        rw [← add_assoc]
        linarith
    have : -(psi y - digTail y) ≤ 0 := by
      refine nonpos_of_small fun n hn => ?_
      have hn' : (0 : ℝ) < n := by exact_mod_cast hn
      have h3 := abs_le.1 (rough_nat hy hn)
      have h5 : (2 : ℝ) / n ≤ 4 / n := div_le_div_of_nonneg_right (by norm_num) hn'.le
      linarith [hdown n, h3.1]
    linarith
  · have hup : ∀ n : ℕ, (psi y - digTail y) - tailErr (y - 1 / 2) ≤ (psi (y + n) - digTail (y + n)) - tailErr (y + n - 1 / 2) := by
      intro n
      induction n with
      | zero => simp
      | succ n ih =>
        have h1 := psi_tail_step (y := y + n) (by have := n.cast_nonneg (α := ℝ); linarith)
        have h2 := stepErr_lower (y := y + n) (by have := n.cast_nonneg (α := ℝ); linarith)
        push_cast
        rw [← add_assoc, show y + (n : ℝ) + 1 - 1 / 2 = y + n + 1 / 2 by ring]
        linarith
    have : (psi y - digTail y) - tailErr (y - 1 / 2) ≤ 0 := by
      refine nonpos_of_small fun n hn => ?_
      have hn' : (0 : ℝ) < n := by exact_mod_cast hn
      have h3 := abs_le.1 (rough_nat hy hn)
      have h5 : (2 : ℝ) / n ≤ 4 / n := div_le_div_of_nonneg_right (by norm_num) hn'.le
      have h6 : 0 ≤ tailErr (y + n - 1 / 2) := by
        unfold tailErr
        have : 0 < y + n - 1 / 2 := by linarith
        positivity
      linarith [hup n, h3.2]
    linarith

theorem tailErr_small {y : ℝ} (hy : 7 ≤ y) : tailErr (y - 1 / 2) ≤ 1 / 10000000000 := by
  unfold tailErr
  have h : ((13 : ℝ) / 2) ^ 10 ≤ (y - 1 / 2) ^ 10 := pow_le_pow_left₀ (by norm_num) (by linarith) 10
  have h2 : (y - 1 / 2) ^ (-10 : ℤ) ≤ (((13 : ℝ) / 2) ^ 10)⁻¹ := by
    rw [zpow_neg]
    exact inv_anti₀ (by norm_num) (by exact_mod_cast h)
  have h3 : (((13 : ℝ) / 2) ^ 10)⁻¹ ≤ 1 / 100000000 := by norm_num
  linarith

/-- The loop keeps the difference between the result and the digamma function. -/
theorem digammaLoop_psi (n : Nat) : ∀ x : ℝ, 0 < x → 7 - n ≤ x → ∀ fuel ≥ n + 1, ∀ r : ℝ,
    ∃ p, digammaLoop fuel r x = .ok p ∧ 7 ≤ p.2 ∧ p.1 + psi p.2 = r + psi x := by
  induction n with
  | zero =>
    intro x hx h7 fuel hf r
    obtain ⟨k, rfl⟩ : ∃ k, fuel = k + 1 := ⟨fuel - 1, by omega⟩
    have h7' : 7 ≤ x := by simpa using h7
    exact ⟨(r, x), by rw [digammaLoop_succ, if_neg (by linarith)], h7', rfl⟩
  | succ n ih =>
    intro x hx h7 fuel hf r
    obtain ⟨k, rfl⟩ : ∃ k, fuel = k + 1 := ⟨fuel - 1, by omega⟩
    by_cases hlt : x < 7
    · obtain ⟨p, h1, h2, h3⟩ := ih (x + 1) (by linarith) (by push_cast at h7; linarith) k (by omega) (r - 1 / x)
      refine ⟨p, by rw [digammaLoop_succ, if_pos hlt, h1], h2, ?_⟩
      rw [h3, psi_add_one hx]
      ring
    · exact ⟨(r, x), by rw [digammaLoop_succ, if_neg hlt], not_lt.1 hlt, rfl⟩

theorem digamma_psi {x : ℝ} (hx : 0 < x) : ∃ d, (∀ fuel ≥ 8, digamma fuel x = .ok d) ∧
    0 ≤ psi x - d ∧ psi x - d ≤ 1 / 10000000000 := by
  obtain ⟨p, h1, h2, h3⟩ := digammaLoop_psi 7 x hx (by norm_num; linarith) 8 (by omega) 0
  have hall : ∀ fuel ≥ 8, digamma fuel x = .ok (p.1 + digTail p.2) := by
    intro fuel hf
    obtain ⟨q, g1, g2, g3⟩ := digammaLoop_psi 7 x hx (by norm_num; linarith) fuel (by omega) 0
    have hmono : ∀ (a b : Nat) (r y : ℝ) (v : ℝ × ℝ), a ≤ b → digammaLoop a r y = .ok v → digammaLoop b r y = .ok v := by
      intro a
      induction a with
      | zero => intro b r y v _ h; simp [digammaLoop] at h
      | succ a ih =>
        intro b r y v hb h
        obtain ⟨b, rfl⟩ : ∃ k, b = k + 1 := ⟨b - 1, by omega⟩
        rw [digammaLoop_succ] at h ⊢
        by_cases hlt : y < 7
        · rw [if_pos hlt] at h ⊢
          exact ih b _ _ v (by omega) h
        · rw [if_neg hlt] at h ⊢
          exact h
    rw [digamma_bind, hmono 8 fuel 0 x p hf h1]
    rfl
  refine ⟨p.1 + digTail p.2, hall, ?_⟩
  obtain ⟨h4, h5⟩ := psi_tail h2
  have h6 := tailErr_small h2
  constructor <;> linarith

end Pruner
end Tokengeex

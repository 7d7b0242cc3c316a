import Verif.Proofs.PsiLip
import Verif.Proofs.NearF64
/-
The series of the implemented digamma function with doubles.
-/
namespace Tokengeex
open Spec ScoreOps
namespace F64

theorem Near.mono {x : F64} {a e f : ℝ} (h : Near x a e) (hf : e ≤ f) : Near x a f := ⟨h.1, h.2.trans hf⟩

theorem log_bound {Z : ℝ} (h1 : 1 ≤ Z) (h2 : Z ≤ 2 ^ 100) : 0 ≤ Real.log Z ∧ Real.log Z ≤ 100 := by
  refine ⟨Real.log_nonneg h1, ?_⟩
  have := Real.log_le_log (by linarith) h2
  rw [Real.log_pow] at this
  have h3 := Real.log_le_sub_one_of_pos (show (0 : ℝ) < 2 by norm_num)
  push_cast at this
  linarith

theorem log_close {y Z : ℝ} (hZ : 1 ≤ Z) (h : |y - Z| ≤ 2 * u * Z) : 0 < y ∧ |Real.log y - Real.log Z| ≤ 4 * u := by
  have hu : u ≤ 1 / 1000 := by unfold u; norm_num
  have hu0 := u_pos
  rw [abs_le] at h
  have hy : 0 < y := by nlinarith
  refine ⟨hy, ?_⟩
  have hZ0 : 0 < Z := by linarith
  have h1 := Real.log_le_sub_one_of_pos (div_pos hy hZ0)
  have h2 := Real.one_sub_inv_le_log_of_pos (div_pos hy hZ0)
  rw [Real.log_div hy.ne' hZ0.ne'] at h1 h2
  have h3 : y / Z ≤ 1 + 2 * u := by
    rw [div_le_iff₀ hZ0]
    nlinarith
  have h4 : (y / Z)⁻¹ ≤ 1 + 4 * u := by
    rw [inv_div, div_le_iff₀ hy]
    nlinarith [mul_pos hu0 hZ0]
  rw [abs_le]
  constructor <;> linarith

theorem half_sub {X : F64} (hX : Spec.Finite X) (h7 : 7 ≤ real X) (hB : real X ≤ 2 ^ 99) :
    Spec.Finite (sub X (div (ofNat 1) (ofNat 2))) ∧
      |real (sub X (div (ofNat 1) (ofNat 2))) - (real X - 1 / 2)| ≤ 2 * u * (real X - 1 / 2) := by
  have hu0 := u_pos
  have hu : u ≤ 1 / 1000 := by unfold u; norm_num
  have hh := near_fraction (a := 1) (b := 2) (by norm_num) (by norm_num) (by norm_num) (by norm_num)
  rw [Nat.cast_one, Nat.cast_ofNat] at hh
  have hx : Near X (real X) 0 := ⟨hX, by simp⟩
  have := Near.sub hx hh (B := real X - 1 / 2 + 2 * u) (by rw [abs_of_pos (by linarith)]; linarith)
    (by
      have : (2 : ℝ) ^ 99 + 1 ≤ 2 ^ 100 := by norm_num
      linarith)
  refine ⟨this.1, this.2.trans ?_⟩
  nlinarith

/-- The series of `digamma`. -/
def tail [Elementary] (y : F64) : F64 :=
  (sub (add (sub (add (Elementary.ln y) (mul (div (ofNat 1) (ofNat 24)) (mul (div (ofNat 1) y) (div (ofNat 1) y))))
        (mul (div (ofNat 7) (ofNat 960)) (mul (mul (div (ofNat 1) y) (div (ofNat 1) y)) (mul (div (ofNat 1) y) (div (ofNat 1) y)))))
      (mul (mul (div (ofNat 31) (ofNat 8064)) (mul (mul (div (ofNat 1) y) (div (ofNat 1) y)) (mul (div (ofNat 1) y) (div (ofNat 1) y))))
        (mul (div (ofNat 1) y) (div (ofNat 1) y))))
      (mul (mul (div (ofNat 127) (ofNat 30720)) (mul (mul (div (ofNat 1) y) (div (ofNat 1) y)) (mul (div (ofNat 1) y) (div (ofNat 1) y))))
        (mul (mul (div (ofNat 1) y) (div (ofNat 1) y)) (mul (div (ofNat 1) y) (div (ofNat 1) y)))))

set_option linter.constructorNameAsVariable false in
/-- The series, with doubles. -/
theorem near_tail [Elementary] {ε : ℝ} (L : LnWithin ε) (hε : ε ≤ (1 / 2) ^ 40) {y : F64} {Z : ℝ} (hy : Spec.Finite y) (hZ : 13 / 2 ≤ Z)
    (hB : Z ≤ 2 ^ 100) (h : |real y - Z| ≤ 2 * u * Z) :
    Near (tail y)
      (Real.log Z + 1 / 24 * (1 / Z * (1 / Z)) - 7 / 960 * (1 / Z * (1 / Z) * (1 / Z * (1 / Z))) +
        31 / 8064 * (1 / Z * (1 / Z) * (1 / Z * (1 / Z))) * (1 / Z * (1 / Z)) -
        127 / 30720 * (1 / Z * (1 / Z) * (1 / Z * (1 / Z))) * (1 / Z * (1 / Z) * (1 / Z * (1 / Z)))) ((1 / 2) ^ 39) := by
  unfold tail
  have hu0 := u_pos
  have hu : u ≤ (1 / 2) ^ 53 := le_of_eq rfl
  have hZ0 : 0 < Z := by linarith
  obtain ⟨hy0, hl⟩ := log_close (by linarith) h
  obtain ⟨l0, l1⟩ := log_bound (by linarith) hB
  have hln : Near (Elementary.ln y) (Real.log Z) (ε + 4 * u) := by
    obtain ⟨g1, g2⟩ := L y hy hy0
    refine ⟨g1, ?_⟩
    have := abs_sub_le (real (Elementary.ln y)) (Real.log (real y)) (Real.log Z)
    linarith
  have hxx : Near (div (ofNat 1) y) (1 / Z) (3 * u) := by
    have e1 : real (ofNat 1) = 1 := by rw [ofNat_whole (by norm_num), real_whole]; norm_num
    have f1 : Spec.Finite (ofNat 1) := by rw [ofNat_whole (by norm_num)]; exact whole_finite (by norm_num)
    generalize ofNat 1 = one at *
    rw [abs_le] at h
    have hu1 : u ≤ 1 / 1000 := by unfold u; norm_num
    have hy6 : 6 ≤ real y := by nlinarith
    have hq : 1 / real y ≤ 1 / 6 := one_div_le_one_div_of_le (by norm_num) hy6
    have hq0 : 0 < 1 / real y := by positivity
    have := near_div (B := 1 / 6) f1 hy hy0.ne' (by rw [e1, abs_of_pos hq0]; exact hq) (by norm_num)
    rw [e1] at this
    refine ⟨this.1, ?_⟩
    have h2 : |1 / real y - 1 / Z| ≤ u := by
      have e2 : 1 / real y - 1 / Z = (Z - real y) / Z * (1 / real y) := by
        field_simp
      have e3 : |(Z - real y) / Z| ≤ 2 * u := by
        rw [abs_div, abs_of_pos hZ0, div_le_iff₀ hZ0, abs_le]
        constructor <;> linarith
      rw [e2, abs_mul, abs_of_pos hq0]
      have := mul_le_mul e3 hq hq0.le (by linarith)
      linarith
    have h3 := abs_sub_le (real (div one y)) (1 / real y) (1 / Z)
    have h4 := this.2
    linarith
  generalize div (ofNat 1) y = xx at *
  have hz0 : 0 < 1 / Z := by positivity
  have hz1 : 1 / Z ≤ 2 / 13 := by
    rw [div_le_div_iff₀ hZ0 (by norm_num)]
    linarith
  generalize 1 / Z = z at *
  have a1 : |z| ≤ 1 := by rw [abs_of_pos hz0]; linarith
  have b2 : 0 < z * z := by positivity
  have b2' : z * z ≤ 1 / 40 := by nlinarith
  have a2 : |z * z| ≤ 1 := by rw [abs_of_pos b2]; linarith
  have b4 : 0 < z * z * (z * z) := by positivity
  have b4' : z * z * (z * z) ≤ 1 / 1600 := by nlinarith
  have a4 : |z * z * (z * z)| ≤ 1 := by rw [abs_of_pos b4]; linarith
  have hu2 : u * 1000 ≤ 1 := by
    have : u ≤ 1 / 1000 := by unfold u; norm_num
    linarith
  have n2 := (Near.mul hxx hxx a1 a1 (by linarith) (by linarith)).mono (f := 14 * u) (by linarith)
  have n4 := (Near.mul n2 n2 a2 a2 (by linarith) (by linarith)).mono (f := 47 * u) (by linarith)
  generalize mul xx xx = xx2 at *
  generalize mul xx2 xx2 = xx4 at *
  have c1 := near_fraction (a := 1) (b := 24) (by norm_num) (by norm_num) (by norm_num) (by norm_num)
  have c2 := near_fraction (a := 7) (b := 960) (by norm_num) (by norm_num) (by norm_num) (by norm_num)
  have c3 := near_fraction (a := 31) (b := 8064) (by norm_num) (by norm_num) (by norm_num) (by norm_num)
  have c4 := near_fraction (a := 127) (b := 30720) (by norm_num) (by norm_num) (by norm_num) (by norm_num)
  simp only [Nat.cast_one, Nat.cast_ofNat] at c1 c2 c3 c4
  generalize div (ofNat 1) (ofNat 24) = k1 at *
  generalize div (ofNat 7) (ofNat 960) = k2 at *
  generalize div (ofNat 31) (ofNat 8064) = k3 at *
  generalize div (ofNat 127) (ofNat 30720) = k4 at *
  have t1 := (Near.mul c1 n2 (by norm_num [abs_le]) a2 (by linarith) (by linarith)).mono (f := 35 * u) (by linarith)
  have t2 := (Near.mul c2 n4 (by norm_num [abs_le]) a4 (by linarith) (by linarith)).mono (f := 101 * u) (by linarith)
  have t3 := (Near.mul c3 n4 (by norm_num [abs_le]) a4 (by linarith) (by linarith)).mono (f := 101 * u) (by linarith)
  have t4 := (Near.mul c4 n4 (by norm_num [abs_le]) a4 (by linarith) (by linarith)).mono (f := 101 * u) (by linarith)
  generalize hq2 : z * z = q2 at *
  generalize hq4 : q2 * q2 = q4 at *
  have t3' := (Near.mul t3 n2 (by rw [abs_le]; constructor <;> linarith) a2 (by linarith) (by linarith)).mono (f := 134 * u) (by linarith)
  have t4' := (Near.mul t4 n4 (by rw [abs_le]; constructor <;> linarith) a4 (by linarith) (by linarith)).mono (f := 200 * u) (by linarith)
  have p3 : 0 ≤ 31 / 8064 * q4 * q2 ∧ 31 / 8064 * q4 * q2 ≤ 1 := ⟨by positivity, by nlinarith⟩
  have p4 : 0 ≤ 127 / 30720 * q4 * q4 ∧ 127 / 30720 * q4 * q4 ≤ 1 := ⟨by positivity, by nlinarith⟩
  have hε1 : ε ≤ 1 := hε.trans (by norm_num)
  have big : (200 : ℝ) ≤ 2 ^ 100 := by norm_num
  generalize 31 / 8064 * q4 * q2 = r3 at *
  generalize 127 / 30720 * q4 * q4 = r4 at *
  have s1 := Near.add hln t1 (B := 200) (by
    have : |Real.log Z + 1 / 24 * q2| ≤ 150 := by rw [abs_le]; constructor <;> linarith
    linarith) big
  have s2 := Near.sub s1 t2 (B := 200) (by
    have : |Real.log Z + 1 / 24 * q2 - 7 / 960 * q4| ≤ 150 := by rw [abs_le]; constructor <;> linarith
    linarith) big
  have s3 := Near.add s2 t3' (B := 200) (by
    have : |Real.log Z + 1 / 24 * q2 - 7 / 960 * q4 + r3| ≤ 150 := by rw [abs_le]; constructor <;> linarith
    linarith) big
  have s4 := Near.sub s3 t4' (B := 200) (by
    have : |Real.log Z + 1 / 24 * q2 - 7 / 960 * q4 + r3 - r4| ≤ 150 := by rw [abs_le]; constructor <;> linarith
    linarith) big
  refine s4.mono ?_
  have hfin : 2000 * u ≤ (1 / 2) ^ 40 := by unfold u; norm_num
  have h39 : (1 / 2 : ℝ) ^ 39 = (1 / 2) ^ 40 + (1 / 2) ^ 40 := by norm_num
  rw [h39]
  linarith

end F64

end Tokengeex

import Verif.Model.Progress
import Verif.Proofs.NearF64
import Verif.Proofs.Shrink
import Verif.Proofs.LseF64
import Verif.Proofs.Reread
/-
The numbers in the messages of a task.
-/
namespace Tokengeex
open Spec
namespace F64

/-! ### Relative errors -/

theorem div_units_ge {n d N k : Nat} (hd : (0 : ℝ) < d) (hk : k ≤ N) (h : (1 / 2 : ℝ) ^ k ≤ (n : ℝ) / d * (1 / 2) ^ N) :
    2 ^ (N - k) * d ≤ n := by
  have h1 := mul_le_mul_of_nonneg_right h (show (0 : ℝ) ≤ 2 ^ N * d by positivity)
  have e : (n : ℝ) / d * (1 / 2) ^ N * (2 ^ N * d) = n := by
    have : (n : ℝ) / d * (1 / 2) ^ N * (2 ^ N * d) = n * (2 ^ N * (1 / 2) ^ N) * (d / d) := by ring
    rw [this, unit_mul, div_self hd.ne']
    ring
  have e2 : (1 / 2 : ℝ) ^ k * (2 ^ N * d) = 2 ^ (N - k) * d := by
    obtain ⟨j, rfl⟩ := Nat.exists_eq_add_of_le hk
    have : (1 / 2 : ℝ) ^ k * (2 ^ (k + j) * d) = 2 ^ k * (1 / 2) ^ k * (2 ^ j * d) := by rw [pow_add]; ring
    rw [this, unit_mul, one_mul, Nat.add_sub_cancel_left]
  rw [e, e2] at h1
  exact_mod_cast h1

theorem round_units_rel {N n d v : Nat} (hd : 0 < d) (h : 2 ^ 53 * ((n : Int) - v * d).natAbs ≤ n) :
    |(v : ℝ) * (1 / 2) ^ N - (n : ℝ) / d * (1 / 2) ^ N| ≤ u * ((n : ℝ) / d * (1 / 2) ^ N) := by
  have hR : ((2 ^ 53 * ((n : Int) - v * d).natAbs : Nat) : ℝ) ≤ (n : ℝ) := Nat.cast_le.2 h
  rw [Nat.cast_mul, Nat.cast_natAbs, Int.cast_abs] at hR
  simp only [Int.cast_sub, Int.cast_mul, Int.cast_natCast, Nat.cast_pow, Nat.cast_ofNat] at hR
  have hd0 : (0 : ℝ) < d := by exact_mod_cast hd
  have hp : (0 : ℝ) < (1 / 2) ^ N := by positivity
  have e1 : (n : ℝ) - v * d = -((v : ℝ) - n / d) * d := by field_simp; ring
  rw [e1, abs_mul, abs_neg, abs_of_pos hd0] at hR
  have e2 : (n : ℝ) = (n / d) * d := by field_simp
  have hR2 : 2 ^ 53 * |(v : ℝ) - n / d| * d ≤ (n / d) * d := by rw [← e2, mul_assoc]; exact hR
  have h3 := le_of_mul_le_mul_right hR2 hd0
  have h4 : |(v : ℝ) - n / d| ≤ u * (n / d) := by
    have h4 := mul_le_mul_of_nonneg_left h3 u_pos.le
    have h5 : u * (2 ^ 53 * |(v : ℝ) - n / d|) = |(v : ℝ) - n / d| := by unfold u; ring
    rwa [h5] at h4
  rw [← sub_mul, abs_mul, abs_of_pos hp]
  have h7 := mul_le_mul_of_nonneg_right h4 hp.le
  rwa [mul_assoc] at h7

theorem roundMag_zero {d : Nat} (hd : 0 < d) : roundMag 0 d = 0 := by
  have := roundMag_exact (n := 0) (d := d) (m := 0) (k := 0) hd (by norm_num) (by simp)
  simpa using this

/-- Rounding zero or a number between `2^-1000` and `2^1000`. -/
theorem round_rel_err (s : Bool) {n d : Nat} (hd : 0 < d) (h : (n : ℝ) / d * (1 / 2) ^ 1074 ≤ 2 ^ 1000)
    (h' : n ≠ 0 → (1 / 2) ^ 1000 ≤ (n : ℝ) / d * (1 / 2) ^ 1074) :
    Spec.Finite (round s n d) ∧ |real (round s n d) - sgn s * (n / d * (1 / 2) ^ 1074)| ≤ u * ((n : ℝ) / d * (1 / 2) ^ 1074) := by
  have hd0 : (0 : ℝ) < d := by exact_mod_cast hd
  have h1 : n ≤ 2 ^ (1074 + 1000) * d := units_div hd0 h
  have hlt : roundMag n d < limit := Nat.lt_of_le_of_lt (roundMag_le hd h1) (pow_lt_limit (by norm_num))
  have e : round s n d = num s (roundMag n d) := by
    unfold round
    rw [if_pos hlt]
  rw [e]
  refine ⟨isDouble_roundMag hd hlt, ?_⟩
  rw [real_sgn, ← mul_sub, abs_mul, abs_sgn, one_mul]
  refine round_units_rel hd ?_
  by_cases hn : n = 0
  · subst hn
    rw [roundMag_zero hd]
    simp
  · have h2 := div_units_ge hd0 (by norm_num) (h' hn)
    refine roundMag_rel hd (Nat.le_trans (Nat.mul_le_mul_right _ ?_) h2)
    exact Nat.pow_le_pow_right (by omega) (by norm_num)

/-- The product of two finite doubles, zero or of moderate magnitude. -/
theorem mul_rel {x y : F64} (hx : Spec.Finite x) (hy : Spec.Finite y) (h : |real x * real y| ≤ 2 ^ 1000)
    (h' : real x * real y ≠ 0 → (1 / 2) ^ 1000 ≤ |real x * real y|) :
    Spec.Finite (mul x y) ∧ |real (mul x y) - real x * real y| ≤ u * |real x * real y| := by
  rcases x with _ | _ | ⟨s, n⟩
  · exact hx.elim
  · exact hx.elim
  rcases y with _ | _ | ⟨t, m⟩
  · exact hy.elim
  · exact hy.elim
  rw [real_sgn, real_sgn, mul_units, abs_sgn_mul _ (quotient_nonneg _ _ _)] at *
  rw [mul_mags]
  refine round_rel_err _ (Nat.pow_pos (by omega)) h fun h0 => h' ?_
  have h1 : ((n * m : Nat) : ℝ) ≠ 0 := Nat.cast_ne_zero.2 h0
  have h2 : sgn (s != t) ≠ 0 := by cases s <;> cases t <;> simp [sgn]
  have h3 : ∀ N : Nat, sgn (s != t) * (((n * m : Nat) : ℝ) / ((2 ^ N : Nat) : ℝ) * (1 / 2) ^ N) ≠ 0 := by
    intro N
    have : ((2 ^ N : Nat) : ℝ) ≠ 0 := by positivity
    exact mul_ne_zero h2 (mul_ne_zero (div_ne_zero h1 this) (by positivity))
  exact h3 _

/-- The quotient of two finite doubles, zero or of moderate magnitude. -/
theorem div_rel {x y : F64} (hx : Spec.Finite x) (hy : Spec.Finite y) (hy0 : real y ≠ 0) (h : |real x / real y| ≤ 2 ^ 1000)
    (h' : real x ≠ 0 → (1 / 2) ^ 1000 ≤ |real x / real y|) :
    Spec.Finite (div x y) ∧ |real (div x y) - real x / real y| ≤ u * |real x / real y| := by
  rcases x with _ | _ | ⟨s, n⟩
  · exact hx.elim
  · exact hx.elim
  rcases y with _ | _ | ⟨t, m⟩
  · exact hy.elim
  · exact hy.elim
  have hm : m ≠ 0 := by
    rintro rfl
    apply hy0
    rw [real_sgn, Nat.cast_zero, zero_mul, mul_zero]
  have hx0 : n ≠ 0 → real (num s n) ≠ 0 := by
    intro h0
    rw [real_sgn]
    have h2 : sgn s ≠ 0 := by cases s <;> simp [sgn]
    exact mul_ne_zero h2 (mul_ne_zero (Nat.cast_ne_zero.2 h0) (by positivity))
  replace h' := fun h0 => h' (hx0 h0)
  clear hx0
  rw [real_sgn, real_sgn, div_units _ _ _ _ _ hm, abs_sgn_mul _ (quotient_nonneg _ _ _)] at *
  rw [div_nums _ _ _ _ hm]
  exact round_rel_err _ (Nat.pos_of_ne_zero hm) h fun h0 => h' (fun h1 => h0 (by rw [h1, Nat.zero_mul]))

theorem round_false_nonneg (n d : Nat) : 0 ≤ real (round false n d) := by
  unfold round
  split
  · rw [real_sgn]
    have : sgn false = 1 := by simp [sgn]
    rw [this]
    positivity
  · exact le_refl _

end F64

namespace Task
open F64

/-- The quotient of two whole numbers, the first less than the second, is a double less than one. -/
theorem quotient_lt (e f : Nat) (he : e = f + 53) {p n : Nat} (hpn : p < n) (hn : n < 2 ^ 53) :
    roundMag (p * 2 ^ e * 2 ^ e) (n * 2 ^ e) < 2 ^ e := by
  have hE : 0 < 2 ^ e := Nat.pow_pos (by omega)
  have hF : 0 < 2 ^ f := Nat.pow_pos (by omega)
  have hEF : 2 ^ e = 2 ^ 53 * 2 ^ f := by rw [he, Nat.pow_add, Nat.mul_comm]
  have h1 : p * 2 ^ 53 ≤ (2 ^ 53 - 1) * n := by omega
  have h2 := roundMag_mono (n := p * 2 ^ e * 2 ^ e) (d := n * 2 ^ e) (n' := (2 ^ 53 - 1) * 2 ^ f) (d' := 1)
    (Nat.mul_pos (by omega) hE) (by omega) (by
      rw [Nat.mul_one]
      calc p * 2 ^ e * 2 ^ e = p * 2 ^ 53 * (2 ^ f * 2 ^ e) := by rw [hEF]; ring
        _ ≤ (2 ^ 53 - 1) * n * (2 ^ f * 2 ^ e) := Nat.mul_le_mul_right _ h1
        _ = _ := by ring)
  have hex : roundMag ((2 ^ 53 - 1) * 2 ^ f) 1 = (2 ^ 53 - 1) * 2 ^ f :=
    roundMag_exact (by omega) (by norm_num) (by rw [Nat.mul_one])
  rw [hex] at h2
  refine Nat.lt_of_le_of_lt h2 ?_
  rw [hEF]
  exact Nat.mul_lt_mul_of_pos_right (by norm_num) hF

theorem percent_eq {p n : Nat} (hpn : p < n) (hn : n < 2 ^ 53) :
    percentDone p n = num false (roundMag (100 * 2 ^ 1074 * roundMag (p * 2 ^ 1074 * 2 ^ 1074) (n * 2 ^ 1074)) (2 ^ 1074)) ∧
      roundMag (100 * 2 ^ 1074 * roundMag (p * 2 ^ 1074 * 2 ^ 1074) (n * 2 ^ 1074)) (2 ^ 1074) < 100 * 2 ^ 1074 := by
  have hpos : ∀ e : Nat, 0 < 2 ^ e := fun e => Nat.pow_pos (by omega)
  have hq := quotient_lt 1074 1021 (by norm_num) hpn hn
  have hn0 : n * 2 ^ 1074 ≠ 0 := Nat.mul_ne_zero (by omega) (Nat.pos_iff_ne_zero.1 (hpos _))
  have hql : roundMag (p * 2 ^ 1074 * 2 ^ 1074) (n * 2 ^ 1074) < limit := lt_limit hq (by norm_num)
  have hqd := isDouble_roundMag (Nat.pos_of_ne_zero hn0) hql
  have e1 : (F64.ofNat p).div (F64.ofNat n) = num false (roundMag (p * 2 ^ 1074 * 2 ^ 1074) (n * 2 ^ 1074)) := by
    rw [Source.ofNat_small (by omega), Source.ofNat_small hn, div_nums _ _ _ _ hn0]
    exact round_of rfl hql
  generalize roundMag (p * 2 ^ 1074 * 2 ^ 1074) (n * 2 ^ 1074) = k at *
  have h100 := roundMag_shrink 1074 (by norm_num) (n := 100) (by norm_num) (by norm_num) hqd hq
  refine ⟨?_, h100⟩
  unfold percentDone
  rw [e1, Source.ofNat_small (by norm_num), mul_num, Nat.mul_comm k]
  exact round_of rfl (lt_limit_mul (c := 7) h100 (by norm_num) (by norm_num))

theorem percent_num {p n : Nat} (hpn : p < n) (hn : n < 2 ^ 53) :
    ∃ r, percentDone p n = num false r ∧ r < 100 * 2 ^ 1074 := ⟨_, percent_eq hpn hn⟩

/-- More samples, no smaller percentage. -/
theorem percent_mono {p p' n : Nat} (h : p ≤ p') (hpn : p' < n) (hn : n < 2 ^ 53) :
    F64.le (percentDone p n) (percentDone p' n) = true := by
  have hpos : ∀ e : Nat, 0 < 2 ^ e := fun e => Nat.pow_pos (by omega)
  have hn0 : 0 < n * 2 ^ 1074 := Nat.mul_pos (by omega) (hpos _)
  have h1 : roundMag (p * 2 ^ 1074 * 2 ^ 1074) (n * 2 ^ 1074) ≤ roundMag (p' * 2 ^ 1074 * 2 ^ 1074) (n * 2 ^ 1074) :=
    roundMag_mono hn0 hn0 (Nat.mul_le_mul_right _ (Nat.mul_le_mul_right _ (Nat.mul_le_mul_right _ h)))
  rw [(percent_eq (Nat.lt_of_le_of_lt h hpn) hn).1, (percent_eq hpn hn).1]
  generalize roundMag (p * 2 ^ 1074 * 2 ^ 1074) (n * 2 ^ 1074) = k at *
  generalize roundMag (p' * 2 ^ 1074 * 2 ^ 1074) (n * 2 ^ 1074) = k' at *
  have h2 : roundMag (100 * 2 ^ 1074 * k) (2 ^ 1074) ≤ roundMag (100 * 2 ^ 1074 * k') (2 ^ 1074) :=
    roundMag_mono (hpos _) (hpos _) (Nat.mul_le_mul_right _ (Nat.mul_le_mul_left _ h1))
  generalize roundMag (100 * 2 ^ 1074 * k) (2 ^ 1074) = r at *
  generalize roundMag (100 * 2 ^ 1074 * k') (2 ^ 1074) = r' at *
  rw [le_true (by simp) (by simp)]
  exact Int.ofNat_le.2 h2

theorem pow_200 : (2 : ℝ) ^ 200 ≤ 2 ^ 1000 := pow_le_pow_right₀ (by norm_num) (by norm_num)

/-- Numbers between `2^-200` and `2^200` are of moderate magnitude. -/
theorem moderate {x : ℝ} (h1 : (1 / 2) ^ 200 ≤ x) (h2 : x ≤ 2 ^ 200) : |x| ≤ 2 ^ 1000 ∧ (1 / 2) ^ 1000 ≤ |x| := by
  have h0 : 0 < x := lt_of_lt_of_le (by positivity) h1
  rw [abs_of_pos h0]
  exact ⟨le_trans h2 (pow_le_pow_right₀ (by norm_num) (by norm_num)),
    le_trans (pow_le_pow_of_le_one (by norm_num) (by norm_num) (by norm_num)) h1⟩

set_option linter.constructorNameAsVariable false in
/-- The percentage: finite, between zero and one hundred, and accurate. -/
theorem percent_real {p n : Nat} (hp : 0 < p) (hpn : p < n) (hn : n < 2 ^ 53) :
    Spec.Finite (percentDone p n) ∧ 0 < real (percentDone p n) ∧ real (percentDone p n) < 100 ∧
      |real (percentDone p n) - 100 * p / n| ≤ 3 * u * (100 * p / n) := by
  have hu0 := u_pos
  have hu : u ≤ 1 / 1000 := by unfold u; norm_num
  have hp' : (1 : ℝ) ≤ p := by exact_mod_cast hp
  have hn' : (0 : ℝ) < n := by exact_mod_cast (show 0 < n by omega)
  have hpn' : (p : ℝ) < n := by exact_mod_cast hpn
  have hnb : (n : ℝ) ≤ 2 ^ 53 := by exact_mod_cast hn.le
  obtain ⟨fa, ra⟩ := ofNat_real (n := p) (by omega)
  obtain ⟨fb, rb⟩ := ofNat_real hn
  obtain ⟨fc, rc⟩ := ofNat_real (n := 100) (by norm_num)
  rw [Nat.cast_ofNat] at rc
  have hq1 : (p : ℝ) / n ≤ 1 := by rw [div_le_one hn']; exact hpn'.le
  have hq0 : (1 / 2 : ℝ) ^ 53 ≤ (p : ℝ) / n := by
    rw [le_div_iff₀ hn']
    calc (1 / 2 : ℝ) ^ 53 * n ≤ (1 / 2) ^ 53 * 2 ^ 53 := mul_le_mul_of_nonneg_left hnb (by positivity)
      _ = 1 := by norm_num
      _ ≤ p := hp'
  have hq00 : 0 < (p : ℝ) / n := lt_of_lt_of_le (by positivity) hq0
  obtain ⟨r, e, hr⟩ := percent_num hpn hn
  have hlt : real (percentDone p n) < 100 := by
    rw [e]
    have : real (whole 100) = 100 := by rw [real_whole]; norm_num
    rw [← this, whole, real_sgn, real_sgn]
    have : sgn false = 1 := by simp [sgn]
    rw [this, one_mul, one_mul]
    exact mul_lt_mul_of_pos_right (by exact_mod_cast hr) (by positivity)
  clear e hr
  unfold percentDone at *
  generalize F64.ofNat p = x at *
  generalize F64.ofNat n = y at *
  generalize F64.ofNat 100 = z at *
  have m1 := moderate (le_trans (by norm_num) hq0) (le_trans hq1 (by norm_num))
  obtain ⟨f1, g1⟩ := div_rel fa fb (by rw [rb]; exact hn'.ne') (by rw [ra, rb]; exact m1.1) (fun _ => by rw [ra, rb]; exact m1.2)
  rw [ra, rb, abs_of_pos hq00] at g1
  generalize x.div y = d at *
  rw [abs_le] at g1
  have hd0 : (p : ℝ) / n / 2 ≤ real d := by nlinarith
  have hd1 : real d ≤ 2 := by nlinarith
  have m2 := moderate (x := real d * real z) (by
    rw [rc]
    calc (1 / 2 : ℝ) ^ 200 ≤ (1 / 2) ^ 53 / 2 := by norm_num
      _ ≤ real d := by linarith
      _ ≤ _ := by linarith) (by rw [rc]; exact le_trans (show _ ≤ (200 : ℝ) by linarith) (by norm_num))
  obtain ⟨f2, g2⟩ := mul_rel f1 fc m2.1 (fun _ => m2.2)
  rw [rc, abs_of_pos (show (0 : ℝ) < real d * 100 by linarith), abs_le] at g2
  refine ⟨f2, by nlinarith, hlt, ?_⟩
  have e3 : 100 * (p : ℝ) / n = 100 * (p / n) := by ring
  rw [e3, abs_le]
  generalize (p : ℝ) / n = q at *
  have k1 : u * (real d * 100) ≤ u * (q * (1 + u) * 100) := mul_le_mul_of_nonneg_left (by linarith) hu0.le
  have k2 : u * u * q ≤ 1 / 1000 * u * q := by
    have := mul_le_mul_of_nonneg_right hu (mul_pos hu0 hq00).le
    linarith
  constructor <;> nlinarith

/-- A quotient by an exactly known number, of something known up to a relative error. -/
theorem div_known {x y : F64} {a b : ℝ} {k : ℝ} (hx : Spec.Finite x) (hy : Spec.Finite y) (ha : 0 ≤ a) (hb : real y = b)
    (hb1 : 1 ≤ b) (hb2 : b ≤ 2 ^ 64) (hk : 0 ≤ k) (hk' : k ≤ 100) (hxa : |real x - a| ≤ k * u * a)
    (hal : a = 0 ∨ (1 / 2) ^ 100 ≤ a) (hau : a ≤ 2 ^ 100) :
    Spec.Finite (x.div y) ∧ |real (x.div y) - a / b| ≤ (k + 2) * u * (a / b) := by
  have hu0 := u_pos
  have hu : u ≤ 1 / 1000000 := by unfold u; norm_num
  have hb0 : 0 < b := by linarith
  have hku : k * u ≤ 1 / 10000 := by nlinarith
  have hab0 : 0 ≤ a / b := by positivity
  rw [abs_le] at hxa
  have hx0 : 0 ≤ real x := by nlinarith
  have hx2 : real x ≤ 2 * a := by nlinarith
  have hx1 : a / 2 ≤ real x := by nlinarith
  have hge : real x ≠ 0 → (1 / 2) ^ 1000 ≤ |real x / real y| := by
    intro h0
    rcases hal with h | h
    · exact absurd (le_antisymm (by rw [h] at hx2; linarith) hx0) h0
    · rw [hb]
      refine (moderate ?_ ?_).2
      · rw [le_div_iff₀ hb0]
        calc (1 / 2 : ℝ) ^ 200 * b ≤ (1 / 2) ^ 200 * 2 ^ 64 := mul_le_mul_of_nonneg_left hb2 (by positivity)
          _ ≤ (1 / 2) ^ 100 / 2 := by norm_num
          _ ≤ real x := by linarith
      · rw [div_le_iff₀ hb0]
        calc real x ≤ 2 * 2 ^ 100 := by linarith
          _ ≤ 2 ^ 200 * 1 := by norm_num
          _ ≤ _ := mul_le_mul_of_nonneg_left hb1 (by positivity)
  obtain ⟨f, g⟩ := div_rel hx hy (by rw [hb]; exact hb0.ne') (by
    rw [hb, abs_of_nonneg (by positivity), div_le_iff₀ hb0]
    calc real x ≤ 2 * 2 ^ 100 := by linarith
      _ ≤ 2 ^ 200 * 1 := by norm_num
      _ ≤ 2 ^ 1000 * b := mul_le_mul (pow_le_pow_right₀ (by norm_num) (by norm_num)) hb1 (by norm_num) (by positivity)) hge
  refine ⟨f, ?_⟩
  rw [hb] at g
  have e : real x / b - a / b = (real x - a) / b := by ring
  have h1 : |real x / b - a / b| ≤ k * u * (a / b) := by
    rw [e, abs_div, abs_of_pos hb0, ← mul_div_assoc]
    exact div_le_div_of_nonneg_right (abs_le.2 hxa) hb0.le
  have h2 : |real x / b| ≤ 2 * (a / b) := by
    rw [abs_of_nonneg (by positivity), ← mul_div_assoc]
    exact div_le_div_of_nonneg_right hx2 hb0.le
  have h3 := mul_le_mul_of_nonneg_left h2 hu0.le
  have := abs_add_le (real (x.div y) - real x / b) (real x / b - a / b)
  rw [sub_add_sub_cancel] at this
  nlinarith

set_option linter.constructorNameAsVariable false in
/-- The throughput: finite and accurate. -/
theorem speed_real {n : Nat} {t : F64} (hn : n < 2 ^ 53) (ht : Spec.Finite t) (h1 : 1 ≤ real t) (h2 : real t ≤ 2 ^ 64) :
    Spec.Finite (mbPerSec n t) ∧ |real (mbPerSec n t) - n / 2 ^ 20 / real t| ≤ 6 * u * (n / 2 ^ 20 / real t) := by
  obtain ⟨fa, ra⟩ := ofNat_real hn
  obtain ⟨fb, rb⟩ := ofNat_real (n := 1024) (by norm_num)
  have hn0 : (0 : ℝ) ≤ n := Nat.cast_nonneg n
  have hn2 : (n : ℝ) ≤ 2 ^ 53 := by exact_mod_cast hn.le
  have hn1 : (n : ℝ) = 0 ∨ (1 : ℝ) ≤ n := by
    rcases Nat.eq_zero_or_pos n with h | h
    · left; exact_mod_cast h
    · right; exact_mod_cast h
  unfold mbPerSec
  generalize F64.ofNat n = x at *
  generalize F64.ofNat 1024 = y at *
  have hz : real t = real t := rfl
  obtain ⟨f1, g1⟩ := div_known (k := 0) (a := n) (b := 1024) fa fb hn0 (by rw [rb]; norm_num) (by norm_num) (by norm_num)
    (by norm_num) (by norm_num) (by rw [ra]; simp) (hn1.imp_right fun h => le_trans (by norm_num) h) (le_trans hn2 (by norm_num))
  obtain ⟨f2, g2⟩ := div_known (k := 0 + 2) (a := n / 1024) (b := 1024) f1 fb (by positivity) (by rw [rb]; norm_num) (by norm_num)
    (by norm_num) (by norm_num) (by norm_num) g1 (hn1.imp (fun h => by rw [h]; simp) fun h => by
      rw [le_div_iff₀ (by norm_num)]; exact le_trans (by norm_num) h) (by
      rw [div_le_iff₀ (by norm_num)]; exact le_trans hn2 (by norm_num))
  obtain ⟨f3, g3⟩ := div_known (k := 0 + 2 + 2) (a := n / 1024 / 1024) f2 ht (by positivity) hz h1 h2
    (by norm_num) (by norm_num) g2 (hn1.imp (fun h => by rw [h]; simp) fun h => by
      rw [le_div_iff₀ (by norm_num), le_div_iff₀ (by norm_num)]; exact le_trans (by norm_num) h) (by
      rw [div_le_iff₀ (by norm_num), div_le_iff₀ (by norm_num)]; exact le_trans hn2 (by norm_num))
  refine ⟨f3, ?_⟩
  have e : (n : ℝ) / 2 ^ 20 = n / 1024 / 1024 := by rw [div_div]; norm_num
  rw [e]
  calc _ ≤ _ := g3
    _ = _ := by ring

set_option linter.constructorNameAsVariable false in
/-- The throughput of one of `k` threads. -/
theorem perThread_real {n k : Nat} {t : F64} (hn : n < 2 ^ 53) (hk : 0 < k) (hk' : k < 2 ^ 53) (ht : Spec.Finite t)
    (h1 : 1 ≤ real t) (h2 : real t ≤ 2 ^ 64) :
    Spec.Finite ((mbPerSec n t).div (F64.ofNat k)) ∧
      |real ((mbPerSec n t).div (F64.ofNat k)) - n / 2 ^ 20 / real t / k| ≤ 8 * u * (n / 2 ^ 20 / real t / k) := by
  obtain ⟨f, g⟩ := speed_real hn ht h1 h2
  obtain ⟨fk, rk⟩ := ofNat_real hk'
  have hn0 : (0 : ℝ) ≤ n := Nat.cast_nonneg n
  have hn2 : (n : ℝ) ≤ 2 ^ 53 := by exact_mod_cast hn.le
  have hn1 : (n : ℝ) = 0 ∨ (1 : ℝ) ≤ n := by
    rcases Nat.eq_zero_or_pos n with h | h
    · left; exact_mod_cast h
    · right; exact_mod_cast h
  have ht0 : 0 < real t := by linarith
  obtain ⟨f3, g3⟩ := div_known (k := 6) (a := n / 2 ^ 20 / real t) (b := k) f fk (by positivity) rk
    (by exact_mod_cast hk) (le_trans (show (k : ℝ) ≤ 2 ^ 53 by exact_mod_cast hk'.le) (by norm_num)) (by norm_num) (by norm_num) g
    (hn1.imp (fun h => by rw [h]; simp) fun h => by
      rw [le_div_iff₀ ht0, le_div_iff₀ (by positivity)]
      calc (1 / 2 : ℝ) ^ 100 * real t * 2 ^ 20 ≤ (1 / 2 : ℝ) ^ 100 * 2 ^ 64 * 2 ^ 20 :=
            mul_le_mul_of_nonneg_right (mul_le_mul_of_nonneg_left h2 (by positivity)) (by positivity)
        _ ≤ 1 := by norm_num
        _ ≤ n := h) (by
      rw [div_le_iff₀ ht0, div_le_iff₀ (by positivity)]
      calc (n : ℝ) ≤ 2 ^ 53 := hn2
        _ ≤ 2 ^ 100 * 1 * 2 ^ 20 := by norm_num
        _ ≤ _ := mul_le_mul_of_nonneg_right (mul_le_mul_of_nonneg_left h1 (by positivity)) (by positivity))
  refine ⟨f3, ?_⟩
  calc _ ≤ _ := g3
    _ = _ := by ring

theorem mul_false_nonneg {x y : F64} (hx : Spec.Finite x) (hy : Spec.Finite y) (h1 : 0 ≤ real x) (h2 : 0 ≤ real y) :
    0 ≤ real (F64.mul x y) := by
  have sign : ∀ {z : F64}, Spec.Finite z → 0 ≤ real z → ∃ s n, z = num s n ∧ (s = true → n = 0) := by
    intro z hz h
    rcases z with _ | _ | ⟨s, n⟩
    · exact hz.elim
    · exact hz.elim
    refine ⟨s, n, rfl, ?_⟩
    rintro rfl
    rw [real_sgn] at h
    by_contra h0
    have h3 : (0 : ℝ) < n := by exact_mod_cast Nat.pos_of_ne_zero h0
    have h4 : sgn true = -1 := by simp [sgn]
    have h5 : ∀ N : Nat, 0 < (n : ℝ) * (1 / 2) ^ N := fun N => by positivity
    rw [h4] at h
    have := h5 1074
    linarith
  obtain ⟨s, n, rfl, hs⟩ := sign hx h1
  obtain ⟨t, m, rfl, ht⟩ := sign hy h2
  rw [mul_mags]
  by_cases h0 : n * m = 0
  · rw [h0]
    have hz := roundMag_zero (d := 2 ^ 1074) (Nat.pow_pos (by omega))
    rw [round_of hz (by rw [limit_eq]; exact Nat.pow_pos (by omega)), real_sgn]
    simp
  · have hn : n ≠ 0 := fun h => h0 (by rw [h, Nat.zero_mul])
    have hm : m ≠ 0 := fun h => h0 (by rw [h, Nat.mul_zero])
    have e1 : s = false := by cases s with | false => rfl | true => exact absurd (hs rfl) hn
    have e2 : t = false := by cases t with | false => rfl | true => exact absurd (ht rfl) hm
    subst e1 e2
    exact round_false_nonneg _ _

theorem hundred_sub {x y : F64} (hx : Spec.Finite x) (hx' : real x = 100) (hy : Spec.Finite y) (h0 : 0 < real y) (h1 : real y < 100) :
    Near (x.sub y) (100 - real y) (100 * u) := by
  have hX : Near x 100 0 := ⟨hx, by rw [hx']; simp⟩
  have hY : Near y (real y) 0 := ⟨hy, by simp⟩
  have := Near.sub (B := 100) hX hY (by rw [abs_of_pos (by linarith)]; linarith) (by norm_num)
  have e : 0 + 0 + u * 100 = 100 * u := by ring
  rwa [e] at this

/-- The errors of the remaining time, put together. -/
theorem eta_arith {u P Q T R D S M : ℝ} (hu0 : 0 < u) (hu : u ≤ 1 / 1000000) (hQ0 : 0 < Q) (hQ1 : Q < 100)
    (hP : |P - Q| ≤ 3 * u * Q) (hT : T = R * Q) (hR : 1 / 100 ≤ R) (hD : |D - T / P| ≤ u * |T / P|)
    (hS : |S - (100 - P)| ≤ 100 * u) (hS0 : 0 ≤ S) (hM : |M - D * S| ≤ u * |D * S| + u) :
    |M - R * (100 - Q)| ≤ 1600 * u * R := by
  have hR0 : 0 < R := by linarith
  rw [abs_le] at hP
  have hP0 : 0 < P := by nlinarith
  have hPQ : Q * (1 - 3 * u) ≤ P := by linarith
  have hPQ' : P ≤ Q * (1 + 3 * u) := by linarith
  have a1 : T / P ≤ R * (1 + 4 * u) := by
    rw [div_le_iff₀ hP0, hT]
    have : Q ≤ (1 + 4 * u) * P := by
      have h := mul_le_mul_of_nonneg_left hPQ (show (0 : ℝ) ≤ 1 + 4 * u by linarith)
      have h2 : Q ≤ (1 + 4 * u) * (Q * (1 - 3 * u)) := by
        have : 0 ≤ Q * (u * (1 - 12 * u)) := by
          have : 0 ≤ 1 - 12 * u := by linarith
          positivity
        nlinarith
      linarith
    have := mul_le_mul_of_nonneg_left this hR0.le
    linarith
  have a2 : R * (1 - 4 * u) ≤ T / P := by
    rw [le_div_iff₀ hP0, hT]
    have : (1 - 4 * u) * P ≤ Q := by
      have h := mul_le_mul_of_nonneg_left hPQ' (show (0 : ℝ) ≤ 1 - 4 * u by linarith)
      have : 0 ≤ Q * (u * (1 + 12 * u)) := by positivity
      nlinarith
    have := mul_le_mul_of_nonneg_left this hR0.le
    linarith
  have a0 : 0 < T / P := by
    have : 0 < R * (1 - 4 * u) := mul_pos hR0 (by linarith)
    linarith
  rw [abs_of_pos a0, abs_le] at hD
  have hx : u * (T / P) ≤ 2 * u * R := by
    have h := mul_le_mul_of_nonneg_left a1 hu0.le
    have h2 : u * R * (1 + 4 * u) ≤ u * R * 2 := mul_le_mul_of_nonneg_left (by linarith) (by positivity)
    linarith
  have b1 : |D - R| ≤ 6 * u * R := by
    rw [abs_le]
    constructor <;> linarith
  have hD0 : 0 ≤ D := by
    rw [abs_le] at b1
    have : 6 * u * R ≤ R := by nlinarith
    linarith
  have hD1 : D ≤ 2 * R := by
    rw [abs_le] at b1
    have : 6 * u * R ≤ R := by nlinarith
    linarith
  have b2 : |S - (100 - Q)| ≤ 400 * u := by
    rw [abs_le] at hS ⊢
    have : 3 * u * Q ≤ 3 * u * 100 := mul_le_mul_of_nonneg_left hQ1.le (by linarith)
    constructor <;> linarith
  have hS1 : S ≤ 101 := by
    rw [abs_le] at b2
    linarith
  have c1 : |D * S - R * (100 - Q)| ≤ 606 * u * R + 400 * u * R := by
    have e : D * S - R * (100 - Q) = (D - R) * S + R * (S - (100 - Q)) := by ring
    rw [e]
    refine le_trans (abs_add_le _ _) (add_le_add ?_ ?_)
    · rw [abs_mul, abs_of_nonneg hS0]
      calc |D - R| * S ≤ 6 * u * R * 101 := mul_le_mul b1 hS1 hS0 (by positivity)
        _ = _ := by ring
    · rw [abs_mul, abs_of_pos hR0]
      calc R * |S - (100 - Q)| ≤ R * (400 * u) := mul_le_mul_of_nonneg_left b2 hR0.le
        _ = _ := by ring
  have c2 : |M - D * S| ≤ 202 * u * R + 100 * u * R := by
    refine le_trans hM (add_le_add ?_ ?_)
    · rw [abs_of_nonneg (mul_nonneg hD0 hS0)]
      calc u * (D * S) ≤ u * (2 * R * 101) := mul_le_mul_of_nonneg_left (mul_le_mul hD1 hS1 hS0 (by linarith)) hu0.le
        _ = _ := by ring
    · have := mul_le_mul_of_nonneg_left hR hu0.le
      linarith
  have := abs_add_le (M - D * S) (D * S - R * (100 - Q))
  rw [sub_add_sub_cancel] at this
  have h5 : 0 ≤ u * R := by positivity
  linarith

set_option linter.constructorNameAsVariable false in
/-- The remaining time: finite, not negative and accurate. -/
theorem eta_real {p n : Nat} {t : F64} (hp : 0 < p) (hpn : p < n) (hn : n < 2 ^ 53) (ht : Spec.Finite t) (h1 : 1 ≤ real t)
    (h2 : real t ≤ 2 ^ 64) :
    Spec.Finite (eta t (percentDone p n)) ∧ 0 ≤ real (eta t (percentDone p n)) ∧
      |real (eta t (percentDone p n)) - real t * (n - p) / p| ≤ 16 * u * (real t * n / p) := by
  obtain ⟨fP, P0, P1, gP⟩ := percent_real hp hpn hn
  have hu0 := u_pos
  have hu : u ≤ 1 / 1000000 := by unfold u; norm_num
  have hp' : (1 : ℝ) ≤ p := by exact_mod_cast hp
  have hn' : (0 : ℝ) < n := by exact_mod_cast (show 0 < n by omega)
  have hpn' : (p : ℝ) < n := by exact_mod_cast hpn
  have hnb : (n : ℝ) ≤ 2 ^ 53 := by exact_mod_cast hn.le
  obtain ⟨fc, rc⟩ := ofNat_real (n := 100) (by norm_num)
  rw [Nat.cast_ofNat] at rc
  have hQ0 : (0 : ℝ) < 100 * p / n := by positivity
  have hQ1 : (100 * p / n : ℝ) < 100 := by rw [div_lt_iff₀ hn']; linarith
  have hQl : (1 / 2 : ℝ) ^ 53 ≤ 100 * p / n := by
    rw [le_div_iff₀ hn']
    calc (1 / 2 : ℝ) ^ 53 * n ≤ (1 / 2) ^ 53 * 2 ^ 53 := mul_le_mul_of_nonneg_left hnb (by positivity)
      _ = 1 := by norm_num
      _ ≤ _ := by linarith
  have hS0 : 0 ≤ real ((F64.ofNat 100).sub (percentDone p n)) := by
    obtain ⟨r, e, hr⟩ := percent_num hpn hn
    rw [e, Source.ofNat_small (by norm_num)]
    have : ∀ N, r < N → 0 ≤ real ((num false N).sub (num false r)) := by
      intro N hN
      show 0 ≤ real (add (num false N) (num true r))
      rw [add_num, if_neg (by decide), if_neg (by omega), if_pos hN]
      exact round_false_nonneg _ _
    exact this _ hr
  unfold eta
  generalize percentDone p n = P at *
  generalize F64.ofNat 100 = z at *
  have hS := hundred_sub fc rc fP P0 P1
  generalize z.sub P = S at *
  obtain ⟨fS, gS⟩ := hS
  have hPl : (1 / 2 : ℝ) ^ 54 ≤ real P := by
    rw [abs_le] at gP
    have : 3 * u * (100 * p / n) ≤ 1 / 2 * (100 * p / n) := mul_le_mul_of_nonneg_right (by linarith) hQ0.le
    have e : (1 / 2 : ℝ) ^ 54 = 1 / 2 * (1 / 2) ^ 53 := by norm_num
    rw [e]
    linarith
  have hx0 : 0 < real t / real P := div_pos (by linarith) P0
  have hxu : real t / real P ≤ 2 ^ 118 := by
    rw [div_le_iff₀ P0]
    calc real t ≤ 2 ^ 64 := h2
      _ = 2 ^ 118 * (1 / 2) ^ 54 := by norm_num
      _ ≤ _ := mul_le_mul_of_nonneg_left hPl (by positivity)
  have m1 := moderate (x := real t / real P) (by
    rw [le_div_iff₀ P0]
    calc (1 / 2 : ℝ) ^ 200 * real P ≤ (1 / 2) ^ 200 * 100 := mul_le_mul_of_nonneg_left P1.le (by positivity)
      _ ≤ 1 := by norm_num
      _ ≤ _ := h1) (le_trans hxu (pow_le_pow_right₀ (by norm_num) (by norm_num)))
  obtain ⟨fD, gD⟩ := div_rel ht fP P0.ne' m1.1 (fun _ => m1.2)
  generalize t.div P = D at *
  have hD : |real D - real t / real P| ≤ u * (real t / real P) := by rwa [abs_of_pos hx0] at gD
  have hD0 : 0 ≤ real D := by
    rw [abs_le] at hD
    nlinarith
  have hS1 : real S ≤ 101 := by
    rw [abs_le] at gS
    linarith
  have hD1 : real D ≤ 2 ^ 119 := by
    rw [abs_le] at hD
    have : u * (real t / real P) ≤ 1 * (real t / real P) := mul_le_mul_of_nonneg_right (by linarith) hx0.le
    have e : (2 : ℝ) ^ 119 = 2 * 2 ^ 118 := by norm_num
    rw [e]
    linarith
  obtain ⟨fM, gM⟩ := mul_near fD fS (by
    rw [abs_of_nonneg (mul_nonneg hD0 hS0)]
    exact le_trans (le_trans (mul_le_mul hD1 hS1 hS0 (by positivity)) (show (2 : ℝ) ^ 119 * 101 ≤ 2 ^ 200 by norm_num)) pow_200)
  refine ⟨fM, mul_false_nonneg fD fS hD0 hS0, ?_⟩
  have hR : (1 / 100 : ℝ) ≤ real t * n / (100 * p) := by
    rw [div_le_div_iff₀ (by norm_num) (by positivity), one_mul]
    have : (p : ℝ) ≤ real t * n := by nlinarith
    linarith
  have key := eta_arith (R := real t * n / (100 * p)) hu0 hu hQ0 hQ1 gP (by field_simp) hR gD gS hS0 gM
  have e1 : real t * n / (100 * p) * (100 - 100 * p / n) = real t * (n - p) / p := by field_simp
  have e2 : 1600 * u * (real t * n / (100 * p)) = 16 * u * (real t * n / p) := by field_simp; ring
  rwa [e1, e2] at key

end Task
end Tokengeex

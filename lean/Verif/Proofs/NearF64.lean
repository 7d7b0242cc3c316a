import Verif.Proofs.LossF64
/-
Forward error bounds for sums, products and quotients of doubles.
-/
namespace Tokengeex
open Spec ScoreOps
namespace F64

/-- `x` is finite and represents `r` up to `e`. -/
def Near (x : F64) (r e : ℝ) : Prop := Spec.Finite x ∧ |real x - r| ≤ e

/-- Absolute error of rounding. -/
theorem roundMag_abs {n d : Nat} (hd : 0 < d) : 2 ^ 53 * ((n : Int) - roundMag n d * d).natAbs ≤ n + 2 ^ 52 * d := by
  have h1 := roundDiv_err (a := n) (mul_pow_pos (d := d) hd (spacing n d))
  have h2 : ((roundMag n d : Nat) : Int) * d = (roundDiv n (d * 2 ^ spacing n d) : Int) * ((d * 2 ^ spacing n d : Nat) : Int) := by
    unfold roundMag
    push_cast
    ring
  rw [h2]
  by_cases hk : spacing n d = 0
  · rw [hk] at h1 ⊢
    omega
  · have h3 := spacing_le n d hd hk
    omega

/-- A sign. -/
def sgn (s : Bool) : ℝ := if s then -1 else 1

theorem sgn_mul (s t : Bool) : sgn s * sgn t = sgn (s != t) := by
  cases s <;> cases t <;> simp [sgn]

theorem abs_sgn (s : Bool) : |sgn s| = 1 := by cases s <;> simp [sgn]

theorem real_sgn (s : Bool) (n : Nat) : real (num s n) = sgn s * (n * (1 / 2) ^ 1074) := by
  cases s with
  | false => simp only [real, sgn, Bool.false_eq_true, if_false, one_mul]
  | true => simp only [real, sgn, if_true, neg_mul, one_mul]

theorem units_div {n d N k : Nat} (hd : (0 : ℝ) < d) (h : (n : ℝ) / d * (1 / 2) ^ N ≤ 2 ^ k) : n ≤ 2 ^ (N + k) * d := by
  have h1 := mul_le_mul_of_nonneg_right h (show (0 : ℝ) ≤ 2 ^ N * d by positivity)
  have e : (n : ℝ) / d * (1 / 2) ^ N * (2 ^ N * d) = n := by
    have : (n : ℝ) / d * (1 / 2) ^ N * (2 ^ N * d) = n * (2 ^ N * (1 / 2) ^ N) * (d / d) := by ring
    rw [this, unit_mul, div_self hd.ne']
    ring
  rw [e] at h1
  have h2 : (n : ℝ) ≤ ((2 ^ (N + k) * d : Nat) : ℝ) := by
    rw [Nat.cast_mul, Nat.cast_pow, Nat.cast_ofNat, pow_add]
    linarith
  exact_mod_cast h2

theorem round_units {N n d v : Nat} (hd : 0 < d) (h : 2 ^ 53 * ((n : Int) - v * d).natAbs ≤ n + 2 ^ 52 * d) (hN : 52 ≤ N) :
    |(v : ℝ) * (1 / 2) ^ N - (n : ℝ) / d * (1 / 2) ^ N| ≤ u * ((n : ℝ) / d * (1 / 2) ^ N) + u := by
  have hR : ((2 ^ 53 * ((n : Int) - v * d).natAbs : Nat) : ℝ) ≤ ((n + 2 ^ 52 * d : Nat) : ℝ) := Nat.cast_le.2 h
  rw [Nat.cast_mul, Nat.cast_natAbs, Int.cast_abs] at hR
  simp only [Int.cast_sub, Int.cast_mul, Int.cast_natCast, Nat.cast_add, Nat.cast_mul, Nat.cast_pow, Nat.cast_ofNat] at hR
  have hd0 : (0 : ℝ) < d := by exact_mod_cast hd
  have hp : (0 : ℝ) < (1 / 2) ^ N := by positivity
  have hp1 : (1 / 2 : ℝ) ^ N ≤ (1 / 2) ^ 52 := pow_le_pow_of_le_one (by norm_num) (by norm_num) hN
  have hp2 : 1 / 2 * (1 / 2 : ℝ) ^ 52 = u := by unfold u; norm_num
  have e1 : (n : ℝ) - v * d = -((v : ℝ) - n / d) * d := by field_simp; ring
  rw [e1, abs_mul, abs_neg, abs_of_pos hd0] at hR
  have e2 : (n : ℝ) + 2 ^ 52 * d = (n / d + 2 ^ 52) * d := by field_simp
  rw [e2, ← mul_assoc] at hR
  have h3 := le_of_mul_le_mul_right hR hd0
  have h4 : |(v : ℝ) - n / d| ≤ u * (n / d) + 1 / 2 := by
    have h4 := mul_le_mul_of_nonneg_left h3 u_pos.le
    have h5 : u * (2 ^ 53 * |(v : ℝ) - n / d|) = |(v : ℝ) - n / d| := by unfold u; ring
    have h6 : u * 2 ^ 52 = 1 / 2 := by unfold u; norm_num
    rw [h5, mul_add, h6] at h4
    exact h4
  rw [← sub_mul, abs_mul, abs_of_pos hp]
  have h7 := mul_le_mul_of_nonneg_right h4 hp.le
  rw [add_mul] at h7
  linarith

/-- Rounding a number of magnitude at most `2^1000`. -/
theorem round_abs_err (s : Bool) {n d : Nat} (hd : 0 < d) (h : (n : ℝ) / d * (1 / 2) ^ 1074 ≤ 2 ^ 1000) :
    Spec.Finite (round s n d) ∧ |real (round s n d) - sgn s * (n / d * (1 / 2) ^ 1074)| ≤ u * ((n : ℝ) / d * (1 / 2) ^ 1074) + u := by
  have hd0 : (0 : ℝ) < d := by exact_mod_cast hd
  have h1 : n ≤ 2 ^ (1074 + 1000) * d := units_div hd0 h
  have hlt : roundMag n d < limit := Nat.lt_of_le_of_lt (roundMag_le hd h1) (pow_lt_limit (by norm_num))
  have e : round s n d = num s (roundMag n d) := by
    unfold round
    rw [if_pos hlt]
  rw [e]
  refine ⟨isDouble_roundMag hd hlt, ?_⟩
  rw [real_sgn, ← mul_sub, abs_mul, abs_sgn, one_mul]
  exact round_units hd (roundMag_abs hd) (by norm_num)

theorem mul_units (s t : Bool) (n m N : Nat) : sgn s * (n * (1 / 2) ^ N) * (sgn t * (m * (1 / 2) ^ N)) =
    sgn (s != t) * (((n * m : Nat) : ℝ) / ((2 ^ N : Nat) : ℝ) * (1 / 2) ^ N) := by
  have e : ((n * m : Nat) : ℝ) / ((2 ^ N : Nat) : ℝ) = n * m * (1 / 2) ^ N := by
    rw [one_div, inv_pow, Nat.cast_mul, Nat.cast_pow, Nat.cast_ofNat, div_eq_mul_inv]
  rw [← sgn_mul, e]
  ring

theorem div_units (s t : Bool) (n m N : Nat) (hm : m ≠ 0) : sgn s * (n * (1 / 2) ^ N) / (sgn t * (m * (1 / 2) ^ N)) =
    sgn (s != t) * (((n * 2 ^ N : Nat) : ℝ) / (m : ℝ) * (1 / 2) ^ N) := by
  have hm' : (m : ℝ) ≠ 0 := by exact_mod_cast hm
  have hp : ((1 : ℝ) / 2) ^ N ≠ 0 := by positivity
  have e : ((2 : ℝ) ^ N) * (1 / 2) ^ N = 1 := unit_mul N
  have ht : sgn t * sgn t = 1 := by cases t <;> simp [sgn]
  have ht0 : sgn t ≠ 0 := by cases t <;> simp [sgn]
  rw [← sgn_mul, div_eq_iff (by positivity)]
  simp only [Nat.cast_mul, Nat.cast_pow, Nat.cast_ofNat]
  have : sgn s * sgn t * (n * 2 ^ N / m * (1 / 2) ^ N) * (sgn t * (m * (1 / 2) ^ N)) =
    sgn s * (sgn t * sgn t) * (n * (1 / 2) ^ N) * (2 ^ N * (1 / 2) ^ N) * (m / m) := by ring
  rw [this, ht, e, div_self hm']
  ring

theorem abs_sgn_mul (s : Bool) {x : ℝ} (hx : 0 ≤ x) : |sgn s * x| = x := by rw [abs_mul, abs_sgn, one_mul, abs_of_nonneg hx]

theorem quotient_nonneg (a b N : Nat) : (0 : ℝ) ≤ (a : ℝ) / b * (1 / 2) ^ N := by positivity

/-- The product of two finite doubles. -/
theorem mul_near {x y : F64} (hx : Spec.Finite x) (hy : Spec.Finite y) (h : |real x * real y| ≤ 2 ^ 1000) :
    Spec.Finite (mul x y) ∧ |real (mul x y) - real x * real y| ≤ u * |real x * real y| + u := by
  rcases x with _ | _ | ⟨s, n⟩
  · exact hx.elim
  · exact hx.elim
  rcases y with _ | _ | ⟨t, m⟩
  · exact hy.elim
  · exact hy.elim
  rw [real_sgn, real_sgn, mul_units, abs_sgn_mul _ (quotient_nonneg _ _ _)] at *
  rw [mul_mags]
  exact round_abs_err _ (Nat.pow_pos (by omega)) h

theorem div_nums (s t : Bool) (n m : Nat) (hm : m ≠ 0) : div (num s n) (num t m) = round (s != t) (n * 2 ^ 1074) m := by
  show (if m = 0 then _ else _) = _
  rw [if_neg hm]

/-- The quotient of two finite doubles. -/
theorem div_near {x y : F64} (hx : Spec.Finite x) (hy : Spec.Finite y) (hy0 : real y ≠ 0) (h : |real x / real y| ≤ 2 ^ 1000) :
    Spec.Finite (div x y) ∧ |real (div x y) - real x / real y| ≤ u * |real x / real y| + u := by
  rcases x with _ | _ | ⟨s, n⟩
  · exact hx.elim
  · exact hx.elim
  rcases y with _ | _ | ⟨t, m⟩
  · exact hy.elim
  · exact hy.elim
  have hm : m ≠ 0 := by
    rintro rfl
    apply hy0
    rw [real_sgn, Nat.cast_zero, zero_mul, mul_zero]
  rw [real_sgn, real_sgn, div_units _ _ _ _ _ hm, abs_sgn_mul _ (quotient_nonneg _ _ _)] at *
  rw [div_nums _ _ _ _ hm]
  exact round_abs_err _ (Nat.pos_of_ne_zero hm) h

theorem pow_big : (2 : ℝ) ^ 100 ≤ 2 ^ 1000 := pow_le_pow_right₀ (by norm_num) (by norm_num)

/-- Sums of approximations. -/
theorem Near.add {x y : F64} {a b e f B : ℝ} (hx : Near x a e) (hy : Near y b f) (hB : |a + b| + e + f ≤ B) (hB' : B ≤ 2 ^ 100) :
    Near (F64.add x y) (a + b) (e + f + u * B) := by
  obtain ⟨x1, x2⟩ := hx
  obtain ⟨y1, y2⟩ := hy
  have h0 : |real x + real y - (a + b)| ≤ e + f := by
    have := abs_add_le (real x - a) (real y - b)
    have e1 : real x - a + (real y - b) = real x + real y - (a + b) := by ring
    rw [e1] at this
    linarith
  have h1 : |real x + real y| ≤ B := by
    have := abs_add_le (a + b) (real x + real y - (a + b))
    rw [add_sub_cancel] at this
    linarith
  obtain ⟨g1, g2⟩ := add_err x1 y1 (le_trans (le_trans h1 hB') pow_big)
  refine ⟨g1, ?_⟩
  have g3 := of_err g2
  have g4 := mul_le_mul_of_nonneg_left h1 u_pos.le
  have := abs_add_le (real (F64.add x y) - (real x + real y)) (real x + real y - (a + b))
  rw [sub_add_sub_cancel] at this
  linarith

theorem Near.neg {x : F64} {a e : ℝ} (hx : Near x a e) : Near (F64.neg x) (-a) e := by
  obtain ⟨g1, g2⟩ := finite_real_neg hx.1
  refine ⟨g1, ?_⟩
  rw [g2, show -real x - -a = -(real x - a) by ring, abs_neg]
  exact hx.2

/-- Differences of approximations. -/
theorem Near.sub {x y : F64} {a b e f B : ℝ} (hx : Near x a e) (hy : Near y b f) (hB : |a - b| + e + f ≤ B) (hB' : B ≤ 2 ^ 100) :
    Near (F64.sub x y) (a - b) (e + f + u * B) := by
  have := Near.add hx hy.neg (B := B) (by rw [← sub_eq_add_neg]; exact hB) hB'
  rw [← sub_eq_add_neg] at this
  exact this

/-- Products of approximations of numbers of magnitude at most 1. -/
theorem Near.mul {x y : F64} {a b e f : ℝ} (hx : Near x a e) (hy : Near y b f) (ha : |a| ≤ 1) (hb : |b| ≤ 1) (he : e ≤ 1) (hf : f ≤ 1) :
    Near (F64.mul x y) (a * b) (e + 2 * f + 5 * u) := by
  obtain ⟨x1, x2⟩ := hx
  obtain ⟨y1, y2⟩ := hy
  have hX : |real x| ≤ 2 := by
    have := abs_add_le a (real x - a)
    rw [add_sub_cancel] at this
    linarith
  have hY : |real y| ≤ 2 := by
    have := abs_add_le b (real y - b)
    rw [add_sub_cancel] at this
    linarith
  have hXY : |real x * real y| ≤ 4 := by
    rw [abs_mul]
    calc |real x| * |real y| ≤ 2 * 2 := mul_le_mul hX hY (abs_nonneg _) (by norm_num)
      _ = 4 := by norm_num
  have h4 : (4 : ℝ) ≤ 2 ^ 1000 := le_trans (by norm_num) pow_big
  obtain ⟨g1, g2⟩ := mul_near x1 y1 (le_trans hXY h4)
  refine ⟨g1, ?_⟩
  have h0 : |real x * real y - a * b| ≤ e + 2 * f := by
    have e1 : real x * real y - a * b = real x * (real y - b) + b * (real x - a) := by ring
    rw [e1]
    refine le_trans (abs_add_le _ _) ?_
    rw [abs_mul, abs_mul]
    have p1 : |real x| * |real y - b| ≤ 2 * f := mul_le_mul hX y2 (abs_nonneg _) (by norm_num)
    have p2 : |b| * |real x - a| ≤ 1 * e := mul_le_mul hb x2 (abs_nonneg _) (by norm_num)
    linarith
  have g4 := mul_le_mul_of_nonneg_left hXY u_pos.le
  have := abs_add_le (real (F64.mul x y) - real x * real y) (real x * real y - a * b)
  rw [sub_add_sub_cancel] at this
  linarith

/-- A quotient of magnitude at most `B`. -/
theorem near_div {x y : F64} {B : ℝ} (hx : Spec.Finite x) (hy : Spec.Finite y) (hy0 : real y ≠ 0) (h : |real x / real y| ≤ B)
    (hB : B ≤ 2 ^ 100) : Near (div x y) (real x / real y) (u * B + u) := by
  obtain ⟨g1, g2⟩ := div_near hx hy hy0 (le_trans (le_trans h hB) pow_big)
  refine ⟨g1, le_trans g2 ?_⟩
  have := mul_le_mul_of_nonneg_left h u_pos.le
  linarith

/-- A quotient of small numbers. -/
theorem near_fraction {a b : Nat} (ha : a < 2 ^ 53) (hb0 : 0 < b) (hb : b < 2 ^ 53) (h : a ≤ b) :
    Near (div (ofNat a) (ofNat b)) ((a : ℝ) / b) (2 * u) := by
  have hb' : (0 : ℝ) < b := by exact_mod_cast hb0
  have h1 : (a : ℝ) / b ≤ 1 := by
    rw [div_le_one hb']
    exact_mod_cast h
  have h0 : (0 : ℝ) ≤ (a : ℝ) / b := by positivity
  have ra := real_whole a
  have rb := real_whole b
  have fa := whole_finite ha
  have fb := whole_finite hb
  rw [ofNat_whole ha, ofNat_whole hb]
  generalize whole a = x at *
  generalize whole b = y at *
  have := near_div (B := 1) fa fb (by rw [rb]; exact hb'.ne') (by rw [ra, rb, abs_of_nonneg h0]; exact h1) (by norm_num)
  rw [ra, rb] at this
  rw [two_mul]
  rw [mul_one] at this
  exact this

theorem lt_real {x y : F64} (hx : Spec.Finite x) (hy : Spec.Finite y) (h : F64.lt x y = true) : real x < real y := by
  have nx : x ≠ nan := by rintro rfl; exact hx
  have ny : y ≠ nan := by rintro rfl; exact hy
  rw [lt_true nx ny] at h
  rw [real_eq hx, real_eq hy]
  exact mul_lt_mul_of_pos_right (by exact_mod_cast h) ulp_pos

end F64
end Tokengeex

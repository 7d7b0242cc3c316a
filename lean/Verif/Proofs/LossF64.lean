import Verif.Proofs.GenerateF64
import Verif.Proofs.Prune4
import Verif.Spec.RealTraining
import Verif.Spec.LogF64
/-
The loss of removing a token (src/prune.rs:272-289), computed with doubles.
-/
namespace Tokengeex
open Spec ScoreOps
namespace F64

/-! ### Rounding of quotients -/

/-- Relative error of rounding, for results that are not subnormal. -/
theorem roundMag_rel {n d : Nat} (hd : 0 < d) (h : 2 ^ 52 * d ≤ n) : 2 ^ 53 * ((n : Int) - roundMag n d * d).natAbs ≤ n := by
  have h1 := roundDiv_err (a := n) (mul_pow_pos (d := d) hd (spacing n d))
  have h2 : ((roundMag n d : Nat) : Int) * d = (roundDiv n (d * 2 ^ spacing n d) : Int) * ((d * 2 ^ spacing n d : Nat) : Int) := by
    unfold roundMag
    push_cast
    ring
  rw [h2]
  have hq : 2 ^ 52 ≤ n / d := (Nat.le_div_iff_mul_le hd).2 h
  have hlog : 52 ≤ Nat.log2 (n / d) := (Nat.le_log2 (by omega)).2 hq
  have hsp : 2 ^ 52 * (d * 2 ^ spacing n d) ≤ n := by
    have e : 2 ^ 52 * 2 ^ spacing n d ≤ n / d := by
      rw [← Nat.pow_add]
      refine (Nat.le_log2 (by omega)).1 ?_
      unfold spacing
      omega
    calc 2 ^ 52 * (d * 2 ^ spacing n d) = 2 ^ 52 * 2 ^ spacing n d * d := by ring
      _ ≤ n / d * d := Nat.mul_le_mul_right _ e
      _ ≤ n := Nat.div_mul_le_self _ _
  omega

/-- What is at least a power of two remains so. -/
theorem le_roundMag {n d j : Nat} (hd : 0 < d) (h : 2 ^ j * d ≤ n) : 2 ^ j ≤ roundMag n d := by
  have h1 := roundMag_mono (n := 2 ^ j) (d := 1) (n' := n) (d' := d) (by omega) hd (by omega)
  rwa [roundMag_exact (n := 2 ^ j) (d := 1) (m := 1) (k := j) (by omega) (by norm_num) (by omega), Nat.one_mul] at h1

theorem roundMag_le {n d j : Nat} (hd : 0 < d) (h : n ≤ 2 ^ j * d) : roundMag n d ≤ 2 ^ j := by
  have h1 := roundMag_mono (n := n) (d := d) (n' := 2 ^ j) (d' := 1) hd (by omega) (by omega)
  rwa [roundMag_exact (n := 2 ^ j) (d := 1) (m := 1) (k := j) (by omega) (by norm_num) (by omega), Nat.one_mul] at h1

theorem pow_lt_limit {j : Nat} (hj : j < 2098) : 2 ^ j < limit :=
  Nat.pow_lt_pow_right (by omega) (by rw [limitExp_eq]; exact hj)

/-! ### Whole numbers -/

/-- The whole number `n` as a double. -/
def whole (n : Nat) : F64 := num false (n * 2 ^ 1074)

theorem whole_finite {n : Nat} (h : n < 2 ^ 53) : Spec.Finite (whole n) := ⟨n, 1074, h, by omega, rfl⟩

theorem whole_lt {n : Nat} (h : n < 2 ^ 53) : n * 2 ^ 1074 < limit := isDouble_lt ⟨n, 1074, h, by omega, rfl⟩

theorem unit_mul (N : Nat) : (2 : ℝ) ^ N * (1 / 2) ^ N = 1 := by rw [← mul_pow]; norm_num

theorem real_whole (n : Nat) : real (whole n) = n := by
  have key : ∀ N : Nat, ((n * 2 ^ N : Nat) : ℝ) * (1 / 2) ^ N = n := by
    intro N
    rw [Nat.cast_mul, Nat.cast_pow, Nat.cast_ofNat, mul_assoc, unit_mul, mul_one]
  simpa only [whole, real, Bool.false_eq_true, if_false] using key 1074

theorem ofNat_whole {n : Nat} (h : n < 2 ^ 53) : ofNat n = whole n := by
  have e : roundMag (n * 2 ^ 1074) 1 = n * 2 ^ 1074 := roundMag_exact (by omega) h (Nat.mul_one _).symm
  unfold ofNat round
  rw [e, if_pos (whole_lt h), whole]

theorem add_mags (a b : Nat) : add (num false a) (num false b) = round false (a + b) 1 := by
  simp [add]

theorem mul_mags (s t : Bool) (a b : Nat) : mul (num s a) (num t b) = round (s != t) (a * b) (2 ^ 1074) := by
  simp only [mul]

theorem div_mags (a b : Nat) (hb : b ≠ 0) : div (num false a) (num false b) = round false (a * 2 ^ 1074) b := by
  simp only [div]
  rw [if_neg hb]
  rfl

theorem add_whole {a b : Nat} (h : a + b < 2 ^ 53) : add (whole a) (whole b) = whole (a + b) := by
  have e : a * 2 ^ 1074 + b * 2 ^ 1074 = (a + b) * 2 ^ 1074 := (Nat.add_mul _ _ _).symm
  have e' : roundMag ((a + b) * 2 ^ 1074) 1 = (a + b) * 2 ^ 1074 := roundMag_exact (by omega) h (Nat.mul_one _).symm
  unfold whole
  rw [add_mags, e, round, e', if_pos (whole_lt h)]

theorem mul_whole {a b : Nat} (h : a * b < 2 ^ 53) : mul (whole a) (whole b) = whole (a * b) := by
  have e : a * 2 ^ 1074 * (b * 2 ^ 1074) = a * b * 2 ^ 1074 * 2 ^ 1074 := by
    generalize 2 ^ 1074 = p
    ring
  have e' : roundMag (a * 2 ^ 1074 * (b * 2 ^ 1074)) (2 ^ 1074) = a * b * 2 ^ 1074 :=
    roundMag_exact (Nat.two_pow_pos _) h e
  unfold whole
  rw [mul_mags, round, e', if_pos (whole_lt h)]
  rfl

/-- The quotient of two whole numbers. -/
theorem div_whole {a b : Nat} (ha : 0 < a) (ha' : a < 2 ^ 53) (hb : 0 < b) (hb' : b < 2 ^ 53) :
    ∃ v, div (whole a) (whole b) = num false v ∧ IsDouble v ∧ 2 ^ 1021 ≤ v ∧ v ≤ 2 ^ 1127 ∧
      |real (num false v) - (a : ℝ) / b| ≤ u * (a / b) := by
  have key : ∀ N : Nat, 105 ≤ N → N + 53 < 2098 →
      (0 < b * 2 ^ N) ∧ 2 ^ (N - 53) * (b * 2 ^ N) ≤ a * 2 ^ N * 2 ^ N ∧ a * 2 ^ N * 2 ^ N ≤ 2 ^ (N + 53) * (b * 2 ^ N) ∧
      2 ^ 52 * (b * 2 ^ N) ≤ a * 2 ^ N * 2 ^ N := by
    intro N hN _
    have hp : 0 < 2 ^ N := Nat.two_pow_pos _
    have e1 : 2 ^ (N - 53) * b ≤ a * 2 ^ N := by
      calc 2 ^ (N - 53) * b ≤ 2 ^ (N - 53) * 2 ^ 53 := Nat.mul_le_mul_left _ hb'.le
        _ = 2 ^ N := by rw [← Nat.pow_add]; congr 1; omega
        _ ≤ a * 2 ^ N := Nat.le_mul_of_pos_left _ ha
    have e2 : a * 2 ^ N ≤ 2 ^ (N + 53) * b := by
      calc a * 2 ^ N ≤ 2 ^ 53 * 2 ^ N := Nat.mul_le_mul_right _ ha'.le
        _ = 2 ^ (N + 53) := by rw [← Nat.pow_add]; congr 1; omega
        _ ≤ 2 ^ (N + 53) * b := Nat.le_mul_of_pos_right _ hb
    have e3 : 2 ^ 52 * b ≤ a * 2 ^ N := by
      refine le_trans (Nat.mul_le_mul_right _ ?_) e1
      exact Nat.pow_le_pow_right (by omega) (by omega)
    refine ⟨Nat.mul_pos hb hp, ?_, ?_, ?_⟩
    · rw [← Nat.mul_assoc]; exact Nat.mul_le_mul_right _ e1
    · rw [← Nat.mul_assoc]; exact Nat.mul_le_mul_right _ e2
    · rw [← Nat.mul_assoc]; exact Nat.mul_le_mul_right _ e3
  obtain ⟨k1, k2, k3, k4⟩ := key 1074 (by omega) (by omega)
  have l1 := le_roundMag k1 k2
  have l2 := roundMag_le k1 k3
  have l3 : roundMag (a * 2 ^ 1074 * 2 ^ 1074) (b * 2 ^ 1074) < limit := Nat.lt_of_le_of_lt l2 (pow_lt_limit (by omega))
  refine ⟨roundMag (a * 2 ^ 1074 * 2 ^ 1074) (b * 2 ^ 1074), ?_, isDouble_roundMag k1 l3, l1, l2, ?_⟩
  · unfold whole
    rw [div_mags _ _ k1.ne', round, if_pos l3]
  · have herr := roundMag_rel k1 k4
    clear l1 l2 l3 k2 k3 k4
    have main : ∀ (N v : Nat), 2 ^ 53 * ((a * 2 ^ N * 2 ^ N : Nat) - (v : Int) * (b * 2 ^ N : Nat)).natAbs ≤ a * 2 ^ N * 2 ^ N →
        |(v : ℝ) * (1 / 2) ^ N - (a : ℝ) / b| ≤ u * (a / b) := by
      intro N v herr
      have hR : ((2 ^ 53 * ((a * 2 ^ N * 2 ^ N : Nat) - (v : Int) * (b * 2 ^ N : Nat)).natAbs : Nat) : ℝ) ≤
          ((a * 2 ^ N * 2 ^ N : Nat) : ℝ) := Nat.cast_le.2 herr
      rw [Nat.cast_mul, Nat.cast_natAbs, Int.cast_abs] at hR
      simp only [Int.cast_sub, Int.cast_mul, Int.cast_natCast, Int.cast_pow, Int.cast_ofNat, Nat.cast_mul, Nat.cast_pow, Nat.cast_ofNat] at hR
      have hb0 : (0 : ℝ) < b := by exact_mod_cast hb
      have hp : (0 : ℝ) < (2 : ℝ) ^ N := by positivity
      have hN := unit_mul N
      have e1 : (a : ℝ) * 2 ^ N * 2 ^ N - v * (b * 2 ^ N) = -((v : ℝ) * (1 / 2) ^ N - a / b) * (b * 2 ^ N * 2 ^ N) := by
        field_simp
        have : ((1 : ℝ) / 2) ^ N * 2 ^ N = 1 := by rw [mul_comm]; exact hN
        simp only [one_div] at this ⊢
        have h2 : (2⁻¹ : ℝ) ^ N = (2 ^ N)⁻¹ := inv_pow _ _
        try rw [h2]
        field_simp
        ring
      rw [e1, abs_mul, abs_neg, abs_of_pos (show (0 : ℝ) < b * 2 ^ N * 2 ^ N by positivity)] at hR
      have hX : (0 : ℝ) < b * 2 ^ N * 2 ^ N := by positivity
      have e2 : (a : ℝ) * 2 ^ N * 2 ^ N = a / b * (b * 2 ^ N * 2 ^ N) := by field_simp
      rw [e2, ← mul_assoc] at hR
      have h3 := le_of_mul_le_mul_right hR hX
      have h4 : u * (2 ^ 53 * |(v : ℝ) * (1 / 2) ^ N - a / b|) ≤ u * (a / b) := mul_le_mul_of_nonneg_left h3 u_pos.le
      have h5 : u * (2 ^ 53 * |(v : ℝ) * (1 / 2) ^ N - a / b|) = |(v : ℝ) * (1 / 2) ^ N - a / b| := by
        unfold u; ring
      linarith
    have := main 1074 _ herr
    simpa only [real, Bool.false_eq_true, if_false] using this

theorem abs_units (v w N : Nat) : |(v : ℝ) * (1 / 2) ^ N * (w * (1 / 2) ^ N)| = (v : ℝ) * (1 / 2) ^ N * (w * (1 / 2) ^ N) :=
  abs_of_nonneg (by positivity)

theorem abs_units_neg (v w N : Nat) : |(v : ℝ) * (1 / 2) ^ N * (-w * (1 / 2) ^ N)| = (v : ℝ) * (1 / 2) ^ N * (w * (1 / 2) ^ N) := by
  rw [← abs_units, ← abs_neg]
  congr 1
  ring

theorem sub_units_neg (p : ℝ) (v w N : Nat) : |-p * (1 / 2) ^ N - (v : ℝ) * (1 / 2) ^ N * (-w * (1 / 2) ^ N)| =
    |p * (1 / 2) ^ N - (v : ℝ) * (1 / 2) ^ N * (w * (1 / 2) ^ N)| := by
  rw [← abs_neg]
  congr 1
  ring

/-- The product of a number that is not too small and another one. -/
theorem mul_normal {v w : Nat} (s : Bool) (hv1 : 2 ^ 1021 ≤ v) (hv2 : v ≤ 2 ^ 1127) (hw1 : 2 ^ 1049 ≤ w) (hw2 : w ≤ 2 ^ 1200) :
    ∃ p, mul (num false v) (num s w) = num s p ∧ 2 ^ 52 ≤ p ∧ IsDouble p ∧
      |real (num s p) - real (num false v) * real (num s w)| ≤ u * |real (num false v) * real (num s w)| := by
  have k1 : 0 < 2 ^ 1074 := Nat.two_pow_pos _
  have k2 : 2 ^ 52 * 2 ^ 1074 ≤ v * w := by
    calc 2 ^ 52 * 2 ^ 1074 ≤ 2 ^ 1021 * 2 ^ 1049 := by
          rw [← Nat.pow_add, ← Nat.pow_add]; exact Nat.pow_le_pow_right (by omega) (by omega)
      _ ≤ v * w := Nat.mul_le_mul hv1 hw1
  have k3 : v * w ≤ 2 ^ 1253 * 2 ^ 1074 := by
    calc v * w ≤ 2 ^ 1127 * 2 ^ 1200 := Nat.mul_le_mul hv2 hw2
      _ = 2 ^ 1253 * 2 ^ 1074 := by rw [← Nat.pow_add, ← Nat.pow_add]
  have l1 := le_roundMag k1 k2
  have l2 := roundMag_le k1 k3
  have l3 : roundMag (v * w) (2 ^ 1074) < limit := Nat.lt_of_le_of_lt l2 (pow_lt_limit (by omega))
  refine ⟨roundMag (v * w) (2 ^ 1074), ?_, l1, isDouble_roundMag k1 l3, ?_⟩
  · rw [mul_mags, round, if_pos l3]
    cases s <;> rfl
  · have herr := roundMag_rel k1 k2
    clear l1 l2 l3 k2 k3 hv1 hv2 hw1 hw2
    have main : ∀ (N p : Nat), 2 ^ 53 * ((v * w : Nat) - (p : Int) * (2 ^ N : Nat)).natAbs ≤ v * w →
        |(p : ℝ) * (1 / 2) ^ N - (v : ℝ) * (1 / 2) ^ N * (w * (1 / 2) ^ N)| ≤ u * ((v : ℝ) * (1 / 2) ^ N * (w * (1 / 2) ^ N)) := by
      intro N p herr
      have hR : ((2 ^ 53 * ((v * w : Nat) - (p : Int) * (2 ^ N : Nat)).natAbs : Nat) : ℝ) ≤ ((v * w : Nat) : ℝ) := Nat.cast_le.2 herr
      rw [Nat.cast_mul, Nat.cast_natAbs, Int.cast_abs] at hR
      simp only [Int.cast_sub, Int.cast_mul, Int.cast_natCast, Int.cast_pow, Int.cast_ofNat, Nat.cast_mul, Nat.cast_pow, Nat.cast_ofNat] at hR
      have hN := unit_mul N
      have hp : (0 : ℝ) < (1 / 2 : ℝ) ^ N := by positivity
      have e1 : (p : ℝ) * (1 / 2) ^ N - (v : ℝ) * (1 / 2) ^ N * (w * (1 / 2) ^ N) =
          -((v : ℝ) * w - p * 2 ^ N) * ((1 / 2) ^ N * (1 / 2) ^ N) := by
        have : (p : ℝ) * (1 / 2) ^ N = p * 2 ^ N * ((1 / 2) ^ N * (1 / 2) ^ N) := by
          rw [mul_assoc, ← mul_assoc ((2 : ℝ) ^ N), hN, one_mul]
        rw [this]; ring
      rw [e1, abs_mul, abs_neg, abs_of_pos (mul_pos hp hp)]
      have h4 : u * (2 ^ 53 * |(v : ℝ) * w - p * 2 ^ N|) ≤ u * (v * w) := mul_le_mul_of_nonneg_left hR u_pos.le
      have h5 : u * (2 ^ 53 * |(v : ℝ) * w - p * 2 ^ N|) = |(v : ℝ) * w - p * 2 ^ N| := by unfold u; ring
      rw [h5] at h4
      have := mul_le_mul_of_nonneg_right h4 (mul_pos hp hp).le
      calc _ ≤ _ := this
        _ = _ := by ring
    have := main 1074 _ herr
    cases s with
    | false =>
      simp only [real, Bool.false_eq_true, if_false]
      rw [abs_units]
      exact this
    | true =>
      simp only [real, Bool.false_eq_true, if_false, if_true]
      rw [sub_units_neg, abs_units_neg]
      exact this

/-! ### The loss -/

/-- From a lower bound of a value to one of its units. -/
theorem units_ge {w N k : Nat} (h : (1 / 2 : ℝ) ^ k ≤ (w : ℝ) * (1 / 2) ^ (N + k)) : 2 ^ N ≤ w := by
  have hk : (0 : ℝ) < (1 / 2) ^ k := by positivity
  rw [pow_add, ← mul_assoc] at h
  have h1 : (1 : ℝ) ≤ (w : ℝ) * (1 / 2) ^ N := by
    refine le_of_mul_le_mul_right ?_ hk
    linarith
  have h2 := mul_le_mul_of_nonneg_right h1 (show (0 : ℝ) ≤ 2 ^ N by positivity)
  rw [one_mul, mul_assoc, mul_comm ((1 / 2 : ℝ) ^ N), unit_mul, mul_one] at h2
  exact_mod_cast h2

theorem units_le {w N k : Nat} (h : (w : ℝ) * (1 / 2) ^ N ≤ 2 ^ k) : w ≤ 2 ^ (N + k) := by
  have h2 := mul_le_mul_of_nonneg_right h (show (0 : ℝ) ≤ 2 ^ N by positivity)
  rw [mul_assoc, mul_comm ((1 / 2 : ℝ) ^ N), unit_mul, mul_one, ← pow_add, Nat.add_comm] at h2
  exact_mod_cast h2

theorem abs_real (s : Bool) (w : Nat) : |real (num s w)| = (w : ℝ) * (1 / 2) ^ 1074 := by
  have key : ∀ N : Nat, |(w : ℝ) * (1 / 2) ^ N| = (w : ℝ) * (1 / 2) ^ N := fun N => abs_of_nonneg (by positivity)
  cases s with
  | false => simp only [real, Bool.false_eq_true, if_false]; exact key _
  | true => simp only [real, if_true, neg_mul, abs_neg]; exact key _

theorem isNormal_num (s : Bool) {n : Nat} (h : 2 ^ 52 ≤ n) : isNormal (num s n) = true := by
  unfold isNormal
  exact decide_eq_true h

theorem near_units {w N k j : Nat} {x : ℝ} (hx : x = (w : ℝ) * (1 / 2) ^ (N + k)) (hk : j ≤ k) (h : (1 / 2 : ℝ) ^ j ≤ x) : 2 ^ N ≤ w := by
  refine units_ge (k := k) ?_
  rw [← hx]
  refine le_trans ?_ h
  exact pow_le_pow_of_le_one (by norm_num) (by norm_num) hk

theorem product_err {l V D q X : ℝ} (hq : 0 < q) (v5 : |V - q| ≤ u * q) (m4 : |l - V * D| ≤ u * |V * D|) (hD : |D - X| ≤ (1 / 2) ^ 23)
    (hDup : |D| ≤ 2 ^ 16) : |l - q * X| ≤ (1 / 2) ^ 22 * q := by
  have c23 : (1 / 2 : ℝ) ^ 23 = 1 / 8388608 := by norm_num
  have c22 : (1 / 2 : ℝ) ^ 22 = 1 / 4194304 := by norm_num
  have hV : |V| ≤ 2 * q := by
    have := abs_le.1 v5
    have hu1 : u * q ≤ 1 * q := mul_le_mul_of_nonneg_right (by unfold u; norm_num) hq.le
    rw [abs_le]
    constructor <;> linarith
  have t1 : |V * D| ≤ 2 * q * 2 ^ 16 := by
    rw [abs_mul]
    exact mul_le_mul hV hDup (abs_nonneg _) (by positivity)
  have t2 : |(V - q) * D| ≤ u * q * 2 ^ 16 := by
    rw [abs_mul]
    exact mul_le_mul v5 hDup (abs_nonneg _) (mul_nonneg u_pos.le hq.le)
  have t3 : |q * (D - X)| ≤ q * (1 / 2) ^ 23 := by
    rw [abs_mul, abs_of_pos hq]
    exact mul_le_mul_of_nonneg_left hD hq.le
  have t4 : |l - V * D| ≤ u * (2 * q * 2 ^ 16) := m4.trans (mul_le_mul_of_nonneg_left t1 u_pos.le)
  have hu : u = 1 / 9007199254740992 := by unfold u; norm_num
  rw [hu] at t2 t4
  rw [c23] at t3
  rw [c22]
  rw [abs_le] at t2 t3 t4 ⊢
  constructor <;> linarith

variable [Elementary]

/-- A difference of logarithms of whole numbers. -/
theorem log_whole {ε : ℝ} (L : LnWithin ε) (hε : ε ≤ (1 / 2) ^ 40) {a b : Nat} (ha : 0 < a) (ha' : a < 2 ^ 53) (hb : 0 < b)
    (hb' : b < 2 ^ 53) :
    Spec.Finite (sub (Elementary.ln (whole a)) (Elementary.ln (whole b))) ∧
    |real (sub (Elementary.ln (whole a)) (Elementary.ln (whole b))) - (Real.log a - Real.log b)| ≤ (1 / 2) ^ 38 ∧
    |Real.log a - Real.log b| ≤ 53 := by
  have hR : ∀ {n : Nat}, 0 < n → n < 2 ^ 53 → (1 : ℝ) ≤ n ∧ (n : ℝ) ≤ 2 ^ 53 ∧ 0 ≤ Real.log n ∧ Real.log n ≤ 53 := by
    intro n h1 h2
    have e1 : (1 : ℝ) ≤ n := by exact_mod_cast h1
    have e2 : (n : ℝ) ≤ 2 ^ 53 := by exact_mod_cast h2.le
    refine ⟨e1, e2, Real.log_nonneg e1, ?_⟩
    have e3 := Real.log_le_log (by linarith) e2
    rw [Real.log_pow] at e3
    have e5 := Real.log_le_sub_one_of_pos (show (0 : ℝ) < 2 by norm_num)
    push_cast at e3
    linarith
  obtain ⟨a1, a2, a3, a4⟩ := hR ha ha'
  obtain ⟨b1, b2, b3, b4⟩ := hR hb hb'
  have h := log_sub L (hε.trans (by norm_num)) (whole_finite ha') (whole_finite hb')
    (by rw [real_whole]; linarith) (by rw [real_whole]; linarith)
    (by rw [real_whole]; exact a2.trans (by norm_num)) (by rw [real_whole]; exact b2.trans (by norm_num))
  rw [real_whole, real_whole] at h
  refine ⟨h.1, h.2.trans ?_, by rw [abs_le]; constructor <;> linarith⟩
  have hu : u = (1 / 2) ^ 53 := rfl
  rw [hu]
  have : (2 : ℝ) * (1 / 2) ^ 40 + 300 * (1 / 2) ^ 53 ≤ (1 / 2) ^ 38 := by norm_num
  linarith

omit [Elementary] in
theorem sum_err {ι : Type} (f g : ι → ℝ) {e : ℝ} : ∀ (l : List ι), (∀ x ∈ l, |f x - g x| ≤ e) →
    |(l.map f).sum - (l.map g).sum| ≤ l.length * e
  | [], _ => by simp
  | x :: l, h => by
    have ih := sum_err f g l (fun y hy => h y (List.mem_cons_of_mem _ hy))
    have hx := h x (List.mem_cons_self ..)
    simp only [List.map_cons, List.sum_cons, List.length_cons, Nat.cast_add, Nat.cast_one]
    rw [abs_le] at *
    constructor <;> linarith

omit [Elementary] in
theorem sum_abs {ι : Type} (f : ι → ℝ) {e : ℝ} : ∀ (l : List ι), (∀ x ∈ l, |f x| ≤ e) → |(l.map f).sum| ≤ l.length * e := by
  intro l h
  have := sum_err f (fun _ => 0) (e := e) l (by simpa using h)
  simpa using this

/-- **The loss with doubles**: if the counts are whole numbers that doubles can represent and the exact loss is not too small, the
computed loss is a normal number close to the exact one. -/
theorem lossOf_near {ε : ℝ} (L : LnWithin ε) (hε : ε ≤ (1 / 2) ^ 40) {N n : Nat} {count : Nat → Nat} {i : Nat} {alt : List Nat}
    (hi : i < n) (hf : 0 < count i) (hN : 0 < N) (hN' : N < 2 ^ 53) (halt : ∀ j ∈ alt, j < n) (hlen : alt.length ≤ 1024)
    (hbig : ((List.range n).map count).sum + count i * (n - 1) < 2 ^ 52)
    (hgap : (1 / 2) ^ 22 * ((count i : ℝ) / N) ≤ |pruneLoss N n count i alt|) :
    ∃ l : F64, Pruner.lossOf N n ((List.range n).map count) i alt = .ok l ∧ TrainOps.isNormal l = true ∧ Spec.Finite l ∧
      |real l - pruneLoss N n count i alt| ≤ (1 / 2) ^ 22 * ((count i : ℝ) / N) := by
  have hidx : ∀ j, j < n → idx ((List.range n).map count) j = .ok (count j) := by
    intro j hj
    rw [idx_of_lt (by simpa using hj)]
    congr 1
    simp
  have hle : ∀ j, j < n → count j ≤ ((List.range n).map count).sum := by
    intro j hj
    exact List.le_sum_of_mem (List.mem_map_of_mem (List.mem_range.2 hj))
  unfold pruneLoss at hgap ⊢
  simp only at hgap ⊢
  generalize hS : ((List.range n).map count).sum = S at *
  generalize hfi : count i = f at *
  have hfS : f ≤ S := hfi ▸ hle i hi
  set A := S + f * (n - 1) with hA
  -- the pieces
  set term : Nat → F64 := fun a => sub (Elementary.ln (whole (count a + f))) (Elementary.ln (whole A)) with hterm
  have hof : ∀ m, m < 2 ^ 53 → (RealOps.ofNat m : F64) = whole m := fun m hm => ofNat_whole hm
  have hAr : ((S : ℝ) + f * ((n - 1 : ℕ) : ℝ)) = (A : ℕ) := by rw [hA]; push_cast; rfl
  have hgr : ∀ a, ((count a : ℝ) + f) = ((count a + f : ℕ) : ℝ) := fun a => by push_cast; rfl
  have hmul : f * (n - 1) < 2 ^ 53 := by omega
  have hn53 : n - 1 < 2 ^ 53 := by
    have : n - 1 ≤ f * (n - 1) := Nat.le_mul_of_pos_left _ hf
    omega
  have hfold : ∀ (alt : List Nat) (x : F64), (∀ j ∈ alt, j < n) → alt.foldlM (fun acc altId => do
        let g ← idx ((List.range n).map count) altId
        pure (ScoreOps.add acc (RealOps.sub (RealOps.ln (ScoreOps.add (RealOps.ofNat g) (whole f))) (RealOps.ln (whole A))))) x =
      (.ok ((alt.map term).foldl add x) : Res F64) := by
    intro alt
    induction alt with
    | nil => intro x _; rfl
    | cons a alt ih =>
      intro x h
      have ha := h a (List.mem_cons_self ..)
      have hca := hle a ha
      rw [List.foldlM_cons, hidx a ha]
      simp only [res_bind_ok]
      refine (ih _ (fun j hj => h j (List.mem_cons_of_mem _ hj))).trans ?_
      rw [hof _ (by omega)]
      have e : (ScoreOps.add (whole (count a)) (whole f) : F64) = whole (count a + f) := add_whole (by omega)
      rw [e]
      rfl
  have hloss : Pruner.lossOf N n ((List.range n).map count) i alt = (.ok (mul (div (whole f) (whole N))
      (sub (sub (Elementary.ln (whole f)) (Elementary.ln (whole S))) ((alt.map term).foldl add (whole 0)))) : Res F64) := by
    unfold Pruner.lossOf
    rw [hidx i hi, hfi]
    simp only [res_bind_ok, hS]
    rw [if_neg (by omega), hof S (by omega), hof f (by omega), hof (n - 1) hn53, hof 0 (by omega), hof N hN']
    have e1 : (RealOps.mul (whole f) (whole (n - 1)) : F64) = whole (f * (n - 1)) := mul_whole hmul
    have e2 : (ScoreOps.add (whole S) (whole (f * (n - 1))) : F64) = whole A := add_whole (by omega)
    rw [e1, e2, hfold alt _ halt]
    rfl
  -- how exact they are
  obtain ⟨p1, p2, p3⟩ := log_whole L hε hf (show f < 2 ^ 53 by omega) (show 0 < S by omega) (show S < 2 ^ 53 by omega)
  have ht : ∀ a ∈ alt, Spec.Finite (term a) ∧ |real (term a) - (Real.log ((count a : ℝ) + f) - Real.log (S + f * ((n - 1 : ℕ) : ℝ)))| ≤
      (1 / 2) ^ 38 ∧ |Real.log ((count a : ℝ) + f) - Real.log (S + f * ((n - 1 : ℕ) : ℝ))| ≤ 53 := by
    intro a ha
    have hca := hle a (halt a ha)
    rw [hAr, hgr]
    exact log_whole L hε (show 0 < count a + f by omega) (show count a + f < 2 ^ 53 by omega) (show 0 < A by omega)
      (show A < 2 ^ 53 by omega)
  have h1000 : ((1024 : ℕ) + 1 : ℝ) * (64 + (1 / 2) ^ 35) ≤ 2 ^ 1000 := by
    calc ((1024 : ℕ) + 1 : ℝ) * (64 + (1 / 2) ^ 35) ≤ 2 ^ 20 := by norm_num
      _ ≤ 2 ^ 1000 := pow_le_pow_right₀ (by norm_num) (by omega)
  obtain ⟨q1, q2⟩ := foldl_err (B := 64) (δ := (1 / 2) ^ 35) 1024 (by norm_num) h1000 (by norm_num) (by norm_num)
    (alt.map term) (whole 0) 0 (by
      intro x hx
      obtain ⟨a, ha, rfl⟩ := List.mem_map.1 hx
      obtain ⟨t1, t2, t3⟩ := ht a ha
      refine ⟨t1, ?_⟩
      rw [abs_le] at t2 t3 ⊢
      have : (1 / 2 : ℝ) ^ 38 ≤ 1 := by norm_num
      constructor <;> linarith) (whole_finite (by norm_num)) (by rw [real_whole]; simp) (by simpa using hlen)
  rw [real_whole, List.map_map, List.length_map] at q2
  have hlenR : (alt.length : ℝ) ≤ 1024 := by exact_mod_cast hlen
  have q3 := sum_err (real ∘ term) (fun a => Real.log ((count a : ℝ) + f) - Real.log (S + f * ((n - 1 : ℕ) : ℝ))) alt
    (fun a ha => (ht a ha).2.1)
  have q4 := sum_abs (fun a => Real.log ((count a : ℝ) + f) - Real.log (S + f * ((n - 1 : ℕ) : ℝ))) alt
    (fun a ha => (ht a ha).2.2)
  generalize (alt.map fun a => Real.log ((count a : ℝ) + f) - Real.log (S + f * ((n - 1 : ℕ) : ℝ))).sum = Y at *
  generalize hZ : (alt.map term).foldl add (whole 0) = Z at *
  generalize hW : sub (Elementary.ln (whole f)) (Elementary.ln (whole S)) = W at *
  generalize (alt.map (real ∘ term)).sum = T at *
  generalize hX : Real.log f - Real.log S - Y = X at *
  have q2' : |real Z - T| ≤ (1 / 2) ^ 25 := by
    have : (alt.length : ℝ) * (1 / 2) ^ 35 ≤ 1024 * (1 / 2) ^ 35 := mul_le_mul_of_nonneg_right hlenR (by norm_num)
    have e : (1024 : ℝ) * (1 / 2) ^ 35 = (1 / 2) ^ 25 := by norm_num
    simp only [Nat.cast_zero, zero_add] at q2
    linarith
  have q3' : |T - Y| ≤ (1 / 2) ^ 28 := by
    have : (alt.length : ℝ) * (1 / 2) ^ 38 ≤ 1024 * (1 / 2) ^ 38 := mul_le_mul_of_nonneg_right hlenR (by norm_num)
    have e : (1024 : ℝ) * (1 / 2) ^ 38 = (1 / 2) ^ 28 := by norm_num
    linarith
  have q4' : |Y| ≤ 1024 * 53 := q4.trans (mul_le_mul_of_nonneg_right hlenR (by norm_num))
  obtain ⟨z1, z2⟩ := finite_real_neg q1
  rw [abs_le] at p2 p3 q2' q3' q4'
  have c25 : (1 / 2 : ℝ) ^ 25 = 1 / 33554432 := by norm_num
  have c28 : (1 / 2 : ℝ) ^ 28 = 1 / 268435456 := by norm_num
  have c38 : (1 / 2 : ℝ) ^ 38 = 1 / 274877906944 := by norm_num
  have c23 : (1 / 2 : ℝ) ^ 23 = 1 / 8388608 := by norm_num
  have c22 : (1 / 2 : ℝ) ^ 22 = 1 / 4194304 := by norm_num
  rw [c25] at q2'
  rw [c28] at q3'
  rw [c38] at p2
  have hWZ : |real W + real (neg Z)| ≤ 2 ^ 18 := by
    rw [z2, abs_le]
    constructor <;> norm_num <;> linarith
  obtain ⟨d1, d2⟩ := add_err p1 z1 (hWZ.trans (pow_le_pow_right₀ (by norm_num) (by omega)))
  have d3 := of_err d2
  have d4 : u * |real W + real (neg Z)| ≤ 1 / 34359738368 := by
    calc u * |real W + real (neg Z)| ≤ u * 2 ^ 18 := mul_le_mul_of_nonneg_left hWZ u_pos.le
      _ = 1 / 34359738368 := by unfold u; norm_num
  have d5 := abs_le.1 (d3.trans d4)
  rw [z2] at d5
  have hD : |real (sub W Z) - X| ≤ (1 / 2) ^ 23 := by
    rw [← hX, abs_le, c23]
    unfold sub
    constructor <;> linarith
  have hfR : (0 : ℝ) < f := by exact_mod_cast hf
  have hNR : (0 : ℝ) < N := by exact_mod_cast hN
  have hq : (0 : ℝ) < (f : ℝ) / N := by positivity
  have hXlow : (1 / 2 : ℝ) ^ 22 ≤ |X| := by
    rw [abs_mul, abs_of_pos hq, mul_comm ((f : ℝ) / N)] at hgap
    exact le_of_mul_le_mul_right hgap hq
  have hDlow : (1 / 2 : ℝ) ^ 23 ≤ |real (sub W Z)| := by
    have h1 := abs_sub_abs_le_abs_sub X (real (sub W Z))
    rw [abs_sub_comm] at h1
    rw [c22] at hXlow
    rw [c23] at hD ⊢
    linarith
  have hXup : |X| ≤ 1024 * 53 + 53 := by
    rw [← hX, abs_le]
    constructor <;> linarith
  have hDup : |real (sub W Z)| ≤ 2 ^ 16 := by
    have h1 := abs_sub_abs_le_abs_sub (real (sub W Z)) X
    rw [c23] at hD
    norm_num
    linarith
  -- the product
  obtain ⟨v, v1, v2, v3, v4, v5⟩ := div_whole hf (show f < 2 ^ 53 by omega) hN hN'
  have hDW : sub W Z = add W (neg Z) := rfl
  rw [hDW] at hD hDlow hDup
  rw [hloss, v1, hDW]
  cases hDD : add W (neg Z) with
  | nan => rw [hDD] at d1; exact d1.elim
  | inf s => rw [hDD] at d1; exact d1.elim
  | num s w =>
    rw [hDD] at hD hDlow hDup
    have w1 : 2 ^ 1049 ≤ w := near_units (N := 1049) (k := 25) (abs_real s w) (by omega) hDlow
    have w2 : w ≤ 2 ^ 1200 := by
      rw [abs_real] at hDup
      exact (units_le hDup).trans (Nat.pow_le_pow_right (by omega) (by omega))
    obtain ⟨p, m1, m2, m3, m4⟩ := mul_normal s v3 v4 w1 w2
    refine ⟨num s p, by rw [m1], ?_, m3, ?_⟩
    · exact isNormal_num s m2
    · generalize real (num s p) = l at *
      generalize real (num s w) = D at *
      generalize real (num false v) = V at *
      generalize (f : ℝ) / N = q at *
      exact product_err hq v5 m4 hD hDup

end F64
end Tokengeex

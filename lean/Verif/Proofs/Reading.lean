import Verif.Model.Number64
import Verif.Spec.Reading
import Verif.Proofs.Progress
import Verif.Proofs.Number64
import Verif.Proofs.Reread2
/-
Reading numbers with any number of digits.
-/
namespace Tokengeex
open Spec

namespace F64

theorem takeInt_spec (ds : List Nat) : ∀ sig, sig < 2 ^ 64 → (∀ d ∈ ds, d < 10) →
    (takeInt sig ds).1 * 10 ^ (takeInt sig ds).2 ≤ sig * 10 ^ ds.length + ofDigits ds ∧
    sig * 10 ^ ds.length + ofDigits ds < ((takeInt sig ds).1 + 1) * 10 ^ (takeInt sig ds).2 ∧
    ((takeInt sig ds).2 ≠ 0 → 2 ^ 60 ≤ (takeInt sig ds).1) ∧ (takeInt sig ds).2 ≤ ds.length := by
  induction ds with
  | nil => intro sig _ _; simp [takeInt, ofDigits]
  | cons d ds ih =>
    intro sig hs hd
    have hd0 := hd d (by simp)
    have hlt := ofDigits_lt hd
    rw [takeInt]
    by_cases h1 : 2 ^ 64 ≤ sig * 10 + d
    · rw [if_pos h1]
      dsimp only
      rw [List.length_cons] at *
      refine ⟨by omega, ?_, fun _ => by omega, Nat.le_refl _⟩
      rw [Nat.add_mul, Nat.one_mul]
      omega
    · rw [if_neg h1]
      obtain ⟨a, b, c, e⟩ := ih (sig * 10 + d) (by omega) (fun x hx => hd x (by simp [hx]))
      have e2 : sig * 10 ^ (d :: ds).length + ofDigits (d :: ds) = (sig * 10 + d) * 10 ^ ds.length + ofDigits ds := by
        rw [ofDigits_cons, List.length_cons, Nat.pow_succ]; ring
      rw [e2]
      exact ⟨a, b, c, by rw [List.length_cons]; omega⟩

theorem takeFrac_spec (ds : List Nat) : ∀ sig, sig < 2 ^ 64 → (∀ d ∈ ds, d < 10) →
    (takeFrac sig ds).2 ≤ ds.length ∧
    (takeFrac sig ds).1 * 10 ^ (ds.length - (takeFrac sig ds).2) ≤ sig * 10 ^ ds.length + ofDigits ds ∧
    sig * 10 ^ ds.length + ofDigits ds < ((takeFrac sig ds).1 + 1) * 10 ^ (ds.length - (takeFrac sig ds).2) ∧
    ((takeFrac sig ds).2 ≠ ds.length → 2 ^ 60 ≤ (takeFrac sig ds).1) ∧
    sig * 10 ^ (takeFrac sig ds).2 ≤ (takeFrac sig ds).1 ∧ (takeFrac sig ds).1 < (sig + 1) * 10 ^ (takeFrac sig ds).2 := by
  induction ds with
  | nil => intro sig _ _; simp [takeFrac, ofDigits]
  | cons d ds ih =>
    intro sig hs hd
    have hd0 := hd d (by simp)
    have hlt := ofDigits_lt hd
    rw [takeFrac]
    by_cases h1 : 2 ^ 64 ≤ sig * 10 + d
    · rw [if_pos h1]
      dsimp only
      rw [List.length_cons, Nat.sub_zero] at *
      refine ⟨Nat.zero_le _, by omega, ?_, fun _ => by omega, by omega, by omega⟩
      rw [Nat.add_mul, Nat.one_mul]
      omega
    · rw [if_neg h1]
      obtain ⟨a, b, c, e, f, g⟩ := ih (sig * 10 + d) (by omega) (fun x hx => hd x (by simp [hx]))
      have e2 : sig * 10 ^ (d :: ds).length + ofDigits (d :: ds) = (sig * 10 + d) * 10 ^ ds.length + ofDigits ds := by
        rw [ofDigits_cons, List.length_cons, Nat.pow_succ]; ring
      rw [e2]
      dsimp only
      generalize takeFrac (sig * 10 + d) ds = r at *
      have e3 : (d :: ds).length - (r.2 + 1) = ds.length - r.2 := by rw [List.length_cons]; omega
      rw [e3, List.length_cons]
      refine ⟨by omega, b, c, fun h => e (by omega), ?_, ?_⟩
      · calc sig * 10 ^ (r.2 + 1) = sig * 10 * 10 ^ r.2 := by rw [Nat.pow_succ]; ring
          _ ≤ (sig * 10 + d) * 10 ^ r.2 := Nat.mul_le_mul_right _ (by omega)
          _ ≤ _ := f
      · calc r.1 < (sig * 10 + d + 1) * 10 ^ r.2 := g
          _ ≤ ((sig + 1) * 10) * 10 ^ r.2 := Nat.mul_le_mul_right _ (by omega)
          _ = _ := by rw [Nat.pow_succ]; ring

/-- The digits before the exponent: significand and power of ten. -/
def mantissa (t : NumTok) : Nat × Int :=
  ((takeFrac (takeInt 0 t.int).1 (NumTok.fraction t)).1,
    ((takeInt 0 t.int).2 : Int) - (takeFrac (takeInt 0 t.int).1 (NumTok.fraction t)).2)

theorem zpow_int (a : Nat) : ((10 : ℝ) ^ (a : Int)) = ((10 ^ a : Nat) : ℝ) := by
  rw [zpow_natCast]; push_cast; rfl

/-- What the collected digits lose. -/
theorem mantissa_close {t : NumTok} (ht : NumTok.Decimal t) :
    (mantissa t).1 < 2 ^ 64 ∧
    |((mantissa t).1 : ℝ) * (10 : ℝ) ^ (mantissa t).2 - ofDigits (t.int ++ NumTok.fraction t) * (10 : ℝ) ^ (-((NumTok.fraction t).length : Int))| ≤
      (1 / 2) ^ 60 * (ofDigits (t.int ++ NumTok.fraction t) * (10 : ℝ) ^ (-((NumTok.fraction t).length : Int))) ∧
    -((NumTok.fraction t).length : Int) ≤ (mantissa t).2 ∧ (mantissa t).2 ≤ t.int.length := by
  obtain ⟨hi, hf, _⟩ := ht
  unfold mantissa
  generalize NumTok.fraction t = fs at *
  have hI := takeInt_spec t.int 0 (by norm_num) hi
  rw [Nat.zero_mul, Nat.zero_add] at hI
  have hIlt := takeInt_lt t.int 0 (by norm_num)
  generalize takeInt 0 t.int = i at *
  obtain ⟨i1, i2, i3, i4⟩ := hI
  have hF := takeFrac_spec fs i.1 hIlt hf
  have hFlt := takeFrac_lt fs i.1 hIlt
  generalize takeFrac i.1 fs = f at *
  obtain ⟨f1, f2, f3, f4, f5, f6⟩ := hF
  dsimp only
  refine ⟨hFlt, ?_, by omega, by omega⟩
  have hofs := ofDigits_lt hf
  rw [ofDigits_append]
  generalize ofDigits t.int = A at *
  generalize ofDigits fs = B at *
  generalize fs.length = L at *
  have p10 : ∀ z : Int, (0 : ℝ) < (10 : ℝ) ^ z := fun z => zpow_pos (by norm_num) z
  by_cases h0 : i.2 = 0
  · -- all digits before the point fit
    rw [h0, pow_zero, Nat.mul_one] at i1 i2
    have hA : A = i.1 := by omega
    rw [h0, hA]
    generalize i.1 * 10 ^ L + B = N at *
    have e0 : (10 : ℝ) ^ (((0 : Nat) : Int) - f.2) = (10 : ℝ) ^ (-(L : Int)) * ((10 ^ (L - f.2) : Nat) : ℝ) := by
      rw [← zpow_int, ← zpow_add₀ (by norm_num)]
      congr 1
      omega
    rw [e0]
    have hw := p10 (-(L : Int))
    generalize (10 : ℝ) ^ (-(L : Int)) = w at *
    have g2 : (f.1 : ℝ) * ((10 ^ (L - f.2) : Nat) : ℝ) ≤ N := by exact_mod_cast f2
    have g3 : (N : ℝ) + 1 ≤ ((f.1 : ℝ) + 1) * ((10 ^ (L - f.2) : Nat) : ℝ) := by exact_mod_cast f3
    have key : (N : ℝ) - f.1 * ((10 ^ (L - f.2) : Nat) : ℝ) ≤ (1 / 2) ^ 60 * N := by
      by_cases hL : f.2 = L
      · rw [hL, Nat.sub_self, pow_zero, Nat.cast_one, mul_one] at g2 g3 ⊢
        have : (N : ℝ) = f.1 := le_antisymm (by linarith) g2
        rw [this, sub_self]
        positivity
      · have h4 : (2 : ℝ) ^ 60 ≤ f.1 := by exact_mod_cast f4 hL
        have hP : (0 : ℝ) ≤ ((10 ^ (L - f.2) : Nat) : ℝ) := Nat.cast_nonneg _
        generalize ((10 ^ (L - f.2) : Nat) : ℝ) = P at *
        have h5 : 2 ^ 60 * P ≤ N := le_trans (mul_le_mul_of_nonneg_right h4 hP) g2
        have h6 : (1 / 2 : ℝ) ^ 60 * (2 ^ 60 * P) = P := by
          rw [← mul_assoc]; norm_num
        have h7 := mul_le_mul_of_nonneg_left h5 (show (0 : ℝ) ≤ (1 / 2) ^ 60 by positivity)
        rw [h6] at h7
        linarith
    have e1 : (f.1 : ℝ) * (w * ((10 ^ (L - f.2) : Nat) : ℝ)) - N * w = -((N - f.1 * ((10 ^ (L - f.2) : Nat) : ℝ)) * w) := by ring
    rw [e1, abs_neg, abs_of_nonneg (mul_nonneg (by linarith) hw.le), ← mul_assoc]
    exact mul_le_mul_of_nonneg_right key hw.le
  · have h4 : (2 : ℝ) ^ 60 ≤ i.1 := by exact_mod_cast i3 h0
    have e0 : (10 : ℝ) ^ ((i.2 : Int) - f.2) * ((10 ^ f.2 : Nat) : ℝ) = ((10 ^ i.2 : Nat) : ℝ) := by
      rw [← zpow_int, ← zpow_int, ← zpow_add₀ (by norm_num)]
      congr 1
      omega
    have e1 : (10 : ℝ) ^ (-(L : Int)) * ((10 ^ L : Nat) : ℝ) = 1 := by
      rw [← zpow_int, ← zpow_add₀ (by norm_num)]
      simp
    have hx := p10 ((i.2 : Int) - f.2)
    have hw := p10 (-(L : Int))
    generalize (10 : ℝ) ^ ((i.2 : Int) - f.2) = x at *
    generalize (10 : ℝ) ^ (-(L : Int)) = w at *
    have g1 : (i.1 : ℝ) * ((10 ^ i.2 : Nat) : ℝ) ≤ A := by exact_mod_cast i1
    have g2 : (A : ℝ) + 1 ≤ ((i.1 : ℝ) + 1) * ((10 ^ i.2 : Nat) : ℝ) := by exact_mod_cast i2
    have g3 : (B : ℝ) ≤ ((10 ^ L : Nat) : ℝ) := by exact_mod_cast hofs.le
    have g5 : (i.1 : ℝ) * ((10 ^ f.2 : Nat) : ℝ) ≤ f.1 := by exact_mod_cast f5
    have g6 : (f.1 : ℝ) ≤ ((i.1 : ℝ) + 1) * ((10 ^ f.2 : Nat) : ℝ) := by exact_mod_cast f6.le
    have hW : (0 : ℝ) ≤ ((10 ^ i.2 : Nat) : ℝ) := Nat.cast_nonneg _
    have hB : (0 : ℝ) ≤ B := Nat.cast_nonneg _
    rw [Nat.cast_add, Nat.cast_mul]
    generalize ((10 ^ L : Nat) : ℝ) = TL at *
    generalize ((10 ^ i.2 : Nat) : ℝ) = W at *
    generalize ((10 ^ f.2 : Nat) : ℝ) = TF at *
    have ev : ((A : ℝ) * TL + B) * w = A + B * w := by
      calc ((A : ℝ) * TL + B) * w = A * (w * TL) + B * w := by ring
        _ = _ := by rw [e1, mul_one]
    rw [ev]
    have hBw : B * w ≤ 1 := by
      calc B * w ≤ TL * w := mul_le_mul_of_nonneg_right g3 hw.le
        _ = 1 := by rw [mul_comm, e1]
    have hBw0 : 0 ≤ B * w := mul_nonneg hB hw.le
    have l1 : (i.1 : ℝ) * W ≤ f.1 * x := by
      have := mul_le_mul_of_nonneg_right g5 hx.le
      calc (i.1 : ℝ) * W = i.1 * TF * x := by rw [← e0]; ring
        _ ≤ _ := this
    have l2 : f.1 * x ≤ ((i.1 : ℝ) + 1) * W := by
      have := mul_le_mul_of_nonneg_right g6 hx.le
      calc f.1 * x ≤ (i.1 + 1) * TF * x := this
        _ = _ := by rw [← e0]; ring
    have h7 : W ≤ (1 / 2) ^ 60 * (A + B * w) := by
      have h5 : 2 ^ 60 * W ≤ A + B * w := le_trans (mul_le_mul_of_nonneg_right h4 hW) (by linarith)
      have h6 : (1 / 2 : ℝ) ^ 60 * (2 ^ 60 * W) = W := by
        rw [← mul_assoc]; norm_num
      have h7 := mul_le_mul_of_nonneg_left h5 (show (0 : ℝ) ≤ (1 / 2) ^ 60 by positivity)
      rwa [h6] at h7
    refine le_trans ?_ h7
    rw [abs_le]
    constructor <;> linarith

/-! ### Scaling -/

theorem ofNat_moderate {n : Nat} (h0 : 1 ≤ n) (h : (n : ℝ) ≤ 2 ^ 1000) : Spec.Finite (ofNat n) ∧ |real (ofNat n) - n| ≤ u * n := by
  have e : ∀ N : Nat, ((n * 2 ^ N : Nat) : ℝ) / ((1 : Nat) : ℝ) * (1 / 2) ^ N = n := by
    intro N
    rw [Nat.cast_one, div_one, Nat.cast_mul, Nat.cast_pow, Nat.cast_ofNat, mul_assoc, unit_mul, mul_one]
  have hn1 : (1 : ℝ) ≤ n := by exact_mod_cast h0
  obtain ⟨f, g⟩ := round_rel_err false (n := n * 2 ^ 1074) (d := 1) (by omega) (by rw [e]; exact h) (fun _ => by
    rw [e]; exact le_trans (pow_le_one₀ (by norm_num) (by norm_num)) hn1)
  rw [e] at g
  have hs : sgn false = 1 := by simp [sgn]
  rw [hs, one_mul] at g
  exact ⟨f, g⟩

/-- Three roundings. -/
theorem three_arith {u a b x y z : ℝ} (hu0 : 0 < u) (hu : u ≤ 1 / 1000000) (ha : 0 < a) (hb : 0 < b) (hx : |x - a| ≤ u * a)
    (hy : |y - b| ≤ u * b) : (|z - x * y| ≤ u * |x * y| → |z - a * b| ≤ 4 * u * (a * b)) ∧
      (|z - x / y| ≤ u * |x / y| → |z - a / b| ≤ 4 * u * (a / b)) ∧ 0 < x ∧ 0 < y ∧ x * y ≤ 2 * (a * b) ∧ a * b / 2 ≤ x * y ∧
      x / y ≤ 2 * (a / b) ∧ a / b / 2 ≤ x / y := by
  rw [abs_le] at hx hy
  have x1 : a * (1 - u) ≤ x := by linarith
  have x2 : x ≤ a * (1 + u) := by linarith
  have y1 : b * (1 - u) ≤ y := by linarith
  have y2 : y ≤ b * (1 + u) := by linarith
  have hx0 : 0 < x := lt_of_lt_of_le (mul_pos ha (by linarith)) x1
  have hy0 : 0 < y := lt_of_lt_of_le (mul_pos hb (by linarith)) y1
  have hab : 0 < a * b := mul_pos ha hb
  have hab' : 0 < a / b := div_pos ha hb
  have uu : u * u ≤ 1 / 1000000 * u := mul_le_mul_of_nonneg_right hu hu0.le
  have m1 : x * y ≤ a * b * (1 + 201 / 100 * u) := by
    calc x * y ≤ a * (1 + u) * (b * (1 + u)) := mul_le_mul x2 y2 hy0.le (by positivity)
      _ = a * b * (1 + 2 * u + u * u) := by ring
      _ ≤ _ := mul_le_mul_of_nonneg_left (by linarith) hab.le
  have m2 : a * b * (1 - 2 * u) ≤ x * y := by
    calc a * b * (1 - 2 * u) ≤ a * b * (1 - 2 * u + u * u) := mul_le_mul_of_nonneg_left (by nlinarith) hab.le
      _ = a * (1 - u) * (b * (1 - u)) := by ring
      _ ≤ _ := mul_le_mul x1 y1 (mul_nonneg hb.le (by linarith)) hx0.le
  have d1 : x / y ≤ a / b * (1 + 201 / 100 * u) := by
    rw [div_le_iff₀ hy0]
    calc x ≤ a * (1 + u) := x2
      _ ≤ a * ((1 + 201 / 100 * u) * (1 - u)) := mul_le_mul_of_nonneg_left (by nlinarith) ha.le
      _ = a / b * (1 + 201 / 100 * u) * (b * (1 - u)) := by field_simp
      _ ≤ _ := mul_le_mul_of_nonneg_left y1 (by positivity)
  have d2 : a / b * (1 - 2 * u) ≤ x / y := by
    rw [le_div_iff₀ hy0]
    calc a / b * (1 - 2 * u) * y ≤ a / b * (1 - 2 * u) * (b * (1 + u)) :=
          mul_le_mul_of_nonneg_left y2 (mul_nonneg hab'.le (by linarith))
      _ = a * ((1 - 2 * u) * (1 + u)) := by field_simp
      _ ≤ a * (1 - u) := mul_le_mul_of_nonneg_left (by nlinarith) ha.le
      _ ≤ x := x1
  have close : ∀ c w, 0 < c → 0 < w → w ≤ c * (1 + 201 / 100 * u) → c * (1 - 2 * u) ≤ w → |z - w| ≤ u * |w| → |z - c| ≤ 4 * u * c := by
    intro c w hc hw h1 h2 h3
    rw [abs_of_pos hw, abs_le] at h3
    have h4 : u * w ≤ u * (c * 2) := mul_le_mul_of_nonneg_left (le_trans h1 (mul_le_mul_of_nonneg_left (by linarith) hc.le)) hu0.le
    have h5 : u * w ≤ u * c * (1 + 201 / 100 * u) := by
      have := mul_le_mul_of_nonneg_left h1 hu0.le
      linarith
    have h6 : u * c * (201 / 100 * u) ≤ u * c * (1 / 100) := mul_le_mul_of_nonneg_left (by linarith) (by positivity)
    have h7 : 0 < u * c := mul_pos hu0 hc
    rw [abs_le]
    constructor <;> linarith
  refine ⟨close _ _ hab (mul_pos hx0 hy0) m1 m2, close _ _ hab' (div_pos hx0 hy0) d1 d2, hx0, hy0, ?_, ?_, ?_, ?_⟩
  · exact le_trans m1 (by nlinarith)
  · exact le_trans (by nlinarith) m2
  · exact le_trans d1 (by nlinarith)
  · exact le_trans (by nlinarith) d2

theorem ten_pow_le {j : Nat} (h : j ≤ 300) : (10 : ℝ) ^ j ≤ 2 ^ 1000 := by
  have h1 : (10 : ℝ) ^ j ≤ 10 ^ 300 := pow_le_pow_right₀ (by norm_num) h
  have h2 : (10 : ℝ) ^ 300 = (10 ^ 3) ^ 100 := by rw [← pow_mul]
  have h3 : (2 : ℝ) ^ 1000 = (2 ^ 10) ^ 100 := by rw [← pow_mul]
  rw [h3]
  refine le_trans h1 ?_
  rw [h2]
  exact pow_le_pow_left₀ (by norm_num) (by norm_num) 100

theorem ten_zpow_le {j : Int} (h : j ≤ 300) : (10 : ℝ) ^ j ≤ 2 ^ 1000 := by
  refine le_trans (zpow_le_zpow_right₀ (by norm_num) h) ?_
  exact ten_pow_le (j := 300) (Nat.le_refl _)

theorem le_ten_zpow {j : Int} (h : -300 ≤ j) : (1 / 2 : ℝ) ^ 1000 ≤ (10 : ℝ) ^ j := by
  refine le_trans ?_ (zpow_le_zpow_right₀ (by norm_num) h)
  have e : (10 : ℝ) ^ (-300 : Int) = ((10 : ℝ) ^ 300)⁻¹ := by
    rw [zpow_neg]
    rfl
  rw [e, one_div, inv_pow]
  exact inv_anti₀ (by positivity) (ten_pow_le (j := 300) (Nat.le_refl _))

theorem not_infinite {x : F64} (h : Spec.Finite x) : ¬ isInfinite x = true := by
  rcases x with _ | _ | ⟨s, n⟩
  · exact h.elim
  · exact h.elim
  · simp [isInfinite]

theorem signed_close {x : F64} {v e : ℝ} (neg' : Bool) (hx : Spec.Finite x) (h : |real x - v| ≤ e) :
    Spec.Finite (if neg' then neg x else x) ∧ |real (if neg' then neg x else x) - (if neg' then -1 else 1) * v| ≤ e := by
  cases neg' with
  | false => simpa using ⟨hx, h⟩
  | true =>
    obtain ⟨g1, g2⟩ := finite_real_neg hx
    refine ⟨g1, ?_⟩
    simp only [if_true]
    rw [g2, show -real x - -1 * v = -(real x - v) by ring, abs_neg]
    exact h

theorem fromParts_close (neg' : Bool) {M : Nat} {k : Int} (h0 : 1 ≤ M) (hM : M < 2 ^ 64) (hk1 : -300 ≤ k) (hk2 : k ≤ 281)
    (h1 : (10 : ℝ) ^ (-281 : Int) ≤ M * (10 : ℝ) ^ k) (h2 : M * (10 : ℝ) ^ k ≤ (10 : ℝ) ^ (281 : Int)) :
    ∃ y, fromParts neg' M k = some y ∧ Spec.Finite y ∧
      |real y - (if neg' then -1 else 1) * (M * (10 : ℝ) ^ k)| ≤ 4 * u * (M * (10 : ℝ) ^ k) := by
  have hu0 := u_pos
  have hu : u ≤ 1 / 1000000 := by unfold u; norm_num
  have hM1 : (1 : ℝ) ≤ M := by exact_mod_cast h0
  obtain ⟨fM, gM⟩ := ofNat_moderate h0 (le_trans (show (M : ℝ) ≤ 2 ^ 64 by exact_mod_cast hM.le)
    (pow_le_pow_right₀ (by norm_num) (by norm_num)))
  have hbig : 2 * (M * (10 : ℝ) ^ k) ≤ 2 ^ 1000 := by
    refine le_trans ?_ (ten_zpow_le (j := 282) (by norm_num))
    have : (10 : ℝ) ^ (282 : Int) = 10 * 10 ^ (281 : Int) := by
      rw [show (282 : Int) = 1 + 281 by norm_num, zpow_add₀ (by norm_num), zpow_one]
    rw [this]
    have := zpow_pos (show (0 : ℝ) < 10 by norm_num) k
    have : 0 < M * (10 : ℝ) ^ k := by positivity
    generalize (10 : ℝ) ^ (281 : Int) = c at h2 ⊢
    linarith
  have hsmall : (1 / 2 : ℝ) ^ 1000 ≤ M * (10 : ℝ) ^ k / 2 := by
    refine le_trans (le_ten_zpow (j := -282) (by norm_num)) ?_
    have e : (10 : ℝ) ^ (-281 : Int) = 10 * 10 ^ (-282 : Int) := by
      rw [show (-281 : Int) = 1 + -282 by norm_num, zpow_add₀ (by norm_num), zpow_one]
    rw [e] at h1
    have := zpow_pos (show (0 : ℝ) < 10 by norm_num) (-282)
    linarith
  unfold fromParts
  dsimp only
  by_cases hk : 0 ≤ k
  · obtain ⟨j, rfl⟩ := Int.eq_ofNat_of_zero_le hk
    have hj : j ≤ 281 := by omega
    have e10 : ((10 ^ j : Nat) : ℝ) = (10 : ℝ) ^ (j : Int) := by rw [zpow_int]
    obtain ⟨fP, gP⟩ := ofNat_moderate (n := 10 ^ j) (Nat.pow_pos (by omega)) (by
      rw [e10]; exact ten_zpow_le (by omega))
    rw [e10] at gP
    have ew : pow10 (Int.toNat (j : Int)) = ofNat (10 ^ j) := rfl
    rw [if_pos hk, if_pos (by omega), ew]
    have hp0 := zpow_pos (show (0 : ℝ) < 10 by norm_num) (j : Int)
    generalize ofNat M = x at *
    generalize ofNat (10 ^ j) = y at *
    generalize (10 : ℝ) ^ (j : Int) = b at *
    obtain ⟨q1, _, x0, y0, b1, b2, _, _⟩ := three_arith (z := real (mul x y)) hu0 hu (by linarith) hp0 gM gP
    have hpos : 0 < real x * real y := mul_pos x0 y0
    obtain ⟨fz, gz⟩ := mul_rel fM fP (by rw [abs_of_pos hpos]; exact le_trans b1 hbig)
      (fun _ => by rw [abs_of_pos hpos]; exact le_trans hsmall b2)
    rw [if_neg (not_infinite fz)]
    exact ⟨_, rfl, signed_close neg' fz (q1 gz)⟩
  · obtain ⟨j, hj⟩ : ∃ j : Nat, k = -(j : Int) := ⟨k.natAbs, by omega⟩
    subst hj
    have hj : j ≤ 300 := by omega
    have e10 : ((10 ^ j : Nat) : ℝ) = (10 : ℝ) ^ (j : Int) := by rw [zpow_int]
    obtain ⟨fP, gP⟩ := ofNat_moderate (n := 10 ^ j) (Nat.pow_pos (by omega)) (by
      rw [e10]; exact ten_zpow_le (by omega))
    rw [e10] at gP
    have ew : scaleDown (ofNat M) (Int.natAbs (-(j : Int))) = div (ofNat M) (ofNat (10 ^ j)) := by
      rw [show Int.natAbs (-(j : Int)) = j by omega, scaleDown, if_pos (by omega)]
      rfl
    rw [if_neg hk, ew]
    have hp0 := zpow_pos (show (0 : ℝ) < 10 by norm_num) (j : Int)
    have ed : (M : ℝ) * (10 : ℝ) ^ (-(j : Int)) = M / (10 : ℝ) ^ (j : Int) := by rw [zpow_neg, div_eq_mul_inv]
    rw [ed] at hbig hsmall ⊢
    generalize ofNat M = x at *
    generalize ofNat (10 ^ j) = y at *
    generalize (10 : ℝ) ^ (j : Int) = b at *
    obtain ⟨_, q1, x0, y0, _, _, b1, b2⟩ := three_arith (z := real (div x y)) hu0 hu (by linarith) hp0 gM gP
    have hpos : 0 < real x / real y := div_pos x0 y0
    obtain ⟨fz, gz⟩ := div_rel fM fP y0.ne' (by rw [abs_of_pos hpos]; exact le_trans b1 hbig)
      (fun _ => by rw [abs_of_pos hpos]; exact le_trans hsmall b2)
    exact ⟨_, rfl, signed_close neg' fz (q1 gz)⟩

theorem takeExp_spec (ds : List Nat) : ∀ acc, acc < 2 ^ 31 → acc * 10 ^ ds.length + ofDigits ds < 2 ^ 31 →
    takeExp acc ds = some (acc * 10 ^ ds.length + ofDigits ds) := by
  induction ds with
  | nil => intro acc _ _; simp [takeExp, ofDigits]
  | cons d ds ih =>
    intro acc ha h
    have e2 : acc * 10 ^ (d :: ds).length + ofDigits (d :: ds) = (acc * 10 + d) * 10 ^ ds.length + ofDigits ds := by
      rw [ofDigits_cons, List.length_cons, Nat.pow_succ]; ring
    rw [e2] at h ⊢
    have h1 : acc * 10 + d < 2 ^ 31 := by
      have : (acc * 10 + d) * 1 ≤ (acc * 10 + d) * 10 ^ ds.length := Nat.mul_le_mul_left _ (Nat.pow_pos (by omega))
      omega
    rw [takeExp, if_neg (by omega)]
    exact ih _ h1 h

/-- The exponent is the one that the text denotes, if the result is moderate. -/
theorem withExp_close {t : NumTok} {M : Nat} {k₀ : Int} (hk1 : -(2 ^ 30) < k₀) (hk2 : k₀ < 2 ^ 30) (h0 : 1 ≤ M) (hM : M < 2 ^ 64)
    (h1 : (10 : ℝ) ^ (-281 : Int) ≤ M * (10 : ℝ) ^ (k₀ + NumTok.exponent t))
    (h2 : M * (10 : ℝ) ^ (k₀ + NumTok.exponent t) ≤ (10 : ℝ) ^ (281 : Int)) :
    ∃ y, withExp t.negative M k₀ t.exp = some y ∧ Spec.Finite y ∧
      |real y - (if t.negative then -1 else 1) * (M * (10 : ℝ) ^ (k₀ + NumTok.exponent t))| ≤ 4 * u * (M * (10 : ℝ) ^ (k₀ + NumTok.exponent t)) := by
  have hM1 : (1 : ℝ) ≤ M := by exact_mod_cast h0
  have hM2 : (M : ℝ) < (10 : ℝ) ^ (20 : Int) := by
    have : (M : ℝ) < 2 ^ 64 := by exact_mod_cast hM
    exact lt_trans this (by norm_num)
  have b2 : k₀ + NumTok.exponent t ≤ 281 := by
    have hp := zpow_pos (show (0 : ℝ) < 10 by norm_num) (k₀ + NumTok.exponent t)
    have : (10 : ℝ) ^ (k₀ + NumTok.exponent t) ≤ 10 ^ (281 : Int) := by
      refine le_trans ?_ h2
      exact le_mul_of_one_le_left hp.le hM1
    exact (zpow_le_zpow_iff_right₀ (by norm_num)).1 this
  have b1 : -300 ≤ k₀ + NumTok.exponent t := by
    have hp := zpow_pos (show (0 : ℝ) < 10 by norm_num) (k₀ + NumTok.exponent t)
    have : (10 : ℝ) ^ (-281 : Int) < (10 : ℝ) ^ (20 + (k₀ + NumTok.exponent t)) := by
      rw [zpow_add₀ (by norm_num) 20]
      exact lt_of_le_of_lt h1 (mul_lt_mul_of_pos_right hM2 hp)
    have := (zpow_lt_zpow_iff_right₀ (by norm_num)).1 this
    omega
  have key := fromParts_close t.negative h0 hM b1 b2 h1 h2
  have e : withExp t.negative M k₀ t.exp = fromParts t.negative M (k₀ + NumTok.exponent t) := by
    clear key h1 h2
    unfold withExp NumTok.exponent at *
    cases hx : t.exp with
    | none => rw [Int.add_zero]
    | some pd =>
      obtain ⟨p, ds⟩ := pd
      rw [hx] at b1 b2
      dsimp only at b1 b2 ⊢
      have hlt : ofDigits ds < 2 ^ 31 := by
        cases p <;> simp only [if_true, Bool.false_eq_true, if_false] at b1 b2 <;> omega
      rw [takeExp_spec ds 0 (by norm_num) (by omega), Nat.zero_mul, Nat.zero_add]
      dsimp only
      congr 1
      unfold saturate
      cases p <;> simp only [if_true, Bool.false_eq_true, if_false] at b1 b2 ⊢ <;> omega
  rw [e]
  exact key

/-- Reading up to the rounding of four operations and the digits that are dropped. -/
theorem ofText_close {t : NumTok} (ht : NumTok.Decimal t) (hl1 : t.int.length < 2 ^ 30) (hl2 : (NumTok.fraction t).length < 2 ^ 30)
    (h1 : (10 : ℝ) ^ (-280 : Int) ≤ |NumTok.denotes t|) (h2 : |NumTok.denotes t| ≤ (10 : ℝ) ^ (280 : Int)) :
    ∃ y, ofText t = some y ∧ Spec.Finite y ∧ |real y - NumTok.denotes t| ≤ (1 / 2) ^ 50 * |NumTok.denotes t| := by
  have hu0 := u_pos
  have hu : u ≤ 1 / 1000000 := by unfold u; norm_num
  obtain ⟨hM, hc, k1, k2⟩ := mantissa_close ht
  -- the number that the text denotes
  obtain ⟨v, hv⟩ : ∃ v : ℝ, v = ofDigits (t.int ++ NumTok.fraction t) * (10 : ℝ) ^ (NumTok.exponent t - (NumTok.fraction t).length) :=
    ⟨_, rfl⟩
  have hden : NumTok.denotes t = (if t.negative then -1 else 1) * v := by rw [hv]; rfl
  have hv0 : 0 ≤ v := by rw [hv]; positivity
  have habs : |NumTok.denotes t| = v := by
    rw [hden]
    cases t.negative <;> simp [abs_of_nonneg hv0]
  rw [habs] at h1 h2 ⊢
  have hw : |((mantissa t).1 : ℝ) * (10 : ℝ) ^ ((mantissa t).2 + NumTok.exponent t) - v| ≤ (1 / 2) ^ 60 * v := by
    have hp := zpow_pos (show (0 : ℝ) < 10 by norm_num) (NumTok.exponent t)
    have e1 : v = ofDigits (t.int ++ NumTok.fraction t) * (10 : ℝ) ^ (-((NumTok.fraction t).length : Int)) * (10 : ℝ) ^ NumTok.exponent t := by
      rw [hv, mul_assoc, ← zpow_add₀ (by norm_num)]
      congr 2
      omega
    have e2 : ((mantissa t).1 : ℝ) * (10 : ℝ) ^ ((mantissa t).2 + NumTok.exponent t) =
        ((mantissa t).1 : ℝ) * (10 : ℝ) ^ (mantissa t).2 * (10 : ℝ) ^ NumTok.exponent t := by
      rw [mul_assoc, ← zpow_add₀ (by norm_num)]
    rw [e1, e2, ← sub_mul, abs_mul, abs_of_pos hp, ← mul_assoc ((1 / 2 : ℝ) ^ 60)]
    exact mul_le_mul_of_nonneg_right hc hp.le
  obtain ⟨w, hwv⟩ : ∃ w : ℝ, w = ((mantissa t).1 : ℝ) * (10 : ℝ) ^ ((mantissa t).2 + NumTok.exponent t) := ⟨_, rfl⟩
  rw [← hwv] at hw
  have hvpos : 0 < v := lt_of_lt_of_le (zpow_pos (by norm_num) _) h1
  have h60 : (1 / 2 : ℝ) ^ 60 ≤ 1 / 2 := by norm_num
  have hw2 : |w - v| ≤ 1 / 2 * v := le_trans hw (mul_le_mul_of_nonneg_right h60 hv0)
  rw [abs_le] at hw2
  have w1 : (10 : ℝ) ^ (-281 : Int) ≤ w := by
    have e : (10 : ℝ) ^ (-280 : Int) = 10 * 10 ^ (-281 : Int) := by
      rw [show (-280 : Int) = 1 + -281 by norm_num, zpow_add₀ (by norm_num), zpow_one]
    rw [e] at h1
    have := zpow_pos (show (0 : ℝ) < 10 by norm_num) (-281)
    generalize (10 : ℝ) ^ (-281 : Int) = c at *
    linarith
  have w2 : w ≤ (10 : ℝ) ^ (281 : Int) := by
    have e : (10 : ℝ) ^ (281 : Int) = 10 * 10 ^ (280 : Int) := by
      rw [show (281 : Int) = 1 + 280 by norm_num, zpow_add₀ (by norm_num), zpow_one]
    rw [e]
    generalize (10 : ℝ) ^ (280 : Int) = c at h2 ⊢
    linarith only [hw2.2, h2, hvpos]
  have hM0 : 1 ≤ (mantissa t).1 := by
    rcases Nat.eq_zero_or_pos (mantissa t).1 with h | h
    · rw [h, Nat.cast_zero, zero_mul] at hwv
      linarith
    · exact h
  have finish : ∀ y : F64, |real y - (if t.negative then -1 else 1) * w| ≤ 4 * u * w → |real y - NumTok.denotes t| ≤ (1 / 2) ^ 50 * v := by
    intro y hy
    rw [hden]
    have h3 : |(if t.negative then -1 else 1) * w - (if t.negative then -1 else 1) * v| = |w - v| := by
      rw [← mul_sub, abs_mul]
      cases t.negative <;> simp
    have := abs_add_le (real y - (if t.negative then -1 else 1) * w) ((if t.negative then -1 else 1) * w - (if t.negative then -1 else 1) * v)
    rw [sub_add_sub_cancel, h3] at this
    have h4 : 4 * u * w ≤ 4 * u * (3 / 2 * v) := mul_le_mul_of_nonneg_left (by linarith) (by linarith)
    have h5 : (1 / 2 : ℝ) ^ 60 ≤ u := by unfold u; norm_num
    have h6 := mul_le_mul_of_nonneg_right h5 hv0
    have h7 : 8 * u = (1 / 2) ^ 50 := by unfold u; norm_num
    rw [← h7]
    have : 0 < u * v := mul_pos hu0 hvpos
    linarith
  obtain ⟨y, e, f, g⟩ := withExp_close (t := t) (k₀ := (mantissa t).2) (by omega) (by omega) hM0 hM (by rw [← hwv]; exact w1) (by rw [← hwv]; exact w2)
  rw [← hwv] at g
  unfold ofText
  dsimp only
  cases hf : t.frac with
  | some ds =>
    have hfs : NumTok.fraction t = ds := by rw [NumTok.fraction, hf]; rfl
    unfold mantissa at e
    rw [hfs] at e
    exact ⟨y, e, f, finish y g⟩
  | none =>
    have hfs : NumTok.fraction t = [] := by rw [NumTok.fraction, hf]; rfl
    have hm : mantissa t = ((takeInt 0 t.int).1, ((takeInt 0 t.int).2 : Int)) := by
      unfold mantissa
      rw [hfs]
      simp [takeFrac]
    rw [hm] at e hwv hM hM0
    dsimp only at e hwv hM hM0
    by_cases h : t.exp = none ∧ (takeInt 0 t.int).2 = 0
    · dsimp only
      rw [if_pos h]
      refine ⟨_, rfl, ?_⟩
      have he : NumTok.exponent t = 0 := by rw [NumTok.exponent, h.1]
      rw [h.2, he] at hwv
      have hwe : w = ((takeInt 0 t.int).1 : ℝ) := by rw [hwv]; simp
      obtain ⟨f1, g1⟩ := ofNat_moderate hM0 (le_trans (show ((takeInt 0 t.int).1 : ℝ) ≤ 2 ^ 64 by exact_mod_cast hM.le)
        (pow_le_pow_right₀ (by norm_num) (by norm_num)))
      rw [← hwe] at g1
      obtain ⟨a, b⟩ := signed_close t.negative f1 g1
      refine ⟨a, finish _ (le_trans b ?_)⟩
      have : 0 < u * w := mul_pos hu0 (by linarith)
      linarith
    · dsimp only
      rw [if_neg h]
      exact ⟨y, e, f, finish y g⟩

/-! ### Zero -/

theorem takeInt_zero (ds : List Nat) (h : ∀ d ∈ ds, d = 0) : takeInt 0 ds = (0, 0) := by
  induction ds with
  | nil => rfl
  | cons d ds ih =>
    have : d = 0 := h d (by simp)
    subst this
    rw [takeInt, if_neg (by norm_num)]
    exact ih fun x hx => h x (by simp [hx])

theorem takeFrac_zero (ds : List Nat) (h : ∀ d ∈ ds, d = 0) : takeFrac 0 ds = (0, ds.length) := by
  induction ds with
  | nil => rfl
  | cons d ds ih =>
    have : d = 0 := h d (by simp)
    subst this
    have := ih fun x hx => h x (by simp [hx])
    rw [takeFrac, if_neg (by norm_num)]
    simp [this]

theorem ofNat_zero : ofNat 0 = num false 0 := by
  rw [Source.ofNat_small (by norm_num), Nat.zero_mul]

theorem zero_mul_div {k : Nat} (hk : k ≤ 308) : mul (num false 0) (pow10 k) = num false 0 ∧ div (num false 0) (pow10 k) = num false 0 := by
  have hpos : ∀ e : Nat, 0 < 2 ^ e := fun e => Nat.pow_pos (by omega)
  have h1 : roundMag (10 ^ k * 2 ^ 1074) 1 ≠ 0 := by
    have := le_roundMag (n := 10 ^ k * 2 ^ 1074) (d := 1) (j := 1074) (by omega) (by
      rw [Nat.mul_one]
      exact Nat.le_mul_of_pos_left _ (Nat.pow_pos (by omega)))
    have := hpos 1074
    omega
  rw [pow10_num hk]
  generalize roundMag (10 ^ k * 2 ^ 1074) 1 = n at *
  constructor
  · rw [mul_num, Nat.zero_mul]
    exact round_of (roundMag_zero (hpos _)) limit_pos
  · rw [div_nums _ _ _ _ h1, Nat.zero_mul]
    exact round_of (roundMag_zero (Nat.pos_of_ne_zero h1)) limit_pos

theorem fromParts_zero (neg' : Bool) (k : Int) : fromParts neg' 0 k = some (num neg' 0) := by
  have hs : (if neg' = true then neg (num false 0) else num false 0) = num neg' 0 := by cases neg' <;> rfl
  have hz : isZero (num false 0) = true := by decide
  unfold fromParts
  dsimp only
  rw [ofNat_zero]
  by_cases h0 : 0 ≤ k
  · rw [if_pos h0]
    by_cases h1 : k ≤ 308
    · rw [if_pos h1, (zero_mul_div (by omega)).1, if_neg (by decide), hs]
    · rw [if_neg h1, if_pos hz, hs]
  · rw [if_neg h0]
    have : scaleDown (num false 0) k.natAbs = num false 0 := by
      rw [scaleDown]
      by_cases h1 : k.natAbs ≤ 308
      · rw [if_pos h1, (zero_mul_div h1).2]
      · rw [if_neg h1, if_pos hz]
    rw [this, hs]

theorem withExp_zero (neg' : Bool) (k : Int) (e : Option (Bool × List Nat)) : withExp neg' 0 k e = some (num neg' 0) := by
  unfold withExp
  cases e with
  | none => exact fromParts_zero _ _
  | some pd =>
    obtain ⟨p, ds⟩ := pd
    dsimp only
    cases takeExp 0 ds with
    | none => exact if_neg (by simp)
    | some x => exact fromParts_zero _ _

theorem digits_zero : ∀ {ds : List Nat}, ofDigits ds = 0 → ∀ d ∈ ds, d = 0 := by
  intro ds
  induction ds with
  | nil => simp
  | cons d ds ih =>
    intro h x hx
    rw [ofDigits_cons] at h
    have hp : 0 < 10 ^ ds.length := Nat.pow_pos (by omega)
    have h1 : d * 10 ^ ds.length = 0 := by omega
    have h2 : ofDigits ds = 0 := by omega
    rcases List.mem_cons.1 hx with rfl | hx
    · rcases Nat.mul_eq_zero.1 h1 with h | h
      · exact h
      · omega
    · exact ih h2 x hx

/-- A text that denotes zero is read as zero, whatever its exponent. -/
theorem ofText_zero {t : NumTok} (h : NumTok.denotes t = 0) : ofText t = some (num t.negative 0) := by
  have h1 : ofDigits (t.int ++ NumTok.fraction t) = 0 := by
    unfold NumTok.denotes at h
    rcases mul_eq_zero.1 h with h | h
    · cases hn : t.negative <;> simp [hn] at h
    · rcases mul_eq_zero.1 h with h | h
      · exact_mod_cast h
      · exact absurd h (zpow_ne_zero _ (by norm_num))
  have h2 := digits_zero h1
  have h3 := takeInt_zero t.int fun d hd => h2 d (by simp [hd])
  have h4 := takeFrac_zero (NumTok.fraction t) fun d hd => h2 d (by simp [hd])
  unfold ofText
  dsimp only
  rw [h3]
  cases hf : t.frac with
  | none =>
    dsimp only
    by_cases hc : t.exp = none ∧ 0 = 0
    · rw [if_pos hc, ofNat_zero]
      cases t.negative <;> rfl
    · rw [if_neg hc]
      exact withExp_zero _ _ _
  | some ds =>
    have hfs : NumTok.fraction t = ds := by rw [NumTok.fraction, hf]; rfl
    rw [hfs] at h4
    dsimp only
    rw [h4]
    exact withExp_zero _ _ _

end F64
end Tokengeex

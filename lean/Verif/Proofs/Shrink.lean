import Verif.Model.Shrink
import Verif.Proofs.Sources
/-
The size that a pass of pruning asks for.
-/
namespace Tokengeex
open Spec

namespace F64

/-- A double below `2^e` units is below it by at least one unit in the 53rd place. -/
theorem isDouble_gap (e : Nat) (he : 53 ≤ e) {k : Nat} (hk : IsDouble k) (hlt : k < 2 ^ e) : k + 2 ^ (e - 53) ≤ 2 ^ e := by
  obtain ⟨m, j, hm, _, rfl⟩ := hk
  have hE : 2 ^ e = 2 ^ 53 * 2 ^ (e - 53) := by rw [← Nat.pow_add]; congr 1; omega
  rw [hE] at hlt ⊢
  generalize hu : e - 53 = u at hlt ⊢
  by_cases hj : u ≤ j
  · obtain ⟨i, rfl⟩ := Nat.exists_eq_add_of_le hj
    have : m * 2 ^ (u + i) = m * 2 ^ i * 2 ^ u := by rw [Nat.pow_add]; ring
    rw [this] at hlt ⊢
    have h := Nat.lt_of_mul_lt_mul_right hlt
    have : (m * 2 ^ i + 1) * 2 ^ u ≤ 2 ^ 53 * 2 ^ u := Nat.mul_le_mul_right _ h
    rwa [Nat.add_mul, Nat.one_mul] at this
  · obtain ⟨i, rfl⟩ := Nat.exists_eq_add_of_lt (Nat.lt_of_not_le hj)
    have h1 : m * 2 ^ j ≤ 2 ^ 52 * 2 ^ (j + i + 1) := by
      have : 2 ^ (j + i + 1) = 2 ^ j * 2 ^ i * 2 := by rw [Nat.pow_succ, Nat.pow_add]
      rw [this]
      have h2 : 1 ≤ 2 ^ i := Nat.one_le_two_pow
      calc m * 2 ^ j ≤ 2 ^ 53 * 2 ^ j := Nat.mul_le_mul_right _ (by omega)
        _ = 2 ^ 52 * (2 ^ j * 1 * 2) := by ring
        _ ≤ _ := Nat.mul_le_mul_left _ (Nat.mul_le_mul_right _ (Nat.mul_le_mul_left _ h2))
    generalize 2 ^ (j + i + 1) = P at h1 ⊢
    omega

/-- A whole number below `2^53` times a double below one, rounded, is less than the number. -/
theorem roundMag_shrink (e : Nat) (he : 53 ≤ e) {n k : Nat} (hn : 0 < n) (hn' : n < 2 ^ 53) (hk : IsDouble k)
    (hlt : k < 2 ^ e) : roundMag (n * 2 ^ e * k) (2 ^ e) < n * 2 ^ e := by
  have hpos : 0 < 2 ^ e := Nat.pow_pos (by omega)
  have hgap := isDouble_gap e he hk hlt
  have hx : n * 2 ^ e * k = n * k * 2 ^ e := by ring
  have hE : 2 ^ e = 2 ^ 53 * 2 ^ (e - 53) := by rw [← Nat.pow_add]; congr 1; omega
  obtain ⟨a, h1, h2⟩ : ∃ a, 2 ^ a ≤ n ∧ n < 2 ^ (a + 1) :=
    ⟨Nat.log2 n, Nat.log2_self_le (by omega), Nat.lt_log2_self⟩
  have ha : a ≤ 52 := by
    by_contra hc
    have : 2 ^ 53 ≤ 2 ^ a := Nat.pow_le_pow_right (by omega) (by omega)
    omega
  generalize hg : 2 ^ (e - 53) = g at hgap hE
  have hg0 : 0 < g := by rw [← hg]; exact Nat.pow_pos (by omega)
  have hnk : n * k + n * g ≤ n * 2 ^ e := by rw [← Nat.mul_add]; exact Nat.mul_le_mul_left _ hgap
  -- a double that is at least the product bounds the result
  have below : ∀ m j, m < 2 ^ 53 → n * k ≤ m * 2 ^ j → roundMag (n * 2 ^ e * k) (2 ^ e) ≤ m * 2 ^ j := by
    intro m j hm h
    have := roundMag_mono (n := n * 2 ^ e * k) (d := 2 ^ e) (n' := m * 2 ^ j) (d' := 1) hpos (by omega) (by
      rw [Nat.mul_one, hx]; exact Nat.mul_le_mul_right _ h)
    have hexact : roundMag (m * 2 ^ j) 1 = m * 2 ^ j := roundMag_exact (by omega) hm (by rw [Nat.mul_one])
    rwa [hexact] at this
  by_cases hp : n = 2 ^ a
  · have h3 : (2 ^ 53 - 1) * 2 ^ (a + (e - 53)) + n * g = n * 2 ^ e := by
      rw [Nat.pow_add, hg, ← hp, hE, Nat.sub_mul]
      have : n * g ≤ 2 ^ 53 * (n * g) := Nat.le_mul_of_pos_left _ (by omega)
      have e2 : n * (2 ^ 53 * g) = 2 ^ 53 * (n * g) := by ring
      omega
    have h4 := below (2 ^ 53 - 1) (a + (e - 53)) (by omega) (by omega)
    have h5 : 0 < n * g := Nat.mul_pos hn hg0
    omega
  · -- the double next to `n` below, `n - 2s` where `s` is half of the spacing
    let s := 2 ^ a * g
    have hs0 : 0 < s := Nat.mul_pos (Nat.pow_pos (by omega)) hg0
    have hns : s + g ≤ n * g := by
      have : (2 ^ a + 1) * g ≤ n * g := Nat.mul_le_mul_right _ (by omega)
      rwa [Nat.add_mul, Nat.one_mul] at this
    have hy : (n * 2 ^ (52 - a) - 1) * 2 ^ (a + (e - 53) + 1) + 2 * s = n * 2 ^ e := by
      have e1 : 2 ^ (a + (e - 53) + 1) = 2 * s := by
        show _ = 2 * (2 ^ a * g)
        rw [Nat.pow_succ, Nat.pow_add, hg]; ring
      have e2 : n * 2 ^ e = n * 2 ^ (52 - a) * (2 * s) := by
        rw [hE]
        have : 2 ^ 53 = 2 ^ (52 - a) * 2 ^ a * 2 := by rw [← Nat.pow_add, ← Nat.pow_succ]; congr 1; omega
        rw [this]
        show _ = _ * (2 * (2 ^ a * g))
        ring
      have e3 : 0 < n * 2 ^ (52 - a) := Nat.mul_pos hn (Nat.pow_pos (by omega))
      rw [e1, e2]
      obtain ⟨x, hx⟩ := Nat.exists_eq_succ_of_ne_zero (Nat.ne_of_gt e3)
      rw [hx, Nat.succ_sub_one]
      exact (Nat.succ_mul x (2 * s)).symm
    have hm : n * 2 ^ (52 - a) - 1 < 2 ^ 53 := by
      have : n * 2 ^ (52 - a) ≤ 2 ^ (a + 1) * 2 ^ (52 - a) := Nat.mul_le_mul_right _ (by omega)
      rw [← Nat.pow_add] at this
      have e1 : a + 1 + (52 - a) = 53 := by omega
      rw [e1] at this
      omega
    generalize hY : (n * 2 ^ (52 - a) - 1) * 2 ^ (a + (e - 53) + 1) = y at hy
    by_cases hle : n * k ≤ y
    · have := below _ (a + (e - 53) + 1) hm (by rw [hY]; exact hle)
      omega
    · -- nearer to `y` than to `n`
      obtain ⟨_, _, _, _, _, hnear⟩ := roundMag_nearest (n * 2 ^ e * k) (2 ^ e) hpos
      have h5 := (hnear (n * 2 ^ (52 - a) - 1) (a + (e - 53) + 1) hm).1
      rw [hY] at h5
      by_contra hc
      have hc : n * 2 ^ e ≤ roundMag (n * 2 ^ e * k) (2 ^ e) := by omega
      generalize roundMag (n * 2 ^ e * k) (2 ^ e) = r at hc h5
      have d1 : (((n * 2 ^ e * k : ℕ) : Int) - (r : Int) * ((2 ^ e : ℕ) : Int)).natAbs = (r - n * k) * 2 ^ e := by
        rw [hx]
        have : n * k ≤ r := by omega
        obtain ⟨z, rfl⟩ := Nat.exists_eq_add_of_le this
        have : ((n * k * 2 ^ e : ℕ) : Int) - ((n * k + z : ℕ) : Int) * ((2 ^ e : ℕ) : Int) = -((z * 2 ^ e : ℕ) : Int) := by
          push_cast; ring
        rw [this, Int.natAbs_neg, Int.natAbs_natCast, Nat.add_sub_cancel_left]
      have d2 : (((n * 2 ^ e * k : ℕ) : Int) - ((y : ℕ) : Int) * ((2 ^ e : ℕ) : Int)).natAbs = (n * k - y) * 2 ^ e := by
        rw [hx]
        obtain ⟨z, hz⟩ := Nat.exists_eq_add_of_le (show y ≤ n * k by omega)
        rw [hz]
        have : (((y + z) * 2 ^ e : ℕ) : Int) - ((y : ℕ) : Int) * ((2 ^ e : ℕ) : Int) = ((z * 2 ^ e : ℕ) : Int) := by
          push_cast; ring
        rw [this, Int.natAbs_natCast, Nat.add_sub_cancel_left]
      rw [d1, d2] at h5
      have h6 := Nat.le_of_mul_le_mul_right h5 hpos
      omega

end F64

namespace Pruner
open F64

theorem shrinkBy_eq_quota (factor : F64) (n : Nat) : shrinkBy factor n = Source.quota n factor := rfl

theorem shrinkBy_nan (n : Nat) : shrinkBy .nan n = 0 := by
  unfold shrinkBy
  cases F64.ofNat n <;> rfl

theorem shrinkBy_lt {n k : Nat} (hn : 0 < n) (hn' : n < 2 ^ 53) (hk : IsDouble k) (hlt : k < 2 ^ 1074) :
    shrinkBy (.num false k) n < n := by
  rw [shrinkBy_eq_quota, Source.quota_num hn', F64.round]
  have h1 := roundMag_shrink 1074 (by omega) hn hn' hk hlt
  generalize roundMag (n * 2 ^ 1074 * k) (2 ^ 1074) = r at h1 ⊢
  have hl : r < limit := lt_limit (k := 53 + 1074) (lt_scaled 1074 (Nat.le_of_lt h1) hn') (by omega)
  rw [if_pos hl, toUsize_num]
  have : r / 2 ^ 1074 < n := Nat.div_lt_of_lt_mul (by rw [Nat.mul_comm]; exact h1)
  generalize r / 2 ^ 1074 = q at this ⊢
  omega

theorem shrinkBy_neg {n : Nat} (hn : n < 2 ^ 53) (k : Nat) : shrinkBy (.num true k) n = 0 := Source.quota_neg n hn k

theorem shrinkBy_inf {n : Nat} (hn : 0 < n) (hn' : n < 2 ^ 53) (s : Bool) :
    shrinkBy (.inf s) n = if s then 0 else 2 ^ 64 - 1 := by
  rw [shrinkBy, Source.ofNat_small hn']
  have h : n * 2 ^ 1074 ≠ 0 := Nat.mul_ne_zero (by omega) (Nat.pos_iff_ne_zero.1 (Nat.pow_pos (by omega)))
  generalize n * 2 ^ 1074 = x at h
  rw [F64.mul, if_neg h, F64.toUsize]
  cases s <;> rfl

theorem le_shrinkBy {n k : Nat} (hn : n < 2 ^ 53) (hle : 2 ^ 1074 ≤ k) : n ≤ shrinkBy (.num false k) n :=
  Source.le_quota hn hn (Nat.mul_le_mul_left _ hle)

/-- `0.8`. -/
theorem fourFifths : F64.div (F64.ofNat 8) (F64.ofNat 10) = .num false (7205759403792794 * 2 ^ 1021) := by decide +kernel

theorem fourFifths_mul (e f g n : Nat) (he : e = f + 53) (hg : g = f + 50) (hn : n < 2 ^ 32) :
    4 * n / 5 * 2 ^ e ≤ n * (7205759403792794 * 2 ^ f) ∧
    n * (7205759403792794 * 2 ^ f) ≤ (8 * (4 * n / 5) + 7) * 2 ^ g := by
  have h1 : 2 ^ e = 2 ^ 53 * 2 ^ f := by rw [← Nat.pow_add]; congr 1; omega
  have h2 : 2 ^ g = 2 ^ 50 * 2 ^ f := by rw [← Nat.pow_add]; congr 1; omega
  rw [h1, h2]
  generalize 2 ^ f = g
  rw [← Nat.mul_assoc, ← Nat.mul_assoc, ← Nat.mul_assoc]
  exact ⟨Nat.mul_le_mul_right _ (by omega), Nat.mul_le_mul_right _ (by omega)⟩

theorem eight_mul (e f : Nat) (h : e = f + 3) : 2 ^ e = 8 * 2 ^ f := by rw [h, Nat.pow_add, Nat.mul_comm]

theorem shrinkBy_fourFifths {n : Nat} (hn : n < 2 ^ 32) :
    shrinkBy (F64.div (F64.ofNat 8) (F64.ofNat 10)) n = 4 * n / 5 := by
  have hn' : n < 2 ^ 53 := by omega
  obtain ⟨h1, h2⟩ := fourFifths_mul 1074 1021 1071 n rfl rfl hn
  rw [fourFifths, shrinkBy_eq_quota]
  refine Nat.le_antisymm ?_ (Source.le_quota hn' (by omega) h1)
  rw [Source.quota_num hn', F64.round]
  have h3 : roundMag (n * 2 ^ 1074 * (7205759403792794 * 2 ^ 1021)) (2 ^ 1074) ≤ (8 * (4 * n / 5) + 7) * 2 ^ 1071 := by
    have hpos : 0 < 2 ^ 1074 := Nat.pow_pos (by omega)
    have hexact : roundMag ((8 * (4 * n / 5) + 7) * 2 ^ 1071) 1 = (8 * (4 * n / 5) + 7) * 2 ^ 1071 :=
      roundMag_exact (by omega) (by omega) (by rw [Nat.mul_one])
    have := roundMag_mono (n := n * 2 ^ 1074 * (7205759403792794 * 2 ^ 1021)) (d := 2 ^ 1074)
      (n' := (8 * (4 * n / 5) + 7) * 2 ^ 1071) (d' := 1) hpos (by omega) (by
        rw [Nat.mul_one, Nat.mul_assoc, Nat.mul_comm (2 ^ 1074), ← Nat.mul_assoc]
        exact Nat.mul_le_mul_right _ h2)
    rwa [hexact] at this
  generalize roundMag (n * 2 ^ 1074 * (7205759403792794 * 2 ^ 1021)) (2 ^ 1074) = r at h3
  have h4 : 2 ^ 1074 = 8 * 2 ^ 1071 := eight_mul 1074 1071 rfl
  have h5 : r < (4 * n / 5 + 1) * 2 ^ 1074 := by
    rw [h4]
    have : 0 < 2 ^ 1071 := Nat.pow_pos (by omega)
    generalize 2 ^ 1071 = P at h3 this
    have e1 : (4 * n / 5 + 1) * (8 * P) = (8 * (4 * n / 5) + 7) * P + P := by ring
    omega
  have hl : r < limit := lt_limit (k := 53 + 1074) (lt_scaled 1074 (Nat.le_of_lt h5) (by omega)) (by omega)
  rw [if_pos hl, toUsize_num]
  have : r / 2 ^ 1074 < 4 * n / 5 + 1 := Nat.div_lt_of_lt_mul (by rw [Nat.mul_comm]; exact h5)
  generalize r / 2 ^ 1074 = q at this ⊢
  omega

end Pruner
end Tokengeex

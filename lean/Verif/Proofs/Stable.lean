import Verif.Proofs.Reread
import Verif.Proofs.StableCore
import Mathlib.Data.Nat.Prime.Basic
import Mathlib.Tactic.NormNum.Prime
/-
Scores that have been saved and loaded once: saving and loading them again does not change them.
-/
namespace Tokengeex
open Spec

namespace F64

/-- The error of rounding to a double that is not a power of two is at most half the spacing. -/
theorem roundMag_half {N d m e : Nat} (hd : 0 < d) (hm1 : 2 ^ 52 < m) (hm2 : m < 2 ^ 53) (h : roundMag N d = m * 2 ^ e) :
    2 * ((N : Int) - (m * 2 ^ e * d : Nat)).natAbs ≤ 2 ^ e * d := by
  obtain ⟨q, i, hv, hq, hi, hn⟩ := roundMag_nearest N d hd
  rw [h] at hn
  have h1 := (hn (m - 1) e (by omega)).1
  have h2 : ((N : Int) - (m * 2 ^ e : Nat) * d).natAbs ≤ ((N : Int) - ((m + 1) * 2 ^ e : Nat) * d).natAbs := by
    by_cases hlt : m + 1 < 2 ^ 53
    · exact (hn (m + 1) e hlt).1
    · have := (hn 1 (53 + e) (by decide)).1
      rwa [show 1 * 2 ^ (53 + e) = (m + 1) * 2 ^ e by rw [Nat.one_mul, Nat.pow_add, show m + 1 = 2 ^ 53 by omega]] at this
  rw [← Int.natCast_mul, ← Int.natCast_mul] at h1 h2
  have e1 : (m - 1) * 2 ^ e * d = m * 2 ^ e * d - 2 ^ e * d := by rw [Nat.sub_mul, Nat.one_mul, Nat.sub_mul]
  have e2 : (m + 1) * 2 ^ e * d = m * 2 ^ e * d + 2 ^ e * d := by rw [Nat.add_mul, Nat.one_mul, Nat.add_mul]
  have e3 : 2 ^ e * d ≤ m * 2 ^ e * d := by
    rw [Nat.mul_assoc]; exact Nat.le_mul_of_pos_left _ (by omega)
  rw [e1] at h1
  rw [e2] at h2
  have e4 : 0 < 2 ^ e * d := Nat.mul_pos (Nat.pow_pos (by omega)) hd
  clear hn hv hi hq h
  generalize m * 2 ^ e * d = A at *
  generalize 2 ^ e * d = B at *
  clear e1 e2 hm1 hm2
  omega

/-- `D` is rounded to the double `2^(b+1) * g`. -/
structure RoundsTo (D b g : Nat) : Prop where
  lo : 2 ^ (53 + b) ≤ D
  hi : D < 2 ^ (54 + b)
  g1 : 2 ^ 52 ≤ g
  g2 : g ≤ 2 ^ 53
  above : (2 * 2 ^ b * g : Int) - D ≤ 2 ^ b
  below : (D : Int) - 2 * 2 ^ b * g ≤ 2 ^ b
  tie : (2 * 2 ^ b * g : Int) - D = 2 ^ b ∨ (D : Int) - 2 * 2 ^ b * g = 2 ^ b → g % 2 = 0

theorem roundDiv_scale (a b c : Nat) (hc : 0 < c) : roundDiv (a * c) (b * c) = roundDiv a b := by
  unfold roundDiv
  rw [Nat.mul_mod_mul_right, Nat.mul_div_mul_right _ _ hc, ← Nat.mul_assoc]
  have e1 : (2 * (a % b) * c < b * c) = (2 * (a % b) < b) := propext (Nat.mul_lt_mul_right hc)
  have e2 : (b * c < 2 * (a % b) * c) = (b < 2 * (a % b)) := propext (Nat.mul_lt_mul_right hc)
  simp only [e1, e2]

theorem spacing_of {n k : Nat} (h1 : 2 ^ (52 + k) ≤ n) (h2 : n < 2 ^ (53 + k)) : spacing n 1 = k := by
  have hne : n ≠ 0 := by
    have : 0 < 2 ^ (52 + k) := Nat.pow_pos (by omega)
    omega
  have h3 : Nat.log2 n = 52 + k := by
    apply Nat.le_antisymm
    · have := (Nat.log2_lt hne (k := 53 + k)).2 h2
      omega
    · exact (Nat.le_log2 hne).2 h1
  rw [spacing, Nat.div_one, h3]
  omega

theorem roundsTo_of {D b : Nat} (h1 : 2 ^ (53 + b) ≤ D) (h2 : D < 2 ^ (54 + b)) (K : Nat) :
    ∃ g, RoundsTo D b g ∧ roundMag (D * 2 ^ K) 1 = 2 * 2 ^ b * g * 2 ^ K := by
  have hK : 0 < 2 ^ K := Nat.pow_pos (by omega)
  have hsp : spacing (D * 2 ^ K) 1 = b + 1 + K := by
    refine spacing_of ?_ ?_
    · rw [show 52 + (b + 1 + K) = 53 + b + K by omega, Nat.pow_add]
      exact Nat.mul_le_mul_right _ h1
    · rw [show 53 + (b + 1 + K) = 54 + b + K by omega, Nat.pow_add]
      exact Nat.mul_lt_mul_of_pos_right h2 hK
  have hB : 0 < 2 ^ (b + 1) := Nat.pow_pos (by omega)
  have hdiv : roundDiv (D * 2 ^ K) (1 * 2 ^ (b + 1 + K)) = roundDiv D (2 ^ (b + 1)) := by
    rw [Nat.one_mul, Nat.pow_add 2 (b + 1) K, roundDiv_scale _ _ _ hK]
  have hg1 : 2 ^ 52 ≤ roundDiv D (2 ^ (b + 1)) := le_roundDiv hB (by
    rw [← Nat.pow_add, show 52 + (b + 1) = 53 + b by omega]; exact h1)
  have hg2 : roundDiv D (2 ^ (b + 1)) ≤ 2 ^ 53 := roundDiv_le hB (by
    rw [← Nat.pow_add, show 53 + (b + 1) = 54 + b by omega]; exact Nat.le_of_lt h2)
  have hmod := Nat.mod_lt D hB
  have hdm := Nat.div_add_mod D (2 ^ (b + 1))
  have hp : 2 ^ (b + 1) = 2 * 2 ^ b := by rw [Nat.pow_succ]; omega
  refine ⟨roundDiv D (2 ^ (b + 1)), ⟨h1, h2, hg1, hg2, ?_, ?_, ?_⟩, ?_⟩
  · have hc := roundDiv_cases (a := D) hB
    rw [hp] at hc hdm ⊢
    have e : (2 * 2 ^ b * roundDiv D (2 * 2 ^ b) : Int) = ((2 * 2 ^ b * roundDiv D (2 * 2 ^ b) : Nat) : Int) := by push_cast; rfl
    have e' : (2 ^ b : Int) = ((2 ^ b : Nat) : Int) := by push_cast; rfl
    rw [e, e']
    rcases hc with ⟨h3, h4, _⟩ | ⟨h3, h4, _⟩ <;> rw [h3]
    · omega
    · rw [Nat.mul_add, Nat.mul_one]; omega
  · have hc := roundDiv_cases (a := D) hB
    rw [hp] at hc hdm hmod ⊢
    have e : (2 * 2 ^ b * roundDiv D (2 * 2 ^ b) : Int) = ((2 * 2 ^ b * roundDiv D (2 * 2 ^ b) : Nat) : Int) := by push_cast; rfl
    have e' : (2 ^ b : Int) = ((2 ^ b : Nat) : Int) := by push_cast; rfl
    rw [e, e']
    rcases hc with ⟨h3, h4, _⟩ | ⟨h3, h4, _⟩ <;> rw [h3]
    · omega
    · rw [Nat.mul_add, Nat.mul_one]; omega
  · have hc := roundDiv_cases (a := D) hB
    rw [hp] at hc hdm hmod ⊢
    have e : (2 * 2 ^ b * roundDiv D (2 * 2 ^ b) : Int) = ((2 * 2 ^ b * roundDiv D (2 * 2 ^ b) : Nat) : Int) := by push_cast; rfl
    have e' : (2 ^ b : Int) = ((2 ^ b : Nat) : Int) := by push_cast; rfl
    have hpos : 0 < 2 ^ b := Nat.pow_pos (by omega)
    rw [e, e']
    rcases hc with ⟨h3, h4, h5⟩ | ⟨h3, h4, h5⟩ <;> rw [h3]
    · intro h
      exact h5 (by omega)
    · rw [Nat.mul_add, Nat.mul_one]
      intro h
      exact h5 (by omega)
  · rw [roundMag, hsp, hdiv, Nat.pow_add 2 (b + 1) K, hp]
    ring

theorem roundsTo_exists {D : Nat} (h1 : 2 ^ 53 ≤ D) (h2 : D < 10 ^ 17) (K : Nat) :
    ∃ b g, b ≤ 3 ∧ RoundsTo D b g ∧ roundMag (D * 2 ^ K) 1 = 2 * 2 ^ b * g * 2 ^ K := by
  have : D < 2 ^ 54 ∨ (2 ^ 54 ≤ D ∧ D < 2 ^ 55) ∨ (2 ^ 55 ≤ D ∧ D < 2 ^ 56) ∨ 2 ^ 56 ≤ D := by omega
  rcases this with h | ⟨h, h'⟩ | ⟨h, h'⟩ | h
  · obtain ⟨g, hg⟩ := roundsTo_of (b := 0) h1 h K; exact ⟨0, g, by omega, hg⟩
  · obtain ⟨g, hg⟩ := roundsTo_of (b := 1) h h' K; exact ⟨1, g, by omega, hg⟩
  · obtain ⟨g, hg⟩ := roundsTo_of (b := 2) h h' K; exact ⟨2, g, by omega, hg⟩
  · obtain ⟨g, hg⟩ := roundsTo_of (b := 3) h (by omega) K; exact ⟨3, g, by omega, hg⟩

/-- The conversion of a significand with a negative exponent: two roundings. -/
theorem fromParts_twice {s : Bool} {sig j : Nat} (hsig : sig < 2 ^ 64) (hj : j ≤ 22) (hj0 : j ≠ 0) :
    fromParts s sig (-(j : Int)) = some (num s (roundMag (roundMag (sig * 2 ^ 1074) 1) (10 ^ j))) := by
  have hU : 0 < 2 ^ 1074 := Nat.pow_pos (by omega)
  have hT : 0 < 10 ^ j := Nat.pow_pos (by omega)
  have hlim : roundMag (sig * 2 ^ 1074) 1 < 2 ^ 1200 := lt_pow_of_le (roundMag_mul_le hsig 1074) (by omega)
  have ha : ofNat sig = num false (roundMag (sig * 2 ^ 1074) 1) := round_of rfl (lt_limit hlim (by omega))
  generalize roundMag (sig * 2 ^ 1074) 1 = a at *
  unfold fromParts
  simp only
  rw [if_neg (by omega), ha]
  have hdown : ∀ f, scaleDown f (-(j : Int)).natAbs = div f (pow10 j) := by
    intro f; rw [show (-(j : Int)).natAbs = j by omega, scaleDown, if_pos (by omega)]
  rw [hdown, pow10_exact hj, div_num _ _ _ _ (Nat.ne_of_gt (Nat.mul_pos hT hU))]
  have hr : roundMag (a * 2 ^ 1074) (10 ^ j * 2 ^ 1074) = roundMag a (10 ^ j) := by
    refine roundMag_congr (Nat.mul_pos hT hU) hT ?_
    generalize 2 ^ 1074 = U
    ring
  have hle : roundMag a (10 ^ j) < limit := by
    have h1 : roundMag a (10 ^ j) ≤ roundMag (2 ^ 1200) 1 := roundMag_mono hT (by omega) (by
      rw [Nat.mul_one]
      exact Nat.le_trans (Nat.le_of_lt hlim) (Nat.le_mul_of_pos_right _ hT))
    rw [roundMag_pow] at h1
    exact lt_limit (k := 1201) (lt_pow_of_le h1 (by omega)) (by omega)
  rw [round_of hr hle]
  cases s <;> rfl

end F64

theorem identifies_frac {D n : Nat} (i j : Nat) : Identifies D ((i : Int) - j) n ↔ F64.roundMag (D * 10 ^ i * 2 ^ 1074) (10 ^ j) = n := by
  unfold Identifies
  have e : 10 ^ ((i : Int) - j).toNat * 10 ^ j = 10 ^ i * 10 ^ (-((i : Int) - j)).toNat := by
    rw [← Nat.pow_add, ← Nat.pow_add]; congr 1; omega
  have : F64.roundMag (D * 10 ^ ((i : Int) - j).toNat * 2 ^ 1074) (10 ^ (-((i : Int) - j)).toNat) =
      F64.roundMag (D * 10 ^ i * 2 ^ 1074) (10 ^ j) := by
    refine F64.roundMag_congr (Nat.pow_pos (by omega)) (Nat.pow_pos (by omega)) ?_
    generalize 2 ^ 1074 = U
    calc D * 10 ^ ((i : Int) - j).toNat * U * 10 ^ j = D * (10 ^ ((i : Int) - j).toNat * 10 ^ j) * U := by ring
      _ = D * (10 ^ i * 10 ^ (-((i : Int) - j)).toNat) * U := by rw [e]
      _ = D * 10 ^ i * U * 10 ^ (-((i : Int) - j)).toNat := by ring
  rw [this]

theorem identifies_neg {D n j : Nat} : Identifies D (-(j : Int)) n ↔ F64.roundMag (D * 2 ^ 1074) (10 ^ j) = n := by
  have := identifies_frac (D := D) (n := n) 0 j
  rwa [show ((0 : Nat) : Int) - j = -(j : Int) by omega, Nat.pow_zero, Nat.mul_one] at this

/-- A digit string for a number, with a given length. -/
theorem padded {R L : Nat} (h : R < 10 ^ L) (hL : 1 ≤ L) : ∃ ds : List Nat, (∀ d ∈ ds, d < 10) ∧ ds.length = L ∧ ofDigits ds = R := by
  have hl := decimal_length hL h
  refine ⟨List.replicate (L - (decimal R).length) 0 ++ decimal R, ?_, by simp; omega, ?_⟩
  · intro d hd
    rcases List.mem_append.1 hd with h | h
    · rw [(List.mem_replicate.1 h).2]; omega
    · exact (decimal_digits R).1 d h
  · rw [ofDigits_append, ofDigits_zeros, ofDigits_decimal, Nat.zero_mul, Nat.zero_add]

section
variable {n m e j : Nat} {ds : List Nat}

/-- No power of ten identifies a number whose shortest digits are many. -/
theorem no_power (hs : Shortest n ds (-(j : Int))) (hlen : 2 ≤ ds.length) (i : Nat)
    (h : F64.roundMag (10 ^ i * 2 ^ 1074) (10 ^ j) = n) : False := by
  have h1 : Identifies (ofDigits [1]) ((i : Int) - j) n := by
    rw [identifies_frac]
    rw [show ofDigits [1] = 1 from rfl, Nat.one_mul]
    exact h
  have := hs.minimal [1] _ (by simp) h1
  simp at this
  omega

/-- What is known about a number whose shortest digits, as an integer, are not a double: how far apart the doubles near it
are, compared with the last digit, and that the digits are as close as possible. -/
theorem tight (hs : Shortest n ds (-(j : Int))) (hj : 1 ≤ j) (hm1 : 2 ^ 52 < m) (hm2 : m < 2 ^ 53) (hn : n = m * 2 ^ e)
    (hD : 2 ^ 53 ≤ ofDigits ds) :
    2 ^ 1074 < 2 ^ e * 10 ^ j ∧ 2 ^ e * 10 ^ j ≤ 10 * 2 ^ 1074 ∧
      2 * ((ofDigits ds * 2 ^ 1074 : Nat) - (n * 10 ^ j : Nat) : Int).natAbs ≤ 2 ^ 1074 := by
  have hT : 0 < 10 ^ j := Nat.pow_pos (by omega)
  have hU : 0 < 2 ^ 1074 := Nat.pow_pos (by omega)
  have hlt := ofDigits_lt hs.digits
  have hlen : 16 ≤ ds.length := by
    apply Decidable.byContradiction
    intro h
    have := Nat.lt_of_lt_of_le hlt (Nat.pow_le_pow_right (n := 10) (by omega) (show ds.length ≤ 15 by omega))
    omega
  have hid := identifies_neg.1 hs.identifies
  have hhalf := F64.roundMag_half hT hm1 hm2 (by rw [hid, hn])
  have h1 : 2 ^ 1074 < 2 ^ e * 10 ^ j := by
    apply Decidable.byContradiction
    intro h
    have h := Nat.not_lt.1 h
    have h2 : 2 ^ 53 * 2 ^ 1074 ≤ ofDigits ds * 2 ^ 1074 := Nat.mul_le_mul_right _ hD
    have h3 : m * 2 ^ e * 10 ^ j + 2 ^ e * 10 ^ j ≤ 2 ^ 53 * (2 ^ e * 10 ^ j) := by
      have := Nat.mul_le_mul_right (2 ^ e * 10 ^ j) (show m + 1 ≤ 2 ^ 53 by omega)
      rwa [Nat.add_mul, Nat.one_mul, ← Nat.mul_assoc] at this
    generalize 2 ^ 1074 = U at *
    generalize m * 2 ^ e * 10 ^ j = X at *
    have : 0 < 2 ^ e * 10 ^ j := Nat.mul_pos (Nat.pow_pos (by omega)) hT
    generalize 2 ^ e * 10 ^ j = W at *
    generalize ofDigits ds * U = Z at *
    omega
  -- anything that is close enough identifies `n`
  have hnear : ∀ Z : Nat, 2 * ((Z : Int) - (n * 10 ^ j : Nat)).natAbs < 2 ^ e * 10 ^ j → F64.roundMag Z (10 ^ j) = n := by
    intro Z hZ
    rw [hn] at hZ ⊢
    exact F64.roundMag_near hT hm2 (.inr (by omega)) hZ (by omega)
  have hself : F64.roundMag (n * 10 ^ j) (10 ^ j) = n := hnear _ (by
    rw [Int.sub_self, Int.natAbs_zero]
    exact Nat.mul_pos (Nat.pow_pos (by omega)) hT)
  have hXle : n * 10 ^ j < 10 ^ ds.length * 2 ^ 1074 := by
    apply Decidable.byContradiction
    intro h
    have h := Nat.not_lt.1 h
    refine no_power hs (by omega) ds.length (Nat.le_antisymm ?_ ?_)
    · refine Nat.le_trans (F64.roundMag_mono hT hT (Nat.mul_le_mul_right _ h)) (Nat.le_of_eq hself)
    · refine Nat.le_trans (Nat.le_of_eq hid.symm) (F64.roundMag_mono hT hT (Nat.mul_le_mul_right _ (Nat.mul_le_mul_right _ (Nat.le_of_lt hlt))))
  refine ⟨h1, ?_, ?_⟩
  · apply Decidable.byContradiction
    intro h
    have h := Nat.not_le.1 h
    have h10 : 0 < 10 * 2 ^ 1074 := Nat.mul_pos (by omega) hU
    have hR : 2 * ((F64.roundDiv (n * 10 ^ j) (10 * 2 ^ 1074) * (10 * 2 ^ 1074) : Nat) - (n * 10 ^ j : Nat) : Int).natAbs ≤ 10 * 2 ^ 1074 := by
      have h2 := Nat.div_add_mod' (n * 10 ^ j) (10 * 2 ^ 1074)
      have hmod := Nat.mod_lt (n * 10 ^ j) h10
      rcases F64.roundDiv_cases (a := n * 10 ^ j) h10 with ⟨h3, h4, _⟩ | ⟨h3, h4, _⟩ <;> rw [h3]
      · generalize 10 * 2 ^ 1074 = B at *; omega
      · rw [Nat.add_mul, Nat.one_mul]; generalize 10 * 2 ^ 1074 = B at *; omega
    have hRle : F64.roundDiv (n * 10 ^ j) (10 * 2 ^ 1074) ≤ 10 ^ (ds.length - 1) := F64.roundDiv_le h10 (by
      rw [← Nat.mul_assoc, ← Nat.pow_succ, show (ds.length - 1).succ = ds.length by omega]
      exact Nat.le_of_lt hXle)
    generalize F64.roundDiv (n * 10 ^ j) (10 * 2 ^ 1074) = R at *
    have hr := hnear (R * (10 * 2 ^ 1074)) (Nat.lt_of_le_of_lt hR h)
    rcases Nat.eq_or_lt_of_le hRle with rfl | hRlt
    · refine no_power hs (by omega) ds.length ?_
      rwa [← Nat.mul_assoc, ← Nat.pow_succ, show (ds.length - 1).succ = ds.length by omega] at hr
    · obtain ⟨ds', hd', hl', ho'⟩ := padded hRlt (by omega)
      have := hs.minimal ds' ((1 : Nat) - j) hd' (by
        rw [identifies_frac, ho', Nat.pow_one, Nat.mul_assoc]; exact hr)
      omega
  · have hR : 2 * ((F64.roundDiv (n * 10 ^ j) (2 ^ 1074) * 2 ^ 1074 : Nat) - (n * 10 ^ j : Nat) : Int).natAbs ≤ 2 ^ 1074 := by
      have h2 := Nat.div_add_mod' (n * 10 ^ j) (2 ^ 1074)
      have hmod := Nat.mod_lt (n * 10 ^ j) hU
      rcases F64.roundDiv_cases (a := n * 10 ^ j) hU with ⟨h3, h4, _⟩ | ⟨h3, h4, _⟩ <;> rw [h3]
      · generalize 2 ^ 1074 = B at *; omega
      · rw [Nat.add_mul, Nat.one_mul]; generalize 2 ^ 1074 = B at *; omega
    have hRle : F64.roundDiv (n * 10 ^ j) (2 ^ 1074) ≤ 10 ^ ds.length := F64.roundDiv_le hU (Nat.le_of_lt hXle)
    generalize F64.roundDiv (n * 10 ^ j) (2 ^ 1074) = R at *
    have hr := hnear (R * 2 ^ 1074) (Nat.lt_of_le_of_lt hR h1)
    rcases Nat.eq_or_lt_of_le hRle with rfl | hRlt
    · exact (no_power hs (by omega) ds.length hr).elim
    · obtain ⟨ds', hd', hl', ho'⟩ := padded hRlt (by omega)
      have hc := hs.closest ds' (-(j : Int)) hd' (by rw [identifies_neg, ho']; exact hr) hl'
      unfold AsClose at hc
      rw [ho', show (- -(j : Int)).toNat = j by omega, show (-(j : Int)).toNat = 0 by omega, Nat.pow_zero, Nat.mul_one, Nat.mul_one] at hc
      have hc := Nat.le_of_mul_le_mul_right hc hT
      exact Nat.le_trans (Nat.mul_le_mul_left 2 hc) hR

end

/-- How a score is read back: exactly if its digits, as an integer, are below `2^53`; otherwise with two roundings. -/
theorem reread_cases {N : NumText F64} (hN : SerdeDoubles N) (s : Bool) {n : Nat} (hd : IsDouble n)
    (hlo : 2 ^ 1074 ≤ n * 10 ^ 5) (hhi : n < 10 ^ 15 * 2 ^ 1074) :
    reread N (.num s n) = some (.num s n) ∨
    ∃ (ds : List Nat) (j : Nat), Shortest n ds (-(j : Int)) ∧ 1 ≤ j ∧ j ≤ 22 ∧ 2 ^ 53 ≤ ofDigits ds ∧ ofDigits ds < 10 ^ 17 ∧
      reread N (.num s n) = some (.num s (F64.roundMag (F64.roundMag (ofDigits ds * 2 ^ 1074) 1) (10 ^ j))) := by
  have hn0 : n ≠ 0 := by
    rintro rfl
    rw [Nat.zero_mul] at hlo
    exact absurd (Nat.pow_pos (n := 1074) (show 0 < 2 by omega)) (Nat.not_lt.2 hlo)
  obtain ⟨ds, k, hs, hp⟩ := hN.finite s n hn0 hd
  obtain ⟨ds', k', hd', hl', hi'⟩ := seventeen hd hn0
  have hlen := Nat.le_trans (hs.minimal ds' k' hd' hi') hl'
  obtain ⟨hk1, hk2⟩ := decade hs hlo hhi
  by_cases h15 : ds.length ≤ 15
  · exact .inl (reread_exact hN s hd hlo hhi ⟨ds, k, hs.digits, h15, hs.identifies⟩)
  have hlt := ofDigits_lt hs.digits
  have hlt17 : ofDigits ds < 10 ^ 17 := Nat.lt_of_lt_of_le hlt (Nat.pow_le_pow_right (by omega) hlen)
  have hne : ds ≠ [] := by
    obtain ⟨d, more, rfl, _⟩ := hs.head; simp
  obtain ⟨j, rfl⟩ : ∃ j : Nat, k = -(j : Int) := ⟨(-k).toNat, by omega⟩
  have hread : reread N (.num s n) = F64.fromParts s (ofDigits ds) (-(j : Int)) := by
    rw [reread, hp, Option.bind_some, hN.reading,
      F64.ofText_layout s ds _ hs.digits hne (by omega) (by omega) (by omega), if_neg (by omega)]
  by_cases h53 : ofDigits ds < 2 ^ 53
  · left
    rw [hread]
    have := F64.fromParts_exact (s := s) (m := ofDigits ds) (j := 0) (k := -(j : Int)) (n := n) h53 (by omega) (by omega)
      (by rw [Nat.pow_zero, Nat.mul_one]; exact hs.identifies) (lt_limit_of_range hhi)
    rwa [Nat.pow_zero, Nat.mul_one] at this
  · right
    refine ⟨ds, j, hs, by omega, by omega, by omega, hlt17, ?_⟩
    rw [hread]
    exact F64.fromParts_twice (by omega) (by omega) (by omega)

/-- Powers of two in the range have few digits. -/
theorem not_power {p : Nat} {k : Int} {ds : List Nat} (hs : Shortest (2 ^ p) ds k) (hlo : 2 ^ 1074 ≤ 2 ^ p * 10 ^ 5)
    (hhi : 2 ^ p < 10 ^ 15 * 2 ^ 1074) (hD : 2 ^ 53 ≤ ofDigits ds) : False := by
  have h15 : ¬ ds.length ≤ 15 := by
    intro h
    have := Nat.lt_of_lt_of_le (ofDigits_lt hs.digits) (Nat.pow_le_pow_right (n := 10) (by omega) h)
    omega
  apply h15
  have hp1 : 1058 ≤ p := by
    apply Decidable.byContradiction
    intro h
    have h1 : 2 ^ p * 10 ^ 5 < 2 ^ p * 2 ^ 17 := Nat.mul_lt_mul_of_pos_left (by decide) (Nat.pow_pos (by omega))
    rw [← Nat.pow_add] at h1
    have h2 : 2 ^ (p + 17) ≤ 2 ^ 1074 := Nat.pow_le_pow_right (by omega) (by omega)
    exact absurd (Nat.lt_of_lt_of_le h1 h2) (Nat.not_lt.2 hlo)
  have hp2 : p < 1124 := by
    apply Decidable.byContradiction
    intro h
    have aux : ∀ c : Nat, 50 + c ≤ p → 10 ^ 15 * 2 ^ c ≤ 2 ^ p := fun c hc => by
      refine Nat.le_trans (Nat.mul_le_mul_right (2 ^ c) (show 10 ^ 15 ≤ 2 ^ 50 by decide)) ?_
      rw [← Nat.pow_add]
      exact Nat.pow_le_pow_right (by omega) hc
    exact absurd (Nat.lt_of_lt_of_le hhi (aux 1074 (by omega))) (Nat.lt_irrefl _)
  by_cases h : 1074 ≤ p
  · obtain ⟨c, rfl⟩ : ∃ c, p = c + 1074 := ⟨p - 1074, by omega⟩
    have h2 : 2 ^ c < 10 ^ 15 := Nat.lt_of_le_of_lt (Nat.pow_le_pow_right (by omega) (show c ≤ 49 by omega)) (by decide)
    obtain ⟨ds', hd', hl', ho'⟩ := padded h2 (by omega)
    rw [← hl']
    refine hs.minimal ds' (-((0 : Nat) : Int)) hd' ?_
    rw [identifies_neg, ho', Nat.pow_zero, ← Nat.pow_add]
    exact F64.roundMag_pow _
  · obtain ⟨r, hr⟩ : ∃ r, 1074 = p + r := ⟨1074 - p, by omega⟩
    have h2 : 5 ^ r < 10 ^ 15 := Nat.lt_of_le_of_lt (Nat.pow_le_pow_right (by omega) (show r ≤ 16 by omega)) (by decide)
    obtain ⟨ds', hd', hl', ho'⟩ := padded h2 (by omega)
    rw [← hl']
    refine hs.minimal ds' (-(r : Int)) hd' ?_
    rw [identifies_neg, ho', hr]
    have := F64.roundMag_exact (n := 5 ^ r * 2 ^ (p + r)) (d := 10 ^ r) (m := 1) (k := p) (Nat.pow_pos (by omega)) (by decide) (by
      rw [show 10 ^ r = 5 ^ r * 2 ^ r by rw [← Nat.mul_pow], Nat.pow_add]; ring)
    rwa [Nat.one_mul] at this

/-- Rounding twice does not cross a power of two. -/
theorem no_crossing {Z j n p : Nat} (hj : j ≤ 22) (h : F64.roundMag Z (10 ^ j) = n) :
    (n < 2 ^ p → F64.roundMag (F64.roundMag Z 1) (10 ^ j) ≤ 2 ^ p) ∧
    (2 ^ p < n → 2 ^ p ≤ F64.roundMag (F64.roundMag Z 1) (10 ^ j)) := by
  have hT : 0 < 10 ^ j := Nat.pow_pos (by omega)
  have hPT : F64.roundMag (2 ^ p * 10 ^ j) (10 ^ j) = 2 ^ p := by
    have := F64.roundMag_exact (n := 2 ^ p * 10 ^ j) (d := 10 ^ j) (m := 1) (k := p) hT (by decide) (by rw [Nat.one_mul])
    rwa [Nat.one_mul] at this
  have hP1 : F64.roundMag (2 ^ p * 10 ^ j) 1 = 2 ^ p * 10 ^ j := by
    have := F64.roundMag_mul_pow (m := 5 ^ j) (p + j) (Nat.lt_of_le_of_lt (Nat.pow_le_pow_right (by omega) hj) (show 5 ^ 22 < 2 ^ 53 by decide))
    rwa [show 5 ^ j * 2 ^ (p + j) = 2 ^ p * 10 ^ j by
      rw [show 10 ^ j = 5 ^ j * 2 ^ j by rw [← Nat.mul_pow], Nat.pow_add]; ring] at this
  constructor
  · intro hlt
    have h1 : Z ≤ 2 ^ p * 10 ^ j := by
      apply Decidable.byContradiction
      intro hc
      have := F64.roundMag_mono hT hT (Nat.mul_le_mul_right (10 ^ j) (Nat.le_of_lt (Nat.not_le.1 hc)))
      rw [hPT, h] at this
      omega
    have h2 : F64.roundMag Z 1 ≤ 2 ^ p * 10 ^ j := by
      rw [← hP1]
      exact F64.roundMag_mono (by omega) (by omega) (Nat.mul_le_mul_right 1 h1)
    have h3 := F64.roundMag_mono hT hT (Nat.mul_le_mul_right (10 ^ j) h2)
    rwa [hPT] at h3
  · intro hlt
    have h1 : 2 ^ p * 10 ^ j ≤ Z := by
      apply Decidable.byContradiction
      intro hc
      have := F64.roundMag_mono hT hT (Nat.mul_le_mul_right (10 ^ j) (Nat.le_of_lt (Nat.not_le.1 hc)))
      rw [hPT, h] at this
      omega
    have h2 : 2 ^ p * 10 ^ j ≤ F64.roundMag Z 1 := by
      rw [← hP1]
      exact F64.roundMag_mono (by omega) (by omega) (Nat.mul_le_mul_right 1 h1)
    have h3 := F64.roundMag_mono hT hT (Nat.mul_le_mul_right (10 ^ j) h2)
    rwa [hPT] at h3

open F64 (RoundsTo) in
/-- The arithmetic of StableCore, put together. -/
theorem stable_digits {U W m m' D D' b b' g g' : Nat} (hUW : U < W) (hU : 0 < U) (hm : m < 2 ^ 53) (hm' : m' < 2 ^ 53) (hmm : m ≠ m')
    (hD : 2 * ((D * U : Nat) - (m * W : Nat) : Int).natAbs ≤ U) (hD' : 2 * ((D' * U : Nat) - (m' * W : Nat) : Int).natAbs ≤ U)
    (hr : RoundsTo D b g) (hr' : RoundsTo D' b' g')
    (hE : 2 * ((2 * 2 ^ b * g * U : Nat) - (m' * W : Nat) : Int).natAbs ≤ W)
    (hne : W ≠ (2 * 2 ^ b - 1) * U) (hb : b ≤ 3) (hb' : b' ≤ 3) (hW : W ≤ 10 * U) :
    2 * 2 ^ b' * g' = 2 * 2 ^ b * g ∨ (D' ≤ 2 * 2 ^ b' * g' ∧ 2 * 2 ^ b' * g' ≤ 2 * 2 ^ b * g) ∨
      2 * ((2 * 2 ^ b' * g' * U : Nat) - (m' * W : Nat) : Int).natAbs < W := by
  have hU' : (0 : ℚ) < U := by exact_mod_cast hU
  obtain ⟨w, hw⟩ : ∃ w : ℚ, w * U = W := ⟨W / U, div_mul_cancel₀ _ (ne_of_gt hU')⟩
  -- from naturals to rationals
  have conv : ∀ (a c : Nat) (t : ℚ), (c : ℚ) * W = t * U → ∀ B : Nat, ∀ β : ℚ, β * U = B →
      (2 * ((a * U : Nat) - (c * W : Nat) : Int).natAbs ≤ B ↔ t - β / 2 ≤ a ∧ (a : ℚ) ≤ t + β / 2) ∧
      (2 * ((a * U : Nat) - (c * W : Nat) : Int).natAbs < B ↔ t - β / 2 < a ∧ (a : ℚ) < t + β / 2) := by
    intro a c t ht B β hβ
    have e1 : t - β / 2 ≤ a ↔ 2 * (c * W : ℚ) - B ≤ 2 * (a * U) := by
      rw [← mul_le_mul_iff_of_pos_right hU', ht, ← hβ]
      constructor <;> intro h <;> linarith
    have e2 : (a : ℚ) ≤ t + β / 2 ↔ 2 * (a * U) ≤ 2 * (c * W : ℚ) + B := by
      rw [← mul_le_mul_iff_of_pos_right hU', ht, ← hβ]
      constructor <;> intro h <;> linarith
    have e3 : t - β / 2 < a ↔ 2 * (c * W : ℚ) - B < 2 * (a * U) := by
      rw [← mul_lt_mul_iff_of_pos_right hU', ht, ← hβ]
      constructor <;> intro h <;> linarith
    have e4 : (a : ℚ) < t + β / 2 ↔ 2 * (a * U) < 2 * (c * W : ℚ) + B := by
      rw [← mul_lt_mul_iff_of_pos_right hU', ht, ← hβ]
      constructor <;> intro h <;> linarith
    rw [e1, e2, e3, e4]
    have f1 : (2 * (c * W : ℚ) - B ≤ 2 * (a * U)) ↔ 2 * ((c * W : Nat) : Int) - B ≤ 2 * ((a * U : Nat) : Int) := by
      rw [← Int.cast_le (R := ℚ)]; push_cast; rfl
    have f2 : (2 * (a * U) ≤ 2 * (c * W : ℚ) + B) ↔ 2 * ((a * U : Nat) : Int) ≤ 2 * ((c * W : Nat) : Int) + B := by
      rw [← Int.cast_le (R := ℚ)]; push_cast; rfl
    have f3 : (2 * (c * W : ℚ) - B < 2 * (a * U)) ↔ 2 * ((c * W : Nat) : Int) - B < 2 * ((a * U : Nat) : Int) := by
      rw [← Int.cast_lt (R := ℚ)]; push_cast; rfl
    have f4 : (2 * (a * U) < 2 * (c * W : ℚ) + B) ↔ 2 * ((a * U : Nat) : Int) < 2 * ((c * W : Nat) : Int) + B := by
      rw [← Int.cast_lt (R := ℚ)]; push_cast; rfl
    rw [f1, f2, f3, f4]
    omega
  have hX : (m : ℚ) * W = (m * w) * U := by rw [← hw]; ring
  have hY : (m' : ℚ) * W = (m' * w) * U := by rw [← hw]; ring
  have h1 : (1 : ℚ) * U = U := one_mul _
  have cD := (conv D m _ hX U 1 h1).1.1 hD
  have cD' := (conv D' m' _ hY U 1 h1).1.1 hD'
  have cE := (conv _ m' _ hY W w hw).1.1 hE
  have hw1 : 1 < w := by
    rw [← mul_lt_mul_iff_of_pos_right hU', hw, one_mul]
    exact_mod_cast hUW
  have hw10 : w ≤ 10 := by
    rw [← mul_le_mul_iff_of_pos_right hU', hw]
    exact_mod_cast hW
  have goal3 : ∀ a : Nat, (m' : ℚ) * w - w / 2 < a ∧ (a : ℚ) < m' * w + w / 2 →
      2 * ((a * U : Nat) - (m' * W : Nat) : Int).natAbs < W := fun a h => (conv a m' _ hY W w hw).2.2 h
  have big : ∀ {k F b f : Nat} , k < 2 ^ 53 → RoundsTo F b f → (F : ℚ) ≤ k * w + 1 / 2 → (2 : ℚ) ^ b < w := by
    intro k F b f hk hF hle
    have h1 : (2 : ℚ) ^ 53 * 2 ^ b ≤ F := by
      have := hF.lo
      rw [Nat.pow_add] at this
      exact_mod_cast this
    have h2 : (k : ℚ) + 1 ≤ 2 ^ 53 := by
      have : k + 1 ≤ 2 ^ 53 := hk
      exact_mod_cast this
    nlinarith
  have hbw := big hm hr cD.2
  have hbw' := big hm' hr' cD'.2
  have ha : ((2 * 2 ^ b * g : Nat) : ℚ) - D ≤ 2 ^ b := by
    have := hr.above
    exact_mod_cast this
  have hbl : (D : ℚ) - (2 * 2 ^ b * g : Nat) ≤ 2 ^ b := by
    have := hr.below
    exact_mod_cast this
  have hh1 : (1 : ℤ) ≤ 2 ^ b := by exact_mod_cast Nat.one_le_two_pow
  have hh1' : (1 : ℤ) ≤ 2 ^ b' := by exact_mod_cast Nat.one_le_two_pow
  have castE : ∀ c f : Nat, (((2 * 2 ^ c * f : ℤ)) : ℚ) = ((2 * 2 ^ c * f : Nat) : ℚ) := by intros; push_cast; rfl
  have hneq : w ≠ 2 * ((2 ^ b : ℤ) : ℚ) - 1 := by
    intro h
    apply hne
    have h2 : 1 ≤ 2 * 2 ^ b := by have := Nat.one_le_two_pow (n := b); omega
    have h3 : (W : ℚ) = ((2 * 2 ^ b - 1 : Nat) : ℚ) * U := by
      rw [← hw, h, Nat.cast_sub h2]; push_cast; ring
    exact_mod_cast h3
  rcases Nat.lt_or_gt_of_ne hmm with hlt | hgt
  · -- upwards
    have hsucc : m' = m + 1 := by
      by_contra hc
      have h2 : (m : ℚ) + 2 ≤ m' := by
        have : m + 2 ≤ m' := by omega
        exact_mod_cast this
      nlinarith
    have hYX : (m' : ℚ) * w = m * w + w := by rw [hsucc]; push_cast; ring
    have hDD : D < D' := by
      have : (D : ℚ) < D' := by linarith
      exact_mod_cast this
    have hDD2 : D' ≤ D + 11 := by
      have : (D' : ℚ) ≤ D + 11 := by linarith
      exact_mod_cast this
    have hbb : b ≤ b' := by
      have := (Nat.pow_lt_pow_iff_right (a := 2) (by omega)).1 (Nat.lt_of_le_of_lt hr.lo (Nat.lt_trans hDD hr'.hi))
      omega
    have hbb2 : b' ≤ b + 1 := by
      have h1 : 2 ^ (53 + b') < 2 ^ (55 + b) := by
        have h2 := hr.hi
        have h3 := hr'.lo
        have h4 : 2 ^ (55 + b) = 2 * 2 ^ (54 + b) := by rw [show 55 + b = (54 + b) + 1 by omega, Nat.pow_succ]; omega
        have h5 : 2 ^ 54 ≤ 2 ^ (54 + b) := Nat.pow_le_pow_right (by omega) (by omega)
        omega
      have := (Nat.pow_lt_pow_iff_right (a := 2) (by omega)).1 h1
      omega
    rcases Nat.eq_or_lt_of_le hbb with rfl | hlt2
    · rcases Stable.same_grid (h := 2 ^ b) (D := D) (D' := D') (g := g) (g' := g') (X := m * w) (Y := m' * w) (w := w)
        hh1 hw1 hYX (by exact_mod_cast cD.1) (by exact_mod_cast cD.2) (by exact_mod_cast cD'.1) (by exact_mod_cast cD'.2)
        (by rw [castE]; linarith [cE.1]) (by rw [castE]; exact cE.2) hr.above hr.below
        (fun h => by have := hr.tie (.inl h); omega) hr'.above hr'.below (fun h => by have := hr'.tie (.inl h); omega) hneq with h | h
      · left
        have : g' = g := by exact_mod_cast h
        rw [this]
      · right; right
        rw [castE] at h
        exact goal3 _ h
    · have hb1 : b' = b + 1 := by omega
      subst hb1
      left
      have e : (2 * 2 ^ (b + 1) : ℤ) = 4 * 2 ^ b := by rw [pow_succ]; ring
      have e2 : (2 ^ (b + 1) : ℤ) = 2 * 2 ^ b := by rw [pow_succ]; ring
      have eq : (4 * 2 ^ b * 2 ^ 52 : ℤ) = ((2 ^ (54 + b) : Nat) : ℤ) := by push_cast; rw [pow_add]; ring
      have ha' := hr'.above
      have hb' := hr'.below
      have ht' := hr'.tie
      rw [e, e2] at ha' hb' ht'
      have := Stable.upper_grid (h := 2 ^ b) (D := D) (D' := D') (g := g) (g' := g') (q := 2 ^ 52) (X := m * w) (Y := m' * w) (w := w)
        hh1 hYX (by exact_mod_cast cD.1) (by exact_mod_cast cD.2) (by exact_mod_cast cD'.1) (by exact_mod_cast cD'.2)
        (by rw [castE]; linarith [cE.1]) (by rw [castE]; exact cE.2) hr.above hr.below
        (fun h => by have := hr.tie (.inl h); omega) ha' hb' (fun h => by have := ht' (.inl h); omega)
        (by rw [pow_succ] at hbw'; push_cast; linarith)
        (by rw [eq]; exact_mod_cast hr.hi) (by rw [eq]; have := hr'.lo; rw [show 53 + (b + 1) = 54 + b by omega] at this; exact_mod_cast this)
        (by
          have h1 : (2 * 2 ^ b * g : ℤ) ≤ 2 * 2 ^ b * 2 ^ 53 := mul_le_mul_of_nonneg_left (by exact_mod_cast hr.g2) (by positivity)
          have h2 : (2 * 2 ^ b * 2 ^ 53 : ℤ) = 4 * 2 ^ b * 2 ^ 52 := by ring
          linarith)
        (by norm_num)
      rw [← e] at this
      exact_mod_cast this
  · -- downwards
    have hsucc : m = m' + 1 := by
      by_contra hc
      have h2 : (m' : ℚ) + 2 ≤ m := by
        have : m' + 2 ≤ m := by omega
        exact_mod_cast this
      nlinarith
    have hYX : (m : ℚ) * w = m' * w + w := by rw [hsucc]; push_cast; ring
    have hDD : D' < D := by
      have : (D' : ℚ) < D := by linarith
      exact_mod_cast this
    have hDD2 : D ≤ D' + 11 := by
      have : (D : ℚ) ≤ D' + 11 := by linarith
      exact_mod_cast this
    have hbb : b' ≤ b := by
      have := (Nat.pow_lt_pow_iff_right (a := 2) (by omega)).1 (Nat.lt_of_le_of_lt hr'.lo (Nat.lt_trans hDD hr.hi))
      omega
    have hbb2 : b ≤ b' + 1 := by
      have h1 : 2 ^ (53 + b) < 2 ^ (55 + b') := by
        have h2 := hr'.hi
        have h3 := hr.lo
        have h4 : 2 ^ (55 + b') = 2 * 2 ^ (54 + b') := by rw [show 55 + b' = (54 + b') + 1 by omega, Nat.pow_succ]; omega
        have h5 : 2 ^ 54 ≤ 2 ^ (54 + b') := Nat.pow_le_pow_right (by omega) (by omega)
        omega
      have := (Nat.pow_lt_pow_iff_right (a := 2) (by omega)).1 h1
      omega
    rcases Nat.eq_or_lt_of_le hbb with rfl | hlt2
    · have neg : ∀ f : Nat, (2 * 2 ^ b' * (-(f : ℤ)) : ℤ) = -(2 * 2 ^ b' * f) := by intro f; ring
      have negq : ∀ f : Nat, ((2 * 2 ^ b' * (-(f : ℤ)) : ℤ) : ℚ) = -((2 * 2 ^ b' * f : Nat) : ℚ) := by
        intro f; rw [neg, Int.cast_neg, castE]
      rcases Stable.same_grid (h := 2 ^ b') (D := -D) (D' := -D') (g := -g) (g' := -g') (X := -(m * w)) (Y := -(m' * w)) (w := w)
        hh1 hw1 (by linarith) (by push_cast; linarith [cD.2]) (by push_cast; linarith [cD.1]) (by push_cast; linarith [cD'.2])
        (by push_cast; linarith [cD'.1])
        (by rw [negq]; linarith [cE.2]) (by rw [negq]; linarith [cE.1])
        (by have := hr.below; rw [neg]; linarith) (by have := hr.above; rw [neg]; linarith)
        (fun h => by have := hr.tie (.inr (by rw [neg] at h; linarith)); omega)
        (by have := hr'.below; rw [neg]; linarith) (by have := hr'.above; rw [neg]; linarith)
        (fun h => by have := hr'.tie (.inr (by rw [neg] at h; linarith)); omega) hneq with h | h
      · left
        have : g' = g := by omega
        rw [this]
      · right; right
        rw [negq] at h
        exact goal3 _ ⟨by linarith [h.2], by linarith [h.1]⟩
    · have hb1 : b = b' + 1 := by omega
      subst hb1
      right
      have eq : (2 * 2 ^ b' * 2 ^ 53 : ℤ) = ((2 ^ (54 + b') : Nat) : ℤ) := by push_cast; rw [pow_add]; ring
      rcases Stable.lower_grid (k := 2 ^ b') (D' := D') (E := (2 * 2 ^ (b' + 1) * g : Nat)) (g' := g') (q := 2 ^ 53) (Y := m' * w) (w := w)
        hh1' (by exact_mod_cast cD'.1) (by exact_mod_cast cD'.2) (by exact_mod_cast cE.2) hr'.above hr'.below
        (fun h => by have := hr'.tie h; omega) (by rw [pow_succ] at hbw; push_cast; linarith)
        (by rw [eq]; exact_mod_cast hr'.hi)
        (by
          have h1 : (2 * 2 ^ (b' + 1) * 2 ^ 52 : ℤ) ≤ 2 * 2 ^ (b' + 1) * g := mul_le_mul_of_nonneg_left (by exact_mod_cast hr.g1) (by positivity)
          have h2 : (2 * 2 ^ (b' + 1) * 2 ^ 52 : ℤ) = 2 * 2 ^ b' * 2 ^ 53 := by rw [pow_succ]; ring
          push_cast
          linarith)
        (by norm_num) with h | h
      · left
        exact ⟨by exact_mod_cast h.1, by exact_mod_cast h.2⟩
      · right
        rw [castE] at h
        exact goal3 _ h


theorem width_ne {e j : Nat} (b : Nat) (hb : b ≤ 3) (h : 2 ^ 1074 < 2 ^ e * 10 ^ j) : 2 ^ e * 10 ^ j ≠ (2 * 2 ^ b - 1) * 2 ^ 1074 := by
  intro hc
  have h3 : ∀ q : Nat, Nat.Prime q → q ∣ 2 ^ e * 10 ^ j → q = 2 ∨ q = 5 := by
    intro q hq hd
    rcases (Nat.Prime.dvd_mul hq).1 hd with h | h
    · left; exact (Nat.prime_dvd_prime_iff_eq hq Nat.prime_two).1 (hq.dvd_of_dvd_pow h)
    · have := hq.dvd_of_dvd_pow h
      rw [show 10 = 2 * 5 from rfl] at this
      rcases (Nat.Prime.dvd_mul hq).1 this with h | h
      · left; exact (Nat.prime_dvd_prime_iff_eq hq Nat.prime_two).1 h
      · right; exact (Nat.prime_dvd_prime_iff_eq hq Nat.prime_five).1 h
  rw [hc] at h h3
  generalize 2 ^ 1074 = U at *
  have : b = 0 ∨ b = 1 ∨ b = 2 ∨ b = 3 := by omega
  rcases this with rfl | rfl | rfl | rfl
  · omega
  · have := h3 3 Nat.prime_three ⟨U, by ring⟩
    omega
  · have := h3 7 (by norm_num) ⟨U, by ring⟩
    omega
  · have := h3 3 Nat.prime_three ⟨5 * U, by ring⟩
    omega

/-- Two numbers with the same spacing of the digits. -/
theorem same_j {a U j j' : Nat} (h1 : U < a * 10 ^ j) (h2 : a * 10 ^ j ≤ 10 * U) (h1' : U < a * 10 ^ j') (h2' : a * 10 ^ j' ≤ 10 * U) : j = j' := by
  have key : ∀ {i i' : Nat}, U < a * 10 ^ i → a * 10 ^ i' ≤ 10 * U → i' ≤ i := by
    intro i i' h h'
    by_contra hc
    have : a * 10 ^ (i + 1) ≤ a * 10 ^ i' := Nat.mul_le_mul_left _ (Nat.pow_le_pow_right (by omega) (by omega))
    rw [Nat.pow_succ, ← Nat.mul_assoc] at this
    omega
  exact Nat.le_antisymm (key h1' h2) (key h1 h2')

/-- Doubles that no power of two separates have the same spacing. -/
theorem same_e {m m' e e' : Nat} (h1 : 2 ^ 52 < m) (h2 : m < 2 ^ 53) (h1' : 2 ^ 52 < m') (h2' : m' < 2 ^ 53)
    (hup : ∀ p, m * 2 ^ e < 2 ^ p → m' * 2 ^ e' ≤ 2 ^ p) (hdown : ∀ p, 2 ^ p < m * 2 ^ e → 2 ^ p ≤ m' * 2 ^ e') : e = e' := by
  have k1 : m' * 2 ^ e' ≤ 2 ^ (53 + e) := hup _ (by
    rw [Nat.pow_add]; exact Nat.mul_lt_mul_of_pos_right h2 (Nat.pow_pos (by omega)))
  have k2 : 2 ^ (52 + e) ≤ m' * 2 ^ e' := hdown _ (by
    rw [Nat.pow_add]; exact Nat.mul_lt_mul_of_pos_right h1 (Nat.pow_pos (by omega)))
  have k3 : 2 ^ (52 + e') < m' * 2 ^ e' := by
    rw [Nat.pow_add]; exact Nat.mul_lt_mul_of_pos_right h1' (Nat.pow_pos (by omega))
  have k4 : m' * 2 ^ e' < 2 ^ (53 + e') := by
    rw [Nat.pow_add]; exact Nat.mul_lt_mul_of_pos_right h2' (Nat.pow_pos (by omega))
  have k5 := (Nat.pow_lt_pow_iff_right (a := 2) (by omega)).1 (Nat.lt_of_lt_of_le k3 k1)
  have k6 := (Nat.pow_lt_pow_iff_right (a := 2) (by omega)).1 (Nat.lt_of_le_of_lt k2 k4)
  omega

/-- **Stability.**  A score that was saved and loaded once is not changed by saving and loading it again. -/
theorem reread_stable {N : NumText F64} (hN : SerdeDoubles N) (s : Bool) {n n' : Nat} (hd : IsDouble n)
    (hlo : 2 ^ 1074 ≤ n * 10 ^ 4) (hhi : n < 10 ^ 14 * 2 ^ 1074) (h : reread N (.num s n) = some (.num s n')) :
    reread N (.num s n') = some (.num s n') := by
  have hU : 0 < 2 ^ 1074 := Nat.pow_pos (by omega)
  have hlo5 : 2 ^ 1074 ≤ n * 10 ^ 5 := Nat.le_trans hlo (Nat.mul_le_mul_left _ (by omega))
  have hhi5 : n < 10 ^ 15 * 2 ^ 1074 := Nat.lt_of_lt_of_le hhi (Nat.mul_le_mul_right _ (by omega))
  by_cases hnn : n' = n
  · rw [hnn] at h ⊢; exact h
  obtain ⟨n₂, h₂, hclose⟩ := reread_close hN s hd hlo5 hhi5
  obtain rfl : n' = n₂ := by rw [h] at h₂; simpa using h₂
  have range : ∀ U : Nat, U ≤ n * 10 ^ 4 → n < 10 ^ 14 * U → U ≤ n' * 10 ^ 5 ∧ n' < 10 ^ 15 * U := by
    intro U h1 h2
    clear hlo hhi hlo5 hhi5
    omega
  obtain ⟨hlo5', hhi5'⟩ := range _ hlo hhi
  rcases reread_cases hN s hd hlo5 hhi5 with hx | ⟨ds, j, hs, hj1, hj2, hD, hD17, hx⟩
  · rw [h] at hx; exact absurd (by simpa using hx) hnn
  have hT : 0 < 10 ^ j := Nat.pow_pos (by omega)
  have hn' : F64.roundMag (F64.roundMag (ofDigits ds * 2 ^ 1074) 1) (10 ^ j) = n' := by rw [h] at hx; simpa using hx.symm
  have hd' : IsDouble n' := by
    rw [← hn']
    exact F64.isDouble_roundMag hT (by rw [hn']; exact lt_limit_of_range hhi5')
  rcases reread_cases hN s hd' hlo5' hhi5' with hy | ⟨ds', j', hs', hj1', hj2', hD', hD17', hy⟩
  · exact hy
  have normal : ∀ {n : Nat} {ds : List Nat} {k : Int}, IsDouble n → 2 ^ 1074 ≤ n * 10 ^ 5 → n < 10 ^ 15 * 2 ^ 1074 → Shortest n ds k →
      2 ^ 53 ≤ ofDigits ds → ∃ m e, 2 ^ 52 < m ∧ m < 2 ^ 53 ∧ n = m * 2 ^ e := by
    intro n ds k hd hlo hhi hs hD
    have h52 : 2 ^ 52 ≤ n := by
      have : 2 ^ 52 * 10 ^ 5 ≤ n * 10 ^ 5 := Nat.le_trans (Nat.le_trans (show 2 ^ 52 * 10 ^ 5 ≤ 2 ^ 70 by decide)
        (Nat.pow_le_pow_right (by omega) (by omega))) hlo
      exact Nat.le_of_mul_le_mul_right this (by decide)
    obtain ⟨m, e, h1, h2, h3⟩ := F64.isDouble_normal hd h52
    refine ⟨m, e, Nat.lt_of_le_of_ne h1 ?_, h2, h3⟩
    rintro rfl
    rw [← Nat.pow_add] at h3
    subst h3
    exact not_power hs hlo hhi hD
  obtain ⟨m, e, hm1, hm2, hn⟩ := normal hd hlo5 hhi5 hs hD
  obtain ⟨m', e', hm1', hm2', hne'⟩ := normal hd' hlo5' hhi5' hs' hD'
  have hid := identifies_neg.1 hs.identifies
  obtain rfl : e = e' := by
    refine same_e hm1 hm2 hm1' hm2' (fun p hp => ?_) (fun p hp => ?_)
    · have := (no_crossing (p := p) hj2 hid).1 (by rw [hn]; exact hp)
      rwa [hn', hne'] at this
    · have := (no_crossing (p := p) hj2 hid).2 (by rw [hn]; exact hp)
      rwa [hn', hne'] at this
  obtain ⟨t1, t2, t3⟩ := tight hs hj1 hm1 hm2 hn hD
  obtain ⟨t1', t2', t3'⟩ := tight hs' hj1' hm1' hm2' hne' hD'
  obtain rfl : j = j' := same_j t1 t2 t1' t2'
  obtain ⟨b, g, hb, hr, hE⟩ := F64.roundsTo_exists hD hD17 1074
  obtain ⟨b', g', hb', hr', hE'⟩ := F64.roundsTo_exists hD' hD17' 1074
  rw [hE] at hn'
  rw [hE'] at hy
  have hid' := identifies_neg.1 hs'.identifies
  have hhalf := F64.roundMag_half hT hm1' hm2' (by rw [hn', hne'])
  have hw := width_ne b hb t1
  rw [hy]
  refine congrArg (fun k => some (F64.num s k)) ?_
  have hmm : m ≠ m' := by rintro rfl; exact hnn (hne'.trans hn.symm)
  rw [hn, Nat.mul_assoc m] at t3
  rw [hne', Nat.mul_assoc m'] at t3'
  rw [Nat.mul_assoc m'] at hhalf
  rcases stable_digits (U := 2 ^ 1074) (W := 2 ^ e * 10 ^ j) t1 hU hm2 hm2' hmm t3 t3' hr hr' hhalf hw hb hb' t2 with hc | ⟨hc1, hc2⟩ | hc
  · rw [hc]; exact hn'
  · apply Nat.le_antisymm
    · rw [← hn']
      exact F64.roundMag_mono hT hT (Nat.mul_le_mul_right _ (Nat.mul_le_mul_right _ hc2))
    · rw [← hid']
      exact F64.roundMag_mono hT hT (Nat.mul_le_mul_right _ (Nat.mul_le_mul_right _ hc1))
  · rw [hne']
    refine F64.roundMag_near hT hm2' (.inr (by omega)) ?_ (by omega)
    rw [Nat.mul_assoc m']
    exact hc

end Tokengeex

import Verif.Proofs.Shortest
/-
Scores written and read back: exact up to 15 digits, off by at most 2^-51 in any case.
-/
namespace Tokengeex
open Spec

namespace F64

theorem roundMag_mul_pow {m : Nat} (k : Nat) (hm : m < 2 ^ 53) : roundMag (m * 2 ^ k) 1 = m * 2 ^ k :=
  roundMag_exact (m := m) (k := k) (by omega) hm (by rw [Nat.mul_one])

theorem roundMag_pow (k : Nat) : roundMag (2 ^ k) 1 = 2 ^ k := by
  have := roundMag_mul_pow (m := 1) k (by decide)
  rwa [Nat.one_mul] at this

theorem roundMag_mul_le {n a : Nat} (h : n < 2 ^ a) (b : Nat) : roundMag (n * 2 ^ b) 1 ≤ 2 ^ (a + b) := by
  rw [← roundMag_pow (a + b), Nat.pow_add]
  exact roundMag_mono (by omega) (by omega) (by
    rw [Nat.mul_one, Nat.mul_one]; exact Nat.mul_le_mul_right _ (Nat.le_of_lt h))

theorem lt_pow_of_le {n a b : Nat} (h : n ≤ 2 ^ a) (hab : a < b) : n < 2 ^ b :=
  Nat.lt_of_le_of_lt h (Nat.pow_lt_pow_right (by omega) hab)

theorem lt_limit_mul {n a c b : Nat} (h : n < a * 2 ^ b) (ha : a ≤ 2 ^ c) (hb : c + b ≤ 2098) : n < limit := by
  refine lt_limit (k := c + b) (Nat.lt_of_lt_of_le h ?_) hb
  rw [Nat.pow_add]
  exact Nat.mul_le_mul_right _ ha

end F64

/-- The decade in which the digits of a score lie. -/
theorem decade {n : Nat} {ds : List Nat} {k : Int} (hs : Shortest n ds k) (hlo : 2 ^ 1074 ≤ n * 10 ^ 5)
    (hhi : n < 10 ^ 15 * 2 ^ 1074) : -5 ≤ ds.length + k ∧ ds.length + k ≤ 15 := by
  obtain ⟨d, more, rfl, h0⟩ := hs.head
  have h1 := ofDigits_lt hs.digits
  have h2 : 10 ^ more.length ≤ ofDigits (d :: more) := le_ofDigits h0
  generalize hD : ofDigits (d :: more) = D at *
  have hid := hs.identifies
  rw [hD] at hid
  simp only [List.length_cons] at h1 ⊢
  constructor
  · apply Decidable.byContradiction
    intro hlt
    have h3 : n ≤ F64.roundMag (1 * 2 ^ 1074) (10 ^ 6) := by
      refine identifies_le hid (by decide) ?_
      rw [show k.toNat = 0 by omega, Nat.pow_zero, Nat.mul_one, Nat.one_mul]
      calc D * 10 ^ 6 ≤ 10 ^ (more.length + 1) * 10 ^ 6 := Nat.mul_le_mul_right _ (Nat.le_of_lt h1)
        _ = 10 ^ (more.length + 1 + 6) := (Nat.pow_add _ _ _).symm
        _ ≤ 10 ^ (-k).toNat := Nat.pow_le_pow_right (by omega) (by omega)
    have h4 : F64.roundMag (1 * 2 ^ 1074) (10 ^ 6) * 10 ^ 5 < 2 ^ 1074 := by decide +kernel
    exact absurd (Nat.lt_of_le_of_lt (Nat.mul_le_mul_right (10 ^ 5) h3) h4) (Nat.not_lt.2 hlo)
  · apply Decidable.byContradiction
    intro hlt
    have h3 : F64.roundMag (10 ^ 15 * 2 ^ 1074) 1 ≤ n := by
      refine le_identifies hid (by decide) ?_
      rw [Nat.mul_one]
      refine Nat.le_trans ?_ (Nat.mul_le_mul_right _ h2)
      rw [← Nat.pow_add, ← Nat.pow_add]
      exact Nat.pow_le_pow_right (by omega) (by omega)
    rw [F64.roundMag_mul_pow 1074 (by decide)] at h3
    exact absurd hhi (Nat.not_lt.2 h3)

theorem identifies_shift {D : Nat} {k : Int} {n : Nat} (j : Nat) (h : Identifies D k n) :
    Identifies (D * 10 ^ j) (k - j) n := by
  unfold Identifies at *
  rw [← h]
  refine F64.roundMag_congr (Nat.pow_pos (by omega)) (Nat.pow_pos (by omega)) ?_
  generalize 2 ^ 1074 = U
  have e : 10 ^ j * 10 ^ (k - j).toNat * 10 ^ (-k).toNat = 10 ^ k.toNat * 10 ^ (-(k - j)).toNat := by
    rw [← Nat.pow_add, ← Nat.pow_add, ← Nat.pow_add]
    congr 1
    omega
  calc D * 10 ^ j * 10 ^ (k - j).toNat * U * 10 ^ (-k).toNat
      = D * (10 ^ j * 10 ^ (k - j).toNat * 10 ^ (-k).toNat) * U := by ring
    _ = D * (10 ^ k.toNat * 10 ^ (-(k - j)).toNat) * U := by rw [e]
    _ = D * 10 ^ k.toNat * U * 10 ^ (-(k - j)).toNat := by ring

theorem lt_limit_of_range {n : Nat} (hhi : n < 10 ^ 15 * 2 ^ 1074) : n < F64.limit := by
  exact F64.lt_limit_mul (c := 50) hhi (by decide) (by omega)

/-- Scores with at most 15 digits come back exactly. -/
theorem reread_exact {N : NumText F64} (hN : SerdeDoubles N) (s : Bool) {n : Nat} (hd : IsDouble n)
    (hlo : 2 ^ 1074 ≤ n * 10 ^ 5) (hhi : n < 10 ^ 15 * 2 ^ 1074)
    (h15 : ∃ ds k, (∀ d ∈ ds, d < 10) ∧ ds.length ≤ 15 ∧ Identifies (ofDigits ds) k n) :
    reread N (.num s n) = some (.num s n) := by
  have hn0 : n ≠ 0 := by
    rintro rfl
    rw [Nat.zero_mul] at hlo
    exact absurd (Nat.pow_pos (n := 1074) (show 0 < 2 by omega)) (Nat.not_lt.2 hlo)
  have hlim := lt_limit_of_range hhi
  obtain ⟨ds, k, hs, hp⟩ := hN.finite s n hn0 hd
  obtain ⟨ds', k', hd', hl', hi'⟩ := h15
  have hlen := Nat.le_trans (hs.minimal ds' k' hd' hi') hl'
  obtain ⟨hk1, hk2⟩ := decade hs hlo hhi
  have hlt := ofDigits_lt hs.digits
  have hlt15 : ofDigits ds < 10 ^ 15 := Nat.lt_of_lt_of_le hlt (Nat.pow_le_pow_right (by omega) hlen)
  have hne : ds ≠ [] := by
    obtain ⟨d, more, rfl, _⟩ := hs.head; simp
  rw [reread, hp, Option.bind_some, hN.reading,
    F64.ofText_layout s ds k hs.digits hne (by omega) (by omega) (by omega)]
  by_cases h1 : 0 ≤ k ∧ ds.length + k ≤ 16
  · rw [if_pos h1]
    have hid := identifies_shift (k.toNat + 1) hs.identifies
    rw [show k - ((k.toNat + 1 : Nat) : Int) = -1 by omega] at hid
    have e : ofDigits ds * 10 ^ (k.toNat + 1) = ofDigits ds * 5 ^ (k.toNat + 1) * 2 ^ (k.toNat + 1) := by
      rw [Nat.mul_assoc, ← Nat.mul_pow]
    rw [e] at hid ⊢
    refine F64.fromParts_exact ?_ (by omega) (by omega) hid hlim
    have h2 : ofDigits ds * 5 ^ (k.toNat + 1) * 2 ^ (k.toNat + 1) < 10 ^ 16 := by
      rw [← e]
      calc ofDigits ds * 10 ^ (k.toNat + 1) < 10 ^ ds.length * 10 ^ (k.toNat + 1) :=
            Nat.mul_lt_mul_of_pos_right hlt (Nat.pow_pos (by omega))
        _ = 10 ^ (ds.length + (k.toNat + 1)) := (Nat.pow_add _ _ _).symm
        _ ≤ 10 ^ 16 := Nat.pow_le_pow_right (by omega) (by omega)
    have h3 : 2 ≤ 2 ^ (k.toNat + 1) := by
      rw [Nat.pow_succ]
      have : 0 < 2 ^ k.toNat := Nat.pow_pos (by omega)
      omega
    have h4 := Nat.mul_le_mul_left (ofDigits ds * 5 ^ (k.toNat + 1)) h3
    omega
  · rw [if_neg h1]
    have := F64.fromParts_exact (s := s) (m := ofDigits ds) (j := 0) (k := k) (n := n) (by omega) (by omega) (by omega)
      (by rw [Nat.pow_zero, Nat.mul_one]; exact hs.identifies) hlim
    rwa [Nat.pow_zero, Nat.mul_one] at this

theorem seventeen_core {n m e V T : Nat} (hV : 0 < V) (hT : 0 < T) (hme : n = m * 2 ^ e) (hm2 : m < 2 ^ 53)
    (hm1 : e = 0 ∨ 2 ^ 52 ≤ m) (hj : 10 ^ 16 * V ≤ n * T) (hup : n * T < 10 ^ 17 * V) :
    ∃ D, D ≤ 10 ^ 17 ∧ F64.roundMag (D * V) T = n := by
  -- the nearest multiple
  obtain ⟨D, hD1, hD2⟩ : ∃ D, D ≤ 10 ^ 17 ∧ 2 * ((D * V : Nat) - (n * T : Nat) : Int).natAbs ≤ V := by
    refine ⟨F64.roundDiv (n * T) V, F64.roundDiv_le hV (Nat.le_of_lt hup), ?_⟩
    have h2 := Nat.div_add_mod' (n * T) V
    have h5 := Nat.mod_lt (n * T) hV
    rcases F64.roundDiv_cases (a := n * T) hV with ⟨h3, h4, _⟩ | ⟨h3, h4, _⟩
    · rw [h3]; omega
    · rw [h3, Nat.add_mul, Nat.one_mul]; omega
  refine ⟨D, hD1, ?_⟩
  have hE : 0 < 2 ^ e := Nat.pow_pos (by omega)
  have hnT : n * T = m * (2 ^ e * T) := by rw [hme, Nat.mul_assoc]
  have hET : 0 < 2 ^ e * T := Nat.mul_pos hE hT
  have hcast : ((D * V : Nat) : Int) - (m * 2 ^ e * T : Nat) = (D * V : Nat) - (n * T : Nat) := by rw [hme]
  have hmul : m * (2 ^ e * T) < 2 ^ 53 * (2 ^ e * T) := Nat.mul_lt_mul_of_pos_right hm2 hET
  rw [hme]
  refine F64.roundMag_near hT hm2 hm1 ?_ ?_
  · rw [hcast]
    rw [hnT] at hj hD2 ⊢
    generalize 2 ^ e * T = G at *
    generalize m * G = P at *
    omega
  · intro _ h52
    rw [hcast]
    rw [hnT, h52] at hj hD2 ⊢
    generalize 2 ^ e * T = G at *
    omega

/-- Digits for a multiple of a power of ten. -/
theorem seventeen_digits {n D : Nat} (k : Int) (hD : D ≤ 10 ^ 17)
    (h : F64.roundMag (D * (2 ^ 1074 * 10 ^ k.toNat)) (10 ^ (-k).toNat) = n) :
    ∃ ds k, (∀ d ∈ ds, d < 10) ∧ ds.length ≤ 17 ∧ Identifies (ofDigits ds) k n := by
  have hT : ∀ i : Nat, 0 < 10 ^ i := fun i => Nat.pow_pos (by omega)
  unfold Identifies
  generalize 2 ^ 1074 = U at *
  rcases Nat.eq_or_lt_of_le hD with rfl | hlt
  · refine ⟨[1], k + 17, by simp, by simp, ?_⟩
    rw [← h, show ofDigits [1] = 1 from rfl]
    refine F64.roundMag_congr (hT _) (hT _) ?_
    have e : 10 ^ (k + 17).toNat * 10 ^ (-k).toNat = 10 ^ 17 * 10 ^ k.toNat * 10 ^ (-(k + 17)).toNat := by
      rw [← Nat.pow_add, ← Nat.pow_add, ← Nat.pow_add]
      congr 1
      omega
    calc 1 * 10 ^ (k + 17).toNat * U * 10 ^ (-k).toNat = 10 ^ (k + 17).toNat * 10 ^ (-k).toNat * U := by ring
      _ = _ := by rw [e]; ring
  · refine ⟨decimal D, k, (decimal_digits D).1, decimal_length (by omega) hlt, ?_⟩
    rw [ofDigits_decimal, ← h]
    congr 1
    ring

/-- Seventeen digits are enough. -/
theorem seventeen {n : Nat} (hd : IsDouble n) (hn0 : n ≠ 0) :
    ∃ ds k, (∀ d ∈ ds, d < 10) ∧ ds.length ≤ 17 ∧ Identifies (ofDigits ds) k n := by
  classical
  have hU : 0 < 2 ^ 1074 := Nat.pow_pos (by omega)
  obtain ⟨m, e, hme, hm2, hm1⟩ : ∃ m e, n = m * 2 ^ e ∧ m < 2 ^ 53 ∧ (e = 0 ∨ 2 ^ 52 ≤ m) := by
    by_cases h52 : 2 ^ 52 ≤ n
    · obtain ⟨m, e, h1, h2, h3⟩ := F64.isDouble_normal hd h52
      exact ⟨m, e, h3, h2, .inr h1⟩
    · exact ⟨n, 0, by omega, by omega, .inl rfl⟩
  by_cases hsmall : n < 10 ^ 16 * 2 ^ 1074
  · have hex : ∃ j, 10 ^ 16 * 2 ^ 1074 ≤ n * 10 ^ j := by
      refine ⟨10 ^ 16 * 2 ^ 1074, ?_⟩
      have : 10 ^ 16 * 2 ^ 1074 < 10 ^ (10 ^ 16 * 2 ^ 1074) := Nat.lt_pow_self (by decide)
      exact Nat.le_trans (Nat.le_of_lt this) (Nat.le_mul_of_pos_left _ (Nat.pos_of_ne_zero hn0))
    obtain ⟨j, hj, hjmin⟩ : ∃ j, 10 ^ 16 * 2 ^ 1074 ≤ n * 10 ^ j ∧ ∀ i, i < j → n * 10 ^ i < 10 ^ 16 * 2 ^ 1074 :=
      ⟨Nat.find hex, Nat.find_spec hex, fun i hi => Nat.not_le.1 (Nat.find_min hex hi)⟩
    have hjpos : j ≠ 0 := by
      rintro rfl
      rw [Nat.pow_zero, Nat.mul_one] at hj
      exact absurd hsmall (Nat.not_lt.2 hj)
    obtain ⟨i, rfl⟩ : ∃ i, j = i + 1 := ⟨j - 1, by omega⟩
    have hup : n * 10 ^ (i + 1) < 10 ^ 17 * 2 ^ 1074 := by
      have := hjmin i (by omega)
      rw [Nat.pow_succ, ← Nat.mul_assoc]
      generalize 2 ^ 1074 = U at *
      omega
    obtain ⟨D, hD, hr⟩ := seventeen_core hU (Nat.pow_pos (by omega)) hme hm2 hm1 hj hup
    refine seventeen_digits (-((i + 1 : Nat) : Int)) hD ?_
    rw [show (-((i + 1 : Nat) : Int)).toNat = 0 by omega, show (- -((i + 1 : Nat) : Int)).toNat = i + 1 by omega,
      Nat.pow_zero, Nat.mul_one]
    exact hr
  · have hbig := Nat.not_lt.1 hsmall
    have hex : ∃ j, n < 10 ^ 17 * 2 ^ 1074 * 10 ^ j := by
      refine ⟨n, ?_⟩
      have : n < 10 ^ n := Nat.lt_pow_self (by omega)
      exact Nat.lt_of_lt_of_le this (Nat.le_mul_of_pos_left _ (Nat.mul_pos (by omega) hU))
    obtain ⟨j, hj, hjmin⟩ : ∃ j, n < 10 ^ 17 * 2 ^ 1074 * 10 ^ j ∧ ∀ i, i < j → 10 ^ 17 * 2 ^ 1074 * 10 ^ i ≤ n :=
      ⟨Nat.find hex, Nat.find_spec hex, fun i hi => Nat.not_lt.1 (Nat.find_min hex hi)⟩
    have hlow : 10 ^ 16 * (2 ^ 1074 * 10 ^ j) ≤ n * 1 := by
      rw [Nat.mul_one]
      cases j with
      | zero => rw [Nat.pow_zero, Nat.mul_one]; exact hbig
      | succ i =>
        have := hjmin i (by omega)
        rw [Nat.pow_succ 10 i]
        generalize 10 ^ i = P at this ⊢
        generalize 2 ^ 1074 = U at this ⊢
        have e : 10 ^ 16 * (U * (P * 10)) = 10 ^ 17 * U * P := by ring
        rw [e]
        exact this
    obtain ⟨D, hD, hr⟩ := seventeen_core (V := 2 ^ 1074 * 10 ^ j) (Nat.mul_pos hU (Nat.pow_pos (by omega))) (T := 1)
      (by omega) hme hm2 hm1 hlow (by rw [Nat.mul_one, ← Nat.mul_assoc]; exact hj)
    refine seventeen_digits (j : Int) hD ?_
    rw [show (j : Int).toNat = j by omega, show (-(j : Int)).toNat = 0 by omega, Nat.pow_zero]
    exact hr

namespace F64

/-- The conversion of 64-bit significands with negative exponents: two roundings. -/
theorem fromParts_error {s : Bool} {sig j n : Nat} (hsig : sig < 2 ^ 64) (hj : j ≤ 22) (hj0 : j ≠ 0)
    (hid : Identifies sig (-(j : Int)) n) (hlo : 2 ^ 1074 ≤ n * 10 ^ 5) :
    ∃ n', fromParts s sig (-(j : Int)) = some (num s n') ∧ 2 ^ 51 * ((n' : Int) - n).natAbs ≤ n := by
  have hU : 0 < 2 ^ 1074 := Nat.pow_pos (by omega)
  have hT : 0 < 10 ^ j := Nat.pow_pos (by omega)
  have hT22 : 10 ^ j ≤ 10 ^ 22 := Nat.pow_le_pow_right (by omega) hj
  have hUbig : 2 ^ 200 ≤ 2 ^ 1074 := Nat.pow_le_pow_right (by omega) (by omega)
  unfold Identifies at hid
  rw [show (- -(j : Int)).toNat = j by omega, show (-(j : Int)).toNat = 0 by omega, Nat.pow_zero, Nat.mul_one] at hid
  have hsigpos : sig ≠ 0 := by
    rintro rfl
    rw [Nat.zero_mul] at hid
    have h0 : roundMag 0 (10 ^ j) = 0 := (roundMag_exact (m := 0) (k := 0) hT (by decide) (by simp)).trans (by simp)
    rw [h0] at hid
    rw [← hid, Nat.zero_mul] at hlo
    omega
  -- the significand
  have hlim : roundMag (sig * 2 ^ 1074) 1 < 2 ^ 1200 := by
    exact lt_pow_of_le (roundMag_mul_le hsig 1074) (by omega)
  have ha : ofNat sig = num false (roundMag (sig * 2 ^ 1074) 1) := by
    refine round_of rfl ?_
    exact lt_limit hlim (by omega)
  have hS : 2 ^ 200 ≤ sig * 2 ^ 1074 := Nat.le_trans hUbig (Nat.le_mul_of_pos_left _ (by omega))
  have e1 := roundMag_error (n := sig * 2 ^ 1074) (d := 1) (by omega) (by
    rw [Nat.mul_one]; exact Nat.le_trans (by decide) hS)
  rw [Nat.mul_one] at e1
  have e2 := roundMag_error (n := sig * 2 ^ 1074) (d := 10 ^ j) hT (by
    refine Nat.le_trans (Nat.mul_le_mul_left _ hT22) (Nat.le_trans (by decide) hS))
  rw [hid] at e2
  generalize hA : roundMag (sig * 2 ^ 1074) 1 = a at *
  generalize sig * 2 ^ 1074 = S at *
  have ha100 : 2 ^ 150 ≤ a := by omega
  have e3 := roundMag_error (n := a) (d := 10 ^ j) hT (by
    exact Nat.le_trans (Nat.mul_le_mul_left _ hT22) (Nat.le_trans (by decide) ha100))
  refine ⟨roundMag a (10 ^ j), ?_, ?_⟩
  · unfold fromParts
    simp only
    rw [if_neg (by omega), ha]
    have hdown : ∀ f, scaleDown f (-(j : Int)).natAbs = div f (pow10 j) := by
      intro f; rw [show (-(j : Int)).natAbs = j by omega, scaleDown, if_pos (by omega)]
    rw [hdown, pow10_exact hj, div_num _ _ _ _ (Nat.ne_of_gt (Nat.mul_pos hT hU))]
    have hr : roundMag (a * 2 ^ 1074) (10 ^ j * 2 ^ 1074) = roundMag a (10 ^ j) := by
      refine roundMag_congr (Nat.mul_pos hT hU) hT ?_
      generalize 2 ^ 1074 = U
      ring
    have hle : roundMag a (10 ^ j) < limit := by
      have h1 : roundMag a (10 ^ j) ≤ roundMag (2 ^ 1200) 1 := roundMag_mono hT (by omega) (by
        rw [Nat.mul_one]
        exact Nat.le_trans (Nat.le_of_lt hlim) (Nat.le_mul_of_pos_right _ hT))
      rw [roundMag_pow] at h1
      exact lt_limit (k := 1201) (lt_pow_of_le h1 (by omega)) (by omega)
    rw [round_of hr hle]
    cases s <;> rfl
  · generalize roundMag a (10 ^ j) = y at *
    generalize 10 ^ j = T at *
    have hfin : 2 ^ 51 * ((y * T : Nat) - (n * T : Nat) : Int).natAbs ≤ n * T := by omega
    have hmul : ((y * T : Nat) - (n * T : Nat) : Int).natAbs = ((y : Int) - n).natAbs * T := by
      rw [Int.natCast_mul, Int.natCast_mul, ← Int.sub_mul, Int.natAbs_mul, Int.natAbs_natCast]
    rw [hmul, ← Nat.mul_assoc] at hfin
    exact Nat.le_of_mul_le_mul_right hfin hT

end F64

/-- Scores come back, off by at most a factor of `1 ± 2^-51`. -/
theorem reread_close {N : NumText F64} (hN : SerdeDoubles N) (s : Bool) {n : Nat} (hd : IsDouble n)
    (hlo : 2 ^ 1074 ≤ n * 10 ^ 5) (hhi : n < 10 ^ 15 * 2 ^ 1074) :
    ∃ n', reread N (.num s n) = some (.num s n') ∧ 2 ^ 51 * ((n' : Int) - n).natAbs ≤ n := by
  have hn0 : n ≠ 0 := by
    rintro rfl
    rw [Nat.zero_mul] at hlo
    exact absurd (Nat.pow_pos (n := 1074) (show 0 < 2 by omega)) (Nat.not_lt.2 hlo)
  obtain ⟨ds, k, hs, hp⟩ := hN.finite s n hn0 hd
  obtain ⟨ds', k', hd', hl', hi'⟩ := seventeen hd hn0
  have hlen := Nat.le_trans (hs.minimal ds' k' hd' hi') hl'
  obtain ⟨hk1, hk2⟩ := decade hs hlo hhi
  have hlt := ofDigits_lt hs.digits
  have hlt17 : ofDigits ds < 10 ^ 17 := Nat.lt_of_lt_of_le hlt (Nat.pow_le_pow_right (by omega) hlen)
  have hne : ds ≠ [] := by
    obtain ⟨d, more, rfl, _⟩ := hs.head; simp
  rw [reread, hp, Option.bind_some, hN.reading,
    F64.ofText_layout s ds k hs.digits hne (by omega) (by omega) (by omega)]
  by_cases h1 : 0 ≤ k ∧ ds.length + k ≤ 16
  · rw [if_pos h1]
    have hid := identifies_shift (k.toNat + 1) hs.identifies
    rw [show k - ((k.toNat + 1 : Nat) : Int) = -((1 : Nat) : Int) by omega] at hid
    refine F64.fromParts_error (j := 1) ?_ (by omega) (by omega) hid hlo
    calc ofDigits ds * 10 ^ (k.toNat + 1) < 10 ^ ds.length * 10 ^ (k.toNat + 1) :=
          Nat.mul_lt_mul_of_pos_right hlt (Nat.pow_pos (by omega))
      _ = 10 ^ (ds.length + (k.toNat + 1)) := (Nat.pow_add _ _ _).symm
      _ ≤ 10 ^ 16 := Nat.pow_le_pow_right (by omega) (by omega)
      _ < 2 ^ 64 := by decide
  · rw [if_neg h1]
    have hid := hs.identifies
    rw [show k = -((-k).toNat : Int) by omega] at hid ⊢
    exact F64.fromParts_error (by omega) (by omega) (by omega) hid hlo

theorem reread_zero {N : NumText F64} (hN : SerdeDoubles N) (s : Bool) : reread N (.num s 0) = some (.num s 0) := by
  rw [reread, hN.zero, Option.bind_some, hN.reading]
  have := F64.fromParts_exact (s := s) (m := 0) (j := 0) (k := -1) (n := 0) (by decide) (by omega) (by omega) (by
    unfold Identifies
    rw [Nat.zero_mul, Nat.zero_mul, Nat.zero_mul]
    exact (F64.roundMag_exact (m := 0) (k := 0) (by decide) (by decide) (by simp)).trans (by simp)) (by
      rw [F64.limit_eq]; exact Nat.pow_pos (by omega))
  exact this

theorem reread_notFinite {N : NumText F64} (hN : SerdeDoubles N) : reread N .nan = none ∧ ∀ s, reread N (.inf s) = none :=
  ⟨by rw [reread, hN.notFinite.1]; rfl, fun s => by rw [reread, hN.notFinite.2]; rfl⟩

end Tokengeex

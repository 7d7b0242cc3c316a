import Verif.Spec.Float64
import Verif.Spec.Segmentation
import Verif.Spec.Lattice
import Verif.Spec.Training
/-
Rounding is correct and monotone; the order and addition of doubles satisfy the laws the optimality theorems need.
-/
namespace Tokengeex
open Spec
namespace F64

theorem limitExp_eq : limitExp = 2098 := by rw [limitExp]

theorem limit_eq : limit = 2 ^ limitExp := rfl

theorem add_num (s t : Bool) (n m : Nat) : add (num s n) (num t m) =
    if s = t then round s (n + m) 1
    else if n = m then num false 0
    else if m < n then round s (n - m) 1
    else round t (m - n) 1 := rfl

/-! ### Rounding a quotient to an integer -/

theorem roundDiv_cases {a b : Nat} (hb : 0 < b) :
    (roundDiv a b = a / b ∧ 2 * (a % b) ≤ b ∧ (2 * (a % b) = b → a / b % 2 = 0)) ∨
    (roundDiv a b = a / b + 1 ∧ b ≤ 2 * (a % b) ∧ (2 * (a % b) = b → (a / b + 1) % 2 = 0)) := by
  have := Nat.mod_lt a hb
  unfold roundDiv
  by_cases h1 : 2 * (a % b) < b
  · rw [if_pos h1]; left; exact ⟨rfl, by omega, by omega⟩
  · rw [if_neg h1]
    by_cases h2 : b < 2 * (a % b)
    · rw [if_pos h2]; right; exact ⟨rfl, by omega, by omega⟩
    · rw [if_neg h2]
      rcases Nat.mod_two_eq_zero_or_one (a / b) with h3 | h3
      · left; exact ⟨by omega, by omega, fun _ => h3⟩
      · right; exact ⟨by omega, by omega, by omega⟩

/-- No integer is closer, and of two equally close ones the even one is chosen. -/
theorem roundDiv_nearest {a b : Nat} (hb : 0 < b) (z : Nat) :
    ((a : Int) - roundDiv a b * b).natAbs ≤ ((a : Int) - z * b).natAbs ∧
    (((a : Int) - roundDiv a b * b).natAbs = ((a : Int) - z * b).natAbs → z ≠ roundDiv a b → roundDiv a b % 2 = 0) := by
  have hr := Nat.mod_lt a hb
  have hdiv : a / b * b + a % b = a := Nat.div_add_mod' a b
  generalize hq : a / b = q at *
  generalize hr' : a % b = r at *
  have hcast : ∀ x : Nat, ((x : Int) * b) = ((x * b : Nat) : Int) := fun x => (Int.natCast_mul x b).symm
  rw [hcast, hcast]
  have hz : z ≤ q - 1 ∧ 1 ≤ q ∨ z = q ∨ z = q + 1 ∨ q + 2 ≤ z := by omega
  have hzb : z ≤ q - 1 ∧ 1 ≤ q → z * b + b ≤ q * b := by
    rintro ⟨h, h'⟩
    have := Nat.mul_le_mul_right b (show z + 1 ≤ q by omega)
    rwa [Nat.add_mul, Nat.one_mul] at this
  have hzb' : q + 2 ≤ z → q * b + 2 * b ≤ z * b := by
    intro h
    have := Nat.mul_le_mul_right b h
    rwa [Nat.add_mul] at this
  have hq1 : (q + 1) * b = q * b + b := by rw [Nat.add_mul, Nat.one_mul]
  rcases roundDiv_cases (a := a) hb with ⟨h1, h2, h3⟩ | ⟨h1, h2, h3⟩ <;> rw [hq, hr'] at * <;> rw [h1]
  · rcases hz with hz | rfl | rfl | hz
    · have := hzb hz; constructor <;> omega
    · constructor
      · omega
      · intro _ h; exact absurd rfl h
    · rw [hq1]; constructor <;> omega
    · have := hzb' hz; constructor <;> omega
  · rw [hq1]
    rcases hz with hz | rfl | rfl | hz
    · have := hzb hz; constructor <;> omega
    · constructor <;> omega
    · rw [hq1]
      constructor
      · omega
      · intro _ h; exact absurd rfl h
    · have := hzb' hz; constructor <;> omega

theorem roundDiv_le {a b z : Nat} (hb : 0 < b) (h : a ≤ z * b) : roundDiv a b ≤ z := by
  have hr := Nat.mod_lt a hb
  have hdiv : a / b * b + a % b = a := Nat.div_add_mod' a b
  by_cases h1 : a / b + 1 ≤ z
  · rcases roundDiv_cases (a := a) hb with ⟨h2, _, _⟩ | ⟨h2, _, _⟩ <;> omega
  · have hq : a / b ≤ z := by
      apply Nat.div_le_of_le_mul; rw [Nat.mul_comm]; exact h
    have hz : z = a / b := by omega
    subst hz
    have : a % b = 0 := by omega
    rcases roundDiv_cases (a := a) hb with ⟨h2, _, _⟩ | ⟨h2, h3, _⟩ <;> omega

theorem le_roundDiv {a b z : Nat} (hb : 0 < b) (h : z * b ≤ a) : z ≤ roundDiv a b := by
  have : z ≤ a / b := (Nat.le_div_iff_mul_le hb).2 h
  rcases roundDiv_cases (a := a) hb with ⟨h2, _, _⟩ | ⟨h2, _, _⟩ <;> omega

theorem div_mono {a b a' b' : Nat} (hb : 0 < b) (hb' : 0 < b') (h : a * b' ≤ a' * b) : a / b ≤ a' / b' := by
  rw [Nat.le_div_iff_mul_le hb']
  apply Nat.le_of_mul_le_mul_right _ hb
  calc a / b * b' * b = a / b * b * b' := by rw [Nat.mul_right_comm]
    _ ≤ a * b' := Nat.mul_le_mul_right b' (Nat.div_mul_le_self a b)
    _ ≤ a' * b := h

theorem roundDiv_mono {a b a' b' : Nat} (hb : 0 < b) (hb' : 0 < b') (h : a * b' ≤ a' * b) :
    roundDiv a b ≤ roundDiv a' b' := by
  have hq := div_mono hb hb' h
  rcases Nat.lt_or_ge (a / b) (a' / b') with hlt | hge
  · rcases roundDiv_cases (a := a) hb with ⟨h2, _, _⟩ | ⟨h2, _, _⟩ <;>
      rcases roundDiv_cases (a := a') hb' with ⟨h3, _, _⟩ | ⟨h3, _, _⟩ <;> omega
  · have he : a' / b' = a / b := by omega
    have hdiv : a / b * b + a % b = a := Nat.div_add_mod' a b
    have hdiv' : a' / b' * b' + a' % b' = a' := Nat.div_add_mod' a' b'
    rw [he] at hdiv'
    -- the remainders are in the same order as the quotients
    have hr : a % b * b' ≤ a' % b' * b := by
      have e1 : a * b' = a / b * b * b' + a % b * b' := by rw [← Nat.add_mul, hdiv]
      have e2 : a' * b = a / b * b' * b + a' % b' * b := by rw [← Nat.add_mul, hdiv']
      have e3 : a / b * b' * b = a / b * b * b' := Nat.mul_right_comm _ _ _
      omega
    rcases roundDiv_cases (a := a') hb' with ⟨h3, h4, h5⟩ | ⟨h3, _, _⟩
    · rw [he] at h3 h5
      rw [h3]
      rcases roundDiv_cases (a := a) hb with ⟨h6, _, _⟩ | ⟨h6, h7, h8⟩
      · omega
      · -- then both are halfway
        have h9 : b * b' ≤ 2 * (a % b) * b' := Nat.mul_le_mul_right b' h7
        have h10 : 2 * (a' % b') * b ≤ b' * b := Nat.mul_le_mul_right b h4
        have h11 : 2 * (a % b) * b' = 2 * (a % b * b') := Nat.mul_assoc _ _ _
        have h12 : 2 * (a' % b') * b = 2 * (a' % b' * b) := Nat.mul_assoc _ _ _
        have h13 : b' * b = b * b' := Nat.mul_comm _ _
        have h14 : 2 * (a % b) * b' = b * b' := by omega
        have h15 : 2 * (a' % b') * b = b' * b := by omega
        have h16 := Nat.eq_of_mul_eq_mul_right hb' h14
        have h17 := Nat.eq_of_mul_eq_mul_right hb h15
        have := h5 h17
        have := h8 h16
        omega
    · rcases roundDiv_cases (a := a) hb with ⟨h6, _, _⟩ | ⟨h6, _, _⟩ <;> omega

/-! ### Rounding to 53 significant bits -/

theorem lt_spacing (n d : Nat) (hd : 0 < d) : n < 2 ^ 53 * (d * 2 ^ spacing n d) := by
  have h1 : n / d < 2 ^ (53 + spacing n d) := by
    apply Nat.lt_of_lt_of_le (Nat.lt_log2_self)
    apply Nat.pow_le_pow_right (by omega)
    unfold spacing; omega
  have h2 : n < 2 ^ (53 + spacing n d) * d := (Nat.div_lt_iff_lt_mul hd).1 h1
  calc n < 2 ^ (53 + spacing n d) * d := h2
    _ = 2 ^ 53 * (d * 2 ^ spacing n d) := by rw [Nat.pow_add, Nat.mul_assoc, Nat.mul_comm d]

theorem spacing_le (n d : Nat) (hd : 0 < d) (hk : spacing n d ≠ 0) : 2 ^ 52 * (d * 2 ^ spacing n d) ≤ n := by
  have hk' : 52 + spacing n d ≤ Nat.log2 (n / d) := by unfold spacing at *; omega
  have hne : n / d ≠ 0 := by
    intro h
    unfold spacing at hk
    rw [h] at hk
    exact hk (by decide)
  have h1 : 2 ^ (52 + spacing n d) ≤ n / d := (Nat.le_log2 hne).1 hk'
  have h2 := (Nat.le_div_iff_mul_le hd).1 h1
  calc 2 ^ 52 * (d * 2 ^ spacing n d) = 2 ^ (52 + spacing n d) * d := by
        rw [Nat.pow_add, Nat.mul_assoc, Nat.mul_comm d]
    _ ≤ n := h2

theorem mul_pow_pos {d : Nat} (hd : 0 < d) (k : Nat) : 0 < d * 2 ^ k := Nat.mul_pos hd (Nat.pow_pos (by omega))

theorem significand_le (n d : Nat) (hd : 0 < d) : roundDiv n (d * 2 ^ spacing n d) ≤ 2 ^ 53 :=
  roundDiv_le (mul_pow_pos hd _) (Nat.le_of_lt (lt_spacing n d hd))

theorem le_significand (n d : Nat) (hd : 0 < d) (hk : spacing n d ≠ 0) : 2 ^ 52 ≤ roundDiv n (d * 2 ^ spacing n d) :=
  le_roundDiv (mul_pow_pos hd _) (spacing_le n d hd hk)

theorem roundMag_nearest (n d : Nat) (hd : 0 < d) : Nearest n d (roundMag n d) := by
  refine ⟨roundDiv n (d * 2 ^ spacing n d), spacing n d, rfl, significand_le n d hd, ?_, ?_⟩
  · by_cases hk : spacing n d = 0
    · exact .inl hk
    · exact .inr (le_significand n d hd hk)
  · intro m j hm
    have hB := mul_pow_pos hd (spacing n d)
    generalize hk : spacing n d = k at *
    generalize hq : roundDiv n (d * 2 ^ k) = q at *
    have hv : roundMag n d = q * 2 ^ k := by unfold roundMag; rw [hk, hq]
    have e1 : ∀ z : Nat, ((z * 2 ^ k : Nat) : Int) * d = z * (d * 2 ^ k : Nat) := by
      intro z
      rw [← Int.natCast_mul, ← Int.natCast_mul, Nat.mul_assoc, Nat.mul_comm (2 ^ k)]
    have near := fun z => hq ▸ roundDiv_nearest (a := n) hB z
    rw [hv, e1]
    rcases Nat.lt_or_ge j k with hj | hj
    · have hk0 : k ≠ 0 := by omega
      have h1 := hk ▸ spacing_le n d hd (by rw [hk]; exact hk0)
      -- 2^52 * 2^k lies between the other number and n / d
      have h2 : m * 2 ^ j < 2 ^ 52 * 2 ^ k := by
        calc m * 2 ^ j < 2 ^ 53 * 2 ^ j := Nat.mul_lt_mul_of_pos_right hm (Nat.pow_pos (by omega))
          _ = 2 ^ 52 * 2 ^ (j + 1) := by rw [Nat.pow_succ 2 j, show (2 : Nat) ^ 53 = 2 ^ 52 * 2 from rfl]; omega
          _ ≤ 2 ^ 52 * 2 ^ k := Nat.mul_le_mul_left _ (Nat.pow_le_pow_right (by omega) hj)
      have h3 : m * 2 ^ j * d < 2 ^ 52 * (d * 2 ^ k) := by
        calc m * 2 ^ j * d < 2 ^ 52 * 2 ^ k * d := Nat.mul_lt_mul_of_pos_right h2 hd
          _ = 2 ^ 52 * (d * 2 ^ k) := by rw [Nat.mul_assoc, Nat.mul_comm d]
      have h4 := (near (2 ^ 52)).1
      rw [show ((2 ^ 52 : Nat) : Int) * (d * 2 ^ k : Nat) = ((2 ^ 52 * (d * 2 ^ k) : Nat) : Int) from
        (Int.natCast_mul _ _).symm] at h4
      have h5 : ((m * 2 ^ j : Nat) : Int) * d = ((m * 2 ^ j * d : Nat) : Int) := (Int.natCast_mul _ _).symm
      rw [h5]
      generalize 2 ^ 52 * (d * 2 ^ k) = A at *
      generalize m * 2 ^ j * d = C at *
      generalize (q : Int) * (d * 2 ^ k : Nat) = D at *
      constructor
      · omega
      · intro h; exfalso; omega
    · have h1 : m * 2 ^ j = m * 2 ^ (j - k) * 2 ^ k := by
        rw [Nat.mul_assoc, ← Nat.pow_add, show j - k + k = j by omega]
      rw [h1, e1]
      obtain ⟨h2, h3⟩ := near (m * 2 ^ (j - k))
      refine ⟨h2, fun h h' => h3 h ?_⟩
      intro h4
      exact h' (by rw [h4])

theorem spacing_mono {n d n' d' : Nat} (hd : 0 < d) (hd' : 0 < d') (h : n * d' ≤ n' * d) : spacing n d ≤ spacing n' d' := by
  have h1 := div_mono hd hd' h
  unfold spacing
  have h2 : Nat.log2 (n / d) ≤ Nat.log2 (n' / d') := by
    by_cases h0 : n / d = 0
    · rw [h0]; exact Nat.zero_le _
    · rw [Nat.le_log2 (by intro h; rw [h] at h1; exact h0 (Nat.le_zero.1 h1))]
      exact Nat.le_trans (Nat.log2_self_le h0) h1
  omega

theorem roundMag_mono {n d n' d' : Nat} (hd : 0 < d) (hd' : 0 < d') (h : n * d' ≤ n' * d) :
    roundMag n d ≤ roundMag n' d' := by
  have hs := spacing_mono hd hd' h
  rcases Nat.lt_or_ge (spacing n d) (spacing n' d') with hlt | hge
  · calc roundMag n d ≤ 2 ^ 53 * 2 ^ spacing n d := Nat.mul_le_mul_right _ (significand_le n d hd)
      _ = 2 ^ 52 * 2 ^ (spacing n d + 1) := by rw [Nat.pow_succ 2 (spacing n d), show (2 : Nat) ^ 53 = 2 ^ 52 * 2 from rfl]; omega
      _ ≤ 2 ^ 52 * 2 ^ spacing n' d' := Nat.mul_le_mul_left _ (Nat.pow_le_pow_right (by omega) hlt)
      _ ≤ roundMag n' d' := Nat.mul_le_mul_right _ (le_significand n' d' hd' (by omega))
  · have he : spacing n' d' = spacing n d := by omega
    unfold roundMag
    rw [he]
    refine Nat.mul_le_mul_right _ (roundDiv_mono (mul_pow_pos hd _) (mul_pow_pos hd' _) ?_)
    calc n * (d' * 2 ^ spacing n d) = n * d' * 2 ^ spacing n d := (Nat.mul_assoc _ _ _).symm
      _ ≤ n' * d * 2 ^ spacing n d := Nat.mul_le_mul_right _ h
      _ = n' * (d * 2 ^ spacing n d) := Nat.mul_assoc _ _ _

/-- A number with 53 significant bits is not changed. -/
theorem roundMag_exact {n d m k : Nat} (hd : 0 < d) (hm : m < 2 ^ 53) (h : n = m * 2 ^ k * d) : roundMag n d = m * 2 ^ k := by
  obtain ⟨q, j, hv, _, _, hn⟩ := roundMag_nearest n d hd
  have h1 := (hn m k hm).1
  have h2 : (n : Int) - (m * 2 ^ k : Nat) * d = 0 := by rw [h, Int.natCast_mul]; omega
  rw [h2] at h1
  have h3 : (n : Int) - roundMag n d * d = 0 := by
    have : ((n : Int) - roundMag n d * d).natAbs ≤ 0 := by simpa using h1
    omega
  have h4 : n = roundMag n d * d := by
    have := Int.natCast_mul (roundMag n d) d
    omega
  rw [h] at h4 ⊢
  exact (Nat.eq_of_mul_eq_mul_right hd h4).symm

theorem roundMag_double {n : Nat} (h : IsDouble n) : roundMag n 1 = n := by
  obtain ⟨m, k, hm, _, rfl⟩ := h
  exact roundMag_exact (by omega) hm (by rw [Nat.mul_one])

/-- What is below the limit after rounding is a double. -/
theorem isDouble_roundMag {n d : Nat} (hd : 0 < d) (h : roundMag n d < limit) : IsDouble (roundMag n d) := by
  obtain ⟨q, k, hv, hq, hk, _⟩ := roundMag_nearest n d hd
  have hpow : ∀ j, 2046 ≤ j → limit ≤ 2 ^ 52 * 2 ^ j := by
    intro j hj
    rw [← Nat.pow_add, limit_eq]
    exact Nat.pow_le_pow_right (by omega) (by rw [limitExp_eq]; omega)
  rw [hv] at h ⊢
  rcases Nat.lt_or_ge q (2 ^ 53) with hlt | hge
  · refine ⟨q, k, hlt, ?_, rfl⟩
    rcases hk with rfl | hk
    · omega
    · apply Decidable.byContradiction
      intro hk'
      have h1 := hpow k (by omega)
      have h2 : 2 ^ 52 * 2 ^ k ≤ q * 2 ^ k := Nat.mul_le_mul_right _ hk
      omega
  · have hq' : q = 2 ^ 53 := by omega
    subst hq'
    have e : (2 : Nat) ^ 53 * 2 ^ k = 2 ^ 52 * 2 ^ (k + 1) := by
      rw [Nat.pow_succ 2 k, show (2 : Nat) ^ 53 = 2 ^ 52 * 2 from rfl]; omega
    refine ⟨2 ^ 52, k + 1, by decide, ?_, e⟩
    apply Decidable.byContradiction
    intro hk'
    have h1 := hpow (k + 1) (by omega)
    omega

theorem isF64_round (s : Bool) (n : Nat) {d : Nat} (hd : 0 < d) : IsF64 (round s n d) := by
  unfold round
  by_cases h : roundMag n d < limit
  · rw [if_pos h]; exact isDouble_roundMag hd h
  · rw [if_neg h]; trivial

theorem isF64_add {x y : F64} : IsF64 (add x y) := by
  cases x with
  | nan => cases y <;> trivial
  | inf s =>
    cases y with
    | nan => trivial
    | inf t => unfold add; by_cases h : s = t <;> simp [h, IsF64]
    | num t m => trivial
  | num s n =>
    cases y with
    | nan => trivial
    | inf t => trivial
    | num t m =>
      rw [add_num]
      by_cases h1 : s = t
      · rw [if_pos h1]; exact isF64_round _ _ (by omega)
      · rw [if_neg h1]
        by_cases h2 : n = m
        · rw [if_pos h2]; exact ⟨0, 0, by decide, by omega, by simp⟩
        · rw [if_neg h2]
          by_cases h3 : m < n
          · rw [if_pos h3]; exact isF64_round _ _ (by omega)
          · rw [if_neg h3]; exact isF64_round _ _ (by omega)

/-! ### Addition is monotone -/

/-- A rounded magnitude, with infinity at the limit. -/
def capped (n : Nat) : Nat := min (roundMag n 1) limit

theorem capped_mono {n m : Nat} (h : n ≤ m) : capped n ≤ capped m := by
  have := roundMag_mono (n := n) (n' := m) (d := 1) (d' := 1) (by omega) (by omega) (by omega)
  unfold capped
  omega

theorem capped_zero : capped 0 = 0 := by
  have : roundMag 0 1 = 0 := roundMag_double ⟨0, 0, by decide, by omega, by simp⟩
  unfold capped
  rw [this]
  exact Nat.zero_min _

/-- The position of a rounded sum. -/
def keyOfSum (s : Int) : Int := if s < 0 then -(capped s.natAbs : Int) else capped s.natAbs

theorem keyOfSum_mono {a b : Int} (h : a ≤ b) : keyOfSum a ≤ keyOfSum b := by
  unfold keyOfSum
  by_cases ha : a < 0
  · rw [if_pos ha]
    by_cases hb : b < 0
    · rw [if_pos hb]
      have := capped_mono (show b.natAbs ≤ a.natAbs by omega)
      omega
    · rw [if_neg hb]; omega
  · rw [if_neg ha, if_neg (by omega)]
    have := capped_mono (show a.natAbs ≤ b.natAbs by omega)
    omega

theorem key_round (s : Bool) (n : Nat) : (round s n 1).key = if s then -(capped n : Int) else capped n := by
  unfold round capped
  by_cases h : roundMag n 1 < limit
  · rw [if_pos h, Nat.min_eq_left (Nat.le_of_lt h)]; rfl
  · rw [if_neg h, Nat.min_eq_right (by omega)]; rfl

theorem round_cases (s : Bool) (n d : Nat) : round s n d = num s (roundMag n d) ∨ round s n d = inf s := by
  unfold round
  by_cases h : roundMag n d < limit
  · exact .inl (if_pos h)
  · exact .inr (if_neg h)

theorem round_ne_nan (s : Bool) (n d : Nat) : round s n d ≠ nan := by
  unfold round
  by_cases h : roundMag n d < limit
  · rw [if_pos h]; simp
  · rw [if_neg h]; simp

theorem add_num_ne_nan (s t : Bool) (n m : Nat) : add (num s n) (num t m) ≠ nan := by
  rw [add_num]
  by_cases h1 : s = t
  · rw [if_pos h1]; exact round_ne_nan _ _ _
  · rw [if_neg h1]
    by_cases h2 : n = m
    · rw [if_pos h2]; simp
    · rw [if_neg h2]
      by_cases h3 : m < n
      · rw [if_pos h3]; exact round_ne_nan _ _ _
      · rw [if_neg h3]; exact round_ne_nan _ _ _

theorem key_add (s t : Bool) (n m : Nat) :
    (add (num s n) (num t m)).key = keyOfSum ((num s n).key + (num t m).key) := by
  have hz : ∀ a : Nat, a = 0 → capped a = 0 := fun a h => by rw [h]; exact capped_zero
  rw [add_num]
  by_cases h1 : s = t
  · subst h1
    rw [if_pos rfl, key_round]
    unfold keyOfSum key
    cases s with
    | true =>
      simp only [if_true]
      have e : (-(n : Int) + -(m : Int)).natAbs = n + m := by omega
      rw [e]
      by_cases h : -(n : Int) + -(m : Int) < 0
      · rw [if_pos h]
      · rw [if_neg h, hz (n + m) (by omega)]; rfl
    | false =>
      simp only [Bool.false_eq_true, if_false]
      rw [if_neg (by omega), show ((n : Int) + m).natAbs = n + m by omega]
  · rw [if_neg h1]
    by_cases h2 : n = m
    · rw [if_pos h2]
      subst h2
      have : (num s n).key + (num t n).key = 0 := by
        unfold key
        cases s <;> cases t <;> simp_all <;> omega
      rw [this]
      simp [keyOfSum, key, capped_zero]
    · rw [if_neg h2]
      by_cases h3 : m < n
      · rw [if_pos h3, key_round]
        unfold keyOfSum key
        cases s <;> cases t <;> simp only [Bool.false_eq_true, if_false, if_true] at *
        · exact absurd trivial h1
        · rw [if_neg (by omega), show ((n : Int) + -(m : Int)).natAbs = n - m by omega]
        · rw [if_pos (by omega), show (-(n : Int) + (m : Int)).natAbs = n - m by omega]
        · exact absurd trivial h1
      · rw [if_neg h3, key_round]
        unfold keyOfSum key
        cases s <;> cases t <;> simp only [Bool.false_eq_true, if_false, if_true] at *
        · exact absurd trivial h1
        · rw [if_pos (by omega), show ((n : Int) + -(m : Int)).natAbs = m - n by omega]
        · rw [if_neg (by omega), show (-(n : Int) + (m : Int)).natAbs = m - n by omega]
        · exact absurd trivial h1

theorem keyOfSum_bounds (s : Int) : -(limit : Int) ≤ keyOfSum s ∧ keyOfSum s ≤ limit := by
  unfold keyOfSum capped
  by_cases h : s < 0
  · rw [if_pos h]; omega
  · rw [if_neg h]; omega

theorem limit_pos : 0 < limit := by rw [limit_eq]; exact Nat.pow_pos (by omega)

/-! ### The laws -/

theorem lt_false {x y : F64} (hx : x ≠ nan) (hy : y ≠ nan) : lt x y = false ↔ y.key ≤ x.key := by
  unfold lt
  simp only [ne_eq, hx, hy, not_false_eq_true, true_and, decide_eq_false_iff_not, Int.not_lt]

theorem lt_true {x y : F64} (hx : x ≠ nan) (hy : y ≠ nan) : lt x y = true ↔ x.key < y.key := by
  unfold lt
  simp only [ne_eq, hx, hy, not_false_eq_true, true_and, decide_eq_true_eq]

theorem le_true {x y : F64} (hx : x ≠ nan) (hy : y ≠ nan) : le x y = true ↔ x.key ≤ y.key := by
  unfold le
  simp only [ne_eq, hx, hy, not_false_eq_true, true_and, decide_eq_true_eq]

/-- A non-positive double is minus infinity or finite. -/
theorem nonPositive_cases {x : F64} (h : NonPositive x) :
    x = inf true ∨ ∃ s n, x = num s n ∧ (num s n).key ≤ 0 := by
  obtain ⟨h1, h2⟩ := h
  cases x with
  | nan => exact absurd rfl h1
  | inf s =>
    cases s with
    | true => exact .inl rfl
    | false =>
      have := limit_pos
      simp only [key, Bool.false_eq_true, if_false] at h2
      omega
  | num s n => exact .inr ⟨s, n, rfl, h2⟩

theorem keyOfSum_nonpos {a : Int} (h : a ≤ 0) : keyOfSum a ≤ 0 := by
  have := keyOfSum_mono h
  have h0 : keyOfSum 0 = 0 := by unfold keyOfSum; rw [if_neg (by omega)]; exact congrArg Int.ofNat capped_zero
  omega

theorem nonPositive_add {x y : F64} (hx : NonPositive x) (hy : NonPositive y) : NonPositive (add x y) := by
  have hinf : NonPositive (inf true) := ⟨by simp, by simp [key]⟩
  rcases nonPositive_cases hx with rfl | ⟨s, n, rfl, h1⟩
  · rcases nonPositive_cases hy with rfl | ⟨t, m, rfl, _⟩ <;> exact hinf
  · rcases nonPositive_cases hy with rfl | ⟨t, m, rfl, h2⟩
    · exact hinf
    · refine ⟨add_num_ne_nan _ _ _ _, ?_⟩
      rw [key_add]
      exact keyOfSum_nonpos (by omega)

theorem add_mono {x y z : F64} (hx : NonPositive x) (hy : NonPositive y) (hz : NonPositive z) (h : x.key ≤ y.key)
    (hxd : IsF64 x) (hyd : IsF64 y) : (add x z).key ≤ (add y z).key := by
  have hlow : ∀ w, NonPositive w → IsF64 w → -(limit : Int) ≤ w.key := by
    intro w hw hd
    rcases nonPositive_cases hw with rfl | ⟨s, n, rfl, _⟩
    · simp [key]
    · obtain ⟨m, k, hm, hk, hn⟩ := hd
      have : n < limit := by
        rw [hn]
        calc m * 2 ^ k < 2 ^ 53 * 2 ^ k := Nat.mul_lt_mul_of_pos_right hm (Nat.pow_pos (by omega))
          _ = 2 ^ (53 + k) := by rw [Nat.pow_add]
          _ ≤ limit := by rw [limit_eq]; exact Nat.pow_le_pow_right (by omega) (by rw [limitExp_eq]; omega)
      unfold key
      cases s <;> simp <;> omega
  have hstrict : ∀ s n, IsF64 (num s n) → -(limit : Int) < (num s n).key := by
    intro s n hd
    obtain ⟨m, k, hm, hk, hn⟩ := hd
    have : n < limit := by
      rw [hn]
      calc m * 2 ^ k < 2 ^ 53 * 2 ^ k := Nat.mul_lt_mul_of_pos_right hm (Nat.pow_pos (by omega))
        _ = 2 ^ (53 + k) := by rw [Nat.pow_add]
        _ ≤ limit := by rw [limit_eq]; exact Nat.pow_le_pow_right (by omega) (by rw [limitExp_eq]; omega)
    unfold key
    cases s <;> simp <;> omega
  rcases nonPositive_cases hx with rfl | ⟨s, n, rfl, h1⟩
  · have e : add (inf true) z = inf true := by
      rcases nonPositive_cases hz with rfl | ⟨t, m, rfl, _⟩ <;> rfl
    rw [e]
    exact hlow _ (nonPositive_add hy hz) isF64_add
  · rcases nonPositive_cases hy with rfl | ⟨t, m, rfl, h2⟩
    · have := hstrict s n hxd
      simp only [key, if_true] at h this
      omega
    · rcases nonPositive_cases hz with rfl | ⟨u, o, rfl, h3⟩
      · exact Int.le_refl _
      · rw [key_add, key_add]
        exact keyOfSum_mono (by omega)

/-- What the optimality theorems need. -/
def Good (x : F64) : Prop := IsF64 x ∧ NonPositive x

theorem scoreLaws : ScoreLaws F64 Good Good where
  zero_good := ⟨⟨0, 0, by decide, by omega, by simp⟩, by simp [ScoreOps.zero], by simp [ScoreOps.zero, key]⟩
  zero_tok := ⟨⟨0, 0, by decide, by omega, by simp⟩, by simp [ScoreOps.zero], by simp [ScoreOps.zero, key]⟩
  add_good := fun ha hb => ⟨isF64_add, nonPositive_add ha.2 hb.2⟩
  irrefl := fun ha => (lt_false ha.2.1 ha.2.1).2 (Int.le_refl _)
  trans := fun ha hb hc h1 h2 => by
    have h1 := (lt_false ha.2.1 hb.2.1).1 h1
    have h2 := (lt_false hb.2.1 hc.2.1).1 h2
    exact (lt_false ha.2.1 hc.2.1).2 (by omega)
  asymm := fun ha hb h => by
    have h := (lt_true ha.2.1 hb.2.1).1 h
    exact (lt_false hb.2.1 ha.2.1).2 (by omega)
  add_mono := fun {a b c} ha hb hc h => by
    have h := (lt_false ha.2.1 hb.2.1).1 h
    exact (lt_false (nonPositive_add ha.2 hc.2).1 (nonPositive_add hb.2 hc.2).1).2
      (add_mono hb.2 ha.2 hc.2 h hb.1 ha.1)

/-- What the totals are when all scores are finite: not NaN. -/
def Total (x : F64) : Prop := IsF64 x ∧ x ≠ nan

theorem isDouble_lt {n : Nat} (h : IsDouble n) : n < limit := by
  obtain ⟨m, k, hm, hk, hn⟩ := h
  rw [hn]
  calc m * 2 ^ k < 2 ^ 53 * 2 ^ k := Nat.mul_lt_mul_of_pos_right hm (Nat.pow_pos (by omega))
    _ = 2 ^ (53 + k) := by rw [Nat.pow_add]
    _ ≤ limit := by rw [limit_eq]; exact Nat.pow_le_pow_right (by omega) (by rw [limitExp_eq]; omega)

theorem key_bounds {x : F64} (h : IsF64 x) : -(limit : Int) ≤ x.key ∧ x.key ≤ limit := by
  cases x with
  | nan => simp [key]
  | inf s => cases s <;> simp [key] <;> omega
  | num s n =>
    have := isDouble_lt h
    cases s <;> simp [key] <;> omega

theorem total_add {x y : F64} (hx : Total x) (hy : Finite y) : Total (add x y) := by
  refine ⟨isF64_add, ?_⟩
  cases y with
  | nan => exact hy.elim
  | inf s => exact hy.elim
  | num t m =>
    cases x with
    | nan => exact absurd rfl hx.2
    | inf s => simp [add]
    | num s n => exact add_num_ne_nan _ _ _ _

theorem add_mono_finite {x y z : F64} (hx : Total x) (hy : Total y) (hz : Finite z) (h : x.key ≤ y.key) :
    (add x z).key ≤ (add y z).key := by
  cases z with
  | nan => exact hz.elim
  | inf s => exact hz.elim
  | num u o =>
    have hL := limit_pos
    have bx := key_bounds (isF64_add (x := x) (y := num u o))
    have bY := key_bounds (isF64_add (x := y) (y := num u o))
    cases x with
    | nan => exact absurd rfl hx.2
    | inf s =>
      cases s with
      | true => show -(limit : Int) ≤ _; exact bY.1
      | false =>
        cases y with
        | nan => exact absurd rfl hy.2
        | inf t =>
          cases t with
          | true => simp [key] at h; omega
          | false => exact Int.le_refl _
        | num t m =>
          have := isDouble_lt hy.1
          cases t <;> simp [key] at h <;> omega
    | num s n =>
      cases y with
      | nan => exact absurd rfl hy.2
      | inf t =>
        cases t with
        | false => show _ ≤ (limit : Int); exact bx.2
        | true =>
          have := isDouble_lt hx.1
          cases s <;> simp [key] at h <;> omega
      | num t m =>
        rw [key_add, key_add]
        exact keyOfSum_mono (by omega)

theorem finiteLaws : ScoreLaws F64 Total Finite where
  zero_good := ⟨⟨0, 0, by decide, by omega, by simp⟩, by simp [ScoreOps.zero]⟩
  zero_tok := ⟨0, 0, by decide, by omega, by simp⟩
  add_good := fun ha hb => total_add ha hb
  irrefl := fun ha => (lt_false ha.2 ha.2).2 (Int.le_refl _)
  trans := fun ha hb hc h1 h2 => by
    have h1 := (lt_false ha.2 hb.2).1 h1
    have h2 := (lt_false hb.2 hc.2).1 h2
    exact (lt_false ha.2 hc.2).2 (by omega)
  asymm := fun ha hb h => by
    have h := (lt_true ha.2 hb.2).1 h
    exact (lt_false hb.2 ha.2).2 (by omega)
  add_mono := fun {a b c} ha hb hc h => by
    have h := (lt_false ha.2 hb.2).1 h
    exact (lt_false (total_add ha hc).2 (total_add hb hc).2).2 (add_mono_finite hb ha hc h)

theorem key_add_zero {x : F64} (h : Total x) : (add x (num false 0)).key = x.key ∧ add x (num false 0) ≠ nan := by
  rcases show (∃ s, x = inf s) ∨ ∃ s n, x = num s n by
      cases x with
      | nan => exact absurd rfl h.2
      | inf s => exact .inl ⟨s, rfl⟩
      | num s n => exact .inr ⟨s, n, rfl⟩ with ⟨s, rfl⟩ | ⟨s, n, rfl⟩
  · exact ⟨rfl, by simp [add]⟩
  · refine ⟨?_, add_num_ne_nan _ _ _ _⟩
    rw [key_add]
    have h0 : (num false 0).key = 0 := rfl
    rw [h0, Int.add_zero]
    have hd : IsDouble n := h.1
    have hc : capped n = n := by
      unfold capped
      rw [roundMag_double hd]
      obtain ⟨m, k, hm, hk, hn⟩ := hd
      have : n < limit := by
        rw [hn]
        calc m * 2 ^ k < 2 ^ 53 * 2 ^ k := Nat.mul_lt_mul_of_pos_right hm (Nat.pow_pos (by omega))
          _ = 2 ^ (53 + k) := by rw [Nat.pow_add]
          _ ≤ limit := by rw [limit_eq]; exact Nat.pow_le_pow_right (by omega) (by rw [limitExp_eq]; omega)
      omega
    unfold keyOfSum key
    cases s with
    | true =>
      simp only [if_true]
      rw [show (-(n : Int)).natAbs = n by omega, hc]
      by_cases hn : -(n : Int) < 0
      · rw [if_pos hn]
      · rw [if_neg hn]; omega
    | false =>
      simp only [Bool.false_eq_true, if_false]
      rw [if_neg (by omega), show (n : Int).natAbs = n by omega, hc]

theorem zeroNeutral : ZeroNeutral F64 Total := by
  intro a b ha hb
  obtain ⟨h1, h2⟩ := key_add_zero ha
  obtain ⟨h3, h4⟩ := key_add_zero hb
  show lt (add a (num false 0)) (add b (num false 0)) = lt a b
  unfold lt
  simp only [ne_eq, h2, h4, ha.2, hb.2, h1, h3]

theorem Good.total {x : F64} (h : Good x) : Total x := ⟨h.1, h.2.1⟩

theorem orderLaws : OrderLaws F64 (fun x => x ≠ nan) where
  total := fun {a b} ha hb => by
    show le a b = true ∨ le b a = true
    rw [le_true ha hb, le_true hb ha]
    omega
  trans := fun {a b c} ha hb hc h1 h2 => by
    have h1 := (le_true ha hb).1 h1
    have h2 := (le_true hb hc).1 h2
    exact (le_true ha hc).2 (by omega)
  lt_eq := fun {a b} ha hb => by
    show lt a b = !le b a
    unfold lt le
    simp only [ne_eq, ha, hb, not_false_eq_true, true_and]
    by_cases h : a.key < b.key
    · rw [decide_eq_true h, decide_eq_false (by omega)]; rfl
    · rw [decide_eq_false h, decide_eq_true (by omega)]; rfl

end F64
end Tokengeex

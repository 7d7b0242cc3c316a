import Verif.Proofs.Reread
/-
Every finite score is written as a text that is read, and what is read is finite.
-/
namespace Tokengeex
open Spec

namespace F64

theorem isZero_iff {x : F64} : isZero x = true ↔ ∃ s, x = num s 0 := by
  cases x with
  | nan => simp [isZero]
  | inf s => simp [isZero]
  | num s n => simp [isZero]

theorem finite_neg {x : F64} (h : Finite x) : Finite (neg x) := by
  cases x with
  | nan => exact h.elim
  | inf s => exact h.elim
  | num s n => exact h

theorem finite_round {s : Bool} {n d : Nat} (hd : 0 < d) (h : isInfinite (round s n d) = false) : Finite (round s n d) := by
  have h1 := isF64_round s n hd
  cases hr : round s n d with
  | nan => exact absurd hr (round_ne_nan s n d)
  | inf t => rw [hr] at h; exact absurd h (by simp [isInfinite])
  | num t m => rw [hr] at h1; exact h1

theorem finite_round_of_le {s : Bool} {n d m : Nat} (hd : 0 < d) (hm : IsDouble m) (h : n ≤ m * d) : Finite (round s n d) := by
  have h1 : roundMag n d ≤ m := by
    rw [← roundMag_double hm]
    exact roundMag_mono hd (by omega) (by rw [Nat.mul_one]; exact h)
  have h2 : roundMag n d < limit := Nat.lt_of_le_of_lt h1 (isDouble_lt hm)
  rw [round, if_pos h2]
  exact isDouble_roundMag hd h2

theorem isDouble_pow {k : Nat} (hk : k ≤ 2045) : IsDouble (2 ^ k) := ⟨1, k, by decide, hk, by rw [Nat.one_mul]⟩

theorem finite_ofNat {n : Nat} (h : n < 2 ^ 64) : ∃ m, ofNat n = num false m ∧ IsDouble m := by
  have : Finite (ofNat n) := by
    refine finite_round_of_le (m := 2 ^ (64 + 1074)) (by omega) (isDouble_pow (by omega)) ?_
    rw [Nat.mul_one, Nat.pow_add]
    exact Nat.mul_le_mul_right _ (Nat.le_of_lt h)
  rcases round_cases false (n * 2 ^ 1074) 1 with h1 | h1
  · rw [ofNat, h1] at this ⊢
    exact ⟨_, rfl, this⟩
  · rw [ofNat, h1] at this
    exact this.elim

theorem pow308_lt : roundMag (10 ^ 308 * 2 ^ 1074) 1 < limit := by decide +kernel

theorem pow10_num {k : Nat} (hk : k ≤ 308) : pow10 k = num false (roundMag (10 ^ k * 2 ^ 1074) 1) := by
  refine round_of rfl (Nat.lt_of_le_of_lt ?_ pow308_lt)
  refine roundMag_mono (by omega) (by omega) ?_
  rw [Nat.mul_one, Nat.mul_one]
  exact Nat.mul_le_mul_right _ (Nat.pow_le_pow_right (by omega) hk)

theorem le_pow10 (k : Nat) : 2 ^ 1074 ≤ roundMag (10 ^ k * 2 ^ 1074) 1 := by
  have h : roundMag (2 ^ 1074) 1 = 2 ^ 1074 := roundMag_pow 1074
  refine Nat.le_trans (Nat.le_of_eq h.symm) (roundMag_mono (by omega) (by omega) ?_)
  rw [Nat.mul_one, Nat.mul_one]
  exact Nat.le_mul_of_pos_left _ (Nat.pow_pos (by omega))

theorem finite_div_pow10 {x : F64} (h : Finite x) {k : Nat} (hk : k ≤ 308) : Finite (div x (pow10 k)) := by
  cases x with
  | nan => exact h.elim
  | inf s => exact h.elim
  | num s n =>
    have h1 := le_pow10 k
    have hU : 0 < 2 ^ 1074 := Nat.pow_pos (by omega)
    have h2 := Nat.lt_of_lt_of_le hU h1
    rw [pow10_num hk, div_num _ _ _ _ (Nat.ne_of_gt h2)]
    exact finite_round_of_le h2 h (Nat.mul_le_mul_left _ h1)

theorem finite_scaleDown {x : F64} (h : Finite x) (e : Nat) : Finite (scaleDown x e) := by
  induction e using Nat.strongRecOn generalizing x with
  | ind e ih =>
    rw [scaleDown]
    by_cases h1 : e ≤ 308
    · rw [if_pos h1]; exact finite_div_pow10 h h1
    · rw [if_neg h1]
      by_cases h2 : isZero x = true
      · rw [if_pos h2]; exact h
      · rw [if_neg h2]; exact ih (e - 308) (by omega) (finite_div_pow10 h (Nat.le_refl 308))

theorem fromParts_finite {s : Bool} {m : Nat} {k : Int} {y : F64} (hm : m < 2 ^ 64) (h : fromParts s m k = some y) : Finite y := by
  obtain ⟨f, hf, hd⟩ := finite_ofNat hm
  have hfin : Finite (ofNat m) := by rw [hf]; exact hd
  have hsign : ∀ x, Finite x → Finite (if s then neg x else x) := by
    intro x hx
    cases s with
    | false => exact hx
    | true => exact finite_neg hx
  unfold fromParts at h
  simp only at h
  by_cases h0 : 0 ≤ k
  · rw [if_pos h0] at h
    by_cases h1 : k ≤ 308
    · rw [if_pos h1] at h
      by_cases h2 : isInfinite (mul (ofNat m) (pow10 k.toNat)) = true
      · rw [if_pos h2] at h; simp at h
      · rw [if_neg h2] at h
        injection h with h
        subst h
        apply hsign
        rw [hf, pow10_num (by omega), mul_num] at h2 ⊢
        exact finite_round (Nat.pow_pos (by omega)) (by simpa using h2)
    · rw [if_neg h1] at h
      by_cases h2 : isZero (ofNat m) = true
      · rw [if_pos h2] at h
        injection h with h
        subst h
        exact hsign _ hfin
      · rw [if_neg h2] at h; simp at h
  · rw [if_neg h0] at h
    injection h with h
    subst h
    exact hsign _ (finite_scaleDown hfin _)

theorem takeInt_lt (ds : List Nat) : ∀ sig, sig < 2 ^ 64 → (takeInt sig ds).1 < 2 ^ 64 := by
  induction ds with
  | nil => exact fun _ h => h
  | cons d ds ih =>
    intro sig h
    rw [takeInt]
    by_cases h1 : 2 ^ 64 ≤ sig * 10 + d
    · rw [if_pos h1]; exact h
    · rw [if_neg h1]; exact ih _ (by omega)

theorem takeFrac_lt (ds : List Nat) : ∀ sig, sig < 2 ^ 64 → (takeFrac sig ds).1 < 2 ^ 64 := by
  induction ds with
  | nil => exact fun _ h => h
  | cons d ds ih =>
    intro sig h
    rw [takeFrac]
    by_cases h1 : 2 ^ 64 ≤ sig * 10 + d
    · rw [if_pos h1]; exact h
    · rw [if_neg h1]; exact ih _ (by omega)

theorem finite_zero (s : Bool) : Finite (num s 0) := ⟨0, 0, by decide, by omega, by simp⟩

theorem withExp_finite {s : Bool} {m : Nat} {start : Int} {exp : Option (Bool × List Nat)} {y : F64} (hm : m < 2 ^ 64)
    (h : withExp s m start exp = some y) : Finite y := by
  unfold withExp at h
  cases exp with
  | none => exact fromParts_finite hm h
  | some pd =>
    obtain ⟨positive, ds⟩ := pd
    simp only at h
    cases he : takeExp 0 ds with
    | none =>
      rw [he] at h
      simp only at h
      by_cases h1 : m ≠ 0 ∧ positive = true
      · rw [if_pos h1] at h; simp at h
      · rw [if_neg h1] at h
        injection h with h
        subst h
        exact finite_zero s
    | some e =>
      rw [he] at h
      exact fromParts_finite hm h

/-- Whatever is read is finite. -/
theorem ofText_finite {t : NumTok} {y : F64} (h : ofText t = some y) : Finite y := by
  unfold ofText at h
  have h1 := takeInt_lt t.int 0 (by decide)
  simp only at h
  cases hf : t.frac with
  | none =>
    rw [hf] at h
    simp only at h
    by_cases h2 : t.exp = none ∧ (takeInt 0 t.int).2 = 0
    · rw [if_pos h2] at h
      injection h with h
      subst h
      obtain ⟨f, e, hd⟩ := finite_ofNat h1
      rw [e]
      cases t.negative <;> exact hd
    · rw [if_neg h2] at h
      exact withExp_finite h1 h
  | some ds =>
    rw [hf] at h
    exact withExp_finite (takeFrac_lt ds _ h1) h

/-! ### The largest numbers -/

/-- A bound on the digits of a double whose exponent is `k`. -/
def topDigits (k : Nat) : Nat := if k < 292 then 10 ^ 17 else if k = 292 then 17976931348623157 else 2 ^ 1024 / 10 ^ k

theorem top_products : ∀ i < 18,
    roundMag (roundMag (topDigits (291 + i) * 2 ^ 1074) 1 * roundMag (10 ^ (291 + i) * 2 ^ 1074) 1) (2 ^ 1074) < limit := by
  decide +kernel

theorem top_product (k : Nat) (hk : k < 309) :
    roundMag (roundMag (topDigits k * 2 ^ 1074) 1 * roundMag (10 ^ k * 2 ^ 1074) 1) (2 ^ 1074) < limit := by
  by_cases h : k ≤ 291
  · have hU : 0 < 2 ^ 1074 := Nat.pow_pos (by omega)
    refine Nat.lt_of_le_of_lt (roundMag_mono hU hU (Nat.mul_le_mul_right _ (Nat.mul_le_mul ?_ ?_))) (top_products 0 (by omega))
    · rw [topDigits, topDigits, if_pos (by omega), if_pos (by omega)]
    · refine roundMag_mono (by omega) (by omega) ?_
      rw [Nat.mul_one, Nat.mul_one]
      exact Nat.mul_le_mul_right _ (Nat.pow_le_pow_right (by omega) h)
  · have := top_products (k - 291) (by omega)
    rwa [show 291 + (k - 291) = k by omega] at this

theorem top_nexts : ∀ i < 16, limit ≤ roundMag ((topDigits (293 + i) + 1) * 10 ^ (293 + i) * 2 ^ 1074) 1 := by
  decide +kernel

theorem top_next (k : Nat) (hk : k < 309) (h : 293 ≤ k) : limit ≤ roundMag ((topDigits k + 1) * 10 ^ k * 2 ^ 1074) 1 := by
  have := top_nexts (k - 293) (by omega)
  rwa [show 293 + (k - 293) = k by omega] at this

theorem top_second : limit ≤ roundMag (17976931348623159 * 10 ^ 292 * 2 ^ 1074) 1 := by decide +kernel

theorem top_third : limit ≤ roundMag (1 * 10 ^ 309 * 2 ^ 1074) 1 := by decide +kernel

theorem fromParts_top {s : Bool} {D k : Nat} (hk : k < 309) (hD : D ≤ topDigits k) (hD' : D < 2 ^ 64) :
    ∃ y, fromParts s D (k : Int) = some y := by
  obtain ⟨f, hf, hd⟩ := finite_ofNat hD'
  have hf' : f = roundMag (D * 2 ^ 1074) 1 := by
    have h1 : ofNat D = num false f := hf
    rcases round_cases false (D * 2 ^ 1074) 1 with h | h
    · rw [ofNat, h] at h1
      injection h1 with _ h1
      exact h1.symm
    · rw [ofNat, h] at h1; simp at h1
  have hle : f ≤ roundMag (topDigits k * 2 ^ 1074) 1 := by
    rw [hf']
    refine roundMag_mono (by omega) (by omega) ?_
    rw [Nat.mul_one, Nat.mul_one]
    exact Nat.mul_le_mul_right _ hD
  have hU : 0 < 2 ^ 1074 := Nat.pow_pos (by omega)
  have h2 : roundMag (f * roundMag (10 ^ k * 2 ^ 1074) 1) (2 ^ 1074) < limit := by
    refine Nat.lt_of_le_of_lt (roundMag_mono hU hU ?_) (top_product k hk)
    exact Nat.mul_le_mul_right _ (Nat.mul_le_mul_right _ hle)
  unfold fromParts
  simp only
  rw [if_pos (by omega), if_pos (by omega), show (k : Int).toNat = k by omega, hf, pow10_num (by omega), mul_num,
    round_of rfl h2, if_neg (by simp [isInfinite])]
  exact ⟨_, rfl⟩

end F64

theorem identifies_lt {D D' k n : Nat} (h : Identifies D (k : Int) n) (hn : n < F64.limit)
    (h' : F64.limit ≤ F64.roundMag (D' * 10 ^ k * 2 ^ 1074) 1) : D < D' := by
  apply Decidable.byContradiction
  intro hlt
  have h1 := le_identifies (a := D' * 10 ^ k) (b := 1) h (by omega) (by
    rw [show (-(k : Int)).toNat = 0 by omega, show (k : Int).toNat = k by omega, Nat.pow_zero, Nat.mul_one, Nat.mul_one]
    exact Nat.mul_le_mul_right _ (Nat.not_lt.1 hlt))
  exact absurd (Nat.le_trans h' h1) (Nat.not_le.2 hn)

theorem identifies_iff {D k n : Nat} : Identifies D (k : Int) n ↔ F64.roundMag (D * 10 ^ k * 2 ^ 1074) 1 = n := by
  unfold Identifies
  rw [show (-(k : Int)).toNat = 0 by omega, show (k : Int).toNat = k by omega, Nat.pow_zero]

theorem asClose_iff {D D' k k' n : Nat} : AsClose n D (k : Int) D' (k' : Int) ↔
    ((D * 10 ^ k * 2 ^ 1074 : Nat) - (n : Nat) : Int).natAbs ≤ ((D' * 10 ^ k' * 2 ^ 1074 : Nat) - (n : Nat) : Int).natAbs := by
  unfold AsClose
  rw [show (-(k : Int)).toNat = 0 by omega, show (k : Int).toNat = k by omega, show (-(k' : Int)).toNat = 0 by omega,
    show (k' : Int).toNat = k' by omega, Nat.pow_zero, Nat.mul_one, Nat.mul_one, Nat.mul_one]

/-- Of the two digit strings that identify the largest double, the closer one is taken. -/
theorem shortest_top {n k : Nat} {ds : List Nat} (hs : Shortest n ds (k : Int)) (hk : k = 292)
    (hD : ofDigits ds = 17976931348623158) : False := by
  have hlen : ds.length = 17 := by
    have h1 := ofDigits_lt hs.digits
    obtain ⟨d, more, rfl, h0⟩ := hs.head
    have h2 : 10 ^ more.length ≤ ofDigits (d :: more) := le_ofDigits h0
    rw [hD] at h1 h2
    rw [List.length_cons] at h1 ⊢
    apply Decidable.byContradiction
    intro hne
    rcases Nat.lt_or_gt_of_ne hne with h | h
    · have := Nat.lt_of_lt_of_le h1 (Nat.pow_le_pow_right (n := 10) (by omega) (show more.length + 1 ≤ 16 by omega))
      omega
    · have := Nat.le_trans (Nat.pow_le_pow_right (n := 10) (by omega) (show 17 ≤ more.length by omega)) h2
      omega
  have hid := hs.identifies
  rw [hD, identifies_iff] at hid
  have hid' : Identifies 17976931348623157 (k : Int) n := by
    rw [identifies_iff, ← hid, hk]
    decide +kernel
  have h := hs.closest (decimal 17976931348623157) k (decimal_digits _).1 (by rw [ofDigits_decimal]; exact hid') (by
    rw [hlen]; decide +kernel)
  rw [hD, ofDigits_decimal, asClose_iff, ← hid, hk] at h
  revert h
  decide +kernel

/-- Every finite score is written as a text that is read. -/
theorem reread_finite {N : NumText F64} (hN : SerdeDoubles N) {x : F64} (hx : Finite x) :
    ∃ y, reread N x = some y ∧ Finite y := by
  cases x with
  | nan => exact hx.elim
  | inf s => exact hx.elim
  | num s n =>
    by_cases hn0 : n = 0
    · subst hn0; exact ⟨_, reread_zero hN s, hx⟩
    suffices h : ∃ y, reread N (.num s n) = some y by
      obtain ⟨y, h⟩ := h
      refine ⟨y, h, ?_⟩
      unfold reread at h
      obtain ⟨t, _, ht⟩ := Option.bind_eq_some_iff.1 h
      rw [hN.reading] at ht
      exact F64.ofText_finite ht
    have hlim := F64.isDouble_lt hx
    obtain ⟨ds, k, hs, hp⟩ := hN.finite s n hn0 hx
    obtain ⟨ds', k', hd', hl', hi'⟩ := seventeen hx hn0
    have hlen := Nat.le_trans (hs.minimal ds' k' hd' hi') hl'
    have hlt := ofDigits_lt hs.digits
    have hlt17 : ofDigits ds < 10 ^ 17 := Nat.lt_of_lt_of_le hlt (Nat.pow_le_pow_right (by omega) hlen)
    have hne : ds ≠ [] := by
      obtain ⟨d, more, rfl, _⟩ := hs.head; simp
    have hlow := identifies_exp hn0 hlt17 hs.identifies
    have hD1 : 1 ≤ ofDigits ds := Nat.pos_of_ne_zero (identifies_pos hn0 hs.identifies)
    have hhigh : k < 309 := by
      apply Decidable.byContradiction
      intro hge
      have h1 := le_identifies (a := 1 * 10 ^ 309) (b := 1) hs.identifies (by omega) (by
        rw [show (-k).toNat = 0 by omega, Nat.pow_zero, Nat.mul_one, Nat.mul_one]
        exact Nat.mul_le_mul hD1 (Nat.pow_le_pow_right (by omega) (by omega)))
      exact absurd (Nat.le_trans F64.top_third h1) (Nat.not_le.2 hlim)
    rw [reread, hp, Option.bind_some, hN.reading,
      F64.ofText_layout s ds k hs.digits hne (by omega) (by omega) (by omega)]
    by_cases h1 : 0 ≤ k ∧ ds.length + k ≤ 16
    · rw [if_pos h1]
      exact ⟨_, rfl⟩
    · rw [if_neg h1]
      by_cases h0 : 0 ≤ k
      · obtain ⟨j, rfl⟩ : ∃ j : Nat, k = j := ⟨k.toNat, by omega⟩
        refine F64.fromParts_top (by omega) ?_ (by omega)
        by_cases h2 : j < 292
        · rw [F64.topDigits, if_pos h2]; omega
        · by_cases h3 : j = 292
          · have h4 := identifies_lt hs.identifies hlim (D' := 17976931348623159) (by rw [h3]; exact F64.top_second)
            have h5 : ofDigits ds ≠ 17976931348623158 := shortest_top hs h3
            rw [F64.topDigits, if_neg h2, if_pos h3]
            omega
          · have := identifies_lt hs.identifies hlim (F64.top_next j (by omega) (by omega))
            omega
      · unfold F64.fromParts
        simp only
        rw [if_neg h0]
        exact ⟨_, rfl⟩

/-- A score has a text that is read exactly if it is finite. -/
theorem reread_some_iff {N : NumText F64} (hN : SerdeDoubles N) (x : F64) : (∃ y, reread N x = some y) ↔ Finite x := by
  constructor
  · rintro ⟨y, h⟩
    cases x with
    | nan => rw [(reread_notFinite hN).1] at h; simp at h
    | inf s => rw [(reread_notFinite hN).2] at h; simp at h
    | num s n =>
      by_cases hno : IsF64 (.num s n)
      · exact hno
      · rw [reread, hN.other _ hno] at h
        simp at h
  · intro h
    obtain ⟨y, h1, _⟩ := reread_finite hN h
    exact ⟨y, h1⟩

end Tokengeex

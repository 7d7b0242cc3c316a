import Mathlib.Tactic.Ring
import Verif.Spec.Number64
import Verif.Spec.Serde
import Verif.Proofs.Float64
import Verif.Proofs.IntNumbers
/-
Printing doubles with the fewest digits and reading them back.
-/
namespace Tokengeex
open Spec

/-! ### Digits -/

theorem foldl_digits (ds : List Nat) (a : Nat) :
    ds.foldl (fun a d => 10 * a + d) a = a * 10 ^ ds.length + ofDigits ds := by
  induction ds generalizing a with
  | nil => simp [ofDigits]
  | cons d ds ih =>
    unfold ofDigits
    rw [List.foldl_cons, List.foldl_cons, ih, ih (10 * 0 + d), List.length_cons, Nat.pow_succ]
    have : (10 * a + d) * 10 ^ ds.length = a * (10 ^ ds.length * 10) + (10 * 0 + d) * 10 ^ ds.length := by ring
    omega

theorem ofDigits_cons (d : Nat) (ds : List Nat) : ofDigits (d :: ds) = d * 10 ^ ds.length + ofDigits ds := by
  rw [ofDigits, List.foldl_cons, foldl_digits]
  simp

theorem ofDigits_append (xs ys : List Nat) : ofDigits (xs ++ ys) = ofDigits xs * 10 ^ ys.length + ofDigits ys := by
  rw [ofDigits, List.foldl_append, foldl_digits]
  rfl

theorem ofDigits_zeros (k : Nat) : ofDigits (List.replicate k 0) = 0 := by
  induction k with
  | zero => rfl
  | succ k ih => rw [List.replicate_succ, ofDigits_cons, ih]; simp

theorem ofDigits_lt {ds : List Nat} (h : ∀ d ∈ ds, d < 10) : ofDigits ds < 10 ^ ds.length := by
  induction ds with
  | nil => decide
  | cons d ds ih =>
    have h1 := ih fun x hx => h x (by simp [hx])
    have h2 := h d (by simp)
    rw [ofDigits_cons, List.length_cons, Nat.pow_succ]
    have : d * 10 ^ ds.length ≤ 9 * 10 ^ ds.length := Nat.mul_le_mul_right _ (by omega)
    omega

theorem le_ofDigits {d : Nat} {ds : List Nat} (h : d ≠ 0) : 10 ^ ds.length ≤ ofDigits (d :: ds) := by
  rw [ofDigits_cons]
  have : 1 * 10 ^ ds.length ≤ d * 10 ^ ds.length := Nat.mul_le_mul_right _ (by omega)
  omega

namespace F64

theorem takeInt_eq (ds : List Nat) (sig : Nat) (h : sig * 10 ^ ds.length + ofDigits ds < 2 ^ 64) :
    takeInt sig ds = (sig * 10 ^ ds.length + ofDigits ds, 0) := by
  induction ds generalizing sig with
  | nil => simp [takeInt, ofDigits]
  | cons d ds ih =>
    have e : sig * 10 ^ (d :: ds).length + ofDigits (d :: ds) = (sig * 10 + d) * 10 ^ ds.length + ofDigits ds := by
      rw [ofDigits_cons, List.length_cons, Nat.pow_succ]; ring
    rw [e] at h ⊢
    have hp : 0 < 10 ^ ds.length := Nat.pow_pos (by omega)
    have : sig * 10 + d ≤ (sig * 10 + d) * 10 ^ ds.length := Nat.le_mul_of_pos_right _ hp
    rw [takeInt, if_neg (by omega), ih _ h]

theorem takeFrac_eq (ds : List Nat) (sig : Nat) (h : sig * 10 ^ ds.length + ofDigits ds < 2 ^ 64) :
    takeFrac sig ds = (sig * 10 ^ ds.length + ofDigits ds, ds.length) := by
  induction ds generalizing sig with
  | nil => simp [takeFrac, ofDigits]
  | cons d ds ih =>
    have e : sig * 10 ^ (d :: ds).length + ofDigits (d :: ds) = (sig * 10 + d) * 10 ^ ds.length + ofDigits ds := by
      rw [ofDigits_cons, List.length_cons, Nat.pow_succ]; ring
    rw [e] at h ⊢
    have hp : 0 < 10 ^ ds.length := Nat.pow_pos (by omega)
    have : sig * 10 + d ≤ (sig * 10 + d) * 10 ^ ds.length := Nat.le_mul_of_pos_right _ hp
    rw [takeFrac, if_neg (by omega), ih _ h, List.length_cons]

theorem takeExp_eq (ds : List Nat) (acc : Nat) (h : acc * 10 ^ ds.length + ofDigits ds < 2 ^ 31) :
    takeExp acc ds = some (acc * 10 ^ ds.length + ofDigits ds) := by
  induction ds generalizing acc with
  | nil => simp [takeExp, ofDigits]
  | cons d ds ih =>
    have e : acc * 10 ^ (d :: ds).length + ofDigits (d :: ds) = (acc * 10 + d) * 10 ^ ds.length + ofDigits ds := by
      rw [ofDigits_cons, List.length_cons, Nat.pow_succ]; ring
    rw [e] at h ⊢
    have hp : 0 < 10 ^ ds.length := Nat.pow_pos (by omega)
    have : acc * 10 + d ≤ (acc * 10 + d) * 10 ^ ds.length := Nat.le_mul_of_pos_right _ hp
    rw [takeExp, if_neg (by omega), ih _ h]

theorem takeExp_decimal {e : Nat} (h : e < 2 ^ 31) : takeExp 0 (decimal e) = some e := by
  have h1 : ofDigits (decimal e) = e := (decimal_digits e).2.2.2
  rw [takeExp_eq _ _ (by rw [h1]; omega), h1]
  simp

/-- Reading what was laid out: the digits and the exponent come back, except that whole numbers come back as tenths. -/
theorem ofText_layout (s : Bool) (ds : List Nat) (k : Int) (hd : ∀ d ∈ ds, d < 10) (hne : ds ≠ [])
    (hlt : ofDigits ds < 2 ^ 64) (hk : -1000000 < k ∧ k < 1000000) (hlen : ds.length < 1000000) :
    ofText (layout s ds k) =
      if 0 ≤ k ∧ ds.length + k ≤ 16 then fromParts s (ofDigits ds * 10 ^ (k.toNat + 1)) (-1)
      else fromParts s (ofDigits ds) k := by
  have hlen0 : 0 < ds.length := List.length_pos_iff.2 hne
  unfold layout
  by_cases h1 : 0 ≤ k ∧ ds.length + k ≤ 16
  · simp only [if_pos h1]
    have hb : ofDigits ds < 10 ^ ds.length := ofDigits_lt hd
    have e1 : ofDigits (ds ++ List.replicate k.toNat 0) = ofDigits ds * 10 ^ k.toNat := by
      rw [ofDigits_append, ofDigits_zeros, List.length_replicate]; rfl
    have hb2 : ofDigits ds * 10 ^ (k.toNat + 1) < 10 ^ 17 := by
      calc ofDigits ds * 10 ^ (k.toNat + 1) < 10 ^ ds.length * 10 ^ (k.toNat + 1) :=
            Nat.mul_lt_mul_of_pos_right hb (Nat.pow_pos (by omega))
        _ = 10 ^ (ds.length + (k.toNat + 1)) := (Nat.pow_add _ _ _).symm
        _ ≤ 10 ^ 17 := Nat.pow_le_pow_right (by omega) (by omega)
    have hb3 : ofDigits ds * 10 ^ k.toNat < 10 ^ 16 := by
      have : ofDigits ds * 10 ^ (k.toNat + 1) = ofDigits ds * 10 ^ k.toNat * 10 := by rw [Nat.pow_succ, Nat.mul_assoc]
      omega
    unfold ofText
    simp only
    rw [takeInt_eq _ _ (by rw [e1]; omega), e1]
    simp only [Nat.zero_mul, Nat.zero_add]
    have e2 : ofDigits ds * 10 ^ k.toNat * 10 ^ [0].length + ofDigits [0] = ofDigits ds * 10 ^ (k.toNat + 1) := by
      rw [show ofDigits [0] = 0 from rfl, List.length_singleton, Nat.pow_succ 10 k.toNat, Nat.pow_one, Nat.mul_assoc, Nat.add_zero]
    rw [takeFrac_eq _ _ (by omega), e2]
    simp only [List.length_singleton, withExp]
    rfl
  · simp only [if_neg h1]
    by_cases h2 : 0 < (ds.length : Int) + k ∧ ds.length + k ≤ 16
    · simp only [if_pos h2]
      have hsum := ofDigits_append (ds.take (ds.length + k).toNat) (ds.drop (ds.length + k).toNat)
      rw [List.take_append_drop] at hsum
      have hle : ofDigits (ds.take (ds.length + k).toNat) < 2 ^ 64 := by
        have : 0 < 10 ^ (ds.drop (ds.length + k).toNat).length := Nat.pow_pos (by omega)
        have := Nat.le_mul_of_pos_right (ofDigits (ds.take (ds.length + k).toNat)) this
        omega
      unfold ofText
      simp only
      rw [takeInt_eq _ _ (by omega)]
      simp only [Nat.zero_mul, Nat.zero_add]
      rw [takeFrac_eq _ _ (by omega), ← hsum, List.length_drop]
      simp only [withExp]
      congr 1
      omega
    · simp only [if_neg h2]
      by_cases h3 : -5 < (ds.length : Int) + k ∧ (ds.length : Int) + k ≤ 0
      · simp only [if_pos h3]
        have e1 : ofDigits (List.replicate (-((ds.length : Int) + k)).toNat 0 ++ ds) = ofDigits ds := by
          rw [ofDigits_append, ofDigits_zeros, Nat.zero_mul, Nat.zero_add]
        unfold ofText
        simp only
        rw [takeInt_eq _ _ (by decide)]
        simp only [show (0 : Nat) * 10 ^ [0].length + ofDigits [0] = 0 from rfl]
        rw [takeFrac_eq _ _ (by rw [e1]; omega), e1, List.length_append, List.length_replicate]
        simp only [withExp]
        rw [Nat.zero_mul, Nat.zero_add]
        congr 1
        omega
      · simp only [if_neg h3]
        have hsat : ∀ x y : Int, -3000000 < x → x < 3000000 → x = y → saturate x = y := by
          rintro x y h h' rfl; unfold saturate; omega
        have hexp : ∀ (start : Int), start = -((ds.length : Int) - 1) →
            withExp s (ofDigits ds) start (some (expPart (ds.length + k - 1))) = fromParts s (ofDigits ds) k := by
          intro start hs
          unfold withExp expPart
          simp only
          rw [takeExp_decimal (by omega)]
          simp only
          congr 1
          by_cases h5 : 0 ≤ (ds.length : Int) + k - 1
          · rw [decide_eq_true h5, if_pos rfl]; exact hsat _ _ (by omega) (by omega) (by omega)
          · rw [decide_eq_false h5, if_neg (by simp)]; exact hsat _ _ (by omega) (by omega) (by omega)
        by_cases h4 : ds.length = 1
        · simp only [if_pos h4]
          unfold ofText
          simp only
          rw [takeInt_eq _ _ (by omega)]
          simp only [Nat.zero_mul, Nat.zero_add]
          rw [if_neg (by simp), hexp _ (by rw [h4]; simp)]
        · simp only [if_neg h4]
          have hsum := ofDigits_append (ds.take 1) (ds.drop 1)
          rw [List.take_append_drop] at hsum
          have hle : ofDigits (ds.take 1) < 2 ^ 64 := by
            have : 0 < 10 ^ (ds.drop 1).length := Nat.pow_pos (by omega)
            have := Nat.le_mul_of_pos_right (ofDigits (ds.take 1)) this
            omega
          unfold ofText
          simp only
          rw [takeInt_eq _ _ (by omega)]
          simp only [Nat.zero_mul, Nat.zero_add]
          rw [takeFrac_eq _ _ (by omega), ← hsum, List.length_drop]
          simp only
          exact hexp _ (by omega)

/-! ### Rounding -/

theorem roundMag_congr {n d n' d' : Nat} (hd : 0 < d) (hd' : 0 < d') (h : n * d' = n' * d) : roundMag n d = roundMag n' d' :=
  Nat.le_antisymm (roundMag_mono hd hd' (Nat.le_of_eq h)) (roundMag_mono hd' hd (Nat.le_of_eq h.symm))

theorem lt_limit {n k : Nat} (h : n < 2 ^ k) (hk : k ≤ 2098) : n < limit := by
  rw [limit_eq, limitExp_eq]
  exact Nat.lt_of_lt_of_le h (Nat.pow_le_pow_right (by omega) hk)

theorem ofNat_exact {m k : Nat} (hm : m < 2 ^ 53) (hk : k ≤ 900) : ofNat (m * 2 ^ k) = num false (m * 2 ^ k * 2 ^ 1074) := by
  have h1 : roundMag (m * 2 ^ k * 2 ^ 1074) 1 = m * 2 ^ k * 2 ^ 1074 := by
    rw [Nat.mul_assoc, ← Nat.pow_add]
    exact roundMag_exact (by omega) hm (by rw [Nat.mul_one])
  rw [ofNat, round, h1, if_pos]
  rw [Nat.mul_assoc, ← Nat.pow_add]
  apply lt_limit (k := 53 + (k + 1074)) _ (by omega)
  rw [Nat.pow_add 2 53]
  exact Nat.mul_lt_mul_of_pos_right hm (Nat.pow_pos (by omega))

theorem pow10_exact {k : Nat} (hk : k ≤ 22) : pow10 k = num false (10 ^ k * 2 ^ 1074) := by
  have e : 10 ^ k = 5 ^ k * 2 ^ k := by rw [← Nat.mul_pow]
  rw [pow10, e, ofNat_exact _ (by omega)]
  calc 5 ^ k ≤ 5 ^ 22 := Nat.pow_le_pow_right (by omega) hk
    _ < 2 ^ 53 := by decide

theorem mul_num (s t : Bool) (n m : Nat) : mul (num s n) (num t m) = round (s != t) (n * m) (2 ^ 1074) := rfl

theorem div_num (s t : Bool) (n m : Nat) (h : m ≠ 0) : div (num s n) (num t m) = round (s != t) (n * 2 ^ 1074) m := by
  show (if m = 0 then _ else _) = _
  rw [if_neg h]

theorem round_of {s : Bool} {n d v : Nat} (h : roundMag n d = v) (hv : v < limit) : round s n d = num s v := by
  rw [round, h, if_pos hv]

/-- The conversion is exact when the significand and the power of ten are doubles and their product or quotient is finite:
there is only one rounding. -/
theorem fromParts_exact {s : Bool} {m j : Nat} {k : Int} {n : Nat} (hm : m < 2 ^ 53) (hj : j ≤ 900) (hk : -22 ≤ k ∧ k ≤ 22)
    (hid : Identifies (m * 2 ^ j) k n) (hn : n < limit) : fromParts s (m * 2 ^ j) k = some (num s n) := by
  unfold Identifies at hid
  have hU : 0 < 2 ^ 1074 := Nat.pow_pos (by omega)
  unfold fromParts
  simp only
  rw [ofNat_exact hm hj]
  by_cases h0 : 0 ≤ k
  · rw [if_pos h0, if_pos (by omega), pow10_exact (by omega), mul_num]
    have : round (false != false) (m * 2 ^ j * 2 ^ 1074 * (10 ^ k.toNat * 2 ^ 1074)) (2 ^ 1074) = num false n := by
      refine round_of ?_ hn
      rw [← hid]
      refine roundMag_congr hU (Nat.pow_pos (by omega)) ?_
      rw [show (-k).toNat = 0 by omega]
      generalize 2 ^ 1074 = U
      ring
    rw [this]
    cases s <;> rfl
  · have hdown : ∀ f, scaleDown f k.natAbs = div f (pow10 k.natAbs) := by
      intro f; rw [scaleDown, if_pos (by omega)]
    rw [if_neg h0, hdown, pow10_exact (by omega), div_num _ _ _ _ (by
      exact Nat.ne_of_gt (Nat.mul_pos (Nat.pow_pos (by omega)) hU))]
    have : round (false != false) (m * 2 ^ j * 2 ^ 1074 * 2 ^ 1074) (10 ^ k.natAbs * 2 ^ 1074) = num false n := by
      refine round_of ?_ hn
      rw [← hid]
      refine roundMag_congr (Nat.mul_pos (Nat.pow_pos (by omega)) hU) (Nat.pow_pos (by omega)) ?_
      rw [show k.toNat = 0 by omega, show (-k).toNat = k.natAbs by omega]
      generalize 2 ^ 1074 = U
      ring
    rw [this]
    cases s <;> rfl

end F64
end Tokengeex

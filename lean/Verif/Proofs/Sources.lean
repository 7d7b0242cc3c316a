import Verif.Spec.Sources
import Verif.Proofs.Utf8
import Verif.Proofs.Number64
/-
Splitting, and the number of samples used.
-/
namespace Tokengeex
open Spec

theorem intercalate_cons_cons {α : Type} (sep : List α) (a b : List α) (l : List (List α)) :
    List.intercalate sep (a :: b :: l) = a ++ sep ++ List.intercalate sep (b :: l) := by
  simp [List.intercalate, List.intersperse]

theorem intercalate_single {α : Type} (sep a : List α) : List.intercalate sep [a] = a := by
  simp [List.intercalate, List.intersperse]

theorem splitOn_ne_nil {α : Type} (sep : α → Bool) (l : List α) : splitOn sep l ≠ [] := by
  cases l with
  | nil => simp [splitOn]
  | cons a l =>
    rw [splitOn]
    by_cases h : sep a = true
    · rw [if_pos h]; simp
    · rw [if_neg h]; split <;> simp

variable {α : Type} [BEq α] [LawfulBEq α]

theorem splitOn_no_sep (sep : α) (p : List α) (h : sep ∉ p) : splitOn (· == sep) p = [p] := by
  induction p with
  | nil => rfl
  | cons a p ih =>
    have ha : (a == sep) = false := by
      rw [beq_eq_false_iff_ne]
      rintro rfl
      exact h (List.mem_cons_self ..)
    rw [splitOn, ha, if_neg (by simp), ih fun hp => h (List.mem_cons_of_mem _ hp)]

theorem splitOn_append (sep : α) (p rest : List α) (h : sep ∉ p) :
    splitOn (· == sep) (p ++ sep :: rest) = p :: splitOn (· == sep) rest := by
  induction p with
  | nil => simp [splitOn]
  | cons a p ih =>
    have ha : (a == sep) = false := by
      rw [beq_eq_false_iff_ne]
      rintro rfl
      exact h (List.mem_cons_self ..)
    rw [List.cons_append, splitOn, ha, if_neg (by simp), ih fun hp => h (List.mem_cons_of_mem _ hp)]

theorem splitOn_parts (sep : α) (l : List α) : Parts sep l (splitOn (· == sep) l) := by
  refine ⟨splitOn_ne_nil _ _, ?_, ?_⟩
  · induction l with
    | nil => simp [splitOn]
    | cons a l ih =>
      intro part hp
      rw [splitOn] at hp
      by_cases h : (a == sep) = true
      · rw [if_pos h] at hp
        rcases List.mem_cons.1 hp with rfl | hp
        · simp
        · exact ih _ hp
      · rw [if_neg h] at hp
        have hne : sep ≠ a := by
          rintro rfl
          exact h (beq_self_eq_true _)
        cases hs : splitOn (· == sep) l with
        | nil => exact absurd hs (splitOn_ne_nil _ _)
        | cons p ps =>
          rw [hs] at hp ih
          rcases List.mem_cons.1 hp with rfl | hp
          · simp only [List.mem_cons, not_or]
            exact ⟨hne, ih p (List.mem_cons_self ..)⟩
          · exact ih part (List.mem_cons_of_mem _ hp)
  · induction l with
    | nil => simp [splitOn]
    | cons a l ih =>
      rw [splitOn]
      cases hs : splitOn (· == sep) l with
      | nil => exact absurd hs (splitOn_ne_nil _ _)
      | cons p ps =>
        rw [hs] at ih
        by_cases h : (a == sep) = true
        · rw [if_pos h, intercalate_cons_cons, ← ih]
          have : a = sep := by simpa using h
          simp [this]
        · rw [if_neg h]
          dsimp only
          cases ps with
          | nil => rw [intercalate_single] at ih ⊢; rw [ih]
          | cons q qs => rw [intercalate_cons_cons] at ih ⊢; rw [ih]; rfl

theorem splitOn_of_parts {sep : α} {l : List α} {parts : List (List α)} (h : Parts sep l parts) :
    splitOn (· == sep) l = parts := by
  obtain ⟨hne, hsep, rfl⟩ := h
  induction parts with
  | nil => exact absurd rfl hne
  | cons p ps ih =>
    cases ps with
    | nil => rw [intercalate_single]; exact splitOn_no_sep _ _ (hsep p (List.mem_cons_self ..))
    | cons q qs =>
      rw [intercalate_cons_cons, List.append_assoc, List.singleton_append, splitOn_append _ _ _ (hsep p (List.mem_cons_self ..)),
        ih (by simp) fun x hx => hsep x (List.mem_cons_of_mem _ hx)]

/-! ### Splitting bytes and splitting characters -/

theorem utf8EncodeChar_zero (c : Char) : (0 : UInt8) ∈ String.utf8EncodeChar c ↔ c = '\x00' := by
  constructor
  · intro h'
    have h0 : (0 : UInt8).toNat = 0 := rfl
    have : c.toNat = 0 := by
      rcases encodeChar_cases c with ⟨h, b', e, hb⟩ | ⟨h1, h2, b0, b1, e, hb0, hb1⟩ |
        ⟨h1, h2, b0, b1, b2, e, hb0, hb1, hb2⟩ | ⟨h1, b0, b1, b2, b3, e, hb0, hb1, hb2, hb3⟩ <;>
        rw [e] at h' <;> simp only [List.mem_cons, List.not_mem_nil, or_false] at h' <;>
        rcases h' with rfl | rfl | rfl | rfl <;> omega
    rw [← ofNat_toNat_char c, this]
  · rintro rfl; decide

theorem zero_mem_enc (s : Str) : (0 : UInt8) ∈ enc s ↔ '\x00' ∈ s := by
  unfold enc
  rw [List.mem_flatMap]
  constructor
  · rintro ⟨c, hc, h⟩
    rw [utf8EncodeChar_zero] at h
    exact h ▸ hc
  · intro h
    exact ⟨_, h, (utf8EncodeChar_zero _).2 rfl⟩

theorem enc_intercalate (parts : List Str) : enc (List.intercalate ['\x00'] parts) = List.intercalate [0] (parts.map enc) := by
  induction parts with
  | nil => rfl
  | cons p ps ih =>
    cases ps with
    | nil => simp
    | cons q qs =>
      rw [intercalate_cons_cons, enc_append, enc_append, ih, List.map_cons, List.map_cons, List.map_cons, intercalate_cons_cons]
      rfl

theorem parts_enc {text : Str} {parts : List Str} (h : Parts '\x00' text parts) : Parts 0 (enc text) (parts.map enc) := by
  obtain ⟨h1, h2, h3⟩ := h
  refine ⟨by simpa using h1, ?_, by rw [h3, enc_intercalate]⟩
  intro b hb
  obtain ⟨p, hp, rfl⟩ := List.mem_map.1 hb
  rw [zero_mem_enc]
  exact h2 p hp

theorem mapM_fromUtf8 (parts : List Str) : (parts.map enc).mapM fromUtf8 = some parts := by
  induction parts with
  | nil => rfl
  | cons p ps ih => rw [List.map_cons, List.mapM_cons, ih, fromUtf8_enc]; rfl

theorem mapM_fromUtf8_some {bs : List (List UInt8)} {parts : List Str} (h : bs.mapM fromUtf8 = some parts) :
    bs = parts.map enc := by
  induction bs generalizing parts with
  | nil => simp only [List.mapM_nil] at h; cases h; rfl
  | cons b bs ih =>
    rw [List.mapM_cons] at h
    cases hb : fromUtf8 b with
    | none => rw [hb] at h; cases h
    | some s =>
      rw [hb] at h
      cases hs : bs.mapM fromUtf8 with
      | none => rw [hs] at h; cases h
      | some ps =>
        rw [hs] at h
        cases h
        rw [List.map_cons, ← ih hs, fromUtf8_iff.1 hb]

namespace Source

theorem samplesOf_text {text : Str} {parts : List Str} (h : Parts '\x00' text parts) :
    samplesOf (enc text) = some (nonEmpty parts) := by
  unfold samplesOf
  rw [splitOn_of_parts (parts_enc h), mapM_fromUtf8, Option.map_some, nonEmpty]
  congr 2
  funext s
  cases s <;> simp

theorem samplesOf_invalid {contents : List UInt8} (h : ∀ text, contents ≠ enc text) : samplesOf contents = none := by
  unfold samplesOf
  cases hs : (splitOn (· == 0) contents).mapM fromUtf8 with
  | none => rfl
  | some parts =>
    exfalso
    have hp := splitOn_parts (0 : UInt8) contents
    rw [mapM_fromUtf8_some hs] at hp
    exact h (List.intercalate ['\x00'] parts) (by rw [enc_intercalate]; exact hp.2.2)

end Source

/-! ### The number of samples -/

namespace F64

theorem toUsize_num (n : Nat) : (num false n).toUsize = min (n / 2 ^ 1074) (2 ^ 64 - 1) := by
  rw [toUsize, if_neg (by decide)]

theorem roundMag_scaled (e n k : Nat) {a : Nat} (ha : a < 2 ^ 53) :
    (a * 2 ^ e ≤ n * k → a * 2 ^ e ≤ roundMag (n * 2 ^ e * k) (2 ^ e)) ∧
    (n * k ≤ a * 2 ^ e → roundMag (n * 2 ^ e * k) (2 ^ e) ≤ a * 2 ^ e) := by
  have hpos : 0 < 2 ^ e := Nat.pow_pos (by omega)
  have hexact : roundMag (a * 2 ^ e) 1 = a * 2 ^ e := roundMag_exact (m := a) (k := e) (by omega) ha (by rw [Nat.mul_one])
  have hx : n * 2 ^ e * k = n * k * 2 ^ e := by rw [Nat.mul_assoc, Nat.mul_comm (2 ^ e) k, Nat.mul_assoc]
  constructor
  · intro h
    have := roundMag_mono (n := a * 2 ^ e) (d := 1) (n' := n * 2 ^ e * k) (d' := 2 ^ e) (by omega) hpos (by
      rw [Nat.mul_one, hx]; exact Nat.mul_le_mul_right _ h)
    rwa [hexact] at this
  · intro h
    have := roundMag_mono (n := n * 2 ^ e * k) (d := 2 ^ e) (n' := a * 2 ^ e) (d' := 1) hpos (by omega) (by
      rw [Nat.mul_one, hx]; exact Nat.mul_le_mul_right _ h)
    rwa [hexact] at this

theorem lt_scaled (e : Nat) {r a c : Nat} (h : r ≤ a * 2 ^ e) (ha : a < 2 ^ c) : r < 2 ^ (c + e) := by
  rw [Nat.pow_add]
  exact Nat.lt_of_le_of_lt h (Nat.mul_lt_mul_of_pos_right ha (Nat.pow_pos (by omega)))

theorem div_scaled (e : Nat) {r a : Nat} (h : r ≤ a * 2 ^ e) : r / 2 ^ e ≤ a := by
  rw [← Nat.mul_div_cancel a (show 0 < 2 ^ e from Nat.pow_pos (by omega))]
  exact Nat.div_le_div_right h

theorem le_div_scaled (e : Nat) {r a : Nat} (h : a * 2 ^ e ≤ r) : a ≤ r / 2 ^ e :=
  (Nat.le_div_iff_mul_le (Nat.pow_pos (by omega))).2 h

end F64

namespace Source
open F64

theorem quota_num {n k : Nat} (hn : n < 2 ^ 53) : quota n (num false k) = (F64.round false (n * 2 ^ 1074 * k) (2 ^ 1074)).toUsize := by
  have h := ofNat_exact (m := n) (k := 0) hn (by omega)
  rw [Nat.pow_zero, Nat.mul_one] at h
  rw [quota, h, mul_num]
  rfl

theorem le_quota {n k a : Nat} (hn : n < 2 ^ 53) (ha : a < 2 ^ 53) (h : a * 2 ^ 1074 ≤ n * k) : a ≤ quota n (num false k) := by
  have := (roundMag_scaled 1074 n k ha).1 h
  rw [quota_num hn, F64.round]
  generalize roundMag (n * 2 ^ 1074 * k) (2 ^ 1074) = r at this ⊢
  by_cases hl : r < limit
  · rw [if_pos hl, toUsize_num]
    have h1 : a ≤ r / 2 ^ 1074 := le_div_scaled 1074 this
    generalize r / 2 ^ 1074 = q at h1 ⊢
    omega
  · rw [if_neg hl, toUsize, if_neg (by decide)]
    omega

theorem quota_le {n k a : Nat} (hn : n < 2 ^ 53) (ha : a < 2 ^ 53) (h : n * k ≤ a * 2 ^ 1074) : quota n (num false k) ≤ a := by
  have := (roundMag_scaled 1074 n k ha).2 h
  rw [quota_num hn, F64.round]
  generalize roundMag (n * 2 ^ 1074 * k) (2 ^ 1074) = r at this ⊢
  have hl : r < limit := by
    exact lt_limit (k := 53 + 1074) (lt_scaled 1074 this ha) (by omega)
  rw [if_pos hl, toUsize_num]
  have h1 : r / 2 ^ 1074 ≤ a := div_scaled 1074 this
  generalize r / 2 ^ 1074 = q at h1 ⊢
  omega

theorem ofNat_small {n : Nat} (hn : n < 2 ^ 53) : F64.ofNat n = num false (n * 2 ^ 1074) := by
  have h := ofNat_exact (m := n) (k := 0) hn (by omega)
  rwa [Nat.pow_zero, Nat.mul_one] at h

theorem quota_one {n : Nat} (hn : n < 2 ^ 53) : quota n (F64.ofNat 1) = n := by
  have h1 : F64.ofNat 1 = num false (1 * 2 ^ 1074) := ofNat_small (by decide)
  have h2 : n * (1 * 2 ^ 1074) = n * 2 ^ 1074 := by generalize 2 ^ 1074 = U; rw [Nat.one_mul]
  rw [h1]
  exact Nat.le_antisymm (quota_le hn hn (Nat.le_of_eq h2)) (le_quota hn hn (Nat.le_of_eq h2.symm))

theorem quota_neg (n : Nat) (hn : n < 2 ^ 53) (k : Nat) : quota n (num true k) = 0 := by
  have h := ofNat_exact (m := n) (k := 0) hn (by omega)
  rw [Nat.pow_zero, Nat.mul_one] at h
  rw [quota, h, mul_num, F64.round]
  by_cases hl : roundMag (n * 2 ^ 1074 * k) (2 ^ 1074) < limit
  · rw [if_pos hl]; rfl
  · rw [if_neg hl]; rfl

end Source
end Tokengeex

import Verif.Model.Utf8
/-
UTF-8: decoding inverts encoding, and strict decoding accepts exactly the encodings.
-/
namespace Tokengeex

theorem char_valid (c : Char) : c.toNat < 0xD800 ∨ (0xDFFF < c.toNat ∧ c.toNat < 0x110000) := c.valid

theorem ofNat_toNat_char (c : Char) : Char.ofNat c.toNat = c := by
  simp

theorem toNat_ofNat_char {n : Nat} (h : n < 0xD800 ∨ (0xDFFF < n ∧ n < 0x110000)) : (Char.ofNat n).toNat = n := by
  have hv : n.isValidChar := h
  rw [Char.ofNat, dif_pos hv]
  rfl

/-- Natural-number reading of the byte tests. -/
theorem isCont_iff {b : UInt8} : isCont b = true ↔ 128 ≤ b.toNat ∧ b.toNat ≤ 191 := by
  simp [isCont, UInt8.le_iff_toNat_le]

theorem utf8Width_eq (b : UInt8) : utf8Width b =
    if b.toNat < 128 then 1 else if 194 ≤ b.toNat ∧ b.toNat ≤ 223 then 2
    else if 224 ≤ b.toNat ∧ b.toNat ≤ 239 then 3 else if 240 ≤ b.toNat ∧ b.toNat ≤ 244 then 4 else 0 := by
  simp [utf8Width, UInt8.le_iff_toNat_le, UInt8.lt_iff_toNat_lt]

theorem second3_iff {b c : UInt8} : second3 b c = true ↔
    (b.toNat = 224 ∧ 160 ≤ c.toNat ∧ c.toNat ≤ 191) ∨
    (225 ≤ b.toNat ∧ b.toNat ≤ 236 ∧ 128 ≤ c.toNat ∧ c.toNat ≤ 191) ∨
    (b.toNat = 237 ∧ 128 ≤ c.toNat ∧ c.toNat ≤ 159) ∨
    (238 ≤ b.toNat ∧ b.toNat ≤ 239 ∧ 128 ≤ c.toNat ∧ c.toNat ≤ 191) := by
  simp [second3, UInt8.le_iff_toNat_le, ← UInt8.toNat_inj, or_assoc, and_assoc]

theorem second4_iff {b c : UInt8} : second4 b c = true ↔
    (b.toNat = 240 ∧ 144 ≤ c.toNat ∧ c.toNat ≤ 191) ∨
    (241 ≤ b.toNat ∧ b.toNat ≤ 243 ∧ 128 ≤ c.toNat ∧ c.toNat ≤ 191) ∨
    (b.toNat = 244 ∧ 128 ≤ c.toNat ∧ c.toNat ≤ 143) := by
  simp [second4, UInt8.le_iff_toNat_le, ← UInt8.toNat_inj, or_assoc, and_assoc]

/-- The four shapes of an encoded character. -/
theorem encodeChar_cases (c : Char) :
    (c.toNat < 0x80 ∧ ∃ b, String.utf8EncodeChar c = [b] ∧ b.toNat = c.toNat) ∨
    (0x80 ≤ c.toNat ∧ c.toNat < 0x800 ∧ ∃ b0 b1, String.utf8EncodeChar c = [b0, b1] ∧
      b0.toNat = 192 + c.toNat / 64 ∧ b1.toNat = 128 + c.toNat % 64) ∨
    (0x800 ≤ c.toNat ∧ c.toNat < 0x10000 ∧ ∃ b0 b1 b2, String.utf8EncodeChar c = [b0, b1, b2] ∧
      b0.toNat = 224 + c.toNat / 4096 ∧ b1.toNat = 128 + c.toNat / 64 % 64 ∧ b2.toNat = 128 + c.toNat % 64) ∨
    (0x10000 ≤ c.toNat ∧ ∃ b0 b1 b2 b3, String.utf8EncodeChar c = [b0, b1, b2, b3] ∧
      b0.toNat = 240 + c.toNat / 262144 ∧ b1.toNat = 128 + c.toNat / 4096 % 64 ∧
      b2.toNat = 128 + c.toNat / 64 % 64 ∧ b3.toNat = 128 + c.toNat % 64) := by
  have hv := char_valid c
  have e : c.val.toNat = c.toNat := rfl
  unfold String.utf8EncodeChar
  simp only [e]
  generalize c.toNat = v at hv
  by_cases h1 : v ≤ 0x7f
  · left
    refine ⟨by omega, UInt8.ofNat v, by simp [h1], ?_⟩
    rw [UInt8.toNat_ofNat']; omega
  · by_cases h2 : v ≤ 0x7ff
    · right; left
      refine ⟨by omega, by omega, _, _, by rw [if_neg h1, if_pos h2], ?_, ?_⟩ <;>
        (simp only [UInt8.toNat_ofNat']; omega)
    · by_cases h3 : v ≤ 0xffff
      · right; right; left
        refine ⟨by omega, by omega, _, _, _, by rw [if_neg h1, if_neg h2, if_pos h3], ?_, ?_, ?_⟩ <;>
          (simp only [UInt8.toNat_ofNat']; omega)
      · right; right; right
        refine ⟨by omega, _, _, _, _, by rw [if_neg h1, if_neg h2, if_neg h3], ?_, ?_, ?_, ?_⟩ <;>
          (simp only [UInt8.toNat_ofNat']; omega)

/-- A decoder step on an encoded character yields that character. -/
theorem utf8Step_enc (c : Char) (rest : List UInt8) :
    ∃ b tl, String.utf8EncodeChar c = b :: tl ∧ utf8Step b (tl ++ rest) = (some c, rest) := by
  have hv := char_valid c
  rcases encodeChar_cases c with ⟨h, b, e, hb⟩ | ⟨h1, h2, b0, b1, e, hb0, hb1⟩ |
    ⟨h1, h2, b0, b1, b2, e, hb0, hb1, hb2⟩ | ⟨h1, b0, b1, b2, b3, e, hb0, hb1, hb2, hb3⟩
  · refine ⟨b, [], e, ?_⟩
    have hw : utf8Width b = 1 := by rw [utf8Width_eq]; simp only [hb]; split <;> omega
    simp [utf8Step, hw, hb]
  · refine ⟨b0, [b1], e, ?_⟩
    have hw : utf8Width b0 = 2 := by rw [utf8Width_eq, if_neg (by omega), if_pos (by omega)]
    have hc1 : isCont b1 = true := isCont_iff.2 (by omega)
    have hch : char2 b0 b1 = c := by
      unfold char2
      rw [show b0.toNat % 32 * 64 + b1.toNat % 64 = c.toNat by omega, ofNat_toNat_char]
    simp [utf8Step, hw, hc1, hch]
  · refine ⟨b0, [b1, b2], e, ?_⟩
    have hw : utf8Width b0 = 3 := by
      rw [utf8Width_eq, if_neg (by omega), if_neg (by omega), if_pos (by omega)]
    have hc1 : second3 b0 b1 = true := second3_iff.2 (by omega)
    have hc2 : isCont b2 = true := isCont_iff.2 (by omega)
    have hch : char3 b0 b1 b2 = c := by
      unfold char3
      rw [show b0.toNat % 16 * 4096 + b1.toNat % 64 * 64 + b2.toNat % 64 = c.toNat by omega, ofNat_toNat_char]
    simp [utf8Step, hw, hc1, hc2, hch]
  · refine ⟨b0, [b1, b2, b3], e, ?_⟩
    have hw : utf8Width b0 = 4 := by
      rw [utf8Width_eq, if_neg (by omega), if_neg (by omega), if_neg (by omega), if_pos (by omega)]
    have hc1 : second4 b0 b1 = true := second4_iff.2 (by omega)
    have hc2 : isCont b2 = true := isCont_iff.2 (by omega)
    have hc3 : isCont b3 = true := isCont_iff.2 (by omega)
    have hch : char4 b0 b1 b2 b3 = c := by
      unfold char4
      rw [show b0.toNat % 8 * 262144 + b1.toNat % 64 * 4096 + b2.toNat % 64 * 64 + b3.toNat % 64 = c.toNat by omega,
        ofNat_toNat_char]
    simp [utf8Step, hw, hc1, hc2, hc3, hch]

/-- A successful decoder step consumed exactly the encoding of its character. -/
theorem utf8Step_some {b : UInt8} {rest : List UInt8} {c : Char} {r : List UInt8}
    (h : utf8Step b rest = (some c, r)) : b :: rest = String.utf8EncodeChar c ++ r := by
  have inj : ∀ {x y : UInt8}, x.toNat = y.toNat → x = y := fun h => UInt8.toNat_inj.1 h
  unfold utf8Step at h
  have hb := b.toNat_lt
  split at h
  · rename_i hw
    simp only [Prod.mk.injEq, Option.some.injEq] at h
    obtain ⟨rfl, rfl⟩ := h
    rw [utf8Width_eq] at hw
    have hlt : b.toNat < 128 := by
      by_cases h : b.toNat < 128
      · exact h
      · rw [if_neg h] at hw; split at hw <;> (try split at hw) <;> (try split at hw) <;> omega
    have hn : (Char.ofNat b.toNat).toNat = b.toNat := toNat_ofNat_char (by omega)
    rcases encodeChar_cases (Char.ofNat b.toNat) with ⟨_, b', e, h'⟩ | ⟨h1, _⟩ | ⟨h1, _⟩ | ⟨h1, _⟩ <;>
      rw [hn] at * <;> try omega
    rw [e, inj h'.symm]; rfl
  · rename_i hw
    split at h
    · rename_i c1 r1
      split at h
      · rename_i hc
        simp only [Prod.mk.injEq, Option.some.injEq] at h
        obtain ⟨rfl, rfl⟩ := h
        rw [isCont_iff] at hc
        rw [utf8Width_eq] at hw
        have hr : 194 ≤ b.toNat ∧ b.toNat ≤ 223 := by
          split at hw <;> (try split at hw) <;> (try split at hw) <;> (try split at hw) <;> omega
        have hn : (char2 b c1).toNat = (b.toNat % 32) * 64 + c1.toNat % 64 := toNat_ofNat_char (by omega)
        rcases encodeChar_cases (char2 b c1) with ⟨h1, _⟩ | ⟨_, _, b0, b1, e, h0, h1⟩ | ⟨h1, _⟩ | ⟨h1, _⟩ <;>
          rw [hn] at * <;> try omega
        rw [e, inj (x := b0) (y := b) (by omega), inj (x := b1) (y := c1) (by omega)]; rfl
      · simp at h
    · simp at h
  · rename_i hw
    split at h
    · rename_i c1 r1
      split at h
      · rename_i hc
        split at h
        · rename_i d r2
          split at h
          · rename_i hd
            simp only [Prod.mk.injEq, Option.some.injEq] at h
            obtain ⟨rfl, rfl⟩ := h
            rw [second3_iff] at hc
            rw [isCont_iff] at hd
            have hn : (char3 b c1 d).toNat = (b.toNat % 16) * 4096 + (c1.toNat % 64) * 64 + d.toNat % 64 :=
              toNat_ofNat_char (by omega)
            rcases encodeChar_cases (char3 b c1 d) with ⟨h1, _⟩ | ⟨_, h1, _⟩ | ⟨_, _, b0, b1, b2, e, h0, h1, h2⟩ | ⟨h1, _⟩ <;>
              rw [hn] at * <;> try omega
            rw [e, inj (x := b0) (y := b) (by omega), inj (x := b1) (y := c1) (by omega),
              inj (x := b2) (y := d) (by omega)]; rfl
          · simp at h
        · simp at h
      · simp at h
    · simp at h
  · rename_i hw
    split at h
    · rename_i c1 r1
      split at h
      · rename_i hc
        split at h
        · rename_i d r2
          split at h
          · rename_i hd
            split at h
            · rename_i f r3
              split at h
              · rename_i hf
                simp only [Prod.mk.injEq, Option.some.injEq] at h
                obtain ⟨rfl, rfl⟩ := h
                rw [second4_iff] at hc
                rw [isCont_iff] at hd hf
                have hn : (char4 b c1 d f).toNat = (b.toNat % 8) * 262144 + (c1.toNat % 64) * 4096 +
                    (d.toNat % 64) * 64 + f.toNat % 64 := toNat_ofNat_char (by omega)
                rcases encodeChar_cases (char4 b c1 d f) with ⟨h1, _⟩ | ⟨_, h1, _⟩ | ⟨_, h1, _⟩ |
                    ⟨_, b0, b1, b2, b3, e, h0, h1, h2, h3⟩ <;>
                  rw [hn] at * <;> try omega
                rw [e, inj (x := b0) (y := b) (by omega), inj (x := b1) (y := c1) (by omega),
                  inj (x := b2) (y := d) (by omega), inj (x := b3) (y := f) (by omega)]; rfl
              · simp at h
            · simp at h
          · simp at h
        · simp at h
      · simp at h
    · simp at h
  · simp at h

theorem utf8Step_len (b : UInt8) (rest : List UInt8) : (utf8Step b rest).2.length ≤ rest.length := by
  unfold utf8Step
  repeat' split
  all_goals simp
  all_goals omega

@[simp] theorem enc_nil : enc [] = [] := rfl
theorem enc_cons (c : Char) (s : Str) : enc (c :: s) = String.utf8EncodeChar c ++ enc s := by simp [enc]
theorem enc_append (s t : Str) : enc (s ++ t) = enc s ++ enc t := by simp [enc]

theorem utf8EncodeChar_length_pos (c : Char) : 0 < (String.utf8EncodeChar c).length := by
  obtain ⟨b, tl, h, _⟩ := utf8Step_enc c []
  rw [h]; simp

theorem lossyAux_enc_append (s : Str) (bs : List UInt8) : ∀ fuel, (enc s ++ bs).length ≤ fuel →
    ∃ fuel', bs.length ≤ fuel' ∧ lossyAux fuel (enc s ++ bs) = s ++ lossyAux fuel' bs := by
  induction s with
  | nil => intro fuel h; exact ⟨fuel, by simpa using h, rfl⟩
  | cons c s ih =>
    intro fuel h
    obtain ⟨b, tl, e, hs⟩ := utf8Step_enc c (enc s ++ bs)
    rw [enc_cons, e] at h ⊢
    cases fuel with
    | zero => simp at h
    | succ fuel =>
      obtain ⟨fuel', h1, h2⟩ := ih fuel (by simp at h ⊢; omega)
      refine ⟨fuel', h1, ?_⟩
      simp only [List.cons_append, lossyAux, List.append_assoc, hs, h2]

/-- Fuel does not matter once it covers the input. -/
theorem lossyAux_fuel (bs : List UInt8) : ∀ f g, bs.length ≤ f → bs.length ≤ g → lossyAux f bs = lossyAux g bs := by
  intro f
  induction f generalizing bs with
  | zero =>
    intro g hf _
    have : bs = [] := List.length_eq_zero_iff.1 (by omega)
    subst this; cases g <;> rfl
  | succ f ih =>
    intro g hf hg
    cases bs with
    | nil => cases g <;> rfl
    | cons b rest =>
      cases g with
      | zero => simp at hg
      | succ g =>
        have hl := utf8Step_len b rest
        simp only [List.length_cons] at hf hg
        simp only [lossyAux]
        generalize utf8Step b rest = x at hl
        obtain ⟨o, r⟩ := x
        simp only at hl
        cases o <;> simp [ih r g (by omega) (by omega)]

/-- Valid text before arbitrary bytes decodes to itself. -/
theorem lossy_enc_append (s : Str) (bs : List UInt8) : lossy (enc s ++ bs) = s ++ lossy bs := by
  obtain ⟨f, h1, h2⟩ := lossyAux_enc_append s bs _ (Nat.le_refl _)
  rw [lossy, h2, lossy, lossyAux_fuel bs f _ h1 (Nat.le_refl _)]

@[simp] theorem lossy_nil : lossy [] = [] := rfl

theorem lossy_enc (s : Str) : lossy (enc s) = s := by
  have := lossy_enc_append s []
  simpa using this

theorem enc_injective {s t : Str} (h : enc s = enc t) : s = t := by
  rw [← lossy_enc s, h, lossy_enc]

theorem fromUtf8Aux_enc (s : Str) : ∀ fuel, (enc s).length ≤ fuel → fromUtf8Aux fuel (enc s) = some s := by
  induction s with
  | nil => intro fuel _; cases fuel <;> rfl
  | cons c s ih =>
    intro fuel h
    obtain ⟨b, tl, e, hs⟩ := utf8Step_enc c (enc s)
    rw [enc_cons, e] at h ⊢
    cases fuel with
    | zero => simp at h
    | succ fuel =>
      simp only [List.cons_append, fromUtf8Aux, hs, ih fuel (by simp at h ⊢; omega), Option.map_some]

theorem fromUtf8_enc (s : Str) : fromUtf8 (enc s) = some s := fromUtf8Aux_enc s _ (Nat.le_refl _)

theorem fromUtf8Aux_some : ∀ fuel (bs : List UInt8) (s : Str), fromUtf8Aux fuel bs = some s → bs = enc s := by
  intro fuel
  induction fuel with
  | zero =>
    intro bs s h
    cases bs with
    | nil => simp only [fromUtf8Aux, Option.some.injEq] at h; subst h; rfl
    | cons b rest => simp [fromUtf8Aux] at h
  | succ fuel ih =>
    intro bs s h
    cases bs with
    | nil => simp only [fromUtf8Aux, Option.some.injEq] at h; subst h; rfl
    | cons b rest =>
      simp only [fromUtf8Aux] at h
      split at h
      · rename_i c r hst
        simp only [Option.map_eq_some_iff] at h
        obtain ⟨s', h1, rfl⟩ := h
        rw [enc_cons, utf8Step_some hst, ih _ _ h1]
      · simp at h

/-- Strict decoding accepts exactly the encodings. -/
theorem fromUtf8_iff {bs : List UInt8} {s : Str} : fromUtf8 bs = some s ↔ bs = enc s :=
  ⟨fromUtf8Aux_some _ bs s, fun h => h ▸ fromUtf8_enc s⟩

/-- Where strict decoding succeeds, lossy decoding agrees with it. -/
theorem lossy_of_fromUtf8 {bs : List UInt8} {s : Str} (h : fromUtf8 bs = some s) : lossy bs = s := by
  rw [fromUtf8_iff.1 h, lossy_enc]

/-- No byte of an encoding exceeds 0xF4. -/
theorem enc_byte_le (s : Str) : ∀ b ∈ enc s, b.toNat ≤ 0xF4 := by
  intro b hb
  obtain ⟨c, _, hc⟩ := List.mem_flatMap.1 hb
  have hv := char_valid c
  rcases encodeChar_cases c with ⟨h, b', e, h'⟩ | ⟨h1, h2, b0, b1, e, h0, h1'⟩ |
    ⟨h1, h2, b0, b1, b2, e, hb0, hb1, hb2⟩ | ⟨h1, b0, b1, b2, b3, e, hb0, hb1, hb2, hb3⟩ <;>
    rw [e] at hc <;> simp only [List.mem_cons, List.not_mem_nil, or_false] at hc <;>
    rcases hc with rfl | rfl | rfl | rfl <;> omega

end Tokengeex
